import Verif.Deque.Ops
/- Iteration, clear, clone, equality and the lemma about one call. -/
namespace Verif.Deque
open Common (land nextPow2)
variable {α : Type}

/-- The iterator standing at index `i` of a deque with `start = s`, `capmask = c`, size `n`. -/
def iterOf (s c n i : Nat) : Iter :=
  ⟨if i < n then some ((s + i) % (c + 1)) else none, (s + i) % (c + 1)⟩

theorem next_view {d : Deque α} {s c n i : Nat} {V : Buf α} (h : View d s c V n) (hi : i < n) :
    next d (iterOf s c n i) = some (iterOf s c n (i + 1)) := by
  have hlen := h.len
  have hst := h.start
  have hp : (s + i) % (c + 1) < c + 1 := Nat.mod_lt _ (by omega)
  have hfin : ((s + (i + 1)) % (c + 1) = d.fin) ↔ i + 1 = n := by
    rw [h.fin]
    constructor
    · exact fun hh => mod_inj (by omega) (by omega) hh
    · rintro rfl; rfl
  simp only [next, iterOf, if_pos hi, Option.bind_eq_bind, Option.bind_some, h.hc]
  have hnext : (s + (i + 1)) % (c + 1) = if (s + i) % (c + 1) ≠ c then (s + i) % (c + 1) + 1 else 0 := by
    rw [← Nat.add_assoc, ← Nat.mod_add_mod]
    by_cases he : (s + i) % (c + 1) = c
    · simp [he]
    · rw [if_pos he, Nat.mod_eq_of_lt (by omega)]
  by_cases he : (s + i) % (c + 1) = c
  · simp only [he, ne_eq, not_true_eq_false, if_false] at hnext ⊢
    rw [hnext] at hfin ⊢
    by_cases hn : i + 1 = n
    · simp [hfin.2 hn, hn]
    · have : i + 1 < n := by omega
      rw [if_neg (fun hh => hn (hfin.1 hh)), if_pos this]; simp
  · simp only [he, ne_eq, not_false_eq_true, if_true] at hnext ⊢
    rw [hnext] at hfin ⊢
    by_cases hn : i + 1 = n
    · simp [hfin.2 hn, hn]
    · have : i + 1 < n := by omega
      rw [if_neg (fun hh => hn (hfin.1 hh)), if_pos this]

theorem begin_view {d : Deque α} {s c n : Nat} {V : Buf α} (h : View d s c V n) :
    begin d = iterOf s c n 0 := by
  have hlen := h.len
  have hst := h.start
  have he : isEmpty d = true ↔ n = 0 := by
    rw [isEmpty, beq_iff_eq, h.hs, h.fin]
    constructor
    · intro hh
      exact (mod_inj (N := c + 1) (s := s) (i := 0) (by omega) (by omega) (by rw [mod_self_add (by omega)]; exact hh)).symm
    · rintro rfl
      rw [mod_self_add (by omega)]
  simp only [begin, iterOf, h.hs]
  rw [mod_self_add (by omega)]
  by_cases hn : n = 0
  · simp [he.2 hn, hn]
  · have : isEmpty d = false := by
      cases hh : isEmpty d
      · rfl
      · exact absurd (he.1 hh) hn
    simp [this, Nat.pos_of_ne_zero hn]

theorem eachFrom_view {d : Deque α} {s c : Nat} {V : Buf α} {l : List α} (h : View d s c V l.length)
    (ht : V.take l.length = l.map some) (k : Nat) :
    ∀ i fuel, i + k = l.length → k ≤ fuel → eachFrom d fuel (iterOf s c l.length i) = some (l.drop i) := by
  have hlen := h.len
  obtain ⟨b, hb, hb1, hb2⟩ := h.blk
  induction k with
  | zero =>
    intro i fuel hi _
    have : iterOf s c l.length i = ⟨none, (s + i) % (c + 1)⟩ := by simp [iterOf]; omega
    cases fuel <;> simp [eachFrom, this] <;> omega
  | succ k ih =>
    intro i fuel hi hf
    obtain ⟨fuel, rfl⟩ : ∃ f, fuel = f + 1 := ⟨fuel - 1, by omega⟩
    have hil : i < l.length := by omega
    have href : (iterOf s c l.length i).ref = some ((s + i) % (c + 1)) := by simp [iterOf, hil]
    have hrd : b.rd ((s + i) % (c + 1)) = some l[i] := by
      rw [rd_rotate hb1 (by omega), hb2, rd_map ht hil]
    rw [eachFrom]
    simp only [href, hb, Option.bind_eq_bind, Option.bind_some, hrd, next_view h hil, ih (i + 1) fuel (by omega) (by omega)]
    rw [← List.drop_eq_getElem_cons hil]

theorem each_spec {d : Deque α} {l : List α} (h : Rep d l) (fuel : Nat) (hf : l.length ≤ fuel) :
    each d fuel = some l := by
  by_cases hl : l = []
  · subst hl
    have hb : (begin d).ref = none := by simp [begin, h.isEmpty.2]
    cases fuel <;> simp [each, eachFrom, hb]
  · obtain ⟨b, hb, _⟩ := h.blk_of_ne hl
    obtain ⟨V, hV, ht⟩ := h.view (by simp [hb])
    rw [each, begin_view hV, eachFrom_view hV ht l.length 0 fuel (by omega) hf]
    rfl

theorem rnext_view {d : Deque α} {s c n i : Nat} {V : Buf α} (h : View d s c V n) (hi : i + 1 < n) :
    rnext d (iterOf s c n (i + 1)) = some (iterOf s c n i) := by
  have hlen := h.len
  have hst := h.start
  have hne : (s + (i + 1)) % (c + 1) ≠ s := by
    intro hh
    have : i + 1 = 0 := mod_inj (N := c + 1) (s := s) (by omega) (by omega) (by
      rw [hh, mod_self_add (by omega)])
    omega
  have hprev : (s + (i + 1)) % (c + 1) = if (s + i) % (c + 1) ≠ c then (s + i) % (c + 1) + 1 else 0 := by
    rw [← Nat.add_assoc, ← Nat.mod_add_mod]
    have hp : (s + i) % (c + 1) < c + 1 := Nat.mod_lt _ (by omega)
    by_cases he : (s + i) % (c + 1) = c
    · simp [he]
    · rw [if_pos he, Nat.mod_eq_of_lt (by omega)]
  have hi' : i < n := by omega
  simp only [rnext, iterOf, if_pos hi, if_pos hi', Option.bind_eq_bind, Option.bind_some, h.hs, h.hc, if_neg hne]
  by_cases he : (s + i) % (c + 1) = c
  · simp only [he, ne_eq, not_true_eq_false, if_false] at hprev
    simp [hprev, he]
  · simp only [he, ne_eq, not_false_eq_true, if_true] at hprev
    simp [hprev]

theorem rnext_first {d : Deque α} {s c n : Nat} {V : Buf α} (h : View d s c V n) (hn : 0 < n) :
    rnext d (iterOf s c n 0) = some ⟨none, s⟩ := by
  have hst := h.start
  simp only [rnext, iterOf, if_pos hn, mod_self_add (show s < c + 1 by omega), Option.bind_eq_bind, Option.bind_some,
    h.hs, if_true]

theorem rbegin_view {d : Deque α} {s c n : Nat} {V : Buf α} (h : View d s c V n) (hn : 0 < n) :
    rbegin d = iterOf s c n (n - 1) := by
  obtain ⟨k, hk⟩ := h.pow
  have hlen := h.len
  have hst := h.start
  have he : isEmpty d = false := by
    cases hh : isEmpty d
    · rfl
    · rw [isEmpty, beq_iff_eq, h.hs, h.fin] at hh
      have := mod_inj (N := c + 1) (s := s) (i := 0) (j := n) (by omega) (by omega) (by rw [mod_self_add (by omega)]; exact hh)
      omega
  have hp : land ((d.fin : Int) - 1) c = (s + (n - 1)) % (c + 1) := by
    rw [h.fin]
    have := land_dec (s := s + n) (n := 1) hk (by omega)
    simp only [Nat.cast_one] at this
    rw [this]; congr 1; omega
  have : n - 1 < n := by omega
  simp [rbegin, iterOf, he, h.hc, hp, this]

theorem revFrom_view {d : Deque α} {s c : Nat} {V : Buf α} {l : List α} (h : View d s c V l.length)
    (ht : V.take l.length = l.map some) (i : Nat) :
    ∀ fuel, i < l.length → i + 1 ≤ fuel →
      revFrom d fuel (iterOf s c l.length i) = some (l.take (i + 1)).reverse := by
  have hlen := h.len
  obtain ⟨b, hb, hb1, hb2⟩ := h.blk
  induction i with
  | zero =>
    intro fuel hil hf
    obtain ⟨fuel, rfl⟩ : ∃ f, fuel = f + 1 := ⟨fuel - 1, by omega⟩
    have href : (iterOf s c l.length 0).ref = some ((s + 0) % (c + 1)) := by simp [iterOf, hil]
    have hrd : b.rd ((s + 0) % (c + 1)) = some l[0] := by
      rw [rd_rotate hb1 (by omega), hb2, rd_map ht hil]
    rw [revFrom]
    simp only [href, hb, Option.bind_eq_bind, Option.bind_some, hrd, rnext_first h hil]
    have : revFrom d fuel ⟨none, s⟩ = some [] := by cases fuel <;> simp [revFrom]
    rw [this]
    simp only [Option.bind_some]
    rw [List.take_add_one, List.getElem?_eq_getElem hil]
    simp
  | succ i ih =>
    intro fuel hil hf
    obtain ⟨fuel, rfl⟩ : ∃ f, fuel = f + 1 := ⟨fuel - 1, by omega⟩
    have href : (iterOf s c l.length (i + 1)).ref = some ((s + (i + 1)) % (c + 1)) := by simp [iterOf, hil]
    have hrd : b.rd ((s + (i + 1)) % (c + 1)) = some l[i + 1] := by
      rw [rd_rotate hb1 (by omega), hb2, rd_map ht hil]
    rw [revFrom]
    simp only [href, hb, Option.bind_eq_bind, Option.bind_some, hrd, rnext_view h hil, ih fuel (by omega) (by omega)]
    have : l.take (i + 1 + 1) = l.take (i + 1) ++ [l[i + 1]] := by
      rw [List.take_add_one (i := i + 1), List.getElem?_eq_getElem hil]; rfl
    rw [this, List.reverse_append]
    rfl

theorem eachReverse_spec {d : Deque α} {l : List α} (h : Rep d l) (fuel : Nat) (hf : l.length ≤ fuel) :
    eachReverse d fuel = some l.reverse := by
  by_cases hl : l = []
  · subst hl
    have hb : (rbegin d).ref = none := by simp [rbegin, h.isEmpty.2]
    cases fuel <;> simp [eachReverse, revFrom, hb]
  · obtain ⟨b, hb, _⟩ := h.blk_of_ne hl
    obtain ⟨V, hV, ht⟩ := h.view (by simp [hb])
    have hpos := List.length_pos_iff.2 hl
    rw [eachReverse, rbegin_view hV hpos, revFrom_view hV ht (l.length - 1) fuel (by omega) (by omega)]
    rw [List.take_of_length_le (by omega)]

theorem advance_view {d : Deque α} {s c n i k : Nat} {V : Buf α} (h : View d s c V n) (hi : i < n) :
    advance d (iterOf s c n i) k = some (iterOf s c n (i + k)) := by
  obtain ⟨q, hq⟩ := h.pow
  have hlen := h.len
  have hst := h.start
  have hidx : toidx d ((s + i) % (c + 1)) = i := by
    rw [toidx, h.hs, h.hc, land_sub hq, Nat.mod_eq_of_lt (by omega)]
  have hpos : land ((((s + i) % (c + 1) : Nat) : Int) + k) c = (s + (i + k)) % (c + 1) := by
    rw [land_inc hq, Nat.add_assoc]
  simp only [advance, iterOf, if_pos hi, Option.bind_eq_bind, Option.bind_some, hidx, h.size, h.hc, hpos]
  by_cases hk : i + k < n
  · simp only [if_pos hk]
    congr 3; omega
  · simp only [if_neg hk]

theorem clearFrom_view {s c n : Nat} (k : Nat) : ∀ {d : Deque α} {V : Buf α} (_ : View d s c V n)
    (m : List α) (i fuel : Nat), (V.drop i).take m.length = m.map some → i + m.length = n → m.length = k → k ≤ fuel →
    ∃ d' V', clearFrom d fuel (iterOf s c n i) = some d' ∧ View d' s c V' n ∧
      d'.dropped = d.dropped ++ m := by
  induction k with
  | zero =>
    intro d V h m i fuel hm hi hk hf
    have hm0 : m = [] := List.length_eq_zero_iff.1 hk
    subst hm0
    have : iterOf s c n i = ⟨none, (s + i) % (c + 1)⟩ := by simp [iterOf]; simp at hi; omega
    refine ⟨d, V, ?_, h, by simp⟩
    cases fuel <;> simp [clearFrom, this]
  | succ k ih =>
    intro d V h m i fuel hm hi hk hf
    obtain ⟨fuel, rfl⟩ : ∃ f, fuel = f + 1 := ⟨fuel - 1, by omega⟩
    cases m with
    | nil => simp at hk
    | cons x m =>
      simp only [List.length_cons, List.map_cons] at hm hi hk
      obtain ⟨h1, h2⟩ := rd_drop_take hm
      have hlen := h.len
      have hin : i < n := by omega
      obtain ⟨b, hb, hb1, hb2⟩ := h.blk
      have href : (iterOf s c n i).ref = some ((s + i) % (c + 1)) := by simp [iterOf, hin]
      have hrd : b.rd ((s + i) % (c + 1)) = some x := by rw [rd_rotate hb1 (by omega), hb2, h1]
      have hV1 := h.update (i := i) (by omega) none hb (d.dropped ++ [x])
      obtain ⟨d2, V2, f1, f2, f3⟩ := ih hV1 m (i + 1) fuel
        (by rw [List.drop_set_of_lt (by omega), h2]) (by omega) (by omega) (by omega)
      refine ⟨d2, V2, ?_, f2, by rw [f3]; simp⟩
      rw [clearFrom]
      simp only [href, hb, Option.bind_eq_bind, Option.bind_some, Buf.kill, hrd, Option.map_some, next_view hV1 hin]
      exact f1

theorem clear_spec {d : Deque α} {l : List α} (h : Rep d l) :
    ∃ d', clear d = some d' ∧ Rep d' [] ∧ d'.dropped = d.dropped ++ l := by
  by_cases hl : l = []
  · subst hl
    have hb : (begin d).ref = none := by simp [begin, h.isEmpty.2]
    refine ⟨{ d with start := 0, fin := 0 }, ?_, ⟨h.pow, Nat.zero_le _, Nat.zero_le _, by simp, h.null, ?_⟩, by simp⟩
    · simp [clear, clearFrom, hb]
    · intro b hb
      exact ⟨(h.blk b hb).1, by simp⟩
  · obtain ⟨b, hb, _⟩ := h.blk_of_ne hl
    obtain ⟨V, hV, ht⟩ := h.view (by simp [hb])
    obtain ⟨d1, V1, e1, e2, e3⟩ := clearFrom_view l.length hV l 0 (d.capmask + 1) (by simpa using ht) (by omega) rfl
      (by have := h.len; omega)
    obtain ⟨b1, hb1, hb2, _⟩ := e2.blk
    refine ⟨{ d1 with start := 0, fin := 0 }, ?_, ⟨?_, Nat.zero_le _, Nat.zero_le _, by simp, ?_, ?_⟩, e3⟩
    · simp [clear, begin_view hV, e1]
    · simpa [e2.hc] using h.pow
    · simp [hb1]
    · intro b' hb'
      simp only [hb1, Option.some.injEq] at hb'
      subst hb'
      exact ⟨by simp [hb2, e2.hc], by simp⟩

/-! ### shrink, clone -/

theorem withCapacity_spec (ok : Bool) (cap : Nat) (hf : fits cap) :
    ∃ d : Deque α, withCapacity ok cap = some d ∧ d.start = 0 ∧ (∃ k, d.capmask + 1 = 2 ^ k) ∧
      (d.cbuf = none → (cap = 0 ∨ ok = false) ∧ d.capmask = 0) ∧
      ∀ b, d.cbuf = some b → b.length = d.capmask + 1 ∧ cap ≤ d.capmask ∧ ok = true := by
  obtain ⟨⟨j, hj⟩, hge, _⟩ := Common.next_pow2_least (cap + 1) (by omega) (by unfold fits at hf; omega)
  unfold withCapacity reserve
  simp only [guard_pos hf, Option.bind_eq_bind, Option.bind_some, init, Nat.zero_add]
  by_cases h1 : nextPow2 (cap + 1) ≤ 1
  · rw [if_pos h1]
    exact ⟨_, rfl, rfl, ⟨0, rfl⟩, fun _ => ⟨.inl (by omega), rfl⟩, by simp⟩
  · rw [if_neg h1]
    cases ok
    · exact ⟨_, rfl, rfl, ⟨0, rfl⟩, fun _ => ⟨.inr rfl, rfl⟩, fun b hb => by simp at hb⟩
    · simp only [Bool.true_eq_false, if_false, Nat.le_refl, if_true, Option.getD_none, Option.bind_some]
      refine ⟨_, rfl, rfl, ⟨j, by simp only; omega⟩, by simp, ?_⟩
      intro b hb
      simp only [Option.some.injEq] at hb
      subst hb
      exact ⟨by simp; omega, by simp only; omega, trivial⟩

theorem fillFrom_spec (xs : List α) : ∀ (b : Buf α) (j : Nat), j + xs.length ≤ b.length →
    ∃ b', fillFrom b j xs = some b' ∧ b'.length = b.length ∧ b'.take (j + xs.length) = b.take j ++ xs.map some := by
  induction xs with
  | nil => intro b j _; exact ⟨b, rfl, rfl, by simp⟩
  | cons x xs ih =>
    intro b j hj
    simp only [List.length_cons] at hj
    obtain ⟨b', e1, e2, e3⟩ := ih (b.set j (some x)) (j + 1) (by simp; omega)
    refine ⟨b', ?_, by simpa using e2, ?_⟩
    · simp only [fillFrom, Buf.wr, if_pos (show j < b.length by omega), Option.bind_eq_bind, Option.bind_some, e1]
    · have : j + (x :: xs).length = j + 1 + xs.length := by simp; omega
      rw [this, e3, List.take_add_one, List.take_set_of_le (by omega), List.getElem?_set_self (by omega)]
      simp

theorem rep_filled {b : Buf α} {l : List α} {c k : Nat} (hk : c + 1 = 2 ^ k) (hb : b.length = c + 1)
    (hc : l.length ≤ c) (ht : b.take l.length = l.map some) (log : List α) :
    Rep ⟨some b, 0, l.length, c, log⟩ l := by
  refine ⟨⟨k, hk⟩, Nat.zero_le _, hc, ?_, by simp, ?_⟩
  · simp only [Nat.zero_add]; rw [Nat.mod_eq_of_lt (by omega)]
  · intro b' hb'
    simp only [Option.some.injEq] at hb'
    subst hb'
    exact ⟨hb, by simpa using ht⟩

theorem shrink_spec {d : Deque α} {l : List α} (h : Rep d l) (ok : Bool) (hl : l.length < 2 ^ 61) :
    ∃ d', shrinkToFit ok d = some d' ∧ Rep d' l ∧ d'.dropped = d.dropped := by
  unfold shrinkToFit
  simp only [h.size]
  split
  · exact ⟨d, rfl, h, rfl⟩
  · obtain ⟨out, e1, e2, ⟨k, hk⟩, e4, e5⟩ := withCapacity_spec (α := α) ok l.length (by unfold fits; omega)
    simp only [e1, Option.bind_eq_bind, Option.bind_some]
    cases hb : out.cbuf with
    | none => exact ⟨d, rfl, h, rfl⟩
    | some b =>
      obtain ⟨f1, f2, f3⟩ := e5 b hb
      obtain ⟨b', g1, g2, g3⟩ := fillFrom_spec l b 0 (by omega)
      simp only [each_spec h (d.capmask + 1) (by have := h.len; omega), Option.bind_some, g1]
      refine ⟨_, rfl, ?_, rfl⟩
      rw [e2]
      exact rep_filled hk (by omega) f2 (by simpa using g3) _

theorem clone_spec {d : Deque α} {l : List α} (h : Rep d l) (ok : Bool) (hl : l.length < 2 ^ 61)
    (hok : ok = true ∨ l = []) : ∃ d', clone ok d = some d' ∧ Rep d' l ∧ d'.dropped = [] := by
  unfold clone
  obtain ⟨out, e1, e2, ⟨k, hk⟩, e4, e5⟩ := withCapacity_spec (α := α) ok l.length (by unfold fits; omega)
  simp only [h.size, e1, Option.bind_eq_bind, Option.bind_some]
  cases hb : out.cbuf with
  | none =>
    obtain ⟨a1, a2⟩ := e4 hb
    have hl0 : l = [] := by
      rcases hok with h1 | h1
      · rcases a1 with h2 | h2
        · exact List.length_eq_zero_iff.1 h2
        · simp [h1] at h2
      · exact h1
    subst hl0
    refine ⟨_, rfl, ?_, rfl⟩
    rw [a2]
    exact rep_init
  | some b =>
    obtain ⟨f1, f2, f3⟩ := e5 b hb
    obtain ⟨b', g1, g2, g3⟩ := fillFrom_spec l b 0 (by omega)
    simp only [each_spec h (d.capmask + 1) (by have := h.len; omega), Option.bind_some, g1]
    exact ⟨_, rfl, rep_filled hk (by omega) f2 (by simpa using g3) _, rfl⟩

/-- The iterator after `n` calls of `next`. -/
def nexts (d : Deque α) (it : Iter) : Nat → Option Iter
  | 0 => some it
  | n + 1 => (nexts d it n).bind (next d)

theorem nexts_view {d : Deque α} {s c n i : Nat} {V : Buf α} (h : View d s c V n) (k : Nat) (hk : i + k ≤ n) :
    nexts d (iterOf s c n i) k = some (iterOf s c n (i + k)) := by
  induction k with
  | zero => rfl
  | succ k ih => rw [nexts, ih (by omega), Option.bind_some, next_view h (by omega)]; rfl

theorem nexts_begin {d : Deque α} {l : List α} (h : Rep d l) (i : Nat) (hi : i ≤ l.length) :
    nexts d (begin d) i = some (iterOf d.start d.capmask l.length i) := by
  by_cases hd : d.cbuf = none
  · have h1 := h.null hd
    have h2 := h.len
    have h3 := h.start
    have h0 : l = [] := List.length_eq_zero_iff.1 (by omega)
    subst h0
    simp at hi
    subst hi
    have : d.start = 0 := by omega
    simp [nexts, begin, h.isEmpty.2, iterOf, h1, this]
  · obtain ⟨V, hV, _⟩ := h.view hd
    rw [begin_view hV, nexts_view hV i (by omega), Nat.zero_add]

/-- Reading `*it.ref`. -/
def deref (d : Deque α) (it : Iter) : Option α := do
  let b ← d.cbuf
  let r ← it.ref
  b.rd r

theorem deref_iterOf {d : Deque α} {l : List α} (h : Rep d l) (i : Nat) :
    deref d (iterOf d.start d.capmask l.length i) = l[i]? := by
  by_cases hi : i < l.length
  · obtain ⟨b, hb, hb1, hb2⟩ := h.blk_of_ne (by intro h0; simp [h0] at hi)
    have hlen := h.len
    simp only [deref, hb, iterOf, if_pos hi, Option.bind_eq_bind, Option.bind_some]
    rw [rd_rotate hb1 (by omega), Buf.rd_of_take hb2 hi]
  · simp only [deref, iterOf, if_neg hi]
    cases d.cbuf <;> simp <;> omega

theorem eqFrom_view {d e : Deque α} {s c s' c' : Nat} {V W : Buf α} {l m : List α} (eq : α → α → Bool)
    (h : View d s c V l.length) (ht : V.take l.length = l.map some)
    (h' : View e s' c' W m.length) (ht' : W.take m.length = m.map some) (hlm : l.length = m.length) (k : Nat) :
    ∀ i fuel, i + k = l.length → k ≤ fuel →
      ∃ r, eqFrom d e eq fuel (iterOf s c l.length i) (iterOf s' c' m.length i) = some r ∧
        (r = true ↔ ∀ (j : Nat), i ≤ j → ∀ x y, l[j]? = some x → m[j]? = some y → eq x y = true) := by
  have hlen := h.len
  have hlen' := h'.len
  obtain ⟨b, hb, hb1, hb2⟩ := h.blk
  obtain ⟨b', hb', hb1', hb2'⟩ := h'.blk
  induction k with
  | zero =>
    intro i fuel hi _
    have : iterOf s c l.length i = ⟨none, (s + i) % (c + 1)⟩ := by simp [iterOf]; omega
    refine ⟨true, by cases fuel <;> simp [eqFrom, this], ?_⟩
    simp only [true_iff]
    intro j hj x y hx
    rw [List.getElem?_eq_none (by omega)] at hx
    simp at hx
  | succ k ih =>
    intro i fuel hi hf
    obtain ⟨fuel, rfl⟩ : ∃ f, fuel = f + 1 := ⟨fuel - 1, by omega⟩
    have hil : i < l.length := by omega
    have him : i < m.length := by omega
    have href : (iterOf s c l.length i).ref = some ((s + i) % (c + 1)) := by simp [iterOf, hil]
    have href' : (iterOf s' c' m.length i).ref = some ((s' + i) % (c' + 1)) := by simp [iterOf, him]
    have hrd : b.rd ((s + i) % (c + 1)) = some l[i] := by
      rw [rd_rotate hb1 (by omega), hb2, rd_map ht hil]
    have hrd' : b'.rd ((s' + i) % (c' + 1)) = some m[i] := by
      rw [rd_rotate hb1' (by omega), hb2', rd_map ht' him]
    rw [eqFrom]
    simp only [href, href', hb, hb', Option.bind_eq_bind, Option.bind_some, hrd, hrd', next_view h hil, next_view h' him]
    by_cases heq : eq l[i] m[i] = true
    · rw [if_pos heq]
      obtain ⟨r, e1, e2⟩ := ih (i + 1) fuel (by omega) (by omega)
      refine ⟨r, e1, e2.trans ⟨fun hh j hj x y hx hy => ?_, fun hh j hj => hh j (by omega)⟩⟩
      rcases Nat.eq_or_lt_of_le hj with rfl | hlt
      · rw [List.getElem?_eq_getElem hil, Option.some.injEq] at hx
        rw [List.getElem?_eq_getElem him, Option.some.injEq] at hy
        rw [← hx, ← hy, heq]
      · exact hh j hlt x y hx hy
    · rw [if_neg heq]
      refine ⟨false, rfl, ?_⟩
      simp only [Bool.false_eq_true, false_iff]
      intro hh
      exact heq (hh i (Nat.le_refl _) _ _ (List.getElem?_eq_getElem hil) (List.getElem?_eq_getElem him))

/-! ### One call -/

theorem step_spec {d : Deque α} {l : List α} (h : Rep d l) (o : Op α) (hv : Spec.valid l o) :
    ∃ d' r, step d o = some (d', r) ∧ Rep d' (Spec.after l r.ok o) ∧ r.out = Spec.out l o ∧
      d'.dropped = d.dropped ++ Spec.destroyed l o := by
  cases o with
  | push ok x =>
    obtain ⟨d', r, e1, e2, e3, e4⟩ := push_spec h ok x hv
    refine ⟨d', ⟨r, none⟩, by simp [step, e1], ?_, rfl, by simp [Spec.destroyed, e2]⟩
    cases r
    · simpa [Spec.after, (e4 rfl).1] using h
    · simpa [Spec.after] using e3 rfl
  | pushFront ok x =>
    obtain ⟨d', r, e1, e2, e3, e4⟩ := pushFront_spec h ok x hv
    refine ⟨d', ⟨r, none⟩, by simp [step, e1], ?_, rfl, by simp [Spec.destroyed, e2]⟩
    cases r
    · simpa [Spec.after, (e4 rfl).1] using h
    · simpa [Spec.after] using e3 rfl
  | pop =>
    cases l with
    | nil => exact absurd rfl hv
    | cons x l =>
      obtain ⟨d', e1, e2, e3⟩ := pop_spec h
      exact ⟨d', ⟨true, none⟩, by simp [step, e1], by simpa [Spec.after] using e2, rfl, by simp [Spec.destroyed, e3]⟩
  | pull =>
    cases l with
    | nil => exact absurd rfl hv
    | cons x l =>
      obtain ⟨d', e1, e2, e3⟩ := pull_spec h
      exact ⟨d', ⟨true, some x⟩, by simp [step, e1], by simpa [Spec.after] using e2, rfl, by simp [Spec.destroyed, e3]⟩
  | popBack =>
    have hv' : l ≠ [] := hv
    rw [← List.dropLast_concat_getLast hv'] at h
    obtain ⟨d', e1, e2, e3⟩ := popBack_spec h
    exact ⟨d', ⟨true, none⟩, by simp [step, e1], by simpa [Spec.after] using e2, rfl,
      by simp [Spec.destroyed, e3, List.getLast?_eq_some_getLast hv']⟩
  | pullBack =>
    have hv' : l ≠ [] := hv
    rw [← List.dropLast_concat_getLast hv'] at h
    obtain ⟨d', e1, e2, e3⟩ := pullBack_spec h
    exact ⟨d', ⟨true, some (l.getLast hv')⟩, by simp [step, e1], by simpa [Spec.after] using e2,
      by simp [Spec.out, List.getLast?_eq_some_getLast hv'], by simp [Spec.destroyed, e3]⟩
  | insertN ok idx arr =>
    obtain ⟨hv1, rfl, hv3⟩ := hv
    by_cases hne : l ≠ [] ∨ arr ≠ [] ∨ d.cbuf ≠ none
    · obtain ⟨d', it, e1, e2, e3, _⟩ := insertN_spec h idx arr hv1 hv3 hne
      exact ⟨d', ⟨it.ref.isSome, none⟩, by simp [step, e1], by simpa [Spec.after] using e2, rfl,
        by simp [Spec.destroyed, e3]⟩
    · push Not at hne
      obtain ⟨rfl, rfl, hd⟩ := hne
      simp at hv1
      subst hv1
      obtain ⟨d', r, e1, e2, e3, e4, e5⟩ := reserve_spec h true 0 (by unfold fits; omega)
      have hr : r = false := by
        cases r
        · rfl
        · have := h.null hd
          exfalso
          have : reserve true d 0 = some (d, false) := by
            have h1 : nextPow2 (0 + 1) ≤ d.capmask + 1 := by
              have : nextPow2 (0 + 1) = 1 := by decide
              omega
            simp only [reserve, guard_pos (show fits 0 by unfold fits; omega), Option.bind_eq_bind, Option.bind_some,
              if_pos h1, hd, Option.isSome_none]
          rw [this] at e1
          simp at e1
      subst hr
      refine ⟨d', ⟨false, none⟩, ?_, by simpa [Spec.after] using e2, rfl, by simp [Spec.destroyed, e3]⟩
      simp [step, insertN, insertUninit, h.size, h.null hd, e1, storeAll]
  | eraseN idx n =>
    obtain ⟨d', e1, e2, e3, _⟩ := eraseN_spec h idx n hv
    exact ⟨d', ⟨true, none⟩, by simp [step, e1], by simpa [Spec.after] using e2, rfl, by simp [Spec.destroyed, e3]⟩
  | reserve ok cap =>
    have hv' : cap < 2 ^ 61 := hv
    obtain ⟨d', r, e1, e2, e3, _⟩ := reserve_spec h ok cap (by unfold fits; omega)
    exact ⟨d', ⟨r, none⟩, by simp [step, e1], by simpa [Spec.after] using e2, rfl, by simp [Spec.destroyed, e3]⟩
  | shrinkToFit ok =>
    obtain ⟨d', e1, e2, e3⟩ := shrink_spec h ok hv
    exact ⟨d', ⟨true, none⟩, by simp [step, e1], by simpa [Spec.after] using e2, rfl, by simp [Spec.destroyed, e3]⟩
  | clear =>
    obtain ⟨d', e1, e2, e3⟩ := clear_spec h
    exact ⟨d', ⟨true, none⟩, by simp [step, e1], by simpa [Spec.after] using e2, rfl, by simp [Spec.destroyed, e3]⟩
  | replace i x =>
    obtain ⟨d', e1, e2, e3⟩ := setAt_spec h hv x
    have hv' : i < l.length := hv
    refine ⟨d', ⟨true, l[i]?⟩, ?_, by simpa [Spec.after] using e2, rfl, by simp [Spec.destroyed, e3]⟩
    simp [step, at_spec h, e1, List.getElem?_eq_getElem hv']

theorem reach_rep {d : Deque α} {l : List α} (h : Spec.Reach d l) : Rep d l := by
  induction h with
  | init => exact rep_init
  | call _ hv hs ih =>
    obtain ⟨d', r, e1, e2, _⟩ := step_spec ih _ hv
    rw [hs] at e1
    simp only [Option.some.injEq, Prod.mk.injEq] at e1
    obtain ⟨rfl, rfl⟩ := e1
    exact e2

end Verif.Deque
