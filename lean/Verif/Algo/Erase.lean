import Verif.Algo.Lemmas
import Verif.Vec.Lemmas
import Verif.Deque.Iter
import Verif.Smap.Seat
/- Erase-remove on vec, stack, deque and queue; erase-if on sorted maps. -/
namespace Verif.Algo
open Spec
variable {ι α : Type}

/-! ### buffers -/

theorem take_succ_set {b : Buf α} {K : List α} {x : α} (h : b.take K.length = K.map some) (hl : K.length < b.length) :
    (b.set K.length (some x)).take (K ++ [x]).length = (K ++ [x]).map some := by
  rw [List.length_append, List.length_singleton, List.take_succ_eq_append_getElem (by simpa using hl), List.map_append, List.map_singleton]
  congr 1
  · rw [List.take_set_of_le (Nat.le_refl _), h]
  · simp

theorem rd_drop {b : Buf α} {j : Nat} {x : α} {R : List α} (h : (b.drop j).take (x :: R).length = (x :: R).map some) : b.rd j = some x := by
  have h0 := congrArg (fun L => L[0]?) h
  simp only [List.length_cons, List.map_cons, List.getElem?_cons_zero] at h0
  rw [List.getElem?_take_of_lt (by omega), List.getElem?_drop, Nat.add_zero] at h0
  simp [Buf.rd, h0]

theorem drop_tail {b b' : Buf α} {j : Nat} {x : α} {R : List α} (h : (b.drop j).take (x :: R).length = (x :: R).map some)
    (hb : ∀ k, j < k → b'[k]? = b[k]?) : (b'.drop (j + 1)).take R.length = R.map some := by
  apply List.ext_getElem?
  intro k
  have h0 := congrArg (fun L => L[k + 1]?) h
  simp only [List.length_cons, List.map_cons, List.getElem?_cons_succ] at h0
  rw [← h0]
  by_cases hk : k < R.length
  · rw [List.getElem?_take_of_lt hk, List.getElem?_take_of_lt (by omega), List.getElem?_drop, List.getElem?_drop, hb _ (by omega)]
    congr 1; omega
  · rw [List.getElem?_eq_none (by simp; omega), List.getElem?_eq_none (by simp; omega)]

/-! ### vec -/

/-- The iterator at index `k` of a vec of `n` elements. -/
def vit (n k : Nat) : Vec.Iter := ⟨if k < n then some k else none, n⟩

theorem next_vit {n k : Nat} (h : k < n) : Vec.next (vit n k) = vit n (k + 1) := by
  simp only [vit, if_pos h, Vec.next]
  by_cases hk : k + 1 = n
  · rw [if_pos hk, if_neg (by omega)]
  · rw [if_neg hk, if_pos (by omega)]

theorem vec_yields {v : Vec.Vec α} {b : Buf α} {l : List α} (hd : v.data = some b) (h2 : b.take l.length = l.map some) :
    ∀ (R : List α) (j : Nat), l.drop j = R → Yields (vecWalker v) (vit l.length j) R := by
  intro R
  induction R with
  | nil =>
    intro j h
    have : l.length ≤ j := List.drop_eq_nil_iff.1 h
    exact .nil _ (by simp [vecWalker, vit]; omega)
  | cons x R ih =>
    intro j h
    have hj : j < l.length := by
      have := congrArg List.length h
      simp at this; omega
    have hx : l[j]? = some x := by
      have := congrArg (fun L => L[0]?) h
      simpa using this
    refine .cons _ (vit l.length (j + 1)) j x R (by simp [vecWalker, vit, hj]) ?_ (by simp only [vecWalker]; rw [next_vit hj]) (ih (j + 1) ?_)
    · simp only [vecWalker, vit, Vec.Vec.blk, hd, if_pos hj, Option.bind_eq_bind, Option.bind_some]
      rw [Buf.rd_of_take h2 hj, hx]
    · have := congrArg List.tail h
      simpa using this

theorem vec_begin {v : Vec.Vec α} {l : List α} (h : Vec.Rep v l) (hne : l ≠ [] ∨ v.data = none) : Vec.begin v = vit l.length 0 := by
  unfold Vec.begin vit
  cases hd : v.data with
  | none => simp [(h.null hd).2]
  | some b =>
    have hl : l ≠ [] := by
      rcases hne with h | h
      · exact h
      · simp [hd] at h
    have := List.length_pos_iff.2 hl
    simp [h.size, this]

theorem vec_yields_begin {v : Vec.Vec α} {l : List α} (h : Vec.Rep v l) (hne : l ≠ [] ∨ v.data = none) :
    Yields (vecWalker v) (Vec.begin v) l := by
  rw [vec_begin h hne]
  cases hd : v.data with
  | none =>
    obtain ⟨_, rfl⟩ := h.null hd
    exact .nil _ (by simp [vecWalker, vit])
  | some b => exact vec_yields hd (h.blk b hd).2.1 l 0 (by simp)

theorem skipKept_path {W : Walker ι α} {p : α → Bool} {it : ι} {xs : List α} (h : Yields W it xs) : ∀ f, xs.length < f →
    ∃ it' l, skipKept W p f it = some it' ∧ Path W it l it' ∧ xs = l.map Prod.snd ++ xs.drop l.length ∧ (∀ q ∈ l, p q.2 = false) ∧
      Yields W it' (xs.drop l.length) ∧ (∀ x R, xs.drop l.length = x :: R → p x = true) := by
  induction h with
  | nil it h =>
    intro f hf
    obtain ⟨f, rfl⟩ : ∃ g, f = g + 1 := ⟨f - 1, by omega⟩
    exact ⟨it, [], by rw [skipKept, h], .nil it, rfl, by simp, .nil it h, by simp⟩
  | cons it it' r x xs h1 h2 h3 hy ih =>
    intro f hf
    obtain ⟨f, rfl⟩ : ∃ g, f = g + 1 := ⟨f - 1, by omega⟩
    cases hx : p x with
    | true =>
      refine ⟨it, [], ?_, .nil it, rfl, by simp, .cons it it' r x xs h1 h2 h3 hy, ?_⟩
      · rw [skipKept, h1]; simp [h2, hx]
      · intro y R e; simp at e; rw [← e.1]; exact hx
    | false =>
      obtain ⟨j, l, e1, e2, e3, e4, e5, e6⟩ := ih f (by simp at hf; omega)
      refine ⟨j, (it, x) :: l, ?_, .cons it it' j r x l h1 h2 h3 e2, ?_, ?_, by simpa using e5, by simpa using e6⟩
      · rw [skipKept, h1]; simp [h2, hx, h3, e1]
      · rw [List.map_cons, List.length_cons, List.drop_succ_cons, List.cons_append, ← e3]
      · intro q hq
        rcases List.mem_cons.1 hq with rfl | hq
        · exact hx
        · exact e4 q hq

theorem path_vit {v : Vec.Vec α} {n : Nat} {it e : Vec.Iter} {l : List (Vec.Iter × α)} (h : Path (vecWalker v) it l e) :
    ∀ k, it = vit n k → e = vit n (k + l.length) := by
  induction h with
  | nil it => intro k hk; simpa using hk
  | cons it it' e r x l h1 h2 h3 hp ih =>
    intro k hk
    subst hk
    have hkn : k < n := by
      simp only [vecWalker, vit] at h1
      split at h1
      · assumption
      · cases h1
    simp only [vecWalker, next_vit hkn, Option.some.injEq] at h3
    rw [ih (k + 1) h3.symm, List.length_cons]
    congr 1; omega

theorem sweepVec_spec {p : α → Bool} : ∀ (R K : List α) (j n f : Nat) (v : Vec.Vec α) (b : Buf α), v.data = some b →
    b.take K.length = K.map some → (b.drop j).take R.length = R.map some → K.length ≤ j → j + R.length ≤ b.length → R.length < f →
    ∃ v' b', sweepVec p f v (vit (j + R.length) K.length) (vit (j + R.length) j) n = some (v', n + (R.filter p).length) ∧
      v'.data = some b' ∧ b'.length = b.length ∧ v'.size = v.size ∧ v'.cap = v.cap ∧ v'.dropped = v.dropped ++ R.filter p ∧
      b'.take (K ++ R.filter fun x => !p x).length = (K ++ R.filter fun x => !p x).map some := by
  intro R
  induction R with
  | nil =>
    intro K j n f v b hd h1 h2 h3 h4 hf
    obtain ⟨f, rfl⟩ : ∃ g, f = g + 1 := ⟨f - 1, by omega⟩
    refine ⟨v, b, ?_, hd, rfl, rfl, rfl, by simp, by simpa using h1⟩
    simp [sweepVec, vit]
  | cons x R ih =>
    intro K j n f v b hd h1 h2 h3 h4 hf
    obtain ⟨f, rfl⟩ : ∃ g, f = g + 1 := ⟨f - 1, by omega⟩
    simp only [List.length_cons] at h4 hf
    have hrd := rd_drop h2
    have hj : j < j + (R.length + 1) := by omega
    have hK : K.length < j + (R.length + 1) := by omega
    have hkill : b.kill j = some (x, b.set j none) := by simp [Buf.kill, hrd]
    have hlen : j + (x :: R).length = j + 1 + R.length := by simp; omega
    have en1 : Vec.next (vit (j + (R.length + 1)) j) = vit (j + 1 + R.length) (j + 1) := by
      rw [next_vit hj, show j + (R.length + 1) = j + 1 + R.length by omega]
    have en2 : Vec.next (vit (j + (R.length + 1)) K.length) = vit (j + 1 + R.length) (K.length + 1) := by
      rw [next_vit hK, show j + (R.length + 1) = j + 1 + R.length by omega]
    have e0 : vit (j + (R.length + 1)) K.length = vit (j + 1 + R.length) K.length := by rw [show j + (R.length + 1) = j + 1 + R.length by omega]
    have hr1 : (vit (j + (R.length + 1)) j).ref = some j := by simp [vit]
    have hr2 : (vit (j + (R.length + 1)) K.length).ref = some K.length := by simp only [vit]; rw [if_pos hK]
    cases hx : p x with
    | true =>
      have h1' : (b.set j none).take K.length = K.map some := by rw [List.take_set_of_le h3, h1]
      have h2' := drop_tail (b' := b.set j none) h2 (fun k hk => List.getElem?_set_ne (by omega))
      obtain ⟨v', b', g1, g2, g3, g4, g5, g6, g7⟩ := ih K (j + 1) (n + 1) f { v with data := some (b.set j none), dropped := v.dropped ++ [x] } (b.set j none) rfl h1' h2'
        (by omega) (by simp; omega) (by omega)
      refine ⟨v', b', ?_, g2, by simpa using g3, g4, g5, by simpa [hx] using g6, by simpa [hx] using g7⟩
      simp only [List.length_cons, sweepVec, hr1, Vec.Vec.blk, hd, hrd, hx, hkill, Option.bind_eq_bind, Option.bind_some, if_true, en1]
      rw [e0, g1]
      simp [hx]; omega
    | false =>
      have hKb : K.length < b.length := by omega
      have hwr : Buf.wr (b.set j none) K.length x = some ((b.set j none).set K.length (some x)) := by
        simp [Buf.wr, hKb]
      have h1' : ((b.set j none).set K.length (some x)).take (K ++ [x]).length = (K ++ [x]).map some :=
        take_succ_set (by rw [List.take_set_of_le h3, h1]) (by simpa using hKb)
      have h2' := drop_tail (b' := (b.set j none).set K.length (some x)) h2 (fun k hk => by
        rw [List.getElem?_set_ne (by omega), List.getElem?_set_ne (by omega)])
      obtain ⟨v', b', g1, g2, g3, g4, g5, g6, g7⟩ := ih (K ++ [x]) (j + 1) n f { v with data := some ((b.set j none).set K.length (some x)) } _ rfl h1' h2'
        (by simp; omega) (by simp; omega) (by omega)
      refine ⟨v', b', ?_, g2, by simpa using g3, g4, g5, by simpa [hx] using g6, by simpa [hx] using g7⟩
      simp only [List.length_cons, sweepVec, hr1, hr2, Vec.Vec.blk, hd, hrd, hx, hkill, hwr, Option.bind_eq_bind, Option.bind_some, Bool.false_eq_true, if_false, en1, en2]
      rw [List.length_append, List.length_singleton] at g1
      rw [g1]
      simp [hx]

theorem filter_kept {l : List (ι × α)} {p : α → Bool} (h : ∀ q ∈ l, p q.2 = false) :
    (l.map Prod.snd).filter p = [] ∧ ((l.map Prod.snd).filter fun x => !p x) = l.map Prod.snd := by
  constructor
  · rw [List.filter_eq_nil_iff]
    intro a ha
    obtain ⟨q, hq, rfl⟩ := List.mem_map.1 ha
    simp [h q hq]
  · rw [List.filter_eq_self]
    intro a ha
    obtain ⟨q, hq, rfl⟩ := List.mem_map.1 ha
    simp [h q hq]

theorem length_filter_add (p : α → Bool) (l : List α) : (l.filter p).length + (l.filter fun x => !p x).length = l.length := by
  induction l with
  | nil => rfl
  | cons x l ih => cases hx : p x <;> simp [hx] <;> omega

theorem eraseRemoveVec_spec {p : α → Bool} {v : Vec.Vec α} {l : List α} (h : Vec.Rep v l) (hne : l ≠ [] ∨ v.data = none) (f : Nat) (hf : l.length < f) :
    ∃ v', eraseRemoveVec p f v = some v' ∧ Vec.Rep v' (l.filter fun x => !p x) ∧ v'.dropped = v.dropped ++ l.filter p ∧ v'.cap = v.cap := by
  obtain ⟨it, kept, e1, e2, e3, e4, e5, e6⟩ := skipKept_path (p := p) (vec_yields_begin h hne) f hf
  have hit := path_vit (n := l.length) e2 0 (vec_begin h hne)
  rw [Nat.zero_add] at hit
  subst hit
  cases hd : v.data with
  | none =>
    obtain ⟨hc, rfl⟩ := h.null hd
    have hk : kept.length = 0 := by
      have := congrArg List.length e3
      simp at this; omega
    obtain ⟨f, rfl⟩ : ∃ g, f = g + 1 := ⟨f - 1, by omega⟩
    refine ⟨v, ?_, by simpa using h, by simp, rfl⟩
    have : sweepVec p (f + 1) v (vit ([] : List α).length kept.length) (vit ([] : List α).length kept.length) 0 = some (v, 0) := by
      simp [sweepVec, vit]
    simp only [eraseRemoveVec, e1, this, Option.bind_eq_bind, Option.bind_some]
    rw [guard_pos (Nat.zero_le _)]
    rfl
  | some b =>
    obtain ⟨hb1, hb2, hb3⟩ := h.blk b hd
    have hkl : kept.length ≤ l.length := by
      have := congrArg List.length e3
      simp at this; omega
    have hcap := h.le_cap
    have ht : b.take (kept.map Prod.snd).length = (kept.map Prod.snd).map some := by
      have h0 := congrArg (List.take (kept.map Prod.snd).length) hb2
      rw [List.take_take, Nat.min_eq_left (by simpa using hkl), e3] at h0
      rw [h0, List.map_append]
      exact List.take_left' (by simp)
    have hdrop : (b.drop kept.length).take (l.drop kept.length).length = (l.drop kept.length).map some := by
      have h0 := congrArg (List.drop kept.length) hb2
      rw [List.drop_take] at h0
      rw [List.length_drop, h0, List.map_drop]
    have hsum : kept.length + (l.drop kept.length).length = l.length := by rw [List.length_drop]; omega
    obtain ⟨v', b', g1, g2, g3, g4, g5, g6, g7⟩ := sweepVec_spec (p := p) (l.drop kept.length) (kept.map Prod.snd) kept.length 0 f v b hd ht hdrop
      (by simp) (by omega) (by omega)
    obtain ⟨k1, k2⟩ := filter_kept e4
    have f1 : l.filter p = (l.drop kept.length).filter p := by
      conv => lhs; rw [e3, List.filter_append, k1, List.nil_append]
    have f2 : (l.filter fun x => !p x) = kept.map Prod.snd ++ (l.drop kept.length).filter fun x => !p x := by
      conv => lhs; rw [e3, List.filter_append, k2]
    have hlen := length_filter_add p l
    rw [hsum, List.length_map, Nat.zero_add] at g1
    refine ⟨{ v' with size := v'.size - ((l.drop kept.length).filter p).length }, ?_, ⟨?_, ?_, ?_⟩, ?_, g5⟩
    · simp only [eraseRemoveVec, e1, g1, Option.bind_eq_bind, Option.bind_some]
      rw [guard_pos (by rw [g4, h.size, ← f1]; omega)]
      rfl
    · simp only [g4, h.size, ← f1]; omega
    · intro hh; simp only [g2] at hh; cases hh
    · intro c hc
      simp only [g2, Option.some.injEq] at hc
      subst hc
      exact ⟨by rw [g3, hb1]; exact g5.symm, by rw [f2]; exact g7, by simp only [g5]; exact hb3⟩
    · rw [f1]; exact g6

/-! ### deque -/

open Deque (View iterOf)

theorem deque_yields {d : Deque.Deque α} {s c : Nat} {V : Buf α} {l : List α} (h : View d s c V l.length) (ht : V.take l.length = l.map some) :
    ∀ (R : List α) (j : Nat), l.drop j = R → Yields (dequeWalker d) (iterOf s c l.length j) R := by
  obtain ⟨b, hb, hb1, hb2⟩ := h.blk
  have hlen := h.len
  intro R
  induction R with
  | nil =>
    intro j hj
    have : l.length ≤ j := List.drop_eq_nil_iff.1 hj
    exact .nil _ (by simp [dequeWalker, iterOf]; omega)
  | cons x R ih =>
    intro j hj
    have hjl : j < l.length := by
      have := congrArg List.length hj
      simp at this; omega
    have hx : l[j]? = some x := by
      have := congrArg (fun L => L[0]?) hj
      simpa using this
    refine .cons _ (iterOf s c l.length (j + 1)) ((s + j) % (c + 1)) x R (by simp [dequeWalker, iterOf, hjl]) ?_ (by simp only [dequeWalker]; rw [Deque.next_view h hjl]) (ih (j + 1) ?_)
    · simp only [dequeWalker, iterOf, hb, if_pos hjl, Option.bind_eq_bind, Option.bind_some]
      rw [Deque.rd_rotate hb1 (by omega), hb2, Buf.rd_of_take ht hjl, hx]
    · have := congrArg List.tail hj
      simpa using this

theorem deque_yields_begin {d : Deque.Deque α} {l : List α} (h : Deque.Rep d l) : Yields (dequeWalker d) (Deque.begin d) l := by
  by_cases hl : l = []
  · subst hl
    exact .nil _ (by simp [dequeWalker, Deque.begin, h.isEmpty.2])
  · obtain ⟨b, hb, _⟩ := h.blk_of_ne hl
    obtain ⟨V, hV, ht⟩ := h.view (by simp [hb])
    rw [Deque.begin_view hV]
    exact deque_yields hV ht l 0 (by simp)

theorem path_iterOf {d : Deque.Deque α} {s c n : Nat} {V : Buf α} (hv : View d s c V n) {it e : Deque.Iter} {l : List (Deque.Iter × α)} (h : Path (dequeWalker d) it l e) :
    ∀ k, it = iterOf s c n k → e = iterOf s c n (k + l.length) := by
  induction h with
  | nil it => intro k hk; simpa using hk
  | cons it it' e r x l h1 h2 h3 hp ih =>
    intro k hk
    subst hk
    have hkn : k < n := by
      simp only [dequeWalker, iterOf] at h1
      split at h1
      · assumption
      · cases h1
    simp only [dequeWalker, Deque.next_view hv hkn, Option.some.injEq] at h3
    rw [ih (k + 1) h3.symm, List.length_cons]
    congr 1; omega

theorem sweepDeque_spec {p : α → Bool} {s c : Nat} : ∀ (R K : List α) (j n f : Nat) (d : Deque.Deque α) (V : Buf α), View d s c V (j + R.length) →
    V.take K.length = K.map some → (V.drop j).take R.length = R.map some → K.length ≤ j → R.length < f →
    ∃ d' V', sweepDeque p f d (iterOf s c (j + R.length) K.length) (iterOf s c (j + R.length) j) n = some (d', n + (R.filter p).length) ∧
      View d' s c V' (j + R.length) ∧ d'.dropped = d.dropped ++ R.filter p ∧
      V'.take (K ++ R.filter fun x => !p x).length = (K ++ R.filter fun x => !p x).map some := by
  intro R
  induction R with
  | nil =>
    intro K j n f d V hv h1 h2 h3 hf
    obtain ⟨f, rfl⟩ : ∃ g, f = g + 1 := ⟨f - 1, by omega⟩
    refine ⟨d, V, ?_, hv, by simp, by simpa using h1⟩
    simp [sweepDeque, iterOf]
  | cons x R ih =>
    intro K j n f d V hv h1 h2 h3 hf
    obtain ⟨f, rfl⟩ : ∃ g, f = g + 1 := ⟨f - 1, by omega⟩
    obtain ⟨b, hb, hb1, hb2⟩ := hv.blk
    have hlen := hv.len
    simp only [List.length_cons] at hf hlen
    have hVlen := hv.length
    have hrd : b.rd ((s + j) % (c + 1)) = some x := by rw [Deque.rd_rotate hb1 (by omega), hb2]; exact rd_drop h2
    have hj : j < j + (x :: R).length := by simp
    have hK : K.length < j + (x :: R).length := by simp only [List.length_cons]; omega
    have hkill : b.kill ((s + j) % (c + 1)) = some (x, b.set ((s + j) % (c + 1)) none) := by simp [Buf.kill, hrd]
    have hN : j + (x :: R).length = j + 1 + R.length := by simp; omega
    have hr1 : (iterOf s c (j + (x :: R).length) j).ref = some ((s + j) % (c + 1)) := by simp only [iterOf]; rw [if_pos hj]
    have hr2 : (iterOf s c (j + (x :: R).length) K.length).ref = some ((s + K.length) % (c + 1)) := by simp only [iterOf]; rw [if_pos hK]
    cases hx : p x with
    | true =>
      have hv1 := hv.update (i := j) (by omega) none hb (d.dropped ++ [x])
      have h1' : (V.set j none).take K.length = K.map some := by rw [List.take_set_of_le h3, h1]
      have h2' := drop_tail (b' := V.set j none) h2 (fun k hk => List.getElem?_set_ne (by omega))
      obtain ⟨d', V', g1, g2, g3, g4⟩ := ih K (j + 1) (n + 1) f _ _ (by rw [← hN]; exact hv1) h1' h2' (by omega) (by omega)
      refine ⟨d', V', ?_, by rw [hN]; exact g2, by simpa [hx] using g3, by simpa [hx] using g4⟩
      rw [sweepDeque, hr1]
      simp only [hb, hrd, hx, hkill, Option.bind_eq_bind, Option.bind_some, if_true, Deque.next_view hv1 hj]
      rw [hN, g1]
      simp [hx]; omega
    | false =>
      have hv1 := hv.update (i := j) (by omega) none hb d.dropped
      have hv2 := hv1.update (i := K.length) (by omega) (some x) rfl d.dropped
      have hlt : (s + K.length) % (c + 1) < (b.set ((s + j) % (c + 1)) none).length := by
        rw [List.length_set, hb1]; exact Nat.mod_lt _ (by omega)
      have hwr : Buf.wr (b.set ((s + j) % (c + 1)) none) ((s + K.length) % (c + 1)) x = some ((b.set ((s + j) % (c + 1)) none).set ((s + K.length) % (c + 1)) (some x)) := by
        rw [Buf.wr, if_pos hlt]
      have h1' : ((V.set j none).set K.length (some x)).take (K ++ [x]).length = (K ++ [x]).map some :=
        take_succ_set (by rw [List.take_set_of_le h3, h1]) (by simp; omega)
      have h2' := drop_tail (b' := (V.set j none).set K.length (some x)) h2 (fun k hk => by
        rw [List.getElem?_set_ne (by omega), List.getElem?_set_ne (by omega)])
      obtain ⟨d', V', g1, g2, g3, g4⟩ := ih (K ++ [x]) (j + 1) n f _ _ (by rw [← hN]; exact hv2) h1' h2' (by simp; omega) (by omega)
      refine ⟨d', V', ?_, by rw [hN]; exact g2, by simpa [hx] using g3, by simpa [hx] using g4⟩
      rw [sweepDeque, hr1]
      simp only [hb, hrd, hx, hkill, hwr, hr2, Option.bind_eq_bind, Option.bind_some, Bool.false_eq_true, if_false, Deque.next_view hv2 hj, Deque.next_view hv2 hK]
      rw [List.length_append, List.length_singleton] at g1
      rw [hN, g1]
      simp [hx]

theorem eraseRemoveDeque_spec {p : α → Bool} {d : Deque.Deque α} {l : List α} (h : Deque.Rep d l) (f : Nat) (hf : l.length < f) :
    ∃ d', eraseRemoveDeque p f d = some d' ∧ Deque.Rep d' (l.filter fun x => !p x) ∧ d'.dropped = d.dropped ++ l.filter p ∧ d'.capmask = d.capmask := by
  by_cases hl : l = []
  · subst hl
    obtain ⟨f, rfl⟩ : ∃ g, f = g + 1 := ⟨f - 1, by omega⟩
    have hb : (Deque.begin d).ref = none := by simp [Deque.begin, h.isEmpty.2]
    obtain ⟨k, hk⟩ := h.pow
    have hfin : Common.land ((d.fin : Int) - (0 : Nat)) d.capmask = d.fin := by
      have e : (d.fin : Int) - (0 : Nat) = (d.fin : Int) := by simp
      rw [e, Deque.land_nat hk]
      apply Nat.mod_eq_of_lt
      rw [h.fin]; exact Nat.mod_lt _ (by omega)
    have e1 : skipKept (dequeWalker d) p (f + 1) (Deque.begin d) = some (Deque.begin d) := by
      simp only [skipKept, dequeWalker, hb]
    have e2 : sweepDeque p (f + 1) d (Deque.begin d) (Deque.begin d) 0 = some (d, 0) := by
      simp only [sweepDeque, hb]
    refine ⟨d, ?_, by simpa using h, by simp, rfl⟩
    simp only [eraseRemoveDeque, e1, e2, Option.bind_eq_bind, Option.bind_some, hfin]
  · obtain ⟨b, hb, _⟩ := h.blk_of_ne hl
    obtain ⟨V, hV, ht⟩ := h.view (by simp [hb])
    obtain ⟨it, kept, e1, e2, e3, e4, e5, e6⟩ := skipKept_path (p := p) (deque_yields_begin h) f hf
    have hit := path_iterOf hV e2 0 (Deque.begin_view hV)
    rw [Nat.zero_add] at hit
    subst hit
    have hkl : kept.length ≤ l.length := by
      have := congrArg List.length e3
      simp at this; omega
    have ht1 : V.take (kept.map Prod.snd).length = (kept.map Prod.snd).map some := by
      have h0 := congrArg (List.take (kept.map Prod.snd).length) ht
      rw [List.take_take, Nat.min_eq_left (by simpa using hkl), e3] at h0
      rw [h0, List.map_append]
      exact List.take_left' (by simp)
    have hdrop : (V.drop kept.length).take (l.drop kept.length).length = (l.drop kept.length).map some := by
      have h0 := congrArg (List.drop kept.length) ht
      rw [List.drop_take] at h0
      rw [List.length_drop, h0, List.map_drop]
    have hsum : kept.length + (l.drop kept.length).length = l.length := by rw [List.length_drop]; omega
    obtain ⟨d', V', g1, g2, g3, g4⟩ := sweepDeque_spec (p := p) (l.drop kept.length) (kept.map Prod.snd) kept.length 0 f d V (by rw [hsum]; exact hV) ht1 hdrop
      (by simp) (by omega)
    obtain ⟨k1, k2⟩ := filter_kept e4
    have f1 : l.filter p = (l.drop kept.length).filter p := by
      conv => lhs; rw [e3, List.filter_append, k1, List.nil_append]
    have f2 : (l.filter fun x => !p x) = kept.map Prod.snd ++ (l.drop kept.length).filter fun x => !p x := by
      conv => lhs; rw [e3, List.filter_append, k2]
    have hlen := length_filter_add p l
    rw [hsum, List.length_map, Nat.zero_add] at g1
    rw [hsum] at g2
    have hfin : Common.land ((d'.fin : Int) - ((l.drop kept.length).filter p).length) d'.capmask =
        (d.start + (l.filter fun x => !p x).length) % (d.capmask + 1) := by
      obtain ⟨k, hk⟩ := g2.pow
      rw [g2.fin, g2.hc, ← f1, show (l.filter fun x => !p x).length = l.length - (l.filter p).length by omega]
      apply Int.ofNat.inj
      have h1 := Deque.land_eq hk (((d.start + l.length) % (d.capmask + 1) : Nat) - ((l.filter p).length : Int))
      change (Common.land _ _ : Int) = _
      rw [h1]
      push_cast
      rw [Int.ofNat_eq_natCast]
      push_cast
      rw [Int.emod_sub_emod]
      congr 1
      have : (l.filter p).length ≤ l.length := by omega
      omega
    refine ⟨{ d' with fin := Common.land ((d'.fin : Int) - ((l.drop kept.length).filter p).length) d'.capmask }, ?_, ?_, ?_, g2.hc⟩
    · simp only [eraseRemoveDeque, e1, g1, Option.bind_eq_bind, Option.bind_some]
    · have hl2 := g2.len
      refine View.rep (s := d.start) (c := d.capmask) (V := V') ⟨g2.hs, g2.hc, g2.pow, g2.start, by omega, hfin, g2.blk⟩ ?_
      rw [f2]; exact g4
    · rw [f1]; exact g3

/-! ### sorted maps -/

theorem eraseIfSmap_spec {κ ν : Type} {cmp : κ → κ → Int} (hc : Smap.Lawful cmp) (inl : Bool) (p : κ × ν → Bool) : ∀ (S : List (κ × ν)) (P : List (κ × ν)) (m : Smap.Map κ ν) (it : Smap.Iter) (f : Nat),
    Smap.Seat cmp m it P S → S.length < f →
    ∃ m' it', eraseIfSmap cmp inl p f m it = some (m', (S.filter p).flatMap Smap.valueDrop) ∧ Smap.Seat cmp m' it' (P ++ S.filter fun e => !p e) [] := by
  intro S
  induction S with
  | nil =>
    intro P m it f h hf
    obtain ⟨f, rfl⟩ : ∃ g, f = g + 1 := ⟨f - 1, by omega⟩
    refine ⟨m, it, ?_, by simpa using h⟩
    rw [eraseIfSmap, h.ref_none]; rfl
  | cons e S ih =>
    intro P m it f h hf
    obtain ⟨f, rfl⟩ : ∃ g, f = g + 1 := ⟨f - 1, by omega⟩
    simp only [List.length_cons] at hf
    obtain ⟨i, r1, r2⟩ := h.ref_some
    cases hx : p e with
    | true =>
      obtain ⟨it1, m1, h1, h2⟩ := h.eraseAt hc inl
      obtain ⟨m2, it2, g1, g2⟩ := ih P m1 it1 f h2 (by omega)
      refine ⟨m2, it2, ?_, by simpa [hx] using g2⟩
      rw [eraseIfSmap, r1]
      simp only [r2, hx, h1, g1, Option.bind_eq_bind, Option.bind_some, if_true]
      simp [hx]
    | false =>
      obtain ⟨it1, h1, h2⟩ := h.next
      obtain ⟨m2, it2, g1, g2⟩ := ih (P ++ [e]) m it1 f h2 (by omega)
      refine ⟨m2, it2, ?_, by simpa [hx] using g2⟩
      rw [eraseIfSmap, r1]
      simp only [r2, hx, h1, g1, Option.bind_eq_bind, Option.bind_some, Bool.false_eq_true, if_false]
      simp [hx]

/-! ### reversing -/

theorem reverseLoop_spec {σ : Type} {get : σ → Nat → Option α} {set : σ → Nat → α → Option σ} {R : σ → List α → Prop}
    (hget : ∀ s l i, R s l → i < l.length → get s i = l[i]?) (hset : ∀ s l i x, R s l → i < l.length → ∃ s', set s i x = some s' ∧ R s' (l.set i x)) :
    ∀ (f : Nat) (A M B : List α) (s : σ), R s (A ++ M ++ B) → M.length < f →
    ∃ s', reverseLoop get set f A.length (A.length + M.length - 1) s = some s' ∧ R s' (A ++ M.reverse ++ B) := by
  intro f
  induction f with
  | zero => intro A M B s _ h; omega
  | succ f ih =>
    intro A M B s hr hf
    by_cases hM : M.length < 2
    · refine ⟨s, ?_, ?_⟩
      · rw [reverseLoop, if_neg (by omega)]
      · match M, hM with
        | [], _ => exact hr
        | [x], _ => exact hr
    · obtain ⟨x, M', y, rfl⟩ : ∃ x M' y, M = x :: (M' ++ [y]) := by
        match M, hM with
        | [], h => exact absurd (by simp) h
        | [_], h => exact absurd (by simp) h
        | x :: y :: M, _ => exact ⟨x, (y :: M).dropLast, (y :: M).getLast (by simp), by rw [List.dropLast_append_getLast]⟩
      have hx : get s A.length = some x := by
        rw [hget s _ _ hr (by simp)]
        simp
      have hy : get s (A.length + M'.length + 1) = some y := by
        rw [hget s _ _ hr (by simp; omega)]
        rw [List.getElem?_append_left (by simp; omega), List.getElem?_append_right (by omega), show A.length + M'.length + 1 - A.length = M'.length + 1 by omega,
          List.getElem?_cons_succ, List.getElem?_append_right (by omega)]
        simp
      obtain ⟨s1, e1, r1⟩ := hset s _ A.length y hr (by simp)
      obtain ⟨s2, e2, r2⟩ := hset s1 _ (A.length + M'.length + 1) x r1 (by simp; omega)
      have hl : ((A ++ x :: (M' ++ [y]) ++ B).set A.length y).set (A.length + M'.length + 1) x = (A ++ [y]) ++ M' ++ (x :: B) := by
        rw [List.append_assoc A, List.set_append_right _ _ (by omega), Nat.sub_self]
        simp only [List.cons_append, List.set_cons_zero]
        rw [List.set_append_right _ _ (by omega), show A.length + M'.length + 1 - A.length = M'.length + 1 by omega, List.set_cons_succ,
          List.append_assoc M', List.set_append_right _ _ (by omega), Nat.sub_self]
        simp
      rw [hl] at r2
      obtain ⟨s3, e3, r3⟩ := ih (A ++ [y]) M' (x :: B) s2 r2 (by simp at hf; omega)
      refine ⟨s3, ?_, by simpa using r3⟩
      have a1 : ((A.length : Int)).toNat = A.length := by omega
      have a2 : ((A.length : Int) + (x :: (M' ++ [y])).length - 1).toNat = A.length + M'.length + 1 := by simp; omega
      rw [reverseLoop, if_pos (by simp; omega), a1, a2]
      simp only [hx, hy, e1, e2, Option.bind_eq_bind, Option.bind_some]
      have b1 : (A.length : Int) + 1 = ((A ++ [y]).length : Nat) := by simp
      have b2 : (A.length : Int) + (x :: (M' ++ [y])).length - 1 - 1 = ((A ++ [y]).length : Nat) + (M'.length : Nat) - 1 := by simp; omega
      rw [b1, b2, e3]

end Verif.Algo
