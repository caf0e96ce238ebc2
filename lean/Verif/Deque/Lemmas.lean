import Verif.Deque.Spec
import Verif.Common.Lemmas
import Verif.Common.Props
import Mathlib.Data.List.Rotate
import Mathlib.Data.Nat.ModEq
import Mathlib.Tactic.Ring
/- Representation invariant of the ring buffer and one lemma per function. -/
namespace Verif.Deque
open Common (land nextPow2)
variable {α : Type}

/-! ### Arithmetic of positions -/

theorem land_eq {m k : Nat} (h : m + 1 = 2 ^ k) (x : Int) : (land x m : Int) = x % ((m : Int) + 1) := by
  have h1 : m = 2 ^ k - 1 := by omega
  have h2 : ((m : Int) + 1) = (2 : Int) ^ k := by exact_mod_cast h
  rw [h2, h1, Common.land_mask]

theorem land_nat {m k : Nat} (h : m + 1 = 2 ^ k) (x : Nat) : land (x : Int) m = x % (m + 1) := by
  have := land_eq h x
  exact_mod_cast this

theorem mod_inj {N s i j : Nat} (hi : i < N) (hj : j < N) (h : (s + i) % N = (s + j) % N) : i = j := by
  have h1 : Nat.ModEq N (s + i) (s + j) := h
  have h2 : Nat.ModEq N i j := Nat.ModEq.add_left_cancel' s h1
  exact Nat.ModEq.eq_of_lt_of_lt h2 hi hj

theorem land_sub {m k s n : Nat} (h : m + 1 = 2 ^ k) :
    land (((s + n) % (m + 1) : Nat) - (s : Int)) m = n % (m + 1) := by
  have h1 := land_eq h (((s + n) % (m + 1) : Nat) - (s : Int))
  have h2 : ((((s + n) % (m + 1) : Nat) : Int) - (s : Int)) % ((m : Int) + 1) = (n : Int) % ((m : Int) + 1) := by
    push_cast
    rw [Int.sub_emod, Int.emod_emod, ← Int.sub_emod]
    congr 1; ring
  rw [h2] at h1
  exact_mod_cast h1

theorem land_dec {m k s n : Nat} (h : m + 1 = 2 ^ k) (hn : n ≤ s) :
    land (((s % (m + 1) : Nat) : Int) - n) m = (s - n) % (m + 1) := by
  have h1 := land_eq h (((s % (m + 1) : Nat) : Int) - n)
  have h2 : (((s % (m + 1) : Nat) : Int) - n) % ((m : Int) + 1) = ((s - n : Nat) : Int) % ((m : Int) + 1) := by
    push_cast
    rw [Int.sub_emod, Int.emod_emod, ← Int.sub_emod]
    congr 1; omega
  rw [h2] at h1
  exact_mod_cast h1

theorem land_inc {m k s n : Nat} (h : m + 1 = 2 ^ k) :
    land (((s % (m + 1) : Nat) : Int) + n) m = (s + n) % (m + 1) := by
  have : (((s % (m + 1) : Nat) : Int) + n) = ((s % (m + 1) + n : Nat) : Int) := by push_cast; rfl
  rw [this, land_nat h]
  simp [Nat.add_mod]

/-! ### The rotated view -/

theorem rotate_set {β : Type _} {b : List β} {N s i : Nat} {v : β} (hN : b.length = N) (hi : i < N) :
    (b.set ((s + i) % N) v).rotate s = (b.rotate s).set i v := by
  apply List.ext_getElem?
  intro p
  by_cases hp : p < N
  · rw [List.getElem?_rotate (by simp; omega), List.length_set, List.getElem?_set, List.getElem?_set,
      List.getElem?_rotate (by omega), hN]
    by_cases h : i = p
    · subst h
      rw [if_pos (by rw [Nat.add_comm]), if_pos rfl, if_pos (Nat.mod_lt _ (by omega)),
        if_pos (by simp; omega)]
    · rw [if_neg, if_neg h]
      intro h'
      rw [Nat.add_comm p s] at h'
      exact h (mod_inj hi hp h')
  · rw [List.getElem?_eq_none (by simp; omega), List.getElem?_eq_none (by simp; omega)]

theorem rd_rotate {b : Buf α} {N s i : Nat} (hN : b.length = N) (hi : i < N) :
    b.rd ((s + i) % N) = Buf.rd (b.rotate s) i := by
  rw [Buf.rd, Buf.rd, List.getElem?_rotate (by omega), hN, Nat.add_comm]

theorem rd_map {V : Buf α} {l : List α} {i : Nat} (h : V.take l.length = l.map some) (hi : i < l.length) :
    V.rd i = some l[i] := by
  rw [Buf.rd_of_take h hi, List.getElem?_eq_getElem hi]

/-- `d` represents the list `l`. -/
structure Rep (d : Deque α) (l : List α) : Prop where
  pow : ∃ k, d.capmask + 1 = 2 ^ k
  start : d.start ≤ d.capmask
  len : l.length ≤ d.capmask
  fin : d.fin = (d.start + l.length) % (d.capmask + 1)
  null : d.cbuf = none → d.capmask = 0
  blk : ∀ b, d.cbuf = some b →
    b.length = d.capmask + 1 ∧ (b.rotate d.start).take l.length = l.map some

theorem rep_init : Rep (init : Deque α) [] :=
  ⟨⟨0, rfl⟩, Nat.le_refl _, Nat.le_refl _, rfl, fun _ => rfl, fun _ h => by simp [init] at h⟩

theorem Rep.topos {d : Deque α} {l : List α} (h : Rep d l) (i : Nat) :
    topos d i = (d.start + i) % (d.capmask + 1) := by
  obtain ⟨k, hk⟩ := h.pow
  have : ((d.start : Int) + i) = ((d.start + i : Nat) : Int) := by push_cast; rfl
  rw [Deque.topos, this, land_nat hk]

theorem Rep.size {d : Deque α} {l : List α} (h : Rep d l) : size d = l.length := by
  obtain ⟨k, hk⟩ := h.pow
  rw [Deque.size, toidx, h.fin, land_sub hk, Nat.mod_eq_of_lt (by have := h.len; omega)]

theorem Rep.toidx {d : Deque α} {l : List α} (h : Rep d l) {i : Nat} (hi : i ≤ d.capmask) :
    toidx d ((d.start + i) % (d.capmask + 1)) = i := by
  obtain ⟨k, hk⟩ := h.pow
  rw [Deque.toidx, land_sub hk, Nat.mod_eq_of_lt (by omega)]

theorem Rep.isEmpty {d : Deque α} {l : List α} (h : Rep d l) : isEmpty d = true ↔ l = [] := by
  rw [Deque.isEmpty, beq_iff_eq, h.fin]
  have h1 := h.start
  have h2 := h.len
  constructor
  · intro he
    have : 0 = l.length := mod_inj (N := d.capmask + 1) (s := d.start) (by omega) (by omega) (by
      rw [← he, Nat.add_zero, Nat.mod_eq_of_lt (by omega)])
    exact List.length_eq_zero_iff.1 this.symm
  · rintro rfl
    simp [Nat.mod_eq_of_lt (show d.start < d.capmask + 1 by omega)]

theorem Rep.not_empty {d : Deque α} {l : List α} (h : Rep d l) (hl : l ≠ []) :
    Deque.isEmpty d = false := by
  cases he : Deque.isEmpty d
  · rfl
  · exact absurd (h.isEmpty.1 he) hl

theorem Rep.blk_of_ne {d : Deque α} {l : List α} (h : Rep d l) (hl : l ≠ []) :
    ∃ b, d.cbuf = some b ∧ b.length = d.capmask + 1 ∧ (b.rotate d.start).take l.length = l.map some := by
  cases hd : d.cbuf with
  | none =>
    have := h.null hd
    have h2 := h.len
    exact absurd (List.length_eq_zero_iff.1 (by omega)) hl
  | some b => exact ⟨b, rfl, h.blk b hd⟩

theorem pow_lt_double {a b : Nat} (h : 2 ^ a < 2 ^ b) : 2 * 2 ^ a ≤ 2 ^ b := by
  have h1 : a < b := (Nat.pow_lt_pow_iff_right (by omega)).1 h
  calc 2 * 2 ^ a = 2 ^ (a + 1) := by rw [Nat.pow_succ]; omega
    _ ≤ 2 ^ b := Nat.pow_le_pow_right (by omega) h1

/-- Establish `take` of a rotated block pointwise. -/
theorem take_rotate_iff {b : Buf α} {N s : Nat} {l : List α} (hN : b.length = N) (hl : l.length ≤ N) :
    (b.rotate s).take l.length = l.map some ↔
      ∀ i, i < l.length → b[(s + i) % N]? = some l[i]? := by
  constructor
  · intro h i hi
    have h1 : ((b.rotate s).take l.length)[i]? = (l.map some)[i]? := by rw [h]
    rw [List.getElem?_take_of_lt hi, List.getElem?_rotate (by omega), hN, List.getElem?_map] at h1
    rw [Nat.add_comm, h1, List.getElem?_eq_getElem hi]
    rfl
  · intro h
    apply List.ext_getElem?
    intro i
    by_cases hi : i < l.length
    · rw [List.getElem?_take_of_lt hi, List.getElem?_rotate (by omega), hN, List.getElem?_map,
        Nat.add_comm, h i hi, List.getElem?_eq_getElem hi]
      rfl
    · rw [List.getElem?_eq_none (by simp; omega), List.getElem?_eq_none (by simp; omega)]

theorem reserve_spec {d : Deque α} {l : List α} (h : Rep d l) (ok : Bool) (cap : Nat) (hf : fits cap) :
    ∃ d' r, reserve ok d cap = some (d', r) ∧ Rep d' l ∧ d'.dropped = d.dropped ∧
      (r = true → cap ≤ d'.capmask ∧ d'.cbuf ≠ none) ∧
      (r = false → d' = d ∧ (ok = true → cap = 0 ∧ d.cbuf = none)) := by
  obtain ⟨k, hk⟩ := h.pow
  have hs := h.start
  have hl := h.len
  have hfin := h.fin
  obtain ⟨⟨j, hj⟩, hge, _⟩ := Common.next_pow2_least (cap + 1) (by omega) (by unfold fits at hf; omega)
  unfold reserve
  rw [guard_pos hf]
  simp only [Option.bind_eq_bind, Option.bind_some]
  by_cases h1 : nextPow2 (cap + 1) ≤ d.capmask + 1
  · rw [if_pos h1]
    refine ⟨d, _, rfl, h, rfl, fun hr => ⟨by omega, fun hn => by simp [hn] at hr⟩, fun hr => ⟨rfl, fun _ => ?_⟩⟩
    have hn : d.cbuf = none := by simpa using hr
    have := h.null hn
    exact ⟨by omega, hn⟩
  · rw [if_neg h1]
    cases ok
    · exact ⟨d, false, rfl, h, rfl, by simp, by simp⟩
    · rw [if_neg (by simp)]
      have hdbl : 2 * (d.capmask + 1) ≤ nextPow2 (cap + 1) := by
        rw [hk, hj]; apply pow_lt_double; omega
      generalize hM : nextPow2 (cap + 1) = M at *
      generalize hNN : d.capmask + 1 = N at *
      have hcm : M - 1 + 1 = M := by omega
      -- the reallocated block
      generalize hc : (d.cbuf.getD []).realloc M = c
      have hclen : c.length = M := by rw [← hc]; simp
      have hold : ∀ i, i < l.length → c[(d.start + i) % N]? = some l[i]? := by
        intro i hi
        obtain ⟨b, hb, hb1, hb2⟩ := h.blk_of_ne (by intro h0; simp [h0] at hi)
        rw [hNN] at hb1
        have h3 := (take_rotate_iff hb1 (by omega)).1 hb2 i hi
        have hlt : (d.start + i) % N < N := Nat.mod_lt _ (by omega)
        have h4 : (c.take N)[(d.start + i) % N]? = (b.take N)[(d.start + i) % N]? := by
          rw [← hc, hb]
          rw [Option.getD_some, Buf.take_realloc _ (by omega) (by omega)]
        rw [List.getElem?_take_of_lt hlt, List.getElem?_take_of_lt hlt] at h4
        rw [h4, h3]
      by_cases hcase : d.start ≤ d.fin
      · rw [if_pos hcase]
        have hnw : d.start + l.length < N := by
          by_contra hcon
          have : (d.start + l.length) % N = d.start + l.length - N := by
            rw [Nat.mod_eq_sub_mod (by omega), Nat.mod_eq_of_lt (by omega)]
          omega
        refine ⟨_, true, rfl, ⟨⟨j, by simp only; omega⟩, by simp only; omega, by simp only; omega, ?_, by simp, ?_⟩, rfl,
          fun _ => ⟨by simp only; omega, by simp⟩, by simp⟩
        · simp only [hcm]
          rw [hfin, Nat.mod_eq_of_lt hnw, Nat.mod_eq_of_lt (by omega)]
        · intro b hb
          simp only [Option.some.injEq] at hb
          subst hb
          simp only [hcm]
          refine ⟨hclen, (take_rotate_iff hclen (by omega)).2 fun i hi => ?_⟩
          have := hold i hi
          rw [Nat.mod_eq_of_lt (by omega)] at this
          rw [Nat.mod_eq_of_lt (by omega), this]
      · rw [if_neg hcase]
        have hw : N ≤ d.start + l.length := by
          by_contra hcon
          rw [Nat.mod_eq_of_lt (by omega)] at hfin
          omega
        have hfin' : d.fin = d.start + l.length - N := by
          rw [hfin, Nat.mod_eq_sub_mod (by omega), Nat.mod_eq_of_lt (by omega)]
        by_cases hhead : N - d.start < d.fin
        · rw [if_pos hhead]
          obtain ⟨c', hc'⟩ := Buf.move_isSome (b := c) (dst := M - (N - d.start)) (src := d.start)
            (n := N - d.start) (by omega) (by omega)
          have hcopy : c.copyIn (M - (N - d.start)) d.start (N - d.start) = some c' := by
            rw [Buf.copyIn, if_pos (by omega), hc']
          rw [hcopy]
          refine ⟨_, true, rfl, ⟨⟨j, by simp only; omega⟩, by simp only; omega, by simp only; omega, ?_, by simp, ?_⟩,
            rfl, fun _ => ⟨by simp only; omega, by simp⟩, by simp⟩
          · simp only [hcm]
            rw [hfin', Nat.mod_eq_sub_mod (by omega), Nat.mod_eq_of_lt (by omega)]
            omega
          · intro b hb
            simp only [Option.some.injEq] at hb
            subst hb
            simp only [hcm]
            have hlen' : c'.length = M := by rw [Buf.length_move hc', hclen]
            refine ⟨hlen', (take_rotate_iff hlen' (by omega)).2 fun i hi => ?_⟩
            have h5 := hold i hi
            rw [Buf.getElem?_move hc']
            by_cases hi2 : i < N - d.start
            · rw [Nat.mod_eq_of_lt (by omega)] at h5
              rw [Nat.mod_eq_of_lt (by omega), if_pos (by omega), ← h5]
              congr 1; omega
            · rw [Nat.mod_eq_sub_mod (by omega), Nat.mod_eq_of_lt (by omega)] at h5
              rw [Nat.mod_eq_sub_mod (by omega), Nat.mod_eq_of_lt (by omega), if_neg (by omega), if_neg (by omega),
                ← h5]
              congr 1; omega
        · rw [if_neg hhead]
          obtain ⟨c', hc'⟩ := Buf.move_isSome (b := c) (dst := N) (src := 0)
            (n := d.fin) (by omega) (by omega)
          have hcopy : c.copyIn N 0 d.fin = some c' := by
            rw [Buf.copyIn, if_pos (by omega), hc']
          rw [hcopy]
          refine ⟨_, true, rfl, ⟨⟨j, by simp only; omega⟩, by simp only; omega, by simp only; omega, ?_, by simp, ?_⟩,
            rfl, fun _ => ⟨by simp only; omega, by simp⟩, by simp⟩
          · simp only [hcm]
            rw [hfin', Nat.mod_eq_of_lt (by omega)]
            omega
          · intro b hb
            simp only [Option.some.injEq] at hb
            subst hb
            simp only [hcm]
            have hlen' : c'.length = M := by rw [Buf.length_move hc', hclen]
            refine ⟨hlen', (take_rotate_iff hlen' (by omega)).2 fun i hi => ?_⟩
            have h5 := hold i hi
            rw [Buf.getElem?_move hc']
            by_cases hi2 : i < N - d.start
            · rw [Nat.mod_eq_of_lt (by omega)] at h5
              rw [Nat.mod_eq_of_lt (by omega), if_neg (by omega), if_neg (by omega), ← h5]
            · rw [Nat.mod_eq_sub_mod (by omega), Nat.mod_eq_of_lt (by omega)] at h5
              rw [Nat.mod_eq_of_lt (by omega), if_pos (by omega), ← h5]
              congr 1; omega

/-- The ring buffer seen as a linear block `V` of all slots from `start` on (`s`, `c` are the
values of `start` and `capmask`, `n` the current size). Slots may be dead. -/
structure View (d : Deque α) (s c : Nat) (V : Buf α) (n : Nat) : Prop where
  hs : d.start = s
  hc : d.capmask = c
  pow : ∃ k, c + 1 = 2 ^ k
  start : s ≤ c
  len : n ≤ c
  fin : d.fin = (s + n) % (c + 1)
  blk : ∃ b, d.cbuf = some b ∧ b.length = c + 1 ∧ b.rotate s = V

theorem View.length {d : Deque α} {s c n : Nat} {V : Buf α} (h : View d s c V n) : V.length = c + 1 := by
  obtain ⟨b, _, h1, h2⟩ := h.blk
  rw [← h2]; simpa using h1

theorem Rep.view {d : Deque α} {l : List α} (h : Rep d l) (hd : d.cbuf ≠ none) :
    ∃ V, View d d.start d.capmask V l.length ∧ V.take l.length = l.map some := by
  cases hb : d.cbuf with
  | none => exact absurd hb hd
  | some b =>
    obtain ⟨h1, h2⟩ := h.blk b hb
    exact ⟨_, ⟨rfl, rfl, h.pow, h.start, h.len, h.fin, b, hb, h1, rfl⟩, h2⟩

theorem View.rep {d : Deque α} {s c : Nat} {V : Buf α} {l : List α} (h : View d s c V l.length)
    (ht : V.take l.length = l.map some) : Rep d l := by
  obtain ⟨rfl, rfl, h1, h2, h3, h4, b, h5, h6, h7⟩ := h
  refine ⟨h1, h2, h3, h4, by simp [h5], ?_⟩
  intro b' hb'
  rw [h5] at hb'
  simp only [Option.some.injEq] at hb'
  subst hb'
  exact ⟨h6, by rw [h7, ht]⟩

theorem View.size {d : Deque α} {s c n : Nat} {V : Buf α} (h : View d s c V n) : size d = n := by
  obtain ⟨rfl, rfl, ⟨k, hk⟩, h2, h3, h4, _⟩ := h
  rw [Deque.size, Deque.toidx, h4, land_sub hk, Nat.mod_eq_of_lt (by omega)]

theorem View.atPos {d : Deque α} {s c n : Nat} {V : Buf α} (h : View d s c V n) {i : Nat} (hi : i < n) :
    atPos d i = some ((s + i) % (c + 1)) := by
  rw [Deque.atPos, h.size, guard_pos hi]
  obtain ⟨rfl, rfl, ⟨k, hk⟩, h2, h3, h4, _⟩ := h
  have : ((d.start : Int) + i) = ((d.start + i : Nat) : Int) := by push_cast; rfl
  simp only [Option.bind_eq_bind, Option.bind_some, Deque.topos]
  rw [this, land_nat hk]

theorem View.update {d : Deque α} {s c n : Nat} {V : Buf α} (h : View d s c V n) {i : Nat} (hi : i ≤ c)
    (v : Option α) {b : Buf α} (hb : d.cbuf = some b) (log : List α) :
    View { d with cbuf := some (b.set ((s + i) % (c + 1)) v), dropped := log } s c (V.set i v) n := by
  obtain ⟨h0, h0', h1, h2, h3, h4, b', h5, h6, h7⟩ := h
  rw [hb] at h5
  simp only [Option.some.injEq] at h5
  subst h5
  exact ⟨h0, h0', h1, h2, h3, h4, _, rfl, by simpa using h6, by
    rw [rotate_set h6 (by omega), h7]⟩

theorem setAt_view {d : Deque α} {s c n : Nat} {V : Buf α} (h : View d s c V n) {i : Nat} (hi : i < n)
    (x : α) : ∃ d', setAt d i x = some d' ∧ View d' s c (V.set i (some x)) n ∧ d'.dropped = d.dropped := by
  obtain ⟨b, hb, hb1, hb2⟩ := h.blk
  have hlt : (s + i) % (c + 1) < b.length := by rw [hb1]; exact Nat.mod_lt _ (by omega)
  have hlen := h.len
  refine ⟨_, ?_, h.update (i := i) (by omega) (some x) hb d.dropped, rfl⟩
  simp [setAt, h.atPos hi, hb, Buf.wr, hlt]

theorem dropAt_view {d : Deque α} {s c n : Nat} {V : Buf α} (h : View d s c V n) {i : Nat} (hi : i < n)
    {x : α} (hx : V.rd i = some x) :
    ∃ d', dropAt d i = some d' ∧ View d' s c (V.set i none) n ∧ d'.dropped = d.dropped ++ [x] := by
  obtain ⟨b, hb, hb1, hb2⟩ := h.blk
  have hlen := h.len
  refine ⟨_, ?_, h.update (i := i) (by omega) none hb (d.dropped ++ [x]), rfl⟩
  have : b.rd ((s + i) % (c + 1)) = some x := by rw [rd_rotate hb1 (by omega), hb2, hx]
  simp [dropAt, h.atPos hi, hb, Buf.kill, this]

theorem moveAt_view {d : Deque α} {s c n : Nat} {V : Buf α} (h : View d s c V n) {i j : Nat} (hi : i < n)
    (hj : j < n) {x : α} (hx : V.rd j = some x) :
    ∃ d', moveAt d i j = some d' ∧ View d' s c ((V.set j none).set i (some x)) n ∧
      d'.dropped = d.dropped := by
  obtain ⟨b, hb, hb1, hb2⟩ := h.blk
  have hlen := h.len
  have h1 := h.update (i := j) (by omega) none hb d.dropped
  have h2 := h1.update (i := i) (by omega) (some x) rfl d.dropped
  have h3 : b.rd ((s + j) % (c + 1)) = some x := by rw [rd_rotate hb1 (by omega), hb2, hx]
  have hlt : (s + i) % (c + 1) < b.length := by rw [hb1]; exact Nat.mod_lt _ (by omega)
  refine ⟨_, ?_, h2, rfl⟩
  simp [moveAt, h.atPos hi, h.atPos hj, hb, Buf.kill, h3, Buf.wr, hlt]

theorem rd_drop_take {V : Buf α} {i : Nat} {x : α} {m : List α}
    (h : (V.drop i).take (m.length + 1) = some x :: m.map some) :
    V.rd i = some x ∧ (V.drop (i + 1)).take m.length = m.map some := by
  have hlen := congrArg List.length h
  simp at hlen
  have hi : i < V.length := by omega
  rw [List.drop_eq_getElem_cons hi, List.take_succ_cons, List.cons.injEq] at h
  exact ⟨by simp [Buf.rd, List.getElem?_eq_getElem hi, h.1], h.2⟩

theorem dropDown_view {d : Deque α} {s c n : Nat} {V : Buf α} (h : View d s c V n) (idx : Nat)
    (m : List α) (hm : (V.drop idx).take m.length = m.map some) (hn : idx + m.length ≤ n) :
    ∃ d' V', dropDown d idx m.length = some d' ∧ View d' s c V' n ∧
      d'.dropped = d.dropped ++ m.reverse ∧ V'.take idx = V.take idx ∧
      V'.drop (idx + m.length) = V.drop (idx + m.length) := by
  induction m using List.reverseRecOn generalizing d V with
  | nil => exact ⟨d, V, rfl, h, by simp, rfl, rfl⟩
  | append_singleton m x ih =>
    simp only [List.length_append, List.length_singleton, List.map_append, List.map_cons, List.map_nil] at hm hn
    have hVl := h.length
    have hlen := h.len
    have hx : V.rd (idx + m.length) = some x := by
      have h1 : ((V.drop idx).take (m.length + 1))[m.length]? = (m.map some ++ [some x])[m.length]? := by rw [hm]
      rw [List.getElem?_take_of_lt (by omega), List.getElem?_drop, List.getElem?_append_right (by simp)] at h1
      simp at h1
      simp [Buf.rd, h1]
    obtain ⟨d1, e1, e2, e3⟩ := dropAt_view h (i := idx + m.length) (by omega) hx
    have hm' : ((V.set (idx + m.length) none).drop idx).take m.length = m.map some := by
      have h1 := congrArg (List.take m.length) hm
      rw [List.take_take, Nat.min_eq_left (by omega), List.take_append_of_le_length (by simp),
        List.take_of_length_le (l := m.map some) (by simp)] at h1
      rw [← h1]
      apply List.ext_getElem?
      intro p
      by_cases hp : p < m.length
      · rw [List.getElem?_take_of_lt hp, List.getElem?_take_of_lt hp, List.getElem?_drop, List.getElem?_drop,
          List.getElem?_set_ne (by omega)]
      · simp [hp]
    obtain ⟨d2, V2, f1, f2, f3, f4, f5⟩ := ih e2 hm' (by omega)
    refine ⟨d2, V2, ?_, f2, ?_, ?_, ?_⟩
    · simp only [List.length_append, List.length_singleton, dropDown, e1, Option.bind_eq_bind, Option.bind_some]
      exact f1
    · rw [f3, e3]; simp
    · rw [f4, List.take_set_of_le (by omega)]
    · simp only [List.length_append, List.length_singleton]
      have : V2.drop (idx + (m.length + 1)) = (V2.drop (idx + m.length)).drop 1 := by
        rw [List.drop_drop]; rfl
      rw [this, f5, List.drop_drop, List.drop_set_of_lt (by omega)]
      rfl

theorem shiftDown_view {d : Deque α} {s c n : Nat} {V : Buf α} (h : View d s c V n) (idx g : Nat)
    (m : List α) (hm : (V.drop (idx + g)).take m.length = m.map some) (hn : idx + g + m.length ≤ n) :
    ∃ d' V', shiftDown d idx g m.length = some d' ∧ View d' s c V' n ∧
      d'.dropped = d.dropped ∧ V'.take (idx + m.length) = V.take idx ++ m.map some := by
  induction m generalizing d V idx with
  | nil => exact ⟨d, V, rfl, h, rfl, by simp⟩
  | cons x m ih =>
    simp only [List.length_cons, List.map_cons] at hm hn
    obtain ⟨h1, h2⟩ := rd_drop_take hm
    have hlen := h.len
    have hVl := h.length
    obtain ⟨d1, e1, e2, e3⟩ := moveAt_view h (i := idx) (j := idx + g) (by omega) (by omega) h1
    have hm' : ((((V.set (idx + g) none).set idx (some x))).drop (idx + 1 + g)).take m.length = m.map some := by
      rw [List.drop_set_of_lt (by omega), List.drop_set_of_lt (by omega), ← h2]
      congr 2; omega
    obtain ⟨d2, V2, f1, f2, f3, f4⟩ := ih e2 (idx + 1) hm' (by omega)
    refine ⟨d2, V2, ?_, f2, by rw [f3, e3], ?_⟩
    · simp only [List.length_cons, shiftDown, e1, Option.bind_eq_bind, Option.bind_some]
      exact f1
    · have hidx : idx + (x :: m).length = idx + 1 + m.length := by simp; omega
      rw [hidx, f4]
      have : ((V.set (idx + g) none).set idx (some x)).take (idx + 1) = V.take idx ++ [some x] := by
        rw [List.take_add_one, List.take_set_of_le (by omega), List.take_set_of_le (by omega)]
        rw [List.getElem?_set_self (by simp; omega)]
        simp
      rw [this]
      simp

theorem shiftUp_view {d : Deque α} {s c n : Nat} {V : Buf α} (h : View d s c V n) (idx g : Nat)
    (m : List α) (hm : (V.drop idx).take m.length = m.map some) (hn : idx + g + m.length ≤ n) :
    ∃ d' V', shiftUp d idx g m.length = some d' ∧ View d' s c V' n ∧
      d'.dropped = d.dropped ∧ V'.take idx = V.take idx ∧
      (V'.drop (idx + g)).take m.length = m.map some ∧
      V'.drop (idx + g + m.length) = V.drop (idx + g + m.length) := by
  induction m using List.reverseRecOn generalizing d V with
  | nil => exact ⟨d, V, rfl, h, rfl, rfl, by simp, rfl⟩
  | append_singleton m x ih =>
    simp only [List.length_append, List.length_singleton, List.map_append, List.map_cons, List.map_nil] at hm hn
    have hVl := h.length
    have hlen := h.len
    have hx : V.rd (idx + m.length) = some x := by
      have h1 : ((V.drop idx).take (m.length + 1))[m.length]? = (m.map some ++ [some x])[m.length]? := by rw [hm]
      rw [List.getElem?_take_of_lt (by omega), List.getElem?_drop, List.getElem?_append_right (by simp)] at h1
      simp at h1
      simp [Buf.rd, h1]
    obtain ⟨d1, e1, e2, e3⟩ := moveAt_view h (i := idx + m.length + g) (j := idx + m.length) (by omega) (by omega) hx
    generalize hV1 : (V.set (idx + m.length) none).set (idx + m.length + g) (some x) = V1 at e2
    have hget : ∀ p, V1[p]? = if p = idx + m.length + g then some (some x) else
        if p = idx + m.length then some none else V[p]? := by
      intro p
      rw [← hV1, List.getElem?_set, List.getElem?_set]
      by_cases h1 : idx + m.length + g = p
      · rw [if_pos h1, if_pos (by simp; omega), if_pos h1.symm]
      · rw [if_neg h1, if_neg (Ne.symm h1)]
        by_cases h2 : idx + m.length = p
        · rw [if_pos h2, if_pos (by omega), if_pos h2.symm]
        · rw [if_neg h2, if_neg (Ne.symm h2)]
    have hm' : (V1.drop idx).take m.length = m.map some := by
      have h1 := congrArg (List.take m.length) hm
      rw [List.take_take, Nat.min_eq_left (by omega), List.take_append_of_le_length (by simp),
        List.take_of_length_le (l := m.map some) (by simp)] at h1
      rw [← h1]
      apply List.ext_getElem?
      intro p
      by_cases hp : p < m.length
      · rw [List.getElem?_take_of_lt hp, List.getElem?_take_of_lt hp, List.getElem?_drop, List.getElem?_drop,
          hget, if_neg (by omega), if_neg (by omega)]
      · simp [hp]
    obtain ⟨d2, V2, f1, f2, f3, f4, f5, f6⟩ := ih e2 hm' (by omega)
    refine ⟨d2, V2, ?_, f2, by rw [f3, e3], ?_, ?_, ?_⟩
    · simp only [List.length_append, List.length_singleton, shiftUp, e1, Option.bind_eq_bind, Option.bind_some]
      exact f1
    · rw [f4]
      apply List.ext_getElem?
      intro p
      by_cases hp : p < idx
      · rw [List.getElem?_take_of_lt hp, List.getElem?_take_of_lt hp, hget, if_neg (by omega), if_neg (by omega)]
      · simp [hp]
    · simp only [List.length_append, List.length_singleton, List.map_append, List.map_cons, List.map_nil]
      rw [List.take_add_one, f5, List.getElem?_drop]
      have : V2[idx + g + m.length]? = (V2.drop (idx + g + m.length))[0]? := by simp
      rw [this, f6, List.getElem?_drop, hget, if_pos (by omega)]
      rfl
    · simp only [List.length_append, List.length_singleton]
      have : V2.drop (idx + g + (m.length + 1)) = (V2.drop (idx + g + m.length)).drop 1 := by
        rw [List.drop_drop]; rfl
      rw [this, f6, List.drop_drop]
      apply List.ext_getElem?
      intro p
      rw [List.getElem?_drop, List.getElem?_drop, hget, if_neg (by omega), if_neg (by omega)]
      congr 1

theorem storeAll_view {d : Deque α} {s c n : Nat} {V : Buf α} (h : View d s c V n) (idx : Nat)
    (m : List α) (hn : idx + m.length ≤ n) :
    ∃ d' V', storeAll d idx m = some d' ∧ View d' s c V' n ∧ d'.dropped = d.dropped ∧
      V'.take (idx + m.length) = V.take idx ++ m.map some ∧
      V'.drop (idx + m.length) = V.drop (idx + m.length) := by
  induction m generalizing d V idx with
  | nil => exact ⟨d, V, rfl, h, rfl, by simp, rfl⟩
  | cons x m ih =>
    simp only [List.length_cons] at hn
    have hlen := h.len
    have hVl := h.length
    obtain ⟨d1, e1, e2, e3⟩ := setAt_view h (i := idx) (by omega) x
    obtain ⟨d2, V2, f1, f2, f3, f4, f5⟩ := ih e2 (idx + 1) (by omega)
    refine ⟨d2, V2, ?_, f2, by rw [f3, e3], ?_, ?_⟩
    · simp only [storeAll, e1, Option.bind_eq_bind, Option.bind_some]
      exact f1
    · have hidx : idx + (x :: m).length = idx + 1 + m.length := by simp; omega
      rw [hidx, f4]
      have : (V.set idx (some x)).take (idx + 1) = V.take idx ++ [some x] := by
        rw [List.take_add_one, List.take_set_of_le (by omega), List.getElem?_set_self (by omega)]
        rfl
      rw [this]
      simp
    · have hidx : idx + (x :: m).length = idx + 1 + m.length := by simp; omega
      rw [hidx, f5, List.drop_set_of_lt (by omega)]

end Verif.Deque
