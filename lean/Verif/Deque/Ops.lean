import Verif.Deque.Lemmas
/- One lemma per `deque` function, on top of the rotated view. -/
namespace Verif.Deque
open Common (land nextPow2)
variable {α : Type}

theorem land_pred {m k s : Nat} (h : m + 1 = 2 ^ k) : land ((s : Int) - 1) m = (s + m) % (m + 1) := by
  have h1 := land_eq h ((s : Int) - 1)
  have h2 : ((s : Int) - 1) % ((m : Int) + 1) = ((s + m : Nat) : Int) % ((m : Int) + 1) := by
    have : ((s + m : Nat) : Int) = ((s : Int) - 1) + ((m : Int) + 1) := by push_cast; ring
    rw [this, Int.add_emod_right]
  rw [h2] at h1
  exact_mod_cast h1

theorem mod_self_add {N s : Nat} (hs : s < N) : (s + 0) % N = s := Nat.mod_eq_of_lt (by omega)

theorem full_iff {s m n : Nat} (hs : s ≤ m) (hn : n ≤ m) : (s + n + 1) % (m + 1) = s ↔ n = m := by
  constructor
  · intro h
    by_contra hne
    have : 0 = n + 1 := mod_inj (N := m + 1) (s := s) (by omega) (by omega) (by
      rw [mod_self_add (by omega), ← Nat.add_assoc, h])
    omega
  · rintro rfl
    rw [Nat.add_assoc, Nat.add_mod_right, Nat.mod_eq_of_lt (by omega)]

theorem slice_map {V : Buf α} {l : List α} (h : V.take l.length = l.map some) {i k : Nat}
    (hk : i + k ≤ l.length) : (V.drop i).take k = ((l.drop i).take k).map some := by
  have : (V.drop i).take k = ((V.take l.length).drop i).take k := by
    rw [List.drop_take, List.take_take]
    congr 1; omega
  rw [this, h, ← List.map_drop, ← List.map_take]

/-! ### push -/

theorem push_store {d : Deque α} {l : List α} (h : Rep d l) (hroom : l.length < d.capmask) (x : α) :
    ∃ b b', d.cbuf = some b ∧ b.wr d.fin x = some b' ∧
      Rep { d with cbuf := some b', fin := land ((d.fin : Int) + 1) d.capmask } (l ++ [x]) := by
  obtain ⟨k, hk⟩ := h.pow
  have hs := h.start
  cases hd : d.cbuf with
  | none => have := h.null hd; omega
  | some b =>
    obtain ⟨hb1, hb2⟩ := h.blk b hd
    have hlt : d.fin < b.length := by rw [hb1, h.fin]; exact Nat.mod_lt _ (by omega)
    refine ⟨b, _, rfl, by rw [Buf.wr, if_pos hlt], ⟨k, hk⟩, hs, by simp; omega, ?_, by simp, ?_⟩
    · simp only
      rw [h.fin]
      have := land_inc (s := d.start + l.length) (n := 1) hk
      simp only [Nat.cast_one] at this
      rw [this]
      simp [Nat.add_assoc]
    · intro b' hb'
      simp only [Option.some.injEq] at hb'
      subst hb'
      refine ⟨by simpa using hb1, ?_⟩
      rw [h.fin, rotate_set hb1 (by omega)]
      simp only [List.length_append, List.length_singleton, List.map_append, List.map_cons, List.map_nil]
      rw [List.take_add_one, List.take_set_of_le (by omega), hb2, List.getElem?_set_self (by simp; omega)]
      rfl

theorem push_spec {d : Deque α} {l : List α} (h : Rep d l) (ok : Bool) (x : α) (hl : l.length < 2 ^ 61) :
    ∃ d' r, push ok d x = some (d', r) ∧ d'.dropped = d.dropped ∧
      (r = true → Rep d' (l ++ [x])) ∧ (r = false → d' = d ∧ ok = false) := by
  obtain ⟨k, hk⟩ := h.pow
  have hs := h.start
  have hlen := h.len
  have he : land ((d.fin : Int) + 1) d.capmask = (d.start + l.length + 1) % (d.capmask + 1) := by
    rw [h.fin]
    exact_mod_cast land_inc (s := d.start + l.length) (n := 1) hk
  unfold push
  simp only [he]
  by_cases hfull : l.length = d.capmask
  · rw [if_pos ((full_iff hs hlen).2 hfull)]
    obtain ⟨d1, r, e1, e2, e3, e4, e5⟩ := reserve_spec h ok (d.capmask + 3) (by unfold fits; omega)
    rw [e1]
    simp only [Option.bind_eq_bind, Option.bind_some]
    cases r
    · refine ⟨d1, false, by simp, e3, by simp, fun _ => ?_⟩
      obtain ⟨a, b⟩ := e5 rfl
      refine ⟨a, ?_⟩
      cases ok
      · rfl
      · have := (b rfl).1; omega
    · obtain ⟨a, _⟩ := e4 rfl
      obtain ⟨b, b', hb, hb', hrep⟩ := push_store e2 (by omega) x
      have hgoal := fun _ : true = true => hrep
      refine ⟨_, true, ?_, ?_, hgoal, by simp⟩
      · simp [hb, hb']
      · exact e3
  · rw [if_neg (fun hh => hfull ((full_iff hs hlen).1 hh))]
    obtain ⟨b, b', hb, hb', hrep⟩ := push_store h (by omega) x
    rw [he] at hrep
    have hgoal := fun _ : true = true => hrep
    refine ⟨_, true, ?_, ?_, hgoal, by simp⟩
    · simp [hb, hb']
    · rfl

theorem pushFront_store {d : Deque α} {l : List α} (h : Rep d l) (hroom : l.length < d.capmask) (x : α) :
    ∃ b b', d.cbuf = some b ∧ b.wr (land ((d.start : Int) - 1) d.capmask) x = some b' ∧
      Rep { d with cbuf := some b', start := land ((d.start : Int) - 1) d.capmask } (x :: l) := by
  obtain ⟨k, hk⟩ := h.pow
  have hs := h.start
  rw [land_pred hk]
  cases hd : d.cbuf with
  | none => have := h.null hd; omega
  | some b =>
    obtain ⟨hb1, hb2⟩ := h.blk b hd
    have hlt : (d.start + d.capmask) % (d.capmask + 1) < d.capmask + 1 := Nat.mod_lt _ (by omega)
    have hsh : ∀ i, ((d.start + d.capmask) % (d.capmask + 1) + (i + 1)) % (d.capmask + 1) =
        (d.start + i) % (d.capmask + 1) := by
      intro i
      rw [Nat.mod_add_mod, show d.start + d.capmask + (i + 1) = d.start + i + (d.capmask + 1) by omega,
        Nat.add_mod_right]
    refine ⟨b, _, rfl, by rw [Buf.wr, if_pos (by omega)], ⟨k, hk⟩, by simp only; omega, by simp; omega, ?_, by simp, ?_⟩
    · simp only [List.length_cons]
      rw [hsh, h.fin]
    · intro b' hb'
      simp only [Option.some.injEq] at hb'
      subst hb'
      refine ⟨by simpa using hb1, ?_⟩
      rw [take_rotate_iff (N := d.capmask + 1) (by simpa using hb1) (by simp; omega)]
      intro i hi
      simp only [List.length_cons] at hi
      cases i with
      | zero =>
        rw [mod_self_add hlt, List.getElem?_set_self (by omega)]
        simp
      | succ i =>
        have h1 := (take_rotate_iff hb1 (by omega)).1 hb2 i (by omega)
        rw [hsh, List.getElem?_set_ne, h1]
        · simp
        · intro hcon
          have : 0 = i + 1 := mod_inj (N := d.capmask + 1) (s := (d.start + d.capmask) % (d.capmask + 1))
            (by omega) (by omega) (by rw [mod_self_add hlt, hsh]; exact hcon)
          omega

theorem pushFront_spec {d : Deque α} {l : List α} (h : Rep d l) (ok : Bool) (x : α) (hl : l.length < 2 ^ 61) :
    ∃ d' r, pushFront ok d x = some (d', r) ∧ d'.dropped = d.dropped ∧
      (r = true → Rep d' (x :: l)) ∧ (r = false → d' = d ∧ ok = false) := by
  obtain ⟨k, hk⟩ := h.pow
  have hs := h.start
  have hlen := h.len
  unfold pushFront
  by_cases hfull : l.length = d.capmask
  · have hc : land ((d.start : Int) - 1) d.capmask = d.fin := by rw [land_pred hk, h.fin, hfull]
    rw [if_pos hc]
    obtain ⟨d1, r, e1, e2, e3, e4, e5⟩ := reserve_spec h ok (d.capmask + 3) (by unfold fits; omega)
    rw [e1]
    simp only [Option.bind_eq_bind, Option.bind_some]
    cases r
    · refine ⟨d1, false, by simp, e3, by simp, fun _ => ?_⟩
      obtain ⟨a, b⟩ := e5 rfl
      refine ⟨a, ?_⟩
      cases ok
      · rfl
      · have := (b rfl).1; omega
    · obtain ⟨a, _⟩ := e4 rfl
      obtain ⟨b, b', hb, hb', hrep⟩ := pushFront_store e2 (by omega) x
      have hgoal := fun _ : true = true => hrep
      refine ⟨_, true, ?_, ?_, hgoal, by simp⟩
      · simp [hb, hb']
      · exact e3
  · have hc : land ((d.start : Int) - 1) d.capmask ≠ d.fin := by
      rw [land_pred hk, h.fin]
      intro hcon
      exact hfull (mod_inj (by omega) (by omega) hcon).symm
    rw [if_neg hc]
    obtain ⟨b, b', hb, hb', hrep⟩ := pushFront_store h (by omega) x
    have hgoal := fun _ : true = true => hrep
    refine ⟨_, true, ?_, ?_, hgoal, by simp⟩
    · simp [hb, hb']
    · rfl

/-! ### pop, pull -/

theorem pop_core {d : Deque α} {x : α} {l : List α} (h : Rep d (x :: l)) (log : List α) :
    ∃ b, d.cbuf = some b ∧ b.kill d.start = some (x, b.set d.start none) ∧
      Rep { d with cbuf := some (b.set d.start none), start := land ((d.start : Int) + 1) d.capmask,
                   dropped := log } l := by
  obtain ⟨k, hk⟩ := h.pow
  have hs := h.start
  have hlen := h.len
  simp only [List.length_cons] at hlen
  obtain ⟨b, hb, hb1, hb2⟩ := h.blk_of_ne (by simp)
  have hpt := (take_rotate_iff hb1 (by simp; omega)).1 hb2
  have h0 := hpt 0 (by simp)
  rw [mod_self_add (by omega)] at h0
  have hst : land ((d.start : Int) + 1) d.capmask = (d.start + 1) % (d.capmask + 1) := by
    exact_mod_cast land_nat hk (d.start + 1)
  have hsh : ∀ i, ((d.start + 1) % (d.capmask + 1) + i) % (d.capmask + 1) = (d.start + (i + 1)) % (d.capmask + 1) := by
    intro i
    rw [Nat.mod_add_mod]; congr 1; omega
  refine ⟨b, hb, ?_, ⟨k, hk⟩, ?_, by simp only; omega, ?_, by simp, ?_⟩
  · simp [Buf.kill, Buf.rd, h0]
  · simp only [hst]
    have := Nat.mod_lt (d.start + 1) (show 0 < d.capmask + 1 by omega)
    omega
  · simp only [hst]
    rw [hsh, h.fin]; simp
  · intro b' hb'
    simp only [Option.some.injEq] at hb'
    subst hb'
    refine ⟨by simpa using hb1, ?_⟩
    simp only [hst]
    rw [take_rotate_iff (N := d.capmask + 1) (by simpa using hb1) (by omega)]
    intro i hi
    have h1 := hpt (i + 1) (by simp; omega)
    rw [hsh, List.getElem?_set_ne, h1]
    · simp
    · intro hcon
      have : 0 = i + 1 := mod_inj (N := d.capmask + 1) (s := d.start) (by omega) (by omega)
        (by rw [mod_self_add (by omega)]; exact hcon)
      omega

theorem pop_spec {d : Deque α} {x : α} {l : List α} (h : Rep d (x :: l)) :
    ∃ d', pop d = some d' ∧ Rep d' l ∧ d'.dropped = d.dropped ++ [x] := by
  obtain ⟨b, hb, hk, hr⟩ := pop_core h (d.dropped ++ [x])
  refine ⟨_, ?_, hr, rfl⟩
  simp [pop, h.not_empty (by simp), hb, hk]

theorem pull_spec {d : Deque α} {x : α} {l : List α} (h : Rep d (x :: l)) :
    ∃ d', pull d = some (d', x) ∧ Rep d' l ∧ d'.dropped = d.dropped := by
  obtain ⟨b, hb, hk, hr⟩ := pop_core h d.dropped
  refine ⟨_, ?_, hr, rfl⟩
  simp [pull, h.not_empty (by simp), hb, hk]

theorem popBack_core {d : Deque α} {x : α} {l : List α} (h : Rep d (l ++ [x])) (log : List α) :
    ∃ b b', d.cbuf = some b ∧ b.kill (land ((d.fin : Int) - 1) d.capmask) = some (x, b') ∧
      Rep { d with cbuf := some b', fin := land ((d.fin : Int) - 1) d.capmask, dropped := log } l := by
  obtain ⟨k, hk⟩ := h.pow
  have hs := h.start
  have hlen := h.len
  simp only [List.length_append, List.length_singleton] at hlen
  obtain ⟨b, hb, hb1, hb2⟩ := h.blk_of_ne (by simp)
  have hpt := (take_rotate_iff hb1 (by simp; omega)).1 hb2
  have hfin : land ((d.fin : Int) - 1) d.capmask = (d.start + l.length) % (d.capmask + 1) := by
    rw [h.fin]
    have := land_dec (s := d.start + (l ++ [x]).length) (n := 1) hk (by simp; omega)
    simp only [Nat.cast_one] at this
    rw [this]
    simp
  have h0 := hpt l.length (by simp)
  refine ⟨b, b.set ((d.start + l.length) % (d.capmask + 1)) none, hb, ?_, ⟨k, hk⟩, hs, by simp only; omega, hfin,
    by simp, ?_⟩
  · simp [hfin, Buf.kill, Buf.rd, h0]
  · intro b' hb'
    simp only [Option.some.injEq] at hb'
    subst hb'
    refine ⟨by simpa using hb1, ?_⟩
    rw [rotate_set hb1 (by omega), List.take_set_of_le (by omega)]
    have := congrArg (List.take l.length) hb2
    rw [List.take_take] at this
    simpa using this

theorem popBack_spec {d : Deque α} {x : α} {l : List α} (h : Rep d (l ++ [x])) :
    ∃ d', popBack d = some d' ∧ Rep d' l ∧ d'.dropped = d.dropped ++ [x] := by
  obtain ⟨b, b', hb, hk, hr⟩ := popBack_core h (d.dropped ++ [x])
  refine ⟨_, ?_, hr, rfl⟩
  simp [popBack, h.not_empty (by simp), hb, hk]

theorem pullBack_spec {d : Deque α} {x : α} {l : List α} (h : Rep d (l ++ [x])) :
    ∃ d', pullBack d = some (d', x) ∧ Rep d' l ∧ d'.dropped = d.dropped := by
  obtain ⟨b, b', hb, hk, hr⟩ := popBack_core h d.dropped
  refine ⟨_, ?_, hr, rfl⟩
  simp [pullBack, h.not_empty (by simp), hb, hk]

/-! ### element access -/

theorem at_spec {d : Deque α} {l : List α} (h : Rep d l) (i : Nat) : at' d i = l[i]? := by
  by_cases hi : i < l.length
  · obtain ⟨b, hb, hb1, hb2⟩ := h.blk_of_ne (by intro h0; simp [h0] at hi)
    have hlen := h.len
    have : atPos d i = some ((d.start + i) % (d.capmask + 1)) := by
      rw [atPos, h.size, guard_pos hi]; simp [h.topos]
    simp only [at', this, hb, Option.bind_eq_bind, Option.bind_some]
    rw [rd_rotate hb1 (by omega), Buf.rd_of_take hb2 hi]
  · have : atPos d i = none := by simp [atPos, h.size, hi]
    simp [at', this]; omega

theorem front_spec {d : Deque α} {l : List α} (h : Rep d l) (hl : l ≠ []) : front d = l.head? := by
  obtain ⟨b, hb, hb1, hb2⟩ := h.blk_of_ne hl
  have hs := h.start
  have : d.start = (d.start + 0) % (d.capmask + 1) := (mod_self_add (by omega)).symm
  simp only [front, hb, Option.bind_eq_bind, Option.bind_some]
  rw [this, rd_rotate hb1 (by omega), Buf.rd_of_take hb2 (List.length_pos_iff.2 hl), ← List.head?_eq_getElem?]

theorem back_spec {d : Deque α} {l : List α} (h : Rep d l) (hl : l ≠ []) : back d = l.getLast? := by
  obtain ⟨k, hk⟩ := h.pow
  obtain ⟨b, hb, hb1, hb2⟩ := h.blk_of_ne hl
  have hs := h.start
  have hlen := h.len
  have hpos := List.length_pos_iff.2 hl
  have : land ((d.fin : Int) - 1) d.capmask = (d.start + (l.length - 1)) % (d.capmask + 1) := by
    rw [h.fin]
    have := land_dec (s := d.start + l.length) (n := 1) hk (by omega)
    simp only [Nat.cast_one] at this
    rw [this]
    congr 1; omega
  simp only [back, hb, Option.bind_eq_bind, Option.bind_some]
  rw [this, rd_rotate hb1 (by omega), Buf.rd_of_take hb2 (by omega), List.getLast?_eq_getElem?]

theorem setAt_spec {d : Deque α} {l : List α} (h : Rep d l) {i : Nat} (hi : i < l.length) (x : α) :
    ∃ d', setAt d i x = some d' ∧ Rep d' (l.set i x) ∧ d'.dropped = d.dropped := by
  have hl : l ≠ [] := by intro h0; simp [h0] at hi
  obtain ⟨b, hb, _⟩ := h.blk_of_ne hl
  obtain ⟨V, hV, ht⟩ := h.view (by simp [hb])
  obtain ⟨d', e1, e2, e3⟩ := setAt_view hV hi x
  refine ⟨d', e1, View.rep (V := V.set i (some x)) (s := d.start) (c := d.capmask) (by simpa using e2) ?_, e3⟩
  rw [List.length_set, List.take_set, ht, List.map_set]

/-! ### insert, erase -/

theorem eraseN_spec {d : Deque α} {l : List α} (h : Rep d l) (idx n : Nat) (hn : idx + n ≤ l.length) :
    ∃ d', eraseN d idx n = some d' ∧ Rep d' (l.take idx ++ l.drop (idx + n)) ∧
      d'.dropped = d.dropped ++ ((l.drop idx).take n).reverse ∧ d'.start = d.start ∧ d'.capmask = d.capmask := by
  obtain ⟨k, hk⟩ := h.pow
  have hs := h.start
  have hlen := h.len
  by_cases hd : d.cbuf = none
  · have := h.null hd
    have h0 : l = [] := List.length_eq_zero_iff.1 (by omega)
    subst h0
    simp at hn
    obtain ⟨rfl, rfl⟩ := hn
    refine ⟨d, ?_, by simpa using h, by simp, rfl, rfl⟩
    have hf : land ((d.fin : Int) - (0 : Nat)) d.capmask = d.fin := by
      have hfin := h.fin
      have := land_nat hk d.fin
      simp only [Nat.cast_zero, Int.sub_zero]
      rw [this, Nat.mod_eq_of_lt]
      rw [hfin]; exact Nat.mod_lt _ (by omega)
    simp only [eraseN, h.size, List.length_nil, Nat.le_refl, Nat.add_zero, guard_true', dropDown, shiftDown, Nat.sub_self,
      Option.bind_eq_bind, Option.bind_some, hf]
  · obtain ⟨V, hV, ht⟩ := h.view hd
    generalize hm1 : (l.drop idx).take n = m1
    have hm1l : m1.length = n := by rw [← hm1]; simp; omega
    generalize hm2 : l.drop (idx + n) = m2
    have hm2l : m2.length = l.length - (idx + n) := by rw [← hm2]; simp
    obtain ⟨d1, V1, e1, e2, e3, e4, e5⟩ := dropDown_view hV idx m1
      (by rw [hm1l, slice_map ht hn, hm1]) (by omega)
    rw [hm1l] at e1 e5
    have h2 : (V1.drop (idx + n)).take m2.length = m2.map some := by
      rw [e5, slice_map ht (by omega), List.take_of_length_le (by simp; omega), hm2]
    obtain ⟨d2, V2, f1, f2, f3, f4⟩ := shiftDown_view e2 idx n m2 h2 (by omega)
    rw [hm2l] at f1
    refine ⟨{ d2 with fin := land ((d2.fin : Int) - n) d2.capmask }, ?_, ?_, ?_, f2.hs, f2.hc⟩
    · unfold eraseN
      simp only [h.size, guard_pos hn, Option.bind_eq_bind, Option.bind_some, e1, f1]
    · have hl' : (l.take idx ++ m2).length = l.length - n := by simp; omega
      refine View.rep (s := d.start) (c := d.capmask) (V := V2) ?_ ?_
      · refine ⟨f2.hs, f2.hc, f2.pow, f2.start, by omega, ?_, f2.blk⟩
        simp only [f2.hc, f2.fin]
        rw [land_dec hk (by omega), hl']
        congr 1; omega
      · have : (l.take idx ++ m2).length = idx + m2.length := by simp; omega
        rw [this, f4, e4, List.map_append, List.map_take]
        congr 1
        have := slice_map ht (i := 0) (k := idx) (by omega)
        simpa [List.map_take] using this
    · simp [f3, e3]

theorem move_view {d : Deque α} {s c n idx g : Nat} {V : Buf α} (h : View d s c V (n + g)) (hidx : idx ≤ n)
    (hlt : (s + idx) % (c + 1) < d.fin) :
    ∃ b b' V', d.cbuf = some b ∧ b.move ((s + idx) % (c + 1) + g) ((s + idx) % (c + 1)) (n - idx) = some b' ∧
      View { d with cbuf := some b' } s c V' (n + g) ∧
      (∀ i, i < idx → V'[i]? = V[i]?) ∧ (∀ i, i < n - idx → V'[idx + g + i]? = V[idx + i]?) := by
  obtain ⟨b, hb, hb1, hb2⟩ := h.blk
  have hlen := h.len
  have hst := h.start
  have hf := h.fin
  -- positions do not wrap between idx and the new end
  have hdiff : d.fin = (s + idx) % (c + 1) + (n + g - idx) := by
    have h1 : (s + (n + g)) % (c + 1) = ((s + idx) % (c + 1) + (n + g - idx)) % (c + 1) := by
      rw [Nat.mod_add_mod]; congr 1; omega
    have h2 : (s + idx) % (c + 1) < c + 1 := Nat.mod_lt _ (by omega)
    have h4 : d.fin < c + 1 := by rw [hf]; exact Nat.mod_lt _ (by omega)
    by_cases h3 : (s + idx) % (c + 1) + (n + g - idx) < c + 1
    · rw [hf, h1, Nat.mod_eq_of_lt h3]
    · rw [h1, Nat.mod_eq_sub_mod (by omega), Nat.mod_eq_of_lt (by omega)] at hf
      omega
  have h4 : d.fin < c + 1 := by rw [hf]; exact Nat.mod_lt _ (by omega)
  generalize hpos : (s + idx) % (c + 1) = pos at *
  have hpj : ∀ j, j < n + g - idx → (s + (idx + j)) % (c + 1) = pos + j := by
    intro j hj
    rw [← Nat.add_assoc, ← Nat.mod_add_mod, hpos, Nat.mod_eq_of_lt (by omega)]
  obtain ⟨b', hb'⟩ := Buf.move_isSome (b := b) (dst := pos + g) (src := pos) (n := n - idx) (by omega) (by omega)
  have hl' : b'.length = c + 1 := by rw [Buf.length_move hb', hb1]
  have hVi : ∀ i, i < c + 1 → V[i]? = b[(s + i) % (c + 1)]? := by
    intro i hi
    rw [← hb2, List.getElem?_rotate (by omega), hb1, Nat.add_comm]
  have hVi' : ∀ i, i < c + 1 → (b'.rotate s)[i]? = b'[(s + i) % (c + 1)]? := by
    intro i hi
    rw [List.getElem?_rotate (by omega), hl', Nat.add_comm]
  refine ⟨b, b', b'.rotate s, hb, hb', ⟨h.hs, h.hc, h.pow, h.start, h.len, h.fin, b', rfl, hl', rfl⟩, ?_, ?_⟩
  · intro i hi
    rw [hVi' i (by omega), hVi i (by omega), Buf.getElem?_move hb']
    have hnot : ∀ j, j < n + g - idx → (s + i) % (c + 1) ≠ pos + j := by
      intro j hj hcon
      rw [← hpj j hj] at hcon
      have := mod_inj (N := c + 1) (by omega) (by omega) hcon
      omega
    rw [if_neg, if_neg]
    · rintro ⟨a1, a2⟩
      exact hnot ((s + i) % (c + 1) - pos) (by omega) (by omega)
    · rintro ⟨a1, a2⟩
      exact hnot ((s + i) % (c + 1) - pos) (by omega) (by omega)
  · intro i hi
    rw [hVi' _ (by omega), hVi _ (by omega), hpj i (by omega), Nat.add_assoc, hpj (g + i) (by omega),
      Buf.getElem?_move hb', if_pos (by omega)]
    congr 1; omega

theorem insertUninit_go {d : Deque α} {l : List α} (h : Rep d l) (hd : d.cbuf ≠ none) (idx n : Nat)
    (hidx : idx ≤ l.length) (hroom : l.length + n ≤ d.capmask) :
    ∃ d' V', openGap d idx n l.length =
          some (d', (⟨some ((d.start + idx) % (d.capmask + 1)), (d.start + idx) % (d.capmask + 1)⟩ : Iter)) ∧
      View d' d.start d.capmask V' (l.length + n) ∧ d'.dropped = d.dropped ∧
      V'.take idx = (l.take idx).map some ∧
      (V'.drop (idx + n)).take (l.length - idx) = (l.drop idx).map some := by
  obtain ⟨k, hk⟩ := h.pow
  obtain ⟨V, hV, ht⟩ := h.view hd
  have hfin : land ((d.fin : Int) + n) d.capmask = (d.start + (l.length + n)) % (d.capmask + 1) := by
    rw [h.fin, land_inc hk, Nat.add_assoc]
  have hV' : View { d with fin := (d.start + (l.length + n)) % (d.capmask + 1) } d.start d.capmask V (l.length + n) :=
    ⟨rfl, rfl, hV.pow, hV.start, hroom, rfl, hV.blk⟩
  have htake : V.take idx = (l.take idx).map some := by
    have := slice_map ht (i := 0) (k := idx) (by omega)
    simpa using this
  have hdrop : (V.drop idx).take (l.length - idx) = (l.drop idx).map some := by
    rw [slice_map ht (by omega), List.take_of_length_le (by simp)]
  simp only [openGap, hfin, h.topos]
  by_cases hc : (d.start + idx) % (d.capmask + 1) < (d.start + (l.length + n)) % (d.capmask + 1)
  · obtain ⟨b, b', V1, e1, e2, e3, e4, e5⟩ := move_view hV' hidx hc
    refine ⟨_, V1, ?_, e3, rfl, ?_, ?_⟩
    · simp only at e1
      simp [hc, e1, e2]
    · rw [← htake]
      apply List.ext_getElem?
      intro i
      by_cases hi : i < idx
      · rw [List.getElem?_take_of_lt hi, List.getElem?_take_of_lt hi, e4 i hi]
      · simp [hi]
    · rw [← hdrop]
      apply List.ext_getElem?
      intro i
      by_cases hi : i < l.length - idx
      · rw [List.getElem?_take_of_lt hi, List.getElem?_take_of_lt hi, List.getElem?_drop, List.getElem?_drop, e5 i hi]
      · simp [hi]
  · have hml : (l.drop idx).length = l.length - idx := by simp
    obtain ⟨d2, V2, f1, f2, f3, f4, f5, f6⟩ := shiftUp_view hV' idx n (l.drop idx)
      (by rw [hml, hdrop]) (by omega)
    rw [hml] at f1 f5
    refine ⟨d2, V2, ?_, f2, f3, by rw [f4, htake], f5⟩
    simp [hc, f1]

theorem insertN_spec {d : Deque α} {l : List α} (h : Rep d l) (idx : Nat) (arr : List α)
    (hidx : idx ≤ l.length) (hmax : l.length + arr.length < 2 ^ 61) (hne : l ≠ [] ∨ arr ≠ [] ∨ d.cbuf ≠ none) :
    ∃ d' it, insertN true d idx arr = some (d', it) ∧
      Rep d' (l.take idx ++ arr ++ l.drop idx) ∧ d'.dropped = d.dropped ∧ d'.cbuf ≠ none ∧
      it = ⟨some ((d'.start + idx) % (d'.capmask + 1)), (d'.start + idx) % (d'.capmask + 1)⟩ := by
  have main : ∀ e : Deque α, Rep e l → e.cbuf ≠ none → l.length + arr.length ≤ e.capmask →
      ∃ d' V', openGap e idx arr.length l.length =
          some (d', (⟨some ((e.start + idx) % (e.capmask + 1)), (e.start + idx) % (e.capmask + 1)⟩ : Iter)) ∧
      View d' e.start e.capmask V' (l.length + arr.length) ∧ d'.dropped = e.dropped ∧
      V'.take idx = (l.take idx).map some ∧
      (V'.drop (idx + arr.length)).take (l.length - idx) = (l.drop idx).map some :=
    fun e he hd hr => insertUninit_go he hd idx arr.length hidx hr
  have fin : ∀ (e d1 : Deque α) (V1 : Buf α), View d1 e.start e.capmask V1 (l.length + arr.length) →
      V1.take idx = (l.take idx).map some →
      (V1.drop (idx + arr.length)).take (l.length - idx) = (l.drop idx).map some →
      ∃ d', storeAll d1 idx arr = some d' ∧ Rep d' (l.take idx ++ arr ++ l.drop idx) ∧
        d'.dropped = d1.dropped ∧ d'.cbuf ≠ none ∧ d'.start = e.start ∧ d'.capmask = e.capmask := by
    intro e d1 V1 hV1 h1 h2
    obtain ⟨d2, V2, f1, f2, f3, f4, f5⟩ := storeAll_view hV1 idx arr (by omega)
    have hl' : (l.take idx ++ arr ++ l.drop idx).length = l.length + arr.length := by simp; omega
    refine ⟨d2, f1, View.rep (s := e.start) (c := e.capmask) (V := V2) (by rw [hl']; exact f2) ?_, f3, ?_, f2.hs, f2.hc⟩
    · rw [hl', show l.length + arr.length = (idx + arr.length) + (l.length - idx) by omega, List.take_add, f4, f5, h1, h2]
      simp
    · obtain ⟨b, hb, _⟩ := f2.blk
      simp [hb]
  unfold insertN insertUninit
  simp only [h.size, guard_pos hidx, Option.bind_eq_bind, Option.bind_some]
  by_cases hc : l.length + arr.length ≥ d.capmask
  · rw [if_pos hc]
    obtain ⟨d1, r, e1, e2, e3, e4, e5⟩ := reserve_spec h true (l.length + arr.length) (by unfold fits; omega)
    have hr : r = true := by
      cases r
      · obtain ⟨a, b⟩ := (e5 rfl).2 rfl
        rcases hne with h0 | h0 | h0
        · have := List.length_pos_iff.2 h0; omega
        · have := List.length_pos_iff.2 h0; omega
        · exact absurd b h0
      · rfl
    subst hr
    obtain ⟨a1, a2⟩ := e4 rfl
    obtain ⟨d2, V2, f1, f2, f3, f4, f5⟩ := main d1 e2 a2 a1
    obtain ⟨d3, g1, g2, g3, g4, g5, g6⟩ := fin d1 d2 V2 f2 f4 f5
    refine ⟨d3, _, ?_, g2, by rw [g3, f3, e3], g4, by rw [g5, g6]⟩
    simp only [e1, Option.bind_some, if_true]
    simp only [f1, Option.bind_some, g1]
  · rw [if_neg hc]
    have hd : d.cbuf ≠ none := by
      intro h0
      have := h.null h0
      omega
    obtain ⟨d2, V2, f1, f2, f3, f4, f5⟩ := main d h hd (by omega)
    obtain ⟨d3, g1, g2, g3, g4, g5, g6⟩ := fin d d2 V2 f2 f4 f5
    refine ⟨d3, _, ?_, g2, by rw [g3, f3], g4, by rw [g5, g6]⟩
    simp only [f1, Option.bind_some, g1]

end Verif.Deque
