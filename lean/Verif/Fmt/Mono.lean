import Verif.Fmt.Lemmas
/-
A larger buffer does not change the result; what is written fits the buffer.
-/
namespace Verif.Fmt
open Spec

variable {cap cap' nargs : Nat}

theorem put_mono (h : cap ≤ cap') {out out' : List Char} {c : Char} (hp : put cap out c = some out') :
    put cap' out c = some out' ∧ out'.length ≤ cap := by
  simp only [put] at hp ⊢
  split at hp
  · next hlt =>
    cases hp
    rw [if_pos (by omega)]
    exact ⟨rfl, by simp; omega⟩
  · cases hp

theorem putAll_mono (h : cap ≤ cap') : ∀ {cs out out' : List Char}, putAll cap out cs = some out' →
    out.length ≤ cap → putAll cap' out cs = some out' ∧ out'.length ≤ cap
  | [], out, out', hp, hl => by
    simp only [putAll] at hp ⊢
    cases hp
    exact ⟨rfl, hl⟩
  | c :: cs, out, out', hp, hl => by
    simp only [putAll, Option.bind_eq_some_iff] at hp ⊢
    obtain ⟨o, h1, h2⟩ := hp
    obtain ⟨h3, h4⟩ := put_mono h h1
    obtain ⟨h5, h6⟩ := putAll_mono h h2 h4
    exact ⟨⟨o, h3, h5⟩, h6⟩

theorem modLoop_mono (h : cap ≤ cap') : ∀ {r : List Char} {last : Char} {s : Fld} {x : List Char × Char × Fld},
    modLoop cap nargs r last s = some x → s.out.length ≤ cap →
    modLoop cap' nargs r last s = some x ∧ x.2.2.out.length ≤ cap
  | [], _, _, _, hm, _ => by simp [modLoop] at hm
  | c :: r, last, s, x, hm, hl => by
    simp only [modLoop] at hm ⊢
    split at hm
    · next h1 => cases hm; rw [if_pos h1]; exact ⟨rfl, hl⟩
    · next h1 =>
      rw [if_neg h1]
      split at hm
      · next h2 => cases hm; rw [if_pos h2]; exact ⟨rfl, hl⟩
      · next h2 =>
        rw [if_neg h2]
        split at hm
        · next h3 =>
          rw [if_pos h3]
          simp only [Option.bind_eq_some_iff] at hm ⊢
          obtain ⟨o, g1, g2⟩ := hm
          obtain ⟨g3, g4⟩ := put_mono h g1
          obtain ⟨g5, g6⟩ := modLoop_mono h g2 g4
          exact ⟨⟨o, g3, g5⟩, g6⟩
        · next h3 =>
          rw [if_neg h3]
          split at hm
          · next h4 => rw [if_pos h4]; exact modLoop_mono h hm hl
          · next h4 =>
            rw [if_neg h4]
            split at hm
            · next h5 => rw [if_pos h5]; exact modLoop_mono h hm hl
            · next h5 =>
              rw [if_neg h5]
              split at hm
              · next h6 =>
                rw [if_pos h6]
                split at hm
                · next h7 =>
                  rw [if_pos h7]
                  simp only [Option.bind_eq_some_iff] at hm ⊢
                  obtain ⟨a, g0, o, g1, g2⟩ := hm
                  obtain ⟨g3, g4⟩ := put_mono h g1
                  obtain ⟨g5, g6⟩ := modLoop_mono h g2 g4
                  exact ⟨⟨a, g0, o, g3, g5⟩, g6⟩
                · next h7 =>
                  rw [if_neg h7]
                  simp only [Option.bind_eq_some_iff] at hm ⊢
                  obtain ⟨o, g1, g2⟩ := hm
                  obtain ⟨g3, g4⟩ := put_mono h g1
                  obtain ⟨g5, g6⟩ := modLoop_mono h g2 g4
                  exact ⟨⟨o, g3, g5⟩, g6⟩
              · next h6 =>
                rw [if_neg h6]
                simp only [Option.bind_eq_some_iff] at hm ⊢
                obtain ⟨o, g1, g2⟩ := hm
                obtain ⟨g3, g4⟩ := put_mono h g1
                obtain ⟨g5, g6⟩ := modLoop_mono h g2 g4
                exact ⟨⟨o, g3, g5⟩, g6⟩

theorem precision_mono (h : cap ≤ cap') {e : Bool} {arg out : List Char} {x : List Char × List Char}
    (hp : precision cap e arg out = some x) (hl : out.length ≤ cap) :
    precision cap' e arg out = some x ∧ x.2.length ≤ cap := by
  have key : ∀ (t : List Char) (y : List Char),
      (if e then putAll cap out t else some out) = some y →
      (if e then putAll cap' out t else some out) = some y ∧ y.length ≤ cap := by
    intro t y hy
    cases e
    · simp only [Bool.false_eq_true, if_false] at hy ⊢
      cases hy; exact ⟨rfl, hl⟩
    · simp only [if_true] at hy ⊢
      exact putAll_mono h hy hl
  unfold precision at hp ⊢
  split at hp
  · simp only [Option.map_eq_some_iff] at hp ⊢
    obtain ⟨y, hy, rfl⟩ := hp
    exact ⟨⟨y, (key _ _ hy).1, rfl⟩, (key _ _ hy).2⟩
  · simp only [Option.map_eq_some_iff] at hp ⊢
    obtain ⟨y, hy, rfl⟩ := hp
    exact ⟨⟨y, (key _ _ hy).1, rfl⟩, (key _ _ hy).2⟩
  · cases hp; exact ⟨rfl, hl⟩

theorem leftAlign_mono (h : cap ≤ cap') {p0 : Option Nat} {out out' : List Char}
    (hp : leftAlign cap p0 out = some out') (hl : out.length ≤ cap) :
    leftAlign cap' p0 out = some out' ∧ out'.length ≤ cap := by
  unfold leftAlign at hp ⊢
  split at hp
  · cases hp; exact ⟨rfl, hl⟩
  · split at hp
    · next h1 =>
      split at hp
      · next h2 =>
        cases hp
        simp only [if_pos h1]
        rw [if_pos (by omega)]
        refine ⟨rfl, ?_⟩
        have h3 : ∀ k, (out.take k).length + (out.drop k).length = out.length := by
          intro k; rw [← List.length_append, List.take_append_drop]
        simp only [List.length_append, List.length_cons]
        have := h3 (by assumption)
        omega
      · cases hp
    · next h1 => cases hp; simp only [if_neg h1]; exact ⟨trivial, hl⟩

theorem field_mono (h : cap ≤ cap') {r : List Char} {s : St} {x : List Char × St}
    (hf : field cap nargs r s = some x) :
    field cap' nargs r s = some x ∧ x.2.out.length ≤ cap := by
  unfold field at hf ⊢
  simp only [Option.bind_eq_some_iff] at hf ⊢
  obtain ⟨c, hc, e, he, a, ha, o1, h1, ⟨r', l, f⟩, h2, ⟨arg, o2⟩, h3, o3, h4, o4, h5, d, hd, hx⟩ := hf
  obtain ⟨g1, k1⟩ := put_mono h h1
  obtain ⟨g2, k2⟩ := modLoop_mono h h2 k1
  obtain ⟨g3, k3⟩ := precision_mono h h3 k2
  have g4 : (if l ∈ convs then some o2 else putAll cap' o2 arg) = some o3 ∧ o3.length ≤ cap := by
    simp only at h4
    split at h4
    · next hl => cases h4; rw [if_pos hl]; exact ⟨rfl, k3⟩
    · next hl => rw [if_neg hl]; exact putAll_mono h h4 k3
  obtain ⟨g5, k5⟩ := leftAlign_mono h h5 g4.2
  refine ⟨⟨c, hc, e, he, a, ha, o1, g1, ⟨r', l, f⟩, g2, ⟨arg, o2⟩, g3, o3, g4.1, o4, g5, d, hd, hx⟩, ?_⟩
  cases hx
  exact k5

theorem loop_mono (h : cap ≤ cap') : ∀ {fuel : Nat} {r : List Char} {s s' : St},
    loop cap nargs fuel r s = some s' → loop cap' nargs fuel r s = some s' ∧ s'.out.length ≤ cap
  | 0, _, _, _, hl => by simp [loop] at hl
  | _ + 1, [], _, _, hl => by simp [loop] at hl
  | fuel + 1, ch :: r, s, s', hl => by
    simp only [loop] at hl ⊢
    split at hl
    · next h1 =>
      rw [if_pos h1]
      simp only [Option.bind_eq_some_iff] at hl ⊢
      obtain ⟨o, g1, o', g2, g3⟩ := hl
      obtain ⟨g4, g5⟩ := loop_mono h g3
      exact ⟨⟨o, (put_mono h g1).1, o', (put_mono h g2).1, g4⟩, g5⟩
    · next h1 =>
      rw [if_neg h1]
      split at hl
      · next h2 =>
        rw [if_pos h2]
        simp only [Option.bind_eq_some_iff] at hl
        obtain ⟨c, hc, hl⟩ := hl
        rw [hc, Option.bind_some]
        split at hl
        · next h3 =>
          rw [if_pos h3]
          simp only [Option.bind_eq_some_iff] at hl ⊢
          obtain ⟨o, g1, g3⟩ := hl
          obtain ⟨g4, g5⟩ := loop_mono h g3
          exact ⟨⟨o, (put_mono h g1).1, g4⟩, g5⟩
        · next h3 => rw [if_neg h3]; exact loop_mono h hl
      · next h2 =>
        rw [if_neg h2]
        split at hl
        · next h3 =>
          rw [if_pos h3]
          simp only [Option.bind_eq_some_iff] at hl
          obtain ⟨c, hc, hl⟩ := hl
          rw [hc, Option.bind_some]
          split at hl
          · next h3 =>
            rw [if_pos h3]
            simp only [Option.bind_eq_some_iff] at hl ⊢
            obtain ⟨o, g1, g3⟩ := hl
            obtain ⟨g4, g5⟩ := loop_mono h g3
            exact ⟨⟨o, (put_mono h g1).1, g4⟩, g5⟩
          · next h3 =>
            rw [if_neg h3]
            split at hl
            · next h4 => rw [if_pos h4]; exact loop_mono h hl
            · next h4 =>
              rw [if_neg h4]
              simp only [Option.bind_eq_some_iff] at hl ⊢
              obtain ⟨x, g1, g3⟩ := hl
              obtain ⟨g4, g5⟩ := loop_mono h g3
              exact ⟨⟨x, (field_mono h g1).1, g4⟩, g5⟩
        · next h3 =>
          rw [if_neg h3]
          simp only [Option.bind_eq_some_iff] at hl ⊢
          obtain ⟨o, g1, g3⟩ := hl
          obtain ⟨g6, g7⟩ := put_mono h g1
          split at g3
          · next h4 =>
            cases g3
            exact ⟨⟨o, g6, by rw [if_pos h4]⟩, g7⟩
          · next h4 =>
            obtain ⟨g4, g5⟩ := loop_mono h g3
            exact ⟨⟨o, g6, by rw [if_neg h4]; exact g4⟩, g5⟩

/-! ## A buffer that is too small -/

/-- If the result of a larger buffer does not need more than `cap`, it is also that of `cap`. -/
theorem put_small {out out' : List Char} {c : Char} (hp : put cap' out c = some out') (hl : out'.length ≤ cap) :
    put cap out c = some out' := by
  simp only [put] at hp ⊢
  split at hp
  · cases hp
    simp only [List.length_append, List.length_singleton] at hl
    rw [if_pos (by omega)]
  · cases hp

theorem put_grow {out out' : List Char} {c : Char} (hp : put cap out c = some out') : out.length ≤ out'.length := by
  simp only [put] at hp
  split at hp
  · cases hp; simp
  · cases hp

theorem putAll_grow : ∀ {cs out out' : List Char}, putAll cap out cs = some out' → out.length ≤ out'.length
  | [], _, _, hp => by simp only [putAll] at hp; cases hp; exact Nat.le_refl _
  | c :: cs, out, out', hp => by
    simp only [putAll, Option.bind_eq_some_iff] at hp
    obtain ⟨o, h1, h2⟩ := hp
    exact Nat.le_trans (put_grow h1) (putAll_grow h2)

theorem putAll_small : ∀ {cs out out' : List Char}, putAll cap' out cs = some out' → out'.length ≤ cap →
    putAll cap out cs = some out'
  | [], out, out', hp, _ => by simpa [putAll] using hp
  | c :: cs, out, out', hp, hl => by
    simp only [putAll, Option.bind_eq_some_iff] at hp ⊢
    obtain ⟨o, h1, h2⟩ := hp
    exact ⟨o, put_small h1 (Nat.le_trans (putAll_grow h2) hl), putAll_small h2 hl⟩

theorem modLoop_small : ∀ {r : List Char} {last : Char} {s : Fld} {x : List Char × Char × Fld},
    modLoop cap' nargs r last s = some x → s.out.length ≤ x.2.2.out.length ∧
      (x.2.2.out.length ≤ cap → modLoop cap nargs r last s = some x)
  | [], _, _, _, hm => by simp [modLoop] at hm
  | c :: r, last, s, x, hm => by
    simp only [modLoop] at hm ⊢
    split at hm
    · next h1 => cases hm; rw [if_pos h1]; exact ⟨Nat.le_refl _, fun _ => rfl⟩
    · next h1 =>
      rw [if_neg h1]
      split at hm
      · next h2 => cases hm; rw [if_pos h2]; exact ⟨Nat.le_refl _, fun _ => rfl⟩
      · next h2 =>
        rw [if_neg h2]
        split at hm
        · next h3 =>
          rw [if_pos h3]
          simp only [Option.bind_eq_some_iff] at hm ⊢
          obtain ⟨o, g1, g2⟩ := hm
          obtain ⟨g5, g6⟩ := modLoop_small g2
          exact ⟨Nat.le_trans (put_grow g1) g5, fun hl => ⟨o, put_small g1 (Nat.le_trans g5 hl), g6 hl⟩⟩
        · next h3 =>
          rw [if_neg h3]
          split at hm
          · next h4 => rw [if_pos h4]; exact modLoop_small hm
          · next h4 =>
            rw [if_neg h4]
            split at hm
            · next h5 => rw [if_pos h5]; exact modLoop_small hm
            · next h5 =>
              rw [if_neg h5]
              split at hm
              · next h6 =>
                rw [if_pos h6]
                split at hm
                · next h7 =>
                  rw [if_pos h7]
                  simp only [Option.bind_eq_some_iff] at hm ⊢
                  obtain ⟨a, g0, o, g1, g2⟩ := hm
                  obtain ⟨g5, g6⟩ := modLoop_small g2
                  exact ⟨Nat.le_trans (put_grow g1) g5,
                    fun hl => ⟨a, g0, o, put_small g1 (Nat.le_trans g5 hl), g6 hl⟩⟩
                · next h7 =>
                  rw [if_neg h7]
                  simp only [Option.bind_eq_some_iff] at hm ⊢
                  obtain ⟨o, g1, g2⟩ := hm
                  obtain ⟨g5, g6⟩ := modLoop_small g2
                  exact ⟨Nat.le_trans (put_grow g1) g5,
                    fun hl => ⟨o, put_small g1 (Nat.le_trans g5 hl), g6 hl⟩⟩
              · next h6 =>
                rw [if_neg h6]
                simp only [Option.bind_eq_some_iff] at hm ⊢
                obtain ⟨o, g1, g2⟩ := hm
                obtain ⟨g5, g6⟩ := modLoop_small g2
                exact ⟨Nat.le_trans (put_grow g1) g5,
                  fun hl => ⟨o, put_small g1 (Nat.le_trans g5 hl), g6 hl⟩⟩

theorem precision_small {e : Bool} {arg out : List Char} {x : List Char × List Char}
    (hp : precision cap' e arg out = some x) :
    out.length ≤ x.2.length ∧ (x.2.length ≤ cap → precision cap e arg out = some x) := by
  have key : ∀ (t : List Char) (y : List Char),
      (if e then putAll cap' out t else some out) = some y →
      out.length ≤ y.length ∧ (y.length ≤ cap → (if e then putAll cap out t else some out) = some y) := by
    intro t y hy
    cases e
    · simp only [Bool.false_eq_true, if_false] at hy ⊢
      cases hy; exact ⟨Nat.le_refl _, fun _ => rfl⟩
    · simp only [if_true] at hy ⊢
      exact ⟨putAll_grow hy, fun h => putAll_small hy h⟩
  unfold precision at hp ⊢
  split at hp
  · simp only [Option.map_eq_some_iff] at hp ⊢
    obtain ⟨y, hy, rfl⟩ := hp
    exact ⟨(key _ _ hy).1, fun h => ⟨y, (key _ _ hy).2 h, rfl⟩⟩
  · simp only [Option.map_eq_some_iff] at hp ⊢
    obtain ⟨y, hy, rfl⟩ := hp
    exact ⟨(key _ _ hy).1, fun h => ⟨y, (key _ _ hy).2 h, rfl⟩⟩
  · cases hp; exact ⟨Nat.le_refl _, fun _ => rfl⟩

theorem leftAlign_small {p0 : Option Nat} {out out' : List Char} (hp : leftAlign cap' p0 out = some out') :
    out.length ≤ out'.length ∧ (out'.length ≤ cap → leftAlign cap p0 out = some out') := by
  unfold leftAlign at hp ⊢
  split at hp
  · cases hp; exact ⟨Nat.le_refl _, fun _ => rfl⟩
  · next k =>
    split at hp
    · next h1 =>
      split at hp
      · next h2 =>
        cases hp
        have h3 : (out.take k).length + (out.drop k).length = out.length := by
          rw [← List.length_append, List.take_append_drop]
        simp only [if_pos h1, List.length_append, List.length_cons]
        refine ⟨by omega, fun hl => ?_⟩
        rw [if_pos (by omega)]
      · cases hp
    · next h1 => cases hp; simp only [if_neg h1]; exact ⟨Nat.le_refl _, fun _ => trivial⟩

theorem field_small {r : List Char} {s : St} {x : List Char × St} (hf : field cap' nargs r s = some x) :
    s.out.length ≤ x.2.out.length ∧ (x.2.out.length ≤ cap → field cap nargs r s = some x) := by
  unfold field at hf ⊢
  simp only [Option.bind_eq_some_iff] at hf ⊢
  obtain ⟨c, hc, e, he, a, ha, o1, h1, ⟨r', l, f⟩, h2, ⟨arg, o2⟩, h3, o3, h4, o4, h5, d, hd, hx⟩ := hf
  have k1 := put_grow h1
  obtain ⟨k2, g2⟩ := modLoop_small (cap := cap) h2
  obtain ⟨k3, g3⟩ := precision_small (cap := cap) h3
  have g4 : o2.length ≤ o3.length ∧ (o3.length ≤ cap →
      (if l ∈ convs then some o2 else putAll cap o2 arg) = some o3) := by
    simp only at h4
    split at h4
    · next hl => cases h4; rw [if_pos hl]; exact ⟨Nat.le_refl _, fun _ => rfl⟩
    · next hl => rw [if_neg hl]; exact ⟨putAll_grow h4, fun h => putAll_small h4 h⟩
  obtain ⟨k5, g5⟩ := leftAlign_small (cap := cap) h5
  obtain ⟨k4, g4⟩ := g4
  simp only at k2 k3
  cases hx
  simp only
  exact ⟨by omega, fun hl => ⟨c, hc, e, he, a, ha, o1, put_small h1 (by omega), ⟨r', l, f⟩, g2 (by simp only; omega),
    ⟨arg, o2⟩, g3 (by simp only; omega), o3, g4 (by omega), o4, g5 (by omega), d, hd, rfl⟩⟩

theorem loop_small : ∀ {fuel : Nat} {r : List Char} {s s' : St},
    loop cap' nargs fuel r s = some s' →
    s.out.length ≤ s'.out.length ∧ (s'.out.length ≤ cap → loop cap nargs fuel r s = some s')
  | 0, _, _, _, hl => by simp [loop] at hl
  | _ + 1, [], _, _, hl => by simp [loop] at hl
  | fuel + 1, ch :: r, s, s', hl => by
    simp only [loop] at hl ⊢
    split at hl
    · next h1 =>
      rw [if_pos h1]
      simp only [Option.bind_eq_some_iff] at hl ⊢
      obtain ⟨o, g1, o', g2, g3⟩ := hl
      obtain ⟨g4, g5⟩ := loop_small g3
      have := put_grow g1
      have := put_grow g2
      simp only at g4
      exact ⟨by omega, fun hl => ⟨o, put_small g1 (by omega), o', put_small g2 (by omega), g5 hl⟩⟩
    · next h1 =>
      rw [if_neg h1]
      split at hl
      · next h2 =>
        rw [if_pos h2]
        simp only [Option.bind_eq_some_iff] at hl
        obtain ⟨c, hc, hl⟩ := hl
        rw [hc, Option.bind_some]
        split at hl
        · next h3 =>
          rw [if_pos h3]
          simp only [Option.bind_eq_some_iff] at hl ⊢
          obtain ⟨o, g1, g3⟩ := hl
          obtain ⟨g4, g5⟩ := loop_small g3
          have := put_grow g1
          simp only at g4
          exact ⟨by omega, fun hl => ⟨o, put_small g1 (by omega), g5 hl⟩⟩
        · next h3 => rw [if_neg h3]; exact loop_small hl
      · next h2 =>
        rw [if_neg h2]
        split at hl
        · next h3 =>
          rw [if_pos h3]
          simp only [Option.bind_eq_some_iff] at hl
          obtain ⟨c, hc, hl⟩ := hl
          rw [hc, Option.bind_some]
          split at hl
          · next h3 =>
            rw [if_pos h3]
            simp only [Option.bind_eq_some_iff] at hl ⊢
            obtain ⟨o, g1, g3⟩ := hl
            obtain ⟨g4, g5⟩ := loop_small g3
            have := put_grow g1
            simp only at g4
            exact ⟨by omega, fun hl => ⟨o, put_small g1 (by omega), g5 hl⟩⟩
          · next h3 =>
            rw [if_neg h3]
            split at hl
            · next h4 => rw [if_pos h4]; exact loop_small hl
            · next h4 =>
              rw [if_neg h4]
              simp only [Option.bind_eq_some_iff] at hl ⊢
              obtain ⟨x, g1, g3⟩ := hl
              obtain ⟨g4, g5⟩ := loop_small g3
              obtain ⟨k1, k2⟩ := field_small (cap := cap) g1
              exact ⟨by omega, fun hl => ⟨x, k2 (by omega), g5 hl⟩⟩
        · next h3 =>
          rw [if_neg h3]
          simp only [Option.bind_eq_some_iff] at hl ⊢
          obtain ⟨o, g1, g3⟩ := hl
          have := put_grow g1
          split at g3
          · next h4 =>
            cases g3
            exact ⟨this, fun hl => ⟨o, put_small g1 hl, by rw [if_pos h4]⟩⟩
          · next h4 =>
            obtain ⟨g4, g5⟩ := loop_small g3
            simp only at g4
            exact ⟨by omega, fun hl => ⟨o, put_small g1 (by omega), by rw [if_neg h4]; exact g5 hl⟩⟩

end Verif.Fmt
