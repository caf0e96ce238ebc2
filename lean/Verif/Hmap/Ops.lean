import Verif.Hmap.Lemmas
/- What the operations do to the arrays. -/
namespace Verif.Hmap
open List (Perm Subperm)
open scoped List
open Verif.Common Spec
variable {κ ν : Type}

theorem mask_eq {n p : Nat} (hp : n = 2 ^ p) (a : Nat) : a &&& (n - 1) = a % n := by
  rw [hp]; exact Nat.and_two_pow_sub_one_eq_mod a p

/-! ### lookup -/

theorem hit_spec {H : Hasher κ} (LH : Lawful H) {n : Nat} {metas : List Meta} {table : List (Option (κ × ν))}
    (h : Inv H n metas table) {x : Nat} (hx : x < n) (hd : D metas x ≠ 0) (k : κ) {mt : Meta}
    (hm : metas[x]? = some mt) : ∃ e, slot metas table x = some e ∧ hit H table mt x k = some (H.eq e.1 k) := by
  obtain ⟨e, h1, h2, h3, _⟩ := h.slot_eq hx hd
  refine ⟨e, h1, ?_⟩
  rw [h3] at hm
  cases hm
  by_cases hh : hashx (H.hash e.1) = hashx (H.hash k)
  · rw [hit, if_pos hh, h2]; rfl
  · rw [hit, if_neg hh]
    cases he : H.eq e.1 k with
    | false => rfl
    | true => exact absurd (congrArg hashx (LH.hash _ _ he)) hh

theorem lookupLoop_spec {H : Hasher κ} (LH : Lawful H) {n p : Nat} (hp : n = 2 ^ p) {metas : List Meta}
    {table : List (Option (κ × ν))} (h : Inv H n metas table) (k : κ) (hm : Nat) :
    ∀ f i, f + i = 1025 → (∀ j < i, j + 1 ≤ D metas ((hm + j) % n) ∧
      ∀ e, slot metas table ((hm + j) % n) = some e → H.eq e.1 k = false) →
    ∃ r, lookupLoop H table metas (n - 1) k f ((hm + i) % n) (i + 1) = some r ∧
      ((r.found = true ∧ r.idx < n ∧ ∃ e, slot metas table r.idx = some e ∧ H.eq e.1 k = true) ∨
       (r.found = false ∧ ∃ c, r.idx = (hm + c) % n ∧ r.dist = c + 1 ∧ D metas r.idx ≤ c ∧
        ∀ j < c, j + 1 ≤ D metas ((hm + j) % n) ∧ ∀ e, slot metas table ((hm + j) % n) = some e → H.eq e.1 k = false)) := by
  have hn : 0 < n := by rw [hp]; exact Nat.two_pow_pos p
  intro f
  induction f with
  | zero =>
    intro i hi hj
    have := (hj 1024 (by omega)).1
    have := h.le ((hm + 1024) % n) (Nat.mod_lt _ hn)
    omega
  | succ f ih =>
    intro i hi hj
    have hx := Nat.mod_lt (hm + i) hn
    obtain ⟨mt, hmt, hd⟩ := meta_some h hx
    simp only [lookupLoop, hmt, Option.bind_eq_bind, Option.bind_some, hd]
    by_cases hle : i + 1 ≤ D metas ((hm + i) % n)
    · rw [if_pos hle]
      obtain ⟨e, he, hh⟩ := hit_spec LH h hx (by omega) k hmt
      simp only [hh, Option.bind_some]
      cases heq : H.eq e.1 k with
      | true => exact ⟨_, rfl, Or.inl ⟨rfl, hx, e, he, heq⟩⟩
      | false =>
        simp only [Bool.false_eq_true, if_false, mask_eq hp, Nat.mod_add_mod]
        refine ih (i + 1) (by omega) ?_
        intro j hj'
        by_cases hji : j = i
        · subst hji
          refine ⟨hle, fun e' he' => ?_⟩
          rw [he] at he'; cases he'; exact heq
        · exact hj j (by omega)
    · rw [if_neg hle]
      exact ⟨_, rfl, Or.inr ⟨rfl, i, rfl, rfl, Nat.le_of_lt_succ (Nat.lt_of_not_le hle), hj⟩⟩

/-- A key that is not met on its probe path is absent. -/
theorem absent_of_path {H : Hasher κ} (LH : Lawful H) {n : Nat} (hn : 0 < n) {metas : List Meta}
    {table : List (Option (κ × ν))} (h : Inv H n metas table) {k : κ} {c : Nat}
    (hc : D metas ((home H n k + c) % n) ≤ c)
    (hj : ∀ j < c, ∀ e, slot metas table ((home H n k + j) % n) = some e → H.eq e.1 k = false) :
    ∀ e ∈ entries n metas table, H.eq e.1 k = false := by
  intro e he
  obtain ⟨x, hx, hs⟩ := mem_entries.1 he
  cases heq : H.eq e.1 k with
  | false => rfl
  | true =>
    have hd := slot_some hs
    obtain ⟨e', h1, _, _, h4⟩ := h.slot_eq hx hd
    rw [hs] at h1; cases h1
    have hh : home H n e.1 = home H n k := by rw [home, home, LH.hash _ _ heq]
    rw [hh] at h4
    by_cases hlt : D metas x - 1 < c
    · have := hj _ hlt e (by rw [h4]; exact hs)
      rw [heq] at this; cases this
    · have := h.back hn (home H n k + c) (D metas x - 1 - c)
      rw [show home H n k + c + (D metas x - 1 - c) = home H n k + (D metas x - 1) by omega, h4] at this
      omega

/-- The map of a bucket array of `n` buckets. -/
structure Arr (H : Hasher κ) (m : Map κ ν) (n p : Nat) : Prop where
  bc : m.bc = n
  pow : n = 2 ^ p
  two : 2 ≤ n
  inv : Inv H n m.metas m.table

theorem lookup_spec {H : Hasher κ} (LH : Lawful H) {m : Map κ ν} {n p : Nat} (h : Arr H m n p) (k : κ) :
    ∃ r, lookup H m k = some r ∧
      ((r.found = true ∧ r.idx < n ∧ ∃ e, slot m.metas m.table r.idx = some e ∧ H.eq e.1 k = true) ∨
       (r.found = false ∧ (∃ c, r.idx = (home H n k + c) % n ∧ r.dist = c + 1 ∧ D m.metas r.idx ≤ c ∧
        ∀ j < c, j + 1 ≤ D m.metas ((home H n k + j) % n)) ∧ ∀ e ∈ entries n m.metas m.table, H.eq e.1 k = false)) := by
  have hn : 0 < n := by have := h.two; omega
  obtain ⟨r, e, hr⟩ := lookupLoop_spec LH h.pow h.inv k (home H n k) 1025 0 rfl (by simp)
  refine ⟨r, ?_, ?_⟩
  · rw [lookup, h.bc, mask_eq h.pow]
    simpa [home] using e
  · rcases hr with hr | ⟨h1, c, h2, h3, h4, h5⟩
    · exact Or.inl hr
    · refine Or.inr ⟨h1, ⟨c, h2, h3, h4, fun j hj => (h5 j hj).1⟩, ?_⟩
      exact absent_of_path LH hn h.inv (h2 ▸ h4) fun j hj => (h5 j hj).2

/-! ### insertion -/

theorem slot_set_ne {metas : List Meta} {table : List (Option (κ × ν))} {i x : Nat} {mt : Meta} {c : Option (κ × ν)}
    (hx : x ≠ i) : slot (metas.set i mt) (table.set i c) x = slot metas table x := by
  have : D (metas.set i mt) x = D metas x := by simp only [D, List.getElem?_set_ne (Ne.symm hx)]
  rw [slot, slot, this, List.getElem?_set_ne (Ne.symm hx)]

theorem slot_set_self {metas : List Meta} {table : List (Option (κ × ν))} {i : Nat} {mt : Meta} {c : Option (κ × ν)}
    (hi : i < metas.length) (ht : i < table.length) (hd : mt.dist ≠ 0) :
    slot (metas.set i mt) (table.set i c) i = c := by
  rw [slot, D_set mt hi, if_pos rfl, if_pos hd, List.getElem?_set_self ht]; rfl

/-- Writing an entry with a suitable distance into a bucket. -/
theorem Inv.put {H : Hasher κ} {n : Nat} {metas : List Meta} {table : List (Option (κ × ν))} (h : Inv H n metas table)
    (h2 : 2 ≤ n) {i : Nat} (hi : i < n) {e : κ × ν} {c : Nat} (hc0 : c ≠ 0) (hc : c ≤ 1023)
    (hh : (home H n e.1 + (c - 1)) % n = i) (hprev : ∀ x < n, (x + 1) % n = i → c ≤ D metas x + 1)
    (hnext : D metas ((i + 1) % n) ≤ c + 1) :
    Inv H n (metas.set i ⟨hashx (H.hash e.1), c⟩) (table.set i (some e)) := by
  have hl : i < metas.length := by rw [h.lenm]; omega
  have hlt : i < table.length := by rw [h.lent]; omega
  have hne : (i + 1) % n ≠ i := by
    by_cases hw : i + 1 = n
    · rw [hw, Nat.mod_self]; omega
    · rw [Nat.mod_eq_of_lt (by omega)]; omega
  refine ⟨by rw [List.length_set]; exact h.lenm, by rw [List.length_set]; exact h.lent, ?_, ?_, ?_, ?_⟩
  · rw [D_set _ hl, if_neg (by omega)]; exact h.mark
  · intro x hx hd
    by_cases hxi : x = i
    · subst hxi
      rw [D_set _ hl, if_pos rfl]
      exact ⟨e, List.getElem?_set_self hlt, List.getElem?_set_self hl, hh⟩
    · rw [D_set _ hl, if_neg hxi] at hd ⊢
      rw [List.getElem?_set_ne (Ne.symm hxi), List.getElem?_set_ne (Ne.symm hxi)]
      exact h.occ x hx hd
  · intro x hx
    rw [D_set _ hl]; split
    · exact hc
    · exact h.le x hx
  · intro x hx
    rw [D_set _ hl, D_set _ hl]
    by_cases hxi : x = i
    · subst hxi; rw [if_neg hne, if_pos rfl]; exact hnext
    · by_cases hxn : (x + 1) % n = i
      · rw [if_pos hxn, if_neg hxi]; exact hprev x hx hxn
      · rw [if_neg hxn, if_neg hxi]; exact h.step x hx

theorem succ_inj {n x y : Nat} (hx : x < n) (hy : y < n) (h : (x + 1) % n = (y + 1) % n) : x = y := by
  have h1 : x + 1 ≡ y + 1 [MOD n] := h
  have := Nat.ModEq.add_right_cancel' 1 h1
  unfold Nat.ModEq at this
  rwa [Nat.mod_eq_of_lt hx, Nat.mod_eq_of_lt hy] at this

theorem reorder_spec {H : Hasher κ} {n p : Nat} (hp : n = 2 ^ p) (h2 : 2 ≤ n) (ref : Nat) (e : κ × ν) {hs : List Nat}
    (hsp : Spread n hs) : ∀ (f idx c t : Nat) (ec : κ × ν) (metas : List Meta) (table : List (Option (κ × ν))),
    Inv H n metas (table.set ref (some e)) → ref < n → idx < n → t < f → c ≠ 0 →
    (home H n ec.1 + (c - 1)) % n = idx → c ≤ D metas idx → D metas ((idx + 1) % n) ≤ c + 1 →
    D metas ((idx + 1 + t) % n) = 0 → (∀ j ≤ t, (idx + 1 + j) % n ≠ ref) →
    (home H n ec.1 :: (entries n metas (table.set ref (some e))).map fun e => home H n e.1) <+~ hs →
    ∃ metas' table', reorder (n - 1) f idx ⟨hashx (H.hash ec.1), c⟩ (some ec) metas table = some (metas', table') ∧
      Inv H n metas' (table'.set ref (some e)) ∧ (table'.length = table.length ∧ D metas' ref = D metas ref) ∧
      entries n metas' (table'.set ref (some e)) ~ ec :: entries n metas (table.set ref (some e)) := by
  have hn : 0 < n := by omega
  intro f
  induction f with
  | zero => intro idx c t _ _ _ _ _ _ ht; omega
  | succ f ih =>
    intro idx c t ec metas table hinv href hidx ht hc0 hh hcD hnx hgap hav hsub
    have hb : c + 1 ≤ 1023 := spread_bound hinv ⟨_, Nat.mod_lt _ hn, hgap⟩ hidx (k := ec.1) (c := c)
      (by rw [← hh, Nat.mod_add_mod]; congr 1; omega) hcD hsub hsp
    have hx := Nat.mod_lt (idx + 1) hn
    obtain ⟨x, hxe⟩ : ∃ x, x = (idx + 1) % n := ⟨_, rfl⟩
    rw [← hxe] at hx hnx
    have hxr : x ≠ ref := by have := hav 0 (by omega); rwa [Nat.add_zero, ← hxe] at this
    obtain ⟨mt, hmt, hd⟩ := meta_some hinv hx
    have hlm : x < metas.length := by rw [hinv.lenm]; omega
    have hlt : x < table.length := by have := hinv.lent; rw [List.length_set] at this; omega
    have hmod : (c + 1) % 1024 = c + 1 := Nat.mod_eq_of_lt (by omega)
    have hcomm : ∀ y, (table.set x y).set ref (some e) = (table.set ref (some e)).set x y := fun y =>
      List.set_comm _ _ hxr
    have hput : Inv H n (metas.set x ⟨hashx (H.hash ec.1), c + 1⟩) ((table.set x (some ec)).set ref (some e)) := by
      rw [hcomm]
      refine hinv.put h2 hx (by omega) (by omega) ?_ ?_ ?_
      · rw [hxe, ← hh, Nat.mod_add_mod]; congr 1; omega
      · intro y hy hyx
        have : y = idx := succ_inj hy hidx (by rw [hyx, hxe])
        subst this; omega
      · have := hinv.step x hx; omega
    have hch := entries_change (n := n) (metas := metas) (metas' := metas.set x ⟨hashx (H.hash ec.1), c + 1⟩)
      (table := table.set ref (some e)) (table' := (table.set x (some ec)).set ref (some e)) hx (by
        intro y hy; rw [hcomm]; exact slot_set_ne hy)
    have hself : slot (metas.set x ⟨hashx (H.hash ec.1), c + 1⟩) ((table.set x (some ec)).set ref (some e)) x = some ec := by
      rw [hcomm]; exact slot_set_self hlm (by rw [List.length_set]; exact hlt) (by simp)
    rw [hself] at hch
    obtain ⟨R, hR1, hR2⟩ := hch
    simp only [reorder, mask_eq hp, ← hxe, hmt, Option.bind_eq_bind, Option.bind_some, hmod, hd]
    by_cases h0 : D metas x = 0
    · rw [if_pos h0]
      refine ⟨_, _, rfl, hput, ⟨by simp, by rw [D_set _ hlm, if_neg (Ne.symm hxr)]⟩, ?_⟩
      rw [slot, if_neg (by simpa using h0)] at hR1
      exact hR2.trans ((hR1.symm.cons ec))
    · rw [if_neg h0]
      have ht0 : t ≠ 0 := by
        intro h; rw [h, Nat.add_zero, ← hxe] at hgap; exact h0 hgap
      obtain ⟨t, rfl⟩ : ∃ u, t = u + 1 := ⟨t - 1, by omega⟩
      have hgap' : D metas ((x + 1 + t) % n) = 0 := by
        rw [hxe, show (idx + 1) % n + 1 + t = (idx + 1) % n + (1 + t) by omega, Nat.mod_add_mod,
          show idx + 1 + (1 + t) = idx + 1 + (t + 1) by omega]; exact hgap
      have hav' : ∀ j ≤ t, (x + 1 + j) % n ≠ ref := by
        intro j hj
        rw [hxe, show (idx + 1) % n + 1 + j = (idx + 1) % n + (1 + j) by omega, Nat.mod_add_mod]
        rw [show idx + 1 + (1 + j) = idx + 1 + (j + 1) by omega]
        exact hav _ (by omega)
      have hstep := hinv.step x hx
      by_cases hlt' : D metas x < c + 1
      · rw [if_pos hlt']
        obtain ⟨e1, hs1, ht1, hm1, hh1⟩ := hinv.slot_eq hx h0
        rw [List.getElem?_set_ne (Ne.symm hxr)] at ht1
        rw [hm1] at hmt; cases hmt
        rw [hs1] at hR1
        simp only [ht1, Option.bind_some]
        have hne1 : (x + 1) % n ≠ x := by
          by_cases hw : x + 1 = n
          · rw [hw, Nat.mod_self]; omega
          · rw [Nat.mod_eq_of_lt (by omega)]; omega
        have hne2 : (x + 1 + t) % n ≠ x := by
          intro h; rw [h] at hgap'; exact h0 hgap'
        simp only [Option.toList_some, List.singleton_append] at hR1 hR2
        have hperm := ((hR2.cons e1).trans (List.Perm.swap _ _ _)).trans (hR1.symm.cons ec)
        obtain ⟨m', t', er, hi', hl', hp'⟩ := ih x (D metas x) t e1 _ _ hput href hx (by omega) h0 hh1
          (by rw [D_set _ hlm, if_pos rfl]; simp only; omega)
          (by rw [D_set _ hlm, if_neg hne1]; exact hstep)
          (by rw [D_set _ hlm, if_neg hne2]; exact hgap') hav'
          ((hperm.map fun e : κ × ν => home H n e.1).subperm.trans hsub)
        exact ⟨m', t', er, hi', ⟨by rw [hl'.1]; simp, by rw [hl'.2, D_set _ hlm, if_neg (Ne.symm hxr)]⟩, hp'.trans hperm⟩
      · rw [if_neg hlt']
        have heq : D metas x = c + 1 := by omega
        have := ih x (c + 1) t ec metas table hinv href hx (by omega) (by omega)
          (by rw [hxe, ← hh, Nat.mod_add_mod]; congr 1; omega) (by omega) (by omega) hgap' hav' hsub
        exact this

theorem gap_of_length {H : Hasher κ} {n : Nat} {metas : List Meta} {table : List (Option (κ × ν))}
    (h : Inv H n metas table) (hl : (entries n metas table).length < n) : ∃ g < n, D metas g = 0 := by
  by_contra hne
  have : ∀ xs : List Nat, (∀ x ∈ xs, x < n) → (xs.filterMap (slot metas table)).length = xs.length := by
    intro xs
    induction xs with
    | nil => intro _; rfl
    | cons x xs ih =>
      intro hx
      have hd : D metas x ≠ 0 := fun h0 => hne ⟨x, hx x (by simp), h0⟩
      obtain ⟨e, he, _⟩ := h.slot_eq (hx x (by simp)) hd
      rw [List.filterMap_cons, he]
      simp only [List.length_cons]
      rw [ih fun y hy => hx y (by simp [hy])]
  have := this (List.range n) (fun x hx => List.mem_range.1 hx)
  rw [List.length_range] at this
  rw [entries] at hl
  omega

theorem place_spec {H : Hasher κ} {m : Map κ ν} {n p : Nat} (h : Arr H m n p) (hgap : ∃ g < n, D m.metas g = 0)
    {e : κ × ν} {idx c : Nat} (hidx : idx = (home H n e.1 + c) % n) (hD : D m.metas idx ≤ c)
    (hj : ∀ j < c, j + 1 ≤ D m.metas ((home H n e.1 + j) % n)) {hs : List Nat} (hsp : Spread n hs)
    (hsub : (home H n e.1 :: (entries n m.metas m.table).map fun e => home H n e.1) <+~ hs) :
    ∃ m', place m idx (c + 1) (hashx (H.hash e.1)) = some m' ∧ (idx < m'.table.length ∧ D m'.metas idx = c + 1) ∧ m'.size = m.size ∧
      Arr H { m' with table := m'.table.set idx (some e) } n p ∧
      entries n m'.metas (m'.table.set idx (some e)) ~ e :: entries n m.metas m.table := by
  have h2 := h.two
  have hn : 0 < n := by omega
  have hinv := h.inv
  have hlt : idx < n := by rw [hidx]; exact Nat.mod_lt _ hn
  have hpred : c ≠ 0 → (home H n e.1 + c) % n = ((home H n e.1 + (c - 1)) % n + 1) % n := by
    intro h0; rw [Nat.mod_add_mod]; congr 1; omega
  have hb : c + 1 ≤ 1023 := by
    by_cases h0 : c = 0
    · omega
    · have := hj (c - 1) (by omega)
      exact spread_bound hinv hgap (idx := (home H n e.1 + (c - 1)) % n) (Nat.mod_lt _ hn) (k := e.1) (c := c) (hpred h0)
        (by omega) hsub hsp
  have hstep := hinv.step idx hlt
  have hlm : idx < m.metas.length := by rw [hinv.lenm]; omega
  have hlt' : idx < m.table.length := by rw [hinv.lent]; exact hlt
  have hput := hinv.put h2 hlt (e := e) (c := c + 1) (by omega) hb (by rw [hidx]; rfl)
    (by
      intro x hx hxi
      by_cases h0 : c = 0
      · omega
      · have hxe : x = (home H n e.1 + (c - 1)) % n := succ_inj hx (Nat.mod_lt _ hn) (by rw [hxi, hidx, hpred h0])
        have := hj (c - 1) (by omega)
        rw [← hxe] at this; omega)
    (by omega)
  obtain ⟨R, hR1, hR2⟩ := entries_change (n := n) (metas := m.metas)
    (metas' := m.metas.set idx ⟨hashx (H.hash e.1), c + 1⟩) (table := m.table) (table' := m.table.set idx (some e)) hlt
    (fun x hx => slot_set_ne hx)
  rw [slot_set_self hlm hlt' (by simp)] at hR2
  simp only [Option.toList_some, List.singleton_append] at hR2
  have hmod : (c + 1) % 1024 = c + 1 := Nat.mod_eq_of_lt (by omega)
  obtain ⟨mt, hmt, hd⟩ := meta_some hinv hlt
  simp only [place, hmt, Option.bind_eq_bind, Option.bind_some, hmod, hd]
  by_cases h0 : D m.metas idx = 0
  · rw [if_neg (by simpa using h0)]
    refine ⟨_, rfl, ⟨hlt', by rw [D_set _ hlm, if_pos rfl]⟩, rfl, ⟨h.bc, h.pow, h2, hput⟩, ?_⟩
    rw [slot, if_neg (by simpa using h0)] at hR1
    exact hR2.trans (hR1.symm.cons e)
  · rw [if_pos h0]
    obtain ⟨e1, hs1, ht1, hm1, hh1⟩ := hinv.slot_eq hlt h0
    rw [hm1] at hmt; cases hmt
    rw [hs1] at hR1
    simp only [Option.toList_some, List.singleton_append] at hR1
    obtain ⟨g, hg, hg0⟩ := hgap
    have hgi : g ≠ idx := fun he => h0 (he ▸ hg0)
    obtain ⟨t, ht, htg⟩ : ∃ t, t + 1 < n ∧ (idx + 1 + t) % n = g := by
      by_cases hlt2 : idx < g
      · exact ⟨g - idx - 1, by omega, by rw [show idx + 1 + (g - idx - 1) = g by omega, Nat.mod_eq_of_lt hg]⟩
      · refine ⟨g + n - idx - 1, by omega, ?_⟩
        rw [show idx + 1 + (g + n - idx - 1) = g + n by omega, Nat.add_mod_right, Nat.mod_eq_of_lt hg]
    have hav : ∀ j ≤ t, (idx + 1 + j) % n ≠ idx := by
      intro j hj he
      have h1 : idx + (1 + j) ≡ idx + 0 [MOD n] := by
        unfold Nat.ModEq
        rw [← Nat.add_assoc, he, Nat.add_zero, Nat.mod_eq_of_lt hlt]
      have := Nat.ModEq.add_left_cancel' idx h1
      unfold Nat.ModEq at this
      rw [Nat.mod_eq_of_lt (by omega), Nat.zero_mod] at this
      omega
    have hav0 := hav 0 (by omega)
    rw [Nat.add_zero] at hav0
    have hperm : e1 :: entries n (m.metas.set idx ⟨hashx (H.hash e.1), c + 1⟩) (m.table.set idx (some e)) ~
        e :: entries n m.metas m.table :=
      ((hR2.cons e1).trans (List.Perm.swap _ _ _)).trans (hR1.symm.cons e)
    obtain ⟨m', t', er, hi', hl', hp'⟩ := reorder_spec (H := H) h.pow h2 idx e hsp n idx (D m.metas idx) t e1
      (m.metas.set idx ⟨hashx (H.hash e.1), c + 1⟩) m.table hput hlt hlt (by omega) h0 hh1
      (by rw [D_set _ hlm, if_pos rfl]; simp only; omega)
      (by rw [D_set _ hlm, if_neg hav0]; exact hstep)
      (by rw [D_set _ hlm, if_neg (hav t (by omega)), htg]; exact hg0) hav
      ((hperm.map fun e : κ × ν => home H n e.1).subperm.trans hsub)
    simp only [ht1, Option.bind_some, h.bc, er]
    refine ⟨_, rfl, ⟨by simp only [hl'.1]; exact hlt', by simp only [hl'.2]; rw [D_set _ hlm, if_pos rfl]⟩, rfl, ⟨rfl, h.pow, h2, hi'⟩, hp'.trans hperm⟩

/-- `_bucket_insert_` followed by the store of a new entry. -/
theorem bucketInsert_spec {H : Hasher κ} (LH : Lawful H) {m : Map κ ν} {n p : Nat} (h : Arr H m n p)
    (hgap : ∃ g < n, D m.metas g = 0) (k : κ) (v : ν) {hs : List Nat} (hsp : Spread n hs)
    (hsub : (∀ e ∈ entries n m.metas m.table, H.eq e.1 k = false) →
      (home H n k :: (entries n m.metas m.table).map fun e => home H n e.1) <+~ hs) :
    (∃ i e, bucketInsert H m k = some (m, i, false) ∧ i < n ∧ slot m.metas m.table i = some e ∧ H.eq e.1 k = true) ∨
    ((∀ e ∈ entries n m.metas m.table, H.eq e.1 k = false) ∧ ∃ m' i m'', bucketInsert H m k = some (m', i, true) ∧
      m'.size = m.size ∧ i < n ∧ store m' i (k, v) = some m'' ∧ m'' = { m' with table := m''.table } ∧ Arr H m'' n p ∧
        slot m''.metas m''.table i = some (k, v) ∧
        entries n m''.metas m''.table ~ (k, v) :: entries n m.metas m.table) := by
  obtain ⟨r, er, hr⟩ := lookup_spec LH h k
  have hn : 0 < n := by have := h.two; omega
  rcases hr with ⟨h1, h2, e, h3, h4⟩ | ⟨h1, ⟨c, h2, h3, h4, h5⟩, h6⟩
  · left
    refine ⟨r.idx, e, ?_, h2, h3, h4⟩
    simp only [bucketInsert, er, Option.bind_eq_bind, Option.bind_some, h1, if_true]
  · right
    refine ⟨h6, ?_⟩
    obtain ⟨m', e1, ⟨hlt, hdn⟩, hsz, ha, hperm⟩ := place_spec h hgap (e := (k, v)) h2 h4 h5 hsp (hsub h6)
    refine ⟨m', r.idx, { m' with table := m'.table.set r.idx (some (k, v)) }, ?_, hsz, by rw [h2]; exact Nat.mod_lt _ hn,
      by rw [store, if_pos hlt], rfl, ha, ?_, hperm⟩
    · simp only [bucketInsert, er, Option.bind_eq_bind, Option.bind_some, h1, Bool.false_eq_true, if_false, h3, e1]
    · have hd : D m'.metas r.idx ≠ 0 := by omega
      rw [slot, if_pos hd, List.getElem?_set_self hlt]; rfl

/-! ### erasing -/

/-- Emptying a bucket whose successor is empty or at home. -/
theorem Inv.clear {H : Hasher κ} {n : Nat} {metas : List Meta} {table : List (Option (κ × ν))} (h : Inv H n metas table)
    {i hx : Nat} (hi : i < n) (hnext : D metas ((i + 1) % n) < 2) : Inv H n (metas.set i ⟨hx, 0⟩) table := by
  have hl : i < metas.length := by rw [h.lenm]; omega
  refine ⟨by rw [List.length_set]; exact h.lenm, h.lent, ?_, ?_, ?_, ?_⟩
  · rw [D_set _ hl, if_neg (by omega)]; exact h.mark
  · intro x hx hd
    by_cases hxi : x = i
    · rw [D_set _ hl, if_pos hxi] at hd; exact absurd rfl hd
    · rw [D_set _ hl, if_neg hxi] at hd ⊢
      rw [List.getElem?_set_ne (Ne.symm hxi)]
      exact h.occ x hx hd
  · intro x hx
    rw [D_set _ hl]; split
    · exact Nat.zero_le _
    · exact h.le x hx
  · intro x hx
    rw [D_set _ hl, D_set _ hl]
    by_cases hxi : x = i
    · subst hxi
      rw [if_pos rfl]
      split
      · exact Nat.zero_le _
      · omega
    · rw [if_neg hxi]
      split
      · exact Nat.zero_le _
      · exact h.step x hx

theorem slot_clear_ne {metas : List Meta} {table : List (Option (κ × ν))} {i x : Nat} {mt : Meta} (hx : x ≠ i) :
    slot (metas.set i mt) table x = slot metas table x := by
  have : D (metas.set i mt) x = D metas x := by simp only [D, List.getElem?_set_ne (Ne.symm hx)]
  rw [slot, slot, this]

theorem slot_clear_self {metas : List Meta} {table : List (Option (κ × ν))} {i hx : Nat} (hi : i < metas.length) :
    slot (metas.set i ⟨hx, 0⟩) table i = none := by
  rw [slot, D_set _ hi, if_pos rfl, if_neg (by simp)]

theorem add_mod_ne {n i j l : Nat} (hj : j ≠ l) (h1 : j < n) (h2 : l < n) : (i + j) % n ≠ (i + l) % n := by
  intro he
  have h : i + j ≡ i + l [MOD n] := he
  have := Nat.ModEq.add_left_cancel' i h
  unfold Nat.ModEq at this
  rw [Nat.mod_eq_of_lt h1, Nat.mod_eq_of_lt h2] at this
  exact hj this

/-- The backward shift from bucket `i`: the `l` buckets behind it move up by one, up to the first that
is empty or at home. -/
theorem shiftBack_spec {H : Hasher κ} {n p : Nat} (hp : n = 2 ^ p) (h2 : 2 ≤ n) :
    ∀ (f i t : Nat) (metas : List Meta) (table : List (Option (κ × ν))) (xi : κ × ν) (R : List (κ × ν)),
    Inv H n metas table → i < n → t < f → t + 1 < n → D metas ((i + 1 + t) % n) < 2 → slot metas table i = some xi →
    entries n metas table ~ xi :: R →
    ∃ i' metas' table' mt l, shiftBack (n - 1) f i metas table = some (i', metas', table') ∧ metas'[i']? = some mt ∧
      Inv H n (metas'.set i' ⟨mt.hashx, 0⟩) table' ∧ entries n (metas'.set i' ⟨mt.hashx, 0⟩) table' ~ R ∧
      i' = (i + l) % n ∧ l + 1 < n ∧ (∀ j < l, 2 ≤ D metas ((i + 1 + j) % n)) ∧ D metas ((i + l + 1) % n) < 2 ∧
      (∀ j < l, slot (metas'.set i' ⟨mt.hashx, 0⟩) table' ((i + j) % n) = slot metas table ((i + j + 1) % n)) ∧
      (∀ j < l, D (metas'.set i' ⟨mt.hashx, 0⟩) ((i + j) % n) = D metas ((i + j + 1) % n) - 1) ∧
      (∀ x, (∀ j ≤ l, x ≠ (i + j) % n) → slot (metas'.set i' ⟨mt.hashx, 0⟩) table' x = slot metas table x) ∧
      (∀ x, (∀ j ≤ l, x ≠ (i + j) % n) → D (metas'.set i' ⟨mt.hashx, 0⟩) x = D metas x) := by
  have hn : 0 < n := by omega
  intro f
  induction f with
  | zero => intro i t _ _ _ _ _ _ ht; omega
  | succ f ih =>
    intro i t metas table xi R hinv hi ht htn hgap hxi hper
    have hx := Nat.mod_lt (i + 1) hn
    have hlm : i < metas.length := by rw [hinv.lenm]; omega
    have hlt : i < table.length := by rw [hinv.lent]; exact hi
    obtain ⟨mt, hmt, hd⟩ := meta_some hinv hx
    simp only [shiftBack, mask_eq hp, hmt, Option.bind_eq_bind, Option.bind_some, hd]
    by_cases hlt2 : D metas ((i + 1) % n) < 2
    · rw [if_pos hlt2]
      obtain ⟨mi, hmi, _⟩ := meta_some hinv hi
      obtain ⟨R', hR1, hR2⟩ := entries_change (n := n) (metas := metas) (metas' := metas.set i ⟨mi.hashx, 0⟩)
        (table := table) (table' := table) hi (fun x hx => slot_clear_ne hx)
      rw [hxi] at hR1
      rw [slot_clear_self hlm] at hR2
      simp only [Option.toList_some, List.singleton_append] at hR1
      simp only [Option.toList_none, List.nil_append] at hR2
      refine ⟨i, metas, table, mi, 0, rfl, hmi, hinv.clear hi hlt2, ?_, by rw [Nat.add_zero, Nat.mod_eq_of_lt hi],
        by omega, by omega, hlt2, by omega, by omega, ?_, ?_⟩
      · exact hR2.trans ((hR1.symm.trans hper).cons_inv)
      · intro x hx
        have := hx 0 (by omega)
        rw [Nat.add_zero, Nat.mod_eq_of_lt hi] at this
        exact slot_clear_ne this
      · intro x hx
        have := hx 0 (by omega)
        rw [Nat.add_zero, Nat.mod_eq_of_lt hi] at this
        rw [D_set _ hlm, if_neg this]
    · rw [if_neg hlt2]
      have ht0 : t ≠ 0 := by
        intro h; rw [h, Nat.add_zero] at hgap; exact hlt2 hgap
      obtain ⟨t, rfl⟩ : ∃ u, t = u + 1 := ⟨t - 1, by omega⟩
      obtain ⟨e1, hs1, ht1, hm1, hh1⟩ := hinv.slot_eq hx (by omega)
      rw [hm1] at hmt; cases hmt
      simp only [ht1, Option.bind_some]
      have hstep := hinv.step i hi
      -- the state after one move
      have hput := hinv.put h2 hi (e := e1) (c := D metas ((i + 1) % n) - 1) (by omega)
        (by have := hinv.le _ hx; omega)
        (by
          have : (home H n e1.1 + (D metas ((i + 1) % n) - 1 - 1) + 1) % n = (i + 1) % n := by
            rw [show home H n e1.1 + (D metas ((i + 1) % n) - 1 - 1) + 1 = home H n e1.1 + (D metas ((i + 1) % n) - 1) by omega]
            exact hh1
          exact succ_inj (Nat.mod_lt _ hn) hi ((Nat.mod_add_mod _ _ _).trans this))
        (by
          intro x hx' hxn
          have := hinv.step x hx'
          rw [hxn] at this
          omega)
        (by omega)
      obtain ⟨R', hR1, hR2⟩ := entries_change (n := n) (metas := metas)
        (metas' := metas.set i ⟨hashx (H.hash e1.1), D metas ((i + 1) % n) - 1⟩)
        (table := table) (table' := table.set i (some e1)) hi (fun x hx => slot_set_ne hx)
      rw [hxi] at hR1
      rw [slot_set_self hlm hlt (by simp only; omega)] at hR2
      simp only [Option.toList_some, List.singleton_append] at hR1 hR2
      have hper' := hR2.trans ((hR1.symm.trans hper).cons_inv.cons e1)
      have hne : (i + 1) % n ≠ i := by
        have := add_mod_ne (n := n) (i := i) (j := 1) (l := 0) (by omega) (by omega) (by omega)
        rwa [show i + 0 = i from rfl, Nat.mod_eq_of_lt hi] at this
      have hidx : ∀ j, ((i + 1) % n + 1 + j) % n = (i + 1 + (j + 1)) % n := by
        intro j
        rw [show (i + 1) % n + 1 + j = (i + 1) % n + (1 + j) by omega, Nat.mod_add_mod]
        congr 1; omega
      have hidx' : ∀ j, ((i + 1) % n + j) % n = (i + (j + 1)) % n := by
        intro j; rw [Nat.mod_add_mod]; congr 1; omega
      have hchain : ∀ j, j ≠ 0 → j < n → (i + j) % n ≠ i := by
        intro j h0 hj
        have := add_mod_ne (n := n) (i := i) (j := j) (l := 0) h0 hj (by omega)
        rwa [show i + 0 = i from rfl, Nat.mod_eq_of_lt hi] at this
      obtain ⟨i', m', t', mt, l, er, hmt', hI, hP, hi', hl, hge, hstop, hsl, hDl, hso, hDo⟩ := ih ((i + 1) % n) t
        (metas.set i ⟨hashx (H.hash e1.1), D metas ((i + 1) % n) - 1⟩) (table.set i (some e1)) e1 R hput hx (by omega)
        (by omega)
        (by
          rw [hidx, show i + 1 + (t + 1) = i + (t + 2) by omega, D_set _ hlm, if_neg (hchain _ (by omega) (by omega)),
            show i + (t + 2) = i + 1 + (t + 1) by omega]
          exact hgap)
        (by rw [slot_set_ne hne]; exact hs1) hper'
      have hl2 : l + 1 ≤ t + 1 := by
        by_contra hcon
        have := hge t (by omega)
        rw [hidx, show i + 1 + (t + 1) = i + (t + 2) by omega, D_set _ hlm, if_neg (hchain _ (by omega) (by omega)),
          show i + (t + 2) = i + 1 + (t + 1) by omega] at this
        omega
      refine ⟨i', m', t', mt, l + 1, er, hmt', hI, hP, by rw [hi', hidx'], by omega, ?_, ?_, ?_, ?_, ?_, ?_⟩
      · intro j hj
        cases j with
        | zero => rw [Nat.add_zero]; omega
        | succ j =>
          have := hge j (by omega)
          rw [hidx, show i + 1 + (j + 1) = i + (j + 2) by omega, D_set _ hlm, if_neg (hchain _ (by omega) (by omega))] at this
          rw [show i + 1 + (j + 1) = i + (j + 2) by omega]; exact this
      · have := hstop
        rw [show (i + 1) % n + l + 1 = (i + 1) % n + (l + 1) by omega, hidx', D_set _ hlm,
          if_neg (hchain _ (by omega) (by omega))] at this
        exact this
      · intro j hj
        cases j with
        | zero =>
          rw [Nat.add_zero, Nat.mod_eq_of_lt hi]
          rw [hso i (by intro j hj he; rw [hidx'] at he; exact hchain (j + 1) (by omega) (by omega) he.symm),
            slot_set_self hlm hlt (by simp only; omega), hs1]
        | succ j =>
          have := hsl j (by omega)
          rw [hidx', show (i + 1) % n + j + 1 = (i + 1) % n + (j + 1) by omega, hidx',
            slot_set_ne (hchain _ (by omega) (by omega))] at this
          exact this
      · intro j hj
        cases j with
        | zero =>
          rw [Nat.add_zero, Nat.mod_eq_of_lt hi]
          rw [hDo i (by intro j hj he; rw [hidx'] at he; exact hchain (j + 1) (by omega) (by omega) he.symm),
            D_set _ hlm, if_pos rfl]
        | succ j =>
          have := hDl j (by omega)
          rw [hidx', show (i + 1) % n + j + 1 = (i + 1) % n + (j + 1) by omega, hidx', D_set _ hlm,
            if_neg (hchain _ (by omega) (by omega))] at this
          exact this
      · intro x hxx
        have h0 := hxx 0 (by omega)
        rw [Nat.add_zero, Nat.mod_eq_of_lt hi] at h0
        rw [hso x (by intro j hj he; rw [hidx'] at he; exact hxx (j + 1) (by omega) he), slot_set_ne h0]
      · intro x hxx
        have h0 := hxx 0 (by omega)
        rw [Nat.add_zero, Nat.mod_eq_of_lt hi] at h0
        rw [hDo x (by intro j hj he; rw [hidx'] at he; exact hxx (j + 1) (by omega) he), D_set _ hlm, if_neg h0]

end Verif.Hmap
