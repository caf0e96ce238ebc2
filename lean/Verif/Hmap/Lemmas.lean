import Verif.Hmap.Spec
import Verif.Hmap.Float
import Mathlib.Data.List.Perm.Subperm
import Mathlib.Data.List.Range
import Mathlib.Data.Nat.ModEq
import Mathlib.Data.Nat.Find
import Mathlib.Data.List.Nodup
/- Representation invariant of hash maps and its preservation. -/
namespace Verif.Hmap
open List (Perm Subperm)
open scoped List
open Verif.Common Spec
variable {κ ν : Type}

/-! ### slots -/

/-- The distance field of a bucket. -/
def D (metas : List Meta) (x : Nat) : Nat := match metas[x]? with
  | some mt => mt.dist
  | none => 0

theorem D_eq {metas : List Meta} {x : Nat} {mt : Meta} (h : metas[x]? = some mt) : D metas x = mt.dist := by
  simp [D, h]

theorem D_set {metas : List Meta} {i x : Nat} (mt : Meta) (hi : i < metas.length) :
    D (metas.set i mt) x = if x = i then mt.dist else D metas x := by
  by_cases hx : x = i
  · subst hx; rw [if_pos rfl, D_eq (List.getElem?_set_self hi)]
  · rw [if_neg hx]; simp only [D, List.getElem?_set_ne (Ne.symm hx)]

/-- The entry in a bucket. -/
def slot (metas : List Meta) (table : List (Option (κ × ν))) (x : Nat) : Option (κ × ν) :=
  if D metas x ≠ 0 then (table[x]?).join else none

/-- The entries, in bucket order. -/
def entries (n : Nat) (metas : List Meta) (table : List (Option (κ × ν))) : List (κ × ν) :=
  (List.range n).filterMap (slot metas table)

theorem filterMap_split {β : Type} (f : Nat → Option β) {n i : Nat} (hi : i < n) :
    (List.range n).filterMap f ~ (f i).toList ++ ((List.range n).erase i).filterMap f := by
  have := (List.perm_cons_erase (List.mem_range.2 hi)).filterMap f
  refine this.trans ?_
  rw [List.filterMap_cons]
  cases f i <;> simp

theorem filterMap_congr_erase {β : Type} {f g : Nat → Option β} {n i : Nat} (h : ∀ x, x ≠ i → f x = g x) :
    ((List.range n).erase i).filterMap f = ((List.range n).erase i).filterMap g := by
  apply List.filterMap_congr
  intro x hx
  exact h x fun e => by
    subst e
    exact absurd hx (List.Nodup.not_mem_erase List.nodup_range)

/-- Changing one bucket. -/
theorem entries_change {n i : Nat} {metas metas' : List Meta} {table table' : List (Option (κ × ν))} (hi : i < n)
    (h : ∀ x, x ≠ i → slot metas' table' x = slot metas table x) :
    ∃ R, entries n metas table ~ (slot metas table i).toList ++ R ∧
      entries n metas' table' ~ (slot metas' table' i).toList ++ R := by
  refine ⟨_, filterMap_split _ hi, ?_⟩
  rw [← filterMap_congr_erase h]
  exact filterMap_split _ hi

theorem mem_entries {n : Nat} {metas : List Meta} {table : List (Option (κ × ν))} {e : κ × ν} :
    e ∈ entries n metas table ↔ ∃ x, x < n ∧ slot metas table x = some e := by
  simp [entries]

/-! ### invariant -/

/-- The invariant of the arrays. -/
structure Inv (H : Hasher κ) (n : Nat) (metas : List Meta) (table : List (Option (κ × ν))) : Prop where
  lenm : metas.length = n + 1
  lent : table.length = n
  mark : D metas n = 1023
  occ : ∀ x < n, D metas x ≠ 0 → ∃ e, table[x]? = some (some e) ∧
    metas[x]? = some ⟨hashx (H.hash e.1), D metas x⟩ ∧ (home H n e.1 + (D metas x - 1)) % n = x
  le : ∀ x < n, D metas x ≤ 1023
  step : ∀ x < n, D metas ((x + 1) % n) ≤ D metas x + 1

theorem meta_some {H : Hasher κ} {n : Nat} {metas : List Meta} {table : List (Option (κ × ν))} (h : Inv H n metas table)
    {x : Nat} (hx : x < n) : ∃ mt, metas[x]? = some mt ∧ mt.dist = D metas x := by
  have : x < metas.length := by rw [h.lenm]; omega
  exact ⟨metas[x], List.getElem?_eq_getElem this, (D_eq (List.getElem?_eq_getElem this)).symm⟩

theorem Inv.slot_eq {H : Hasher κ} {n : Nat} {metas : List Meta} {table : List (Option (κ × ν))} (h : Inv H n metas table)
    {x : Nat} (hx : x < n) (hd : D metas x ≠ 0) : ∃ e, slot metas table x = some e ∧ table[x]? = some (some e) ∧
      metas[x]? = some ⟨hashx (H.hash e.1), D metas x⟩ ∧ (home H n e.1 + (D metas x - 1)) % n = x := by
  obtain ⟨e, h1, h2, h3⟩ := h.occ x hx hd
  exact ⟨e, by rw [slot, if_pos hd, h1]; rfl, h1, h2, h3⟩

theorem slot_some {metas : List Meta} {table : List (Option (κ × ν))} {x : Nat} {e : κ × ν}
    (h : slot metas table x = some e) : D metas x ≠ 0 := by
  intro h0; rw [slot, if_neg (by simpa using h0)] at h; cases h

theorem Inv.back {H : Hasher κ} {n : Nat} {metas : List Meta} {table : List (Option (κ × ν))} (h : Inv H n metas table)
    (hn : 0 < n) (x : Nat) : ∀ j, D metas ((x + j) % n) ≤ D metas (x % n) + j := by
  intro j
  induction j with
  | zero => simp
  | succ j ih =>
    have := h.step ((x + j) % n) (Nat.mod_lt _ hn)
    rw [Nat.mod_add_mod] at this
    rw [show x + (j + 1) = x + j + 1 by omega]
    omega

/-! ### clustering -/

theorem off_eq {n h s a b : Nat} (hs : s < n) (hab : a ≤ b) (hb : b - a < n)
    (e : (h + a) % n = (s + b) % n) : (h + n - s) % n = b - a := by
  have h1 : h + n - s + (s + a) ≡ b - a + (s + a) [MOD n] := by
    have e1 : h + n - s + (s + a) = h + a + n := by omega
    have e2 : b - a + (s + a) = s + b := by omega
    rw [e1, e2]
    unfold Nat.ModEq
    rw [Nat.add_mod_right]; exact e
  have := Nat.ModEq.add_right_cancel' (s + a) h1
  unfold Nat.ModEq at this
  rw [this, Nat.mod_eq_of_lt hb]

/-- An entry with distance `c` belonging behind bucket `idx` respects the 10-bit limit. -/
theorem spread_bound {H : Hasher κ} {n : Nat} {metas : List Meta} {table : List (Option (κ × ν))} (h : Inv H n metas table)
    (hgap : ∃ g < n, D metas g = 0) {idx : Nat} (hidx : idx < n) {c : Nat} {k : κ}
    (hk : (home H n k + c) % n = (idx + 1) % n) (hc : c ≤ D metas idx) {hs : List Nat}
    (hsub : (home H n k :: (entries n metas table).map fun e => home H n e.1) <+~ hs) (hsp : Spread n hs) : c + 1 ≤ 1023 := by
  have hn : 0 < n := by omega
  -- the nearest empty bucket before `idx`
  have hex : ∃ L, D metas ((idx + n - L) % n) = 0 ∧ L < n := by
    obtain ⟨g, hg, h0⟩ := hgap
    by_cases hle : g ≤ idx
    · refine ⟨idx - g, ?_, by omega⟩
      rw [show idx + n - (idx - g) = g + n by omega, Nat.add_mod_right, Nat.mod_eq_of_lt hg]; exact h0
    · refine ⟨idx + n - g, ?_, by omega⟩
      rw [show idx + n - (idx + n - g) = g by omega, Nat.mod_eq_of_lt hg]; exact h0
  classical
  obtain ⟨L, ⟨hL0, hLn⟩, hmin⟩ : ∃ L, (D metas ((idx + n - L) % n) = 0 ∧ L < n) ∧
      ∀ j < L, ¬ D metas ((idx + n - j) % n) = 0 := by
    refine ⟨Nat.find hex, Nat.find_spec hex, fun j hj h0 => ?_⟩
    exact Nat.find_min hex hj ⟨h0, Nat.lt_trans hj (Nat.find_spec hex).2⟩
  obtain ⟨g, hg⟩ : ∃ g, g = idx + n - L := ⟨_, rfl⟩
  have hslot : ∀ i < L, (g + 1 + i) % n = (idx + n - (L - 1 - i)) % n := by
    intro i hi; congr 1; omega
  have hup : ∀ i, D metas ((g + 1 + i) % n) ≤ i + 1 := by
    intro i
    have := h.back hn g (1 + i)
    rw [← Nat.add_assoc, hg, hL0] at this
    rw [hg]; omega
  have hocc : ∀ i < L, D metas ((g + 1 + i) % n) ≠ 0 := by
    intro i hi
    rw [hslot i hi]; exact hmin _ (by omega)
  have hlast : D metas idx ≤ L := by
    by_cases hL : L = 0
    · rw [hL] at hL0
      simp only [Nat.sub_zero, Nat.add_mod_right, Nat.mod_eq_of_lt hidx] at hL0
      omega
    · have := hup (L - 1)
      rw [show g + 1 + (L - 1) = idx + n by omega, Nat.add_mod_right, Nat.mod_eq_of_lt hidx] at this
      omega
  -- entries in the run
  let s := (g + 1) % n
  let run := (List.range L).map fun i => (g + 1 + i) % n
  have hnd : run.Nodup := by
    refine (List.nodup_map_iff_inj_on List.nodup_range).2 ?_
    intro a ha b hb e
    rw [List.mem_range] at ha hb
    have : g + 1 + a ≡ g + 1 + b [MOD n] := e
    have := Nat.ModEq.add_left_cancel' (g + 1) this
    unfold Nat.ModEq at this
    rwa [Nat.mod_eq_of_lt (by omega), Nat.mod_eq_of_lt (by omega)] at this
  have hsp' : run <+~ List.range n := by
    refine List.Nodup.subperm hnd ?_
    intro x hx
    simp only [run, List.mem_map] at hx
    obtain ⟨i, _, rfl⟩ := hx
    exact List.mem_range.2 (Nat.mod_lt _ hn)
  have hrun : (run.filterMap (slot metas table)) <+~ entries n metas table := by
    obtain ⟨l, hl1, hl2⟩ := hsp'
    exact ⟨_, hl1.filterMap _, hl2.filterMap _⟩
  have hcnt : ∀ (xs : List Nat), (∀ x ∈ xs, ∃ e, slot metas table x = some e ∧ (home H n e.1 + n - s) % n < L + 1 - c) →
      ((xs.filterMap (slot metas table)).map fun e => home H n e.1).countP
        (fun h => decide ((h + n - s) % n < L + 1 - c)) = xs.length := by
    intro xs
    induction xs with
    | nil => intro _; rfl
    | cons x xs ih =>
      intro hx
      obtain ⟨e, he, ho⟩ := hx x (by simp)
      rw [List.filterMap_cons, he]
      simp only [List.map_cons, List.length_cons]
      rw [List.countP_cons_of_pos (by simpa using ho), ih fun y hy => hx y (by simp [hy])]
  have hall := hcnt run (by
    intro x hx
    simp only [run, List.mem_map, List.mem_range] at hx
    obtain ⟨i, hi, rfl⟩ := hx
    obtain ⟨e, he, _, _, hh⟩ := h.slot_eq (Nat.mod_lt _ hn) (hocc i hi)
    refine ⟨e, he, ?_⟩
    have hd := hup i
    have h0 := hocc i hi
    have hb := h.back hn (g + 1 + i) (L - 1 - i)
    rw [show g + 1 + i + (L - 1 - i) = idx + n by omega, Nat.add_mod_right, Nat.mod_eq_of_lt hidx] at hb
    rw [show (home H n e.1 + n - s) % n = i - (D metas ((g + 1 + i) % n) - 1) from
      off_eq (Nat.mod_lt _ hn) (by omega) (by omega) (by rw [hh]; simp only [s, Nat.mod_add_mod])]
    omega)
  have hk' : (home H n k + n - s) % n < L + 1 - c := by
    rw [show (home H n k + n - s) % n = L - c from
      off_eq (Nat.mod_lt _ hn) (by omega) (by omega) (by
        rw [hk]; simp only [s, Nat.mod_add_mod]
        rw [show g + 1 + L = idx + 1 + n by omega, Nat.add_mod_right])]
    omega
  have hfin := hsp s (Nat.mod_lt _ hn) (L + 1 - c) (by omega) (by omega)
  have hle := (List.Subperm.countP_le (fun h => decide ((h + n - s) % n < L + 1 - c)) hsub)
  rw [List.countP_cons_of_pos (by simpa using hk')] at hle
  have hle2 := List.Subperm.countP_le (fun h => decide ((h + n - s) % n < L + 1 - c))
    (show (run.filterMap (slot metas table)).map (fun e => home H n e.1) <+~ _ from by
      obtain ⟨l, hl1, hl2⟩ := hrun
      exact ⟨_, hl1.map _, hl2.map _⟩)
  rw [hall] at hle2
  simp only [run, List.length_map, List.length_range] at hle2
  omega

end Verif.Hmap
