import Verif.Hmap.Stable
/- C164: the layout of a hash map, and so its iteration order and the cost of lookups, does not
depend on the history. -/
namespace Verif.Hmap
open List (Perm Subperm)
open scoped List
open Verif.Common Spec
variable {κ ν : Type}

/-! ### counting lookups -/

/-- hmap.h:380-391: `lookupLoop` counting the buckets whose meta data it reads. -/
def probeLoop (H : Hasher κ) (table : List (Option (κ × ν))) (metas : List Meta) (mask : Nat) (k : κ) :
    Nat → Nat → Nat → Nat → Option Nat
  | 0, _, _, _ => none
  | f + 1, idx, dist, cnt => do
    let mt ← metas[idx]?
    if dist ≤ mt.dist then do
      let b ← hit H table mt idx k
      if b then some (cnt + 1)
      else probeLoop H table metas mask k f ((idx + 1) &&& mask) (dist + 1) (cnt + 1)
    else some (cnt + 1)

/-- hmap.h:259-262 `_get`, 374-393 `_bucket_lookup_`: the number of buckets a lookup inspects. -/
def probes (H : Hasher κ) (m : Map κ ν) (k : κ) : Option Nat :=
  if m.size ≠ 0 then probeLoop H m.table m.metas (m.bc - 1) k 1025 ((H.hash k).toNat &&& (m.bc - 1)) 1 0
  else some 0

theorem probeLoop_eq (H : Hasher κ) (table : List (Option (κ × ν))) (metas : List Meta) (mask : Nat) (k : κ) :
    ∀ f idx dist cnt, probeLoop H table metas mask k f idx (dist + 1) (dist + cnt) =
      (lookupLoop H table metas mask k f idx (dist + 1)).map fun r => r.dist + cnt := by
  intro f
  induction f with
  | zero => intro _ _ _; rfl
  | succ f ih =>
    intro idx dist cnt
    simp only [probeLoop, lookupLoop]
    cases metas[idx]? with
    | none => rfl
    | some mt =>
      simp only [Option.bind_eq_bind, Option.bind_some]
      by_cases hd : dist + 1 ≤ mt.dist
      · simp only [if_pos hd]
        cases hit H table mt idx k with
        | none => rfl
        | some b =>
          simp only [Option.bind_some]
          cases b with
          | true => simp only [if_true, Option.map_some]; congr 1; omega
          | false =>
            simp only [Bool.false_eq_true, if_false]
            rw [← ih, show dist + cnt + 1 = dist + 1 + cnt by omega]
      · simp only [if_neg hd, Option.map_some]; congr 1; omega

theorem probes_eq (H : Hasher κ) (m : Map κ ν) (k : κ) (hs : m.size ≠ 0) :
    probes H m k = (lookup H m k).map (·.dist) := by
  rw [probes, if_pos hs]
  exact probeLoop_eq H m.table m.metas (m.bc - 1) k 1025 _ 0 0

/-! ### distances from counting -/

/-- The keys crowd bucket `x` with excess `c`: some stretch of `len + c` buckets ending in `x` is
home, in its first `len` buckets, to as many keys as it has buckets. -/
def Crowd (n : Nat) (hs : List Nat) (x c : Nat) : Prop :=
  ∃ len, 1 ≤ len ∧ len + c ≤ n ∧
    len + c ≤ hs.countP fun h => decide ((h + n - (x + n - (len + c - 1)) % n) % n < len)

theorem Crowd.perm {n : Nat} {hs hs' : List Nat} {x c : Nat} (h : hs ~ hs') : Crowd n hs x c ↔ Crowd n hs' x c := by
  simp only [Crowd, h.countP_eq]

theorem countP_slots {H : Hasher κ} {n : Nat} {metas : List Meta} {table : List (Option (κ × ν))} (P : Nat → Bool) :
    ∀ xs : List Nat, ((xs.filterMap (slot metas table)).map fun e => home H n e.1).countP P =
      (xs.filter fun y => (slot metas table y).any fun e => P (home H n e.1)).length := by
  intro xs
  induction xs with
  | nil => rfl
  | cons x xs ih =>
    rw [List.filterMap_cons]
    cases hs : slot metas table x with
    | none => simp only [List.filter_cons, hs, Option.any_none, Bool.false_eq_true, if_false, ih]
    | some e =>
      simp only [List.filter_cons, hs, Option.any_some, List.map_cons]
      cases hP : P (home H n e.1) with
      | true => rw [List.countP_cons_of_pos hP, ih]; rfl
      | false => rw [List.countP_cons_of_neg (by simp [hP]), ih]; rfl

theorem stretch_nodup {n s r : Nat} (hr : r ≤ n) : ((List.range r).map fun i => (s + i) % n).Nodup := by
  refine (List.nodup_map_iff_inj_on List.nodup_range).2 ?_
  intro a ha b hb e
  rw [List.mem_range] at ha hb
  have : s + a ≡ s + b [MOD n] := e
  have := Nat.ModEq.add_left_cancel' s this
  unfold Nat.ModEq at this
  rwa [Nat.mod_eq_of_lt (by omega), Nat.mod_eq_of_lt (by omega)] at this

/-- The distance in a bucket is determined by the home buckets of the keys. -/
theorem dist_iff {H : Hasher κ} {n : Nat} {metas : List Meta} {table : List (Option (κ × ν))} (h : Inv H n metas table)
    (hgap : ∃ g < n, D metas g = 0) {x : Nat} (hx : x < n) (c : Nat) :
    c < D metas x ↔ Crowd n ((entries n metas table).map fun e => home H n e.1) x c := by
  have hn : 0 < n := by omega
  constructor
  · intro hc
    have hex : ∃ R, D metas ((x + n - R) % n) = 0 ∧ R < n := by
      obtain ⟨g, hg, h0⟩ := hgap
      by_cases hle : g ≤ x
      · refine ⟨x - g, ?_, by omega⟩
        rw [show x + n - (x - g) = g + n by omega, Nat.add_mod_right, Nat.mod_eq_of_lt hg]; exact h0
      · refine ⟨x + n - g, ?_, by omega⟩
        rw [show x + n - (x + n - g) = g by omega, Nat.mod_eq_of_lt hg]; exact h0
    classical
    obtain ⟨R, ⟨hR0, hRn⟩, hmin⟩ : ∃ R, (D metas ((x + n - R) % n) = 0 ∧ R < n) ∧
        ∀ j < R, ¬ D metas ((x + n - j) % n) = 0 := by
      refine ⟨Nat.find hex, Nat.find_spec hex, fun j hj h0 => ?_⟩
      exact Nat.find_min hex hj ⟨h0, Nat.lt_trans hj (Nat.find_spec hex).2⟩
    obtain ⟨g, hg⟩ : ∃ g, g = x + n - R := ⟨_, rfl⟩
    have hup : ∀ i, D metas ((g + 1 + i) % n) ≤ i + 1 := by
      intro i
      have := h.back hn g (1 + i)
      rw [← Nat.add_assoc, hg, hR0] at this
      rw [hg]; omega
    have hR1 : 1 ≤ R := by
      rcases Nat.eq_zero_or_pos R with e | e
      · rw [e] at hR0
        simp only [Nat.sub_zero, Nat.add_mod_right, Nat.mod_eq_of_lt hx] at hR0
        omega
      · exact e
    have hocc : ∀ i < R, D metas ((g + 1 + i) % n) ≠ 0 := by
      intro i hi
      rw [show g + 1 + i = x + n - (R - 1 - i) by omega]; exact hmin _ (by omega)
    have hlast : D metas x ≤ R := by
      have := hup (R - 1)
      rw [show g + 1 + (R - 1) = x + n by omega, Nat.add_mod_right, Nat.mod_eq_of_lt hx] at this
      omega
    refine ⟨R - c, by omega, by omega, ?_⟩
    rw [show R - c + c = R by omega, show x + n - (R - 1) = g + 1 by omega, entries, countP_slots]
    have hsub : ((List.range R).map fun i => (g + 1 + i) % n) ⊆ ((List.range n).filter fun y => (slot metas table y).any fun e =>
        decide ((home H n e.1 + n - (g + 1) % n) % n < R - c)) := by
      intro y hy
      simp only [List.mem_map, List.mem_range] at hy
      obtain ⟨i, hi, rfl⟩ := hy
      obtain ⟨e, he, _, _, hh⟩ := h.slot_eq (Nat.mod_lt _ hn) (hocc i hi)
      rw [List.mem_filter, List.mem_range]
      refine ⟨Nat.mod_lt _ hn, ?_⟩
      rw [he, Option.any_some, decide_eq_true_eq]
      have hd := hup i
      have h0 := hocc i hi
      have hb := h.back hn (g + 1 + i) (R - 1 - i)
      rw [show g + 1 + i + (R - 1 - i) = x + n by omega, Nat.add_mod_right, Nat.mod_eq_of_lt hx] at hb
      rw [show (home H n e.1 + n - (g + 1) % n) % n = i - (D metas ((g + 1 + i) % n) - 1) from
        off_eq (Nat.mod_lt _ hn) (by omega) (by omega) (by rw [hh]; simp only [Nat.mod_add_mod])]
      omega
    have := (List.Nodup.subperm (stretch_nodup (by omega)) hsub).length_le
    rwa [List.length_map, List.length_range] at this
  · rintro ⟨len, h1, h2, h3⟩
    by_contra hc
    rw [entries, countP_slots] at h3
    have hsub : ((List.range n).filter fun y => (slot metas table y).any fun e =>
        decide ((home H n e.1 + n - (x + n - (len + c - 1)) % n) % n < len)) ⊆
        ((List.range (len + c - 1)).map fun i => (x + n - (len + c - 1) + i) % n) := by
      intro y hy
      rw [List.mem_filter, List.mem_range] at hy
      obtain ⟨hy, ha⟩ := hy
      cases hs : slot metas table y with
      | none => rw [hs] at ha; cases ha
      | some e =>
        rw [hs, Option.any_some, decide_eq_true_eq] at ha
        have hd := slot_some hs
        obtain ⟨e', q1, _, _, q4⟩ := h.slot_eq hy hd
        rw [hs] at q1; cases q1
        generalize hS : x + n - (len + c - 1) = S at ha ⊢
        generalize hA : (home H n e.1 + n - S % n) % n = a at ha
        have hSn := Nat.mod_lt S hn
        have hhome : (S + a) % n = home H n e.1 := by
          have hlt : home H n e.1 < n := Nat.mod_lt _ hn
          rw [← hA, Nat.add_mod_mod, ← Nat.mod_add_mod, show S % n + (home H n e.1 + n - S % n) = home H n e.1 + n by omega,
            Nat.add_mod_right, Nat.mod_eq_of_lt hlt]
        have hy' : y = (S + (a + (D metas y - 1))) % n := by
          have := q4
          rw [← hhome, Nat.mod_add_mod, Nat.add_assoc] at this
          exact this.symm
        have hlt : a + (D metas y - 1) < len + c - 1 := by
          by_contra hge
          have := h.back hn (S + (len + c - 1)) (a + (D metas y - 1) - (len + c - 1))
          rw [show S + (len + c - 1) + (a + (D metas y - 1) - (len + c - 1)) = S + (a + (D metas y - 1)) by omega, ← hy',
            show S + (len + c - 1) = x + n by omega, Nat.add_mod_right, Nat.mod_eq_of_lt hx] at this
          omega
        exact List.mem_map.2 ⟨_, List.mem_range.2 hlt, hy'.symm⟩
    have := (List.Nodup.subperm (List.nodup_range.filter _) hsub).length_le
    rw [List.length_map, List.length_range] at this
    omega

theorem dist_unique {H : Hasher κ} {ν' : Type} {n : Nat} {metas metas' : List Meta} {table : List (Option (κ × ν))}
    {table' : List (Option (κ × ν'))} (h : Inv H n metas table) (h' : Inv H n metas' table')
    (hgap : ∃ g < n, D metas g = 0) (hgap' : ∃ g < n, D metas' g = 0)
    (hp : ((entries n metas table).map fun e => home H n e.1) ~ ((entries n metas' table').map fun e => home H n e.1))
    {x : Nat} (hx : x < n) : D metas x = D metas' x := by
  have : ∀ c, c < D metas x ↔ c < D metas' x := fun c => by
    rw [dist_iff h hgap hx, dist_iff h' hgap' hx, Crowd.perm hp]
  have h1 := this (D metas x)
  have h2 := this (D metas' x)
  omega

/-! ### same keys -/

/-- Two finite maps have the same keys. -/
def Spec.SameKeys {ν' : Type} (H : Hasher κ) (M : FMap κ ν) (M' : FMap κ ν') : Prop :=
  ∀ k, (find H M k).isSome = (find H M' k).isSome

theorem SameKeys.perm {ν' β : Type} {H : Hasher κ} (LH : Lawful H) (f : κ → β) (hf : ∀ a b, H.eq a b = true → f a = f b) :
    ∀ {M : FMap κ ν} {M' : FMap κ ν'}, Distinct H M → Distinct H M' → SameKeys H M M' →
      (M.map fun e => f e.1) ~ (M'.map fun e => f e.1) := by
  intro M
  induction M with
  | nil =>
    intro M' _ _ hs
    cases M' with
    | nil => exact .refl _
    | cons e M' =>
      have := hs e.1
      rw [show find H (e :: M') e.1 = some e by simp only [find, List.find?_cons, LH.refl]] at this
      cases this
  | cons e M ih =>
    intro M' hd hd' hs
    have h1 := hs e.1
    rw [show find H (e :: M) e.1 = some e by simp only [find, List.find?_cons, LH.refl]] at h1
    obtain ⟨e', he'⟩ := Option.isSome_iff_exists.1 h1.symm
    obtain ⟨hm, heq⟩ := (find_some_iff LH hd').1 he'
    obtain ⟨A, B, rfl⟩ := List.append_of_mem hm
    have hp : A ++ e' :: B ~ e' :: (A ++ B) := List.perm_middle
    have hd2 := hd'.perm LH hp
    have hdc := List.pairwise_cons.1 hd
    have hdc' := List.pairwise_cons.1 hd2
    have hs2 : SameKeys H M (A ++ B) := by
      intro k
      by_cases hk : H.eq e.1 k = true
      · have q1 : find H M k = none := find_none_iff.2 fun e2 h2 => by
          cases hq : H.eq e2.1 k with
          | false => rfl
          | true =>
            have := hdc.1 e2 h2
            rw [LH.trans _ _ _ hk (LH.symm _ _ hq)] at this; cases this
        have q2 : find H (A ++ B) k = none := find_none_iff.2 fun e2 h2 => by
          cases hq : H.eq e2.1 k with
          | false => rfl
          | true =>
            have := hdc'.1 e2 h2
            rw [LH.trans _ _ _ (LH.trans _ _ _ heq hk) (LH.symm _ _ hq)] at this; cases this
        rw [q1, q2]
        rfl
      · have h2 := hs k
        have hk' : ¬ H.eq e'.1 k = true := fun q => hk (LH.trans _ _ _ (LH.symm _ _ heq) q)
        rw [find, List.find?_cons_of_neg (by simpa using hk)] at h2
        rw [find, h2, find, find, List.find?_append, List.find?_append, List.find?_cons_of_neg (by simpa using hk')]
    have := ih hdc.2 hdc'.2 hs2
    refine .trans ?_ (hp.map _).symm
    rw [List.map_cons, List.map_cons, hf _ _ heq]
    exact this.cons _

theorem home_eq {H : Hasher κ} (LH : Lawful H) (n : Nat) (a b : κ) (h : H.eq a b = true) : home H n a = home H n b := by
  rw [home, home, LH.hash _ _ h]

theorem Full.same {ν' : Type} {H : Hasher κ} (LH : Lawful H) {m : Map κ ν} {m' : Map κ ν'} {M : FMap κ ν} {M' : FMap κ ν'}
    {n p p' : Nat} (h : Full H m M n p) (h' : Full H m' M' n p') (hs : SameKeys H M M') {x : Nat} (hx : x < n) :
    D m.metas x = D m'.metas x := by
  refine dist_unique h.arr.inv h'.arr.inv h.gap h'.gap ?_ hx
  exact (h.perm.map _).trans ((SameKeys.perm LH (home H n) (home_eq LH n) h.dist h'.dist hs).trans (h'.perm.map _).symm)

theorem both_full {ν' : Type} {H : Hasher κ} {m : Map κ ν} {m' : Map κ ν'} {M : FMap κ ν} {M' : FMap κ ν'}
    (h : Rep H m M) (h' : Rep H m' M') (hbc : m.bc = m'.bc) :
    (m = init ∧ m' = init ∧ M = [] ∧ M' = []) ∨ ∃ n p p', Full H m M n p ∧ Full H m' M' n p' := by
  rcases h with ⟨rfl, rfl⟩ | ⟨n, p, h⟩
  · rcases h' with ⟨rfl, rfl⟩ | ⟨n, p, h'⟩
    · exact Or.inl ⟨rfl, rfl, rfl, rfl⟩
    · have := h'.arr.two
      have := h'.arr.bc
      simp only [init] at hbc
      omega
  · rcases h' with ⟨rfl, rfl⟩ | ⟨n', p', h'⟩
    · have := h.arr.two
      have := h.arr.bc
      simp only [init] at hbc
      omega
    · have e1 := h.arr.bc
      have e2 := h'.arr.bc
      have : n' = n := by omega
      subst this
      exact Or.inr ⟨_, _, _, h, h'⟩

/-! ### lookups of absent keys -/

theorem SameKeys.length {ν' : Type} {H : Hasher κ} (LH : Lawful H) {M : FMap κ ν} {M' : FMap κ ν'} (hd : Distinct H M)
    (hd' : Distinct H M') (hs : SameKeys H M M') : M.length = M'.length := by
  have := (SameKeys.perm LH (fun _ => ()) (fun _ _ _ => rfl) hd hd' hs).length_eq
  simpa using this

/-- C164: looking up an absent key inspects the same number of buckets in any two maps with the
same keys and bucket count, whatever was inserted and erased before and in which order. -/
theorem absent_lookup_cost {ν' : Type} {H : Hasher κ} (LH : Lawful H) {m : Map κ ν} {m' : Map κ ν'} {M : FMap κ ν}
    {M' : FMap κ ν'} (h : Reach H m M) (h' : Reach H m' M') (hbc : m.bc = m'.bc) (hs : SameKeys H M M') {k : κ}
    (hk : find H M k = none) : ∃ c, probes H m k = some c ∧ probes H m' k = some c ∧ c ≤ M.length + 1 := by
  have hr := reach_rep LH h
  have hr' := reach_rep LH h'
  have hlen := SameKeys.length LH hr.distinct hr'.distinct hs
  by_cases h0 : m.size = 0
  · have h0' : m'.size = 0 := by rw [hr'.size, ← hlen, ← hr.size]; exact h0
    exact ⟨0, by rw [probes, if_neg (by simpa using h0)], by rw [probes, if_neg (by simpa using h0')], by omega⟩
  have h0' : m'.size ≠ 0 := by rw [hr'.size, ← hlen, ← hr.size]; exact h0
  rcases both_full hr hr' hbc with ⟨rfl, _⟩ | ⟨n, p, p', hf, hf'⟩
  · exact absurd rfl h0
  have hn : 0 < n := by have := hf.arr.two; omega
  have hk' : find H M' k = none := by
    have := hs k
    rw [hk] at this
    cases hq : find H M' k with
    | none => rfl
    | some e => rw [hq] at this; cases this
  obtain ⟨r, er, hr1⟩ := lookup_spec LH hf.arr k
  obtain ⟨r', er', hr1'⟩ := lookup_spec LH hf'.arr k
  rcases hr1 with ⟨_, q2, e, q3, q4⟩ | ⟨_, ⟨c, q1, q2, q3, q4⟩, _⟩
  · have := (find_none_iff.1 hk) e (hf.perm.subset (mem_entries.2 ⟨_, q2, q3⟩))
    rw [q4] at this; cases this
  rcases hr1' with ⟨_, w2, e, w3, w4⟩ | ⟨_, ⟨c', w1, w2, w3, w4⟩, _⟩
  · have := (find_none_iff.1 hk') e (hf'.perm.subset (mem_entries.2 ⟨_, w2, w3⟩))
    rw [w4] at this; cases this
  have hsame : ∀ x, D m.metas ((home H n k + x) % n) = D m'.metas ((home H n k + x) % n) :=
    fun x => hf.same LH hf' hs (Nat.mod_lt _ hn)
  have hcc : c = c' := by
    rcases Nat.lt_trichotomy c c' with hlt | heq | hgt
    · have := w4 c hlt
      rw [← hsame, ← q1] at this; omega
    · exact heq
    · have := q4 c' hgt
      rw [hsame, ← w1] at this; omega
  subst hcc
  refine ⟨c + 1, ?_, ?_, ?_⟩
  · rw [probes_eq H m k h0, er, Option.map_some, q2]
  · rw [probes_eq H m' k h0', er', Option.map_some, w2]
  · -- the buckets passed are different and occupied
    have hcn : c < n := by
      by_contra hge
      obtain ⟨g, hg, hg0⟩ := hf.gap
      have hx : (home H n k + (g + n - home H n k) % n) % n = g := by
        have hlt : home H n k < n := Nat.mod_lt _ hn
        rw [Nat.add_mod_mod, show home H n k + (g + n - home H n k) = g + n by omega, Nat.add_mod_right, Nat.mod_eq_of_lt hg]
      have := q4 ((g + n - home H n k) % n) (by have := Nat.mod_lt (g + n - home H n k) hn; omega)
      rw [hx] at this; omega
    have hsub : ((List.range c).map fun i => (home H n k + i) % n) ⊆ (List.range n).filter fun y => (slot m.metas m.table y).any fun e => (fun _ => true) (home H n e.1) := by
      intro y hy
      simp only [List.mem_map, List.mem_range] at hy
      obtain ⟨i, hi, rfl⟩ := hy
      obtain ⟨e, he, _⟩ := hf.arr.inv.slot_eq (Nat.mod_lt (home H n k + i) hn) (by have := q4 i hi; omega)
      rw [List.mem_filter, List.mem_range]
      exact ⟨Nat.mod_lt _ hn, by rw [he]; rfl⟩
    have := (List.Nodup.subperm (stretch_nodup (by omega)) hsub).length_le
    rw [List.length_map, List.length_range, ← countP_slots (H := H) (n := n) (fun _ => true)] at this
    simp only [List.countP_true, List.length_map] at this
    have hp := hf.perm.length_eq
    rw [entries] at hp
    omega

/-! ### lookups of present keys -/

theorem lookupLoop_dist {H : Hasher κ} (LH : Lawful H) {n : Nat} {metas : List Meta}
    {table : List (Option (κ × ν))} (h : Inv H n metas table) (hgap : ∃ g < n, D metas g = 0) {p : Nat} (hp : n = 2 ^ p)
    (k : κ) {x : Nat} (hx : x < n) {e : κ × ν} (hs : slot metas table x = some e) (hk : H.eq e.1 k = true)
    (huniq : ∀ y < n, ∀ e', slot metas table y = some e' → H.eq e'.1 k = true → y = x) :
    ∀ f i r, lookupLoop H table metas (n - 1) k f ((home H n k + i) % n) (i + 1) = some r → i ≤ D metas x - 1 →
      r.dist = D metas x := by
  have hn : 0 < n := by omega
  have hdx := slot_some hs
  have hDn : D metas x ≤ n := by
    obtain ⟨len, _, h2, _⟩ := (dist_iff h hgap hx (D metas x - 1)).1 (by omega)
    omega
  have hhome : (home H n k + (D metas x - 1)) % n = x := by
    obtain ⟨e', q1, _, _, q4⟩ := h.slot_eq hx hdx
    rw [hs] at q1; cases q1
    rw [← home_eq LH n _ _ hk]; exact q4
  intro f
  induction f with
  | zero => intro i r he; cases he
  | succ f ih =>
    intro i r he hi
    have hm := Nat.mod_lt (home H n k + i) hn
    obtain ⟨mt, hmt, hd⟩ := meta_some h hm
    simp only [lookupLoop, hmt, Option.bind_eq_bind, Option.bind_some, hd] at he
    have hle : i + 1 ≤ D metas ((home H n k + i) % n) := by
      have := h.back hn (home H n k + i) (D metas x - 1 - i)
      rw [show home H n k + i + (D metas x - 1 - i) = home H n k + (D metas x - 1) by omega, hhome] at this
      omega
    rw [if_pos hle] at he
    obtain ⟨e2, he2, hh⟩ := hit_spec LH h hm (by omega) k hmt
    simp only [hh, Option.bind_some] at he
    cases hq : H.eq e2.1 k with
    | true =>
      rw [hq, if_pos rfl] at he
      cases he
      have := huniq _ hm e2 he2 hq
      have e3 : home H n k + i ≡ home H n k + (D metas x - 1) [MOD n] := by
        unfold Nat.ModEq; rw [this, hhome]
      have e4 := Nat.ModEq.add_left_cancel' _ e3
      unfold Nat.ModEq at e4
      rw [Nat.mod_eq_of_lt (by omega), Nat.mod_eq_of_lt (by omega)] at e4
      show i + 1 = _
      omega
    | false =>
      rw [hq] at he
      simp only [Bool.false_eq_true, if_false, mask_eq hp, Nat.mod_add_mod] at he
      refine ih (i + 1) r he ?_
      by_contra hge
      have : i = D metas x - 1 := by omega
      rw [this, hhome, hs] at he2
      cases he2
      rw [hk] at hq; cases hq

theorem present_probes {H : Hasher κ} (LH : Lawful H) {m : Map κ ν} {M : FMap κ ν} {n p : Nat} (h : Full H m M n p)
    {x : Nat} (hx : x < n) {e : κ × ν} (hs : slot m.metas m.table x = some e) :
    probes H m e.1 = some (D m.metas x) := by
  have hn : 0 < n := by omega
  have h0 : m.size ≠ 0 := by
    rw [h.size]
    have := h.perm.subset (mem_entries.2 ⟨x, hx, hs⟩)
    exact Nat.ne_of_gt (List.length_pos_of_mem this)
  obtain ⟨r, er, _⟩ := lookup_spec LH h.arr e.1
  rw [probes_eq H m e.1 h0, er, Option.map_some]
  congr 1
  rw [lookup, h.arr.bc, mask_eq h.arr.pow] at er
  refine lookupLoop_dist LH h.arr.inv h.gap h.arr.pow e.1 hx hs (LH.refl _) ?_ 1025 0 r ?_ (Nat.zero_le _)
  · intro y hy e' he' heq
    exact h.unique LH hy hx he' hs heq
  · simpa [home] using er

theorem map_slots {β : Type} (f : κ × ν → β) {metas : List Meta} {table : List (Option (κ × ν))} (g : Nat → β) {n : Nat}
    (h : ∀ x < n, ∀ e, slot metas table x = some e → f e = g x) :
    (∀ x < n, D metas x ≠ 0 → ∃ e, slot metas table x = some e) →
    (entries n metas table).map f = (List.range n).filterMap fun x => if D metas x ≠ 0 then some (g x) else none := by
  intro hocc
  rw [entries, List.map_filterMap]
  apply List.filterMap_congr
  intro x hx
  rw [List.mem_range] at hx
  by_cases hd : D metas x = 0
  · rw [if_neg (by simpa using hd)]
    cases hs : slot metas table x with
    | none => rfl
    | some e => exact absurd hd (slot_some hs)
  · rw [if_pos hd]
    obtain ⟨e, he⟩ := hocc x hx hd
    rw [he, Option.map_some, h x hx e he]

theorem Full.occ {H : Hasher κ} {m : Map κ ν} {M : FMap κ ν} {n p : Nat} (h : Full H m M n p) :
    ∀ x < n, D m.metas x ≠ 0 → ∃ e, slot m.metas m.table x = some e := fun x hx hd => by
  obtain ⟨e, he, _⟩ := h.arr.inv.slot_eq hx hd
  exact ⟨e, he⟩

/-- C164: the costs of looking up all the keys are the same, up to the order, in any two maps with
the same keys and bucket count; so their sum, their average and their maximum do not depend on the
history. -/
theorem present_lookup_cost {ν' : Type} {H : Hasher κ} (LH : Lawful H) {m : Map κ ν} {m' : Map κ ν'} {M : FMap κ ν}
    {M' : FMap κ ν'} (h : Reach H m M) (h' : Reach H m' M') (hbc : m.bc = m'.bc) (hs : SameKeys H M M') :
    (∀ e ∈ M, ∃ c, probes H m e.1 = some c ∧ 1 ≤ c ∧ c ≤ M.length) ∧
    (M.map fun e => probes H m e.1) ~ (M'.map fun e => probes H m' e.1) := by
  have hr := reach_rep LH h
  have hr' := reach_rep LH h'
  rcases both_full hr hr' hbc with ⟨_, _, rfl, rfl⟩ | ⟨n, p, p', hf, hf'⟩
  · exact ⟨by simp, .refl _⟩
  constructor
  · intro e he
    obtain ⟨x, hx, hx'⟩ := mem_entries.1 (hf.perm.symm.subset he)
    have hd := slot_some hx'
    refine ⟨_, present_probes LH hf hx hx', by omega, ?_⟩
    obtain ⟨len, q1, q2, q3⟩ := (dist_iff hf.arr.inv hf.gap hx (D m.metas x - 1)).1 (by omega)
    have := List.countP_le_length (p := fun h => decide ((h + n - (x + n - (len + (D m.metas x - 1) - 1)) % n) % n < len))
      (l := (entries n m.metas m.table).map fun e => home H n e.1)
    rw [List.length_map, hf.perm.length_eq] at this
    omega
  · refine (hf.perm.map _).symm.trans (.trans ?_ (hf'.perm.map _))
    rw [map_slots (fun e => probes H m e.1) (fun x => some (D m.metas x)) (fun x hx e he => present_probes LH hf hx he) hf.occ,
      map_slots (fun e => probes H m' e.1) (fun x => some (D m'.metas x)) (fun x hx e he => present_probes LH hf' hx he) hf'.occ]
    refine .of_eq (List.filterMap_congr ?_)
    intro x hx
    rw [hf.same LH hf' hs (List.mem_range.1 hx)]

/-! ### iteration order -/

theorem iteration_homes {ν' : Type} {H : Hasher κ} (LH : Lawful H) {m : Map κ ν} {m' : Map κ ν'} {M : FMap κ ν}
    {M' : FMap κ ν'} (h : Rep H m M) (h' : Rep H m' M') (hbc : m.bc = m'.bc) (hs : SameKeys H M M') :
    ∃ es es', each m = some es ∧ each m' = some es' ∧ es ~ M ∧ es' ~ M' ∧
      (es.map fun e => home H m.bc e.1) = (es'.map fun e => home H m.bc e.1) := by
  rcases both_full h h' hbc with ⟨rfl, rfl, rfl, rfl⟩ | ⟨n, p, p', hf, hf'⟩
  · exact ⟨[], [], rfl, rfl, .refl _, .refl _, rfl⟩
  have hn : 0 < n := by have := hf.arr.two; omega
  refine ⟨_, _, each_full hf.arr, each_full hf'.arr, hf.perm, hf'.perm, ?_⟩
  rw [hf.arr.bc]
  have key : ∀ {ν : Type} {m : Map κ ν} {M : FMap κ ν} {p : Nat}, Full H m M n p → ∀ x < n, ∀ e,
      slot m.metas m.table x = some e → home H n e.1 = (x + n - (D m.metas x - 1) % n) % n := by
    intro ν m M p hf x hx e he
    obtain ⟨e', q1, _, _, q4⟩ := hf.arr.inv.slot_eq hx (slot_some he)
    rw [he] at q1; cases q1
    have hlt : home H n e.1 < n := Nat.mod_lt _ hn
    have hd := Nat.mod_lt (D m.metas x - 1) hn
    rw [← Nat.add_mod_mod] at q4
    generalize (D m.metas x - 1) % n = d at q4 hd
    generalize home H n e.1 = a at q4 hlt
    by_cases hc : a + d < n
    · rw [Nat.mod_eq_of_lt hc] at q4
      rw [show x + n - d = a + n by omega, Nat.add_mod_right, Nat.mod_eq_of_lt hlt]
    · rw [Nat.mod_eq_sub_mod (by omega), Nat.mod_eq_of_lt (by omega)] at q4
      rw [show x + n - d = a by omega, Nat.mod_eq_of_lt hlt]
  rw [map_slots (fun e => home H n e.1) _ (key hf) hf.occ, map_slots (fun e => home H n e.1) _ (key hf') hf'.occ]
  apply List.filterMap_congr
  intro x hx
  rw [hf.same LH hf' hs (List.mem_range.1 hx)]

theorem map_inj_on' {α β : Type} (f : α → β) : ∀ {l l' : List α}, (∀ a ∈ l, ∀ b ∈ l', f a = f b → a = b) →
    l.map f = l'.map f → l = l'
  | [], [], _, _ => rfl
  | [], _ :: _, _, h => by cases h
  | _ :: _, [], _, h => by cases h
  | a :: l, b :: l', hi, h => by
    rw [List.map_cons, List.map_cons, List.cons.injEq] at h
    rw [hi a (by simp) b (by simp) h.1, map_inj_on' f (fun x hx y hy => hi x (by simp [hx]) y (by simp [hy])) h.2]

theorem SameKeys.of_perm {H : Hasher κ} {M M' : FMap κ ν} (hp : M ~ M') : SameKeys H M M' := by
  intro k
  rw [Bool.eq_iff_iff, find, find, List.find?_isSome, List.find?_isSome]
  exact ⟨fun ⟨x, h1, h2⟩ => ⟨x, hp.subset h1, h2⟩, fun ⟨x, h1, h2⟩ => ⟨x, hp.symm.subset h1, h2⟩⟩

/-- C164: two maps with the same keys and bucket count are iterated so that the home buckets come
in the same order; keys with different home buckets never change places. -/
theorem iteration_order {ν' : Type} {H : Hasher κ} (LH : Lawful H) {m : Map κ ν} {m' : Map κ ν'} {M : FMap κ ν}
    {M' : FMap κ ν'} (h : Reach H m M) (h' : Reach H m' M') (hbc : m.bc = m'.bc) (hs : SameKeys H M M') :
    ∃ es es', each m = some es ∧ each m' = some es' ∧ es ~ M ∧ es' ~ M' ∧
      (es.map fun e => home H m.bc e.1) = (es'.map fun e => home H m.bc e.1) :=
  iteration_homes LH (reach_rep LH h) (reach_rep LH h') hbc hs

/-- C164: if no two keys share a home bucket, iteration gives the same sequence for the same
contents, whatever the history. -/
theorem iteration_same {H : Hasher κ} (LH : Lawful H) {m m' : Map κ ν} {M M' : FMap κ ν} (h : Reach H m M)
    (h' : Reach H m' M') (hbc : m.bc = m'.bc) (hp : M ~ M') (hd : (M.map fun e => home H m.bc e.1).Nodup) :
    each m = each m' := by
  obtain ⟨es, es', h1, h2, h3, h4, h5⟩ := iteration_order LH h h' hbc (SameKeys.of_perm hp)
  rw [h1, h2]
  congr 1
  refine map_inj_on' _ ?_ h5
  intro a ha b hb hab
  exact List.inj_on_of_nodup_map hd (h3.subset ha) (hp.symm.subset (h4.subset hb)) hab

/-- C164: of keys with the same home bucket the iteration order does depend on the history: 7 and 15
in eight buckets. -/
theorem iteration_shared_home : ∃ (m m' : Map Nat Nat) (M M' : FMap Nat Nat), Reach natHasher m M ∧ Reach natHasher m' M' ∧
    m.bc = m'.bc ∧ M ~ M' ∧ each m ≠ each m' := by
  have h1 := Reach.call (κ := Nat) (ν := Nat) (H := natHasher) _ ((run natHasher init (.insert 15 150)).getD init) _ (.insert 15 150) .init
    (by simp only [valid]; decide +kernel) (by decide +kernel)
  have h2 := Reach.call _ ((run natHasher ((run natHasher init (.insert 15 150)).getD init) (.insert 7 70)).getD init) _ (.insert 7 70) h1
    (by simp only [valid]; decide +kernel) (by decide +kernel)
  exact ⟨_, _, _, _, wrapped_reach, h2, by decide +kernel, by decide +kernel, by decide +kernel⟩

/-! ### erasing -/

theorem erase_bc {H : Hasher κ} (LH : Lawful H) {m m' : Map κ ν} {M : FMap κ ν} (h : Rep H m M) {k : κ}
    (hr : run H m (.erase k) = some m') : m'.bc = m.bc := by
  rcases getRef_spec LH h k with ⟨h1, h2⟩ | ⟨i, e, n, p, h1, h3, h4, h5, h6, h7, h8⟩
  · simp only [run, erase, h1, Option.bind_eq_bind, Option.bind_some, Option.map_some, Option.some.injEq] at hr
    rw [← hr]
  · obtain ⟨m1, l, g1, _, _, _, _, g2⟩ := eraseEntry_spec LH h8 h3 h4
    simp only [run, erase, h1, Option.bind_eq_bind, Option.bind_some, g1, Option.map_some, Option.some.injEq] at hr
    rw [← hr]; exact g2

/-- C164: inserting a new key into a map with room and erasing it again leaves no trace: later
lookups cost what they did before, and iteration meets the home buckets in the same order. -/
theorem erase_no_trace {H : Hasher κ} (LH : Lawful H) {m m1 m2 : Map κ ν} {M : FMap κ ν} (h : Reach H m M) {k : κ} {v : ν}
    (hk : find H M k = none) (hv : valid H m M (.insert k v)) (hroom : m.size < capacity m.bc)
    (h1 : run H m (.insert k v) = some m1) (h2 : run H m1 (.erase k) = some m2) :
    (∀ k', find H M k' = none → ∃ c, probes H m2 k' = some c ∧ probes H m k' = some c) ∧
    (M.map fun e => probes H m2 e.1) ~ (M.map fun e => probes H m e.1) ∧
    ∃ es es', each m2 = some es ∧ each m = some es' ∧ es ~ M ∧ es' ~ M ∧
      (es.map fun e => home H m.bc e.1) = (es'.map fun e => home H m.bc e.1) := by
  have r1 := Reach.call _ _ _ _ h hv h1
  have r2 := Reach.call _ _ _ (.erase k) r1 (by trivial) h2
  have hb1 := (hmap_insert_moves_partial LH h (op := .insert k v) rfl hv hroom h1).1
  have hb2 := erase_bc LH (reach_rep LH r1) h2
  have hM : after H m1 (after H m M (.insert k v)) (.erase k) = M := by
    simp only [after, insertNew, hk, Option.isSome_none, Bool.false_eq_true, if_false]
    rw [remove, List.filter_cons_of_neg (by simp [LH.refl])]
    exact remove_absent hk
  rw [hM] at r2
  have hb : m2.bc = m.bc := by rw [hb2, hb1]
  refine ⟨fun k' hk' => ?_, (present_lookup_cost LH r2 h hb (fun _ => rfl)).2, ?_⟩
  · obtain ⟨c, e1, e2, _⟩ := absent_lookup_cost LH r2 h hb (fun _ => rfl) hk'
    exact ⟨c, e1, e2⟩
  · obtain ⟨es, es', q1, q2, q3, q4, q5⟩ := iteration_order LH r2 h hb (fun _ => rfl)
    exact ⟨es, es', q1, q2, q3, q4, by rw [hb] at q5; exact q5⟩

/-! ### instances -/

example : ∃ m1 m2, run natHasher sample (.insert 23 5) = some m1 ∧ run natHasher m1 (.erase 23) = some m2 ∧
    probes natHasher m1 31 ≠ probes natHasher sample 31 ∧ probes natHasher m2 31 = probes natHasher sample 31 := by
  obtain ⟨m1, e1, r1⟩ := map_defined natHasher_lawful sample_reach (.insert 23 5) (by simp only [valid]; decide +kernel)
  obtain ⟨m2, e2, _⟩ := map_defined natHasher_lawful r1 (.erase 23) (by trivial)
  obtain ⟨q, _⟩ := erase_no_trace natHasher_lawful sample_reach (by decide +kernel) (by simp only [valid]; decide +kernel)
    (by decide +kernel) e1 e2
  obtain ⟨c, q1, q2⟩ := q 31 (by decide +kernel)
  refine ⟨m1, m2, e1, e2, ?_, by rw [q1, q2]⟩
  have : m1 = (run natHasher sample (.insert 23 5)).getD init := by rw [e1]; rfl
  rw [this]; decide +kernel

/-- Keys 0 and 7 in the other order, with 15 (which moves 0) inserted and erased in between. -/
def detour : Map Nat Nat :=
  ((((run natHasher init (.insert 0 5)).bind fun m => run natHasher m (.insert 15 150)).bind fun m =>
    run natHasher m (.insert 7 70)).bind fun m => run natHasher m (.erase 15)).getD init

theorem detour_reach : Reach natHasher detour [(7, 70), (0, 5)] := by
  have h1 := Reach.call (κ := Nat) (ν := Nat) (H := natHasher) _ ((run natHasher init (.insert 0 5)).getD init) _ (.insert 0 5) .init
    (by simp only [valid]; decide +kernel) (by decide +kernel)
  have h2 := Reach.call _ ((run natHasher ((run natHasher init (.insert 0 5)).getD init) (.insert 15 150)).getD init) _ (.insert 15 150) h1
    (by simp only [valid]; decide +kernel) (by decide +kernel)
  have h3 := Reach.call _ ((run natHasher ((run natHasher ((run natHasher init (.insert 0 5)).getD init) (.insert 15 150)).getD init) (.insert 7 70)).getD init)
    _ (.insert 7 70) h2 (by simp only [valid]; decide +kernel) (by decide +kernel)
  exact Reach.call _ detour _ (.erase 15) h3 (by trivial) (by decide +kernel)

example : each neighbours = each detour :=
  iteration_same natHasher_lawful neighbours_reach detour_reach (by decide +kernel) (by decide +kernel) (by decide +kernel)

example : ∃ c, probes natHasher neighbours 15 = some c ∧ probes natHasher detour 15 = some c ∧ c ≤ 3 :=
  absent_lookup_cost natHasher_lawful neighbours_reach detour_reach (by decide +kernel)
    (SameKeys.of_perm (by decide +kernel)) (by decide +kernel)

example : ([(0, 5), (7, 70)].map fun e : Nat × Nat => probes natHasher neighbours e.1) ~
    [(7, 70), (0, 5)].map fun e => probes natHasher detour e.1 :=
  (present_lookup_cost natHasher_lawful neighbours_reach detour_reach (by decide +kernel) (SameKeys.of_perm (by decide +kernel))).2

end Verif.Hmap
