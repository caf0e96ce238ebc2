import Verif.Hmap.Props
/-
Iterators of a hash map with the three pointers they consist of, and `find`, which makes one.
-/
namespace Verif.Hmap
open scoped List
open Spec
variable {κ ν : Type}

/-! ### Model -/

/-- types.h `_iter` of hash maps: `ref`, `_end` and `_mref` as positions in the arrays `table` and `meta`; `none` for NULL. -/
structure Iter where
  ref : Option Nat
  fin : Nat
  mref : Nat
deriving DecidableEq

/-- hmap.h:240: `ref` and `_mref` move on together until `_mref->dist` is not 0. -/
def walk (metas : List Meta) : Nat → Nat → Nat → Option (Nat × Nat)
  | 0, _, _ => none
  | f + 1, r, k => (metas[k + 1]?).bind fun mt => if mt.dist = 0 then walk metas f (r + 1) (k + 1) else some (r + 1, k + 1)

/-- hmap.h:239-242 `_next`; at the end it would add to NULL. -/
def nextI (m : Map κ ν) (it : Iter) : Option Iter :=
  it.ref.bind fun r => (walk m.metas (m.bc + 1) r it.mref).map fun p => ⟨if p.1 = it.fin then none else some p.1, it.fin, p.2⟩

/-- hmap.h:301-302, the loop of `_begin`. -/
def walk0 (metas : List Meta) : Nat → Nat → Nat → Option (Nat × Nat)
  | 0, _, _ => none
  | f + 1, r, k => (metas[k]?).bind fun mt => if mt.dist = 0 then walk0 metas f (r + 1) (k + 1) else some (r, k)

/-- hmap.h:296-305 `_begin`. -/
def beginI (m : Map κ ν) : Option Iter :=
  if m.bc = 0 then some ⟨none, 0, 0⟩
  else (walk0 m.metas (m.bc + 1) 0 0).map fun p => ⟨if p.1 = m.bc then none else some p.1, m.bc, p.2⟩

/-- hmap.h:249-257 `_find`. -/
def findI (H : Hasher κ) (m : Map κ ν) (k : κ) : Option Iter :=
  (getRef H m k).map fun
    | some i => ⟨some i, m.bc, i⟩
    | none => ⟨none, 0, 0⟩

/-- hmap.h:276-282 `_erase_at`. -/
def eraseAtI (m : Map κ ν) (it : Iter) : Option (Iter × Map κ ν × List (Own κ ν)) :=
  it.ref.bind fun r => (eraseEntry m r).bind fun q => (q.1.metas[it.mref]?).bind fun mt =>
    if mt.dist = 0 then (nextI q.1 it).map fun it => (it, q.1, q.2) else some (it, q.1, q.2)

/-- `*it.ref`. -/
def loadI (m : Map κ ν) (it : Iter) : Option (κ × ν) := it.ref.bind fun r => (m.table[r]?).bind id

/-- `for (; it.ref; next(&it))`, as in `c_each(i, C, start, end)` (common.h:164-169): the entries visited. -/
def eachI (m : Map κ ν) : Nat → Iter → Option (List (κ × ν))
  | 0, it => if it.ref = none then some [] else none
  | f + 1, it => if it.ref = none then some [] else
    (loadI m it).bind fun e => (nextI m it).bind fun it => (eachI m f it).map fun es => e :: es

/-! ### the pointers keep in step -/

/-- The iterator stands for the bucket `it`. -/
def Steps (m : Map κ ν) (it : Iter) (i : Option Nat) : Prop := it.ref = i ∧ (i.isSome → it.fin = m.bc ∧ i = some it.mref)

theorem walk_scan (metas : List Meta) : ∀ f i, walk metas f i i = (scan metas f (i + 1)).map fun j => (j, j) := by
  intro f
  induction f with
  | zero => intro i; rfl
  | succ f ih =>
    intro i
    simp only [walk, scan, Option.bind_eq_bind]
    cases metas[i + 1]? with
    | none => rfl
    | some mt =>
      simp only [Option.bind_some]
      split
      · exact ih (i + 1)
      · rfl

theorem walk0_scan (metas : List Meta) : ∀ f i, walk0 metas f i i = (scan metas f i).map fun j => (j, j) := by
  intro f
  induction f with
  | zero => intro i; rfl
  | succ f ih =>
    intro i
    simp only [walk0, scan, Option.bind_eq_bind]
    cases metas[i]? with
    | none => rfl
    | some mt =>
      simp only [Option.bind_some]
      split
      · exact ih (i + 1)
      · rfl

theorem nextI_spec {m : Map κ ν} {it : Iter} {i : Nat} {o : Option Nat} (h : Steps m it (some i)) (hn : next m i = some o) : ∃ it', nextI m it = some it' ∧ Steps m it' o := by
  obtain ⟨h1, h2⟩ := h
  obtain ⟨h3, h4⟩ := h2 rfl
  cases h4
  simp only [next, Option.bind_eq_bind] at hn
  cases hs : scan m.metas (m.bc + 1) (it.mref + 1) with
  | none => rw [hs] at hn; cases hn
  | some j =>
    rw [hs] at hn
    cases hn
    simp only [nextI, h1, Option.bind_some, walk_scan, hs, Option.map_some, h3]
    refine ⟨_, rfl, ?_, ?_⟩
    · simp [stop]
    · intro hsome
      unfold stop at hsome ⊢
      split at hsome
      · cases hsome
      · rename_i hne; rw [if_neg hne]; exact ⟨rfl, rfl⟩

theorem beginI_spec {m : Map κ ν} {o : Option Nat} (hn : begin' m = some o) : ∃ it, beginI m = some it ∧ Steps m it o := by
  unfold begin' at hn
  unfold beginI
  split at hn
  · rename_i h0
    cases hn
    rw [if_pos h0]
    exact ⟨_, rfl, rfl, by intro h; cases h⟩
  · rename_i h0
    rw [if_neg h0, walk0_scan]
    simp only [Option.bind_eq_bind] at hn
    cases hs : scan m.metas (m.bc + 1) 0 with
    | none => rw [hs] at hn; cases hn
    | some j =>
      rw [hs] at hn
      cases hn
      simp only [Option.map_some]
      refine ⟨_, rfl, by simp [stop], ?_⟩
      intro hsome
      unfold stop at hsome ⊢
      split at hsome
      · cases hsome
      · rename_i hne; rw [if_neg hne]; exact ⟨rfl, rfl⟩

theorem eachI_spec {m : Map κ ν} : ∀ {f : Nat} {it : Iter} {o : Option Nat} {es : List (κ × ν)}, Steps m it o → eachLoop m f o = some es → eachI m f it = some es := by
  intro f
  induction f with
  | zero =>
    intro it o es h he
    cases o with
    | none => cases he; simp [eachI, h.1]
    | some i => cases he
  | succ f ih =>
    intro it o es h he
    cases o with
    | none => cases he; simp [eachI, h.1]
    | some i =>
      simp only [eachLoop, Option.bind_eq_bind] at he
      have hl : loadI m it = (m.table[i]?).bind id := by rw [loadI, h.1]; rfl
      rw [eachI, if_neg (by rw [h.1]; simp), hl]
      cases hc : m.table[i]? with
      | none => rw [hc] at he; cases he
      | some c =>
        rw [hc] at he
        cases c with
        | none => cases he
        | some e =>
          simp only [Option.bind_some, id] at he ⊢
          cases hn : next m i with
          | none => rw [hn] at he; cases he
          | some o' =>
            rw [hn] at he
            simp only [Option.bind_some] at he
            obtain ⟨it', e1, e2⟩ := nextI_spec h hn
            rw [e1]
            simp only [Option.bind_some]
            cases hl' : eachLoop m f o' with
            | none => rw [hl'] at he; cases he
            | some zs =>
              rw [hl'] at he
              cases he
              rw [ih e2 hl']
              rfl

theorem pend_split {n : Nat} {m : Map κ ν} : ∀ {i : Nat}, i ≤ n → ∃ pre, pend n m 0 = pre ++ pend n m i := by
  intro i
  induction i with
  | zero => intro _; exact ⟨[], rfl⟩
  | succ i ih =>
    intro hi
    obtain ⟨pre, h⟩ := ih (by omega)
    exact ⟨pre ++ (slot m.metas m.table i).toList, by rw [h, pend_step (by omega), List.append_assoc]⟩

/-! ### Properties -/

/-- C168: iterating with the pointers as they are in the code visits what iteration visits. -/
theorem iter_each {H : Hasher κ} (LH : Lawful H) {m : Map κ ν} {M : FMap κ ν} (h : Reach H m M) :
    ∃ it es, beginI m = some it ∧ eachI m m.bc it = some es ∧ each m = some es ∧ es ~ M := by
  obtain ⟨es, h1, h2⟩ := map_iteration LH h
  have h1' := h1
  simp only [each, Option.bind_eq_bind] at h1
  cases hb : begin' m with
  | none => rw [hb] at h1; cases h1
  | some o =>
    rw [hb] at h1
    obtain ⟨it, e1, e2⟩ := beginI_spec hb
    exact ⟨it, es, e1, eachI_spec e2 h1, h1', h2⟩

/-- C168: `find` gives the end iterator for a key that is not in the map. Otherwise the iterator it gives is at the entry of
the key, and going on from there visits the entries that iteration visits from that entry on. -/
theorem find_iterates {H : Hasher κ} (LH : Lawful H) {m : Map κ ν} {M : FMap κ ν} (h : Reach H m M) (k : κ) :
    ∃ it, findI H m k = some it ∧ match find H M k with
      | none => it.ref = none
      | some e => loadI m it = some e ∧ ∃ pre post, each m = some (pre ++ e :: post) ∧ eachI m m.bc it = some (e :: post) := by
  rcases getRef_spec LH (reach_rep LH h) k with ⟨h1, h2⟩ | ⟨i, e, n, p, h1, h3, h4, h5, h6, h7, h8⟩
  · rw [h2]
    exact ⟨⟨none, 0, 0⟩, by rw [findI, h1]; rfl, rfl⟩
  · rw [h7]
    have hst : Steps m ⟨some i, m.bc, i⟩ (some i) := ⟨rfl, fun _ => ⟨rfl, rfl⟩⟩
    refine ⟨⟨some i, m.bc, i⟩, by rw [findI, h1]; rfl, by simp [loadI, h5], ?_⟩
    obtain ⟨pre, hp⟩ := pend_split (n := n) (m := m) (i := i) (by omega)
    have hs : pend n m i = e :: pend n m (i + 1) := by rw [pend_step h3, h4]; rfl
    refine ⟨pre, pend n m (i + 1), ?_, ?_⟩
    · rw [each_full h8.arr, ← pend_zero, hp, hs]
    · rw [← hs]
      refine eachI_spec hst (eachLoop_spec h8.arr m.bc i (some i) ⟨Nat.le_refl _, h3, ⟨e, h4, h5⟩, rfl⟩ (by rw [h8.arr.bc]; omega))

/-- C168: `erase_at(find(k))` does to the map what `erase(k)` does, and gives an iterator from which the entries after the erased
one are visited; after them possibly once more the entry that iteration visits first. -/
theorem find_erase_at {H : Hasher κ} (LH : Lawful H) {m : Map κ ν} {M : FMap κ ν} (h : Reach H m M) {k : κ} {e : κ × ν} (hk : find H M k = some e) :
    ∃ it it' m' pre post x, findI H m k = some it ∧ eraseAtI m it = some (it', m', [.key e.1, .val e.2]) ∧ erase H m k = some (m', 1, [.key e.1, .val e.2]) ∧
      each m = some (pre ++ e :: post) ∧ eachI m' m'.bc it' = some (post ++ x) ∧ (∀ y ∈ x, (pre ++ e :: post).head? = some y) ∧ (D m.metas 0 ≤ 1 → x = []) := by
  rcases getRef_spec LH (reach_rep LH h) k with ⟨h1, h2⟩ | ⟨i, e', n, p, h1, h3, h4, h5, h6, h7, h8⟩
  · rw [h2] at hk; cases hk
  · rw [h7] at hk
    cases hk
    obtain ⟨o, m', g1, g2, -, -, g5, ⟨x, g6, g7, g8⟩, -⟩ := eraseAt_full LH h8 h3 h4
    obtain ⟨pre, hp⟩ := pend_split (n := n) (m := m) (i := i) (by omega)
    have hs : pend n m i = e :: pend n m (i + 1) := by rw [pend_step h3, h4]; rfl
    have hbc : m'.bc = m.bc := by rw [g2.arr.bc, h8.arr.bc]
    simp only [eraseAt, Option.bind_eq_bind] at g1
    cases he : eraseEntry m i with
    | none => rw [he] at g1; cases g1
    | some q =>
      obtain ⟨q1, q2⟩ := q
      rw [he] at g1
      simp only [Option.bind_some] at g1
      cases hm : q1.metas[i]? with
      | none => rw [hm] at g1; cases g1
      | some mt =>
        rw [hm] at g1
        simp only [Option.bind_some] at g1
        have hfirst : ∀ y ∈ x, (pre ++ e :: pend n m (i + 1)).head? = some y := by
          intro y hy
          have h0 := g8 y hy
          rw [← hs, ← hp, pend_step (by omega), h0]
          rfl
        have fin : ∀ it', Steps m' it' o → eachI m' m'.bc it' = some (pend n m (i + 1) ++ x) := by
          intro it' hst
          rw [← g6]
          exact eachI_spec hst (eachLoop_spec g2.arr m'.bc i o g5 (by rw [g2.arr.bc]; omega))
        have hall : each m = some (pre ++ e :: pend n m (i + 1)) := by rw [each_full h8.arr, ← pend_zero, hp, hs]
        by_cases hd : mt.dist = 0
        · rw [if_pos hd] at g1
          cases hn : next q1 i with
          | none => rw [hn] at g1; cases g1
          | some o' =>
            rw [hn] at g1
            cases g1
            obtain ⟨it', e1, e2⟩ := nextI_spec (m := m') (it := ⟨some i, m.bc, i⟩) (i := i) ⟨rfl, fun _ => ⟨hbc.symm, rfl⟩⟩ hn
            refine ⟨⟨some i, m.bc, i⟩, it', m', pre, pend n m (i + 1), x, by rw [findI, h1]; rfl, ?_, ?_, hall, fin it' e2, hfirst, fun h0 => g7 (by omega)⟩
            · simp only [eraseAtI, Option.bind_some, he, hm, if_pos hd, e1]
              rfl
            · simp only [erase, h1, Option.bind_eq_bind, Option.bind_some, he]
              rfl
        · rw [if_neg hd] at g1
          cases g1
          refine ⟨⟨some i, m.bc, i⟩, ⟨some i, m.bc, i⟩, m', pre, pend n m (i + 1), x, by rw [findI, h1]; rfl, ?_, ?_, hall,
            fin _ ⟨rfl, fun _ => ⟨hbc.symm, rfl⟩⟩, hfirst, fun h0 => g7 (by omega)⟩
          · simp only [eraseAtI, Option.bind_some, he, hm, if_neg hd]
            rfl
          · simp only [erase, h1, Option.bind_eq_bind, Option.bind_some, he]
            rfl

/-! ### Cases -/

example : ∃ it, findI natHasher sample 15 = some it ∧ loadI sample it = some (15, 151) ∧
    ∃ pre post, each sample = some (pre ++ (15, 151) :: post) ∧ eachI sample sample.bc it = some ((15, 151) :: post) := by
  obtain ⟨it, h1, h2⟩ := find_iterates natHasher_lawful sample_reach 15
  exact ⟨it, h1, h2⟩
example : findI natHasher sample 2 = some ⟨none, 0, 0⟩ := by decide +kernel
example := find_erase_at natHasher_lawful sample_reach (k := 15) (e := (15, 151)) (by decide +kernel)
example := iter_each natHasher_lawful sample_reach

end Verif.Hmap
