import Verif.Hmap.Iter
/- C20 (finite map), C21 (collisions), C22 (iteration), C23 (erasing while iterating), C24 (rehash), C72
(ownership), C86 (allocation failure), C87 (equality), C88 (clone), C89 (bulk insertion). -/
namespace Verif.Hmap
open List (Perm Subperm)
open scoped List
open Verif.Common Spec
variable {κ ν : Type}

theorem entryAt_eq (m : Map κ ν) (pos : Nat) : entryAt m pos = slot m.metas m.table pos := by
  cases h : m.metas[pos]? with
  | none => simp [entryAt, slot, D, h]
  | some mt => simp [entryAt, slot, D, h]

theorem eraseAt_rep {H : Hasher κ} (LH : Lawful H) {m : Map κ ν} {M : FMap κ ν} (h : Rep H m M) {pos : Nat} {e : κ × ν}
    (hp : entryAt m pos = some e) : ∃ it m', eraseAt m pos = some (it, m', valueDrop e) ∧ Rep H m' (remove H M e.1) ∧
      M ~ e :: remove H M e.1 ∧ (∀ j, it = some j → pos ≤ j ∧ (entryAt m' j).isSome) := by
  rw [entryAt_eq] at hp
  rcases h with ⟨rfl, rfl⟩ | ⟨n, p, h⟩
  · simp [slot, D, init] at hp
  · have hlt : pos < n := by
      by_contra hge
      have : m.table[pos]? = none := List.getElem?_eq_none (by rw [h.arr.inv.lent]; omega)
      rw [slot, if_pos (slot_some hp), this] at hp; cases hp
    obtain ⟨it, m', h1, h2, h3, _, h5, _⟩ := eraseAt_full LH h hlt hp
    refine ⟨it, m', h1, h2.reps, h3, ?_⟩
    rintro j rfl
    obtain ⟨q1, _, ⟨e', q3, _⟩, _⟩ := h5
    exact ⟨q1, by rw [entryAt_eq, q3]; rfl⟩

theorem run_rep {H : Hasher κ} (LH : Lawful H) {m : Map κ ν} {M : FMap κ ν} (h : Rep H m M) (op : Op κ ν)
    (hv : valid H m M op) : ∃ m', run H m op = some m' ∧ Rep H m' (after H m M op) := by
  cases op with
  | insert k v =>
    obtain ⟨r, _, h1, _, h2, _⟩ := insert_spec LH h k v hv.1 hv.2
    exact ⟨r.map, by simp only [run, h1, Option.map_some], h2⟩
  | emplace k v =>
    obtain ⟨r, _, h1, _, h2, _⟩ := emplace_spec LH h k v hv.1 hv.2
    exact ⟨r.map, by simp only [run, h1, Option.map_some], h2⟩
  | insertOrAssign k v =>
    obtain ⟨r, h1, _, h2, _⟩ := insertOrAssign_spec LH h k v hv.1 hv.2
    exact ⟨r.map, by simp only [run, h1, Option.map_some], h2⟩
  | emplaceOrAssign k v =>
    obtain ⟨r, h1, _, h2, _⟩ := emplaceOrAssign_spec LH h k v hv.1 hv.2
    exact ⟨r.map, by simp only [run, h1, Option.map_some], h2⟩
  | setAt k v =>
    obtain ⟨m', h1, h2⟩ := setAt_spec LH h k v hv
    exact ⟨m', h1, h2⟩
  | erase k =>
    obtain ⟨m', h1, h2⟩ := erase_spec LH h k
    exact ⟨m', by simp only [run, h1, Option.map_some], h2⟩
  | eraseAt pos =>
    obtain ⟨e, he⟩ := Option.isSome_iff_exists.1 hv
    obtain ⟨it, m', h1, h2, _⟩ := eraseAt_rep LH h he
    exact ⟨m', by simp only [run, h1, Option.map_some], by simpa only [after, he] using h2⟩
  | reserve n =>
    obtain ⟨m', h1, h2, _⟩ := reserve_spec LH h hv.1 hv.2
    exact ⟨m', by simp only [run, h1, Option.map_some], h2⟩
  | shrink =>
    obtain ⟨m', h1, h2, _⟩ := reserve_spec LH h (c := m.size) (by have := hv.1; rw [h.size]; omega) (by rw [h.size]; exact hv.2)
    exact ⟨m', by simp only [run, shrink, h1, Option.map_some], h2⟩
  | clear =>
    obtain ⟨m', ds, h1, _, h2⟩ := clear_spec h
    exact ⟨m', by simp only [run, h1, Option.map_some], h2⟩
  | clone => exact ⟨clone true m, rfl, (clone_spec h).1⟩

theorem spread_nil (n : Nat) : Spread n [] := by intro s _ len _ _; simp

theorem reach_rep {H : Hasher κ} (LH : Lawful H) {m : Map κ ν} {M : FMap κ ν} (h : Reach H m M) : Rep H m M := by
  induction h with
  | init => exact Or.inl ⟨rfl, rfl⟩
  | withCapacity n m hn he =>
    obtain ⟨m', h1, h2, _⟩ := reserve_spec (κ := κ) (ν := ν) LH (Or.inl ⟨rfl, rfl⟩) hn (spread_nil _)
    rw [withCapacity, h1] at he
    cases he; exact h2
  | call m m' M op _ hv he ih =>
    obtain ⟨m'', h1, h2⟩ := run_rep LH ih op hv
    rw [h1] at he; cases he; exact h2

/-! ### C20 -/

/-- C20: after any history `get` finds exactly the entries of the finite map, `contains` and `at`
agree with it, `size` is the number of its keys, and no two of them are equal. -/
theorem map_is_finite_map {H : Hasher κ} (LH : Lawful H) {m : Map κ ν} {M : FMap κ ν} (h : Reach H m M) :
    (∀ k, get H m k = some (find H M k)) ∧ (∀ k, contains H m k = some (find H M k).isSome) ∧
    (∀ k, at' H m k = (find H M k).map (·.2)) ∧ m.size = M.length ∧
    M.Pairwise (fun a b => H.eq a.1 b.1 = false) :=
  have hr := reach_rep LH h
  ⟨get_spec LH hr, contains_spec LH hr, at_spec LH hr, hr.size, hr.distinct⟩

/-- C20: no valid call is undefined: every history can be continued. -/
theorem map_defined {H : Hasher κ} (LH : Lawful H) {m : Map κ ν} {M : FMap κ ν} (h : Reach H m M) (op : Op κ ν)
    (hv : valid H m M op) : ∃ m', run H m op = some m' ∧ Reach H m' (after H m M op) := by
  obtain ⟨m', h1, _⟩ := run_rep LH (reach_rep LH h) op hv
  exact ⟨m', h1, .call m m' M op h hv h1⟩

/-- C20: what lookups see after an insertion, an assignment and an erasure, in terms of what they
saw before. -/
theorem map_get_after {H : Hasher κ} (LH : Lawful H) {m : Map κ ν} {M : FMap κ ν} (h : Reach H m M) (k : κ) (v : ν) :
    (∀ m', valid H m M (.insert k v) → run H m (.insert k v) = some m' → ∀ k',
      at' H m' k' = if H.eq k k' then some ((at' H m k).getD v) else at' H m k') ∧
    (∀ m', valid H m M (.insertOrAssign k v) → run H m (.insertOrAssign k v) = some m' → ∀ k',
      at' H m' k' = if H.eq k k' then some v else at' H m k') ∧
    (∀ m', run H m (.erase k) = some m' → ∀ k', at' H m' k' = if H.eq k k' then none else at' H m k') := by
  have hr := reach_rep LH h
  have heqv : ∀ {k k' : κ}, H.eq k k' = true → ∀ e : κ × ν, H.eq e.1 k = H.eq e.1 k' := by
    intro k k' hk e
    cases h1 : H.eq e.1 k with
    | true => rw [LH.trans _ _ _ h1 hk]
    | false =>
      cases h2 : H.eq e.1 k' with
      | false => rfl
      | true => rw [LH.trans _ _ _ h2 (LH.symm _ _ hk)] at h1; cases h1
  have hfk : ∀ {k k' : κ}, H.eq k k' = true → ∀ X : FMap κ ν, find H X k = find H X k' := by
    intro k k' hk X
    rw [find, find]; congr 1; funext e; exact heqv hk e
  refine ⟨?_, ?_, ?_⟩
  · intro m' hv he k'
    have hr' := reach_rep LH (.call m m' M _ h hv he)
    rw [at_spec LH hr', at_spec LH hr, at_spec LH hr]
    simp only [after, insertNew]
    by_cases hk : H.eq k k' = true
    · rw [if_pos hk, ← hfk hk, ]
      cases hf : find H M k with
      | some e => simp [hf]
      | none => simp [find, LH.refl]
    · rw [if_neg hk]
      cases hf : find H M k with
      | some e => simp
      | none => simp [find, hk]
  · intro m' hv he k'
    have hr' := reach_rep LH (.call m m' M _ h hv he)
    rw [at_spec LH hr', at_spec LH hr]
    simp only [after, assign]
    by_cases hk : H.eq k k' = true
    · rw [if_pos hk, ← hfk hk]
      cases hf : find H M k with
      | some e =>
        obtain ⟨he1, he2⟩ := (find_some_iff LH hr.distinct).1 hf
        have : find H (M.map fun e => if H.eq e.1 k = true then (e.1, v) else e) k = some (e.1, v) := by
          rw [find, List.find?_map]
          have hcomp : ((fun e : κ × ν => H.eq e.1 k) ∘ fun e => if H.eq e.1 k = true then (e.1, v) else e) =
              fun e : κ × ν => H.eq e.1 k := by
            funext e; simp only [Function.comp]; split <;> rfl
          rw [hcomp]
          rw [find] at hf
          rw [hf]; simp [he2]
        simp [this]
      | none => simp [find, LH.refl]
    · rw [if_neg hk]
      cases hf : find H M k with
      | some e =>
        simp only [Option.isSome_some, if_true]
        rw [find, List.find?_map]
        have hcomp : ((fun e : κ × ν => H.eq e.1 k') ∘ fun e => if H.eq e.1 k = true then (e.1, v) else e) =
            fun e : κ × ν => H.eq e.1 k' := by
          funext e; simp only [Function.comp]; split <;> rfl
        rw [hcomp, Option.map_map, find]
        cases hf' : List.find? (fun e => H.eq e.1 k') M with
        | none => rfl
        | some e' =>
          have h2 : H.eq e'.1 k' = true := by simpa using List.find?_some hf'
          have : ¬ H.eq e'.1 k = true := fun h1 => hk (LH.trans _ _ _ (LH.symm _ _ h1) h2)
          simp [this]
      | none => simp [find, hk]
  · intro m' he k'
    have hr' := reach_rep LH (.call m m' M (.erase k) h trivial he)
    rw [at_spec LH hr', at_spec LH hr]
    simp only [after]
    by_cases hk : H.eq k k' = true
    · rw [if_pos hk]
      have : find H (remove H M k) k' = none := by
        rw [find_none_iff]
        intro e hm
        have := (List.mem_filter.1 hm).2
        rw [heqv hk] at this; simpa using this
      rw [this]; rfl
    · rw [if_neg hk]
      congr 1
      rw [find, remove, List.find?_filter, find]
      congr 1; funext e
      cases h1 : H.eq e.1 k' with
      | false => simp
      | true =>
        have : ¬ H.eq e.1 k = true := fun h2 => hk (LH.trans _ _ _ (LH.symm _ _ h2) h1)
        simp [this]

/-- C20: what the calls report: whether the key was new, where its entry is, and whether a key
was erased. -/
theorem map_results {H : Hasher κ} (LH : Lawful H) {m : Map κ ν} {M : FMap κ ν} (h : Reach H m M) (k : κ) (v : ν) :
    (valid H m M (.insert k v) → ∃ r i, insert true H m k v = some r ∧ r.inserted = (find H M k).isNone ∧ r.ref = some i ∧
      entryAt r.map i = some ((find H M k).getD (k, v))) ∧
    (valid H m M (.insertOrAssign k v) → ∃ r, insertOrAssign true H m k v = some r ∧ r.inserted = (find H M k).isNone) ∧
    (∃ m' ds, erase H m k = some (m', if (find H M k).isSome then 1 else 0, ds)) ∧
    (valid H m M (.emplace k v) → ∃ r i, emplace true H m k v = some r ∧ r.inserted = (find H M k).isNone ∧ r.ref = some i ∧
      entryAt r.map i = some ((find H M k).getD (k, v)) ∧ r.dropped = []) := by
  have hr := reach_rep LH h
  refine ⟨?_, ?_, ?_, ?_⟩
  · intro hv
    obtain ⟨r, i, h1, h2, _, h4, h5, _⟩ := insert_spec LH hr k v hv.1 hv.2
    refine ⟨r, i, h1, h5, h2, ?_⟩
    rw [h4, insertNew]
    cases hf : find H M k with
    | some e => simp [hf]
    | none => simp [find, LH.refl]
  · intro hv
    obtain ⟨r, h1, _, _, h4, _⟩ := insertOrAssign_spec LH hr k v hv.1 hv.2
    exact ⟨r, h1, h4⟩
  · obtain ⟨m', h1, _⟩ := erase_spec LH hr k
    exact ⟨m', _, h1⟩
  · intro hv
    obtain ⟨r, i, h1, h2, _, h4, h5, h6⟩ := emplace_spec LH hr k v hv.1 hv.2
    refine ⟨r, i, h1, h5, h2, ?_, h6⟩
    rw [h4, insertNew]
    cases hf : find H M k with
    | some e => simp [hf]
    | none => simp [find, LH.refl]

/-- Numbers hashed by themselves. -/
def natHasher : Hasher Nat := ⟨fun k => BitVec.ofNat 64 k, fun a b => a == b⟩

/-- Numbers with one hash for all. -/
def constHasher : Hasher Nat := ⟨fun _ => 0#64, fun a b => a == b⟩

theorem natHasher_lawful : Lawful natHasher :=
  ⟨by simp [natHasher], by simp [natHasher], by simp [natHasher], by simp [natHasher]⟩

theorem constHasher_lawful : Lawful constHasher :=
  ⟨by simp [constHasher], by simp [constHasher], by simp [constHasher], by simp [constHasher]⟩

/-- A history: three insertions (two colliding in the eight buckets), an assignment and an erasure. -/
def sample : Map Nat Nat :=
  ((((run natHasher init (.insert 7 70)).bind fun m => run natHasher m (.insert 15 150)).bind fun m =>
    run natHasher m (.insert 1 10)).bind fun m => run natHasher m (.insertOrAssign 15 151)).getD init

theorem sample_reach : Reach natHasher sample [(1, 10), (15, 151), (7, 70)] := by
  have h1 := Reach.call (κ := Nat) (ν := Nat) (H := natHasher) _ ((run natHasher init (.insert 7 70)).getD init) _ (.insert 7 70) .init
    (by simp only [valid]; decide +kernel) (by decide +kernel)
  have h2 := Reach.call _ ((run natHasher ((run natHasher init (.insert 7 70)).getD init) (.insert 15 150)).getD init) _ (.insert 15 150) h1
    (by simp only [valid]; decide +kernel) (by decide +kernel)
  have h3 := Reach.call _ ((run natHasher ((run natHasher ((run natHasher init (.insert 7 70)).getD init) (.insert 15 150)).getD init) (.insert 1 10)).getD init)
    _ (.insert 1 10) h2 (by simp only [valid]; decide +kernel) (by decide +kernel)
  exact Reach.call _ sample _ (.insertOrAssign 15 151) h3 (by simp only [valid]; decide +kernel) (by decide +kernel)

example : get natHasher sample 15 = some (some (15, 151)) ∧ get natHasher sample 2 = some none :=
  ⟨(map_is_finite_map natHasher_lawful sample_reach).1 15, (map_is_finite_map natHasher_lawful sample_reach).1 2⟩

example : valid natHasher sample [(1, 10), (15, 151), (7, 70)] (.insert 5 50) := by
  simp only [valid]; decide +kernel

example : ∃ m', run natHasher sample (.erase 7) = some m' ∧ ∀ k', at' natHasher m' k' = if natHasher.eq 7 k' then none else at' natHasher sample k' := by
  obtain ⟨m', h1, _⟩ := map_defined natHasher_lawful sample_reach (.erase 7) trivial
  exact ⟨m', h1, (map_get_after natHasher_lawful sample_reach 7 0).2.2 m' h1⟩

/-! ### C21 -/

theorem few_spread {n : Nat} {hs : List Nat} (h : hs.length ≤ 1023) : Spread n hs := by
  intro s _ len _ hl
  have := List.countP_le_length (p := fun h => decide ((h + n - s) % n < len)) (l := hs)
  omega

/-- C21 (partial): with at most 1023 keys every hash function will do: the only precondition of an
insertion or rehash is the size. Missing: more than 1023 keys; there the code needs the limit on
clustering `Spread`, and without it the claim is false (`map_collisions_lost`). -/
theorem map_any_hash_partial {H : Hasher κ} (LH : Lawful H) {m : Map κ ν} {M : FMap κ ν} (h : Reach H m M) (k : κ) (v : ν) :
    (M.length < 1023 → valid H m M (.insert k v) ∧ valid H m M (.insertOrAssign k v) ∧ valid H m M (.emplace k v) ∧
      valid H m M (.emplaceOrAssign k v)) ∧
    (M.length ≤ 1023 → valid H m M .shrink ∧ ∀ n < 2 ^ 59, valid H m M (.reserve n)) := by
  constructor
  · intro hl
    have h1 : (insertNew H M k v).length ≤ 1023 := by
      rw [insertNew]; split
      · omega
      · rw [List.length_cons]; omega
    have h2 : (assign H M k v).length ≤ 1023 := by
      rw [assign]; split
      · rw [List.length_map]; omega
      · rw [List.length_cons]; omega
    have h3 : M.length < 2 ^ 58 := by omega
    exact ⟨⟨h3, few_spread (by simpa using h1)⟩, ⟨h3, few_spread (by simpa using h2)⟩, ⟨h3, few_spread (by simpa using h1)⟩,
      ⟨h3, few_spread (by simpa using h2)⟩⟩
  · intro hl
    exact ⟨⟨by omega, few_spread (by simpa using hl)⟩, fun n hn => ⟨hn, few_spread (by simpa using hl)⟩⟩

example : valid constHasher (init : Map Nat Nat) [] (.insert 5 50) :=
  ((map_any_hash_partial constHasher_lawful .init 5 50).1 (by simp)).1

/-- Colliding keys `0 .. c-1` can be inserted one after the other as long as there are at most 1023. -/
theorem collide_reach : ∀ c ≤ 1023, ∃ (m : Map Nat Nat) (M : FMap Nat Nat), Reach constHasher m M ∧ M.length = c ∧ ∀ e ∈ M, e.1 < c := by
  intro c
  induction c with
  | zero => intro _; exact ⟨init, [], .init, rfl, by simp⟩
  | succ c ih =>
    intro hc
    obtain ⟨m, M, h1, h2, h3⟩ := ih (by omega)
    have hv := ((map_any_hash_partial constHasher_lawful h1 c 0).1 (by omega)).1
    obtain ⟨m', g1, g2⟩ := map_defined constHasher_lawful h1 _ hv
    have hf : find constHasher M c = none := by
      rw [find_none_iff]; intro e he
      have := h3 e he
      simp [constHasher]; omega
    have ha : after constHasher m M (.insert c 0) = (c, 0) :: M := by simp [after, insertNew, hf]
    rw [ha] at g2
    refine ⟨m', _, g2, by rw [List.length_cons, h2], ?_⟩
    intro e he
    rcases List.mem_cons.1 he with rfl | he
    · exact Nat.lt_succ_self _
    · exact Nat.lt_succ_of_lt (h3 e he)

/-- C21 is false of the code: in a reachable map with 1023 keys that all collide, inserting one more
key reports success and raises the size, but the key is not found afterwards (its 10-bit distance
wraps to 0, which marks its bucket as empty). -/
theorem map_collisions_lost : ∃ (H : Hasher Nat) (m : Map Nat Nat) (M : FMap Nat Nat) (k v : Nat) (r : Ins Nat Nat),
    Lawful H ∧ Reach H m M ∧ M.length = 1023 ∧ insert true H m k v = some r ∧ r.inserted = true ∧
      r.map.size = 1024 ∧ get H r.map k = some none := by
  obtain ⟨m, M, h1, h2, h3⟩ := collide_reach 1023 (by omega)
  have LH := constHasher_lawful
  have hr := reach_rep LH h1
  obtain ⟨m1, n, p, e1, hf, _, hc⟩ := grow_spec LH hr (by omega) (few_spread (by simp [h2]))
  have hcap := capacity_lt p
  rw [← hf.arr.pow] at hcap
  have hn : 1024 < n := by omega
  have hhome : ∀ k, home constHasher n k = 0 := by intro k; simp [home, constHasher]
  -- the distances are 1, 2, …, 1023, 0, 0, …
  have hD : ∀ x < n, D m1.metas x ≠ 0 → D m1.metas x = x + 1 := by
    intro x hx hd
    obtain ⟨e, _, _, _, h4⟩ := hf.arr.inv.slot_eq hx hd
    rw [hhome, Nat.zero_add] at h4
    have := hf.arr.inv.le x hx
    rw [Nat.mod_eq_of_lt (by omega)] at h4
    omega
  have hD2 : ∀ x < n, 1023 ≤ x → D m1.metas x = 0 := by
    intro x hx hx'
    by_contra hd
    have := hD x hx hd
    have := hf.arr.inv.le x hx
    omega
  have hD1 : ∀ x < 1023, D m1.metas x = x + 1 := by
    intro x hx
    apply hD x (by omega)
    intro h0
    -- one of 1023 buckets empty: too few entries
    have hlen : (entries n m1.metas m1.table).length = 1023 := by rw [hf.perm.length_eq, h2]
    have hsub : List.Sublist (entries n m1.metas m1.table) (entries n m1.metas m1.table) := List.Sublist.refl _
    have hpre : entries n m1.metas m1.table = (List.range 1023).filterMap (slot m1.metas m1.table) := by
      rw [entries, show n = 1023 + (n - 1023) by omega, List.range_add, List.filterMap_append]
      have : ((List.range (n - 1023)).map (1023 + ·)).filterMap (slot m1.metas m1.table) = [] := by
        rw [List.filterMap_eq_nil_iff]
        intro y hy
        obtain ⟨z, hz, rfl⟩ := List.mem_map.1 hy
        have hz' := List.mem_range.1 hz
        rw [slot, if_neg (by rw [hD2 _ (by omega) (by omega)]; simp)]
      rw [this, List.append_nil]
    have hsp := filterMap_split (slot m1.metas m1.table) (n := 1023) hx
    rw [← hpre] at hsp
    have h5 : slot m1.metas m1.table x = none := by rw [slot, if_neg (by simpa using h0)]
    rw [h5, Option.toList_none, List.nil_append] at hsp
    have h6 := hsp.length_eq
    have h7 := List.length_filterMap_le (slot m1.metas m1.table) ((List.range 1023).erase x)
    rw [List.length_erase_of_mem (List.mem_range.2 hx), List.length_range] at h7
    omega
  have hfind : find constHasher M 5000 = none := by
    rw [find_none_iff]; intro e he
    have := h3 e he
    simp [constHasher]; omega
  obtain ⟨r, er, hr'⟩ := lookup_spec LH hf.arr 5000
  rcases hr' with ⟨_, hlt, e, he1, he2⟩ | ⟨g1, ⟨c, g2, g3, g4, g5⟩, g6⟩
  · have := find_none_iff.1 hfind e (hf.perm.subset (mem_entries.2 ⟨_, hlt, he1⟩))
    rw [he2] at this; cases this
  · have hc' : c = 1023 := by
      rw [hhome, Nat.zero_add] at g2
      have h8 : c ≤ 1023 := by
        by_contra hgt
        have := g5 1023 (by omega)
        rw [hhome, Nat.zero_add, Nat.mod_eq_of_lt (by omega), hD2 _ (by omega) (by omega)] at this
        omega
      by_contra hne
      have : r.idx = c := by rw [g2, Nat.mod_eq_of_lt (by omega)]
      rw [this, hD1 c (by omega)] at g4
      omega
    have hidx : r.idx = 1023 := by rw [g2, hhome, Nat.zero_add, hc', Nat.mod_eq_of_lt (by omega)]
    obtain ⟨mt, k1, k2⟩ := meta_some hf.arr.inv (show 1023 < n by omega)
    have hmt0 : mt.dist = 0 := by rw [k2]; exact hD2 1023 (by omega) (by omega)
    have hlm : 1023 < m1.metas.length := by rw [hf.arr.inv.lenm]; omega
    have hlt : 1023 < m1.table.length := by rw [hf.arr.inv.lent]; omega
    have hplace : place m1 1023 r.dist (hashx (constHasher.hash 5000)) =
        some { m1 with metas := m1.metas.set 1023 ⟨hashx (constHasher.hash 5000), 0⟩ } := by
      rw [g3, hc']
      simp only [place, k1, Option.bind_eq_bind, Option.bind_some, hmt0, ne_eq, not_true_eq_false, if_false]
    refine ⟨constHasher, m, M, 5000, 0,
      ⟨⟨m1.table.set 1023 (some (5000, 0)), m1.metas.set 1023 ⟨hashx (constHasher.hash 5000), 0⟩, m1.size + 1, m1.bc⟩, some 1023, true, []⟩,
      LH, h1, h2, ?_, rfl, by simp only [hf.size, h2], ?_⟩
    · simp only [insert, insertEntry, e1, bucketInsert, er, Option.bind_eq_bind, Option.bind_some, g1, Bool.false_eq_true,
        if_false, hplace, if_true, hidx, store, hlt]
    · have hne : ∀ x, x ≠ 1023 → slot (m1.metas.set 1023 ⟨hashx (constHasher.hash 5000), 0⟩) (m1.table.set 1023 (some (5000, 0))) x =
          slot m1.metas m1.table x := fun x hx => slot_set_ne hx
      have hinv := (hf.arr.inv.clear (i := 1023) (hx := hashx (constHasher.hash 5000)) (by omega) (by
        rw [Nat.mod_eq_of_lt (by omega), hD2 _ (by omega) (by omega)]; omega))
      have hinv2 : Inv constHasher n (m1.metas.set 1023 ⟨hashx (constHasher.hash 5000), 0⟩) (m1.table.set 1023 (some (5000, 0))) := by
        refine ⟨hinv.lenm, by rw [List.length_set]; exact hinv.lent, hinv.mark, ?_, hinv.le, hinv.step⟩
        intro x hx hd
        have hx1 : x ≠ 1023 := by
          rintro rfl
          rw [D_set _ hlm, if_pos rfl] at hd; exact hd rfl
        rw [List.getElem?_set_ne (Ne.symm hx1)]
        exact hinv.occ x hx hd
      obtain ⟨r2, er2, hr2⟩ := lookup_spec (m := ⟨m1.table.set 1023 (some (5000, 0)), m1.metas.set 1023 ⟨hashx (constHasher.hash 5000), 0⟩, m1.size + 1, m1.bc⟩)
        LH ⟨hf.arr.bc, hf.arr.pow, hf.arr.two, hinv2⟩ 5000
      rcases hr2 with ⟨_, hl, e, he1, he2⟩ | ⟨q1, _⟩
      · exfalso
        simp only at he1
        have hx1 : r2.idx ≠ 1023 := by
          intro hx; rw [hx] at he1
          have := slot_some he1
          rw [D_set _ hlm, if_pos rfl] at this; exact this rfl
        rw [hne _ hx1] at he1
        have := find_none_iff.1 hfind e (hf.perm.subset (mem_entries.2 ⟨_, hl, he1⟩))
        rw [he2] at this; cases this
      · rw [get, getRef, if_pos (by simp), er2]
        simp only [Option.bind_eq_bind, Option.bind_some, q1, Bool.false_eq_true, if_false]

/-! ### C22 -/

/-- C22: iterating visits every entry exactly once, and ends. -/
theorem map_iteration {H : Hasher κ} (LH : Lawful H) {m : Map κ ν} {M : FMap κ ν} (h : Reach H m M) :
    ∃ es, each m = some es ∧ es ~ M := each_spec (reach_rep LH h)

theorem advance_at {H : Hasher κ} {m : Map κ ν} {n p : Nat} (h : Arr H m n p) :
    ∀ c i it, At n m i it → ∃ it', advance m c it = some it' ∧
      (it'.bind fun j => entryAt m j) = (pend n m i)[c]? := by
  intro c
  induction c with
  | zero =>
    intro i it hat
    cases it with
    | none => rw [At] at hat; exact ⟨none, by simp [advance], by rw [hat]; rfl⟩
    | some j =>
      obtain ⟨_, h2, ⟨e, h3, _⟩, h5⟩ := hat
      refine ⟨some j, by simp [advance], ?_⟩
      rw [h5, pend_step h2, h3, Option.bind_some, entryAt_eq, h3]; rfl
  | succ c ih =>
    intro i it hat
    cases it with
    | none => rw [At] at hat; exact ⟨none, by simp [advance], by rw [hat]; rfl⟩
    | some j =>
      obtain ⟨_, h2, ⟨e, h3, _⟩, h5⟩ := hat
      obtain ⟨it1, g1, g2⟩ := next_spec h h2
      obtain ⟨it2, k1, k2⟩ := ih (j + 1) it1 g2
      refine ⟨it2, by simp only [advance, g1, Option.bind_eq_bind, Option.bind_some, k1], ?_⟩
      rw [k2, h5, pend_step h2, h3]; rfl

/-- C22: `advance(begin, c)` is at the `c`-th entry of the iteration, or at the end. -/
theorem map_advance {H : Hasher κ} (LH : Lawful H) {m : Map κ ν} {M : FMap κ ν} (h : Reach H m M) (c : Nat) :
    ∃ es it it', each m = some es ∧ begin' m = some it ∧ advance m c it = some it' ∧
      (it'.bind fun j => entryAt m j) = es[c]? := by
  rcases reach_rep LH h with ⟨rfl, rfl⟩ | ⟨n, p, h⟩
  · exact ⟨[], none, none, rfl, rfl, by cases c <;> rfl, rfl⟩
  · obtain ⟨it, h1, h2⟩ := begin_spec h.arr
    obtain ⟨it', g1, g2⟩ := advance_at h.arr c 0 it h2
    exact ⟨_, it, it', each_full h.arr, h1, g1, by rw [g2, pend_zero]⟩

example : ∃ es, each sample = some es ∧ es ~ [(1, 10), (15, 151), (7, 70)] := map_iteration natHasher_lawful sample_reach

/-! ### C23 -/

/-- C23 (partial): a loop that erases any of the entries it visits ends after at most `size +
bucket_count` visits, visits every entry, in iteration order, and only entries of the map; what
remains are exactly the entries not erased; each entry is visited exactly once if the entry in the
first bucket is at its home (`dist ≤ 1`). Missing: otherwise an entry may be visited twice
(`map_erase_revisits`). -/
theorem map_erase_while_iterating_partial {H : Hasher κ} (LH : Lawful H) {m : Map κ ν} {M : FMap κ ν} (h : Reach H m M)
    (sel : Nat → κ × ν → Bool) (f : Nat) (hf : m.size + m.bc ≤ f) :
    ∃ it es0 es m' M', begin' m = some it ∧ each m = some es0 ∧ sweep sel f 0 it m = some (es, m') ∧
      M ~ erased sel 0 es ++ M' ∧ (∀ k, get H m' k = some (find H M' k)) ∧ m'.size = M'.length ∧
      (∃ es1, each m' = some es1 ∧ es1 ~ M') ∧
      List.Sublist es0 es ∧ (∀ e ∈ es, e ∈ M) ∧ (D m.metas 0 ≤ 1 → es = es0) := by
  rcases reach_rep LH h with ⟨rfl, rfl⟩ | ⟨n, p, h⟩
  · refine ⟨none, [], [], init, [], rfl, rfl, by rw [sweep], List.Perm.refl _, fun k => rfl, rfl, ⟨[], rfl, List.Perm.refl _⟩,
      List.Sublist.refl _, by simp, fun _ => rfl⟩
  · obtain ⟨it, h1, h2⟩ := begin_spec h.arr
    obtain ⟨es, m', M', k1, k2, k3, k4, k5, k6⟩ := sweep_spec LH sel f 0 0 it m M h (Nat.zero_le _) h2
      (by rw [h.arr.bc] at hf; omega)
    rw [pend_zero] at k4 k6
    exact ⟨it, _, es, m', M', h1, each_full h.arr, k1, k3, get_spec LH k2.reps, k2.size, each_spec k2.reps, k4, k5,
      fun h0 => k6 (by omega)⟩

theorem erased_pure (q : κ × ν → Bool) : ∀ c (es : List (κ × ν)), erased (fun _ e => q e) c es = es.filter q
  | _, [] => rfl
  | c, e :: es => by
    rw [erased, erased_pure q (c + 1) es, List.filter_cons]

/-- C23: a loop that erases the entries satisfying a predicate leaves exactly the others. -/
theorem map_erase_if {H : Hasher κ} (LH : Lawful H) {m : Map κ ν} {M : FMap κ ν} (h : Reach H m M)
    (q : κ × ν → Bool) (f : Nat) (hf : m.size + m.bc ≤ f) :
    ∃ it es m', begin' m = some it ∧ sweep (fun _ e => q e) f 0 it m = some (es, m') ∧
      (∃ es1, each m' = some es1 ∧ es1 ~ M.filter fun e => !q e) ∧
      (∀ k, get H m' k = some (find H (M.filter fun e => !q e) k)) ∧ m'.size = (M.filter fun e => !q e).length := by
  have hd := (reach_rep LH h).distinct
  obtain ⟨es0', he0, hp0⟩ := map_iteration LH h
  obtain ⟨it, es0, es, m', M', h1, h2, h3, h4, h5, h6, ⟨es1, h7, h8⟩, h9, h10, _⟩ :=
    map_erase_while_iterating_partial LH h (fun _ e => q e) f hf
  rw [he0] at h2; cases h2
  rw [erased_pure] at h4
  have hdp : Distinct H (es.filter q ++ M') := hd.perm LH h4
  have key : M' ~ M.filter fun e => !q e := by
    have h11 := h4.filter fun e => !q e
    rw [List.filter_append] at h11
    have e1 : (es.filter q).filter (fun e => !q e) = [] := by
      rw [List.filter_eq_nil_iff]
      intro a ha
      simp [(List.mem_filter.1 ha).2]
    have e2 : M'.filter (fun e => !q e) = M' := by
      rw [List.filter_eq_self]
      intro a ha
      cases hq : q a with
      | false => rfl
      | true =>
        have hm : a ∈ M := h4.symm.subset (List.mem_append_right _ ha)
        have hes : a ∈ es := h9.subset (hp0.symm.subset hm)
        have := (List.pairwise_append.1 hdp).2.2 a (List.mem_filter.2 ⟨hes, hq⟩) a ha
        rw [LH.refl] at this; cases this
    rw [e1, e2, List.nil_append] at h11
    exact h11.symm
  have hfe : ∀ k, find H M' k = find H (M.filter fun e => !q e) k := by
    intro k
    have d1 : Distinct H M' := (List.pairwise_append.1 hdp).2.1
    have d2 : Distinct H (M.filter fun e => !q e) := d1.perm LH key
    apply Option.ext
    intro e
    rw [find_some_iff LH d1, find_some_iff LH d2, key.mem_iff]
  exact ⟨it, es, m', h1, h3, ⟨es1, h7, h8.trans key⟩, fun k => by rw [h5, hfe], by rw [h6, key.length_eq]⟩

/-- Two keys homed at the last of eight buckets: 7 in bucket 7, 15 in bucket 0. -/
def wrapped : Map Nat Nat :=
  ((run natHasher init (.insert 7 70)).bind fun m => run natHasher m (.insert 15 150)).getD init

theorem wrapped_reach : Reach natHasher wrapped [(15, 150), (7, 70)] := by
  have h1 := Reach.call (κ := Nat) (ν := Nat) (H := natHasher) _ ((run natHasher init (.insert 7 70)).getD init) _ (.insert 7 70) .init
    (by simp only [valid]; decide +kernel) (by decide +kernel)
  exact Reach.call _ wrapped _ (.insert 15 150) h1 (by simp only [valid]; decide +kernel) (by decide +kernel)

/-- C23 is false of the code as stated: erasing the entry in the last bucket moves the entry of the
first bucket, already visited, into the last, where the loop visits it again. -/
theorem map_erase_revisits : ∃ (m : Map Nat Nat) (M : FMap Nat Nat) (sel : Nat → Nat × Nat → Bool) (it : Option Nat)
    (m' : Map Nat Nat), Reach natHasher m M ∧ begin' m = some it ∧
      sweep sel 100 0 it m = some ([(15, 150), (7, 70), (15, 150)], m') ∧ M ~ [(15, 150), (7, 70)] := by
  refine ⟨wrapped, _, fun _ e => e.1 == 7, some 0, ((sweep (fun _ e => e.1 == 7) 100 0 (some 0) wrapped).getD ([], init)).2,
    wrapped_reach, by decide +kernel, by decide +kernel, List.Perm.refl _⟩

example : sample.size + sample.bc ≤ 11 ∧ D wrapped.metas 0 = 2 := by decide +kernel

/-- A history after which the first bucket's entry is at home. -/
example : ∃ (m : Map Nat Nat) (M : FMap Nat Nat), Reach natHasher m M ∧ M.length = 1 ∧ D m.metas 0 ≤ 1 := by
  refine ⟨(run natHasher init (.insert 7 70)).getD init, _, Reach.call (κ := Nat) (ν := Nat) (H := natHasher) _ _ _ (.insert 7 70) .init
    (by simp only [valid]; decide +kernel) (by decide +kernel), rfl, by decide +kernel⟩

/-! ### C24 -/

/-- C24: `reserve` and `shrink_to_fit` keep the entries, `reserve(n)` makes room for `n`, and
there is always an empty bucket: lookups end. -/
theorem map_rehash {H : Hasher κ} (LH : Lawful H) {m : Map κ ν} {M : FMap κ ν} (h : Reach H m M) :
    (∀ n, valid H m M (.reserve n) → ∃ m' es, reserve true H n m = some (m', true) ∧ each m' = some es ∧ es ~ M ∧
      n ≤ capacity m'.bc ∧ m'.size ≤ capacity m'.bc ∧ m'.size < m'.bc) ∧
    (valid H m M .shrink → ∃ m' es, shrink true H m = some (m', true) ∧ each m' = some es ∧ es ~ M ∧
      m'.bc = bucketsFor M.length ∧ m'.size ≤ capacity m'.bc ∧ m'.size < m'.bc) ∧
    (m.bc ≠ 0 → m.size ≤ capacity m.bc ∧ m.size < m.bc ∧ ∃ i < m.bc, D m.metas i = 0) := by
  have hr := reach_rep LH h
  have cap0 : ∀ m' : Map κ ν, Rep H m' M → m'.bc ≠ 0 → m'.size ≤ capacity m'.bc ∧ m'.size < m'.bc ∧ ∃ i < m'.bc, D m'.metas i = 0 := by
    intro m' h' hb
    rcases h' with ⟨rfl, _⟩ | ⟨n, p, h'⟩
    · exact absurd rfl hb
    · rw [h'.arr.bc, h'.size]
      have h2 := capacity_lt p
      rw [← h'.arr.pow] at h2
      have := h'.cap
      exact ⟨this, by omega, h'.gap⟩
  have hbc : ∀ c < 2 ^ 59, bucketsFor c ≠ 0 := by
    intro c hc
    obtain ⟨p, hp, _⟩ := bucketsFor_spec hc
    rw [hp]; exact Nat.ne_of_gt (Nat.two_pow_pos p)
  refine ⟨?_, ?_, cap0 m hr⟩
  · intro n hv
    obtain ⟨m', h1, h2, h3, h4, h5⟩ := reserve_spec LH hr hv.1 hv.2
    obtain ⟨es, g1, g2⟩ := each_spec h2
    have hb : m'.bc ≠ 0 := by
      rcases Nat.lt_or_ge n M.length with hlt | hle
      · rw [h5 hlt]
        rcases hr with ⟨_, rfl⟩ | ⟨n, p, hr⟩
        · simp at hlt
        · rw [hr.arr.bc]; have := hr.arr.two; omega
      · rw [h4 hle]; exact hbc n hv.1
    obtain ⟨c1, c2, _⟩ := cap0 m' h2 hb
    exact ⟨m', es, h1, g1, g2, h3, c1, c2⟩
  · intro hv
    have hc : m.size < 2 ^ 59 := by have := hv.1; rw [hr.size]; omega
    obtain ⟨m', h1, h2, _, h4, _⟩ := reserve_spec LH hr (c := m.size) hc (by rw [hr.size]; exact hv.2)
    obtain ⟨es, g1, g2⟩ := each_spec h2
    have hb := h4 (by rw [hr.size])
    obtain ⟨c1, c2, _⟩ := cap0 m' h2 (hb ▸ hbc _ hc)
    exact ⟨m', es, h1, g1, g2, by rw [hb, hr.size], c1, c2⟩

example : valid natHasher sample [(1, 10), (15, 151), (7, 70)] (.reserve 100) :=
  ((map_any_hash_partial natHasher_lawful sample_reach 0 0).2 (by simp)).2 100 (by omega)

/-! ### C86: allocation failure -/

/-- C86: when an allocation fails, `reserve` reports it and changes nothing, and an insertion
either needs no memory and works as usual, or returns NULL, leaves the map unchanged, and destroys
exactly the arguments it was given (`emplace` has made nothing yet). -/
theorem map_alloc_failure {H : Hasher κ} {m : Map κ ν} (k : κ) (v : ν) (n : Nat) :
    (∃ b, reserve false H n m = some (m, b) ∧ (b = true → reserve true H n m = some (m, true))) ∧
    (insert false H m k v = insert true H m k v ∨ insert false H m k v = some ⟨m, none, false, [.key k, .val v]⟩) ∧
    (insertOrAssign false H m k v = insertOrAssign true H m k v ∨
      insertOrAssign false H m k v = some ⟨m, none, false, [.key k, .val v]⟩) ∧
    (emplace false H m k v = emplace true H m k v ∨ emplace false H m k v = some ⟨m, none, false, []⟩) := by
  have hres : ∀ n, (reserve false H n m = some (m, true) ∧ reserve true H n m = some (m, true)) ∨ reserve false H n m = some (m, false) := by
    intro n
    rw [reserve, reserve]
    split
    · left; exact ⟨rfl, rfl⟩
    · right; rfl
  have hins : insertEntry false H m k = insertEntry true H m k ∨ insertEntry false H m k = some (m, none, false) := by
    rw [insertEntry, insertEntry, grow, grow]
    split
    · rcases hres (m.size * 3 / 2 + 2) with ⟨h1, h2⟩ | h1
      · left; rw [h1, h2]
      · right; rw [h1]; rfl
    · left; rfl
  refine ⟨?_, ?_, ?_, ?_⟩
  · rcases hres n with ⟨h1, h2⟩ | h1
    · exact ⟨true, h1, fun _ => h2⟩
    · exact ⟨false, h1, by simp⟩
  · rcases hins with h | h
    · left; rw [insert, insert, h]
    · right; rw [insert, h]; rfl
  · rcases hins with h | h
    · left; rw [insertOrAssign, insertOrAssign, h]
    · right; rw [insertOrAssign, h]; rfl
  · rcases hins with h | h
    · left; rw [emplace, emplace, h]
    · right; rw [emplace, h]; rfl

example : reserve false natHasher 100 sample = some (sample, false) ∧ insert false natHasher init 9 9 = some ⟨init, none, false, [.key 9, .val 9]⟩ := by
  constructor
  · decide +kernel
  · have h1 : insertEntry false natHasher (init : Map Nat Nat) 9 = some (init, none, false) := by decide +kernel
    rw [insert, h1]; rfl

/-! ### C72: ownership -/

/-- What a finite map owns. -/
def owned (M : FMap κ ν) : List (Own κ ν) := M.flatMap fun e => [.key e.1, .val e.2]

theorem owned_assign {H : Hasher κ} (LH : Lawful H) {M : FMap κ ν} (hd : Distinct H M) {k : κ} {v : ν} {e : κ × ν}
    (he : find H M k = some e) : .val v :: owned M ~ owned (assign H M k v) ++ [.val e.2] := by
  rw [assign, he]
  simp only [Option.isSome_some, if_true]
  induction M with
  | nil => simp [find] at he
  | cons a M ih =>
    rw [Distinct, List.pairwise_cons] at hd
    rw [find, List.find?_cons] at he
    cases ha : H.eq a.1 k with
    | true =>
      rw [ha] at he; cases he
      have : M.map (fun e => if H.eq e.1 k = true then (e.1, v) else e) = M := by
        conv_rhs => rw [← List.map_id M]
        apply List.map_congr_left
        intro b hb
        rw [if_neg]; rfl
        intro hb2
        have := hd.1 b hb
        rw [LH.trans _ _ _ ha (LH.symm _ _ hb2)] at this; cases this
      simp only [List.map_cons, ha, if_true, this, owned, List.flatMap_cons, List.cons_append, List.nil_append]
      refine ((List.Perm.swap _ _ _).trans ?_)
      refine List.Perm.cons _ ?_
      refine List.Perm.cons _ ?_
      exact (List.perm_append_singleton _ _).symm
    | false =>
      rw [ha] at he
      have := ih hd.2 he
      simp only [List.map_cons, ha, Bool.false_eq_true, if_false, owned, List.flatMap_cons, List.cons_append, List.nil_append]
      refine ((List.Perm.swap _ _ _).trans ?_)
      refine List.Perm.cons _ ?_
      refine ((List.Perm.swap _ _ _).trans ?_)
      exact List.Perm.cons _ this

/-- C72: every key and value handed to a map is stored exactly once or destroyed exactly once: what
the map owned and was given is what it owns afterwards and what it destroyed. -/
theorem map_ownership {H : Hasher κ} (LH : Lawful H) {m : Map κ ν} {M : FMap κ ν} (h : Reach H m M) (k : κ) (v : ν) :
    (valid H m M (.insert k v) → ∃ r, insert true H m k v = some r ∧
      [.key k, .val v] ++ owned M ~ owned (insertNew H M k v) ++ r.dropped) ∧
    (valid H m M (.insertOrAssign k v) → ∃ r, insertOrAssign true H m k v = some r ∧
      [.key k, .val v] ++ owned M ~ owned (assign H M k v) ++ r.dropped) ∧
    (valid H m M (.emplaceOrAssign k v) → ∃ r, emplaceOrAssign true H m k v = some r ∧
      (if r.inserted then [.key k, .val v] else [.val v]) ++ owned M ~ owned (assign H M k v) ++ r.dropped) ∧
    (∃ m' n ds, erase H m k = some (m', n, ds) ∧ owned M ~ owned (remove H M k) ++ ds) ∧
    (∃ m' ds, clear m = some (m', ds) ∧ owned M ~ ds) ∧ (∃ ds, drop m = some ds ∧ owned M ~ ds) := by
  have hr := reach_rep LH h
  have hrem : ∀ {e : κ × ν}, find H M k = some e → owned M ~ owned (remove H M k) ++ [.key e.1, .val e.2] := by
    intro e he
    obtain ⟨h1, h2⟩ := (find_some_iff LH hr.distinct).1 he
    obtain ⟨s, t, rfl⟩ := List.append_of_mem h1
    have hp : s ++ e :: t ~ e :: (s ++ t) := List.perm_middle
    have hd := hr.distinct.perm LH hp
    have : remove H (s ++ e :: t) k ~ s ++ t := by
      refine (hp.filter _).trans ?_
      rw [List.filter_cons_of_neg (by simp [h2]), List.filter_eq_self.2]
      intro a ha
      cases hc : H.eq a.1 k with
      | false => rfl
      | true =>
        have := (List.pairwise_cons.1 hd).1 a ha
        rw [LH.trans _ _ _ h2 (LH.symm _ _ hc)] at this; cases this
    refine (hp.flatMap_right _).trans ?_
    rw [List.flatMap_cons]
    refine List.perm_append_comm.trans ?_
    exact (this.symm.flatMap_right _).append_right _
  refine ⟨?_, ?_, ?_, ?_, ?_, ?_⟩
  · intro hv
    obtain ⟨r, i, h1, _, _, _, _, h5⟩ := insert_spec LH hr k v hv.1 hv.2
    refine ⟨r, h1, ?_⟩
    rw [h5, insertNew]
    cases hf : find H M k with
    | none => simp [owned]
    | some e => simp only [Option.isSome_some, if_true]; exact List.perm_append_comm
  · intro hv
    obtain ⟨r, h1, _, _, _, h5⟩ := insertOrAssign_spec LH hr k v hv.1 hv.2
    refine ⟨r, h1, ?_⟩
    rw [h5]
    cases hf : find H M k with
    | none => simp [owned, assign, hf]
    | some e =>
      have := owned_assign LH hr.distinct (v := v) hf
      have h2 : (Own.key k :: Own.val v :: owned M) ~ Own.key k :: (owned (assign H M k v) ++ [.val e.2]) := this.cons _
      refine h2.trans ?_
      exact List.perm_middle.symm
  · intro hv
    obtain ⟨r, h1, _, _, h4, h5⟩ := emplaceOrAssign_spec LH hr k v hv.1 hv.2
    refine ⟨r, h1, ?_⟩
    rw [h5, h4]
    cases hf : find H M k with
    | none => simp [owned, assign, hf]
    | some e => simpa using owned_assign LH hr.distinct (v := v) hf
  · obtain ⟨m', h1, _⟩ := erase_spec LH hr k
    refine ⟨m', _, _, h1, ?_⟩
    cases hf : find H M k with
    | none => simp [remove_absent hf]
    | some e => exact hrem hf
  · obtain ⟨m', ds, h1, h2, _⟩ := clear_spec hr
    exact ⟨m', ds, h1, h2.symm⟩
  · obtain ⟨ds, h1, h2⟩ := drop_spec hr
    exact ⟨ds, h1, h2.symm⟩

example : ∃ r, insert true natHasher sample 15 0 = some r ∧
    [.key 15, .val 0] ++ owned [(1, 10), (15, 151), (7, 70)] ~ owned (insertNew natHasher [(1, 10), (15, 151), (7, 70)] 15 0) ++ r.dropped :=
  (map_ownership natHasher_lawful sample_reach 15 0).1 (by simp only [valid]; decide +kernel)

/-! ### C87: equality -/

/-- C87 (partial): `eq` decides whether both maps have the same keys. For sets that is equality.
Missing: mapped values are not compared (`map_eq_ignores_values`). -/
theorem map_eq_partial {H : Hasher κ} (LH : Lawful H) {m o : Map κ ν} {M O : FMap κ ν} (h : Reach H m M) (ho : Reach H o O) :
    ∃ b, eq H m o = some b ∧ (b = true ↔ ∀ k, (find H M k).isSome = (find H O k).isSome) := by
  have hr := reach_rep LH h
  have hro := reach_rep LH ho
  refine ⟨_, eq_spec LH hr hro, ?_⟩
  have hmem : ∀ {X : FMap κ ν} {k : κ}, (find H X k).isSome = true ↔ ∃ e ∈ X, H.eq e.1 k = true := by
    intro X k
    cases hf : find H X k with
    | none =>
      have := find_none_iff.1 hf
      constructor
      · intro h; cases h
      · rintro ⟨e, h1, h2⟩; rw [this e h1] at h2; cases h2
    | some e =>
      refine ⟨fun _ => ⟨e, List.mem_of_find?_eq_some hf, by simpa using List.find?_some hf⟩, fun _ => rfl⟩
  -- a distinct list whose keys all occur in another is not longer
  have hlen : ∀ {X Y : FMap κ ν}, Distinct H X → (∀ e ∈ X, (find H Y e.1).isSome) →
      X.length ≤ Y.length ∧ (Y.length ≤ X.length → Distinct H Y → ∀ e ∈ Y, (find H X e.1).isSome) := by
    intro X
    induction X with
    | nil =>
      intro Y _ _
      refine ⟨Nat.zero_le _, fun hl _ e he => ?_⟩
      have : Y = [] := List.length_eq_zero_iff.1 (Nat.le_zero.1 hl)
      rw [this] at he; cases he
    | cons x X ih =>
      intro Y hdX hall
      rw [Distinct, List.pairwise_cons] at hdX
      obtain ⟨y, hy1, hy2⟩ := hmem.1 (hall x (by simp))
      obtain ⟨s, t, rfl⟩ := List.append_of_mem hy1
      have hsub : ∀ e ∈ X, (find H (s ++ t) e.1).isSome := by
        intro e he
        obtain ⟨z, hz1, hz2⟩ := hmem.1 (hall e (by simp [he]))
        apply hmem.2
        rcases List.mem_append.1 hz1 with hz | hz
        · exact ⟨z, by simp [hz], hz2⟩
        · rcases List.mem_cons.1 hz with rfl | hz
          · have := hdX.1 e he
            rw [LH.trans _ _ _ (LH.symm _ _ hy2) hz2] at this; cases this
          · exact ⟨z, by simp [hz], hz2⟩
      obtain ⟨i1, i2⟩ := ih hdX.2 hsub
      simp only [List.length_append, List.length_cons] at i1 ⊢
      refine ⟨by omega, fun hl hdY e he => ?_⟩
      have hdY' : Distinct H (y :: (s ++ t)) := hdY.perm LH List.perm_middle
      have i3 := i2 (by rw [List.length_append]; omega) (List.pairwise_cons.1 hdY').2
      have hcase : e = y ∨ e ∈ s ++ t := by
        rcases List.mem_append.1 he with h | h
        · exact Or.inr (by simp [h])
        · rcases List.mem_cons.1 h with h | h
          · exact Or.inl h
          · exact Or.inr (by simp [h])
      apply hmem.2
      rcases hcase with rfl | he'
      · exact ⟨x, by simp, LH.symm _ _ hy2⟩
      · obtain ⟨z, hz1, hz2⟩ := hmem.1 (i3 e he')
        exact ⟨z, by simp [hz1], hz2⟩
  rw [Bool.and_eq_true, decide_eq_true_eq, List.all_eq_true]
  constructor
  · rintro ⟨h1, h2⟩ k
    have hback := (hlen hr.distinct h2).2 (by omega) hro.distinct
    rw [Bool.eq_iff_iff, hmem, hmem]
    constructor
    · rintro ⟨e, g1, g2⟩
      obtain ⟨z, q1, q2⟩ := hmem.1 (h2 e g1)
      exact ⟨z, q1, LH.trans _ _ _ q2 g2⟩
    · rintro ⟨e, g1, g2⟩
      obtain ⟨z, q1, q2⟩ := hmem.1 (hback e g1)
      exact ⟨z, q1, LH.trans _ _ _ q2 g2⟩
  · intro hk
    have h2 : ∀ e ∈ M, (find H O e.1).isSome := fun e he => by
      rw [← hk]; exact hmem.2 ⟨e, he, LH.refl _⟩
    have h3 : ∀ e ∈ O, (find H M e.1).isSome := fun e he => by
      rw [hk]; exact hmem.2 ⟨e, he, LH.refl _⟩
    exact ⟨Nat.le_antisymm (hlen hr.distinct h2).1 (hlen hro.distinct h3).1, h2⟩

/-- C87: two maps with the same key and different values compare equal. -/
theorem map_eq_ignores_values : ∃ (m o : Map Nat Nat) (M O : FMap Nat Nat), Reach natHasher m M ∧ Reach natHasher o O ∧
    eq natHasher m o = some true ∧ find natHasher M 1 = some (1, 10) ∧ find natHasher O 1 = some (1, 20) := by
  refine ⟨(run natHasher init (.insert 1 10)).getD init, (run natHasher init (.insert 1 20)).getD init, _, _,
    Reach.call (κ := Nat) (ν := Nat) (H := natHasher) _ _ _ (.insert 1 10) .init (by simp only [valid]; decide +kernel) (by decide +kernel),
    Reach.call (κ := Nat) (ν := Nat) (H := natHasher) _ _ _ (.insert 1 20) .init (by simp only [valid]; decide +kernel) (by decide +kernel),
    by decide +kernel, by decide +kernel, by decide +kernel⟩

example : ∃ b, eq natHasher sample wrapped = some b ∧ (b = true ↔ ∀ k, (find natHasher [(1, 10), (15, 151), (7, 70)] k).isSome =
    (find natHasher [(15, 150), (7, 70)] k).isSome) := map_eq_partial natHasher_lawful sample_reach wrapped_reach

/-! ### C88: clone -/

/-- C88 (partial): a clone whose allocations succeed has the same entries, in the same order of
iteration, and is a map like any other. Missing: failed allocations (`map_clone_failure`). -/
theorem map_clone_partial {H : Hasher κ} (LH : Lawful H) {m : Map κ ν} {M : FMap κ ν} (h : Reach H m M) :
    (∀ k, get H (clone true m) k = get H m k) ∧ each (clone true m) = each m ∧ (clone true m).size = m.size ∧
      Reach H (clone true m) M := by
  have hr := reach_rep LH h
  obtain ⟨h1, h2⟩ := clone_spec hr
  exact ⟨fun k => by rw [get_spec LH h1, get_spec LH hr], h2, by rw [h1.size, hr.size], .call m _ M .clone h trivial rfl⟩

/-- C88 is false of the code when an allocation fails: the clone has no buckets but keeps the size,
and looking up any key in it is undefined. -/
theorem map_clone_failure {H : Hasher κ} (LH : Lawful H) {m : Map κ ν} {M : FMap κ ν} (h : Reach H m M) (hM : M ≠ []) (k : κ) :
    (clone false m).size = M.length ∧ each (clone false m) = some [] ∧ get H (clone false m) k = none := by
  rcases reach_rep LH h with ⟨_, h0⟩ | ⟨n, p, hr⟩
  · exact absurd h0 hM
  · have hb : m.bc ≠ 0 := by rw [hr.arr.bc]; have := hr.arr.two; omega
    have hc : clone false m = ⟨[], [], m.size, 0⟩ := by rw [clone, if_pos hb]; rfl
    have hs : m.size ≠ 0 := by
      rw [hr.size]; exact fun h => hM (List.length_eq_zero_iff.1 h)
    rw [hc]
    refine ⟨hr.size, rfl, ?_⟩
    have h0 : ∀ f i d, lookupLoop (ν := ν) H [] [] (0 - 1) k f i d = none := by
      intro f i d
      cases f <;> simp [lookupLoop]
    have h1 : getRef H (⟨[], [], m.size, 0⟩ : Map κ ν) k = none := by
      rw [getRef, if_pos hs, lookup, h0]; rfl
    rw [get, h1]; rfl

example : get natHasher (clone false sample) 7 = none := (map_clone_failure natHasher_lawful sample_reach (by simp) 7).2.2

/-! ### C89: bulk insertion -/

/-- C89: `put_n`/`from_n` assigns the pairs from the first to the last: a later value of an equal
key replaces an earlier one. -/
theorem map_put_n {H : Hasher κ} (LH : Lawful H) : ∀ (es : List (κ × ν)) {m : Map κ ν} {M : FMap κ ν}, Reach H m M →
    M.length + es.length < 2 ^ 58 → (∀ n, Spread n ((es ++ M).map fun e => home H n e.1)) →
    ∃ m' ds, putN H es m = some (m', ds) ∧ Reach H m' (es.foldl (fun M e => assign H M e.1 e.2) M) := by
  intro es
  induction es with
  | nil => intro m M h _ _; exact ⟨m, [], rfl, h⟩
  | cons e es ih =>
    intro m M h hl hsp
    have hle : (assign H M e.1 e.2).length ≤ M.length + 1 := by
      rw [assign]; split
      · rw [List.length_map]; omega
      · rw [List.length_cons]
    have hsub : ∀ n, List.Sublist ((assign H M e.1 e.2).map fun e => home H n e.1) ((e :: M).map fun e => home H n e.1) := by
      intro n
      rw [assign_homes, insertNew]; split
      · exact (List.sublist_cons_self _ _).map _
      · exact List.Sublist.refl _
    have mono : ∀ {n : Nat} {a b : List Nat}, a <+~ b → Spread n b → Spread n a := by
      intro n a b hab hb s hs len hlen h1
      exact Nat.le_trans (hab.countP_le _) (hb s hs len hlen h1)
    have hv : valid H m M (.emplaceOrAssign e.1 e.2) := by
      refine ⟨by simp only [List.length_cons] at hl; omega, mono ((hsub _).subperm.trans ?_) (hsp _)⟩
      refine List.Sublist.subperm (List.Sublist.map _ ?_)
      exact List.Sublist.cons_cons e (List.sublist_append_right es M)
    obtain ⟨r, h1, h2, h3, _⟩ := emplaceOrAssign_spec LH (reach_rep LH h) e.1 e.2 hv.1 hv.2
    have hreach : Reach H r.map (assign H M e.1 e.2) :=
      .call m r.map M (.emplaceOrAssign e.1 e.2) h hv (by simp only [run, h1, Option.map_some])
    obtain ⟨m', ds, g1, g2⟩ := ih hreach (by simp only [List.length_cons] at hl; omega) (by
      intro n
      refine mono ?_ (hsp n)
      rw [List.map_append]
      refine (List.Subperm.append (List.Subperm.refl _) (hsub n).subperm).trans ?_
      rw [← List.map_append]
      exact (List.perm_middle.map _).subperm)
    refine ⟨m', r.dropped ++ ds, ?_, g2⟩
    simp only [putN, h1, Option.bind_eq_bind, Option.bind_some, g1]

example : ∃ m' ds, putN natHasher [(1, 10), (5, 50), (1, 11)] init = some (m', ds) ∧ Reach natHasher m' [(5, 50), (1, 11)] :=
  map_put_n natHasher_lawful [(1, 10), (5, 50), (1, 11)] .init (by decide) (fun n => few_spread (by simp))

end Verif.Hmap
