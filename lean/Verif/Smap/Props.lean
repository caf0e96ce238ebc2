import Verif.Smap.Ops
import Mathlib.Data.List.Forall2
/- C25 (finite map), C26 (order), C27 (balance), C28 (lower_bound), C29 (clone), C30 (erase_at and
erase_range), C72 (ownership), C90 (allocation failure), C91 (equality), C92 (front and back), C93
(bulk insertion). -/
set_option linter.unusedSimpArgs false
set_option linter.unusedVariables false
namespace Verif.Smap
open scoped List
open Spec hiding find
variable {κ ν : Type} [DecidableEq κ]

/-! ### C25 -/

/-- C25: after any history lookups find exactly the entries of the finite map, and `size` is their
number. -/
theorem map_is_finite_map {cmp : κ → κ → Int} (hc : Lawful cmp) {m : Map κ ν} {M : FMap κ ν} (h : Reach cmp m M) :
    (∀ k, get cmp m k = some (Spec.find cmp k M)) ∧ (∀ k, contains cmp m k = some (Spec.find cmp k M).isSome) ∧
    (∀ k, at' cmp m k = (Spec.find cmp k M).map Prod.snd) ∧ m.size = M.length ∧ Ascending cmp M :=
  have hh := reach_holds hc h
  ⟨get_spec hc hh, contains_spec hc hh, at_spec hc hh, hh.size, hh.asc⟩

/-- C25, C27: no valid call is undefined; in particular no stack of fixed size overflows and no
memory outside the node array is touched. -/
theorem map_defined {cmp : κ → κ → Int} (hc : Lawful cmp) {m : Map κ ν} {M : FMap κ ν} (h : Reach cmp m M) (op : Op κ ν)
    (hv : valid cmp m M op) : ∃ m', run cmp m op = some m' ∧ Reach cmp m' (after cmp m M op) := by
  obtain ⟨m', h1, -⟩ := run_holds hc (reach_holds hc h) op hv
  exact ⟨m', h1, .call m m' M op h hv h1⟩

omit [DecidableEq κ] in
theorem find_congr {cmp : κ → κ → Int} (hc : Lawful cmp) {k k' : κ} (h : cmp k k' = 0) (M : FMap κ ν) :
    Spec.find cmp k M = Spec.find cmp k' M := by
  have : (fun e : κ × ν => cmp e.1 k == 0) = fun e => cmp e.1 k' == 0 := by
    funext e
    have h' := (hc.eq_iff _ _).mp h
    have a1 := hc.trans e.1 k k'
    have a2 := hc.trans e.1 k' k
    have a3 := hc.trans k k' e.1
    have a4 := hc.trans k' k e.1
    have b1 := hc.anti e.1 k
    have b2 := hc.anti e.1 k'
    have b3 := hc.anti k e.1
    have b4 := hc.anti k' e.1
    have : cmp e.1 k = 0 ↔ cmp e.1 k' = 0 := by
      constructor
      · intro h0
        have : cmp e.1 k' ≤ 0 := a1 (by omega) (by omega)
        have : cmp k' e.1 ≤ 0 := a4 (by omega) (by omega)
        omega
      · intro h0
        have : cmp e.1 k ≤ 0 := a2 (by omega) (by omega)
        have : cmp k e.1 ≤ 0 := a3 (by omega) (by omega)
        omega
    simp only [beq_eq_beq, Bool.beq_eq_decide_eq, this]
  rw [Spec.find, Spec.find, this]

omit [DecidableEq κ] in
theorem find_insertNew {cmp : κ → κ → Int} (hc : Lawful cmp) {k : κ} {v : ν} {M : FMap κ ν} (ha : Ascending cmp M)
    (hk : Spec.find cmp k M = none) (k' : κ) :
    Spec.find cmp k' (insertNew cmp k v M) = if cmp k k' = 0 then some (k, v) else Spec.find cmp k' M := by
  have hM : below cmp k M ++ above cmp k M = M := by
    have h1 := below_append_from hc k ha
    have : from' cmp k M = above cmp k M := by
      refine List.filter_congr fun e he => ?_
      have := find_none.mp hk e he
      simp only [decide_eq_decide]
      omega
    rw [← this]; exact h1
  by_cases h0 : cmp k k' = 0
  · rw [if_pos h0, ← find_congr hc h0]
    refine find_mid hc (fun a ha => ?_) (hc.refl k)
    simpa using (List.mem_filter.mp ha).2
  · rw [if_neg h0]
    conv_rhs => rw [← hM]
    simp only [insertNew, Spec.find, List.find?_append]
    rw [List.find?_cons_of_neg (by simpa using h0)]

omit [DecidableEq κ] in
theorem find_assign {cmp : κ → κ → Int} (hc : Lawful cmp) {k : κ} {v : ν} {M : FMap κ ν} (k' : κ) :
    Spec.find cmp k' (assign cmp k v M) = (Spec.find cmp k' M).map fun e => if cmp k k' = 0 then (e.1, v) else e := by
  have hcomp : ((fun e : κ × ν => cmp e.1 k' == 0) ∘ fun e => if cmp e.1 k = 0 then (e.1, v) else e) = fun e : κ × ν => cmp e.1 k' == 0 := by
    funext e
    simp only [Function.comp]
    split <;> rfl
  simp only [Spec.find, assign, List.find?_map, hcomp]
  cases hf : List.find? (fun e => cmp e.1 k' == 0) M with
  | none => rfl
  | some e =>
    have h1 : cmp e.1 k' = 0 := by simpa using List.find?_some hf
    simp only [Option.map_some]
    have : cmp e.1 k = 0 ↔ cmp k k' = 0 := by
      have a1 := hc.trans k e.1 k'
      have a2 := hc.trans k' e.1 k
      have a3 := hc.trans e.1 k' k
      have a4 := hc.trans k k' e.1
      have b1 := hc.anti k e.1
      have b2 := hc.anti e.1 k
      have b3 := hc.anti e.1 k'
      have b4 := hc.anti k' e.1
      have b5 := hc.anti k k'
      have b6 := hc.anti k' k
      constructor
      · intro h0
        have : cmp k k' ≤ 0 := a1 (by omega) (by omega)
        have : cmp k' k ≤ 0 := a2 (by omega) (by omega)
        omega
      · intro h0
        have : cmp e.1 k ≤ 0 := a3 (by omega) (by omega)
        have : cmp k e.1 ≤ 0 := a4 (by omega) (by omega)
        omega
    by_cases h0 : cmp k k' = 0
    · rw [if_pos h0, if_pos (this.mpr h0)]
    · rw [if_neg h0, if_neg (fun hx => h0 (this.mp hx))]

omit [DecidableEq κ] in
theorem find_remove {cmp : κ → κ → Int} (hc : Lawful cmp) {k : κ} {M : FMap κ ν} (k' : κ) :
    Spec.find cmp k' (remove cmp k M) = if cmp k k' = 0 then none else Spec.find cmp k' M := by
  have key : ∀ e : κ × ν, cmp e.1 k' = 0 → (cmp e.1 k = 0 ↔ cmp k k' = 0) := by
    intro e h1
    have a1 := hc.trans k e.1 k'
    have a2 := hc.trans k' e.1 k
    have a3 := hc.trans e.1 k' k
    have a4 := hc.trans k k' e.1
    have b1 := hc.anti k e.1
    have b2 := hc.anti e.1 k
    have b3 := hc.anti e.1 k'
    have b4 := hc.anti k' e.1
    have b5 := hc.anti k k'
    have b6 := hc.anti k' k
    constructor
    · intro h0
      have : cmp k k' ≤ 0 := a1 (by omega) (by omega)
      have : cmp k' k ≤ 0 := a2 (by omega) (by omega)
      omega
    · intro h0
      have : cmp e.1 k ≤ 0 := a3 (by omega) (by omega)
      have : cmp k e.1 ≤ 0 := a4 (by omega) (by omega)
      omega
  rw [Spec.find, remove, List.find?_filter, Spec.find]
  by_cases h0 : cmp k k' = 0
  · rw [if_pos h0, List.find?_eq_none]
    intro e _
    simp only [bne_iff_ne, ne_eq, beq_iff_eq, Bool.decide_and, Bool.and_eq_true, decide_eq_true_eq, not_and]
    intro h1 h2
    exact h1 ((key e h2).mpr h0)
  · rw [if_neg h0]
    congr 1
    funext e
    by_cases h1 : cmp e.1 k' = 0
    · have h2 : cmp e.1 k ≠ 0 := fun hx => h0 ((key e h1).mp hx)
      simp [h1, h2]
    · simp [h1]

/-- C25: what lookups see after an insertion, an assignment and an erasure, in terms of what they saw
before. -/
theorem map_get_after {cmp : κ → κ → Int} (hc : Lawful cmp) {m : Map κ ν} {M : FMap κ ν} (h : Reach cmp m M) (k : κ) (v : ν) :
    (∀ m', valid cmp m M (.insert k v) → run cmp m (.insert k v) = some m' → ∀ k',
      at' cmp m' k' = if cmp k k' = 0 then some ((at' cmp m k).getD v) else at' cmp m k') ∧
    (∀ m', valid cmp m M (.insertOrAssign k v) → run cmp m (.insertOrAssign k v) = some m' → ∀ k',
      at' cmp m' k' = if cmp k k' = 0 then some v else at' cmp m k') ∧
    (∀ m', run cmp m (.erase k) = some m' → ∀ k', at' cmp m' k' = if cmp k k' = 0 then none else at' cmp m k') := by
  have hh := reach_holds hc h
  refine ⟨?_, ?_, ?_⟩
  · intro m' hv he k'
    have hh' := reach_holds hc (.call m m' M _ h hv he)
    rw [at_spec hc hh', at_spec hc hh, at_spec hc hh]
    simp only [after, add]
    cases hf : Spec.find cmp k M with
    | some e =>
      simp only [Option.isSome_some, if_true, Option.map_some, Option.getD_some]
      by_cases h0 : cmp k k' = 0
      · rw [if_pos h0, ← find_congr hc h0, hf]; rfl
      · rw [if_neg h0]
    | none =>
      simp only [Option.isSome_none, Bool.false_eq_true, if_false, Option.map_none, Option.getD_none]
      rw [find_insertNew hc hh.asc hf]
      by_cases h0 : cmp k k' = 0
      · rw [if_pos h0, if_pos h0]; rfl
      · rw [if_neg h0, if_neg h0]
  · intro m' hv he k'
    have hh' := reach_holds hc (.call m m' M _ h hv he)
    rw [at_spec hc hh', at_spec hc hh]
    simp only [after, put]
    cases hf : Spec.find cmp k M with
    | some e =>
      simp only [Option.isSome_some, if_true]
      rw [find_assign hc]
      by_cases h0 : cmp k k' = 0
      · rw [if_pos h0, ← find_congr hc h0, hf]
        simp [h0]
      · rw [if_neg h0]
        simp [h0]
    | none =>
      simp only [Option.isSome_none, Bool.false_eq_true, if_false]
      rw [find_insertNew hc hh.asc hf]
      by_cases h0 : cmp k k' = 0
      · rw [if_pos h0, if_pos h0]; rfl
      · rw [if_neg h0, if_neg h0]
  · intro m' he k'
    have hh' := reach_holds hc (.call m m' M (.erase k) h trivial he)
    rw [at_spec hc hh', at_spec hc hh]
    simp only [after]
    rw [find_remove hc]
    by_cases h0 : cmp k k' = 0
    · rw [if_pos h0, if_pos h0]; rfl
    · rw [if_neg h0, if_neg h0]

/-- C25: what the calls report: whether the key was new, where its entry is, and whether a key was
erased. -/
theorem map_results {cmp : κ → κ → Int} (hc : Lawful cmp) {m : Map κ ν} {M : FMap κ ν} (h : Reach cmp m M) (k : κ) (v : ν) :
    (M.length * 3 < 2 ^ 31 → ∃ r i, insert cmp true m k v = some r ∧ r.inserted = (Spec.find cmp k M).isNone ∧ r.ref = some i ∧
      load r.map.nodes i = some ((Spec.find cmp k M).getD (k, v))) ∧
    (M.length * 3 < 2 ^ 31 → ∃ r i, emplace cmp true m k v = some r ∧ r.inserted = (Spec.find cmp k M).isNone ∧ r.ref = some i ∧
      load r.map.nodes i = some ((Spec.find cmp k M).getD (k, v))) ∧
    (M.length * 3 < 2 ^ 31 → ∃ r i, insertOrAssign cmp true m k v = some r ∧ r.inserted = (Spec.find cmp k M).isNone ∧ r.ref = some i ∧
      load r.map.nodes i = some (((Spec.find cmp k M).map Prod.fst).getD k, v)) ∧
    (M.length * 3 < 2 ^ 31 → ∃ r i, emplaceOrAssign cmp true m k v = some r ∧ r.inserted = (Spec.find cmp k M).isNone ∧ r.ref = some i ∧
      load r.map.nodes i = some (((Spec.find cmp k M).map Prod.fst).getD k, v)) ∧
    (∃ m' ds, erase cmp m k = some (m', if (Spec.find cmp k M).isSome then 1 else 0, ds)) := by
  have hh := reach_holds hc h
  refine ⟨fun hv => ?_, fun hv => ?_, fun hv => ?_, fun hv => ?_, ?_⟩
  · obtain ⟨r, i, h1, h2, h3, h4, h5, h6⟩ := insert_spec hc hh k v (ok := true) (Or.inl ⟨rfl, hv⟩)
    exact ⟨r, i, h1, h5, h2, h4⟩
  · obtain ⟨r, i, h1, h2, h3, h4, h5, h6⟩ := emplace_spec hc hh k v (ok := true) (Or.inl ⟨rfl, hv⟩)
    exact ⟨r, i, h1, h5, h2, h4⟩
  · obtain ⟨r, i, h1, h2, h3, h4, h5, h6⟩ := insertOrAssign_spec hc hh k v (ok := true) (Or.inl ⟨rfl, hv⟩)
    exact ⟨r, i, h1, h5, h2, h4⟩
  · obtain ⟨r, i, h1, h2, h3, h4, h5, h6⟩ := emplaceOrAssign_spec hc hh k v (ok := true) (Or.inl ⟨rfl, hv⟩)
    exact ⟨r, i, h1, h5, h2, h4⟩
  · obtain ⟨m', h1, -⟩ := erase_spec hc hh k
    exact ⟨m', _, h1⟩

/-- Numbers in their order. -/
def natCmp (a b : Nat) : Int := (a : Int) - b

theorem natCmp_lawful : Lawful natCmp := ⟨fun a b => by simp only [natCmp]; omega, fun a b c => by simp only [natCmp]; omega⟩

/-- Insert four keys, assign to one, and erase one. -/
def four : Map Nat Nat := ((run natCmp init (.putN [(5, 50), (3, 30), (8, 80), (1, 10)])).getD init)

theorem four_reach : Reach natCmp four [(1, 10), (3, 30), (5, 50), (8, 80)] :=
  Reach.call (κ := Nat) (ν := Nat) (cmp := natCmp) init four [] (.putN [(5, 50), (3, 30), (8, 80), (1, 10)]) .init (by simp only [valid]; decide +kernel)
    (by decide +kernel)

def sample : Map Nat Nat := ((run natCmp four (.insertOrAssign 3 31)).bind fun m => run natCmp m (.erase 5)).getD init

theorem sample_reach : Reach natCmp sample [(1, 10), (3, 31), (8, 80)] := by
  have h1 := Reach.call _ ((run natCmp four (.insertOrAssign 3 31)).getD init) _ (.insertOrAssign 3 31) four_reach (by simp only [valid]; decide +kernel)
    (by decide +kernel)
  exact Reach.call _ sample _ (.erase 5) h1 trivial (by decide +kernel)

example : get natCmp sample 3 = some (some (3, 31)) ∧ get natCmp sample 5 = some none :=
  ⟨(map_is_finite_map natCmp_lawful sample_reach).1 3, (map_is_finite_map natCmp_lawful sample_reach).1 5⟩

example : ∃ m', run natCmp sample (.erase 3) = some m' ∧ ∀ k', at' natCmp m' k' = if natCmp 3 k' = 0 then none else at' natCmp sample k' := by
  obtain ⟨m', h1, -⟩ := map_defined natCmp_lawful sample_reach (.erase 3) trivial
  exact ⟨m', h1, (map_get_after natCmp_lawful sample_reach 3 0).2.2 m' h1⟩

example : ∃ r i, insert natCmp true sample 4 40 = some r ∧ r.inserted = true ∧ r.ref = some i ∧ load r.map.nodes i = some (4, 40) :=
  (map_results natCmp_lawful sample_reach 4 40).1 (by decide)

/-! ### C26 -/

/-- C26: a loop over the map visits every entry exactly once, in strictly increasing order of the
keys; an entry is visited if and only if a lookup of its key finds it. -/
theorem map_ordered_iteration {cmp : κ → κ → Int} (hc : Lawful cmp) {m : Map κ ν} {M : FMap κ ν} (h : Reach cmp m M) :
    ∃ es, each m = some es ∧ es.Pairwise (fun a b => cmp a.1 b.1 < 0) ∧ es.length = m.size ∧
      ∀ e, e ∈ es ↔ get cmp m e.1 = some (some e) := by
  have hh := reach_holds hc h
  obtain ⟨t, fs, hr⟩ := reach_holds hc h
  refine ⟨M, each_spec hr, hh.asc, hh.size.symm, fun e => ?_⟩
  rw [get_spec hc hh, Option.some.injEq]
  constructor
  · intro he
    obtain ⟨A, B, rfl⟩ := List.append_of_mem he
    exact find_mid hc (ascending_mid hh.asc).1 (hc.refl _)
  · intro he
    exact List.mem_of_find?_eq_some he

omit [DecidableEq κ] in
theorem advance_seat {cmp : κ → κ → Int} {m : Map κ ν} : ∀ {n : Nat} {it : Iter} {P S : FMap κ ν}, Seat cmp m it P S →
    ∃ it' P', advance m n it = some it' ∧ Seat cmp m it' P' (S.drop n)
  | 0, it, P, S, h => ⟨it, P, rfl, h⟩
  | n + 1, it, P, [], h => ⟨it, P, by simp [advance, h.ref_none], by simpa using h⟩
  | n + 1, it, P, e :: S, h => by
    obtain ⟨i, h1, -⟩ := h.ref_some
    obtain ⟨it1, h2, h3⟩ := h.next
    obtain ⟨it2, P', h4, h5⟩ := advance_seat (n := n) h3
    exact ⟨it2, P', by simp [advance, h1, h2, h4], by simpa using h5⟩

/-- C26: `advance` skips as many entries as asked, and stops at the end. -/
theorem map_advance {cmp : κ → κ → Int} (hc : Lawful cmp) {m : Map κ ν} {M : FMap κ ν} (h : Reach cmp m M) (n : Nat) :
    ∃ it it', begin' m = some it ∧ advance m n it = some it' ∧ entryOf m it' = (M.drop n).head? ∧ eachFrom m M.length it' = some (M.drop n) := by
  obtain ⟨it, h1, h2⟩ := begin_seat (reach_holds hc h)
  obtain ⟨it', P', h3, h4⟩ := advance_seat (n := n) h2
  exact ⟨it, it', h1, h3, h4.entry, h4.each (by simp)⟩

example : ∃ es, each sample = some es ∧ es.Pairwise (fun a b => natCmp a.1 b.1 < 0) := by
  obtain ⟨es, h1, h2, -⟩ := map_ordered_iteration natCmp_lawful sample_reach
  exact ⟨es, h1, h2⟩

example : each sample = some [(1, 10), (3, 31), (8, 80)] := by decide +kernel

/-! ### C27 -/

omit [DecidableEq κ] in
theorem follow_zero {d : Buf (Node κ ν)} (h : Sent d) : ∀ dirs : List Bool, follow d 0 dirs = some 0
  | [] => rfl
  | dir :: dirs => by
    have := follow_zero h dirs
    simp only [follow, show d.rd 0 = some ⟨0, 0, 0, none⟩ from h, Option.bind_eq_bind, Option.bind_some, Node.link]
    cases dir <;> simpa using this

omit [DecidableEq κ] in
theorem follow_height {d : Buf (Node κ ν)} (hs : Sent d) : ∀ {dirs : List Bool} {t : T κ ν} {i : Nat}, Is d t → follow d (T.idx t) dirs = some i → i ≠ 0 →
    dirs.length + 1 ≤ T.height t
  | dirs, .nil, i, _, h, hi => by
    rw [T.idx_nil, follow_zero hs] at h
    simp at h
    exact absurd h.symm hi
  | [], .node j lv l e r, i, _, _, _ => by simp [T.height]
  | dir :: dirs, .node j lv l e r, i, h, hf, hi => by
    simp only [follow, T.idx_node, h.2.1, Option.bind_eq_bind, Option.bind_some, Node.link] at hf
    simp only [T.height, List.length_cons]
    cases dir with
    | true =>
      have := follow_height hs h.2.2.2 (by simpa using hf) hi
      omega
    | false =>
      have := follow_height hs h.2.2.1 (by simpa using hf) hi
      omega

/-- C27: a path of non-null nodes from the root has at most `2 * log2 (n + 1)` nodes, so less than
64 (the stack of insertions). -/
theorem map_height {cmp : κ → κ → Int} (hc : Lawful cmp) {m : Map κ ν} {M : FMap κ ν} (h : Reach cmp m M) (dirs : List Bool) (i : Nat)
    (hf : follow m.nodes m.root dirs = some i) (hi : i ≠ 0) :
    dirs.length + 1 ≤ 2 * Nat.log2 (M.length + 1) ∧ dirs.length + 1 < 64 := by
  obtain ⟨t, fs, hr⟩ := reach_holds hc h
  rw [hr.root] at hf
  by_cases hn : t = .nil
  · subst hn
    cases dirs with
    | nil => simp [follow, T.idx_nil] at hf; exact absurd hf.symm hi
    | cons dir dirs =>
      rcases hr.pool.mem with hm | hm
      · rw [hm.1] at hf
        simp [follow, Buf.rd] at hf
      · rw [T.idx_nil, follow_zero hm.2] at hf
        simp at hf; exact absurd hf.symm hi
  · have h1 := follow_height (hr.sent hn) hr.is hf hi
    have h2 := T.height_le hr.aa
    have h3 := T.size_ge hr.aa
    rw [hr.ord.length] at h3
    have h4 : T.lev t ≤ Nat.log2 (M.length + 1) := (Nat.le_log2 (by omega)).mpr h3
    have h5 := hr.height_le
    constructor <;> omega

/-- C27: the stack of an iterator obtained from the map never holds more than 31 of its 36 entries. -/
theorem map_iterator_stack {cmp : κ → κ → Int} (hc : Lawful cmp) {m : Map κ ν} {M : FMap κ ν} (h : Reach cmp m M) {it : Iter}
    (hi : Got cmp m it) (he : it.ref.isSome) : it.st.length ≤ Nat.log2 (M.length + 1) ∧ it.st.length ≤ 31 := by
  obtain ⟨P, S, rfl, t, fs, A, B, hr, hl, hA, hB, hat⟩ := got_seat hc (reach_holds hc h) hi
  cases B with
  | nil =>
    have : it.ref = none := hat
    rw [this] at he; simp at he
  | cons x B =>
    obtain ⟨-, u, ss, h1, h2, h3, h4⟩ := hat
    have h5 := h3.ch.length
    have h6 := hr.lev_le
    have h7 := T.size_ge hr.aa
    rw [hr.ord.length] at h7
    have h8 : T.lev t ≤ Nat.log2 ((P ++ S).length + 1) := (Nat.le_log2 (by omega)).mpr h7
    rw [h2, List.length_map]
    constructor <;> omega

example : follow sample.nodes sample.root [true] = some 3 := by decide +kernel

/-! ### C28 -/

/-- C28: `lower_bound` gives the entry with the least key that is not less than `k`, or the end if
there is none; a loop from there visits exactly the entries with such keys, in order. -/
theorem map_lower_bound {cmp : κ → κ → Int} (hc : Lawful cmp) {m : Map κ ν} {M : FMap κ ν} (h : Reach cmp m M) (k : κ) :
    ∃ it, lowerBound cmp m k = some it ∧ eachFrom m M.length it = some (M.filter fun e => 0 ≤ cmp e.1 k) ∧
      (∀ e, entryOf m it = some e → 0 ≤ cmp e.1 k ∧ ∀ e' ∈ M, 0 ≤ cmp e'.1 k → cmp e.1 e'.1 ≤ 0) ∧
      (entryOf m it = none → ∀ e' ∈ M, cmp e'.1 k < 0) := by
  have hh := reach_holds hc h
  obtain ⟨it, h1, h2⟩ := lower_seat hc hh k
  have hmem : ∀ e', e' ∈ from' cmp k M ↔ e' ∈ M ∧ 0 ≤ cmp e'.1 k := fun e' => by simp [from', List.mem_filter]
  refine ⟨it, h1, h2.each (List.length_filter_le _ _), ?_, ?_⟩
  · intro e he
    rw [h2.entry] at he
    cases hf : from' cmp k M with
    | nil => rw [hf] at he; simp at he
    | cons x S =>
      rw [hf] at he
      simp only [List.head?_cons, Option.some.injEq] at he
      subst he
      refine ⟨((hmem x).mp (by rw [hf]; simp)).2, fun e' he' hk => ?_⟩
      have hm := (hmem e').mpr ⟨he', hk⟩
      rw [hf] at hm
      have ha : Ascending cmp (from' cmp k M) := List.Pairwise.filter _ hh.asc
      rw [hf] at ha
      rcases List.mem_cons.mp hm with rfl | hm
      · exact Int.le_of_eq (hc.refl _)
      · have := (List.pairwise_cons.mp ha).1 e' hm
        omega
  · intro he e' he'
    rw [h2.entry] at he
    have : from' cmp k M = [] := by
      cases hf : from' cmp k M with
      | nil => rfl
      | cons => rw [hf] at he; simp at he
    by_contra hn
    have := (hmem e').mpr ⟨he', by omega⟩
    simp_all

example : ∃ it, lowerBound natCmp sample 2 = some it ∧ eachFrom sample 3 it = some [(3, 31), (8, 80)] := by
  obtain ⟨it, h1, h2, -⟩ := map_lower_bound natCmp_lawful sample_reach 2
  exact ⟨it, h1, h2⟩

/-! ### C29 -/

omit [DecidableEq κ] in
theorem eachFrom_head (c : Map κ ν) (x : Nat) : ∀ (f : Nat) (it : Iter), eachFrom { c with head := x } f it = eachFrom c f it
  | f, it => by
    unfold eachFrom
    cases it.ref with
    | none => rfl
    | some i =>
      cases f with
      | zero => rfl
      | succ f =>
        have h : next { c with head := x } it = next c it := rfl
        simp only [h]
        cases load c.nodes i with
        | none => rfl
        | some e =>
          simp only [Option.bind_eq_bind, Option.bind_some]
          cases next c it with
          | none => rfl
          | some it' => simp only [Option.bind_some, eachFrom_head c x f it']

/-- C29 (partial): a clone holds the same entries as the original: all lookups and loops agree. If the
original uses all nodes it ever used, the clone is a map like any other, on which every history can
be continued. Missing: originals from which entries were erased; for these insertion into the clone
is undefined (`map_clone_insert_undefined`). -/
theorem map_clone_partial {cmp : κ → κ → Int} (hc : Lawful cmp) {m : Map κ ν} {M : FMap κ ν} (h : Reach cmp m M) :
    ∃ c, clone true m = some c ∧ each c = some M ∧ c.size = M.length ∧
      (∀ k, get cmp c k = get cmp m k) ∧ (m.head = m.size → Reach cmp c M) := by
  obtain ⟨c, h1, h2, h3, h4, h5, h6⟩ := clone_spec (reach_holds hc h)
  refine ⟨_, h6, ?_, ?_, ?_, ?_⟩
  · obtain ⟨t, fs, hr⟩ := h1
    have he : each { c with head := m.head } = each c := by
      have hb : begin' { c with head := m.head } = begin' c := rfl
      simp only [each, hb, eachFrom_head]
    rw [he]
    exact each_spec hr
  · simp only [h5, (reach_holds hc h).size]
  · intro k
    rw [get_spec hc (reach_holds hc h)]
    exact get_spec hc h1 k
  · intro hv
    exact Reach.call (cmp := cmp) m _ M .clone h hv h6

/-- A map has unused nodes after an erasure. -/
theorem erase_leaves_free {cmp : κ → κ → Int} (hc : Lawful cmp) {m : Map κ ν} {M : FMap κ ν} (h : Reach cmp m M) {k : κ} {m' : Map κ ν} {ds : List (Own κ ν)}
    (he : erase cmp m k = some (m', 1, ds)) : m'.size < m'.head := by
  have hh := reach_holds hc h
  obtain ⟨m2, h1, h2⟩ := erase_spec hc hh k
  have hf : (Spec.find cmp k M).isSome := by
    by_contra hn
    rw [h1] at he
    simp [hn] at he
  rw [h1] at he
  simp only [hf, if_true, Option.some.injEq, Prod.mk.injEq] at he
  obtain ⟨rfl, -, -⟩ := he
  have hsz : m2.size + 1 = m.size := by
    rw [h2.size, hh.size]
    obtain ⟨e, hf⟩ := Option.isSome_iff_exists.mp hf
    obtain ⟨P, S, rfl, h0, hl, hr⟩ := mem_split hc hh.asc hf
    rw [remove_mid hc hl hr h0]
    simp; omega
  have hd : m2.head = m.head := by
    simp only [erase, Option.bind_eq_bind] at h1
    cases hx : eraseR cmp (m.nodes.length + 1) m.nodes m.disp m.root k 0 with
    | none => rw [hx] at h1; simp at h1
    | some r =>
      rw [hx] at h1
      simp only [Option.bind_some] at h1
      split at h1 <;> (simp only [Option.some.injEq, Prod.mk.injEq] at h1; rw [← h1.1])
  obtain ⟨t, fs, hr⟩ := hh
  have := hr.pool.exact'
  have := hr.size
  have := length_ids t
  have := hr.ord.length
  omega

/-- C29 is false of the code: after any erasure, inserting a new key into a clone writes outside the
clone's node array. -/
theorem map_clone_insert_undefined {cmp : κ → κ → Int} (hc : Lawful cmp) {m : Map κ ν} {M : FMap κ ν} (h : Reach cmp m M)
    (hfree : m.size < m.head) {c : Map κ ν} (he : clone true m = some c) (k : κ) (v : ν) (hk : Spec.find cmp k M = none) :
    insert cmp true c k v = none := by
  obtain ⟨c0, h1, h2, h3, h4, h5, h6⟩ := clone_spec (reach_holds hc h)
  rw [h6] at he
  cases he
  have hsz := (reach_holds hc h).size
  obtain ⟨t, fs, hr⟩ := h1
  have hd := descend_none hc (f := 65) (up := []) (dir := false) hr.is hr.ord hk (by have := hr.height_le; omega) (by have := hr.height_le; simp; omega)
  rw [← hr.root] at hd
  have hlen : c0.nodes.length ≤ m.head + 1 := by
    rcases hr.pool.mem with hm | hm
    · rw [hm.1]; simp
    · omega
  have hw : Buf.wr c0.nodes (m.head + 1) (⟨0, 0, 1, none⟩ : Node κ ν) = none := by
    simp only [Buf.wr]
    rw [if_neg (by omega)]
  have hp : pick true { c0 with head := m.head } = some ({ c0 with head := m.head + 1 }, m.head + 1) := by
    simp only [pick, bump, h4]
    rw [if_neg (by simp), if_neg (by omega)]
  have hn : newNode true 1 { c0 with head := m.head } = none := by
    simp only [newNode]
    rw [hp]
    simp only [Option.bind_eq_bind, Option.bind_some]
    rw [if_neg (by omega), hw]
    rfl
  simp only [insert, insertEntry, hd, Option.bind_eq_bind, Option.bind_some, hn, Option.bind_none]

/-- C29 is false of the code: when the allocation fails, cloning a map that is not empty writes through
NULL. -/
theorem map_clone_failure_undefined {cmp : κ → κ → Int} (hc : Lawful cmp) {m : Map κ ν} {M : FMap κ ν} (h : Reach cmp m M) (hM : M ≠ []) :
    clone false m = none := by
  obtain ⟨t, fs, hr⟩ := reach_holds hc h
  have hn : t ≠ .nil := by
    rintro rfl
    exact hM hr.ord.of_nil
  cases t with
  | nil => exact absurd rfl hn
  | node i lv l e r =>
    have hsz := hr.size
    have hpos : 0 < M.length := List.length_pos_iff.mpr hM
    have hlt := hr.len
    have hcap := hr.pool.cap
    have hwc : withCapacity false m.size = some (init : Map κ ν) := by
      simp only [withCapacity]
      rw [reserve_fail (by simp [init]; omega) (by omega)]
      rfl
    have hnn : newNode false lv (init : Map κ ν) = some (init, 0) := by
      simp [newNode, pick, bump, init, reserve]
    have hst : ∀ x, store (init : Map κ ν) 0 x = none := by
      intro x
      simp [store, init, Buf.rd]
    simp only [clone, hwc, hr.root, T.idx_node, Option.bind_eq_bind, Option.bind_some]
    simp only [cloneR, hr.is.1, if_false, hr.is.2.1, hnn, Option.bind_eq_bind, Option.bind_some]
    cases e with
    | none => rfl
    | some e => simp only [Option.bind_some, hst, Option.bind_none]

example : ∃ c, clone true four = some c ∧ Reach natCmp c [(1, 10), (3, 30), (5, 50), (8, 80)] := by
  obtain ⟨c, h1, -, -, -, h2⟩ := map_clone_partial natCmp_lawful four_reach
  exact ⟨c, h1, h2 (by decide +kernel)⟩

example : sample.size < sample.head ∧ Spec.find natCmp 9 [(1, 10), (3, 31), (8, 80)] = none := by decide +kernel

/-! ### C30 -/

/-- C30: `erase_at` destroys exactly the entry at the iterator, and returns the iterator at the entry
after it: it visits exactly the entries that came after. -/
theorem map_erase_at {cmp : κ → κ → Int} (hc : Lawful cmp) {m : Map κ ν} {M : FMap κ ν} (h : Reach cmp m M) {it : Iter} (hi : Got cmp m it)
    {e : κ × ν} (he : entryOf m it = some e) (inl : Bool) :
    ∃ P S it' m', M = P ++ e :: S ∧ eraseAt cmp inl m it = some (it', m', valueDrop e) ∧ Reach cmp m' (P ++ S) ∧
      entryOf m' it' = S.head? ∧ eachFrom m' S.length it' = some S := by
  obtain ⟨P, S, it', m', h1, h2, h3, h4⟩ := eraseAt_spec hc (reach_holds hc h) hi he inl
  refine ⟨P, S, it', m', h1, h2, ?_, h3.entry, h3.each (Nat.le_refl _)⟩
  have := Reach.call m m' M (.eraseAt inl it) h ⟨hi, by rw [he]; rfl⟩ (by simp only [run, h2, Option.map_some])
  simp only [after, he, h4] at this
  exact this

/-- C30 (partial): `erase_range` destroys exactly the entries from the first iterator up to the second,
and returns an iterator at the second. Missing: a range up to an entry, where raw keys refer to the
key objects they are made from; there the claim is false (`map_erase_range_wrong`). -/
theorem map_erase_range_partial {cmp : κ → κ → Int} (hc : Lawful cmp) {m : Map κ ν} {M : FMap κ ν} (h : Reach cmp m M) {inl : Bool} {it1 it2 : Iter}
    (hv : valid cmp m M (.eraseRange inl it1 it2)) :
    ∃ P X S it' m', M = P ++ X ++ S ∧ eachFrom m M.length it1 = some (X ++ S) ∧ eachFrom m M.length it2 = some S ∧
      eraseRange cmp inl m it1 it2 = some (it', m', X.flatMap valueDrop) ∧ Reach cmp m' (P ++ S) ∧
      entryOf m' it' = S.head? ∧ eachFrom m' S.length it' = some S := by
  obtain ⟨P, X, S, it', m', h1, h2, h3, h4, h5, h6⟩ := eraseRange_spec hc (reach_holds hc h) hv
  refine ⟨P, X, S, it', m', h1, h2.each (by simp [h1] <;> omega), h3.each (by simp [h1] <;> omega), h4, ?_, h5.entry, h5.each (Nat.le_refl _)⟩
  have := Reach.call m m' M (.eraseRange inl it1 it2) h hv (by simp only [run, h4, Option.map_some])
  rw [h6] at this
  exact this

/-- C30 is false of the code: where raw keys refer to the key objects (as for short strings),
`erase_range` from the first entry (key 1) to the second (key 3) erases the second, keeps the first,
and returns the end. -/
theorem map_erase_range_wrong : ∃ (m : Map Nat Nat) (it1 it2 it' : Iter) (m' : Map Nat Nat) (ds : List (Own Nat Nat)),
    Reach natCmp m [(1, 10), (3, 30), (5, 50), (8, 80)] ∧ begin' m = some it1 ∧ next m it1 = some it2 ∧
    eraseRange natCmp true m it1 it2 = some (it', m', ds) ∧ each m' = some [(1, 10), (5, 50), (8, 80)] ∧ it'.ref = none := by
  refine ⟨four, (begin' four).getD ⟨none, none, []⟩, ((begin' four).bind (next four)).getD ⟨none, none, []⟩,
    (((begin' four).bind fun a => (next four a).bind fun b => eraseRange natCmp true four a b).map (·.1)).getD ⟨none, none, []⟩,
    (((begin' four).bind fun a => (next four a).bind fun b => eraseRange natCmp true four a b).map (·.2.1)).getD init,
    (((begin' four).bind fun a => (next four a).bind fun b => eraseRange natCmp true four a b).map (·.2.2)).getD [], four_reach, ?_⟩
  decide +kernel

example : ∃ it1 it2, begin' four = some it1 ∧ Smap.find natCmp four 5 = some it2 ∧
    valid natCmp four [(1, 10), (3, 30), (5, 50), (8, 80)] (.eraseRange false it1 it2) := by
  obtain ⟨it1, h1⟩ : ∃ it, begin' four = some it := Option.isSome_iff_exists.mp (by decide +kernel)
  obtain ⟨it2, h2⟩ : ∃ it, Smap.find natCmp four 5 = some it := Option.isSome_iff_exists.mp (by decide +kernel)
  refine ⟨it1, it2, h1, h2, .begin' _ h1, .find _ _ h2, ?_⟩
  have e1 : entryOf four it1 = some (1, 10) := by
    have : (begin' four).bind (entryOf four) = some (1, 10) := by decide +kernel
    rw [h1] at this; simpa using this
  have e2 : entryOf four it2 = some (5, 50) := by
    have : (Smap.find natCmp four 5).bind (entryOf four) = some (5, 50) := by decide +kernel
    rw [h2] at this; simpa using this
  rw [e1, e2]
  exact ⟨rfl, by decide⟩

/-! ### C72 -/

omit [DecidableEq κ] in
theorem owned_insertNew {cmp : κ → κ → Int} (hc : Lawful cmp) {k : κ} {v : ν} {M : FMap κ ν} (ha : Ascending cmp M) (hk : Spec.find cmp k M = none) :
    [.key k, .val v] ++ owned M ~ owned (insertNew cmp k v M) := by
  have hM : below cmp k M ++ above cmp k M = M := by
    have h1 := below_append_from hc k ha
    have : from' cmp k M = above cmp k M := by
      refine List.filter_congr fun e he => ?_
      have := find_none.mp hk e he
      simp only [decide_eq_decide]
      omega
    rw [← this]; exact h1
  conv_lhs => rw [← hM]
  simp only [owned, insertNew, List.flatMap_append, List.flatMap_cons]
  rw [← List.append_assoc]
  exact (List.perm_append_comm.append_right _).trans (by simp)

omit [DecidableEq κ] in
theorem owned_assign {cmp : κ → κ → Int} (hc : Lawful cmp) {k : κ} {v : ν} {M : FMap κ ν} {e : κ × ν} (ha : Ascending cmp M) (hk : Spec.find cmp k M = some e) :
    .val v :: owned M ~ .val e.2 :: owned (assign cmp k v M) := by
  obtain ⟨P, S, rfl, h0, hl, hr⟩ := mem_split hc ha hk
  rw [assign_mid hc v hl hr h0]
  simp only [owned, List.flatMap_append, List.flatMap_cons, List.cons_append, List.nil_append]
  have : ∀ (a b : Own κ ν) (X Y : List (Own κ ν)), a :: (X ++ .key e.1 :: b :: Y) ~ b :: (X ++ .key e.1 :: a :: Y) := by
    intro a b X Y
    have h1 : a :: (X ++ .key e.1 :: b :: Y) ~ a :: b :: (X ++ .key e.1 :: Y) := by
      refine List.Perm.cons _ ?_
      have : X ++ .key e.1 :: b :: Y = (X ++ [.key e.1]) ++ b :: Y := by simp
      rw [this]
      exact List.perm_middle.trans (by simp)
    have h2 : b :: (X ++ .key e.1 :: a :: Y) ~ b :: a :: (X ++ .key e.1 :: Y) := by
      refine List.Perm.cons _ ?_
      have : X ++ .key e.1 :: a :: Y = (X ++ [.key e.1]) ++ a :: Y := by simp
      rw [this]
      exact List.perm_middle.trans (by simp)
    exact h1.trans ((List.Perm.swap _ _ _).trans h2.symm)
  exact this _ _ _ _

omit [DecidableEq κ] in
theorem owned_remove {cmp : κ → κ → Int} (hc : Lawful cmp) {k : κ} {M : FMap κ ν} {e : κ × ν} (ha : Ascending cmp M) (hk : Spec.find cmp k M = some e) :
    owned M ~ owned (remove cmp k M) ++ valueDrop e := by
  obtain ⟨P, S, rfl, h0, hl, hr⟩ := mem_split hc ha hk
  rw [remove_mid hc hl hr h0]
  simp only [owned, valueDrop, List.flatMap_append, List.flatMap_cons, List.append_assoc]
  exact List.Perm.append_left _ List.perm_append_comm

/-- C72: every key and value handed to a map is stored exactly once or destroyed exactly once: what
the map owned and was given is what it owns afterwards and what it destroyed. -/
theorem map_ownership {cmp : κ → κ → Int} (hc : Lawful cmp) {m : Map κ ν} {M : FMap κ ν} (h : Reach cmp m M) (k : κ) (v : ν) :
    (M.length * 3 < 2 ^ 31 → ∃ r, insert cmp true m k v = some r ∧ Reach cmp r.map (add cmp k v M) ∧
      [.key k, .val v] ++ owned M ~ owned (add cmp k v M) ++ r.dropped) ∧
    (M.length * 3 < 2 ^ 31 → ∃ r, emplace cmp true m k v = some r ∧ Reach cmp r.map (add cmp k v M) ∧
      (if r.inserted then [.key k, .val v] else []) ++ owned M ~ owned (add cmp k v M) ++ r.dropped) ∧
    (M.length * 3 < 2 ^ 31 → ∃ r, insertOrAssign cmp true m k v = some r ∧ Reach cmp r.map (put cmp k v M) ∧
      [.key k, .val v] ++ owned M ~ owned (put cmp k v M) ++ r.dropped) ∧
    (M.length * 3 < 2 ^ 31 → ∃ r, emplaceOrAssign cmp true m k v = some r ∧ Reach cmp r.map (put cmp k v M) ∧
      (if r.inserted then [.key k, .val v] else [.val v]) ++ owned M ~ owned (put cmp k v M) ++ r.dropped) ∧
    (∃ m' n ds, erase cmp m k = some (m', n, ds) ∧ Reach cmp m' (remove cmp k M) ∧ owned M ~ owned (remove cmp k M) ++ ds) ∧
    (∃ m' ds, clear m = some (m', ds) ∧ Reach cmp m' [] ∧ owned M ~ ds) ∧ (∃ ds, drop m = some ds ∧ owned M ~ ds) := by
  have hh := reach_holds hc h
  have ha := hh.asc
  refine ⟨fun hv => ?_, fun hv => ?_, fun hv => ?_, fun hv => ?_, ?_, ?_, ?_⟩
  · obtain ⟨r, i, h1, h2, h3, h4, h5, h6⟩ := insert_spec hc hh k v (ok := true) (Or.inl ⟨rfl, hv⟩)
    refine ⟨r, h1, Reach.call m _ M (.insert k v) h hv (by simp only [run, h1, Option.map_some]), ?_⟩
    rw [h6]
    cases hf : Spec.find cmp k M with
    | none => simp only [add, hf]; simpa using owned_insertNew hc ha hf
    | some e => simp only [add, hf, Option.isSome_some, if_true]; exact List.perm_append_comm
  · obtain ⟨r, i, h1, h2, h3, h4, h5, h6⟩ := emplace_spec hc hh k v (ok := true) (Or.inl ⟨rfl, hv⟩)
    refine ⟨r, h1, Reach.call m _ M (.emplace k v) h hv (by simp only [run, h1, Option.map_some]), ?_⟩
    rw [h6, h5]
    cases hf : Spec.find cmp k M with
    | none => simp only [add, hf]; simpa using owned_insertNew hc ha hf
    | some e => simp [add, hf]
  · obtain ⟨r, i, h1, h2, h3, h4, h5, h6⟩ := insertOrAssign_spec hc hh k v (ok := true) (Or.inl ⟨rfl, hv⟩)
    refine ⟨r, h1, Reach.call m _ M (.insertOrAssign k v) h hv (by simp only [run, h1, Option.map_some]), ?_⟩
    rw [h6]
    cases hf : Spec.find cmp k M with
    | none => simp only [put, hf]; simpa using owned_insertNew hc ha hf
    | some e =>
      simp only [put, hf, Option.isSome_some, if_true]
      refine List.Perm.trans ?_ List.perm_append_comm
      exact List.Perm.cons _ (owned_assign hc ha hf)
  · obtain ⟨r, i, h1, h2, h3, h4, h5, h6⟩ := emplaceOrAssign_spec hc hh k v (ok := true) (Or.inl ⟨rfl, hv⟩)
    refine ⟨r, h1, Reach.call m _ M (.emplaceOrAssign k v) h hv (by simp only [run, h1, Option.map_some]), ?_⟩
    rw [h6, h5]
    cases hf : Spec.find cmp k M with
    | none => simp only [put, hf]; simpa using owned_insertNew hc ha hf
    | some e =>
      simp only [put, hf, Option.isSome_some, if_true, Option.isNone_some, Bool.false_eq_true, if_false]
      refine List.Perm.trans ?_ List.perm_append_comm
      exact owned_assign hc ha hf
  · obtain ⟨m', h1, h2⟩ := erase_spec hc hh k
    refine ⟨m', _, _, h1, Reach.call m _ M (.erase k) h trivial (by simp only [run, h1, Option.map_some]), ?_⟩
    cases hf : Spec.find cmp k M with
    | none => rw [remove_eq_of_none hf]; simp
    | some e => simpa using owned_remove hc ha hf
  · obtain ⟨m', ds, h1, h2, h3⟩ := clear_spec hh
    exact ⟨m', ds, h1, Reach.call m _ M .clear h trivial (by simp only [run, h1, Option.map_some]), h3.symm⟩
  · obtain ⟨ds, h1, h2⟩ := drop_spec hh
    exact ⟨ds, h1, h2.symm⟩

example : ∃ r, insertOrAssign natCmp true sample 8 81 = some r ∧ r.dropped = [.key 8, .val 80] := by
  obtain ⟨r, i, h1, -, -, -, -, h2⟩ := insertOrAssign_spec natCmp_lawful (reach_holds natCmp_lawful sample_reach) 8 81 (ok := true) (Or.inl ⟨rfl, by decide⟩)
  exact ⟨r, h1, h2⟩

/-! ### C90 -/

/-- C90 (partial): without memory `reserve` fails and leaves the map as it is; an insertion of a
present key works as ever, and so does that of a new key when a node is free. Missing: an insertion
that would have to grow; for it the claim is false (`map_alloc_failure_loses_entries`). -/
theorem map_alloc_failure_partial {cmp : κ → κ → Int} (hc : Lawful cmp) {m : Map κ ν} {M : FMap κ ν} (h : Reach cmp m M) (k : κ) (v : ν) (n : Nat) :
    (n < 2 ^ 31 → reserve false n m = some (m, false)) ∧
    ((Spec.find cmp k M).isSome → insert cmp false m k v = insert cmp true m k v) ∧
    (m.disp ≠ 0 ∨ m.head < m.cap → ∃ r, insert cmp false m k v = some r ∧ each r.map = some (add cmp k v M)) := by
  have hh := reach_holds hc h
  refine ⟨fun hn => ?_, fun hs => ?_, fun hr => ?_⟩
  · by_cases hle : n ≤ m.cap
    · exact reserve_le hle
    · exact reserve_fail (by omega) hn
  · obtain ⟨e, he⟩ := Option.isSome_iff_exists.mp hs
    obtain ⟨i, h1, -⟩ := entry_found hc hh he false
    obtain ⟨j, h2, -⟩ := entry_found hc hh he true
    have hij : insertEntry cmp false m k = insertEntry cmp true m k := by
      obtain ⟨t, fs, hr⟩ := hh
      obtain ⟨i, hd, hi⟩ := descend_found hc (f := 65) (up := []) (dir := false) hr.is hr.ord he (by have := hr.height_le; omega) (by have := hr.height_le; simp; omega)
      simp only [insertEntry, hr.root, hd, Option.bind_eq_bind, Option.bind_some]
    simp only [insert, hij]
  · obtain ⟨r, i, h1, -, h2, -⟩ := insert_spec hc hh k v (ok := false) (Or.inr hr)
    obtain ⟨t, fs, h2⟩ := h2
    exact ⟨r, h1, each_spec h2⟩

/-- C90 is false of the code: when an insertion has to grow and there is no memory, the map loses all
its entries (while `size` still counts them). -/
theorem map_alloc_failure_loses_entries {cmp : κ → κ → Int} (hc : Lawful cmp) {m : Map κ ν} {M : FMap κ ν} (h : Reach cmp m M) (k : κ) (v : ν)
    (hk : Spec.find cmp k M = none) (hfull : m.disp = 0 ∧ m.head = m.cap) (hg : M.length * 3 < 2 ^ 31) :
    ∃ r, insert cmp false m k v = some r ∧ r.ref = none ∧ each r.map = some [] ∧ r.map.size = M.length ∧
      r.dropped = [.key k, .val v] := by
  have hh := reach_holds hc h
  obtain ⟨t, fs, hr⟩ := reach_holds hc h
  have hd := descend_none hc (f := 65) (up := []) (dir := false) hr.is hr.ord hk (by have := hr.height_le; omega) (by have := hr.height_le; simp; omega)
  have hfs : fs = [] := by
    cases fs with
    | nil => rfl
    | cons f fs => exact absurd (hr.pool.free.1.symm.trans hfull.1) hr.pool.free.2.1
  have hhd : m.head = M.length := by
    have := hr.pool.exact'
    rw [hfs, length_ids, hr.ord.length] at this
    simpa using this.symm
  have hn : newNode false 1 m = some (m, 0) := by
    have hp : pick false m = some (m, 0) := by
      simp only [pick, hfull.1, bump]
      rw [if_neg (by simp), if_pos hfull.2, if_pos (by omega), reserve_fail (by omega) (by omega)]
      rfl
    simp only [newNode]
    rw [hp]
    rfl
  refine ⟨⟨{ m with root := 0 }, none, false, [.key k, .val v]⟩, ?_, rfl, ?_, hr.size, rfl⟩
  · simp only [insert, insertEntry, hr.root, hd, Option.bind_eq_bind, Option.bind_some, hn, if_true]
    rfl
  · simp only [each, begin']
    unfold eachFrom
    rfl

example : four.disp = 0 ∧ four.head = four.cap ∧ Spec.find natCmp 9 [(1, 10), (3, 30), (5, 50), (8, 80)] = none := by decide +kernel

/-! ### C91 -/

/-- C91 (partial): `eq` is true exactly when the keys are equal, one by one in order; it never looks at
the mapped values. For a sorted set this is the claim. Missing: for maps, the comparison of the
values (`map_eq_ignores_values`). -/
theorem map_eq_partial {cmp : κ → κ → Int} (hc : Lawful cmp) {m o : Map κ ν} {M O : FMap κ ν} (h : Reach cmp m M) (ho : Reach cmp o O) :
    ∃ b, eq (fun a b => cmp a b == 0) m o = some b ∧ (b = true ↔ List.Forall₂ (fun a b => cmp a.1 b.1 = 0) M O) := by
  refine ⟨_, eq_spec (reach_holds hc h) (reach_holds hc ho), ?_⟩
  simp only [Bool.and_eq_true, decide_eq_true_eq, List.all_eq_true, beq_iff_eq, List.forall₂_iff_zip]
  constructor
  · rintro ⟨h1, h2⟩
    exact ⟨h1, fun {a b} hab => h2 (a, b) hab⟩
  · rintro ⟨h1, h2⟩
    exact ⟨h1, fun p hp => h2 hp⟩

/-- C91 is false of the code: two maps that differ in a mapped value compare equal. -/
theorem map_eq_ignores_values : ∃ (m o : Map Nat Nat) (M O : FMap Nat Nat), Reach natCmp m M ∧ Reach natCmp o O ∧
    at' natCmp m 1 ≠ at' natCmp o 1 ∧ eq (fun a b => natCmp a b == 0) m o = some true := by
  refine ⟨(run natCmp init (.insert 1 10)).getD init, (run natCmp init (.insert 1 11)).getD init, _, _,
    Reach.call (κ := Nat) (ν := Nat) init _ [] (.insert 1 10) .init (by simp only [valid]; decide) (by decide +kernel),
    Reach.call (κ := Nat) (ν := Nat) init _ [] (.insert 1 11) .init (by simp only [valid]; decide) (by decide +kernel), ?_⟩
  decide +kernel

/-! ### C92 -/

/-- C92: `front` is the entry with the least key, `back` that with the greatest. -/
theorem map_front_back {cmp : κ → κ → Int} (hc : Lawful cmp) {m : Map κ ν} {M : FMap κ ν} (h : Reach cmp m M) (hM : M ≠ []) :
    (∃ e, front m = some e ∧ get cmp m e.1 = some (some e) ∧ ∀ e' ∈ M, cmp e.1 e'.1 ≤ 0) ∧
    (∃ e, back m = some e ∧ get cmp m e.1 = some (some e) ∧ ∀ e' ∈ M, cmp e'.1 e.1 ≤ 0) := by
  have hh := reach_holds hc h
  constructor
  · cases M with
    | nil => exact absurd rfl hM
    | cons e M =>
      refine ⟨e, front_spec hh, ?_, ?_⟩
      · rw [get_spec hc hh]
        exact congrArg some (find_mid (Ml := []) hc (by simp) (hc.refl _))
      · intro e' he'
        rcases List.mem_cons.mp he' with rfl | he'
        · exact Int.le_of_eq (hc.refl _)
        · have := (List.pairwise_cons.mp hh.asc).1 e' he'
          omega
  · obtain ⟨P, e, rfl⟩ : ∃ P e, M = P ++ [e] := ⟨M.dropLast, M.getLast hM, (List.dropLast_concat_getLast hM).symm⟩
    refine ⟨e, back_spec hh, ?_, ?_⟩
    · rw [get_spec hc hh]
      exact congrArg some (find_mid hc (ascending_mid hh.asc).1 (hc.refl _))
    · intro e' he'
      rcases List.mem_append.mp he' with he' | he'
      · have := (ascending_mid hh.asc).1 e' he'
        omega
      · simp only [List.mem_singleton] at he'
        rw [he']; exact Int.le_of_eq (hc.refl _)

example : front sample = some (1, 10) ∧ back sample = some (8, 80) := by decide +kernel

/-! ### C93 -/

/-- C93: `put_n` puts the pairs from first to last: a lookup finds the value of the last pair with the
key, and otherwise what it found before. -/
theorem map_put_n {cmp : κ → κ → Int} (hc : Lawful cmp) : ∀ (es : List (κ × ν)) {m : Map κ ν} {M : FMap κ ν}, Reach cmp m M →
    (M.length + es.length) * 3 < 2 ^ 31 → ∃ m' ds M', putN cmp es m = some (m', ds) ∧ Reach cmp m' M' ∧
      ∀ k, at' cmp m' k = ((es.reverse.find? fun e => cmp e.1 k == 0).map Prod.snd).or (at' cmp m k)
  | [], m, M, h, _ => ⟨m, [], M, rfl, h, fun k => by simp⟩
  | e :: es, m, M, h, hl => by
    have hh := reach_holds hc h
    simp only [List.length_cons] at hl
    have hv : M.length * 3 < 2 ^ 31 := by omega
    obtain ⟨r, i, a1, -, a2, -⟩ := emplaceOrAssign_spec hc hh e.1 e.2 (ok := true) (Or.inl ⟨rfl, hv⟩)
    have hrun : run cmp m (.emplaceOrAssign e.1 e.2) = some r.map := by simp only [run, a1, Option.map_some]
    have hr := Reach.call m r.map M (.emplaceOrAssign e.1 e.2) h hv hrun
    simp only [after] at hr
    have hlen := length_put hc hh.asc e.1 e.2
    obtain ⟨m', ds, M', b1, b2, b3⟩ := map_put_n hc es hr (by split at hlen <;> omega)
    refine ⟨m', r.dropped ++ ds, M', ?_, b2, fun k => ?_⟩
    · simp only [putN, a1, b1, Option.bind_eq_bind, Option.bind_some]
    · have hone : at' cmp r.map k = if cmp e.1 k = 0 then some e.2 else at' cmp m k := by
        rw [at_spec hc a2, at_spec hc hh, put]
        cases hf : Spec.find cmp e.1 M with
        | some x =>
          simp only [Option.isSome_some, if_true]
          rw [find_assign hc]
          by_cases h0 : cmp e.1 k = 0
          · rw [if_pos h0, ← find_congr hc h0, hf]
            simp [h0]
          · rw [if_neg h0]
            simp [h0]
        | none =>
          simp only [Option.isSome_none, Bool.false_eq_true, if_false]
          rw [find_insertNew hc hh.asc hf]
          by_cases h0 : cmp e.1 k = 0
          · rw [if_pos h0, if_pos h0]; rfl
          · rw [if_neg h0, if_neg h0]
      rw [b3 k, hone, List.reverse_cons, List.find?_append]
      cases hx : es.reverse.find? fun e => cmp e.1 k == 0 with
      | some x => simp
      | none =>
        by_cases h0 : cmp e.1 k = 0
        · simp [h0]
        · simp [h0]

example : ∃ m' ds M', putN natCmp [(2, 20), (3, 32), (2, 21)] sample = some (m', ds) ∧ Reach natCmp m' M' ∧ at' natCmp m' 2 = some 21 := by
  obtain ⟨m', ds, M', h1, h2, h3⟩ := map_put_n natCmp_lawful [(2, 20), (3, 32), (2, 21)] sample_reach (by decide)
  exact ⟨m', ds, M', h1, h2, by rw [h3]; decide +kernel⟩

end Verif.Smap
