import Verif.Smap.Props
/-
Which references to entries of a sorted map stay valid. A reference is the address of a node: its
index in the node array, and the array.
-/
set_option linter.unusedVariables false
namespace Verif.Smap
open T Spec
variable {κ ν : Type}

namespace Spec

/-- The node `find` refers to for a key. -/
def refTo (cmp : κ → κ → Int) (m : Map κ ν) (k : κ) : Option Nat := (Smap.find cmp m k).bind Iter.ref

/-- The key an insertion or assignment is for. -/
def Op.sets : Op κ ν → Option κ
  | .insert k _ | .emplace k _ | .insertOrAssign k _ | .emplaceOrAssign k _ | .setAt k _ => some k
  | _ => none

end Spec

variable {cmp : κ → κ → Int} {m : Map κ ν} {M : FMap κ ν} {t : T κ ν} {fs : List Nat}

theorem cmp_eq_trans (hc : Lawful cmp) {a b c : κ} (h1 : cmp a b = 0) (h2 : cmp b c = 0) : cmp a c = 0 := by
  have a1 := hc.trans a b c (by omega) (by omega)
  have a2 := hc.trans c b a (by have := (hc.anti b c).mp; have := (hc.anti c b).mpr; omega) (by have := (hc.anti b a).mpr; omega)
  have a3 := (hc.anti c a).mp a2
  omega

/-! ### references and the labels of the tree -/

theorem refTo_lab (hc : Lawful cmp) (h : Rep cmp m t fs M) {k : κ} {i : Nat} :
    refTo cmp m k = some i ↔ ∃ e, (i, some e) ∈ lab t ∧ cmp e.1 k = 0 := by
  have hf := findIt_spec hc h k none
  constructor
  · intro hr
    cases hk : Spec.find cmp k M with
    | none =>
      obtain ⟨it, h1, h2⟩ := hf.2 hk
      simp only [refTo, find, h1, Option.bind_some, h2] at hr
      cases hr
    | some e =>
      obtain ⟨it, A, j, B, h1, h2, h3⟩ := hf.1 e hk
      simp only [refTo, find, h1, Option.bind_some, h3.1] at hr
      cases hr
      have he := List.find?_some hk
      exact ⟨e, by rw [h2]; simp, by simpa using he⟩
  · rintro ⟨e, hm, he⟩
    obtain ⟨A, B, hAB⟩ := List.append_of_mem hm
    have ho := h.ord.1
    rw [hAB, List.map_append, List.map_cons] at ho
    obtain ⟨P, X, hM, hP, hX⟩ := List.map_eq_append_iff.mp ho.symm
    cases X with
    | nil => simp at hX
    | cons x S =>
      simp only [List.map_cons, List.cons.injEq, Option.some.injEq] at hX
      obtain ⟨rfl, hS⟩ := hX
      have hfind : Spec.find cmp k M = some x := by
        rw [hM]
        refine find_mid hc ?_ he
        have ha := h.ord.2
        rw [hM] at ha
        exact (ascending_mid ha).1
      obtain ⟨it, A', j, B', h1, h2, h3⟩ := hf.1 x hfind
      obtain ⟨-, rfl, -, -⟩ := lab_unique hc h.ord h2 hAB (hc.refl _)
      simp only [refTo, find, h1, Option.bind_some]
      exact h3.1

/-! ### insertion -/

theorem newNode_len {ok : Bool} {lv i : Nat} {m' : Map κ ν} (h : newNode ok lv m = some (m', i)) (hg : m.disp ≠ 0 ∨ m.head ≠ m.cap) :
    m'.nodes.length = m.nodes.length := by
  have wl : ∀ {d d' : Buf (Node κ ν)} {j : Nat} {x : Node κ ν}, d.wr j x = some d' → d'.length = d.length := by
    intro d d' j x hw
    simp only [Buf.wr] at hw
    split at hw
    · cases hw; simp
    · cases hw
  have hp : ∀ {a j}, pick ok m = some (a, j) → a.nodes = m.nodes := by
    intro a j hp
    simp only [pick] at hp
    by_cases hd : m.disp ≠ 0
    · rw [if_pos hd] at hp
      cases hn : m.nodes.rd m.disp with
      | none => simp [hn] at hp
      | some n => simp [hn] at hp; rw [← hp.1]
    · rw [if_neg hd] at hp
      simp only [bump] at hp
      rw [if_neg (by rcases hg with h1 | h1 <;> [exact absurd h1 hd; exact h1])] at hp
      simp at hp
      rw [← hp.1]
  cases hpk : pick ok m with
  | none => simp [newNode, hpk] at h
  | some q =>
    obtain ⟨a, j⟩ := q
    simp only [newNode, hpk, Option.bind_eq_bind, Option.bind_some] at h
    by_cases hj : j = 0
    · rw [if_pos hj] at h
      simp at h
      rw [← h.1, hp hpk]
    · rw [if_neg hj] at h
      cases hw : a.nodes.wr j ⟨0, 0, lv, none⟩ with
      | none => simp [hw] at h
      | some d =>
        simp [hw] at h
        rw [← h.1]
        simp only
        rw [wl hw, hp hpk]

/-- A new entry: where it is, and that the others stay. -/
theorem entry_new_lab (hc : Lawful cmp) {k : κ} (h : Rep cmp m t fs M) (hk : Spec.find cmp k M = none)
    {ok : Bool} (hg : (ok = true ∧ M.length * 3 < 2 ^ 31) ∨ m.disp ≠ 0 ∨ m.head < m.cap) :
    ∃ m1 i, insertEntry cmp ok m k = some (m1, some i, true) ∧
      ∀ v, ∃ m2 t2 fs2, store m1 i (k, v) = some m2 ∧ Rep cmp m2 t2 fs2 (insertNew cmp k v M) ∧ (∀ x ∈ lab t, x ∈ lab t2) ∧
        (m.disp ≠ 0 ∨ m.head ≠ m.cap → m2.nodes.length = m.nodes.length) := by
  have hlen : (ids t).length = M.length := by rw [length_ids, h.ord.length]
  obtain ⟨m1, i, fs', n1, p1, niu, ni0, ns, nr, nsame, nroot, nsize, -, -⟩ := newNode_spec h.pool (by rw [hlen]; exact hg) 1
  have hI1 : Is m1.nodes t := h.is.congr fun j hj => nsame j hj
  obtain ⟨d', l1, l2, l3⟩ := linkNew_spec (cmp := cmp) (k := k) h.ord.isSome hI1 ns h.nodup h.aa.pos ni0 niu nr
  have hperm := lab_insertT_perm (cmp := cmp) (k := k) (i := i) h.ord.isSome
  have hgr := grown_insertT cmp k i h.aa h.ord.isSome
  obtain ⟨A, B, e1, e2, e3, e4⟩ := lab_insertT hc k i h.ord hk
  have hp2 : Pool { m1 with nodes := d', root := idx (insertT cmp k i t), size := m1.size + 1 } (ids (insertT cmp k i t)) fs' := by
    refine ⟨?_, p1.cap, p1.free.congr fun j hj => l3.2 j ?_, ?_, ?_, ?_, p1.head⟩
    · rcases p1.mem with hm | hm
      · have := rd_lt nr
        rw [hm.1] at this
        simp at this
      · refine Or.inr ⟨?_, ns.frame l3 ?_⟩
        · rw [l3.1]; exact hm.1
        · simp only [List.mem_cons, not_or]; exact ⟨Ne.symm ni0, fun hc => h.is.ne_zero 0 hc rfl⟩
    · exact fun hc => (List.nodup_append.mp p1.nodup).2.2 j hc j hj rfl
    · exact ((hperm.append_right fs').nodup_iff).mpr p1.nodup
    · intro j hj
      exact p1.le j ((hperm.append_right fs').mem_iff.mp hj)
    · rw [hperm.length_eq]; exact p1.exact'
  refine ⟨{ m1 with nodes := d', root := idx (insertT cmp k i t), size := m1.size + 1 }, i, ?_, ?_⟩
  · have hd := descend_none hc (f := 65) (up := []) (dir := false) h.is h.ord hk (by have := h.height_le; omega) (by have := h.height_le; simp; omega)
    rw [List.append_nil] at hd
    simp only [insertEntry, h.root, hd, Option.bind_eq_bind, Option.bind_some, n1]
    rw [if_neg ni0, l1]
    rfl
  · intro v
    obtain ⟨m2, s1, s2, s3, s4, s5, s6, -⟩ := store_rep (x := (k, v)) hp2 l2 e2
    refine ⟨m2, _, _, s1, ⟨s2, s3, ?_, AA.setE hgr.1, ⟨?_, ascending_insertNew hc h.ord.2⟩, ?_⟩, ?_, ?_⟩
    · rw [s4, idx_setE]
    · rw [s6]; simp [insertNew, e3, e4]
    · rw [s5]; simp only [insertNew, List.length_append, List.length_cons, nsize, h.size]
      have := length_split hk
      omega
    · intro x hx
      rw [e1] at hx
      rw [s6]
      rcases List.mem_append.mp hx with hx | hx
      · simp [hx]
      · simp [hx]
    · intro hroom
      obtain ⟨n, hn, -⟩ := l2.rd_lab (i, none) (by rw [e2]; simp)
      have hst := store_eq (m := { m1 with nodes := d', root := idx (insertT cmp k i t), size := m1.size + 1 }) hn (k, v)
      rw [s1] at hst
      simp only [Option.some.injEq] at hst
      rw [hst]
      simp only [List.length_set]
      rw [l3.1, newNode_len n1 hroom]

/-- An assignment: the entry stays where it is, and so do the others. -/
theorem store_lab (hc : Lawful cmp) {k : κ} {e : κ × ν} {i : Nat} (h : Rep cmp m t fs M) (hk : Spec.find cmp k M = some e)
    (hi : (i, some e) ∈ lab t) (v : ν) :
    ∃ m2 t2 fs2, store m i (e.1, v) = some m2 ∧ Rep cmp m2 t2 fs2 (assign cmp k v M) ∧ m2.nodes.length = m.nodes.length ∧
      ∀ x ∈ lab t, x ∈ lab t2 ∨ (x = (i, some e) ∧ (i, some (e.1, v)) ∈ lab t2) := by
  obtain ⟨A, B, hAB⟩ := List.append_of_mem hi
  obtain ⟨m2, s1, s2, s3, s4, s5, s6, -⟩ := store_rep (x := (e.1, v)) h.pool h.is hAB
  obtain ⟨m3, s1', ⟨t3, fs3, hR3⟩, -⟩ := store_assign hc h hk hi v
  rw [s1] at s1'
  simp only [Option.some.injEq] at s1'
  subst s1'
  -- the tree of `store_rep`, with the list of `store_assign`
  have hlab : (lab (setE i (e.1, v) t)).map Prod.snd = (assign cmp k v M).map some := by
    rw [s6]
    have ho := h.ord.1
    rw [hAB, List.map_append, List.map_cons] at ho
    obtain ⟨P, X, hM, hP, hX⟩ := List.map_eq_append_iff.mp ho.symm
    cases X with
    | nil => simp at hX
    | cons x S =>
      simp only [List.map_cons, List.cons.injEq, Option.some.injEq] at hX
      obtain ⟨rfl, hS⟩ := hX
      have ha := h.ord.2
      rw [hM] at ha
      obtain ⟨hl, hr⟩ := ascending_mid ha
      have h0 : cmp x.1 k = 0 := by simpa using List.find?_some hk
      rw [hM, assign_mid hc v hl hr h0]
      simp [hP, hS]
  obtain ⟨n, hn, -⟩ := h.is.rd_lab (i, some e) hi
  have hst := store_eq (m := m) hn (e.1, v)
  rw [s1] at hst
  simp only [Option.some.injEq] at hst
  refine ⟨m2, _, _, s1, ⟨s2, s3, ?_, AA.setE h.aa, ⟨hlab, ascending_assign h.ord.2⟩, ?_⟩, ?_, ?_⟩
  · rw [s4, idx_setE, h.root]
  · rw [s5, h.size]; simp [assign]
  · rw [hst]; simp
  · intro x hx
    rw [hAB] at hx
    rw [s6]
    rcases List.mem_append.mp hx with hx | hx
    · simp [hx]
    · rcases List.mem_cons.mp hx with hx | hx
      · exact Or.inr ⟨hx, by simp⟩
      · simp [hx]

/-- What an insertion or assignment does to the labels. -/
theorem run_lab [DecidableEq κ] (hc : Lawful cmp) (h : Rep cmp m t fs M) {op : Op κ ν} {k : κ} (hk : op.sets = some k) (hv : valid cmp m M op)
    {m' : Map κ ν} (hr : run cmp m op = some m') :
    ∃ t' fs' M', Rep cmp m' t' fs' M' ∧ (∀ j e, (j, some e) ∈ lab t → ∃ v, (j, some (e.1, v)) ∈ lab t' ∧ (cmp e.1 k ≠ 0 → v = e.2)) ∧
      (m.disp ≠ 0 ∨ m.head ≠ m.cap → m'.nodes.length = m.nodes.length) := by
  -- nothing happens
  have same : m = m' → ∃ t' fs' M', Rep cmp m' t' fs' M' ∧ (∀ j e, (j, some e) ∈ lab t → ∃ v, (j, some (e.1, v)) ∈ lab t' ∧ (cmp e.1 k ≠ 0 → v = e.2)) ∧
      (m.disp ≠ 0 ∨ m.head ≠ m.cap → m'.nodes.length = m.nodes.length) := by
    rintro rfl
    exact ⟨t, fs, M, h, fun j e he => ⟨e.2, he, fun _ => rfl⟩, fun _ => rfl⟩
  -- a new entry
  have new : ∀ v, Spec.find cmp k M = none → M.length * 3 < 2 ^ 31 → (∀ m1 i, insertEntry cmp true m k = some (m1, some i, true) →
      ∀ m2, store m1 i (k, v) = some m2 → m2 = m') → ∃ t' fs' M', Rep cmp m' t' fs' M' ∧
        (∀ j e, (j, some e) ∈ lab t → ∃ v, (j, some (e.1, v)) ∈ lab t' ∧ (cmp e.1 k ≠ 0 → v = e.2)) ∧
        (m.disp ≠ 0 ∨ m.head ≠ m.cap → m'.nodes.length = m.nodes.length) := by
    intro v hn hl hm
    obtain ⟨m1, i, h1, h2⟩ := entry_new_lab hc h hn (ok := true) (Or.inl ⟨rfl, hl⟩)
    obtain ⟨m2, t2, fs2, h3, h4, h5, h6⟩ := h2 v
    have := hm m1 i h1 m2 h3
    subst this
    exact ⟨t2, fs2, _, h4, fun j e he => ⟨e.2, h5 _ he, fun _ => rfl⟩, h6⟩
  -- the entry is there
  have upd : ∀ v e i, Spec.find cmp k M = some e → (i, some e) ∈ lab t → store m i (e.1, v) = some m' →
      ∃ t' fs' M', Rep cmp m' t' fs' M' ∧ (∀ j e, (j, some e) ∈ lab t → ∃ v, (j, some (e.1, v)) ∈ lab t' ∧ (cmp e.1 k ≠ 0 → v = e.2)) ∧
      (m.disp ≠ 0 ∨ m.head ≠ m.cap → m'.nodes.length = m.nodes.length) := by
    intro v e i hn hi hs
    obtain ⟨m2, t2, fs2, h1, h2, h3, h4⟩ := store_lab hc h hn hi v
    rw [hs] at h1
    cases h1
    refine ⟨t2, fs2, _, h2, fun j e' he' => ?_, fun _ => h3⟩
    rcases h4 _ he' with h5 | ⟨h5, h6⟩
    · exact ⟨e'.2, h5, fun _ => rfl⟩
    · simp only [Prod.mk.injEq, Option.some.injEq] at h5
      obtain ⟨rfl, rfl⟩ := h5
      refine ⟨v, h6, fun hne => absurd ?_ hne⟩
      simpa using List.find?_some hn
  have found : ∀ e, Spec.find cmp k M = some e → ∃ i, insertEntry cmp true m k = some (m, some i, false) ∧ (i, some e) ∈ lab t := by
    intro e he
    obtain ⟨i, hd, hi⟩ := descend_found hc (f := 65) (up := []) (dir := false) h.is h.ord he (by have := h.height_le; omega)
      (by have := h.height_le; simp; omega)
    exact ⟨i, by simp only [insertEntry, h.root, hd, Option.bind_eq_bind, Option.bind_some], hi⟩
  cases op with
  | insert k' v =>
    simp only [Op.sets, Option.some.injEq] at hk
    subst hk
    cases hf : Spec.find cmp k' M with
    | none =>
      refine new v hf hv fun m1 i h1 m2 h2 => ?_
      simp [run, insert, h1, h2] at hr
      exact hr
    | some e =>
      obtain ⟨i, h1, h2⟩ := found e hf
      simp [run, insert, h1] at hr
      exact same hr
  | emplace k' v =>
    simp only [Op.sets, Option.some.injEq] at hk
    subst hk
    cases hf : Spec.find cmp k' M with
    | none =>
      refine new v hf hv fun m1 i h1 m2 h2 => ?_
      simp [run, emplace, h1, h2] at hr
      exact hr
    | some e =>
      obtain ⟨i, h1, h2⟩ := found e hf
      simp [run, emplace, h1] at hr
      exact same hr
  | insertOrAssign k' v =>
    simp only [Op.sets, Option.some.injEq] at hk
    subst hk
    cases hf : Spec.find cmp k' M with
    | none =>
      refine new v hf hv fun m1 i h1 m2 h2 => ?_
      simp [run, insertOrAssign, h1, h2] at hr
      exact hr
    | some e =>
      obtain ⟨i, h1, h2⟩ := found e hf
      obtain ⟨m2, -, -, h3, -⟩ := store_lab hc h hf h2 v
      simp [run, insertOrAssign, h1, h.is.load h2, h3] at hr
      subst hr
      exact upd v e i hf h2 h3
  | emplaceOrAssign k' v =>
    simp only [Op.sets, Option.some.injEq] at hk
    subst hk
    cases hf : Spec.find cmp k' M with
    | none =>
      refine new v hf hv fun m1 i h1 m2 h2 => ?_
      simp [run, emplaceOrAssign, h1, h2] at hr
      exact hr
    | some e =>
      obtain ⟨i, h1, h2⟩ := found e hf
      obtain ⟨m2, -, -, h3, -⟩ := store_lab hc h hf h2 v
      simp [run, emplaceOrAssign, h1, h.is.load h2, h3] at hr
      subst hr
      exact upd v e i hf h2 h3
  | setAt k' v =>
    simp only [Op.sets, Option.some.injEq] at hk
    subst hk
    obtain ⟨e, hf⟩ := Option.isSome_iff_exists.mp (show (Spec.find cmp k' M).isSome from hv)
    obtain ⟨it, A, i, B, h1, h2, h3⟩ := (findIt_spec hc h k' none).1 e hf
    have hi : (i, some e) ∈ lab t := by rw [h2]; simp
    obtain ⟨m2, -, -, h4, -⟩ := store_lab hc h hf hi v
    simp [run, setAt, h1, h3.1, h.is.load hi, h4] at hr
    subst hr
    exact upd v e i hf hi h4
  | _ => simp [Op.sets] at hk

/-! ### C155 -/

/-- C155, sorted maps. Over an insertion or an assignment for key `k`, every entry stays in its node:
`find` refers to the same node as before, and the entries of other keys are unchanged there. The node
array is not reallocated as long as there is a free node: one that was erased, or one never used. -/
theorem smap_insert_keeps_references_partial [DecidableEq κ] (hc : Lawful cmp) (h : Reach cmp m M) {op : Op κ ν} {k : κ} (hk : op.sets = some k)
    (hv : valid cmp m M op) {m' : Map κ ν} (hr : run cmp m op = some m') :
    (∀ k' i, refTo cmp m k' = some i → refTo cmp m' k' = some i ∧ (cmp k' k ≠ 0 → load m'.nodes i = load m.nodes i)) ∧
    (m.disp ≠ 0 ∨ m.head ≠ m.cap → m'.nodes.length = m.nodes.length) := by
  obtain ⟨t, fs, hR⟩ := reach_holds hc h
  obtain ⟨t', fs', M', hR', h1, h2⟩ := run_lab hc hR hk hv hr
  refine ⟨fun k' i hi => ?_, h2⟩
  obtain ⟨e, he, h0⟩ := (refTo_lab hc hR).mp hi
  obtain ⟨v, hv1, hv2⟩ := h1 i e he
  refine ⟨(refTo_lab hc hR').mpr ⟨_, hv1, h0⟩, fun hne => ?_⟩
  have : cmp e.1 k ≠ 0 := fun h3 => hne (cmp_eq_trans hc ((hc.eq_iff _ _).mp h0) h3)
  rw [hR'.is.load hv1, hR.is.load he, hv2 this]

/-- C155 is false of sorted maps as documented ("References are only invalidated after erase"): when
every node is in use, an insertion reallocates the node array, so a reference to an entry may refer to
freed memory. -/
theorem smap_insert_reallocates [DecidableEq κ] (hc : Lawful cmp) (h : Reach cmp m M) {k : κ} (hk : Spec.find cmp k M = none)
    (hl : M.length * 3 < 2 ^ 31) (h1 : m.disp = 0) (h2 : m.head = m.cap) (v : ν) :
    ∃ m', run cmp m (.insert k v) = some m' ∧ m.nodes.length < m'.nodes.length := by
  obtain ⟨m', hr, -⟩ := map_defined hc h (.insert k v) hl
  refine ⟨m', hr, ?_⟩
  obtain ⟨t, fs, hR⟩ := reach_holds hc h
  obtain ⟨t', fs', hR'⟩ := reach_holds hc (Reach.call _ _ _ (.insert k v) h hl hr)
  have hfs : fs = [] := by
    cases fs with
    | nil => rfl
    | cons f fs =>
      obtain ⟨a1, a2, -⟩ := hR.pool.free
      omega
  have e1 := hR.pool.exact'
  have e2 := hR.ord.length
  have e3 := hR'.pool.exact'
  have e4 := hR'.ord.length
  have e5 := hR'.pool.head
  rw [hfs, length_ids] at e1
  rw [length_ids] at e3
  have e6 := length_split hk
  have e7 : (after cmp m M (.insert k v)).length = M.length + 1 := by
    have : after cmp m M (.insert k v) = insertNew cmp k v M := by simp [after, add, hk]
    rw [this, insertNew, List.length_append, List.length_cons]
    omega
  have e8 : m'.nodes.length = m'.cap + 1 := by
    rcases hR'.pool.mem with hm | hm
    · simp at e1; omega
    · exact hm.1
  have e9 : m.nodes.length ≤ m.cap + 1 := by
    rcases hR.pool.mem with hm | hm
    · rw [hm.1]; simp
    · omega
  simp at e1
  omega

theorem erase_keeps_cap {k : κ} {m' : Map κ ν} {n : Nat} {ds : List (Own κ ν)} (h : erase cmp m k = some (m', n, ds)) : m'.cap = m.cap := by
  cases hr : eraseR cmp (m.nodes.length + 1) m.nodes m.disp m.root k 0 with
  | none => simp [erase, hr] at h
  | some r =>
    simp only [erase, hr, Option.bind_eq_bind, Option.bind_some] at h
    split at h <;> (simp only [Option.some.injEq, Prod.mk.injEq] at h; rw [← h.1])

/-- C155, erasing. Over the removal of key `k` every other entry stays in its node and unchanged,
except possibly the entry just before it in the order, which may move into the node of the removed
entry. -/
theorem smap_erase_moves_one [DecidableEq κ] (hc : Lawful cmp) (h : Reach cmp m M) {k : κ} {m' : Map κ ν} (hr : run cmp m (.erase k) = some m') :
    (∀ k' i, refTo cmp m k' = some i → cmp k' k ≠ 0 →
      (refTo cmp m' k' = some i ∧ load m'.nodes i = load m.nodes i) ∨
      ∃ j P e' e S, refTo cmp m k = some j ∧ refTo cmp m' k' = some j ∧ load m'.nodes j = load m.nodes i ∧
        M = P ++ e' :: e :: S ∧ cmp e'.1 k' = 0 ∧ cmp e.1 k = 0) ∧
    m'.nodes.length = m.nodes.length := by
  obtain ⟨t, fs, hR⟩ := reach_holds hc h
  cases hk : Spec.find cmp k M with
  | none =>
    have : ∃ m'', erase cmp m k = some (m'', 0, []) ∧ Rep cmp m'' t fs M ∧ m''.nodes.length = m.nodes.length := by
      by_cases hn : t = .nil
      · subst hn
        refine ⟨m, ?_, hR, rfl⟩
        have h0 : m.root = 0 := hR.root
        have : eraseR cmp (m.nodes.length + 1) m.nodes m.disp m.root k 0 = some ⟨0, m.nodes, m.disp, 0, []⟩ := by
          simp [eraseR, h0]
        simp only [erase, this, Option.bind_eq_bind, Option.bind_some, if_true]
      · obtain ⟨d', a1, a2, a3⟩ := eraseR_none hc (disp := m.disp) (er := 0) hR.is (hR.sent hn) hR.aa hR.ord
          (show height t < m.nodes.length + 1 by have := hR.height_lt; omega) hk
        refine ⟨{ m with nodes := d', disp := m.disp }, ?_, ⟨⟨?_, hR.pool.cap, hR.pool.free.congr fun j _ => a3 j, hR.pool.nodup, hR.pool.le,
          hR.pool.exact', hR.pool.head⟩, hR.is.congr fun j _ => a3 j, hR.root, hR.aa, hR.ord, hR.size⟩, a2⟩
        · simp only [erase, hR.root, a1, Option.bind_eq_bind, Option.bind_some, if_true]
        · rcases hR.pool.mem with hm | hm
          · have := hR.sent hn
            unfold Sent at this
            rw [hm.1] at this
            simp [Buf.rd] at this
          · refine Or.inr ⟨by rw [a2]; exact hm.1, ?_⟩
            unfold Sent; rw [a3]; exact hm.2
    obtain ⟨m'', h1, hR', hlen⟩ := this
    simp [run, h1] at hr
    subst hr
    refine ⟨fun k' i hi hne => Or.inl ?_, hlen⟩
    obtain ⟨e, he, h0⟩ := (refTo_lab hc hR).mp hi
    exact ⟨(refTo_lab hc hR').mpr ⟨e, he, h0⟩, by rw [hR'.is.load he, hR.is.load he]⟩
  | some e =>
    obtain ⟨m'', u, x, fs', h1, hR', A, i, e', B, h2, h3, h4, h5⟩ := erase_rep hc hR hk
    simp [run, h1] at hr
    subst hr
    have hlen : m''.nodes.length = m.nodes.length := by
      have hcap := erase_keeps_cap h1
      have hM : M ≠ [] := by
        rintro rfl
        simp [Spec.find] at hk
      have hpos : 0 < M.length := List.length_pos_iff.mpr hM
      have e1 := hR.len
      rcases hR.pool.mem with hm | hm
      · omega
      · rcases hR'.pool.mem with hm' | hm'
        · omega
        · omega
    refine ⟨fun k' j hj hne => ?_, hlen⟩
    obtain ⟨ej, hej, h0⟩ := (refTo_lab hc hR).mp hj
    have hni : ej ≠ e' := by
      rintro rfl
      exact hne (cmp_eq_trans hc ((hc.eq_iff _ _).mp h0) h3)
    have hmem : (j, some ej) ∈ A ∨ (j, some ej) ∈ B := by
      rw [h2] at hej
      rcases List.mem_append.mp hej with hm | hm
      · exact Or.inl hm
      · rcases List.mem_cons.mp hm with hm | hm
        · simp only [Prod.mk.injEq, Option.some.injEq] at hm
          exact absurd hm.2 hni
        · exact Or.inr hm
    have stay : (j, some ej) ∈ lab u → refTo cmp m'' k' = some j ∧ load m''.nodes j = load m.nodes j := fun hu =>
      ⟨(refTo_lab hc hR').mpr ⟨ej, hu, h0⟩, by rw [hR'.is.load hu, hR.is.load hej]⟩
    rcases h5 with ⟨-, h5⟩ | ⟨hB, A', ex, rfl, h5⟩
    · exact Or.inl (stay (by rw [h5]; exact List.mem_append.mpr hmem))
    · by_cases hjx : (j, some ej) = (x, ex)
      · simp only [Prod.mk.injEq] at hjx
        obtain ⟨rfl, rfl⟩ := hjx
        have hu : (i, some ej) ∈ lab u := by rw [h5]; simp
        have hi' : (i, some e') ∈ lab t := by rw [h2]; simp
        have ho := hR.ord.1
        rw [h2] at ho
        simp only [List.append_assoc, List.singleton_append, List.map_append, List.map_cons] at ho
        obtain ⟨P, X, hM, hP, hX⟩ := List.map_eq_append_iff.mp ho.symm
        obtain ⟨y, X, rfl, hy, hX⟩ := List.map_eq_cons_iff.mp hX
        obtain ⟨z, S, rfl, hz, hX⟩ := List.map_eq_cons_iff.mp hX
        simp only [Option.some.injEq] at hy hz
        subst hy hz
        exact Or.inr ⟨i, P, y, z, S, (refTo_lab hc hR).mpr ⟨_, hi', h3⟩, (refTo_lab hc hR').mpr ⟨_, hu, h0⟩,
          by rw [hR'.is.load hu, hR.is.load hej], hM, h0, h3⟩
      · refine Or.inl (stay ?_)
        rw [h5]
        rcases hmem with hm | hm
        · rcases List.mem_append.mp hm with hm | hm
          · simp [hm]
          · simp only [List.mem_singleton] at hm
            exact absurd hm hjx
        · simp [hm]

/-- Erasing 5 from {1, 3, 5, 8} moves the entry of key 3 into the node of key 5: a reference to the
entry of another key does not stay valid. -/
theorem smap_erase_moves_another : ∃ (m m' : Map Nat Nat) (M : FMap Nat Nat), Reach natCmp m M ∧ run natCmp m (.erase 5) = some m' ∧
    refTo natCmp m 3 = some 2 ∧ refTo natCmp m 5 = some 1 ∧ refTo natCmp m' 3 = some 1 :=
  ⟨four, (run natCmp four (.erase 5)).getD init, _, four_reach, by decide +kernel, by decide +kernel, by decide +kernel, by decide +kernel⟩

/-- The map {1, 3, 8} left by erasing 5 has a free node: inserting 6 keeps all references. -/
example : ∃ m', run natCmp sample (.insert 6 60) = some m' ∧ m'.nodes.length = sample.nodes.length ∧
    refTo natCmp m' 3 = refTo natCmp sample 3 ∧ (refTo natCmp sample 3).isSome := by
  obtain ⟨m', h1, -⟩ := map_defined natCmp_lawful sample_reach (.insert 6 60) (by simp only [valid]; decide +kernel)
  obtain ⟨h2, h3⟩ := smap_insert_keeps_references_partial natCmp_lawful sample_reach (k := 6) rfl (by simp only [valid]; decide +kernel) h1
  have h4 : refTo natCmp sample 3 = some 1 := by decide +kernel
  exact ⟨m', h1, h3 (Or.inl (by decide +kernel)), by rw [h4]; exact (h2 3 1 h4).1, by rw [h4]; rfl⟩

example : ∃ m', run natCmp four (.insert 6 60) = some m' ∧ four.nodes.length < m'.nodes.length :=
  smap_insert_reallocates natCmp_lawful four_reach (by decide +kernel) (by decide) (by decide +kernel) (by decide +kernel) 60

example : (run natCmp four (.erase 5)).isSome ∧ refTo natCmp four 8 = some 3 := by decide +kernel

end Verif.Smap
