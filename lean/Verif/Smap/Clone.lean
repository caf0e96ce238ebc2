import Verif.Smap.Seat
/-
Cloning.
-/
set_option linter.unusedSimpArgs false
set_option linter.unusedVariables false
namespace Verif.Smap
open T Spec
open scoped List
variable {κ ν : Type} {cmp : κ → κ → Int}

theorem Pool.perm {m : Map κ ν} {used used' fs : List Nat} (h : Pool m used fs) (hp : used ~ used') : Pool m used' fs :=
  ⟨h.mem, h.cap, h.free, (hp.append_right fs).nodup_iff.mp h.nodup, fun i hi => h.le i ((hp.append_right fs).mem_iff.mpr hi),
    by rw [← hp.length_eq]; exact h.exact', h.head⟩

/-- Writing a node in use. -/
theorem Pool.set {m : Map κ ν} {used fs : List Nat} (h : Pool m used fs) {i : Nat} (hi : i ∈ used) (x : Node κ ν) :
    Pool { m with nodes := m.nodes.set i (some x) } used fs := by
  have h0 : i ≠ 0 := (h.le i (by simp [hi])).1
  refine ⟨?_, h.cap, h.free.congr fun j hj => rd_set_ne fun he => ?_, h.nodup, h.le, h.exact', h.head⟩
  · rcases h.mem with hm | hm
    · exact Or.inl ⟨by rw [hm.1]; rfl, hm.2⟩
    · refine Or.inr ⟨by simpa using hm.1, ?_⟩
      unfold Sent
      rw [rd_set_ne (Ne.symm h0)]
      exact hm.2
  · exact (List.nodup_append.mp h.nodup).2.2 i hi j hj he.symm

theorem Pool.disp {m : Map κ ν} {used : List Nat} (h : Pool m used []) : m.disp = 0 := h.free

theorem cloneR_spec {ok : Bool} {src : Buf (Node κ ν)} : ∀ {t : T κ ν} {m : Map κ ν} {used : List Nat} {f : Nat}, Is src t → AA t →
    (∀ x ∈ lab t, x.2.isSome) → Pool m used [] → used.length + (lab t).length ≤ m.cap → height t < f →
    ∃ m' u, cloneR ok src f m (idx t) = some (idx u, m') ∧ Is m'.nodes u ∧ Pool m' (ids u ++ used) [] ∧
      (∀ j ∈ used, m'.nodes.rd j = m.nodes.rd j) ∧ (lab u).map Prod.snd = (lab t).map Prod.snd ∧ AA u ∧ lev u = lev t ∧ (hr u ↔ hr t) ∧
      m'.cap = m.cap
  | _, m, used, 0, _, _, _, _, _, hf => by simp at hf
  | .nil, m, used, f + 1, _, _, _, hp, _, _ => ⟨m, .nil, by simp [cloneR], trivial, by simpa [ids, lab] using hp, fun _ _ => rfl, rfl, trivial, rfl, Iff.rfl, rfl⟩
  | .node i lv l eo r, m, used, f + 1, h, ha, hs, hp, hcap, hf => by
    simp only [height] at hf
    simp only [lab, List.length_append, List.length_cons] at hcap
    obtain ⟨e, rfl⟩ : ∃ e, eo = some e := Option.isSome_iff_exists.mp (hs (i, eo) (by simp [lab]))
    have hhead : m.head < m.cap := by
      have := hp.exact'
      simp at this; omega
    obtain ⟨m1, j, fs1, a1, a2, a3, a4, a5, a6, a7, -, -, a8, a9⟩ := newNode_spec hp (ok := ok) (Or.inr (Or.inr hhead)) lv
    have hfs := a8 rfl
    subst hfs
    have hc1 := a9 hhead
    -- the entry
    have hst := store_eq a6 e
    have p1 := a2.set (i := j) (by simp) ⟨0, 0, lv, some e⟩
    have hjl := rd_lt a6
    -- the left subtree
    obtain ⟨m2, ul, b1, b2, b3, b4, b5, b6, b7, b8, b9⟩ := cloneR_spec (ok := ok) (f := f)
      h.2.2.1 ha.2.2.1 (fun x hx => hs x (by simp [lab, hx])) p1 (by simp only [List.length_cons]; omega) (by omega)
    simp only at b9
    have hj2 : m2.nodes.rd j = some ⟨0, 0, lv, some e⟩ := by rw [b4 j (by simp)]; exact rd_set_eq hjl
    have hsl := setLink_eq hj2 false (idx ul)
    have p2 := b3.set (i := j) (by simp) ⟨idx ul, 0, lv, some e⟩
    have hjl2 := rd_lt hj2
    -- the right subtree
    obtain ⟨m3, ur, c1, c2, c3, c4, c5, c6, c7, c8, c9⟩ := cloneR_spec (ok := ok) (f := f)
      h.2.2.2 ha.2.2.2 (fun x hx => hs x (by simp [lab, hx])) p2 (by
        have := congrArg List.length b5
        simp only [List.length_map] at this
        simp only [List.length_append, length_ids, List.length_cons]
        omega) (by omega)
    have hj3 : m3.nodes.rd j = some ⟨idx ul, 0, lv, some e⟩ := by rw [c4 j (by simp)]; exact rd_set_eq hjl2
    have hsr := setLink_eq hj3 true (idx ur)
    have p3 := c3.set (i := j) (by simp) ⟨idx ul, idx ur, lv, some e⟩
    have hjl3 := rd_lt hj3
    have hnd := c3.nodup
    simp only [List.append_nil] at hnd
    have hnur : j ∉ ids ur := fun hx => (List.nodup_append.mp hnd).2.2 j hx j (by simp) rfl
    have hnul : j ∉ ids ul := fun hx => by
      have := (List.nodup_append.mp hnd).2.1
      exact (List.nodup_append.mp this).2.2 j hx j (by simp) rfl
    refine ⟨{ m3 with nodes := m3.nodes.set j (some ⟨idx ul, idx ur, lv, some e⟩) }, .node j lv ul (some e) ur, ?_, ?_, ?_, ?_, ?_, ?_, rfl, ?_, ?_⟩
    · simp only [cloneR, idx_node, h.1, if_false, h.2.1, a1, hst, Option.bind_eq_bind, Option.bind_some]
      rw [b1]
      simp only [hsl, Option.bind_some, Bool.false_eq_true, if_false]
      rw [c1]
      simp only [hsr, Option.bind_some, if_true]
    · refine ⟨a4, rd_set_eq hjl3, ?_, c2.set hnur⟩
      refine b2.congr fun x hx => ?_
      have hxj : x ≠ j := fun he => hnul (he ▸ hx)
      simp only
      rw [rd_set_ne hxj, c4 x (by simp [hx])]
      simp only
      rw [rd_set_ne hxj]
    · refine p3.perm ?_
      rw [ids_node]
      simp only [List.append_assoc, List.cons_append]
      refine List.Perm.trans List.perm_append_comm ?_
      simp only [List.append_assoc, List.cons_append]
      refine List.Perm.append_left _ (List.Perm.cons j ?_)
      exact List.perm_append_comm
    · intro x hx
      have hxj : x ≠ j := fun he => a3 (he ▸ hx)
      simp only
      rw [rd_set_ne hxj, c4 x (by simp [hx])]
      simp only
      rw [rd_set_ne hxj, b4 x (by simp [hx])]
      simp only
      rw [rd_set_ne hxj, a7 x hx]
    · simp [lab, b5, c5]
    · simp only [AA] at ha ⊢
      rw [b7, c7, c8]
      exact ⟨ha.1, ha.2.1, b6, c6⟩
    · rw [hr_node, hr_node, c7]
    · simp only [c9, b9, hc1]

/-- A clone holds the same entries, but keeps the number of nodes that the original had ever used. -/
theorem clone_spec {m : Map κ ν} {M : FMap κ ν} (h : Holds cmp m M) :
    ∃ c, Holds cmp c M ∧ c.head = M.length ∧ c.cap = M.length ∧ c.disp = 0 ∧ c.size = m.size ∧ clone true m = some { c with head := m.head } := by
  obtain ⟨t, fs, h⟩ := h
  have hsz := h.size
  have hlt := h.len
  have hcap := h.pool.cap
  have hp0 : Pool (init : Map κ ν) [] [] := ⟨Or.inl ⟨rfl, rfl⟩, by simp [init], rfl, by simp, by simp, rfl, by simp [init]⟩
  obtain ⟨c0, e0, p0, hc0⟩ : ∃ c0 : Map κ ν, withCapacity true m.size = some c0 ∧ Pool c0 [] [] ∧ c0.cap = M.length := by
    by_cases h0 : M.length = 0
    · refine ⟨init, ?_, hp0, by simp [init, h0]⟩
      simp only [withCapacity, hsz, h0]
      rw [reserve_le (by simp)]
      rfl
    · obtain ⟨d, a1, a2, -, -, -⟩ := reserve_ok hp0 (cap := M.length) (by simp [init]; omega) (by omega)
      exact ⟨_, by simp only [withCapacity, hsz, a1, Option.bind_eq_bind, Option.bind_some], a2, rfl⟩
  obtain ⟨m', u, b1, b2, b3, b4, b5, b6, b7, b8, b9⟩ := cloneR_spec (ok := true) (f := m.nodes.length + 1) h.is h.aa h.ord.isSome p0
    (by rw [hc0, h.ord.length]; simp) (by have := h.height_lt; omega)
  simp only [List.append_nil] at b3
  have hhead : m'.head = M.length := by
    have := b3.exact'
    have hl := congrArg List.length b5
    simp only [List.length_map] at hl
    simp only [length_ids, List.length_nil, hl, h.ord.length, Nat.add_zero] at this
    exact this.symm
  refine ⟨{ m' with root := idx u, size := m.size }, ⟨u, [], ⟨⟨b3.mem, b3.cap, b3.free, b3.nodup, b3.le, b3.exact', b3.head⟩, b2, rfl, b6, ⟨b5.trans h.ord.1, h.ord.2⟩, hsz⟩⟩,
    hhead, by rw [b9, hc0], b3.disp, rfl, ?_⟩
  simp only [clone, e0, Option.bind_eq_bind, Option.bind_some, h.root]
  rw [b1]
  rfl

end Verif.Smap
