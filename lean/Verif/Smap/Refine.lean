import Verif.Smap.Order
/-
The node array refines the trees of `Tree`: searching, rotations, insertion and removal.
-/
set_option linter.unusedSimpArgs false
set_option linter.unusedVariables false
namespace Verif.Smap
open T Spec
variable {κ ν : Type}

/-! ### memory -/

theorem rd_lt {α : Type} {d : Buf α} {i : Nat} {x : α} (h : d.rd i = some x) : i < d.length := by
  unfold Buf.rd at h
  by_contra hn
  rw [List.getElem?_eq_none (by omega)] at h
  simp at h

theorem wr_eq {α : Type} {d : Buf α} {i : Nat} {x : α} (h : i < d.length) : d.wr i x = some (d.set i (some x)) := by
  simp [Buf.wr, h]

theorem rd_set_eq {α : Type} {d : Buf α} {i : Nat} {x : α} (h : i < d.length) : Buf.rd (d.set i (some x)) i = some x := by
  simp [Buf.rd, h]

theorem rd_set_ne {α : Type} {d : Buf α} {i j : Nat} {x : Option α} (h : j ≠ i) : Buf.rd (d.set i x) j = d.rd j := by
  simp only [Buf.rd]
  rw [List.getElem?_set_ne (Ne.symm h)]

/-- The array holds the tree. -/
def Is (d : Buf (Node κ ν)) : T κ ν → Prop
  | .nil => True
  | .node i lv l e r => i ≠ 0 ∧ d.rd i = some ⟨idx l, idx r, lv, e⟩ ∧ Is d l ∧ Is d r

/-- The null node. -/
def Sent (d : Buf (Node κ ν)) : Prop := d.rd 0 = some ⟨0, 0, 0, none⟩

/-- Only the nodes `S` may differ. -/
def Frame (d d' : Buf (Node κ ν)) (S : List Nat) : Prop := d'.length = d.length ∧ ∀ j, j ∉ S → d'.rd j = d.rd j

theorem Frame.refl (d : Buf (Node κ ν)) (S : List Nat) : Frame d d S := ⟨rfl, fun _ _ => rfl⟩

theorem Frame.trans {d d' d'' : Buf (Node κ ν)} {S : List Nat} (h : Frame d d' S) (h' : Frame d' d'' S) : Frame d d'' S :=
  ⟨h'.1.trans h.1, fun j hj => (h'.2 j hj).trans (h.2 j hj)⟩

theorem Frame.mono {d d' : Buf (Node κ ν)} {S S' : List Nat} (h : Frame d d' S) (hs : ∀ j ∈ S, j ∈ S') : Frame d d' S' :=
  ⟨h.1, fun j hj => h.2 j fun hc => hj (hs j hc)⟩

theorem Frame.set {d : Buf (Node κ ν)} {i : Nat} {x : Option (Node κ ν)} {S : List Nat} (h : i ∈ S) : Frame d (d.set i x) S :=
  ⟨by simp, fun j hj => rd_set_ne (fun he => hj (he ▸ h))⟩

theorem Is.congr : ∀ {t : T κ ν} {d d' : Buf (Node κ ν)}, Is d t → (∀ j ∈ ids t, d'.rd j = d.rd j) → Is d' t
  | .nil, _, _, _, _ => trivial
  | .node i lv l e r, d, d', h, hf => by
    refine ⟨h.1, ?_, h.2.2.1.congr fun j hj => hf j (by simp [hj]), h.2.2.2.congr fun j hj => hf j (by simp [hj])⟩
    rw [hf i (by simp)]; exact h.2.1

theorem Is.frame {t : T κ ν} {d d' : Buf (Node κ ν)} {S : List Nat} (h : Is d t) (hf : Frame d d' S) (hs : ∀ j ∈ ids t, j ∉ S) :
    Is d' t := h.congr fun j hj => hf.2 j (hs j hj)

theorem Is.set {t : T κ ν} {d : Buf (Node κ ν)} {i : Nat} {x : Option (Node κ ν)} (h : Is d t) (hi : i ∉ ids t) : Is (d.set i x) t :=
  h.congr fun j hj => rd_set_ne (fun he => hi (he ▸ hj))

theorem Is.ne_zero : ∀ {t : T κ ν} {d : Buf (Node κ ν)}, Is d t → ∀ i ∈ ids t, i ≠ 0
  | .nil, _, _, _, h => by simp at h
  | .node i lv l e r, d, h, j, hj => by
    simp only [ids_node, List.mem_append, List.mem_cons] at hj
    rcases hj with hj | rfl | hj
    · exact h.2.2.1.ne_zero j hj
    · exact h.1
    · exact h.2.2.2.ne_zero j hj

theorem Is.idx_eq_zero {t : T κ ν} {d : Buf (Node κ ν)} (h : Is d t) : idx t = 0 ↔ t = .nil := by
  cases t with
  | nil => simp [idx_nil, idx_node]
  | node i lv l e r => simp [idx_nil, idx_node, h.1]

theorem idx_mem {t : T κ ν} (h : t ≠ .nil) : idx t ∈ ids t := by
  cases t with
  | nil => exact absurd rfl h
  | node => simp [idx_nil, idx_node]

theorem Is.rd_lab : ∀ {t : T κ ν} {d : Buf (Node κ ν)}, Is d t → ∀ x ∈ lab t, ∃ n, d.rd x.1 = some n ∧ n.val = x.2
  | .nil, _, _, _, h => by simp [lab] at h
  | .node i lv l e r, d, h, x, hx => by
    simp only [lab, List.mem_append, List.mem_cons] at hx
    rcases hx with hx | rfl | hx
    · exact h.2.2.1.rd_lab x hx
    · exact ⟨_, h.2.1, rfl⟩
    · exact h.2.2.2.rd_lab x hx

theorem Is.load {t : T κ ν} {d : Buf (Node κ ν)} (h : Is d t) {i : Nat} {e : Option (κ × ν)} (hx : (i, e) ∈ lab t) : load d i = e := by
  obtain ⟨n, h1, h2⟩ := h.rd_lab _ hx
  simp only at h1 h2
  simp [Smap.load, h1, h2]

theorem Sent.frame {d d' : Buf (Node κ ν)} {S : List Nat} (h : Sent d) (hf : Frame d d' S) (hs : 0 ∉ S) : Sent d' := by
  unfold Sent; rw [hf.2 0 hs]; exact h

/-- Level of the node that a child index refers to. -/
theorem rd_idx {t : T κ ν} {d : Buf (Node κ ν)} (h : Is d t) (hs : Sent d) :
    ∃ n, d.rd (idx t) = some n ∧ n.lvl = lev t ∧ n.r = idx (right t) ∧ n.l = idx (left t) := by
  cases t with
  | nil => exact ⟨_, hs, rfl, rfl, rfl⟩
  | node i lv l e r => exact ⟨_, h.2.1, rfl, rfl, rfl⟩

theorem Is.right {t : T κ ν} {d : Buf (Node κ ν)} (h : Is d t) : Is d (T.right t) := by
  cases t with
  | nil => trivial
  | node => exact h.2.2.2

theorem setLink_eq {d : Buf (Node κ ν)} {i : Nat} {n : Node κ ν} (h : d.rd i = some n) (dir : Bool) (x : Nat) :
    setLink d i dir x = some (d.set i (some (if dir then { n with r := x } else { n with l := x }))) := by
  simp [setLink, h, wr_eq (rd_lt h)]

/-! ### rotations -/

theorem lev_skewT (t : T κ ν) : lev (skewT t) = lev t := by
  unfold skewT
  split
  · split
    · next h => exact h
    · rfl
  · rfl

theorem skewT_ne_nil {t : T κ ν} (h : t ≠ .nil) : skewT t ≠ .nil := by
  unfold skewT
  split
  · split <;> simp
  · exact h

theorem splitT_ne_nil {t : T κ ν} (h : t ≠ .nil) : splitT t ≠ .nil := by
  unfold splitT
  split
  · split <;> simp
  · exact h

theorem Pos.skewT {t : T κ ν} (h : Pos t) : Pos (skewT t) := by
  unfold T.skewT
  split
  · obtain ⟨h1, ⟨h2, h3, h4⟩, h5⟩ := h
    split
    · exact ⟨h2, h3, h1, h4, h5⟩
    · exact ⟨h1, ⟨h2, h3, h4⟩, h5⟩
  · exact h

theorem Pos.splitT {t : T κ ν} (h : Pos t) : Pos (splitT t) := by
  unfold T.splitT
  split
  · obtain ⟨h1, h2, h3, h4, h5⟩ := h
    split
    · exact ⟨by omega, ⟨h1, h2, h4⟩, h5⟩
    · exact ⟨h1, h2, h3, h4, h5⟩
  · exact h

theorem Pos.onRight {f : T κ ν → T κ ν} (hf : ∀ {t}, Pos t → Pos (f t)) {t : T κ ν} (h : Pos t) : Pos (onRight f t) := by
  cases t with
  | nil => trivial
  | node => exact ⟨h.1, h.2.1, hf h.2.2⟩

theorem Pos.clamp {t : T κ ν} {lv : Nat} (hl : 0 < lv) (h : Pos t) : Pos (T.clamp lv t) := by
  cases t with
  | nil => trivial
  | node => exact ⟨by split; exact hl; exact h.1, h.2.1, h.2.2⟩

theorem Pos.lev {t : T κ ν} (h : Pos t) (hn : t ≠ .nil) : 0 < T.lev t := by
  cases t with
  | nil => exact absurd rfl hn
  | node => exact h.1

theorem skew_spec {t : T κ ν} {d : Buf (Node κ ν)} (h : Is d t) (hs : Sent d) (hn : (ids t).Nodup) (hp : Pos t) :
    ∃ d', skew d (idx t) = some (idx (skewT t), d') ∧ Is d' (skewT t) ∧ Frame d d' (ids t) := by
  cases t with
  | nil => exact ⟨d, by simp [skew, skewT, idx_nil, idx_node], trivial, Frame.refl _ _⟩
  | node i lv l e r =>
    obtain ⟨h0, h1, hl, hr⟩ := h
    obtain ⟨nl, e1, e2, -⟩ := rd_idx hl hs
    by_cases heq : lev l = lv
    · cases l with
      | nil => exact absurd heq (by have := hp.1; simp; omega)
      | node il ll a el b =>
        simp only [lev_node] at heq
        subst heq
        obtain ⟨g0, g1, ga, gb⟩ := hl
        simp only [ids_node, List.nodup_append, List.nodup_cons, List.mem_append, List.mem_cons] at hn
        have hne : il ≠ i := by grind
        refine ⟨(d.set i (some ⟨idx b, idx r, ll, e⟩)).set il (some ⟨idx a, i, ll, el⟩), ?_, ?_, ?_⟩
        rotate_left
        · simp only [skewT, if_true]
          refine ⟨g0, ?_, ?_, h0, ?_, ?_, ?_⟩
          · rw [rd_set_eq (by have := rd_lt g1; simp; omega)]; rfl
          · exact (ga.set (by grind)).set (by grind)
          · rw [rd_set_ne (Ne.symm hne), rd_set_eq (rd_lt h1)]
          · exact (gb.set (by grind)).set (by grind)
          · exact (hr.set (by grind)).set (by grind)
        · exact (Frame.set (by simp)).trans (Frame.set (by simp))
        · simp only [skew, idx_nil, idx_node, h0, ne_eq, not_false_eq_true, if_true, h1, g1, skewT, Option.bind_eq_bind, Option.bind_some]
          have : Buf.rd (d.set i (some ⟨idx b, idx r, ll, e⟩)) il = some ⟨idx a, idx b, ll, el⟩ := by
            rw [rd_set_ne hne]; exact g1
          rw [setLink_eq h1]
          simp only [Option.bind_some, Bool.false_eq_true, if_false]
          rw [setLink_eq this]
          simp
    · refine ⟨d, ?_, ?_, Frame.refl _ _⟩
      · rw [skewT_of_lt heq]
        simp only [skew, idx_nil, idx_node, h0, ne_eq, not_false_eq_true, if_true, h1, e1, Option.bind_eq_bind, Option.bind_some, e2]
        rw [if_neg heq]
      · rw [skewT_of_lt heq]; exact ⟨h0, h1, hl, hr⟩

theorem split_spec {t : T κ ν} {d : Buf (Node κ ν)} (h : Is d t) (hs : Sent d) (hn : (ids t).Nodup) (hp : Pos t) (hne : t ≠ .nil) :
    ∃ d', split d (idx t) = some (idx (splitT t), d') ∧ Is d' (splitT t) ∧ Frame d d' (ids t) := by
  cases t with
  | nil => exact absurd rfl hne
  | node i lv l e r =>
    obtain ⟨h0, h1, hl, hr⟩ := h
    obtain ⟨nr, e1, -, e2, -⟩ := rd_idx hr hs
    obtain ⟨nrr, e3, e4, -⟩ := rd_idx hr.right hs
    by_cases heq : lev (right r) = lv
    · cases r with
      | nil => exact absurd heq (by have := hp.1; simp; omega)
      | node ir lr b er rr =>
        cases rr with
        | nil => exact absurd heq (by have := hp.1; simp; omega)
        | node j lj x ej y =>
          simp only [right_node, lev_node] at heq
          subst heq
          obtain ⟨g0, g1, gb, grr⟩ := hr
          simp only [ids_node, List.nodup_append, List.nodup_cons, List.mem_append, List.mem_cons] at hn
          have hne : ir ≠ i := by grind
          refine ⟨((d.set i (some ⟨idx l, idx b, lj, e⟩)).set ir (some ⟨i, j, lr, er⟩)).set ir (some ⟨i, j, lr + 1, er⟩), ?_, ?_, ?_⟩
          · have r1 : Buf.rd (d.set i (some ⟨idx l, idx b, lj, e⟩)) ir = some ⟨idx b, j, lr, er⟩ := by
              rw [rd_set_ne hne]; exact g1
            have r2 : Buf.rd ((d.set i (some ⟨idx l, idx b, lj, e⟩)).set ir (some ⟨i, j, lr, er⟩)) ir = some ⟨i, j, lr, er⟩ :=
              rd_set_eq (by have := rd_lt g1; simp; omega)
            have e5 : nr = ⟨idx b, j, lr, er⟩ := by
              simp only [idx_nil, idx_node] at e1 g1; rw [g1] at e1; simpa using e1.symm
            have e6 : nrr.lvl = lj := by rw [e4]; rfl
            simp only [split, idx_nil, idx_node, h1, Option.bind_eq_bind, Option.bind_some, g1]
            simp only [right_node, idx_nil, idx_node] at e3
            rw [e3]
            simp only [Option.bind_some]
            rw [if_pos e6, setLink_eq h1]
            simp only [Option.bind_some, if_true]
            rw [setLink_eq r1]
            simp only [Option.bind_some, Bool.false_eq_true, if_false]
            have hinc : incLevel ((d.set i (some ⟨idx l, idx b, lj, e⟩)).set ir (some ⟨i, j, lr, er⟩)) ir =
                some (((d.set i (some ⟨idx l, idx b, lj, e⟩)).set ir (some ⟨i, j, lr, er⟩)).set ir (some ⟨i, j, lr + 1, er⟩)) := by
              simp only [incLevel, r2, Option.bind_eq_bind, Option.bind_some]
              rw [wr_eq (by have := rd_lt g1; simp; omega)]
            rw [hinc]
            simp [splitT, idx_nil, idx_node]
          · simp only [splitT, if_pos rfl, if_true]
            refine ⟨g0, ?_, ⟨h0, ?_, ?_, ?_⟩, ?_⟩
            · rw [rd_set_eq (by have := rd_lt g1; simp; omega)]; rfl
            · rw [rd_set_ne (Ne.symm hne), rd_set_ne (Ne.symm hne), rd_set_eq (rd_lt h1)]
            · exact ((hl.set (by grind)).set (by grind)).set (by grind)
            · exact ((gb.set (by grind)).set (by grind)).set (by grind)
            · have g : ∀ q, q = i ∨ q = ir → q ∉ ids (T.node j lj x ej y) := by
                intro q hq
                simp only [ids_node, List.mem_append, List.mem_cons]
                grind
              exact ((grr.set (g _ (Or.inl rfl))).set (g _ (Or.inr rfl))).set (g _ (Or.inr rfl))
          · exact ((Frame.set (by simp)).trans (Frame.set (by simp))).trans (Frame.set (by simp))
    · refine ⟨d, ?_, ?_, Frame.refl _ _⟩
      · rw [splitT_of_lt heq]
        simp only [split, idx_nil, idx_node, h1, e1, Option.bind_eq_bind, Option.bind_some, e2, e3, e4]
        rw [if_neg heq]
      · rw [splitT_of_lt heq]; exact ⟨h0, h1, hl, hr⟩

/-- Skew, then split. -/
theorem fix_spec {t : T κ ν} {d : Buf (Node κ ν)} (h : Is d t) (hs : Sent d) (hn : (ids t).Nodup) (hp : Pos t) (hne : t ≠ .nil) :
    ∃ d1 d2, skew d (idx t) = some (idx (skewT t), d1) ∧ split d1 (idx (skewT t)) = some (idx (splitT (skewT t)), d2) ∧
      Is d2 (splitT (skewT t)) ∧ Frame d d2 (ids t) := by
  obtain ⟨d1, a1, a2, a3⟩ := skew_spec h hs hn hp
  have h0 : 0 ∉ ids t := fun hc => h.ne_zero 0 hc rfl
  obtain ⟨d2, b1, b2, b3⟩ := split_spec a2 (hs.frame a3 h0) (by simpa using hn) (Pos.skewT hp) (skewT_ne_nil hne)
  exact ⟨d1, d2, a1, b1, b2, a3.trans (by simpa using b3)⟩

/-! ### searching for the place of a key -/

/-- The indices on the way to the place of `k`, last first. -/
def pathT (cmp : κ → κ → Int) (k : κ) : T κ ν → List Nat
  | .nil => []
  | .node j _ l e r =>
    match e with
    | none => [j]
    | some x => if cmp x.1 k < 0 then pathT cmp k r ++ [j] else pathT cmp k l ++ [j]

/-- The last direction. -/
def dirT (cmp : κ → κ → Int) (k : κ) : T κ ν → Bool → Bool
  | .nil, dir => dir
  | .node _ _ l e r, dir =>
    match e with
    | none => dir
    | some x => if cmp x.1 k < 0 then dirT cmp k r true else dirT cmp k l false

theorem descend_none {cmp : κ → κ → Int} (hc : Lawful cmp) {d : Buf (Node κ ν)} {k : κ} : ∀ {t : T κ ν} {M : FMap κ ν} {f : Nat}
    {up : List Nat} {dir : Bool}, Is d t → Ord cmp t M → Spec.find cmp k M = none → height t < f → up.length + height t ≤ 64 →
    descend cmp d k f (idx t) up dir = some (.bottom (pathT cmp k t ++ up) (dirT cmp k t dir))
  | .nil, _, 0, _, _, _, _, _, hf, _ => by simp [height] at hf
  | .nil, _, f + 1, _, _, _, _, _, _, _ => by simp [descend, idx_nil, idx_node, pathT, dirT]
  | .node j lv l eo r, _, 0, _, _, _, _, _, hf, _ => by simp [height] at hf
  | .node j lv l eo r, M, f + 1, up, dir, h, ho, hk, hf, hu => by
    obtain ⟨Ml, e, Mr, rfl, rfl, ol, or', hl, hr, -⟩ := ho.node
    have hne : cmp e.1 k ≠ 0 := find_none.mp hk e (by simp)
    simp only [height] at hf hu
    simp only [descend, idx_nil, idx_node, h.1, ne_eq, not_false_eq_true, if_true, h.2.1, Option.bind_eq_bind, Option.bind_some, guard_pos (show up.length < 64 by omega), if_neg hne, pathT, dirT]
    by_cases hlt : cmp e.1 k < 0
    · rw [find_of_lt hc hl hlt] at hk
      simp only [hlt, decide_true, Node.link, if_true]
      rw [descend_none hc h.2.2.2 or' hk (by omega) (by simp; omega)]
      simp
    · rw [find_of_gt hc hr (by omega)] at hk
      simp only [hlt, decide_false, Node.link, Bool.false_eq_true, if_false]
      rw [descend_none hc h.2.2.1 ol hk (by omega) (by simp; omega)]
      simp

theorem descend_found {cmp : κ → κ → Int} (hc : Lawful cmp) {d : Buf (Node κ ν)} {k : κ} {e0 : κ × ν} : ∀ {t : T κ ν} {M : FMap κ ν} {f : Nat}
    {up : List Nat} {dir : Bool}, Is d t → Ord cmp t M → Spec.find cmp k M = some e0 → height t < f → up.length + height t ≤ 64 →
    ∃ tx, descend cmp d k f (idx t) up dir = some (.found tx) ∧ (tx, some e0) ∈ lab t
  | .nil, M, _, _, _, _, ho, hk, _, _ => by rw [ho.of_nil] at hk; simp [Spec.find] at hk
  | .node j lv l eo r, _, 0, _, _, _, _, _, hf, _ => by simp [height] at hf
  | .node j lv l eo r, M, f + 1, up, dir, h, ho, hk, hf, hu => by
    obtain ⟨Ml, e, Mr, rfl, rfl, ol, or', hl, hr, -⟩ := ho.node
    simp only [height] at hf hu
    simp only [descend, idx_nil, idx_node, h.1, ne_eq, not_false_eq_true, if_true, h.2.1, Option.bind_eq_bind, Option.bind_some, guard_pos (show up.length < 64 by omega)]
    by_cases h0 : cmp e.1 k = 0
    · rw [find_mid hc hl h0] at hk
      simp only [Option.some.injEq] at hk
      subst hk
      exact ⟨j, by simp [h0], by simp [lab]⟩
    · rw [if_neg h0]
      by_cases hlt : cmp e.1 k < 0
      · rw [find_of_lt hc hl hlt] at hk
        simp only [hlt, decide_true, Node.link, if_true]
        obtain ⟨tx, h1, h2⟩ := descend_found hc (f := f) (up := j :: up) (dir := true) h.2.2.2 or' hk (by omega) (by simp; omega)
        exact ⟨tx, h1, by simp [lab, h2]⟩
      · rw [find_of_gt hc hr (by omega)] at hk
        simp only [hlt, decide_false, Node.link, Bool.false_eq_true, if_false]
        obtain ⟨tx, h1, h2⟩ := descend_found hc (f := f) (up := j :: up) (dir := false) h.2.2.1 ol hk (by omega) (by simp; omega)
        exact ⟨tx, h1, by simp [lab, h2]⟩

/-! ### insertion -/

/-- The tree with the new node below the root, before the root is rebalanced. -/
def preT (cmp : κ → κ → Int) (k : κ) (i : Nat) : T κ ν → T κ ν
  | .nil => .nil
  | .node j lv l e r =>
    match e with
    | none => .node j lv l e r
    | some x => if cmp x.1 k < 0 then .node j lv l e (insertT cmp k i r) else .node j lv (insertT cmp k i l) e r

theorem insertT_pre {cmp : κ → κ → Int} {k : κ} {i : Nat} {t : T κ ν} (hn : t ≠ .nil) (hf : ∀ x ∈ lab t, x.2.isSome) :
    insertT cmp k i t = splitT (skewT (preT cmp k i t)) := by
  cases t with
  | nil => exact absurd rfl hn
  | node j lv l e r =>
    cases e with
    | none => have := hf (j, none) (by simp [lab]); simp at this
    | some x => simp only [insertT, preT]; split <;> rfl

theorem idx_preT {cmp : κ → κ → Int} {k : κ} {i : Nat} (t : T κ ν) : idx (preT cmp k i t) = idx t := by
  cases t with
  | nil => rfl
  | node j lv l e r =>
    cases e with
    | none => rfl
    | some x => simp only [preT]; split <;> rfl

theorem lab_insertT_perm {cmp : κ → κ → Int} {k : κ} {i : Nat} : ∀ {t : T κ ν}, (∀ x ∈ lab t, x.2.isSome) →
    (ids (insertT cmp k i t)).Perm (i :: ids t)
  | .nil, _ => by simp [insertT]
  | .node j lv l none r, hf => by have := hf (j, none) (by simp [lab]); simp at this
  | .node j lv l (some x) r, hf => by
    have hl : ∀ y ∈ lab l, y.2.isSome := fun y hy => hf y (by simp [lab, hy])
    have hr : ∀ y ∈ lab r, y.2.isSome := fun y hy => hf y (by simp [lab, hy])
    simp only [insertT]
    split
    · simp only [ids_splitT, ids_skewT, ids_node]
      have := lab_insertT_perm (cmp := cmp) (k := k) (i := i) hr
      refine ((List.Perm.cons j this).append_left (ids l)).trans ?_
      refine (List.Perm.append_left _ (List.Perm.swap i j _)).trans ?_
      exact List.perm_middle
    · simp only [ids_splitT, ids_skewT, ids_node]
      have := lab_insertT_perm (cmp := cmp) (k := k) (i := i) hl
      exact this.append_right _

theorem preT_perm {cmp : κ → κ → Int} {k : κ} {i : Nat} {t : T κ ν} (hn : t ≠ .nil) (hf : ∀ x ∈ lab t, x.2.isSome) :
    (ids (preT cmp k i t)).Perm (i :: ids t) := by
  have h := lab_insertT_perm (cmp := cmp) (k := k) (i := i) hf
  rw [insertT_pre hn hf] at h
  simpa using h

theorem Pos.insertT {cmp : κ → κ → Int} {k : κ} {i : Nat} : ∀ {t : T κ ν}, Pos t → Pos (insertT cmp k i t)
  | .nil, _ => ⟨by omega, trivial, trivial⟩
  | .node j lv l none r, h => h
  | .node j lv l (some x) r, h => by
    simp only [T.insertT]
    split
    · exact Pos.splitT (Pos.skewT ⟨h.1, h.2.1, Pos.insertT h.2.2⟩)
    · exact Pos.splitT (Pos.skewT ⟨h.1, Pos.insertT h.2.1, h.2.2⟩)

theorem Pos.preT {cmp : κ → κ → Int} {k : κ} {i : Nat} {t : T κ ν} (h : Pos t) : Pos (preT cmp k i t) := by
  cases t with
  | nil => trivial
  | node j lv l e r =>
    cases e with
    | none => exact h
    | some x =>
      simp only [Smap.preT]
      split
      · exact ⟨h.1, h.2.1, Pos.insertT h.2.2⟩
      · exact ⟨h.1, Pos.insertT h.2.1, h.2.2⟩

theorem pathT_ne_nil {cmp : κ → κ → Int} {k : κ} {t : T κ ν} (h : t ≠ .nil) : ∃ u rest, pathT cmp k t = u :: rest := by
  cases t with
  | nil => exact absurd rfl h
  | node j lv l e r =>
    cases e with
    | none => exact ⟨_, _, rfl⟩
    | some x =>
      simp only [pathT]
      split
      · cases pathT cmp k r <;> simp
      · cases pathT cmp k l <;> simp

/-- Linking the new node and rebalancing up to the root of `t`, which is not rebalanced yet. -/
theorem ascend_spec {cmp : κ → κ → Int} {k : κ} {i : Nat} : ∀ {t : T κ ν} {d : Buf (Node κ ν)} {u : Nat} {rest : List Nat}
    (outer : List Nat) (dir0 : Bool), t ≠ .nil → (∀ x ∈ lab t, x.2.isSome) → Is d t → Sent d → (ids t).Nodup → Pos t → i ≠ 0 → i ∉ ids t →
    d.rd i = some ⟨0, 0, 1, none⟩ → pathT cmp k t = u :: rest →
    ∃ d1 d3, setLink d u (dirT cmp k t dir0) i = some d1 ∧ ascend d1 (u :: (rest ++ outer)) = ascend d3 (idx t :: outer) ∧
      Is d3 (preT cmp k i t) ∧ Frame d d3 (i :: ids t)
  | .nil, _, _, _, _, _, hn, _, _, _, _, _, _, _, _, _ => absurd rfl hn
  | .node j lv l none r, _, _, _, _, _, _, hf, _, _, _, _, _, _, _, _ => by
    have := hf (j, none) (by simp [lab]); simp at this
  | .node j lv l (some x) r, d, u, rest, outer, dir0, _, hf, h, hs, hnd, hp, hi, hit, hri, hpath => by
    have hlf : ∀ y ∈ lab l, y.2.isSome := fun y hy => hf y (by simp [lab, hy])
    have hrf : ∀ y ∈ lab r, y.2.isSome := fun y hy => hf y (by simp [lab, hy])
    obtain ⟨h0, h1, hl, hr⟩ := h
    simp only [ids_node, List.mem_append, List.mem_cons, not_or] at hit
    simp only [ids_node, List.nodup_append, List.nodup_cons, List.mem_cons] at hnd
    by_cases hlt : cmp x.1 k < 0
    · simp only [pathT, hlt, if_true] at hpath
      simp only [preT, dirT, hlt, if_true, idx_nil, idx_node]
      by_cases hrn : r = .nil
      · subst hrn
        simp only [pathT, List.nil_append, List.cons.injEq] at hpath
        obtain ⟨rfl, rfl⟩ := hpath
        refine ⟨_, _, setLink_eq h1 true i, rfl, ⟨h0, ?_, hl.set (by grind), hi, ?_, trivial, trivial⟩, Frame.set (by simp)⟩
        · rw [rd_set_eq (rd_lt h1)]; rfl
        · rw [rd_set_ne hit.2.1]; exact hri
      · obtain ⟨u', rest', hp'⟩ := pathT_ne_nil (cmp := cmp) (k := k) hrn
        rw [hp'] at hpath
        simp only [List.cons_append, List.cons.injEq] at hpath
        obtain ⟨rfl, rfl⟩ := hpath
        obtain ⟨d1, d3, a1, a2, a3, a4⟩ := ascend_spec (j :: outer) true hrn hrf hr hs hnd.2.1.2 hp.2.2 hi hit.2.2 hri hp'
        have hpp := preT_perm (cmp := cmp) (k := k) (i := i) hrn hrf
        have hnd' : (ids (preT cmp k i r)).Nodup := hpp.nodup_iff.mpr (List.nodup_cons.mpr ⟨hit.2.2, hnd.2.1.2⟩)
        have hs3 : Sent d3 := hs.frame a4 (by
          simp only [List.mem_cons, not_or]; exact ⟨Ne.symm hi, fun hc => hr.ne_zero 0 hc rfl⟩)
        have hpn : preT cmp k i r ≠ .nil := by
          intro hc; rw [hc] at hpp; simp at hpp
        obtain ⟨d4, d5, b1, b2, b3, b4⟩ := fix_spec a3 hs3 hnd' (Pos.preT hp.2.2) hpn
        have b4' : Frame d3 d5 (i :: ids r) := b4.mono fun q hq => hpp.mem_iff.mp hq
        have hf5 : Frame d d5 (i :: ids r) := a4.trans b4'
        have hjS : j ∉ i :: ids r := by simp only [List.mem_cons, not_or]; exact ⟨Ne.symm hit.2.1, hnd.2.1.1⟩
        have hj3 : d3.rd j = some ⟨idx l, idx r, lv, some x⟩ := by rw [a4.2 j hjS]; exact h1
        have hj5 : d5.rd j = some ⟨idx l, idx r, lv, some x⟩ := by rw [hf5.2 j hjS]; exact h1
        refine ⟨d1, d5.set j (some ⟨idx l, idx (insertT cmp k i r), lv, some x⟩), a1, ?_, ?_, ?_⟩
        · have : rest' ++ [j] ++ outer = rest' ++ (j :: outer) := by simp
          rw [this, a2]
          simp only [ascend, hj3, Option.bind_eq_bind, Option.bind_some, beq_self_eq_true]
          rw [idx_preT] at b1
          rw [b1]
          simp only [Option.bind_some]
          rw [b2]
          simp only [Option.bind_some]
          rw [setLink_eq hj5]
          simp only [Option.bind_some, if_true]
          rw [insertT_pre hrn hrf]
        · refine ⟨h0, ?_, ?_, ?_⟩
          · rw [rd_set_eq (rd_lt hj5)]
          · refine (hl.frame hf5 ?_).set (by grind)
            intro q hq hc
            simp only [List.mem_cons] at hc
            rcases hc with rfl | hc
            · exact hit.1 hq
            · exact (hnd.2.2 q hq q (Or.inr hc)) rfl
          · rw [insertT_pre hrn hrf]
            refine b3.set ?_
            rw [ids_splitT, ids_skewT]
            intro hc
            exact hjS (hpp.mem_iff.mp hc)
        · refine Frame.trans (hf5.mono ?_) (Frame.set (by simp))
          intro q hq; simp only [List.mem_cons, ids_node, List.mem_append] at hq ⊢; grind
    · simp only [pathT, hlt, if_false] at hpath
      simp only [preT, dirT, hlt, if_false, idx_nil, idx_node]
      by_cases hln : l = .nil
      · subst hln
        simp only [pathT, List.nil_append, List.cons.injEq] at hpath
        obtain ⟨rfl, rfl⟩ := hpath
        refine ⟨_, _, setLink_eq h1 false i, rfl, ⟨h0, ?_, ⟨hi, ?_, trivial, trivial⟩, hr.set (by grind)⟩, Frame.set (by simp)⟩
        · rw [rd_set_eq (rd_lt h1)]; rfl
        · rw [rd_set_ne hit.2.1]; exact hri
      · obtain ⟨u', rest', hp'⟩ := pathT_ne_nil (cmp := cmp) (k := k) hln
        rw [hp'] at hpath
        simp only [List.cons_append, List.cons.injEq] at hpath
        obtain ⟨rfl, rfl⟩ := hpath
        obtain ⟨d1, d3, a1, a2, a3, a4⟩ := ascend_spec (j :: outer) false hln hlf hl hs hnd.1 hp.2.1 hi hit.1 hri hp'
        have hpp := preT_perm (cmp := cmp) (k := k) (i := i) hln hlf
        have hnd' : (ids (preT cmp k i l)).Nodup := hpp.nodup_iff.mpr (List.nodup_cons.mpr ⟨hit.1, hnd.1⟩)
        have hs3 : Sent d3 := hs.frame a4 (by
          simp only [List.mem_cons, not_or]; exact ⟨Ne.symm hi, fun hc => hl.ne_zero 0 hc rfl⟩)
        have hpn : preT cmp k i l ≠ .nil := by
          intro hc; rw [hc] at hpp; simp at hpp
        obtain ⟨d4, d5, b1, b2, b3, b4⟩ := fix_spec a3 hs3 hnd' (Pos.preT hp.2.1) hpn
        have b4' : Frame d3 d5 (i :: ids l) := b4.mono fun q hq => hpp.mem_iff.mp hq
        have hf5 : Frame d d5 (i :: ids l) := a4.trans b4'
        have hjl : j ∉ ids l := fun hc => hnd.2.2 j hc j (Or.inl rfl) rfl
        have hjS : j ∉ i :: ids l := by simp only [List.mem_cons, not_or]; exact ⟨Ne.symm hit.2.1, hjl⟩
        have hj3 : d3.rd j = some ⟨idx l, idx r, lv, some x⟩ := by rw [a4.2 j hjS]; exact h1
        have hj5 : d5.rd j = some ⟨idx l, idx r, lv, some x⟩ := by rw [hf5.2 j hjS]; exact h1
        have hne : (idx r == idx l) = false := by
          rw [beq_eq_false_iff_ne]
          intro hc
          by_cases hrn : r = .nil
          · rw [hrn] at hc
            exact hln ((hl.idx_eq_zero).mp hc.symm)
          · exact hnd.2.2 (idx l) (idx_mem hln) (idx l) (Or.inr (hc ▸ idx_mem hrn)) rfl
        refine ⟨d1, d5.set j (some ⟨idx (insertT cmp k i l), idx r, lv, some x⟩), a1, ?_, ?_, ?_⟩
        · have : rest' ++ [j] ++ outer = rest' ++ (j :: outer) := by simp
          rw [this, a2]
          simp only [ascend, hj3, Option.bind_eq_bind, Option.bind_some, hne]
          rw [idx_preT] at b1
          rw [b1]
          simp only [Option.bind_some]
          rw [b2]
          simp only [Option.bind_some]
          rw [setLink_eq hj5]
          simp only [Option.bind_some, Bool.false_eq_true, if_false]
          rw [insertT_pre hln hlf]
        · refine ⟨h0, ?_, ?_, ?_⟩
          · rw [rd_set_eq (rd_lt hj5)]
          · rw [insertT_pre hln hlf]
            refine b3.set ?_
            rw [ids_splitT, ids_skewT]
            intro hc
            exact hjS (hpp.mem_iff.mp hc)
          · refine (hr.frame hf5 ?_).set hnd.2.1.1
            intro q hq hc
            simp only [List.mem_cons] at hc
            rcases hc with rfl | hc
            · exact hit.2.2 hq
            · exact (hnd.2.2 q hc q (Or.inr hq)) rfl
        · refine Frame.trans (hf5.mono ?_) (Frame.set (by simp))
          intro q hq; simp only [List.mem_cons, ids_node, List.mem_append] at hq ⊢; grind

theorem linkNew_spec {cmp : κ → κ → Int} {k : κ} {i : Nat} {t : T κ ν} {d : Buf (Node κ ν)}
    (hf : ∀ x ∈ lab t, x.2.isSome) (h : Is d t) (hs : Sent d) (hnd : (ids t).Nodup) (hp : Pos t) (hi : i ≠ 0) (hit : i ∉ ids t)
    (hri : d.rd i = some ⟨0, 0, 1, none⟩) :
    ∃ d', linkNew d i (pathT cmp k t) (dirT cmp k t false) = some (idx (insertT cmp k i t), d') ∧
      Is d' (insertT cmp k i t) ∧ Frame d d' (i :: ids t) := by
  by_cases hn : t = .nil
  · subst hn
    exact ⟨d, rfl, ⟨hi, hri, trivial, trivial⟩, Frame.refl _ _⟩
  · obtain ⟨u, rest, hpath⟩ := pathT_ne_nil (cmp := cmp) (k := k) hn
    obtain ⟨d1, d3, a1, a2, a3, a4⟩ := ascend_spec [] false hn hf h hs hnd hp hi hit hri hpath
    have hpp := preT_perm (cmp := cmp) (k := k) (i := i) hn hf
    have hs3 : Sent d3 := hs.frame a4 (by
      simp only [List.mem_cons, not_or]; exact ⟨Ne.symm hi, fun hc => h.ne_zero 0 hc rfl⟩)
    have hpn : preT cmp k i t ≠ .nil := by
      intro hc; rw [hc] at hpp; simp at hpp
    obtain ⟨d4, d5, b1, b2, b3, b4⟩ := fix_spec a3 hs3 (hpp.nodup_iff.mpr (List.nodup_cons.mpr ⟨hit, hnd⟩)) (Pos.preT hp) hpn
    refine ⟨d5, ?_, ?_, a4.trans (b4.mono fun q hq => hpp.mem_iff.mp hq)⟩
    · rw [hpath]
      simp only [linkNew, a1, Option.bind_eq_bind, Option.bind_some]
      rw [List.append_nil] at a2
      rw [a2]
      simp only [ascend, Option.bind_eq_bind]
      rw [idx_preT] at b1
      rw [b1]
      simp only [Option.bind_some]
      rw [b2, insertT_pre hn hf]
    · rw [insertT_pre hn hf]; exact b3

end Verif.Smap
