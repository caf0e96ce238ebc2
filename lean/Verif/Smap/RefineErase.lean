import Verif.Smap.Refine
/-
The node array refines the trees of `Tree`: removal.
-/
set_option linter.unusedSimpArgs false
set_option linter.unusedVariables false
namespace Verif.Smap
open T Spec
variable {κ ν : Type}

theorem idx_onRight (f : T κ ν → T κ ν) (t : T κ ν) : idx (onRight f t) = idx t := by cases t <;> rfl

theorem ids_onRight {f : T κ ν → T κ ν} (hf : ∀ t, lab (f t) = lab t) (t : T κ ν) : ids (onRight f t) = ids t := by
  simp [ids, lab_onRight hf]

theorem onRight_ne_nil {f : T κ ν → T κ ν} {t : T κ ν} (h : t ≠ .nil) : onRight f t ≠ .nil := by
  cases t with
  | nil => exact absurd rfl h
  | node => simp [onRight]

theorem right_onRight {f : T κ ν → T κ ν} {t : T κ ν} (h : t ≠ .nil) : right (onRight f t) = f (right t) := by
  cases t with
  | nil => exact absurd rfl h
  | node => rfl

theorem skewRight_spec {t : T κ ν} {d : Buf (Node κ ν)} (h : Is d t) (hs : Sent d) (hn : (ids t).Nodup) (hp : Pos t) (hne : t ≠ .nil) :
    ∃ d', skewRight d (idx t) = some (idx (skewT (right t)), d') ∧ Is d' (onRight skewT t) ∧ Frame d d' (ids t) := by
  cases t with
  | nil => exact absurd rfl hne
  | node i lv l e r =>
    obtain ⟨h0, h1, hl, hr⟩ := h
    simp only [ids_node, List.nodup_append, List.nodup_cons, List.mem_cons] at hn
    obtain ⟨d1, a1, a2, a3⟩ := skew_spec hr hs hn.2.1.2 hp.2.2
    have hi : d1.rd i = some ⟨idx l, idx r, lv, e⟩ := by rw [a3.2 i hn.2.1.1]; exact h1
    refine ⟨d1.set i (some ⟨idx l, idx (skewT r), lv, e⟩), ?_, ⟨h0, ?_, ?_, ?_⟩, ?_⟩
    · simp only [skewRight, idx_node, h1, Option.bind_eq_bind, Option.bind_some, a1, right_node]
      rw [setLink_eq hi]
      simp
    · rw [rd_set_eq (rd_lt hi)]
    · exact (hl.frame a3 fun q hq hc => hn.2.2 q hq q (Or.inr hc) rfl).set fun hc => hn.2.2 i hc i (Or.inl rfl) rfl
    · exact a2.set (by rw [ids_skewT]; exact hn.2.1.1)
    · exact (a3.mono (by intro q hq; simp [hq])).trans (Frame.set (by simp))

theorem splitRight_spec {t : T κ ν} {d : Buf (Node κ ν)} (h : Is d t) (hs : Sent d) (hn : (ids t).Nodup) (hp : Pos t)
    (hne : right t ≠ .nil) :
    ∃ d', splitRight d (idx t) = some d' ∧ Is d' (onRight splitT t) ∧ Frame d d' (ids t) := by
  cases t with
  | nil => exact absurd rfl hne
  | node i lv l e r =>
    obtain ⟨h0, h1, hl, hr⟩ := h
    simp only [ids_node, List.nodup_append, List.nodup_cons, List.mem_cons] at hn
    obtain ⟨d1, a1, a2, a3⟩ := split_spec hr hs hn.2.1.2 hp.2.2 hne
    have hi : d1.rd i = some ⟨idx l, idx r, lv, e⟩ := by rw [a3.2 i hn.2.1.1]; exact h1
    refine ⟨d1.set i (some ⟨idx l, idx (splitT r), lv, e⟩), ?_, ⟨h0, ?_, ?_, ?_⟩, ?_⟩
    · simp only [splitRight, idx_node, h1, Option.bind_eq_bind, Option.bind_some, a1, right_node]
      rw [setLink_eq hi]
      simp
    · rw [rd_set_eq (rd_lt hi)]
    · exact (hl.frame a3 fun q hq hc => hn.2.2 q hq q (Or.inr hc) rfl).set fun hc => hn.2.2 i hc i (Or.inl rfl) rfl
    · exact a2.set (by rw [ids_splitT]; exact hn.2.1.1)
    · exact (a3.mono (by intro q hq; simp [hq])).trans (Frame.set (by simp))

theorem lower_spec {i lv : Nat} {l : T κ ν} {e : Option (κ × ν)} {r : T κ ν} {d : Buf (Node κ ν)} (h : Is d (.node i lv l e r)) (hs : Sent d)
    (hn : (ids (T.node i lv l e r)).Nodup) :
    ∃ d', lower d i (idx r) = some d' ∧ Is d' (.node i (lv - 1) l e (clamp (lv - 1) r)) ∧ Frame d d' (ids (T.node i lv l e r)) := by
  obtain ⟨h0, h1, hl, hr⟩ := h
  simp only [ids_node, List.nodup_append, List.nodup_cons, List.mem_cons] at hn
  have hil : i ∉ ids l := fun hc => hn.2.2 i hc i (Or.inl rfl) rfl
  have hi := rd_lt h1
  have hr1 : Is (d.set i (some ⟨idx l, idx r, lv - 1, e⟩)) r := hr.set hn.2.1.1
  have hl1 : Is (d.set i (some ⟨idx l, idx r, lv - 1, e⟩)) l := hl.set hil
  cases r with
  | nil =>
    refine ⟨d.set i (some ⟨idx l, 0, lv - 1, e⟩), ?_, ⟨h0, ?_, hl1, trivial⟩, Frame.set (by simp)⟩
    · have : Buf.rd (d.set i (some ⟨idx l, 0, lv - 1, e⟩)) 0 = some ⟨0, 0, 0, none⟩ := by
        rw [rd_set_ne (Ne.symm h0)]; exact hs
      simp only [lower, h1, Option.bind_eq_bind, Option.bind_some, wr_eq hi, idx_nil, this]
      simp
    · rw [rd_set_eq hi]; rfl
  | node ir lr b er rr =>
    obtain ⟨g0, g1, gb, grr⟩ := hr1
    simp only [idx_node] at g1 gb grr hl1
    simp only [ids_node, List.nodup_append, List.nodup_cons, List.mem_cons, List.mem_append] at hn
    have hne : ir ≠ i := by grind
    by_cases hgt : lr > lv - 1
    · refine ⟨(d.set i (some ⟨idx l, ir, lv - 1, e⟩)).set ir (some ⟨idx b, idx rr, lv - 1, er⟩), ?_, ⟨h0, ?_, ?_, g0, ?_, ?_, ?_⟩, ?_⟩
      · simp only [lower, h1, Option.bind_eq_bind, Option.bind_some, wr_eq hi, idx_node]
        rw [g1]
        simp only [Option.bind_some]
        rw [if_pos hgt, wr_eq (rd_lt g1)]
      · rw [rd_set_ne (Ne.symm hne), rd_set_eq hi]; rfl
      · exact hl1.set (by grind)
      · rw [rd_set_eq (rd_lt g1)]; simp [hgt]
      · exact gb.set (by grind)
      · exact grr.set (by grind)
      · exact (Frame.set (by simp)).trans (Frame.set (by simp))
    · refine ⟨d.set i (some ⟨idx l, ir, lv - 1, e⟩), ?_, ⟨h0, ?_, hl1, g0, ?_, gb, grr⟩, Frame.set (by simp)⟩
      · simp only [lower, h1, Option.bind_eq_bind, Option.bind_some, wr_eq hi, idx_node]
        rw [g1]
        simp only [Option.bind_some]
        rw [if_neg hgt]
      · rw [rd_set_eq hi]; rfl
      · rw [if_neg hgt]; exact g1

theorem Is.right_replace {t : T κ ν} {f : T κ ν → T κ ν} {d d' : Buf (Node κ ν)} (h : Is d t) (hne : t ≠ .nil) (hn : (ids t).Nodup)
    (hi : idx (f (T.right t)) = idx (T.right t)) (h' : Is d' (f (T.right t))) (hf : Frame d d' (ids (T.right t))) : Is d' (onRight f t) := by
  cases t with
  | nil => trivial
  | node i lv l e r =>
    simp only [ids_node, List.nodup_append, List.nodup_cons, List.mem_cons] at hn
    simp only [right_node] at hi h' hf
    refine ⟨h.1, ?_, h.2.2.1.frame hf fun q hq hc => hn.2.2 q hq q (Or.inr hc) rfl, h'⟩
    rw [hf.2 i hn.2.1.1, hi]; exact h.2.1

theorem rebal_aa {t : T κ ν} {d : Buf (Node κ ν)} (h : Is d t) (hs : Sent d) (ha : AA t) :
    rebalance d (idx t) = some (idx t, d) := by
  cases t with
  | nil =>
    simp only [rebalance, idx_nil]
    rw [show d.rd 0 = some ⟨0, 0, 0, none⟩ from hs]
    simp only [Option.bind_eq_bind, Option.bind_some]
    rw [show d.rd 0 = some ⟨0, 0, 0, none⟩ from hs]
    simp
  | node i lv l e r =>
    obtain ⟨nl, e1, e2, -⟩ := rd_idx h.2.2.1 hs
    obtain ⟨nr, e3, e4, -⟩ := rd_idx h.2.2.2 hs
    simp only [rebalance, idx_node, h.2.1, Option.bind_eq_bind, Option.bind_some, e1, e3, e2, e4]
    rw [if_neg]
    have := ha.1
    rcases ha.2.1 with h | h <;> omega

theorem rebal_spec {i lv : Nat} {l : T κ ν} {e : Option (κ × ν)} {r : T κ ν} {d : Buf (Node κ ν)} (h : Is d (.node i lv l e r)) (hs : Sent d)
    (hn : (ids (T.node i lv l e r)).Nodup) (hp : Pos (T.node i lv l e r))
    (hc : AA (T.node i lv l e r) ∨ (lev l + 1 < lv ∨ lev r + 1 < lv) ∧ Shapes i lv l e r) :
    ∃ d', rebalance d i = some (idx (rebalT (.node i lv l e r)), d') ∧ Is d' (rebalT (.node i lv l e r)) ∧
      Frame d d' (ids (T.node i lv l e r)) := by
  rcases hc with ha | ⟨hcond, s1, s2⟩
  · rw [rebalT_of_aa ha]
    exact ⟨d, rebal_aa h hs ha, h, Frame.refl _ _⟩
  · have h0S : 0 ∉ ids (T.node i lv l e r) := fun hc => h.ne_zero 0 hc rfl
    obtain ⟨nl, e1, e2, -⟩ := rd_idx h.2.2.1 hs
    obtain ⟨nr, e3, e4, -⟩ := rd_idx h.2.2.2 hs
    obtain ⟨d1, a1, a2, a3⟩ := lower_spec h hs hn
    have hlv : 0 < lv - 1 := by omega
    generalize ht1 : T.node i (lv - 1) l e (clamp (lv - 1) r) = t1 at *
    have ids1 : ids t1 = ids (T.node i lv l e r) := by rw [← ht1]; simp [ids, lab]
    have p1 : Pos t1 := by rw [← ht1]; exact ⟨hlv, hp.2.1, Pos.clamp hlv hp.2.2⟩
    have i1 : idx t1 = i := by rw [← ht1]; rfl
    have ne1 : t1 ≠ .nil := by rw [← ht1]; simp
    have n1 : (ids t1).Nodup := by rw [ids1]; exact hn
    -- skew
    obtain ⟨d2, b1, b2, b3⟩ := skew_spec a2 (hs.frame a3 h0S) n1 p1
    rw [ids1] at b3
    have f2 := a3.trans b3
    generalize ht2 : skewT t1 = t2 at *
    have ids2 : ids t2 = ids (T.node i lv l e r) := by rw [← ht2, ids_skewT, ids1]
    have p2 : Pos t2 := by rw [← ht2]; exact Pos.skewT p1
    have ne2 : t2 ≠ .nil := by rw [← ht2]; exact skewT_ne_nil ne1
    have n2 : (ids t2).Nodup := by rw [ids2]; exact hn
    -- skew right
    obtain ⟨d3, c1, c2, c3⟩ := skewRight_spec b2 (hs.frame f2 h0S) n2 p2 ne2
    rw [ids2] at c3
    have f3 := f2.trans c3
    have ir3 : idx (skewT (right t2)) = idx (right (onRight skewT t2)) := by rw [right_onRight ne2]
    have rn3 : right (onRight skewT t2) ≠ .nil := by rw [right_onRight ne2]; exact skewT_ne_nil s1
    have i3 : idx (onRight skewT t2) = idx t2 := idx_onRight _ _
    generalize ht3 : onRight skewT t2 = t3 at *
    have ids3 : ids t3 = ids (T.node i lv l e r) := by rw [← ht3, ids_onRight lab_skewT, ids2]
    have p3 : Pos t3 := by rw [← ht3]; exact Pos.onRight Pos.skewT p2
    have ne3 : t3 ≠ .nil := by rw [← ht3]; exact onRight_ne_nil ne2
    have n3 : (ids t3).Nodup := by rw [ids3]; exact hn
    have sub3 : ∀ q ∈ ids (right t3), q ∈ ids t3 := by
      intro q hq
      cases t3 with
      | nil => exact absurd rfl ne3
      | node => simp at hq; simp [hq]
    have nr3 : (ids (right t3)).Nodup := by
      cases t3 with
      | nil => exact absurd rfl ne3
      | node => simp only [ids_node, List.nodup_append, List.nodup_cons] at n3; exact n3.2.1.2
    have pr3 : Pos (right t3) := by
      cases t3 with
      | nil => exact absurd rfl ne3
      | node => exact p3.2.2
    -- skew right right
    obtain ⟨d4, g1, g2, g3⟩ := skewRight_spec (c2.right) (hs.frame f3 h0S) nr3 pr3 rn3
    have c4 := Is.right_replace (f := onRight skewT) c2 ne3 n3 (idx_onRight _ _) g2 g3
    have f4 := f3.trans (g3.mono (S' := ids (T.node i lv l e r)) fun q hq => by rw [← ids3]; exact sub3 q hq)
    have i4 : idx (onRight (onRight skewT) t3) = idx t3 := idx_onRight _ _
    generalize ht4 : onRight (onRight skewT) t3 = t4 at *
    have ids4 : ids t4 = ids (T.node i lv l e r) := by rw [← ht4, ids_onRight (lab_onRight lab_skewT), ids3]
    have p4 : Pos t4 := by rw [← ht4]; exact Pos.onRight (Pos.onRight Pos.skewT) p3
    have ne4 : t4 ≠ .nil := by rw [← ht4]; exact onRight_ne_nil ne3
    have n4 : (ids t4).Nodup := by rw [ids4]; exact hn
    -- split
    obtain ⟨d5, k1, k2, k3⟩ := split_spec c4 (hs.frame f4 h0S) n4 p4 ne4
    rw [ids4] at k3
    have f5 := f4.trans k3
    generalize ht5 : splitT t4 = t5 at *
    have ids5 : ids t5 = ids (T.node i lv l e r) := by rw [← ht5, ids_splitT, ids4]
    have p5 : Pos t5 := by rw [← ht5]; exact Pos.splitT p4
    -- split right
    obtain ⟨d6, l1, l2, l3⟩ := splitRight_spec k2 (hs.frame f5 h0S) (by rw [ids5]; exact hn) p5 s2
    rw [ids5] at l3
    have er : rebalT (.node i lv l e r) = onRight splitT t5 := by
      simp only [rebalT]; rw [if_pos hcond, ht1, ht2, ht3, ht4, ht5]
    rw [er, idx_onRight]
    refine ⟨d6, ?_, l2, f5.trans l3⟩
    simp only [rebalance, h.2.1, Option.bind_eq_bind, Option.bind_some, e1, e3, e2, e4]
    rw [if_pos hcond]
    rw [i1] at b1
    rw [i4, i3] at k1
    rw [ir3] at c1
    simp only [a1, b1, c1, g1, k1, l1, Option.bind_some]

/-! ### the ends -/

theorem outermost_right {d : Buf (Node κ ν)} : ∀ {t : T κ ν} {f : Nat}, Is d t → t ≠ .nil → height t ≤ f →
    ∃ A j e, outermost d true f (idx t) = some j ∧ lab t = A ++ [(j, e)]
  | .nil, _, _, h, _ => absurd rfl h
  | .node j lv l e r, 0, _, _, hf => by simp [height] at hf
  | .node j lv l e r, f + 1, h, _, hf => by
    simp only [height] at hf
    simp only [outermost, idx_node, h.2.1, Option.bind_eq_bind, Option.bind_some, Node.link, if_true]
    by_cases hr : r = .nil
    · subst hr
      exact ⟨lab l, j, e, by simp, by simp [lab]⟩
    · have : idx r ≠ 0 := fun hc => hr ((h.2.2.2.idx_eq_zero).mp hc)
      rw [if_pos this]
      obtain ⟨A, j', e', h1, h2⟩ := outermost_right (f := f) h.2.2.2 hr (by omega)
      exact ⟨lab l ++ (j, e) :: A, j', e', h1, by simp [lab, h2]⟩

theorem outermost_left {d : Buf (Node κ ν)} : ∀ {t : T κ ν} {f : Nat}, Is d t → t ≠ .nil → height t ≤ f →
    ∃ A j e, outermost d false f (idx t) = some j ∧ lab t = (j, e) :: A
  | .nil, _, _, h, _ => absurd rfl h
  | .node j lv l e r, 0, _, _, hf => by simp [height] at hf
  | .node j lv l e r, f + 1, h, _, hf => by
    simp only [height] at hf
    simp only [outermost, idx_node, h.2.1, Option.bind_eq_bind, Option.bind_some, Node.link, Bool.false_eq_true, if_false]
    by_cases hl : l = .nil
    · subst hl
      exact ⟨lab r, j, e, by simp, by simp [lab]⟩
    · have : idx l ≠ 0 := fun hc => hl ((h.2.2.1.idx_eq_zero).mp hc)
      rw [if_pos this]
      obtain ⟨A, j', e', h1, h2⟩ := outermost_left (f := f) h.2.2.1 hl (by omega)
      exact ⟨A ++ (j, e) :: lab r, j', e', h1, by simp [lab, h2]⟩

/-! ### removal -/

theorem Removed.perm {k : κ} {cmp : κ → κ → Int} {t u : T κ ν} {x : Nat} {M : FMap κ ν} (h : Removed k cmp t u x M) :
    (ids t).Perm (x :: ids u) := by
  obtain ⟨A, i, e, B, h1, -, -, h3⟩ := h
  simp only [ids]
  rw [h1]
  rcases h3 with ⟨rfl, h3⟩ | ⟨-, A', ex, rfl, h3⟩
  · rw [h3]; simp only [List.map_append, List.map_cons]; exact List.perm_middle
  · rw [h3]; simp only [List.map_append, List.map_cons, List.map_nil, List.append_assoc, List.cons_append, List.nil_append]
    exact List.perm_middle

theorem setLink_ids {d : Buf (Node κ ν)} {i : Nat} {n : Node κ ν} (h : d.rd i = some n) (dir : Bool) (x : Nat) (hx : n.link dir = x) :
    ∃ d', setLink d i dir x = some d' ∧ d'.length = d.length ∧ ∀ j, d'.rd j = d.rd j := by
  refine ⟨_, setLink_eq h dir x, by simp, ?_⟩
  intro j
  by_cases hj : j = i
  · subst hj
    rw [rd_set_eq (rd_lt h), h]
    subst hx
    cases dir <;> simp [Node.link]
  · exact rd_set_ne hj

theorem eraseR_none {cmp : κ → κ → Int} (hc : Lawful cmp) : ∀ {t : T κ ν} {M : FMap κ ν} {k : κ} {f : Nat} {d : Buf (Node κ ν)} {disp er : Nat},
    Is d t → Sent d → AA t → Ord cmp t M → height t < f → Spec.find cmp k M = none →
    ∃ d', eraseR cmp f d disp (idx t) k er = some ⟨idx t, d', disp, er, []⟩ ∧ d'.length = d.length ∧ ∀ j, d'.rd j = d.rd j
  | .nil, _, _, 0, _, _, _, _, _, _, _, hf, _ => by simp [height] at hf
  | .nil, _, _, f + 1, d, _, _, _, _, _, _, _, _ => ⟨d, by simp [eraseR], rfl, fun _ => rfl⟩
  | .node i lv l eo r, _, _, 0, _, _, _, _, _, _, _, hf, _ => by simp [height] at hf
  | .node i lv l eo r, M, k, f + 1, d, disp, er, h, hs, ha, ho, hf, hk => by
    obtain ⟨Ml, e, Mr, rfl, rfl, ol, or', hl, hr, -⟩ := ho.node
    have hne : cmp e.1 k ≠ 0 := find_none.mp hk e (by simp)
    simp only [height] at hf
    simp only [eraseR, idx_node, h.1, if_false, h.2.1, Option.bind_eq_bind, Option.bind_some]
    rw [if_pos hne]
    by_cases hlt : cmp e.1 k < 0
    · rw [find_of_lt hc hl hlt] at hk
      simp only [hlt, decide_true, Node.link, if_true]
      obtain ⟨d1, a1, a2, a3⟩ := eraseR_none hc (disp := disp) (er := er) h.2.2.2 hs ha.2.2.2 or' (show height r < f by omega) hk
      have hi : d1.rd i = some ⟨idx l, idx r, lv, some e⟩ := by rw [a3]; exact h.2.1
      obtain ⟨d2, b1, b2, b3⟩ := setLink_ids hi true (idx r) rfl
      have hI : Is d2 (.node i lv l (some e) r) := h.congr fun j _ => by rw [b3, a3]
      have hS : Sent d2 := by unfold Sent; rw [b3, a3]; exact hs
      have := rebal_aa hI hS ha
      simp only [idx_node] at this
      refine ⟨d2, ?_, b2.trans a2, fun j => (b3 j).trans (a3 j)⟩
      simp [a1, b1, this]
    · rw [find_of_gt hc hr (by omega)] at hk
      simp only [hlt, decide_false, Node.link, Bool.false_eq_true, if_false]
      obtain ⟨d1, a1, a2, a3⟩ := eraseR_none hc (disp := disp) (er := er) h.2.2.1 hs ha.2.2.1 ol (show height l < f by omega) hk
      have hi : d1.rd i = some ⟨idx l, idx r, lv, some e⟩ := by rw [a3]; exact h.2.1
      obtain ⟨d2, b1, b2, b3⟩ := setLink_ids hi false (idx l) rfl
      have hI : Is d2 (.node i lv l (some e) r) := h.congr fun j _ => by rw [b3, a3]
      have hS : Sent d2 := by unfold Sent; rw [b3, a3]; exact hs
      have := rebal_aa hI hS ha
      simp only [idx_node] at this
      refine ⟨d2, ?_, b2.trans a2, fun j => (b3 j).trans (a3 j)⟩
      simp [a1, b1, this]

theorem eraseR_some {cmp : κ → κ → Int} (hc : Lawful cmp) : ∀ {t : T κ ν} {M : FMap κ ν} {k : κ} {f : Nat} {d : Buf (Node κ ν)} {disp er : Nat}
    {u : T κ ν} {x : Nat} {e0 : κ × ν},
    Is d t → Sent d → (ids t).Nodup → AA t → Ord cmp t M → height t < f → height t ≤ d.length → eraseT cmp t k = some (u, x) → Spec.find cmp k M = some e0 →
    ∃ d' er' n, eraseR cmp f d disp (idx t) k er = some ⟨idx u, d', x, er', if er = 0 then valueDrop e0 else []⟩ ∧ er < er' ∧
      Is d' u ∧ Frame d d' (ids t) ∧ d'.rd x = some n ∧ n.r = disp
  | .nil, _, _, _, _, _, _, _, _, _, _, _, _, _, _, _, _, he, _ => by simp [eraseT] at he
  | .node i lv l eo r, _, _, 0, _, _, _, _, _, _, _, _, _, _, _, hf, _, _, _ => by simp [height] at hf
  | .node i lv l eo r, M, k, f + 1, d, disp, er, u, x, e0, h, hs, hn, ha, ho, hf, hd, he, hk => by
    have hrem := lab_eraseT hc k ho
    rw [he] at hrem
    simp only at hrem
    obtain ⟨Ml, e, Mr, rfl, rfl, ol, or', hl, hr, -⟩ := ho.node
    have hperm := hrem.perm
    have h0S : 0 ∉ ids (T.node i lv l (some e) r) := fun hc => h.ne_zero 0 hc rfl
    have hxu := (List.nodup_cons.mp (hperm.nodup_iff.mp hn))
    simp only [height] at hf hd
    have hn0 := hn
    simp only [ids_node, List.nodup_append, List.nodup_cons, List.mem_cons] at hn
    obtain ⟨h0, h1, hL, hR⟩ := h
    have hil : i ∉ ids l := fun hc => hn.2.2 i hc i (Or.inl rfl) rfl
    have hir : i ∉ ids r := hn.2.1.1
    have hlr : ∀ q ∈ ids l, q ∉ ids r := fun q hq hc => hn.2.2 q hq q (Or.inr hc) rfl
    simp only [eraseR, idx_node, h0, if_false, h1, Option.bind_eq_bind, Option.bind_some]
    simp only [eraseT] at he
    by_cases hlt : cmp e.1 k < 0
    · rw [if_pos hlt] at he
      obtain ⟨⟨r', x'⟩, he', e1⟩ := Option.map_eq_some_iff.mp he
      simp only [Prod.mk.injEq] at e1
      obtain ⟨rfl, rfl⟩ := e1
      rw [find_of_lt hc hl hlt] at hk
      rw [if_pos (show cmp e.1 k ≠ 0 by omega)]
      simp only [hlt, decide_true, Node.link, if_true]
      obtain ⟨d1, er', n, a1, a2, a3, a4, a5, a6⟩ := eraseR_some hc (disp := disp) (er := er) hR hs hn.2.1.2 ha.2.2.2 or' (show height r < f by omega) (by omega) he' hk
      have hsh := shrunk_right (j := i) (lv := lv) (l := l) (e := some e) ha (shrunk_eraseT cmp ha.2.2.2 he')
      have hi : d1.rd i = some ⟨idx l, idx r, lv, some e⟩ := by rw [a4.2 i hir]; exact h1
      have hxi : x' ≠ i := by
        rintro rfl
        exact hxu.1 (by simp)
      have hidsu : ∀ q ∈ ids r', q ∈ ids r := by
        have hre := lab_eraseT hc k or'
        rw [he'] at hre
        exact fun q hq => (hre.perm).mem_iff.mpr (by simp [hq])
      have hI : Is (d1.set i (some ⟨idx l, idx r', lv, some e⟩)) (.node i lv l (some e) r') := by
        refine ⟨h0, rd_set_eq (rd_lt hi), (hL.frame a4 hlr).set hil, a3.set fun hc => hir (hidsu i hc)⟩
      have f1 : Frame d (d1.set i (some ⟨idx l, idx r', lv, some e⟩)) (ids (T.node i lv l (some e) r)) :=
        (a4.mono (by intro q hq; simp [hq])).trans (Frame.set (by simp))
      have hnu : (ids (T.node i lv l (some e) r')).Nodup := by rw [← ids_rebalT]; exact hxu.2
      obtain ⟨d3, b1, b2, b3⟩ := rebal_spec hI (hs.frame f1 h0S) hnu
        ⟨by have := ha.1; omega, ha.2.2.1.pos, (shrunk_eraseT cmp ha.2.2.2 he').1.pos⟩ hsh.2
      refine ⟨d3, er', n, ?_, a2, b2, f1.trans (b3.mono ?_), ?_, a6⟩
      · simp only [a1, Option.bind_some, setLink_eq hi, if_true, b1]
      · intro q hq
        simp only [ids_node, List.mem_append, List.mem_cons] at hq ⊢
        rcases hq with hq | hq | hq
        · exact Or.inl hq
        · exact Or.inr (Or.inl hq)
        · exact Or.inr (Or.inr (hidsu q hq))
      · rw [b3.2 x' (by rw [← ids_rebalT]; exact hxu.1), rd_set_ne hxi]; exact a5
    · rw [if_neg hlt] at he
      by_cases hne : cmp e.1 k ≠ 0
      · rw [if_pos hne] at he
        have hgt : 0 < cmp e.1 k := by omega
        obtain ⟨⟨l', x'⟩, he', e1⟩ := Option.map_eq_some_iff.mp he
        simp only [Prod.mk.injEq] at e1
        obtain ⟨rfl, rfl⟩ := e1
        rw [find_of_gt hc hr hgt] at hk
        rw [if_pos hne]
        simp only [hlt, decide_false, Node.link, Bool.false_eq_true, if_false]
        obtain ⟨d1, er', n, a1, a2, a3, a4, a5, a6⟩ := eraseR_some hc (disp := disp) (er := er) hL hs hn.1 ha.2.2.1 ol (show height l < f by omega) (by omega) he' hk
        have hsh := shrunk_left (j := i) (lv := lv) (r := r) (e := some e) (some e) ha (shrunk_eraseT cmp ha.2.2.1 he')
        have hi : d1.rd i = some ⟨idx l, idx r, lv, some e⟩ := by rw [a4.2 i hil]; exact h1
        have hxi : x' ≠ i := by
          rintro rfl
          exact hxu.1 (by simp)
        have hidsu : ∀ q ∈ ids l', q ∈ ids l := by
          have hre := lab_eraseT hc k ol
          rw [he'] at hre
          exact fun q hq => (hre.perm).mem_iff.mpr (by simp [hq])
        have hI : Is (d1.set i (some ⟨idx l', idx r, lv, some e⟩)) (.node i lv l' (some e) r) := by
          refine ⟨h0, rd_set_eq (rd_lt hi), a3.set fun hc => hil (hidsu i hc), (hR.frame a4 fun q hq hc => hlr q hc hq).set hir⟩
        have f1 : Frame d (d1.set i (some ⟨idx l', idx r, lv, some e⟩)) (ids (T.node i lv l (some e) r)) :=
          (a4.mono (by intro q hq; simp [hq])).trans (Frame.set (by simp))
        have hnu : (ids (T.node i lv l' (some e) r)).Nodup := by rw [← ids_rebalT]; exact hxu.2
        obtain ⟨d3, b1, b2, b3⟩ := rebal_spec hI (hs.frame f1 h0S) hnu
          ⟨by have := ha.1; omega, (shrunk_eraseT cmp ha.2.2.1 he').1.pos, ha.2.2.2.pos⟩ hsh.2
        refine ⟨d3, er', n, ?_, a2, b2, f1.trans (b3.mono ?_), ?_, a6⟩
        · simp only [a1, Option.bind_some, setLink_eq hi, Bool.false_eq_true, if_false, b1]
        · intro q hq
          simp only [ids_node, List.mem_append, List.mem_cons] at hq ⊢
          rcases hq with hq | hq | hq
          · exact Or.inl (hidsu q hq)
          · exact Or.inr (Or.inl hq)
          · exact Or.inr (Or.inr hq)
        · rw [b3.2 x' (by rw [← ids_rebalT]; exact hxu.1), rd_set_ne hxi]; exact a5
      · rw [if_neg hne] at he
        have h0c : cmp e.1 k = 0 := by omega
        rw [find_mid hc hl h0c] at hk
        simp only [Option.some.injEq] at hk
        subst hk
        rw [if_neg hne]
        cases l with
        | nil =>
          simp only [eraseRoot, Option.some.injEq, Prod.mk.injEq] at he
          obtain ⟨rfl, rfl⟩ := he
          rw [if_neg (by simp)]
          have f1 : Frame d (d.set i (some ⟨0, disp, lv, some e⟩)) (ids (T.node i lv .nil (some e) r)) := Frame.set (by simp)
          have hI : Is (d.set i (some ⟨0, disp, lv, some e⟩)) r := hR.set hir
          refine ⟨d.set i (some ⟨0, disp, lv, some e⟩), er + 1, _, ?_, by omega, hI, f1, rd_set_eq (rd_lt h1), rfl⟩
          have hb := rebal_aa hI (hs.frame f1 h0S) ha.2.2.2
          simp only [idx_nil, wr_eq (rd_lt h1), Option.bind_some, Node.link, beq_self_eq_true, if_true, hb]
        | node jl ll a el b =>
          cases r with
          | nil =>
            simp only [eraseRoot, Option.some.injEq, Prod.mk.injEq] at he
            obtain ⟨rfl, rfl⟩ := he
            rw [if_neg (by simp)]
            have f1 : Frame d (d.set i (some ⟨jl, disp, lv, some e⟩)) (ids (T.node i lv (.node jl ll a el b) (some e) .nil)) := Frame.set (by simp)
            have hI : Is (d.set i (some ⟨jl, disp, lv, some e⟩)) (.node jl ll a el b) := hL.set hil
            refine ⟨d.set i (some ⟨jl, disp, lv, some e⟩), er + 1, _, ?_, by omega, hI, f1, rd_set_eq (rd_lt h1), rfl⟩
            have hb := rebal_aa hI (hs.frame f1 h0S) ha.2.2.1
            have hjl : (jl == 0) = false := by simpa using hL.1
            simp only [idx_node] at hb
            simp only [idx_node, idx_nil, wr_eq (rd_lt h1), Option.bind_some, Node.link, hjl, Bool.false_eq_true, if_false, hb]
          | node jr lr c er2 dd =>
            simp only [eraseRoot] at he
            obtain ⟨M', em, A, jm, eM, e2, e3⟩ := maxE_spec ol (by simp)
            rw [e2] at he
            simp only at he
            obtain ⟨⟨l', x'⟩, he', e1⟩ := Option.map_eq_some_iff.mp he
            simp only [Prod.mk.injEq] at e1
            obtain ⟨rfl, rfl⟩ := e1
            rw [if_pos ⟨by simpa using hL.1, by simpa using hR.1⟩]
            obtain ⟨A2, j2, eo2, o1, o2⟩ := outermost_right (f := d.length + 1) hL (by simp) (by omega)
            have hj2 : load d j2 = some em := by
              rw [e3] at o2
              have := List.append_inj' o2 rfl
              simp at this
              obtain ⟨-, rfl, rfl⟩ := this
              exact hL.load (i := jm) (by rw [e3]; simp)
            simp only [idx_node] at o1
            simp only [idx_node, o1, Option.bind_some, hj2, wr_eq (rd_lt h1)]
            set d0 := d.set i (some (⟨jl, jr, lv, some em⟩ : Node κ ν)) with hd0
            have f0 : Frame d d0 (ids (T.node i lv (.node jl ll a el b) (some e) (.node jr lr c er2 dd))) := Frame.set (by simp)
            have hL0 : Is d0 (.node jl ll a el b) := hL.set hil
            have hR0 : Is d0 (.node jr lr c er2 dd) := hR.set hir
            have hem : Spec.find cmp em.1 Ml = some em := by
              rw [eM]
              have asc := ol.2
              rw [eM] at asc
              simp only [Ascending, List.pairwise_append] at asc
              exact find_mid (Mr := []) hc (fun q hq => asc.2.2 q hq em (by simp)) (hc.refl _)
            obtain ⟨d1, er', n, a1, a2, a3, a4, a5, a6⟩ := eraseR_some hc (disp := disp) (er := er + 1) hL0 (hs.frame f0 h0S) hn.1 ha.2.2.1 ol (f := f) (by omega)
              (by rw [f0.1]; omega) he' hem
            have hsh := shrunk_left (j := i) (lv := lv) (e := some e) (some em) ha (shrunk_eraseT cmp ha.2.2.1 he')
            have hi0 : Buf.rd d0 i = some ⟨jl, jr, lv, some em⟩ := rd_set_eq (rd_lt h1)
            have hi : d1.rd i = some ⟨jl, jr, lv, some em⟩ := by rw [a4.2 i hil]; exact hi0
            have hxi : x' ≠ i := by
              rintro rfl
              exact hxu.1 (by simp)
            have hidsu : ∀ q ∈ ids l', q ∈ ids (T.node jl ll a el b) := by
              have hre := lab_eraseT hc em.1 ol
              rw [he'] at hre
              exact fun q hq => (hre.perm).mem_iff.mpr (by simp [hq])
            have hI : Is (d1.set i (some ⟨idx l', jr, lv, some em⟩)) (.node i lv l' (some em) (.node jr lr c er2 dd)) := by
              refine ⟨h0, rd_set_eq (rd_lt hi), a3.set fun hc => hil (hidsu i hc), (hR0.frame a4 fun q hq hc => hlr q hc hq).set hir⟩
            have f1 : Frame d (d1.set i (some ⟨idx l', jr, lv, some em⟩)) (ids (T.node i lv (.node jl ll a el b) (some e) (.node jr lr c er2 dd))) :=
              (f0.trans (a4.mono (by intro q hq; rw [ids_node i]; exact List.mem_append_left _ hq))).trans (Frame.set (by rw [ids_node i]; simp))
            have hnu : (ids (T.node i lv l' (some em) (.node jr lr c er2 dd))).Nodup := by rw [← ids_rebalT]; exact hxu.2
            obtain ⟨d3, b1, b2, b3⟩ := rebal_spec hI (hs.frame f1 h0S) hnu
              ⟨by have := ha.1; omega, (shrunk_eraseT cmp ha.2.2.1 he').1.pos, ha.2.2.2.pos⟩ hsh.2
            refine ⟨d3, er', n, ?_, by omega, b2, f1.trans (b3.mono ?_), ?_, a6⟩
            · simp only [idx_node] at a1
              simp only [a1, Option.bind_some, setLink_eq hi, Bool.false_eq_true, if_false, b1]
              simp
            · intro q hq
              rw [ids_node i] at hq ⊢
              simp only [List.mem_append, List.mem_cons] at hq ⊢
              rcases hq with hq | hq | hq
              · exact Or.inl (hidsu q hq)
              · exact Or.inr (Or.inl hq)
              · exact Or.inr (Or.inr hq)
            · rw [b3.2 x' (by rw [← ids_rebalT]; exact hxu.1), rd_set_ne hxi]; exact a5

end Verif.Smap
