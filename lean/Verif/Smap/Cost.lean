import Verif.Cost.Spec
import Verif.Smap.Ops
/-
How many comparisons the operations of the sorted map take.
-/
namespace Verif.Smap
open Cost (Settled)
open T
variable {κ ν : Type}

/-- No path down from `tn` has more than `h` nodes. -/
def Low (d : Buf (Node κ ν)) : Nat → Nat → Prop
  | 0, tn => tn = 0
  | h + 1, tn => tn = 0 ∨ ∀ n, d.rd tn = some n → Low d h n.l ∧ Low d h n.r

theorem Low.zero {d : Buf (Node κ ν)} : ∀ h, Low d h 0
  | 0 => rfl
  | _ + 1 => .inl rfl

theorem Low.mono {d : Buf (Node κ ν)} : ∀ {h tn : Nat}, Low d h tn → Low d (h + 1) tn
  | 0, tn, hl => .inl hl
  | h + 1, tn, hl => by
    rcases hl with rfl | hl
    · exact .inl rfl
    · exact .inr fun n hn => ⟨(hl n hn).1.mono, (hl n hn).2.mono⟩

theorem Low.le {d : Buf (Node κ ν)} {h h' tn : Nat} (hl : Low d h tn) (hh : h ≤ h') : Low d h' tn := by
  induction hh with
  | refl => exact hl
  | step _ ih => exact ih.mono

theorem Low.of_is {d : Buf (Node κ ν)} : ∀ {t : T κ ν}, Is d t → Low d (height t) (T.idx t)
  | .nil, _ => rfl
  | .node i lv l e r, h => by
    refine .inr fun n hn => ?_
    rw [T.idx_node, h.2.1] at hn
    cases hn
    exact ⟨(of_is h.2.2.1).le (by omega), (of_is h.2.2.2).le (by omega)⟩

/-- Only the links matter. -/
theorem Low.congr {d d' : Buf (Node κ ν)} (hd : ∀ x n', d'.rd x = some n' → ∃ n, d.rd x = some n ∧ n.l = n'.l ∧ n.r = n'.r) : ∀ {h tn : Nat}, Low d h tn → Low d' h tn
  | 0, tn, hl => hl
  | h + 1, tn, hl => by
    rcases hl with rfl | hl
    · exact .inl rfl
    · refine .inr fun n' hn' => ?_
      obtain ⟨n, h1, h2, h3⟩ := hd tn n' hn'
      have := hl n h1
      rw [← h2, ← h3]
      exact ⟨this.1.congr hd, this.2.congr hd⟩

theorem Low.link {d : Buf (Node κ ν)} {h tn : Nat} {n : Node κ ν} (hl : Low d (h + 1) tn) (h0 : tn ≠ 0) (hn : d.rd tn = some n) (b : Bool) : Low d h (n.link b) := by
  rcases hl with hl | hl
  · exact absurd hl h0
  · cases b
    · exact (hl n hn).1
    · exact (hl n hn).2

theorem findLoop_settled {cmp : κ → κ → Int} {d : Buf (Node κ ν)} {k : κ} {tn0 : Option Nat} : ∀ (f h tn : Nat) (st : List Nat), Low d h tn →
    Settled h (fun c => findLoop c d k tn0 f tn st) cmp := by
  intro f
  induction f with
  | zero => intro h tn st _; exact Settled.const none _
  | succ f ih =>
    intro h tn st hl
    by_cases h0 : tn = 0
    · subst h0
      simp only [findLoop]
      exact Settled.const _ _
    · obtain ⟨h, rfl⟩ : ∃ x, h = x + 1 := by
        cases h with
        | zero => exact absurd hl h0
        | succ h => exact ⟨h, rfl⟩
      simp only [findLoop, if_pos (show tn ≠ 0 from h0), Option.bind_eq_bind]
      cases hn : d.rd tn with
      | none => exact Settled.const none _
      | some n =>
        cases he : n.val with
        | none => simp only [Option.bind_some, he]; exact Settled.const none _
        | some e =>
          simp only [Option.bind_some, he]
          refine Settled.ask (x := e.1) (y := k) (f := fun c q => if q < 0 then findLoop c d k tn0 f n.r st else if q > 0 then (guard (st.length < 36) : Option Unit).bind fun _ => findLoop c d k tn0 f n.l (tn :: st) else some ⟨some tn, some n.r, st⟩) ?_
          split
          · exact ih h _ _ (hl.link h0 hn true)
          · split
            · cases (guard (st.length < 36) : Option Unit) with
              | none => exact Settled.const none _
              | some _ => exact ih h _ _ (hl.link h0 hn false)
            · exact Settled.const _ _

theorem descend_settled {cmp : κ → κ → Int} {d : Buf (Node κ ν)} {k : κ} : ∀ (f h tn : Nat) (up : List Nat) (dir : Bool), Low d h tn →
    Settled h (fun c => descend c d k f tn up dir) cmp := by
  intro f
  induction f with
  | zero => intro h tn st _ _; exact Settled.const none _
  | succ f ih =>
    intro h tn st dir hl
    by_cases h0 : tn = 0
    · subst h0
      simp only [descend]
      exact Settled.const _ _
    · obtain ⟨h, rfl⟩ : ∃ x, h = x + 1 := by
        cases h with
        | zero => exact absurd hl h0
        | succ h => exact ⟨h, rfl⟩
      simp only [descend, if_pos (show tn ≠ 0 from h0), Option.bind_eq_bind]
      cases (guard (st.length < 64) : Option Unit) with
      | none => exact Settled.const none _
      | some _ =>
        cases hn : d.rd tn with
        | none => exact Settled.const none _
        | some n =>
          cases he : n.val with
          | none => simp only [Option.bind_some, he]; exact Settled.const none _
          | some e =>
            simp only [Option.bind_some, he]
            refine Settled.ask (x := e.1) (y := k) (f := fun c q => if q = 0 then some (.found tn) else descend c d k f (n.link (decide (q < 0))) (tn :: st) (decide (q < 0))) ?_
            split
            · exact Settled.const _ _
            · exact ih h _ _ _ (hl.link h0 hn _)

theorem rd_wr_same {d d' : Buf (Node κ ν)} {x : Nat} {n : Node κ ν} (h : d.wr x n = some d') : d'.rd x = some n := by
  unfold Buf.wr at h
  split at h
  · rename_i hx
    cases h
    simp [Buf.rd, hx]
  · cases h

theorem rd_wr_other {d d' : Buf (Node κ ν)} {x y : Nat} {n : Node κ ν} (h : d.wr x n = some d') (hy : y ≠ x) : d'.rd y = d.rd y := by
  unfold Buf.wr at h
  split at h
  · cases h
    simp [Buf.rd, List.getElem?_set, Ne.symm hy]
  · cases h

theorem eraseR_settled {cmp : κ → κ → Int} : ∀ (f h : Nat) (d : Buf (Node κ ν)) (disp tn : Nat) (k : κ) (er : Nat), Low d h tn →
    Settled h (fun c => eraseR c f d disp tn k er) cmp := by
  intro f
  induction f with
  | zero => intro h d disp tn k er _; exact Settled.const none _
  | succ f ih =>
    intro h d disp tn k er hl
    by_cases h0 : tn = 0
    · subst h0
      simp only [eraseR]
      exact Settled.const _ _
    · obtain ⟨h, rfl⟩ : ∃ x, h = x + 1 := by
        cases h with
        | zero => exact absurd hl h0
        | succ h => exact ⟨h, rfl⟩
      simp only [eraseR, if_neg h0, Option.bind_eq_bind]
      cases hn : d.rd tn with
      | none => exact Settled.const none _
      | some n =>
        cases he : n.val with
        | none => simp only [Option.bind_some, he]; exact Settled.const none _
        | some e =>
          simp only [Option.bind_some, he]
          refine Settled.ask (x := e.1) (y := k) (f := fun c q =>
            if q ≠ 0 then (eraseR c f d disp (n.link (decide (q < 0))) k er).bind fun r => (setLink r.d tn (decide (q < 0)) r.tn).bind fun d => (rebalance d tn).bind fun x => some (⟨x.1, x.2, r.disp, r.erased, r.dropped⟩ : Er κ ν)
            else if n.l ≠ 0 ∧ n.r ≠ 0 then (outermost d true (d.length + 1) n.l).bind fun tx => (load d tx).bind fun ex => (d.wr tn { n with val := some ex }).bind fun d =>
              (eraseR c f d disp n.l ex.1 (er + 1)).bind fun r => (setLink r.d tn false r.tn).bind fun d => (rebalance d tn).bind fun x => some (⟨x.1, x.2, r.disp, r.erased, (if er = 0 then valueDrop e else []) ++ r.dropped⟩ : Er κ ν)
            else (d.wr tn { l := n.l, r := disp, lvl := n.lvl, val := some e }).bind fun d => (rebalance d (n.link (n.l == 0))).bind fun x => some (⟨x.1, x.2, tn, er + 1, if er = 0 then valueDrop e else []⟩ : Er κ ν)) ?_
          split
          · exact (ih h _ _ _ _ _ (hl.link h0 hn _)).map fun o => o.bind fun r => (setLink r.d tn (decide (cmp e.1 k < 0)) r.tn).bind fun d => (rebalance d tn).bind fun x => some (⟨x.1, x.2, r.disp, r.erased, r.dropped⟩ : Er κ ν)
          · split
            · cases outermost d true (d.length + 1) n.l with
              | none => exact Settled.const none _
              | some tx =>
                simp only [Option.bind_some]
                cases load d tx with
                | none => exact Settled.const none _
                | some ex =>
                  simp only [Option.bind_some]
                  cases hw : d.wr tn { n with val := some ex } with
                  | none => exact Settled.const none _
                  | some d' =>
                    refine (ih h d' disp n.l ex.1 (er + 1) ?_).map fun o => o.bind fun r => (setLink r.d tn false r.tn).bind fun d => (rebalance d tn).bind fun x => some (⟨x.1, x.2, r.disp, r.erased, (if er = 0 then valueDrop e else []) ++ r.dropped⟩ : Er κ ν)
                    refine (hl.link h0 hn false).congr fun x n' hx => ?_
                    by_cases hxt : x = tn
                    · subst hxt
                      rw [rd_wr_same hw] at hx
                      cases hx
                      exact ⟨n, hn, rfl, rfl⟩
                    · rw [rd_wr_other hw hxt] at hx
                      exact ⟨n', hx, rfl, rfl⟩
            · exact Settled.const _ _

end Verif.Smap
