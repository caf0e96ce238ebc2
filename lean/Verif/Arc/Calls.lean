import Verif.Arc.Steps
/- Starting a call keeps the invariant of shared pointers; histories. -/
namespace Verif.Arc
open Spec
open scoped List
variable {α : Type} {L : Layout}

def chanW (a : Nat) (chan : List Arc) : Int := (chan.map (hits a)).sum

theorem Inv.call_refs {m : Mem α} {A B : List (Thread α)} {t t' : Thread α} {chan chan' : List Arc} {raws raws' : List Nat} {O : List Arc}
    (i : Inv L (mkS m A t B chan raws) O) (hidle : t.todo = [])
    (hw : ∀ a, a ≠ 0 → thW a t' + chanW a chan' = thW a t + chanW a chan) (hs : Shape L t'.vars t'.todo)
    (hr : ∀ h ∈ mentions t', h.use = 0 ∨ h ∈ mentions t ∨ h ∈ chan) (hch : ∀ h ∈ chan', h.use = 0 ∨ h ∈ mentions t ∨ h ∈ chan)
    (hblk : tblocks L t' ++ raws'.map (fun p => (p, L.sz)) ~ raws.map fun p => (p, L.sz)) (hval : tvals t' ++ raws' ~ raws) :
    Inv L (mkS m A t' B chan' raws') O := by
  have e1 : tblocks L t = [] := by simp [tblocks, hidle]
  have e2 : tvals t = [] := by simp [tvals, hidle]
  have hR : ∀ h, (h.use = 0 ∨ h ∈ mentions t ∨ h ∈ chan) → Ref O h := by
    intro h hh
    rcases hh with hh | hh | hh
    · exact .inl hh
    · exact i.ref t (by simp [mkS]) h hh
    · exact i.chan h hh
  refine ⟨?_, i.dis, i.pos, ?_, i.nod, ?_, i.uniq, ?_, ?_, fun h hh => hR h (hch h hh)⟩
  · have := i.blk
    rw [List.perm_iff_count] at this hblk ⊢
    intro b
    have h1 := this b
    have h2 := hblk b
    simp only [mkS, flatMap_split, e1, List.count_append, List.count_nil] at h1 h2 ⊢
    omega
  · have := i.val
    rw [List.perm_iff_count] at this hval ⊢
    intro b
    have h1 := this b
    have h2 := hval b
    simp only [mkS, flatMap_split, e2, List.count_append, List.count_nil] at h1 h2 ⊢
    omega
  · intro h hh
    have h1 := i.cnt h hh
    have h2 := hw h.use (i.useNe hh)
    rw [total_mk] at h1 ⊢
    simp only [chanW] at h2
    simp only [mkS] at h1 ⊢
    omega
  · intro x hx
    simp only [mkS, List.mem_append, List.mem_cons] at hx
    rcases hx with hx | rfl | hx
    · exact i.shape x (by simp [mkS, hx])
    · exact hs
    · exact i.shape x (by simp [mkS, hx])
  · intro x hx k hk
    simp only [mkS, List.mem_append, List.mem_cons] at hx
    rcases hx with hx | rfl | hx
    · exact i.ref x (by simp [mkS, hx]) k hk
    · exact hR k (hr k hk)
    · exact i.ref x (by simp [mkS, hx]) k hk

theorem var_eq {t : Thread α} {x : Nat} {h : Arc} : t.var x = some h ↔ t.vars[x]? = some (some h) := by
  simp [Thread.var, Option.join_eq_some_iff]

theorem vacant_eq {t : Thread α} {x : Nat} : t.vacant x = true ↔ t.vars[x]? = some none := by
  simp [Thread.vacant]

theorem dropActs_cases (h : Arc) : ((h.use = 0 ∧ (dropActs h : List (Act α)) = []) ∨ (h.use ≠ 0 ∧ (dropActs h : List (Act α)) = [.dec h])) := by
  unfold dropActs
  by_cases e : h.use = 0 <;> simp [e]

theorem incActs_cases (h : Arc) : ((h.use = 0 ∧ (incActs h : List (Act α)) = []) ∨ (h.use ≠ 0 ∧ (incActs h : List (Act α)) = [.inc h])) := by
  unfold incActs
  by_cases e : h.use = 0 <;> simp [e]

theorem drop_tail1 {vs : List (Option Arc)} (h : Arc) {r : List (Act α)} (hr : Tail vs r) : Tail1 vs (dropActs h ++ r) := by
  rcases dropActs_cases (α := α) h with ⟨_, e⟩ | ⟨h0, e⟩ <;> rw [e]
  · exact .tail _ hr
  · exact .dec _ _ h0 hr

theorem dropActs_W {a : Nat} (ha : a ≠ 0) (h : Arc) : todoW a (dropActs h : List (Act α)) = hits a h := by
  rcases dropActs_cases (α := α) h with ⟨h0, e⟩ | ⟨h0, e⟩ <;> rw [e]
  · rw [hits_ne (by rw [h0]; exact Ne.symm ha)]; rfl
  · simp [todoW, actW]

theorem incActs_W {a : Nat} (ha : a ≠ 0) (h : Arc) : todoW a (incActs h : List (Act α)) = - hits a h := by
  rcases incActs_cases (α := α) h with ⟨h0, e⟩ | ⟨h0, e⟩ <;> rw [e]
  · rw [hits_ne (by rw [h0]; exact Ne.symm ha)]; rfl
  · simp [todoW, actW]

theorem dropActs_refs (h k : Arc) (hk : k ∈ (dropActs h : List (Act α)).flatMap actRefs) : k = h := by
  rcases dropActs_cases (α := α) h with ⟨h0, e⟩ | ⟨h0, e⟩ <;> rw [e] at hk <;> simpa [actRefs] using hk

theorem incActs_refs (h k : Arc) (hk : k ∈ (incActs h : List (Act α)).flatMap actRefs) : k = h := by
  rcases incActs_cases (α := α) h with ⟨h0, e⟩ | ⟨h0, e⟩ <;> rw [e] at hk <;> simpa [actRefs] using hk

theorem dropActs_none (L : Layout) (h : Arc) : (dropActs h : List (Act α)).flatMap (actBlocks L) = [] ∧ (dropActs h : List (Act α)).flatMap actVals = [] := by
  rcases dropActs_cases (α := α) h with ⟨h0, e⟩ | ⟨h0, e⟩ <;> rw [e] <;> simp [actBlocks, actVals]

theorem incActs_none (L : Layout) (h : Arc) : (incActs h : List (Act α)).flatMap (actBlocks L) = [] ∧ (incActs h : List (Act α)).flatMap actVals = [] := by
  rcases incActs_cases (α := α) h with ⟨h0, e⟩ | ⟨h0, e⟩ <;> rw [e] <;> simp [actBlocks, actVals]

theorem mem_vars_set {vs : List (Option Arc)} {x : Nat} {o : Option Arc} {k : Arc} (h : some k ∈ vs.set x o) : o = some k ∨ some k ∈ vs := by
  rcases List.mem_or_eq_of_mem_set h with h | h
  · exact .inr h
  · exact .inl h.symm

theorem mem_mentions {t : Thread α} {k : Arc} : k ∈ mentions t ↔ some k ∈ t.vars ∨ k ∈ t.todo.flatMap actRefs := by
  simp [mentions]

theorem set_none_get {vs : List (Option Arc)} {x : Nat} {o : Option Arc} (h : vs[x]? = some o) : (vs.set x none)[x]? = some none := by
  obtain ⟨hx, _⟩ := List.getElem?_eq_some_iff.1 h
  simp [hx]

theorem takeRaw_spec (L : Layout) {raws raws' : List Nat} {p : Nat} (h : takeRaw raws p = some raws') (x : Nat) :
    (actBlocks L (.ctl x p : Act α)) ++ raws'.map (fun p => (p, L.sz)) ~ raws.map (fun p => (p, L.sz)) ∧ actVals (.ctl x p : Act α) ++ raws' ~ raws := by
  unfold takeRaw at h
  by_cases h0 : p = 0
  · simp [h0] at h; subst h; simp [actBlocks, actVals, h0]
  · rw [if_neg h0] at h
    by_cases h1 : p ∈ raws
    · rw [if_pos h1] at h
      cases h
      have := List.perm_cons_erase h1
      refine ⟨?_, ?_⟩
      · simp only [actBlocks, ne_eq, h0, not_false_eq_true, if_true, List.singleton_append]
        have h2 := this.map fun p => (p, L.sz)
        rw [List.map_cons] at h2
        exact h2.symm
      · simp only [actVals, ne_eq, h0, not_false_eq_true, if_true, List.singleton_append]
        exact this.symm
    · rw [if_neg h1] at h; cases h

theorem hits_zero {a : Nat} (ha : a ≠ 0) : hits a Arc.null = 0 := hits_ne (by simpa [Arc.null] using Ne.symm ha)

theorem chanW_erase {chan : List Arc} {n : Nat} {h : Arc} (a : Nat) (hh : chan[n]? = some h) : chanW a (chan.eraseIdx n) + hits a h = chanW a chan := by
  induction chan generalizing n with
  | nil => simp at hh
  | cons x l ih =>
    cases n with
    | zero => simp at hh; subst hh; simp [chanW]; omega
    | succ n =>
      have := ih (n := n) (by simpa using hh)
      simp only [chanW, List.eraseIdx_cons_succ, List.map_cons, List.sum_cons] at this ⊢
      omega

theorem bind_split {β γ : Type} {x : Option β} {f : β → Option γ} {c : γ} (h : (x >>= f) = some c) : ∃ b, x = some b ∧ f b = some c := by
  simpa [Option.bind_eq_some_iff] using h

theorem guard_split {p : Prop} [Decidable p] {γ : Type} {f : Unit → Option γ} {c : γ} (h : ((guard p : Option Unit) >>= f) = some c) : p ∧ f () = some c := by
  obtain ⟨u, h1, h2⟩ := bind_split h
  refine ⟨?_, h2⟩
  by_contra hn
  simp [guard, hn] at h1

/-- Starting a call keeps the invariant. -/
theorem inv_begin {m : Mem α} {A B : List (Thread α)} {vs : List (Option Arc)} {chan chan' : List Arc} {raws raws' : List Nat} {O : List Arc} {t' : Thread α} {op : Op α}
    (i : Inv L (mkS m A ⟨vs, []⟩ B chan raws) O) (h : begin op ⟨vs, []⟩ chan raws = some (t', chan', raws')) :
    Inv L (mkS m A t' B chan' raws') O := by
  cases op with
  | init x =>
    obtain ⟨hx, h⟩ := guard_split h
    rw [vacant_eq] at hx
    cases h
    refine i.call_refs rfl ?_ (.tail _ (.tail _ (.set _ _ hx))) ?_ (fun h hh => .inr (.inr hh)) (by simp [tblocks, actBlocks]) (by simp [tvals, actVals])
    · intro a ha
      simp only [thW, todoW, List.map_cons, List.map_nil, List.sum_cons, List.sum_nil, actW, hits_zero ha]; omega
    · intro k hk
      rw [mem_mentions] at hk
      rcases hk with hk | hk
      · exact .inr (.inl (mem_mentions.2 (.inl hk)))
      · simp [actRefs] at hk; subst hk; exact .inl rfl
  | make x v =>
    obtain ⟨hx, h⟩ := guard_split h
    rw [vacant_eq] at hx
    cases h
    refine i.call_refs rfl ?_ (.make _ _ hx) ?_ (fun h hh => .inr (.inr hh)) (by simp [tblocks, actBlocks]) (by simp [tvals, actVals])
    · intro a ha
      simp only [thW, todoW, List.map_cons, List.map_nil, List.sum_cons, List.sum_nil, actW]; omega
    · intro k hk
      rw [mem_mentions] at hk
      rcases hk with hk | hk
      · exact .inr (.inl (mem_mentions.2 (.inl hk)))
      · simp [actRefs] at hk
  | raw v =>
    cases h
    refine i.call_refs rfl ?_ (.raw _) ?_ (fun h hh => .inr (.inr hh)) (by simp [tblocks, actBlocks]) (by simp [tvals, actVals])
    · intro a ha
      simp only [thW, todoW, List.map_cons, List.map_nil, List.sum_cons, List.sum_nil, actW]; omega
    · intro k hk
      rw [mem_mentions] at hk
      rcases hk with hk | hk
      · exact .inr (.inl (mem_mentions.2 (.inl hk)))
      · simp [actRefs] at hk
  | fromPtr x p =>
    obtain ⟨hx, h⟩ := guard_split h
    obtain ⟨rs, hrs, h⟩ := bind_split h
    rw [vacant_eq] at hx
    cases h
    have hs := takeRaw_spec (α := α) L hrs x
    refine i.call_refs rfl ?_ (.tail _ (.tail _ (.ctl _ _ hx))) ?_ (fun h hh => .inr (.inr hh)) (by simpa [tblocks] using hs.1) (by simpa [tvals] using hs.2)
    · intro a ha
      simp only [thW, todoW, List.map_cons, List.map_nil, List.sum_cons, List.sum_nil, actW]; omega
    · intro k hk
      rw [mem_mentions] at hk
      rcases hk with hk | hk
      · exact .inr (.inl (mem_mentions.2 (.inl hk)))
      · simp [actRefs] at hk
  | drop x =>
    obtain ⟨h0, hx, h⟩ := bind_split h
    rw [var_eq] at hx
    simp only at hx
    cases h
    have hd := dropActs_none (α := α) L h0
    refine i.call_refs rfl ?_ (.tail _ (by simpa using drop_tail1 h0 (.nil (α := α)))) ?_ (fun h hh => .inr (.inr hh)) (by simp [tblocks, hd.1]) (by simp [tvals, hd.2])
    · intro a ha
      simp only [thW, Thread.clear, dropActs_W ha, varW_set a _ _ _ _ hx, optW]
      simp [todoW]
    · intro k hk
      rw [mem_mentions] at hk
      rcases hk with hk | hk
      · rcases mem_vars_set hk with hk | hk
        · cases hk
        · exact .inr (.inl (mem_mentions.2 (.inl hk)))
      · rw [dropActs_refs _ _ hk]
        exact .inr (.inl (mem_mentions.2 (.inl (List.mem_of_getElem? hx))))
  | move x y =>
    obtain ⟨h0, hx, h⟩ := bind_split h
    obtain ⟨hy, h⟩ := guard_split h
    rw [var_eq] at hx
    rw [vacant_eq] at hy
    simp only at hx hy
    cases h
    have hxy : x ≠ y := by rintro rfl; rw [hx] at hy; cases hy
    refine i.call_refs rfl ?_ (.tail _ (.tail _ (.set _ _ ?_))) ?_ (fun h hh => .inr (.inr hh)) (by simp [tblocks, actBlocks]) (by simp [tvals, actVals])
    · intro a ha
      simp only [thW, Thread.put, todoW, List.map_cons, List.map_nil, List.sum_cons, List.sum_nil, actW, varW_set a _ _ _ _ hx, optW, hits_zero ha]
      omega
    · simp only [Thread.put]
      rw [List.getElem?_set_ne hxy]
      exact hy
    · intro k hk
      rw [mem_mentions] at hk
      rcases hk with hk | hk
      · rcases mem_vars_set hk with hk | hk
        · cases hk; exact .inl rfl
        · exact .inr (.inl (mem_mentions.2 (.inl hk)))
      · simp [actRefs] at hk; subst hk
        exact .inr (.inl (mem_mentions.2 (.inl (List.mem_of_getElem? hx))))
  | resetTo x p =>
    obtain ⟨h0, hx, h⟩ := bind_split h
    obtain ⟨rs, hrs, h⟩ := bind_split h
    rw [var_eq] at hx
    simp only at hx
    cases h
    have hs := takeRaw_spec (α := α) L hrs x
    have hd := dropActs_none (α := α) L h0
    refine i.call_refs rfl ?_ (.tail _ (drop_tail1 h0 (.ctl _ _ (set_none_get hx)))) ?_ (fun h hh => .inr (.inr hh)) (by simpa [tblocks, hd.1] using hs.1) (by simpa [tvals, hd.2] using hs.2)
    · intro a ha
      simp only [thW, Thread.clear, todoW_append, dropActs_W ha, varW_set a _ _ _ _ hx, optW]
      simp [todoW, actW]
    · intro k hk
      rw [mem_mentions] at hk
      rcases hk with hk | hk
      · rcases mem_vars_set hk with hk | hk
        · cases hk
        · exact .inr (.inl (mem_mentions.2 (.inl hk)))
      · rw [List.flatMap_append, List.mem_append] at hk
        rcases hk with hk | hk
        · rw [dropActs_refs _ _ hk]
          exact .inr (.inl (mem_mentions.2 (.inl (List.mem_of_getElem? hx))))
        · simp [actRefs] at hk
  | take x y =>
    obtain ⟨hxy, h⟩ := guard_split h
    obtain ⟨h0, hx, h⟩ := bind_split h
    obtain ⟨k0, hy, h⟩ := bind_split h
    rw [var_eq] at hx hy
    simp only at hx hy
    cases h
    have hd := dropActs_none (α := α) L h0
    have hy' : (vs.set x none)[y]? = some (some k0) := by rw [List.getElem?_set_ne hxy]; exact hy
    refine i.call_refs rfl ?_ (.tail _ (drop_tail1 h0 (.set _ _ ?_))) ?_ (fun h hh => .inr (.inr hh)) (by simp [tblocks, hd.1, actBlocks]) (by simp [tvals, hd.2, actVals])
    · intro a ha
      simp only [thW, Thread.clear, todoW_append, dropActs_W ha, varW_set a _ _ _ _ hx, varW_set a _ _ _ _ hy', optW]
      simp only [todoW, List.map_cons, List.map_nil, List.sum_cons, List.sum_nil, actW]
      omega
    · simp only [Thread.clear]
      rw [List.getElem?_set_ne (Ne.symm hxy)]
      exact set_none_get hx
    · intro k hk
      rw [mem_mentions] at hk
      rcases hk with hk | hk
      · rcases mem_vars_set hk with hk | hk
        · cases hk
        · rcases mem_vars_set hk with hk | hk
          · cases hk
          · exact .inr (.inl (mem_mentions.2 (.inl hk)))
      · rw [List.flatMap_append, List.mem_append] at hk
        rcases hk with hk | hk
        · rw [dropActs_refs _ _ hk]
          exact .inr (.inl (mem_mentions.2 (.inl (List.mem_of_getElem? hx))))
        · simp [actRefs] at hk; subst hk
          exact .inr (.inl (mem_mentions.2 (.inl (List.mem_of_getElem? hy))))
  | assign x y =>
    obtain ⟨h0, hx, h⟩ := bind_split h
    obtain ⟨k0, hy, h⟩ := bind_split h
    rw [var_eq] at hx hy
    simp only at hx hy
    cases h
    have hd := dropActs_none (α := α) L h0
    have hi := incActs_none (α := α) L k0
    have hW : ∀ a, a ≠ 0 → varW a (vs.set x none) + todoW a (incActs k0 ++ dropActs h0 ++ [.set x k0] : List (Act α)) = varW a vs := by
      intro a ha
      simp only [todoW_append, incActs_W ha, dropActs_W ha, varW_set a _ _ _ _ hx, optW]
      simp only [todoW, List.map_cons, List.map_nil, List.sum_cons, List.sum_nil, actW]
      omega
    have ht : Tail1 (vs.set x none) (dropActs h0 ++ [.set x k0] : List (Act α)) := drop_tail1 h0 (.set _ _ (set_none_get hx))
    refine i.call_refs rfl ?_ ?_ ?_ (fun h hh => .inr (.inr hh)) (by simp [tblocks, hd.1, hi.1, actBlocks]) (by simp [tvals, hd.2, hi.2, actVals])
    · intro a ha
      simp only [thW, Thread.clear]
      rw [hW a ha]
      simp [todoW]
    · simp only [Thread.clear]
      rcases incActs_cases (α := α) k0 with ⟨h1, e⟩ | ⟨h1, e⟩
      · rw [e]; exact .tail _ ht
      · have := hW k0.use h1
        have e2 : (incActs k0 ++ dropActs h0 ++ [Act.set x k0] : List (Act α)) = .inc k0 :: (dropActs h0 ++ [.set x k0]) := by rw [e]; simp
        rw [e2] at this ⊢
        refine .inc _ _ h1 ht ?_
        rw [this]
        exact varW_pos (List.mem_of_getElem? hy)
    · intro k hk
      rw [mem_mentions] at hk
      rcases hk with hk | hk
      · rcases mem_vars_set hk with hk | hk
        · cases hk
        · exact .inr (.inl (mem_mentions.2 (.inl hk)))
      · simp only [List.flatMap_append, List.mem_append] at hk
        rcases hk with (hk | hk) | hk
        · rw [incActs_refs _ _ hk]
          exact .inr (.inl (mem_mentions.2 (.inl (List.mem_of_getElem? hy))))
        · rw [dropActs_refs _ _ hk]
          exact .inr (.inl (mem_mentions.2 (.inl (List.mem_of_getElem? hx))))
        · simp [actRefs] at hk; subst hk
          exact .inr (.inl (mem_mentions.2 (.inl (List.mem_of_getElem? hy))))
  | clone x y =>
    obtain ⟨h0, hx, h⟩ := bind_split h
    obtain ⟨hy, h⟩ := guard_split h
    rw [var_eq] at hx
    rw [vacant_eq] at hy
    simp only at hx hy
    cases h
    have hi := incActs_none (α := α) L h0
    have hW : ∀ a, a ≠ 0 → todoW a (incActs h0 ++ [.set y h0] : List (Act α)) = 0 := by
      intro a ha
      simp only [todoW_append, incActs_W ha]
      simp only [todoW, List.map_cons, List.map_nil, List.sum_cons, List.sum_nil, actW]
      omega
    have ht : Tail vs ([.set y h0] : List (Act α)) := .set _ _ hy
    refine i.call_refs rfl ?_ ?_ ?_ (fun h hh => .inr (.inr hh)) (by simp [tblocks, hi.1, actBlocks]) (by simp [tvals, hi.2, actVals])
    · intro a ha
      simp only [thW]
      rw [hW a ha]
      simp [todoW]
    · rcases incActs_cases (α := α) h0 with ⟨h1, e⟩ | ⟨h1, e⟩
      · rw [e]; exact .tail _ (.tail _ ht)
      · have := hW h0.use h1
        have e2 : (incActs h0 ++ [Act.set y h0] : List (Act α)) = .inc h0 :: [.set y h0] := by rw [e]; simp
        rw [e2] at this ⊢
        refine .inc _ _ h1 (.tail _ ht) ?_
        have h3 := varW_pos (List.mem_of_getElem? hx)
        show 1 ≤ varW h0.use vs + _
        omega
    · intro k hk
      rw [mem_mentions] at hk
      rcases hk with hk | hk
      · exact .inr (.inl (mem_mentions.2 (.inl hk)))
      · simp only [List.flatMap_append, List.mem_append] at hk
        rcases hk with hk | hk
        · rw [incActs_refs _ _ hk]
          exact .inr (.inl (mem_mentions.2 (.inl (List.mem_of_getElem? hx))))
        · simp [actRefs] at hk; subst hk
          exact .inr (.inl (mem_mentions.2 (.inl (List.mem_of_getElem? hx))))
  | send x =>
    obtain ⟨h0, hx, h⟩ := bind_split h
    rw [var_eq] at hx
    simp only at hx
    cases h
    refine i.call_refs rfl ?_ (shape_nil _) ?_ ?_ (by simp [tblocks, Thread.clear]) (by simp [tvals, Thread.clear])
    · intro a ha
      simp only [thW, Thread.clear, varW_set a _ _ _ _ hx, optW, chanW, List.map_cons, List.sum_cons]
      omega
    · intro k hk
      rw [mem_mentions] at hk
      rcases hk with hk | hk
      · rcases mem_vars_set hk with hk | hk
        · cases hk
        · exact .inr (.inl (mem_mentions.2 (.inl hk)))
      · simp [Thread.clear] at hk
    · intro k hk
      rcases List.mem_cons.1 hk with rfl | hk
      · exact .inr (.inl (mem_mentions.2 (.inl (List.mem_of_getElem? hx))))
      · exact .inr (.inr hk)
  | recv x n =>
    obtain ⟨hx, h⟩ := guard_split h
    obtain ⟨h0, hn, h⟩ := bind_split h
    rw [vacant_eq] at hx
    simp only at hx
    cases h
    refine i.call_refs rfl ?_ (shape_nil _) ?_ ?_ (by simp [tblocks, Thread.put]) (by simp [tvals, Thread.put])
    · intro a ha
      rw [thW_put a hx, ← chanW_erase a hn]
      omega
    · intro k hk
      rcases mentions_put hk with rfl | hk
      · exact .inr (.inr (List.mem_of_getElem? hn))
      · exact .inr (.inl hk)
    · intro k hk
      exact .inr (.inr (List.mem_of_mem_eraseIdx hk))
  | read x =>
    obtain ⟨h0, hx, h⟩ := bind_split h
    obtain ⟨hu, h⟩ := guard_split h
    rw [var_eq] at hx
    simp only at hx
    cases h
    refine i.call_refs rfl ?_ (.read _ _ hx hu) ?_ (fun h hh => .inr (.inr hh)) (by simp [tblocks, actBlocks]) (by simp [tvals, actVals])
    · intro a ha
      simp only [thW, todoW, List.map_cons, List.map_nil, List.sum_cons, List.sum_nil, actW]; omega
    · intro k hk
      rw [mem_mentions] at hk
      rcases hk with hk | hk
      · exact .inr (.inl (mem_mentions.2 (.inl hk)))
      · simp [actRefs] at hk
  | count x =>
    obtain ⟨h0, hx, h⟩ := bind_split h
    rw [var_eq] at hx
    simp only at hx
    by_cases hu : h0.use = 0
    · simp only [hu, ne_eq, not_true_eq_false, if_false] at h
      cases h
      exact i.call_refs rfl (fun _ _ => rfl) (shape_nil _) (fun h hh => .inr (.inl hh)) (fun h hh => .inr (.inr hh)) (by simp [tblocks]) (by simp [tvals])
    · simp only [hu, ne_eq, not_false_eq_true, if_true] at h
      cases h
      refine i.call_refs rfl ?_ (.count _ _ hx hu) ?_ (fun h hh => .inr (.inr hh)) (by simp [tblocks, actBlocks]) (by simp [tvals, actVals])
      · intro a ha
        simp only [thW, todoW, List.map_cons, List.map_nil, List.sum_cons, List.sum_nil, actW]; omega
      · intro k hk
        rw [mem_mentions] at hk
        rcases hk with hk | hk
        · exact .inr (.inl (mem_mentions.2 (.inl hk)))
        · simp [actRefs] at hk

theorem inv_call {s s' : State α} {n : Nat} {op : Op α} {O : List Arc} (i : Inv L s O) (h : call s n op = some s') :
    Inv L s' O ∧ s'.mem = s.mem := by
  obtain ⟨t, ht, h⟩ := bind_split h
  obtain ⟨hi, h⟩ := guard_split h
  obtain ⟨⟨t', chan', raws'⟩, hb, h⟩ := bind_split h
  cases h
  obtain ⟨A, B, e1, e2⟩ := split ht
  obtain ⟨m, ths, chan, raws⟩ := s
  obtain ⟨vs, cs⟩ := t
  simp only at e1 e2
  have hcs : cs = [] := by simpa using hi
  subst hcs e1
  refine ⟨?_, rfl⟩
  simp only [e2]
  exact inv_begin i hb

theorem inv_step (hp : Proper L) {s : State α} {n a : Nat} {t : Thread α} {c : Act α} {cs : List (Act α)} {O : List Arc} (i : Inv L s O) (ht : s.threads[n]? = some t)
    (hc : t.todo = c :: cs) (hf : ∀ z, needs L c = some z → Fresh s.mem (a, z)) :
    ∃ s', step L s n a = some s' ∧ (∃ O', Inv L s' O') ∧ Kept c s.mem s'.mem ∧ Stable s.mem s'.mem := by
  obtain ⟨A, B, e1, e2⟩ := split ht
  obtain ⟨m, ths, chan, raws⟩ := s
  obtain ⟨vs, cs'⟩ := t
  simp only at e1 e2 hc hf ht
  subst hc e1
  obtain ⟨m', t', raws', h1, h2, h3, h4⟩ := inv_act hp (show Inv L (mkS m A ⟨vs, c :: cs⟩ B chan raws) O from i) a hf
  refine ⟨⟨m', A ++ t' :: B, chan, raws'⟩, ?_, h2, h3, h4⟩
  simp only [step, ht, h1, Option.bind_eq_bind, Option.bind_some, e2]

theorem inv_init (L : Layout) (n k : Nat) : Inv L (init n k : State α) [] := by
  have hall : ∀ t ∈ List.replicate n (⟨List.replicate k none, []⟩ : Thread α), t.todo = [] ∧ mentions t = [] := by
    intro t ht
    obtain rfl := List.eq_of_mem_replicate ht
    simp [mentions]
  have f1 : (List.replicate n (⟨List.replicate k none, []⟩ : Thread α)).flatMap (tblocks L) = [] := by
    rw [List.flatMap_eq_nil_iff]
    intro t ht
    simp [tblocks, (hall t ht).1]
  have f2 : (List.replicate n (⟨List.replicate k none, []⟩ : Thread α)).flatMap tvals = [] := by
    rw [List.flatMap_eq_nil_iff]
    intro t ht
    simp [tvals, (hall t ht).1]
  refine ⟨?_, .nil, by simp [init], ?_, by simp [init], by simp, .nil, ?_, ?_, by simp [init]⟩
  · simp only [init, f1]; exact .nil
  · simp only [init, f2]; exact .nil
  · intro t ht
    rw [(hall t ht).1]
    exact shape_nil _
  · intro t ht h hh
    rw [(hall t ht).2] at hh
    cases hh

/-- The invariant holds in every history, and values are neither lost nor duplicated. -/
theorem reach_inv (hp : Proper L) {n k : Nat} {s : State α} {made : List α} (h : Reach L n k s made) :
    (∃ O, Inv L s O) ∧ s.mem.dropped ++ s.mem.vals.map Prod.snd ~ made := by
  induction h with
  | init => exact ⟨⟨[], inv_init L n k⟩, by simp [init]⟩
  | call s s' i op made _ h ih =>
    obtain ⟨⟨O, hi⟩, hm⟩ := ih
    obtain ⟨h1, h2⟩ := inv_call hi h
    exact ⟨⟨O, h1⟩, by rw [h2]; exact hm⟩
  | step s s' i a t c cs made _ ht hc hf h ih =>
    obtain ⟨⟨O, hi⟩, hm⟩ := ih
    obtain ⟨s'', h1, h2, h3, _⟩ := inv_step hp hi ht hc hf
    rw [h1] at h
    cases h
    exact ⟨h2, h3.trans (hm.append_right _)⟩

end Verif.Arc
