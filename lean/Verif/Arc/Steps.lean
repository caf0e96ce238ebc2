import Verif.Arc.Lemmas
/- Every step keeps the invariant of shared pointers. -/
namespace Verif.Arc
open Spec
open scoped List
variable {α : Type} {L : Layout}

def mkS (m : Mem α) (A : List (Thread α)) (t : Thread α) (B : List (Thread α)) (chan : List Arc) (raws : List Nat) : State α := ⟨m, A ++ t :: B, chan, raws⟩

theorem total_mk (m : Mem α) (A B : List (Thread α)) (t : Thread α) (chan : List Arc) (raws : List Nat) (a : Nat) :
    total (mkS m A t B chan raws) a = (A.map (thW a)).sum + (thW a t + (B.map (thW a)).sum) + (chan.map (hits a)).sum := by
  simp [total, mkS]

/-- Changing one thread so that all references are kept. -/
theorem total_eq {m m' : Mem α} {A B : List (Thread α)} {t t' : Thread α} {chan : List Arc} {raws raws' : List Nat} {a : Nat} (h : thW a t' = thW a t) :
    total (mkS m' A t' B chan raws') a = total (mkS m A t B chan raws) a := by
  rw [total_mk, total_mk, h]

theorem total_nonneg' {A B : List (Thread α)} {t : Thread α} {chan : List Arc} {m : Mem α} {raws : List Nat} (h : ∀ x ∈ A ++ t :: B, Shape L x.vars x.todo) (a : Nat) :
    0 ≤ total (mkS m A t B chan raws) a := by
  unfold total mkS
  have h1 : 0 ≤ (((A ++ t :: B)).map (thW a)).sum := sum_nonneg fun x hx => by
    obtain ⟨y, hy, rfl⟩ := List.mem_map.1 hx
    exact (h y hy).nonneg a
  have h2 : 0 ≤ (chan.map (hits a)).sum := sum_nonneg fun x hx => by
    obtain ⟨y, hy, rfl⟩ := List.mem_map.1 hx
    exact hits_nonneg a y
  simp only
  omega

/-- A handle anyone has is counted. -/
theorem total_pos {A B : List (Thread α)} {t : Thread α} {chan : List Arc} {m : Mem α} {raws : List Nat} (h : ∀ x ∈ A ++ t :: B, Shape L x.vars x.todo) {k : Arc}
    (hk : (∃ x ∈ A ++ t :: B, k ∈ mentions x) ∨ k ∈ chan) : 1 ≤ total (mkS m A t B chan raws) k.use := by
  unfold total mkS
  have n1 : ∀ x ∈ (A ++ t :: B).map (thW k.use), 0 ≤ x := fun x hx => by
    obtain ⟨y, hy, rfl⟩ := List.mem_map.1 hx
    exact (h y hy).nonneg _
  have n2 : ∀ x ∈ chan.map (hits k.use), 0 ≤ x := fun x hx => by
    obtain ⟨y, hy, rfl⟩ := List.mem_map.1 hx
    exact hits_nonneg _ y
  have h1 := sum_nonneg n1
  have h2 := sum_nonneg n2
  simp only
  rcases hk with ⟨x, hx, hk⟩ | hk
  · have h3 := (h x hx).pos hk
    have h4 := le_sum n1 (List.mem_map.2 ⟨x, hx, rfl⟩)
    omega
  · have h4 := le_sum n2 (List.mem_map.2 ⟨k, hk, rfl⟩)
    rw [hits_self] at h4
    omega

theorem mentions_cons {vs : List (Option Arc)} {c : Act α} {r : List (Act α)} {h : Arc} : h ∈ mentions (⟨vs, c :: r⟩ : Thread α) ↔ h ∈ mentions (⟨vs, r⟩ : Thread α) ∨ h ∈ actRefs c := by
  simp only [mentions, List.flatMap_cons, List.mem_append]
  tauto

theorem mentions_put {t : Thread α} {x : Nat} {h k : Arc} (hk : k ∈ mentions (t.put x h)) : k = h ∨ k ∈ mentions t := by
  simp only [mentions, Thread.put, List.mem_append, List.mem_filterMap, id] at hk ⊢
  rcases hk with ⟨o, ho, hk⟩ | hk
  · rcases List.mem_or_eq_of_mem_set ho with ho | rfl
    · exact .inr (.inl ⟨o, ho, hk⟩)
    · exact .inl (by simpa using hk.symm)
  · exact .inr (.inr hk)

theorem thW_put {t : Thread α} {x : Nat} {h : Arc} (a : Nat) (hv : t.vars[x]? = some none) : thW a (t.put x h) = thW a t + hits a h := by
  simp only [thW, Thread.put]
  rw [varW_set a _ _ _ _ hv]
  simp only [optW]
  omega

/-- Shapes after the first step of `Tail`. -/
theorem shape_nil (vs : List (Option Arc)) : Shape L vs ([] : List (Act α)) := .tail _ (.tail _ .nil)

/-- Only the memory and one thread change, and no handle appears or disappears. -/
theorem Inv.same_refs {m m' : Mem α} {A B : List (Thread α)} {t t' : Thread α} {chan : List Arc} {raws raws' : List Nat} {O : List Arc}
    (i : Inv L (mkS m A t B chan raws) O) (hm : m'.cnt = m.cnt)
    (hw : ∀ a, a ≠ 0 → thW a t' = thW a t) (hs : Shape L t'.vars t'.todo) (hr : ∀ h ∈ mentions t', h.use = 0 ∨ h ∈ mentions t)
    (blk : m'.blocks ~ O.flatMap (objBlocks L) ++ (A ++ t' :: B).flatMap (tblocks L) ++ raws'.map fun p => (p, L.sz))
    (dis : m'.blocks.Pairwise Apart) (pos : ∀ b ∈ m'.blocks, b.1 ≠ 0)
    (val : m'.vals.map Prod.fst ~ O.map Arc.get ++ (A ++ t' :: B).flatMap tvals ++ raws') (nod : (m'.vals.map Prod.fst).Nodup) :
    Inv L (mkS m' A t' B chan raws') O := by
  refine ⟨blk, dis, pos, val, nod, ?_, i.uniq, ?_, ?_, i.chan⟩
  · intro h hh
    have e : total (mkS m' A t' B chan raws') h.use = total (mkS m A t B chan raws) h.use := total_eq (hw _ (i.useNe hh))
    rw [e]
    have := i.cnt h hh
    simpa [mkS, hm] using this
  · intro x hx
    rcases List.mem_append.1 hx with hx | hx
    · exact i.shape x (by simp [mkS, hx])
    · rcases List.mem_cons.1 hx with rfl | hx
      · exact hs
      · exact i.shape x (by simp [mkS, hx])
  · intro x hx
    rcases List.mem_append.1 hx with hx | hx
    · exact i.ref x (by simp [mkS, hx])
    · rcases List.mem_cons.1 hx with rfl | hx
      · intro h hh
        rcases hr h hh with h0 | h1
        · exact .inl h0
        · exact i.ref t (by simp [mkS]) h h1
      · exact i.ref x (by simp [mkS, hx])

theorem flatMap_split {β γ : Type} (f : β → List γ) (A B : List β) (t : β) : (A ++ t :: B).flatMap f = A.flatMap f ++ (f t ++ B.flatMap f) := by simp

/-- `_i_atomic_inc`. -/
theorem inv_inc (hp : Proper L) {m : Mem α} {A B : List (Thread α)} {vs : List (Option Arc)} {h : Arc} {r : List (Act α)} {chan : List Arc} {raws : List Nat} {O : List Arc}
    (i : Inv L (mkS m A ⟨vs, .inc h :: r⟩ B chan raws) O) (a : Nat) :
    ∃ m', act L a (.inc h) m ⟨vs, r⟩ raws = some (m', ⟨vs, r⟩, raws) ∧ Inv L (mkS m' A ⟨vs, r⟩ B chan raws) O ∧ m'.vals = m.vals ∧ m'.dropped = m.dropped := by
  have hsh := i.shape ⟨vs, .inc h :: r⟩ (by simp [mkS])
  have hr0 : h.use ≠ 0 ∧ Tail1 vs r := by
    generalize e : (Act.inc h :: r : List (Act α)) = q at hsh
    simp only at hsh
    cases hsh with
    | tail _ h =>
      cases h with
      | tail _ h => cases h <;> cases e
      | dec h r h1 h2 => cases e
    | inc h r h1 h2 _ => cases e; exact ⟨h1, h2⟩
    | frees bs r hr =>
      cases bs with
      | nil => simp [frees] at e; rw [← e] at hr; cases hr
      | cons b bs => simp [frees] at e
    | _ => cases e
  have hh : h ∈ O := by
    rcases i.ref ⟨vs, .inc h :: r⟩ (by simp [mkS]) h (by simp [mentions, actRefs]) with h0 | h0
    · exact absurd h0 hr0.1
    · exact h0
  have hr := hr0.2
  have hc := i.useCovers hp hh
  have hc : m.covers h.use 8 = true := hc
  have ht : ∀ b, total (mkS m A ⟨vs, r⟩ B chan raws) b = total (mkS m A ⟨vs, .inc h :: r⟩ B chan raws) b + hits b h := by
    intro b
    rw [total_mk, total_mk]
    simp only [thW, todoW_cons, actW]
    omega
  refine ⟨{ m with cnt := fun b => if b = h.use then m.cnt h.use + 1 else m.cnt b }, ?_, ?_, rfl, rfl⟩
  · simp only [act, Mem.load, Mem.store, hc, guard_true', Option.bind_eq_bind, Option.bind_some]
  · refine ⟨?_, i.dis, i.pos, ?_, i.nod, ?_, i.uniq, ?_, ?_, i.chan⟩
    · have := i.blk
      simp only [mkS, flatMap_split, tblocks, List.flatMap_cons, actBlocks, List.nil_append] at this ⊢
      exact this
    · have := i.val
      simp only [mkS, flatMap_split, tvals, List.flatMap_cons, actVals, List.nil_append] at this ⊢
      exact this
    · intro k hk
      have h1 := i.cnt k hk
      have h2 := ht k.use
      have e : total (mkS { m with cnt := fun b => if b = h.use then m.cnt h.use + 1 else m.cnt b } A ⟨vs, r⟩ B chan raws) k.use = total (mkS m A ⟨vs, r⟩ B chan raws) k.use := rfl
      rw [e, h2]
      simp only [mkS] at h1 ⊢
      by_cases e : k = h
      · subst e
        rw [if_pos rfl, hits_self]
        omega
      · have e' : k.use ≠ h.use := fun e' => e (i.same hk hh e')
        rw [if_neg e', hits_ne (Ne.symm e')]
        omega
    · intro x hx
      simp only [mkS, List.mem_append, List.mem_cons] at hx
      rcases hx with hx | rfl | hx
      · exact i.shape x (by simp [mkS, hx])
      · exact .tail _ hr
      · exact i.shape x (by simp [mkS, hx])
    · intro x hx
      simp only [mkS, List.mem_append, List.mem_cons] at hx
      rcases hx with hx | rfl | hx
      · exact i.ref x (by simp [mkS, hx])
      · intro k hk
        exact i.ref ⟨vs, .inc h :: r⟩ (by simp [mkS]) k (mentions_cons.2 (.inl hk))
      · exact i.ref x (by simp [mkS, hx])

theorem flatMap_erase {β : Type} [DecidableEq β] {γ : Type} (f : β → List γ) {l : List β} {x : β} (h : x ∈ l) : l.flatMap f ~ f x ++ (l.erase x).flatMap f := by
  have := (List.perm_cons_erase h).flatMap_right f
  simpa using this

theorem destroy_frees (L : Layout) (h : Arc) : (destroyActs L h : List (Act α)) = .kdrop h.get :: frees (objBlocks L h) := by
  unfold destroyActs objBlocks frees
  split <;> rfl

/-- `_i_atomic_dec_and_test` and the branch. -/
theorem inv_dec (hp : Proper L) {m : Mem α} {A B : List (Thread α)} {vs : List (Option Arc)} {h : Arc} {r : List (Act α)} {chan : List Arc} {raws : List Nat} {O : List Arc}
    (i : Inv L (mkS m A ⟨vs, .dec h :: r⟩ B chan raws) O) (a : Nat) :
    ∃ m' t', act L a (.dec h) m ⟨vs, r⟩ raws = some (m', t', raws) ∧ (∃ O', Inv L (mkS m' A t' B chan raws) O') ∧ m'.vals = m.vals ∧ m'.dropped = m.dropped := by
  have hsh := i.shape ⟨vs, .dec h :: r⟩ (by simp [mkS])
  have hr0 : h.use ≠ 0 ∧ Tail vs r := by
    generalize e : (Act.dec h :: r : List (Act α)) = q at hsh
    simp only at hsh
    cases hsh with
    | tail _ h =>
      cases h with
      | tail _ h => cases h <;> cases e
      | dec h r h1 h2 => cases e; exact ⟨h1, h2⟩
    | frees bs r hr =>
      cases bs with
      | nil => simp [frees] at e; rw [← e] at hr; cases hr
      | cons b bs => simp [frees] at e
    | _ => cases e
  have hh : h ∈ O := by
    rcases i.ref ⟨vs, .dec h :: r⟩ (by simp [mkS]) h (by simp [mentions, actRefs]) with h0 | h0
    · exact absurd h0 hr0.1
    · exact h0
  have hr := hr0.2
  have hc : m.covers h.use 8 = true := i.useCovers hp hh
  have hk0 := i.cnt h hh
  let m' : Mem α := { m with cnt := fun b => if b = h.use then m.cnt h.use - 1 else m.cnt b }
  have ht : ∀ b, total (mkS m' A ⟨vs, r⟩ B chan raws) b = total (mkS m A ⟨vs, .dec h :: r⟩ B chan raws) b - hits b h := by
    intro b
    rw [total_mk, total_mk]
    simp only [thW, todoW_cons, actW]
    omega
  have hcnt : ∀ k ∈ O, m'.cnt k.use = total (mkS m' A ⟨vs, r⟩ B chan raws) k.use ∧ (k ≠ h → 1 ≤ total (mkS m' A ⟨vs, r⟩ B chan raws) k.use) := by
    intro k hk
    have h1 := i.cnt k hk
    rw [ht]
    simp only [mkS, m'] at h1 ⊢
    by_cases e : k = h
    · subst e
      rw [if_pos rfl, hits_self]
      exact ⟨by omega, fun e => absurd rfl e⟩
    · have e' : k.use ≠ h.use := fun e' => e (i.same hk hh e')
      rw [if_neg e', hits_ne (Ne.symm e')]
      omega
  have hshape : ∀ x ∈ A ++ ⟨vs, r⟩ :: B, Shape L x.vars x.todo := by
    intro x hx
    simp only [List.mem_append, List.mem_cons] at hx
    rcases hx with hx | rfl | hx
    · exact i.shape x (by simp [mkS, hx])
    · exact .tail _ (.tail _ hr)
    · exact i.shape x (by simp [mkS, hx])
  have href : ∀ x ∈ A ++ ⟨vs, r⟩ :: B, ∀ k ∈ mentions x, Ref O k := by
    intro x hx
    simp only [List.mem_append, List.mem_cons] at hx
    rcases hx with hx | rfl | hx
    · exact i.ref x (by simp [mkS, hx])
    · intro k hk
      exact i.ref ⟨vs, .dec h :: r⟩ (by simp [mkS]) k (mentions_cons.2 (.inl hk))
    · exact i.ref x (by simp [mkS, hx])
  have hl : act L a (.dec h) m ⟨vs, r⟩ raws = some (m', if m.cnt h.use - 1 = 0 then ⟨vs, destroyActs L h ++ r⟩ else ⟨vs, r⟩, raws) := by
    simp only [act, Mem.load, Mem.store, hc, guard_true', Option.bind_eq_bind, Option.bind_some, m']
  refine ⟨m', _, hl, ?_, rfl, rfl⟩
  by_cases hz : m.cnt h.use - 1 = 0
  · -- the last handle
    rw [if_pos hz]
    have h0 : total (mkS m' A ⟨vs, r⟩ B chan raws) h.use = 0 := by
      rw [← (hcnt h hh).1]
      simpa [m'] using hz
    have hne : ∀ k, Ref O k → (1 ≤ total (mkS m' A ⟨vs, r⟩ B chan raws) k.use) → Ref (O.erase h) k := by
      intro k hk h1
      rcases hk with hk | hk
      · exact .inl hk
      · refine .inr ((List.mem_erase_of_ne ?_).2 hk)
        rintro rfl
        omega
    have tl : ∀ k, k ∈ mentions (⟨vs, destroyActs L h ++ r⟩ : Thread α) → k ∈ mentions (⟨vs, r⟩ : Thread α) := by
      intro k hk
      rw [destroy_frees] at hk
      simp only [mentions, List.cons_append, List.flatMap_cons, List.flatMap_append, frees_refs, List.mem_append, actRefs, List.not_mem_nil, false_or] at hk ⊢
      exact hk
    have hus : ∀ k ∈ O.erase h, k ≠ h := by
      intro k hk e
      subst e
      have : O.Nodup := i.uniq.imp fun hne e => hne (by rw [e])
      exact (List.Nodup.mem_erase_iff this).1 hk |>.1 rfl
    refine ⟨O.erase h, ?_, i.dis, i.pos, ?_, i.nod, ?_, i.uniq.sublist List.erase_sublist, ?_, ?_, ?_⟩
    · have := i.blk
      have h2 := flatMap_erase (objBlocks L) hh
      rw [List.perm_iff_count] at this h2 ⊢
      intro b
      have h1 := this b
      have h2 := h2 b
      rw [destroy_frees]
      simp only [mkS, flatMap_split, tblocks, List.cons_append, List.flatMap_cons, List.flatMap_append, frees_blocks, actBlocks, List.nil_append, List.count_append, m'] at h1 h2 ⊢
      omega
    · have := i.val
      have h2 := (List.perm_cons_erase hh).map Arc.get
      rw [List.perm_iff_count] at this h2 ⊢
      intro b
      have h1 := this b
      have h2 := h2 b
      rw [destroy_frees]
      simp only [mkS, flatMap_split, tvals, List.cons_append, List.flatMap_cons, List.flatMap_append, frees_vals, actVals, List.nil_append, List.count_append, List.map_cons, List.count_cons, m', List.count_nil] at h1 h2 ⊢
      omega
    · intro k hk
      have hkO := List.mem_of_mem_erase hk
      have e : total (mkS m' A ⟨vs, destroyActs L h ++ r⟩ B chan raws) k.use = total (mkS m' A ⟨vs, r⟩ B chan raws) k.use := by
        apply total_eq
        rw [destroy_frees]
        simp only [thW, List.cons_append, todoW_cons, todoW_append, todoW_frees, actW]
        omega
      rw [e]
      exact ⟨(hcnt k hkO).1, (hcnt k hkO).2 (hus k hk)⟩
    · intro x hx
      simp only [mkS, List.mem_append, List.mem_cons] at hx
      rcases hx with hx | rfl | hx
      · exact hshape x (by simp [hx])
      · rw [destroy_frees]
        exact .kdrop _ _ _ (obj_get hp h) hr
      · exact hshape x (by simp [hx])
    · intro x hx k hk
      have hx' : ∃ y ∈ A ++ ⟨vs, r⟩ :: B, k ∈ mentions y := by
        simp only [mkS, List.mem_append, List.mem_cons] at hx
        rcases hx with hx | rfl | hx
        · exact ⟨x, by simp [hx], hk⟩
        · exact ⟨⟨vs, r⟩, by simp, tl k hk⟩
        · exact ⟨x, by simp [hx], hk⟩
      obtain ⟨y, hy, hky⟩ := hx'
      exact hne k (href y hy k hky) (total_pos hshape (.inl ⟨y, hy, hky⟩))
    · intro k hk
      exact hne k (i.chan k hk) (total_pos hshape (.inr hk))
  · rw [if_neg hz]
    refine ⟨O, ?_, i.dis, i.pos, ?_, i.nod, ?_, i.uniq, hshape, href, i.chan⟩
    · have := i.blk
      simp only [mkS, flatMap_split, tblocks, List.flatMap_cons, actBlocks, List.nil_append] at this ⊢
      exact this
    · have := i.val
      simp only [mkS, flatMap_split, tvals, List.flatMap_cons, actVals, List.nil_append] at this ⊢
      exact this
    · intro k hk
      refine ⟨(hcnt k hk).1, ?_⟩
      by_cases e : k = h
      · subst e
        rw [← (hcnt k hk).1]
        simp only [m', if_pos]
        simp only [mkS] at hk0
        omega
      · exact (hcnt k hk).2 e

theorem map_eraseP (l : List (Nat × α)) (g : Nat) : (l.eraseP fun e => e.1 == g).map Prod.fst = (l.map Prod.fst).erase g := by
  induction l with
  | nil => rfl
  | cons x l ih =>
    by_cases e : x.1 = g
    · simp [e]
    · simp [e, ih]

theorem lookup_isSome {l : List (Nat × α)} {g : Nat} (h : g ∈ l.map Prod.fst) : ∃ v, l.lookup g = some v := by
  induction l with
  | nil => simp at h
  | cons x l ih =>
    obtain ⟨y, v⟩ := x
    by_cases e : g = y
    · subst e; exact ⟨v, by simp [List.lookup]⟩
    · obtain ⟨w, hw⟩ := ih (by simpa [e] using h)
      exact ⟨w, by simp [List.lookup, beq_false_of_ne e, hw]⟩

/-- `i_keydrop`. -/
theorem inv_kdrop (hp : Proper L) {m : Mem α} {A B : List (Thread α)} {vs : List (Option Arc)} {g : Nat} {r : List (Act α)} {chan : List Arc} {raws : List Nat} {O : List Arc}
    (i : Inv L (mkS m A ⟨vs, .kdrop g :: r⟩ B chan raws) O) (a : Nat) :
    ∃ v, m.vals.lookup g = some v ∧
      act L a (.kdrop g) m ⟨vs, r⟩ raws = some ({ m with vals := m.vals.eraseP fun e => e.1 == g, dropped := m.dropped ++ [v] }, ⟨vs, r⟩, raws) ∧
      Inv L (mkS { m with vals := m.vals.eraseP fun e => e.1 == g, dropped := m.dropped ++ [v] } A ⟨vs, r⟩ B chan raws) O := by
  have hsh := i.shape ⟨vs, .kdrop g :: r⟩ (by simp [mkS])
  have hr0 : ∃ bs r', r = frees bs ++ r' ∧ Tail vs r' := by
    generalize e : (Act.kdrop g :: r : List (Act α)) = q at hsh
    simp only at hsh
    cases hsh with
    | tail _ h =>
      cases h with
      | tail _ h => cases h <;> cases e
      | dec h r h1 h2 => cases e
    | frees bs r hr =>
      cases bs with
      | nil => simp [frees] at e; rw [← e] at hr; cases hr
      | cons b bs => simp [frees] at e
    | kdrop g bs r' h1 h2 => cases e; exact ⟨bs, r', rfl, h2⟩
    | _ => cases e
  obtain ⟨bs, r', rfl, hr⟩ := hr0
  have hg : g ∈ m.vals.map Prod.fst := by
    have := i.val.mem_iff (a := g)
    refine this.2 ?_
    simp [mkS, tvals, actVals]
  obtain ⟨v, hv⟩ := lookup_isSome hg
  obtain ⟨b, hb, h1, h2⟩ := i.covered hp hg
  have hc : m.covers g L.sz = true := covers_of hb h1 h2
  refine ⟨v, hv, ?_, ?_⟩
  · simp only [act, Mem.kdrop, hc, hv, guard_true', Option.bind_eq_bind, Option.bind_some]
  · refine i.same_refs rfl ?_ (.frees _ _ hr) ?_ ?_ i.dis i.pos ?_ ?_
    · intro a _
      simp only [thW, todoW_cons, actW]; omega
    · intro h hh
      exact .inr (mentions_cons.2 (.inl hh))
    · have := i.blk
      simp only [mkS, flatMap_split, tblocks, List.flatMap_cons, actBlocks, List.nil_append] at this ⊢
      exact this
    · have := i.val
      simp only
      rw [map_eraseP]
      rw [List.perm_iff_count] at this ⊢
      intro b
      have h1 := this b
      rw [List.count_erase]
      have hgc := List.count_pos_iff.2 hg
      simp only [mkS, flatMap_split, tvals, List.flatMap_cons, actVals, List.count_append, List.count_cons, List.count_nil, beq_iff_eq] at h1 ⊢
      by_cases e : g = b
      · subst e; simp only [if_true] at h1 ⊢; omega
      · simp only [if_neg e, if_neg (Ne.symm e)] at h1 ⊢; omega
    · simp only
      rw [map_eraseP]
      exact i.nod.erase _

/-- `i_free`. -/
theorem inv_free {m : Mem α} {A B : List (Thread α)} {vs : List (Option Arc)} {p n : Nat} {r : List (Act α)} {chan : List Arc} {raws : List Nat} {O : List Arc}
    (i : Inv L (mkS m A ⟨vs, .free p n :: r⟩ B chan raws) O) (a : Nat) :
    act L a (.free p n) m ⟨vs, r⟩ raws = some ({ m with blocks := m.blocks.erase (p, n) }, ⟨vs, r⟩, raws) ∧
      Inv L (mkS { m with blocks := m.blocks.erase (p, n) } A ⟨vs, r⟩ B chan raws) O := by
  have hsh := i.shape ⟨vs, .free p n :: r⟩ (by simp [mkS])
  have hr0 : ∃ bs r', r = frees bs ++ r' ∧ Tail vs r' := by
    generalize e : (Act.free p n :: r : List (Act α)) = q at hsh
    simp only at hsh
    cases hsh with
    | tail _ h =>
      cases h with
      | tail _ h => cases h <;> cases e
      | dec h r h1 h2 => cases e
    | frees bs r hr =>
      cases bs with
      | nil => simp [frees] at e; rw [← e] at hr; cases hr
      | cons b bs =>
        simp only [frees, List.map_cons, List.cons_append, List.cons.injEq] at e
        exact ⟨bs, r, e.2, hr⟩
    | _ => cases e
  obtain ⟨bs, r', rfl, hr⟩ := hr0
  have hb : (p, n) ∈ m.blocks := by
    refine (i.blk.mem_iff (a := (p, n))).2 ?_
    simp [mkS, tblocks, actBlocks]
  refine ⟨?_, ?_⟩
  · simp only [act, Mem.free, hb, guard_true', Option.bind_eq_bind, Option.bind_some]
  · refine i.same_refs rfl ?_ (.frees _ _ hr) ?_ ?_ (i.dis.sublist List.erase_sublist) (fun b hb => i.pos b (List.mem_of_mem_erase hb)) ?_ i.nod
    · intro a _
      simp only [thW, todoW_cons, actW]; omega
    · intro h hh
      exact .inr (mentions_cons.2 (.inl hh))
    · have := i.blk
      rw [List.perm_iff_count] at this ⊢
      intro b
      have h1 := this b
      rw [List.count_erase]
      have hgc := List.count_pos_iff.2 hb
      simp only [mkS, flatMap_split, tblocks, List.flatMap_cons, actBlocks, List.count_append, List.count_cons, List.count_nil, beq_iff_eq] at h1 ⊢
      by_cases e : (p, n) = b
      · subst e; simp only [if_true] at h1 ⊢; omega
      · simp only [if_neg e, if_neg (Ne.symm e)] at h1 ⊢; omega
    · have := i.val
      simp only [mkS, flatMap_split, tvals, List.flatMap_cons, actVals, List.nil_append] at this ⊢
      exact this

/-- Storing a handle in a variable. -/
theorem inv_set {m : Mem α} {A B : List (Thread α)} {vs : List (Option Arc)} {x : Nat} {h : Arc} {r : List (Act α)} {chan : List Arc} {raws : List Nat} {O : List Arc}
    (i : Inv L (mkS m A ⟨vs, .set x h :: r⟩ B chan raws) O) :
    Inv L (mkS m A ((⟨vs, r⟩ : Thread α).put x h) B chan raws) O := by
  have hsh := i.shape ⟨vs, .set x h :: r⟩ (by simp [mkS])
  have hr0 : vs[x]? = some none ∧ r = [] := by
    generalize e : (Act.set x h :: r : List (Act α)) = q at hsh
    simp only at hsh
    have tl : Tail vs q → vs[x]? = some none ∧ r = [] := by
      intro h
      cases h with
      | nil => cases e
      | set x h h1 => cases e; exact ⟨h1, rfl⟩
      | ctl x p h1 => cases e
    cases hsh with
    | tail _ h =>
      cases h with
      | tail _ h => exact tl h
      | dec h r h1 h2 => cases e
    | frees bs r hr =>
      cases bs with
      | nil => exact tl hr
      | cons b bs => simp [frees] at e
    | _ => cases e
  obtain ⟨hv, rfl⟩ := hr0
  refine i.same_refs rfl ?_ (shape_nil _) ?_ ?_ i.dis i.pos ?_ i.nod
  · intro a _
    rw [thW_put a hv]
    simp only [thW, todoW_cons, actW]; omega
  · intro k hk
    rcases mentions_put hk with rfl | hk
    · exact .inr (mentions_cons.2 (.inr (by simp [actRefs])))
    · exact .inr (mentions_cons.2 (.inl hk))
  · have := i.blk
    simp only [mkS, flatMap_split, tblocks, List.flatMap_cons, actBlocks, List.nil_append, Thread.put] at this ⊢
    exact this
  · have := i.val
    simp only [mkS, flatMap_split, tvals, List.flatMap_cons, actVals, List.nil_append, Thread.put] at this ⊢
    exact this

theorem covers_self (m : Mem α) (a n b k : Nat) (h1 : a ≤ b) (h2 : b + k ≤ a + n) : (m.malloc a n).covers b k = true :=
  covers_of (b := (a, n)) (by simp [Mem.malloc]) h1 h2

/-- Nobody has a handle to a fresh address. -/
theorem total_fresh {m : Mem α} {A B : List (Thread α)} {t : Thread α} {chan : List Arc} {raws : List Nat} {O : List Arc}
    (i : Inv L (mkS m A t B chan raws) O) (hp : Proper L) {a n : Nat} (hf : Fresh m (a, n)) (hn : 0 < n) : total (mkS m A t B chan raws) a = 0 := by
  have hne : ∀ k, Ref O k → k.use ≠ a := by
    intro k hk
    rcases hk with hk | hk
    · rw [hk]; exact Ne.symm hf.1
    · exact i.freshUse (a := a) (n := n) hp hf hn hk
  have hz : ∀ x ∈ A ++ t :: B, thW a x = 0 := by
    intro x hx
    have hm := fun k hk => hne k (i.ref x (by simpa [mkS] using hx) k hk)
    obtain ⟨vs, cs⟩ := x
    have h1 : varW a vs = 0 := by
      have hm : ∀ k, some k ∈ vs → k.use ≠ a := fun k hk => hm k (by simp [mentions, hk])
      clear * - hm
      induction vs with
      | nil => rfl
      | cons v vs ih =>
        have := ih fun k hk => hm k (by simp [hk])
        simp only [varW, List.map_cons, List.sum_cons] at this ⊢
        rw [this]
        cases v with
        | none => rfl
        | some k => simp [optW, hits_ne (hm k (by simp))]
    have h2 : todoW a cs = 0 := by
      have hm : ∀ k, k ∈ cs.flatMap actRefs → k.use ≠ a := fun k hk => hm k (by simp only [mentions, List.mem_append]; exact .inr hk)
      clear * - hm
      induction cs with
      | nil => rfl
      | cons c cs ih =>
        have := ih fun k hk => hm k (by rw [List.flatMap_cons, List.mem_append]; exact .inr hk)
        rw [todoW_cons, this]
        have hm : ∀ k ∈ actRefs c, k.use ≠ a := fun k hk => hm k (by rw [List.flatMap_cons, List.mem_append]; exact .inl hk)
        cases c <;> simp [actW, actRefs] at hm ⊢ <;> exact hits_ne hm
    simp [thW, h1, h2]
  have h1 : ((A ++ t :: B).map (thW a)).sum = 0 := by
    generalize A ++ t :: B = l at hz
    clear * - hz
    induction l with
    | nil => rfl
    | cons x l ih =>
      rw [List.map_cons, List.sum_cons, hz x (by simp), ih fun y hy => hz y (by simp [hy])]
      rfl
  have h2 : (chan.map (hits a)).sum = 0 := by
    have hc : ∀ k ∈ chan, k.use ≠ a := fun k hk => hne k (i.chan k hk)
    clear * - hc
    induction chan with
    | nil => rfl
    | cons x l ih =>
      rw [List.map_cons, List.sum_cons, hits_ne (hc x (by simp)), ih fun y hy => hc y (by simp [hy])]
      rfl
  simp only [total, mkS, h1, h2]
  rfl

/-- A new object with its first handle, in a fresh block. -/
theorem inv_new (hp : Proper L) {m m' : Mem α} {A B : List (Thread α)} {vs : List (Option Arc)} {c : Act α} {x a n g : Nat} {chan : List Arc} {raws : List Nat} {O : List Arc}
    (i : Inv L (mkS m A ⟨vs, [c]⟩ B chan raws) O) (hf : Fresh m (a, n)) (hn : 0 < n) (hv : vs[x]? = some none) (hc : ∀ b, actW b c = 0) (hcr : actRefs c = [])
    (hcnt : m'.cnt = fun b => if b = a then 1 else m.cnt b)
    (blk : m'.blocks = (a, n) :: m.blocks)
    (hob : (a, n) :: actBlocks L c ~ objBlocks L ⟨g, a⟩)
    (val : m'.vals.map Prod.fst ~ O.map Arc.get ++ (A ++ ⟨vs, [c]⟩ :: B).flatMap tvals ++ raws ++ (if g ∈ actVals c then [] else [g])) (hav : actVals c = [] ∨ actVals c = [g])
    (nod : (m'.vals.map Prod.fst).Nodup) :
    Inv L (mkS m' A ((⟨vs, []⟩ : Thread α).put x ⟨g, a⟩) B chan raws) (⟨g, a⟩ :: O) := by
  have ht : ∀ b, total (mkS m' A ((⟨vs, []⟩ : Thread α).put x ⟨g, a⟩) B chan raws) b = total (mkS m A ⟨vs, [c]⟩ B chan raws) b + hits b ⟨g, a⟩ := by
    intro b
    rw [total_mk, total_mk, thW_put b hv]
    simp only [thW, todoW_cons, hc]
    omega
  have h0 := total_fresh i hp hf hn
  refine ⟨?_, ?_, ?_, ?_, nod, ?_, ?_, ?_, ?_, ?_⟩
  · have := i.blk
    show m'.blocks ~ _
    rw [blk]
    rw [List.perm_iff_count] at this hob ⊢
    intro b
    have h1 := this b
    have h2 := hob b
    simp only [mkS, flatMap_split, tblocks, List.flatMap_cons, List.flatMap_nil, List.append_nil, List.count_append, List.count_cons, List.count_nil, Thread.put] at h1 h2 ⊢
    omega
  · show m'.blocks.Pairwise _
    rw [blk]
    exact List.pairwise_cons.2 ⟨hf.2, i.dis⟩
  · show ∀ b ∈ m'.blocks, _
    rw [blk]
    intro b hb
    rcases List.mem_cons.1 hb with rfl | hb
    · exact hf.1
    · exact i.pos b hb
  · show m'.vals.map Prod.fst ~ _
    refine val.trans ?_
    rw [List.perm_iff_count]
    intro b
    simp only [mkS, flatMap_split, tvals, List.flatMap_cons, List.flatMap_nil, List.append_nil, List.count_append, List.map_cons, List.count_cons, List.count_nil, Thread.put]
    rcases hav with e | e
    · rw [e]; simp only [List.not_mem_nil, if_false, List.count_cons, List.count_nil]; omega
    · rw [e]; simp only [List.mem_singleton, if_true, List.count_cons, List.count_nil]; omega
  · intro k hk
    rw [ht]
    show m'.cnt k.use = _ ∧ _
    rw [hcnt]
    rcases List.mem_cons.1 hk with rfl | hk
    · simp only [if_true]
      rw [h0, show hits a ⟨g, a⟩ = 1 from if_pos rfl]
      omega
    · have e := i.freshUse (a := a) (n := n) hp hf hn hk
      have h1 := i.cnt k hk
      rw [hits_ne (by simpa using Ne.symm e)]
      simp only [if_neg e]
      simp only [mkS] at h1 ⊢
      omega
  · refine List.pairwise_cons.2 ⟨fun k hk e => ?_, i.uniq⟩
    exact i.freshUse (a := a) (n := n) hp hf hn hk e.symm
  · intro y hy
    simp only [mkS, List.mem_append, List.mem_cons] at hy
    rcases hy with hy | rfl | hy
    · exact i.shape y (by simp [mkS, hy])
    · exact shape_nil _
    · exact i.shape y (by simp [mkS, hy])
  · have up : ∀ k, Ref O k → Ref (⟨g, a⟩ :: O) k := fun k hk => hk.imp id fun hk => List.mem_cons_of_mem _ hk
    intro y hy k hk
    simp only [mkS, List.mem_append, List.mem_cons] at hy
    rcases hy with hy | rfl | hy
    · exact up k (i.ref y (by simp [mkS, hy]) k hk)
    · rcases mentions_put hk with rfl | hk
      · exact .inr (by simp)
      · exact up k (i.ref ⟨vs, [c]⟩ (by simp [mkS]) k (mentions_cons.2 (.inl hk)))
    · exact up k (i.ref y (by simp [mkS, hy]) k hk)
  · intro k hk
    exact (i.chan k hk).imp id fun hk => List.mem_cons_of_mem _ hk

/-- What a step leaves of the values: it destroys at most one, and creates what it says. -/
def Kept (c : Act α) (m m' : Mem α) : Prop := m'.dropped ++ m'.vals.map Prod.snd ~ m.dropped ++ m.vals.map Prod.snd ++ creates c

theorem kept_same {c : Act α} {m m' : Mem α} (h1 : m'.vals = m.vals) (h2 : m'.dropped = m.dropped) (hc : creates c = []) : Kept c m m' := by
  unfold Kept; rw [h1, h2, hc, List.append_nil]

theorem eraseP_perm {l : List (Nat × α)} {g : Nat} {v : α} (h : l.lookup g = some v) : l.map Prod.snd ~ v :: (l.eraseP fun e => e.1 == g).map Prod.snd := by
  induction l with
  | nil => simp at h
  | cons x l ih =>
    obtain ⟨y, w⟩ := x
    by_cases e : g = y
    · subst e
      simp [List.lookup] at h
      subst h
      simp
    · have h : l.lookup g = some v := by simpa [List.lookup, beq_false_of_ne e] using h
      have e' : (y == g) = false := beq_false_of_ne (Ne.symm e)
      rw [List.eraseP_cons]
      simp only [e', Bool.false_eq_true, if_false, List.map_cons]
      exact ((ih h).cons w).trans (List.Perm.swap ..)

theorem lookup_mem {l : List (Nat × α)} {g : Nat} {v : α} (h : l.lookup g = some v) : g ∈ l.map Prod.fst := by
  induction l with
  | nil => simp at h
  | cons x l ih =>
    obtain ⟨y, w⟩ := x
    by_cases e : g = y
    · simp [e]
    · have h : l.lookup g = some v := by simpa [List.lookup, beq_false_of_ne e] using h
      simp [ih h]

theorem lookup_eraseP_ne {l : List (Nat × α)} {g k : Nat} (h : k ≠ g) : (l.eraseP fun e => e.1 == g).lookup k = l.lookup k := by
  induction l with
  | nil => rfl
  | cons x l ih =>
    obtain ⟨y, w⟩ := x
    rw [List.eraseP_cons]
    by_cases e : y = g
    · subst e
      simp [List.lookup, beq_false_of_ne h]
    · have e' : (y == g) = false := beq_false_of_ne e
      simp only [e', cond_false, List.lookup]
      rw [ih]

/-- Values stay in place until they are destroyed. -/
def Stable (m m' : Mem α) : Prop := ∀ g v, m.value g = some v → g ∈ m'.vals.map Prod.fst → m'.value g = some v

theorem stable_same {m m' : Mem α} (h : m'.vals = m.vals) : Stable m m' := by
  intro g v hv _
  unfold Mem.value at hv ⊢
  rw [h]; exact hv

theorem stable_cons {m m' : Mem α} {g : Nat} {w : α} (h : m'.vals = (g, w) :: m.vals) (hg : g ∉ m.vals.map Prod.fst) : Stable m m' := by
  intro k v hv _
  unfold Mem.value at hv ⊢
  rw [h]
  have : k ≠ g := by rintro rfl; exact hg (lookup_mem hv)
  simp [List.lookup, beq_false_of_ne this, hv]

theorem tvals_single (vs : List (Option Arc)) (c : Act α) : tvals (⟨vs, [c]⟩ : Thread α) = actVals c := by simp [tvals]
theorem tblocks_single (vs : List (Option Arc)) (c : Act α) : tblocks L (⟨vs, [c]⟩ : Thread α) = actBlocks L c := by simp [tblocks]

theorem tail_ctl {vs : List (Option Arc)} {x p : Nat} {r : List (Act α)} (h : Shape L vs (.ctl x p :: r)) : vs[x]? = some none ∧ r = [] := by
  generalize e : (Act.ctl x p :: r : List (Act α)) = q at h
  have tl : Tail vs q → vs[x]? = some none ∧ r = [] := by
    intro h
    cases h with
    | nil => cases e
    | set x h h1 => cases e
    | ctl x p h1 => cases e; exact ⟨h1, rfl⟩
  cases h with
  | tail _ h =>
    cases h with
    | tail _ h => exact tl h
    | dec h r h1 h2 => cases e
  | frees bs r hr =>
    cases bs with
    | nil => exact tl hr
    | cons b bs => simp [frees] at e
  | _ => cases e

theorem shape_single {vs : List (Option Arc)} {c : Act α} {r : List (Act α)} (h : Shape L vs (c :: r)) :
    (∀ x v, c = .make x v → vs[x]? = some none ∧ r = []) ∧ (∀ v, c = .raw v → r = []) ∧
      (∀ x, c = .read x → r = [] ∧ ∃ h, vs[x]? = some (some h) ∧ h.use ≠ 0) ∧ (∀ x, c = .count x → r = [] ∧ ∃ h, vs[x]? = some (some h) ∧ h.use ≠ 0) := by
  generalize e : (c :: r : List (Act α)) = q at h
  have tl : Tail vs q → (∀ x v, c ≠ .make x v) ∧ (∀ v, c ≠ .raw v) ∧ (∀ x, c ≠ .read x) ∧ (∀ x, c ≠ .count x) := by
    intro h
    cases h <;> cases e <;> simp
  have fin : (∀ x v, c ≠ .make x v) ∧ (∀ v, c ≠ .raw v) ∧ (∀ x, c ≠ .read x) ∧ (∀ x, c ≠ .count x) → (∀ x v, c = .make x v → vs[x]? = some none ∧ r = []) ∧ (∀ v, c = .raw v → r = []) ∧
      (∀ x, c = .read x → r = [] ∧ ∃ h, vs[x]? = some (some h) ∧ h.use ≠ 0) ∧ (∀ x, c = .count x → r = [] ∧ ∃ h, vs[x]? = some (some h) ∧ h.use ≠ 0) :=
    fun ⟨h1, h2, h3, h4⟩ => ⟨fun x v e => absurd e (h1 x v), fun v e => absurd e (h2 v), fun x e => absurd e (h3 x), fun x e => absurd e (h4 x)⟩
  cases h with
  | tail _ h =>
    cases h with
    | tail _ h => exact fin (tl h)
    | dec h r h1 h2 => cases e; simp
  | frees bs r hr =>
    cases bs with
    | nil => exact fin (tl hr)
    | cons b bs =>
      simp only [frees, List.map_cons, List.cons_append, List.cons.injEq] at e
      rw [e.1]; simp
  | inc h r h1 h2 _ => cases e; simp
  | kdrop g bs r' h1 h2 => cases e; simp
  | make x v h => cases e; simpa using h
  | raw v => cases e; simp
  | read x k h1 h2 => cases e; simp; exact ⟨k, h1, h2⟩
  | count x k h1 h2 => cases e; simp; exact ⟨k, h1, h2⟩

/-- Every step of a call in progress is defined and keeps the invariant. -/
theorem inv_act (hp : Proper L) {m : Mem α} {A B : List (Thread α)} {vs : List (Option Arc)} {c : Act α} {r : List (Act α)} {chan : List Arc} {raws : List Nat} {O : List Arc}
    (i : Inv L (mkS m A ⟨vs, c :: r⟩ B chan raws) O) (a : Nat) (hf : ∀ z, needs L c = some z → Fresh m (a, z)) :
    ∃ m' t' raws', act L a c m ⟨vs, r⟩ raws = some (m', t', raws') ∧ (∃ O', Inv L (mkS m' A t' B chan raws') O') ∧ Kept c m m' ∧ Stable m m' := by
  have hsh : Shape L vs (c :: r) := i.shape ⟨vs, c :: r⟩ (by simp [mkS])
  have hsg := shape_single hsh
  cases c with
  | inc h =>
    obtain ⟨m', h1, h2, h3, h4⟩ := inv_inc hp i a
    exact ⟨m', _, _, h1, ⟨O, h2⟩, kept_same h3 h4 rfl, stable_same h3⟩
  | dec h =>
    obtain ⟨m', t', h1, h2, h3, h4⟩ := inv_dec hp i a
    exact ⟨m', t', _, h1, h2, kept_same h3 h4 rfl, stable_same h3⟩
  | kdrop g =>
    obtain ⟨v, h0, h1, h2⟩ := inv_kdrop hp i a
    refine ⟨_, _, _, h1, ⟨O, h2⟩, ?_, ?_⟩
    · unfold Kept
      simp only [creates, List.append_nil, List.append_assoc]
      refine List.Perm.append_left _ ?_
      exact (eraseP_perm h0).symm
    · intro k w hk hm
      simp only at hm
      rw [map_eraseP] at hm
      have : k ≠ g := ((i.nod.mem_erase_iff).1 hm).1
      unfold Mem.value at hk ⊢
      simp only
      rw [lookup_eraseP_ne this]
      exact hk
  | free p n =>
    obtain ⟨h1, h2⟩ := inv_free i a
    exact ⟨_, _, _, h1, ⟨O, h2⟩, kept_same rfl rfl rfl, stable_same rfl⟩
  | set x h => exact ⟨_, _, _, rfl, ⟨O, inv_set i⟩, kept_same rfl rfl rfl, stable_same rfl⟩
  | make x v =>
    obtain ⟨hv, rfl⟩ := hsg.1 x v rfl
    have hfr := hf _ rfl
    have o1 := hp.off
    have o2 := hp.rep
    have o3 := hp.sz
    have hc1 : (m.malloc a L.rep).covers a 8 = true := covers_self m a L.rep a 8 (Nat.le_refl _) (by omega)
    have hc2 : ({ (m.malloc a L.rep) with cnt := fun b => if b = a then 1 else (m.malloc a L.rep).cnt b } : Mem α).covers (a + L.off) L.sz = true :=
      covers_self m a L.rep (a + L.off) L.sz (by omega) (by omega)
    have hg := i.freshVal (g := a + L.off) hp hfr (by omega) (by omega)
    refine ⟨⟨(a, L.rep) :: m.blocks, fun b => if b = a then 1 else m.cnt b, (a + L.off, v) :: m.vals, m.dropped⟩, _, _, ?_, ⟨_, inv_new (g := a + L.off) hp i hfr (by omega) hv (fun _ => rfl) rfl rfl rfl ?_ ?_ (.inl rfl) ?_⟩, ?_, ?_⟩
    · simp only [act, Mem.store, Mem.put, hc1, hc2, guard_true', Option.bind_eq_bind, Option.bind_some]
      rfl
    · simp [objBlocks, actBlocks]
    · have := i.val
      simp only [List.map_cons, actVals, List.not_mem_nil, if_false]
      exact (List.Perm.cons _ this).trans (List.perm_append_singleton ..).symm
    · exact List.nodup_cons.2 ⟨hg, i.nod⟩
    · unfold Kept
      simp only [List.map_cons, creates, List.append_assoc]
      exact List.Perm.append_left _ (List.perm_append_singleton ..).symm
    · exact stable_cons rfl hg
  | ctl x p =>
    obtain ⟨hv, rfl⟩ := tail_ctl hsh
    by_cases hp0 : p = 0
    · subst hp0
      refine ⟨m, _, _, rfl, ⟨O, ?_⟩, kept_same rfl rfl rfl, stable_same rfl⟩
      refine i.same_refs rfl ?_ (shape_nil _) ?_ ?_ i.dis i.pos ?_ i.nod
      · intro b hb
        rw [thW_put b hv]
        have : hits b Arc.null = 0 := hits_ne (by simpa [Arc.null] using Ne.symm hb)
        simp only [thW, todoW_cons, actW, this]; omega
      · intro k hk
        rcases mentions_put hk with rfl | hk
        · exact .inl rfl
        · exact .inr (mentions_cons.2 (.inl hk))
      · have := i.blk
        simp [mkS, tblocks, actBlocks, Thread.put] at this ⊢
        exact this
      · have := i.val
        simp [mkS, tvals, actVals, Thread.put] at this ⊢
        exact this
    · have hfr := hf (L.off + 4) (by simp [needs, hp0])
      have o1 := hp.off
      have o2 := hp.rep
      have o3 := hp.sz
      have hc1 : (m.malloc a (L.off + 4)).covers a 8 = true := covers_self m a (L.off + 4) a 8 (Nat.le_refl _) (by omega)
      have hb : (p, L.sz) ∈ m.blocks := by
        refine (i.blk.mem_iff (a := (p, L.sz))).2 ?_
        simp [mkS, tblocks, actBlocks, hp0]
      have hne : a + L.off ≠ p := by
        have := hfr.2 _ hb
        unfold Apart at this
        simp only at this
        omega
      refine ⟨⟨(a, L.off + 4) :: m.blocks, fun b => if b = a then 1 else m.cnt b, m.vals, m.dropped⟩, _, _, ?_, ⟨_, inv_new (g := p) hp i hfr (by omega) hv (fun _ => rfl) rfl rfl rfl ?_ ?_ (.inr (by simp [actVals, hp0])) i.nod⟩, kept_same rfl rfl rfl, stable_same rfl⟩
      · simp only [act, Mem.store, hc1, guard_true', Option.bind_eq_bind, Option.bind_some, ne_eq, hp0, not_false_eq_true, if_true]
        rfl
      · simp [objBlocks, actBlocks, hp0, hne]
      · have := i.val
        simp only [actVals, ne_eq, hp0, not_false_eq_true, if_true, List.mem_singleton, List.append_nil]
        exact this
  | raw v =>
    obtain rfl := hsg.2.1 v rfl
    have hfr := hf _ rfl
    have o3 := hp.sz
    have hc1 : (m.malloc a L.sz).covers a L.sz = true := covers_self m a L.sz a L.sz (Nat.le_refl _) (Nat.le_refl _)
    have hg := i.freshVal (g := a) hp hfr (Nat.le_refl _) (Nat.le_refl _)
    refine ⟨⟨(a, L.sz) :: m.blocks, m.cnt, (a, v) :: m.vals, m.dropped⟩, ⟨vs, []⟩, a :: raws, ?_, ⟨O, ?_⟩, ?_, stable_cons rfl hg⟩
    · simp only [act, Mem.put, hc1, guard_true', Option.bind_eq_bind, Option.bind_some]
      rfl
    · refine i.same_refs rfl ?_ (shape_nil _) ?_ ?_ (List.pairwise_cons.2 ⟨hfr.2, i.dis⟩) ?_ ?_ (List.nodup_cons.2 ⟨hg, i.nod⟩)
      · intro b _
        simp only [thW, todoW_cons, actW]; omega
      · intro h hh
        exact .inr (mentions_cons.2 (.inl hh))
      · have := i.blk
        rw [List.perm_iff_count] at this ⊢
        intro b
        have h1 := this b
        simp only [mkS, flatMap_split, tblocks, List.flatMap_cons, List.flatMap_nil, actBlocks, List.append_nil, List.count_append, List.count_cons, List.count_nil, List.map_cons] at h1 ⊢
        omega
      · intro b hb
        rcases List.mem_cons.1 hb with rfl | hb
        · exact hfr.1
        · exact i.pos b hb
      · have := i.val
        rw [List.perm_iff_count] at this ⊢
        intro b
        have h1 := this b
        simp only [mkS, flatMap_split, tvals, List.flatMap_cons, List.flatMap_nil, actVals, List.append_nil, List.count_append, List.count_cons, List.count_nil, List.map_cons] at h1 ⊢
        omega
    · unfold Kept
      simp only [List.map_cons, creates, List.append_assoc]
      exact List.Perm.append_left _ (List.perm_append_singleton ..).symm
  | read x =>
    obtain ⟨rfl, h, hx, h0⟩ := hsg.2.2.1 x rfl
    have hh : h ∈ O := by
      rcases i.ref ⟨vs, [.read x]⟩ (by simp [mkS]) h (by simp [mentions]; exact .inl (List.mem_of_getElem? hx)) with e | e
      · exact absurd e h0
      · exact e
    have hg : h.get ∈ m.vals.map Prod.fst := by
      refine (i.val.mem_iff (a := h.get)).2 ?_
      simp only [List.mem_append, List.mem_map]
      exact .inl (.inl ⟨h, hh, rfl⟩)
    obtain ⟨v, hv⟩ := lookup_isSome hg
    refine ⟨m, ⟨vs, []⟩, raws, ?_, ⟨O, ?_⟩, kept_same rfl rfl rfl, stable_same rfl⟩
    · simp only [act, Thread.var, hx, Option.join_some, Mem.value, hv, Option.bind_eq_bind, Option.bind_some]
    · refine i.same_refs rfl ?_ (shape_nil _) ?_ ?_ i.dis i.pos ?_ i.nod
      · intro b _
        simp only [thW, todoW_cons, actW]; omega
      · intro k hk
        exact .inr (mentions_cons.2 (.inl hk))
      · have := i.blk
        simp [mkS, tblocks, actBlocks] at this ⊢
        exact this
      · have := i.val
        simp [mkS, tvals, actVals] at this ⊢
        exact this
  | count x =>
    obtain ⟨rfl, h, hx, h0⟩ := hsg.2.2.2 x rfl
    have hh : h ∈ O := by
      rcases i.ref ⟨vs, [.count x]⟩ (by simp [mkS]) h (by simp [mentions]; exact .inl (List.mem_of_getElem? hx)) with e | e
      · exact absurd e h0
      · exact e
    have hc : m.covers h.use 8 = true := i.useCovers hp hh
    refine ⟨m, ⟨vs, []⟩, raws, ?_, ⟨O, ?_⟩, kept_same rfl rfl rfl, stable_same rfl⟩
    · simp only [act, Thread.var, hx, Option.join_some, Mem.load, hc, guard_true', Option.bind_eq_bind, Option.bind_some]
    · refine i.same_refs rfl ?_ (shape_nil _) ?_ ?_ i.dis i.pos ?_ i.nod
      · intro b _
        simp only [thW, todoW_cons, actW]; omega
      · intro k hk
        exact .inr (mentions_cons.2 (.inl hk))
      · have := i.blk
        simp [mkS, tblocks, actBlocks] at this ⊢
        exact this
      · have := i.val
        simp [mkS, tvals, actVals] at this ⊢
        exact this

end Verif.Arc
