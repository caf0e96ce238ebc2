import Verif.Coro.FiberSpec
import Mathlib.Tactic.Common
/- Lemmas about the fiber scheduler. -/
namespace Verif.Coro
open Spec

theorem seg_append {n : Nat → Nat} : ∀ {l : List Nat} {a x b : Nat} {m : List Nat}, Seg n a (l ++ x :: m) b ↔ Seg n a l x ∧ Seg n x m b
  | [], a, x, b, m => Iff.rfl
  | y :: l, a, x, b, m => by
    simp only [List.cons_append, Seg, seg_append (l := l), and_assoc]

theorem seg_set {n : Nat → Nat} {y z : Nat} : ∀ {l : List Nat} {a b : Nat}, y ∉ a :: l → Seg n a l b → Seg (setNext n y z) a l b
  | [], a, b, h, hs => by
    have h : y ≠ a := by simpa using h
    have : a ≠ y := Ne.symm h
    simp only [Seg, setNext, if_neg this]
    exact hs
  | x :: l, a, b, h, hs => by
    have h' : y ≠ a ∧ y ≠ x ∧ y ∉ l := by simpa using h
    have : a ≠ y := Ne.symm h'.1
    refine ⟨by simp only [setNext, if_neg this]; exact hs.1, seg_set (by simp [h'.2]) hs.2⟩

/-- The circle written from another member. -/
theorem isRing_rot {s : Ring} {p c : Nat} {A B : List Nat} (h : IsRing s p (A ++ c :: B)) : IsRing s c (B ++ p :: A) := by
  have hp : (p :: (A ++ c :: B)).Perm (c :: (B ++ p :: A)) := by
    rw [List.perm_iff_count]; intro x
    simp only [List.count_append, List.count_cons]; omega
  have hs := seg_append.1 h.seg
  exact ⟨seg_append.2 ⟨hs.2, hs.1⟩, hp.nodup_iff.1 h.nodup, h.live.trans hp, fun e => h.pos (hp.mem_iff.2 e), h.made⟩

theorem isRing_next_pos {s : Ring} {p : Nat} {rest : List Nat} (h : IsRing s p rest) : s.next p ∈ p :: rest := by
  cases rest with
  | nil => rw [show s.next p = p from h.seg]; simp
  | cons c t => rw [h.seg.1]; simp

theorem isRing_turn {s : Ring} {p : Nat} {rest : List Nat} (h : IsRing s p rest) : s.next p = turn (p :: rest) := by
  cases rest with
  | nil => exact h.seg
  | cons c t => exact h.seg.1

theorem insAfter_not_mem {x a : Nat} : ∀ {l : List Nat}, x ∉ l → insAfter x a l = l
  | [], _ => rfl
  | y :: l, h => by
    have h : x ≠ y ∧ x ∉ l := by simpa using h
    rw [insAfter, if_neg (Ne.symm h.1), insAfter_not_mem h.2]

theorem insAfter_split {x a : Nat} : ∀ {A B : List Nat}, x ∉ A → insAfter x a (A ++ x :: B) = A ++ x :: a :: B
  | [], B, _ => by simp [insAfter]
  | y :: A, B, h => by
    have h : x ≠ y ∧ x ∉ A := by simpa using h
    rw [List.cons_append, insAfter, if_neg (Ne.symm h.1), insAfter_split h.2]
    rfl

theorem insAfter_perm {x a : Nat} {l : List Nat} (h : x ∈ l) : (insAfter x a l).Perm (a :: l) := by
  induction l with
  | nil => cases h
  | cons y l ih =>
    rw [insAfter]
    by_cases e : y = x
    · rw [if_pos e]
      exact List.Perm.swap _ _ _
    · rw [if_neg e]
      have : x ∈ l := by
        rcases List.mem_cons.1 h with h | h
        · exact absurd h.symm e
        · exact h
      exact ((ih this).cons y).trans (List.Perm.swap _ _ _)

/-- Splitting a member off at its first occurrence. -/
theorem mem_split_first {x : Nat} : ∀ {l : List Nat}, x ∈ l → ∃ A B, l = A ++ x :: B ∧ x ∉ A
  | [], h => by cases h
  | y :: l, h => by
    by_cases e : x = y
    · exact ⟨[], l, by simp [e], by simp⟩
    · have : x ∈ l := by
        rcases List.mem_cons.1 h with h | h
        · exact absurd h e
        · exact h
      obtain ⟨A, B, rfl, hA⟩ := mem_split_first this
      exact ⟨y :: A, B, rfl, by simp [e, hA]⟩

/-- Spawning behind the head. -/
theorem spawn_head {s : Ring} {p : Nat} {rest : List Nat} (h : IsRing s p rest) {a : Nat} (ha : a ∉ p :: rest) (h0 : a ≠ 0) :
    ∃ s', spawn s p a = some s' ∧ IsRing s' p (a :: rest) ∧ s'.freed = s.freed ∧ s'.resumed = s.resumed := by
  have hn : s.next p ≠ 0 := fun e => h.pos (e ▸ isRing_next_pos h)
  have hl : p ∈ s.live := h.live.mem_iff.2 (by simp)
  have hap : a ≠ p := by intro e; exact ha (by simp [e])
  refine ⟨{ s with next := setNext (setNext s.next a (s.next p)) p a, live := a :: s.live, made := a :: s.made }, ?_, ⟨?_, ?_, ?_, ?_, ?_⟩, rfl, rfl⟩
  · unfold spawn
    rw [guard_pos hl]
    simp only [Option.bind_eq_bind, Option.bind_some, if_neg hn]
  · refine ⟨by simp [setNext], ?_⟩
    have e : setNext (setNext s.next a (s.next p)) p a a = s.next p := by simp [setNext, hap]
    cases rest with
    | nil =>
      show setNext (setNext s.next a (s.next p)) p a a = p
      rw [e]; exact h.seg
    | cons c t =>
      refine ⟨by show setNext (setNext s.next a (s.next p)) p a a = c; rw [e]; exact h.seg.1, ?_⟩
      have hd := List.nodup_cons.1 h.nodup
      exact seg_set hd.1 (seg_set (fun e => ha (by simp only [List.mem_cons] at e ⊢; exact .inr e)) h.seg.2)
  · have hd := List.nodup_cons.1 h.nodup
    have ha' : a ∉ rest := fun e => ha (by simp [e])
    exact List.nodup_cons.2 ⟨by simp only [List.mem_cons, not_or]; exact ⟨Ne.symm hap, hd.1⟩, List.nodup_cons.2 ⟨ha', hd.2⟩⟩
  · exact (h.live.cons a).trans (List.Perm.swap _ _ _)
  · intro e
    have hpos := h.pos
    simp only [List.mem_cons, not_or] at hpos e
    rcases e with e | e | e
    · exact hpos.1 e
    · exact h0 e.symm
    · exact hpos.2 e
  · exact (h.made.cons a)

/-- Spawning behind any member. -/
theorem spawn_ok {s : Ring} {p : Nat} {rest : List Nat} (h : IsRing s p rest) {x a : Nat} (hx : x ∈ p :: rest) (ha : a ∉ p :: rest) (h0 : a ≠ 0) :
    ∃ s' rest', spawn s x a = some s' ∧ IsRing s' p rest' ∧ p :: rest' = insAfter x a (p :: rest) ∧ s'.freed = s.freed ∧ s'.resumed = s.resumed := by
  by_cases e : x = p
  · subst e
    obtain ⟨s', h1, h2, h3, h4⟩ := spawn_head h ha h0
    exact ⟨s', a :: rest, h1, h2, by simp [insAfter], h3, h4⟩
  · have hx' : x ∈ rest := by
      rcases List.mem_cons.1 hx with h | h
      · exact absurd h e
      · exact h
    obtain ⟨A, B, rfl, hA⟩ := mem_split_first hx'
    have hr := isRing_rot h
    have hm : a ∉ x :: (B ++ p :: A) := by
      intro e; apply ha
      simp only [List.mem_cons, List.mem_append] at e ⊢
      tauto
    obtain ⟨s', h1, h2, h3, h4⟩ := spawn_head hr hm h0
    have h2' : IsRing s' x ((a :: B) ++ p :: A) := h2
    refine ⟨s', A ++ x :: a :: B, h1, isRing_rot h2', ?_, h3, h4⟩
    rw [insAfter, if_neg (Ne.symm e), insAfter_split hA]

theorem insAfter_head {x a p : Nat} {rest : List Nat} : ∃ r, insAfter x a (p :: rest) = p :: r := by
  rw [insAfter]; by_cases e : p = x <;> simp [e]

theorem insAll_head {p : Nat} : ∀ {sp : List (Nat × Nat)} {rest : List Nat}, ∃ r, insAll (p :: rest) sp = p :: r
  | [], rest => ⟨rest, rfl⟩
  | x :: sp, rest => by
    obtain ⟨r, hr⟩ := @insAfter_head x.1 x.2 p rest
    rw [insAll, hr]
    exact insAll_head

theorem spawns_ok {p : Nat} : ∀ {sp : List (Nat × Nat)} {s : Ring} {rest : List Nat}, IsRing s p rest → ValidSpawns (p :: rest) sp →
    ∃ s' rest', spawns s sp = some s' ∧ IsRing s' p rest' ∧ p :: rest' = insAll (p :: rest) sp ∧ s'.freed = s.freed ∧ s'.resumed = s.resumed
  | [], s, rest, h, _ => ⟨s, rest, rfl, h, rfl, rfl, rfl⟩
  | x :: sp, s, rest, h, hv => by
    obtain ⟨hx, ha, h0, hv⟩ := hv
    obtain ⟨s1, r1, e1, h1, e2, e3, e4⟩ := spawn_ok h hx ha h0
    rw [← e2] at hv
    obtain ⟨s2, r2, f1, f2, f3, f4, f5⟩ := spawns_ok h1 hv
    refine ⟨s2, r2, ?_, f2, ?_, f4.trans e3, f5.trans e4⟩
    · rw [spawns, e1]; exact f1
    · rw [f3, e2, insAll]

/-- Without a spawn behind the head, the second member stays in place. -/
theorem insAll_second {p c : Nat} (hpc : p ≠ c) : ∀ {sp : List (Nat × Nat)} {t : List Nat}, (∀ x ∈ sp, x.1 ≠ p) → ∃ B, insAll (p :: c :: t) sp = p :: c :: B
  | [], t, _ => ⟨t, rfl⟩
  | x :: sp, t, h => by
    have hx : x.1 ≠ p := h x (by simp)
    rw [insAll, insAfter, if_neg (Ne.symm hx), insAfter]
    by_cases e : c = x.1
    · rw [if_pos e]; exact insAll_second hpc (fun y hy => h y (by simp [hy]))
    · rw [if_neg e]; exact insAll_second hpc (fun y hy => h y (by simp [hy]))

theorem insAfter_mem {x a y : Nat} {l : List Nat} (h : y ∈ l) : y ∈ insAfter x a l := by
  by_cases e : x ∈ l
  · exact (insAfter_perm e).mem_iff.2 (by simp [h])
  · rw [insAfter_not_mem e]; exact h

theorem insAll_mem {y : Nat} : ∀ {sp : List (Nat × Nat)} {l : List Nat}, y ∈ l → y ∈ insAll l sp
  | [], _, h => h
  | _ :: sp, _, h => insAll_mem (sp := sp) (insAfter_mem h)

theorem rotTo_split {c : Nat} {A B : List Nat} (h : c ∉ A) : rotTo c (A ++ c :: B) = c :: (B ++ A) := by
  have h1 : ∀ x ∈ A, (x != c) = true := by
    intro x hx
    have : x ≠ c := fun e => h (e ▸ hx)
    simpa using this
  unfold rotTo
  rw [List.dropWhile_append_of_pos h1, List.takeWhile_append_of_pos h1]
  simp

/-- One resume of the scheduler is one step of the round-robin list. -/
theorem resumeNext_ok {s : Ring} {p : Nat} {rest : List Nat} (h : IsRing s p rest) {e : Ev} (hv : ValidSpawns (p :: rest) e.spawns) (hl : NoLoss (p :: rest) e) :
    ∃ s' it, resumeNext s p e = some (s', it) ∧ s'.resumed = s.resumed ++ [turn (p :: rest)] ∧
      (step (p :: rest) e = [] → it = 0 ∧ s'.live = [] ∧ s'.made.Perm s'.freed) ∧
      (∀ q r, step (p :: rest) e = q :: r → it = q ∧ IsRing s' q r) ∧
      s'.freed = (if e.done then turn (p :: rest) :: s.freed else s.freed) := by
  have hc := isRing_turn h
  have hcm : s.next p ∈ p :: rest := isRing_next_pos h
  have hr0 : IsRing { s with resumed := s.resumed ++ [s.next p] } p rest := ⟨h.seg, h.nodup, h.live, h.pos, h.made⟩
  obtain ⟨s2, r2, e1, h2, e2, e3, e4⟩ := spawns_ok hr0 hv
  have hrun : resumeNext s p e = some (afterResume s2 p (s.next p) e.done) := by
    unfold resumeNext
    rw [guard_pos (h.live.mem_iff.2 (by simp))]
    simp only [Option.bind_eq_bind, Option.bind_some]
    rw [guard_pos (h.live.mem_iff.2 hcm)]
    simp only [Option.bind_some, e1]
  rw [hrun, hc]
  rw [hc] at e4 hcm
  have hturn : turn (p :: rest) ∈ p :: r2 := by rw [e2]; exact insAll_mem hcm
  have hres : (afterResume s2 p (turn (p :: rest)) e.done).1.resumed = s2.resumed := by
    unfold afterResume; by_cases hd : e.done <;> simp [hd]
  refine ⟨(afterResume s2 p (turn (p :: rest)) e.done).1, (afterResume s2 p (turn (p :: rest)) e.done).2, rfl, hres.trans e4, ?_⟩
  by_cases hd : e.done
  swap
  · -- not done
    have hst : step (p :: rest) e = rotTo (turn (p :: rest)) (p :: r2) := by
      unfold step; rw [← e2]; simp [hd]
    have ha : afterResume s2 p (turn (p :: rest)) e.done = (s2, turn (p :: rest)) := by unfold afterResume; simp [hd]
    rw [ha, hst, if_neg hd]
    obtain ⟨A, B, hAB, hA⟩ := mem_split_first hturn
    rw [hAB, rotTo_split hA]
    refine ⟨(fun h => by cases h), fun q r hq => ?_, e3⟩
    cases hq
    refine ⟨rfl, ?_⟩
    cases A with
    | nil =>
      simp only [List.nil_append, List.cons.injEq] at hAB
      rw [← hAB.1]
      simpa [hAB.2] using h2
    | cons a A =>
      simp only [List.cons_append, List.cons.injEq] at hAB
      obtain ⟨rfl, rfl⟩ := hAB
      exact isRing_rot h2
  · -- done
    have hn := hl hd
    have hsp : ∀ x ∈ e.spawns, x.1 ≠ p := by
      intro x hx e
      exact hn x hx (by simp [e])
    have hst : step (p :: rest) e = (rotTo (turn (p :: rest)) (p :: r2)).tail := by
      unfold step; rw [← e2]; simp [hd]
    rw [hst, if_pos hd]
    cases rest with
    | nil =>
      have hemp : e.spawns = [] := by
        cases hs : e.spawns with
        | nil => rfl
        | cons x xs =>
          rw [hs] at hv hsp
          have := hv.1
          exact absurd (by simpa using this) (hsp x (by simp))
      rw [hemp] at e2
      simp only [insAll, List.cons.injEq, true_and] at e2
      subst e2
      have ht : turn [p] = p := rfl
      have hrot : rotTo p [p] = [p] := by simpa using rotTo_split (c := p) (A := []) (B := []) (by simp)
      rw [ht, hrot]
      have hlv : s2.live = [p] := List.perm_singleton.1 h2.live
      unfold afterResume
      simp only [hd, if_true, hlv]
      refine ⟨fun _ => ⟨trivial, by simp, ?_⟩, (fun q r hq => by cases hq), by rw [e3]⟩
      have hm := h2.made
      rw [hlv] at hm
      exact hm
    | cons c t =>
      have hpc : p ≠ c := by
        have := (List.nodup_cons.1 h.nodup).1
        intro e; exact this (by simp [e])
      obtain ⟨B, hB⟩ := insAll_second hpc (t := t) hsp
      rw [hB] at e2
      simp only [List.cons.injEq, true_and] at e2
      subst e2
      have ht : turn (p :: c :: t) = c := rfl
      have hrot : rotTo c (p :: c :: B) = c :: (B ++ [p]) := by
        simpa using rotTo_split (c := c) (A := [p]) (B := B) (by simpa using Ne.symm hpc)
      rw [ht, hrot]
      unfold afterResume
      simp only [hd, if_true, if_neg (Ne.symm hpc), List.tail_cons]
      refine ⟨(fun h => by simp at h), fun q r hq => ?_, by rw [e3]⟩
      have hcl : c ∈ s2.live := h2.live.mem_iff.2 (by simp)
      have hnd := h2.nodup
      have hlive : (s2.live.erase c).Perm (B ++ [p]) := by
        have h3 := h2.live.erase c
        have : (p :: c :: B).erase c = p :: B := by
          rw [List.erase_cons_tail (by simpa using hpc), List.erase_cons_head]
        rw [this] at h3
        exact h3.trans (List.perm_append_singleton p B).symm
      have hmade : s2.made.Perm (s2.live.erase c ++ c :: s2.freed) := by
        have h3 := List.perm_cons_erase hcl
        refine h2.made.trans ((h3.append_right _).trans ?_)
        exact (List.perm_middle (l₁ := s2.live.erase c) (a := c) (l₂ := s2.freed)).symm
      have hnd2 : (B ++ [p]).Nodup := by
        have h3 := List.nodup_cons.1 h2.nodup
        have h4 := List.nodup_cons.1 h3.2
        rw [(List.perm_append_singleton p B).nodup_iff]
        exact List.nodup_cons.2 ⟨fun e => h3.1 (by simp [e]), h4.2⟩
      have hp2 : 0 ∉ B ++ [p] := by
        intro e; apply h2.pos
        simp only [List.mem_append, List.mem_cons, List.not_mem_nil, or_false] at e ⊢
        tauto
      have hpB : p ∉ B := by
        have := (List.nodup_cons.1 h2.nodup).1
        intro e; exact this (by simp [e])
      cases B with
      | nil =>
        simp only [List.nil_append, List.cons.injEq] at hq
        obtain ⟨rfl, rfl⟩ := hq
        have e5 : s2.next c = p := h2.seg.2
        refine ⟨e5, ?_, by simp, hlive, hp2, hmade⟩
        show setNext s2.next p (s2.next c) p = p
        rw [e5]; simp [setNext]
      | cons x B =>
        simp only [List.cons_append, List.cons.injEq] at hq
        obtain ⟨rfl, rfl⟩ := hq
        have e5 : s2.next c = x := h2.seg.2.1
        refine ⟨e5, ?_, hnd2, hlive, hp2, hmade⟩
        refine seg_append.2 ⟨?_, ?_⟩
        · exact seg_set hpB h2.seg.2.2
        · show setNext s2.next p (s2.next c) p = x
          rw [e5]; simp [setNext]

/-! ### every fiber gets its turn -/

theorem insAll_len : ∀ {sp : List (Nat × Nat)} {l : List Nat}, l.Nodup → ValidSpawns l sp →
    (insAll l sp).length = l.length + sp.length ∧ (insAll l sp).Nodup
  | [], l, h, _ => ⟨rfl, h⟩
  | x :: sp, l, h, hv => by
    obtain ⟨hx, ha, _, hv⟩ := hv
    have hp := insAfter_perm (a := x.2) hx
    have hn : (insAfter x.1 x.2 l).Nodup := hp.nodup_iff.2 (List.nodup_cons.2 ⟨ha, h⟩)
    obtain ⟨h1, h2⟩ := insAll_len hn hv
    refine ⟨?_, h2⟩
    rw [insAll, h1, hp.length_eq, List.length_cons, List.length_cons]; omega

theorem turn_mem {l : List Nat} (h : l ≠ []) : turn l ∈ l := by
  match l, h with
  | [p], _ => simp [turn]
  | p :: c :: t, _ => simp [turn]

theorem step_facts {l : List Nat} {e : Ev} (hn : l.Nodup) (hl : l ≠ []) (hv : ValidSpawns l e.spawns) :
    (step l e).Nodup ∧ (step l e).length + (if e.done then 1 else 0) = l.length + e.spawns.length ∧ ∀ f ∈ l, f ≠ turn l → f ∈ step l e := by
  obtain ⟨h1, h2⟩ := insAll_len hn hv
  obtain ⟨A, B, hAB, hA⟩ := mem_split_first (insAll_mem (sp := e.spawns) (turn_mem hl))
  have hp : (insAll l e.spawns).Perm (turn l :: (B ++ A)) := by
    rw [hAB, List.perm_iff_count]; intro x
    simp only [List.count_append, List.count_cons]; omega
  have hnd := hp.nodup_iff.1 h2
  unfold step
  rw [hAB, rotTo_split hA]
  have hlen := hp.length_eq
  rw [h1] at hlen
  by_cases hd : e.done
  · simp only [hd, if_true, List.tail_cons]
    refine ⟨(List.nodup_cons.1 hnd).2, by rw [hlen]; simp, fun f hf hne => ?_⟩
    have := hp.mem_iff.1 (insAll_mem (sp := e.spawns) hf)
    rcases List.mem_cons.1 this with h | h
    · exact absurd h hne
    · exact h
  · simp only [hd]
    refine ⟨hnd, by simpa using hlen.symm, fun f hf _ => hp.mem_iff.1 (insAll_mem (sp := e.spawns) hf)⟩

/-- How many turns come before that of `f`. -/
def dist (l : List Nat) (f : Nat) : Nat := (l.tail ++ l.take 1).idxOf f

theorem dist_lt {l : List Nat} {f : Nat} (h : f ∈ l) : dist l f < l.length := by
  cases l with
  | nil => cases h
  | cons p rest =>
    have : (List.tail (p :: rest) ++ List.take 1 (p :: rest)).idxOf f < (List.tail (p :: rest) ++ List.take 1 (p :: rest)).length := by
      apply List.idxOf_lt_length_of_mem
      simp only [List.tail_cons, List.take_succ_cons, List.take_zero, List.mem_append, List.mem_cons, List.not_mem_nil, or_false] at h ⊢
      tauto
    unfold dist
    simpa using this

theorem dist_step {l : List Nat} {f : Nat} (hn : l.Nodup) (hf : f ∈ l) (hne : f ≠ turn l) : dist (step l ⟨[], false⟩) f + 1 = dist l f := by
  match l, hf with
  | [p], hf => exact absurd (by simpa [turn] using hf) hne
  | p :: c :: t, hf =>
    have hpc : c ∉ [p] := by
      have := (List.nodup_cons.1 hn).1
      intro e; apply this; simp only [List.mem_singleton] at e; simp [e]
    have hs : step (p :: c :: t) ⟨[], false⟩ = c :: (t ++ [p]) := by
      have := rotTo_split (c := c) (A := [p]) (B := t) hpc
      unfold step
      simpa [insAll, turn] using this
    have hcf : c ≠ f := fun e => hne (by simp [turn, e])
    rw [hs]
    unfold dist
    have hm : f ∈ t ++ [p] := by
      simp only [List.mem_cons] at hf
      rcases hf with h | h | h
      · simp [h]
      · exact absurd h.symm hcf
      · simp [h]
    simp only [List.tail_cons, List.take_succ_cons, List.take_zero, List.cons_append]
    rw [List.idxOf_append, if_pos hm, List.idxOf_cons, beq_false_of_ne hcf]
    rfl

/-- The number of spawns in a sequence of resumes. -/
def spawnCount (es : List Ev) : Nat := (es.map (fun e => e.spawns.length)).sum

theorem fair_aux {f : Nat} (W : Nat) : ∀ (es : List Ev) (l : List Nat), l.Nodup → f ∈ l → ValidRun l es → l.length + spawnCount es ≤ W →
    (2 * spawnCount es + l.length) * W + dist l f < es.length → f ∈ turns l es
  | [], l, _, _, _, _, h => by simp at h
  | e :: es, l, hn, hf, hv, hW, hlen => by
    have hl : l ≠ [] := by rintro rfl; cases hf
    obtain ⟨v1, v2, v3⟩ := hv hl
    rw [turns, if_neg hl]
    by_cases hne : f = turn l
    · simp [hne]
    · obtain ⟨g1, g2, g3⟩ := step_facts hn hl v1
      have hsc : spawnCount (e :: es) = e.spawns.length + spawnCount es := by simp [spawnCount]
      rw [hsc] at hW hlen
      simp only [List.length_cons] at hlen
      have hf' := g3 f hf hne
      refine List.mem_cons_of_mem _ (fair_aux W es _ g1 hf' v3 ?_ ?_)
      · split at g2 <;> omega
      · have hd' := dist_lt hf'
        by_cases hc : e.spawns = [] ∧ e.done = false
        · have he : e = ⟨[], false⟩ := by
            obtain ⟨sp, d⟩ := e
            simp only at hc
            simp [hc.1, hc.2]
          subst he
          have := dist_step hn hf hne
          simp only [List.length_nil, Bool.false_eq_true, if_false, Nat.add_zero, Nat.zero_add] at g2 hlen
          rw [g2]
          omega
        · have hdec : 2 * spawnCount es + (step l e).length + 1 ≤ 2 * (e.spawns.length + spawnCount es) + l.length := by
            by_cases hs : e.spawns = []
            · have hd : e.done = true := by
                cases h : e.done with
                | true => rfl
                | false => exact absurd ⟨hs, h⟩ hc
              rw [hs, hd] at g2
              simp only [List.length_nil, if_true, Nat.add_zero] at g2
              rw [hs]; simp only [List.length_nil]; omega
            · have : 0 < e.spawns.length := List.length_pos_iff.2 hs
              split at g2 <;> omega
          have hWl : (step l e).length ≤ W := by split at g2 <;> omega
          have hm : (2 * spawnCount es + (step l e).length + 1) * W ≤ (2 * (e.spawns.length + spawnCount es) + l.length) * W := Nat.mul_le_mul_right _ hdec
          rw [Nat.add_mul, Nat.one_mul] at hm
          omega

/-- A whole run is a run of the round-robin list. -/
theorem runFiber_ok : ∀ {es : List Ev} {s : Ring} {p : Nat} {rest : List Nat}, IsRing s p rest → ValidRun (p :: rest) es →
    ∃ s' it, runFiber s p es = some (s', it) ∧ s'.resumed = s.resumed ++ turns (p :: rest) es ∧
      (steps (p :: rest) es = [] → it = 0 ∧ s'.live = [] ∧ s'.made.Perm s'.freed) ∧
      (∀ q r, steps (p :: rest) es = q :: r → it = q ∧ IsRing s' q r)
  | [], s, p, rest, h, _ => by
    refine ⟨s, p, rfl, by simp [turns], (fun h => by simp [steps] at h), fun q r hq => ?_⟩
    simp only [steps, List.cons.injEq] at hq
    obtain ⟨rfl, rfl⟩ := hq
    exact ⟨rfl, h⟩
  | e :: es, s, p, rest, h, hv => by
    obtain ⟨h1, h2, h3⟩ := hv (by simp)
    obtain ⟨s1, it, e1, e2, e3, e4, _⟩ := resumeNext_ok h h1 h2
    have hp0 : p ≠ 0 := by intro e; exact h.pos (by simp [e])
    rw [runFiber, if_neg hp0, e1]
    simp only [Option.bind_some, steps, turns, List.cons_ne_nil, if_false]
    cases hst : step (p :: rest) e with
    | nil =>
      obtain ⟨rfl, hl, hm⟩ := e3 hst
      refine ⟨s1, 0, ?_, ?_, fun _ => ⟨rfl, hl, hm⟩, ?_⟩
      · cases es <;> simp [runFiber]
      · rw [e2]; cases es <;> simp [turns]
      · intro q r hq
        cases es <;> simp [steps] at hq
    | cons q r =>
      obtain ⟨rfl, hr⟩ := e4 q r hst
      rw [hst] at h3
      obtain ⟨s2, it2, f1, f2, f3, f4⟩ := runFiber_ok hr h3
      refine ⟨s2, it2, f1, ?_, f3, f4⟩
      rw [f2, e2]; simp

end Verif.Coro
