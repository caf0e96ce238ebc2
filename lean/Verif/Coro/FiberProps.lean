import Verif.Coro.FiberLemmas
/- Properties of the fiber scheduler. -/
namespace Verif.Coro
open Spec

theorem newFiber_isRing {a : Nat} (h : a ≠ 0) : IsRing (newFiber a) a [] :=
  ⟨by simp [Seg, newFiber, setNext], by simp, List.Perm.refl _, by simpa using Ne.symm h, by simp [newFiber]⟩

/-- C60 (part): running a fiber, whatever its tasks spawn and whenever fibers finish, never touches a
fiber that was freed; it goes on exactly as long as there are fibers, in round-robin order; each
finished fiber is freed once and no other; and when it ends every fiber ever made has been freed once.
Missing: a resume that finishes its fiber and has spawned a fiber behind the one in front of it (see
`fiber_spawned_by_last_is_lost`). -/
theorem fiber_run_safe_partial {a : Nat} (ha : a ≠ 0) {es : List Ev} (hv : ValidRun [a] es) :
    ∃ s it, runFiber (newFiber a) a es = some (s, it) ∧ s.resumed = turns [a] es ∧
      (it = 0 ↔ steps [a] es = []) ∧ s.live.Perm (steps [a] es) ∧ s.made.Perm (s.live ++ s.freed) ∧ s.live.Nodup := by
  obtain ⟨s, it, h1, h2, h3, h4⟩ := runFiber_ok (newFiber_isRing ha) hv
  refine ⟨s, it, h1, by simpa [newFiber] using h2, ?_⟩
  cases hst : steps [a] es with
  | nil =>
    obtain ⟨rfl, hl, hm⟩ := h3 hst
    rw [hl]
    exact ⟨by simp, List.Perm.refl _, by simpa using hm, by simp⟩
  | cons q r =>
    obtain ⟨rfl, hr⟩ := h4 q r hst
    have : it ≠ 0 := fun e => hr.pos (by simp [e])
    exact ⟨by simp [this], hr.live, hr.made, hr.live.nodup_iff.2 hr.nodup⟩

/-- C60 (part): every fiber that has not finished gets its turn again: from any state, within a number
of resumes that depends only on the number of fibers and of spawns in between. Missing: with an
unbounded number of spawns a fiber can wait forever (see `fiber_can_starve`). -/
theorem fiber_every_live_resumed_partial {s : Ring} {p : Nat} {rest : List Nat} (h : IsRing s p rest) {es : List Ev} (hv : ValidRun (p :: rest) es)
    {f : Nat} (hf : f ∈ s.live) (hlen : (2 * spawnCount es + s.live.length + 1) * (s.live.length + spawnCount es) ≤ es.length) :
    ∃ s' it new, runFiber s p es = some (s', it) ∧ s'.resumed = s.resumed ++ new ∧ f ∈ new := by
  obtain ⟨s', it, h1, h2, -, -⟩ := runFiber_ok h hv
  refine ⟨s', it, _, h1, h2, ?_⟩
  have hf' : f ∈ p :: rest := h.live.mem_iff.1 hf
  have hl := h.live.length_eq
  refine fair_aux ((p :: rest).length + spawnCount es) es _ h.nodup hf' hv (Nat.le_refl _) ?_
  have hd := dist_lt hf'
  rw [hl, Nat.add_mul, Nat.one_mul] at hlen
  omega

/-- The states in between are circles again, so the two theorems above apply at every point of a run. -/
theorem fiber_ring_kept {s : Ring} {p : Nat} {rest : List Nat} (h : IsRing s p rest) {es : List Ev} (hv : ValidRun (p :: rest) es) :
    ∃ s' it, runFiber s p es = some (s', it) ∧ ((it = 0 ∧ s'.live = [] ∧ s'.made.Perm s'.freed) ∨ ∃ r, IsRing s' it r) := by
  obtain ⟨s', it, h1, -, h3, h4⟩ := runFiber_ok h hv
  refine ⟨s', it, h1, ?_⟩
  cases hst : steps (p :: rest) es with
  | nil => exact .inl (h3 hst)
  | cons q r =>
    obtain ⟨rfl, hr⟩ := h4 q r hst
    exact .inr ⟨r, hr⟩

/-- Fibers spawned from outside (before or between resumes) join the circle. -/
theorem fiber_spawn_joins {s : Ring} {p : Nat} {rest : List Nat} (h : IsRing s p rest) {x a : Nat} (hx : x ∈ s.live) (ha : a ∉ s.live) (h0 : a ≠ 0) :
    ∃ s' r, spawn s x a = some s' ∧ IsRing s' p r ∧ (p :: r).Perm (a :: p :: rest) ∧ s'.freed = s.freed := by
  have hx' := h.live.mem_iff.1 hx
  obtain ⟨s', r, h1, h2, h3, h4, -⟩ := spawn_ok h hx' (fun e => ha (h.live.mem_iff.2 e)) h0
  exact ⟨s', r, h1, h2, h3 ▸ insAfter_perm hx', h4⟩

/-! ### what breaks it -/

/-- Disagreement with C60: when the only fiber spawns another one and finishes in the same resume, the
run ends; the spawned fiber is never resumed and never freed. -/
theorem fiber_spawned_by_last_is_lost :
    ∃ s, runFiber (newFiber 1) 1 [⟨[(1, 2)], true⟩, ⟨[], true⟩] = some (s, 0) ∧ s.live = [2] ∧ 2 ∉ s.resumed ∧ 2 ∉ s.freed := by
  refine ⟨_, rfl, rfl, by decide, by decide⟩

/-- The same with two fibers, when the finishing fiber has spawned behind the other one. -/
theorem fiber_spawned_behind_other_is_lost :
    ∃ s s', spawn (newFiber 1) 1 2 = some s ∧ runFiber s 1 [⟨[(1, 3)], true⟩, ⟨[], true⟩, ⟨[], true⟩] = some (s', 0) ∧ s'.live = [3] ∧ 3 ∉ s'.resumed := by
  refine ⟨_, _, rfl, rfl, rfl, by decide⟩

/-- A fiber spawning a short task each time it is resumed, as often as one likes. -/
def starve : Nat → List Ev
  | 0 => []
  | k + 1 => ⟨[(2, 3)], false⟩ :: ⟨[], true⟩ :: starve k

theorem starve_steps : ∀ k, ValidRun [1, 2] (starve k) ∧ steps [1, 2] (starve k) = [1, 2] ∧ 1 ∉ turns [1, 2] (starve k) ∧ (turns [1, 2] (starve k)).count 2 = k
  | 0 => by simp [starve, ValidRun, steps, turns]
  | k + 1 => by
    obtain ⟨h1, h2, h3, h4⟩ := starve_steps k
    have e1 : step [1, 2] ⟨[(2, 3)], false⟩ = [2, 3, 1] := by decide
    have e2 : step [2, 3, 1] ⟨[], true⟩ = [1, 2] := by decide
    refine ⟨?_, ?_, ?_, ?_⟩
    · rw [starve, ValidRun, ValidRun]
      intro _
      refine ⟨by simp [ValidSpawns], by simp [NoLoss], fun _ => ?_⟩
      rw [e1, e2]
      exact ⟨by simp [ValidSpawns], by simp [NoLoss], h1⟩
    · rw [starve, steps, if_neg (by decide), steps, e1, if_neg (by decide), e2]; exact h2
    · rw [starve, turns, if_neg (by decide), turns, e1, if_neg (by decide), e2]
      simp only [turn, List.mem_cons, not_or]
      exact ⟨by decide, by decide, h3⟩
    · rw [starve, turns, if_neg (by decide), turns, e1, if_neg (by decide), e2]
      simp only [turn]
      rw [List.count_cons_self, List.count_cons_of_ne (by decide), h4]

/-- Disagreement with C60: a fiber can wait forever. For every number of rounds there is a run in which
fiber 2 is resumed that often, spawning a task that finishes at once, and fiber 1 not at all, though it is alive all the time. -/
theorem fiber_can_starve (k : Nat) :
    ∃ s es s', spawn (newFiber 1) 1 2 = some s ∧ runFiber s 1 es = some (s', 1) ∧ s'.resumed.count 2 = k ∧ 1 ∉ s'.resumed ∧ 1 ∈ s'.live := by
  obtain ⟨s, r, h1, h2, h3, -, h5⟩ := spawn_ok (newFiber_isRing (a := 1) (by decide)) (x := 1) (a := 2) (by simp) (by simp) (by decide)
  have hr : r = [2] := by simpa [insAfter] using h3
  subst hr
  obtain ⟨g1, g2, g3, g4⟩ := starve_steps k
  obtain ⟨s', it, f1, f2, -, f4⟩ := runFiber_ok h2 g1
  obtain ⟨rfl, hr⟩ := f4 1 [2] g2
  have hs : s.resumed = [] := h5
  rw [hs, List.nil_append] at f2
  exact ⟨s, starve k, s', h1, f1, by rw [f2]; exact g4, by rw [f2]; exact g3, hr.live.mem_iff.2 (by simp)⟩

/-! ### examples -/

/-- The first fiber spawns two, then they finish one after the other. -/
def exRun : List Ev := [⟨[(1, 2), (1, 3)], false⟩, ⟨[], false⟩, ⟨[], true⟩, ⟨[], true⟩, ⟨[], false⟩, ⟨[], true⟩]

example : ValidRun [1] exRun ∧ steps [1] exRun = [] ∧ turns [1] exRun = [1, 3, 2, 3, 1, 1] := by
  refine ⟨?_, by decide, by decide⟩
  simp [exRun, ValidRun, ValidSpawns, NoLoss, insAfter]

example : ∃ s, spawn (newFiber 1) 1 2 = some s ∧ IsRing s 1 [2] ∧ ValidRun [1, 2] (List.replicate 8 ⟨[], false⟩) ∧
    (2 * spawnCount (List.replicate 8 ⟨[], false⟩) + s.live.length + 1) * (s.live.length + spawnCount (List.replicate 8 ⟨[], false⟩)) ≤ 8 := by
  obtain ⟨s, r, h1, h2, h3, -, h5⟩ := spawn_ok (newFiber_isRing (a := 1) (by decide)) (x := 1) (a := 2) (by simp) (by simp) (by decide)
  have hr : r = [2] := by simpa [insAfter] using h3
  subst hr
  refine ⟨s, h1, h2, ?_, ?_⟩
  · simp [List.replicate, ValidRun, ValidSpawns, NoLoss]
  · rw [h2.live.length_eq]; decide

end Verif.Coro
