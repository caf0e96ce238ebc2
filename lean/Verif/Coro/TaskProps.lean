import Verif.Coro.Task
import Mathlib.Tactic.Common
/- Properties of awaited tasks and semaphores. -/
namespace Verif.Coro

namespace Spec
/-- The task that is `c` in front of `chain` completes: it is resumed, and either an error is set or
its result has no bits but its await bits. -/
def Completes (c : Nat × BitVec 32) (e : TEv) : Prop := e.error = true ∨ e.result &&& ~~~c.2 = 0

/-- In a run from `st`, the chain is never exactly `chain` when its innermost task completes. -/
def NotCompleted (chain : List (Nat × BitVec 32)) (c : Nat × BitVec 32) : List (Nat × BitVec 32) → List TEv → Prop
  | _, [] => True
  | st, e :: es => (st = chain → ¬ Completes c e) ∧ ∀ r, taskStep st e = some r → NotCompleted chain c r.1 es

/-- No task is awaited that is in the chain already. -/
def FreshAwaits : List (Nat × BitVec 32) → List TEv → Prop
  | _, [] => True
  | st, e :: es => (∀ c, e.await = some c → c.1 ∉ st.map (·.1)) ∧ ∀ r, taskStep st e = some r → FreshAwaits r.1 es

/-- The log of an error passing up the chain: the parent of each task is stopped and resumed. -/
def unwind : Nat → List Nat → List Act
  | t, [] => [.resumed t]
  | t, p :: ps => .resumed t :: .stopped p :: unwind p ps

/-- Each coroutine releases at most what it has acquired: every suffix of calls is covered by `k`. -/
def Balanced : Nat → List SemOp → Prop
  | _, [] => True
  | k, .await :: r => Balanced (k + 1) r
  | 0, .release :: _ => False
  | k + 1, .release :: r => Balanced k r
end Spec
open Spec

/-- A task awaiting another one is not resumed until the one it awaits has completed: whatever the
awaited task does, including awaiting further tasks, and however often the fiber is resumed. -/
theorem task_awaiting_not_resumed {c p : Nat × BitVec 32} {rest : List (Nat × BitVec 32)} : ∀ {es : List TEv} {A : List (Nat × BitVec 32)} {st' : List (Nat × BitVec 32)} {log : List Act} {n : Next},
    ((A ++ c :: p :: rest).map (·.1)).Nodup → FreshAwaits (A ++ c :: p :: rest) es → NotCompleted (c :: p :: rest) c (A ++ c :: p :: rest) es →
    taskRun (A ++ c :: p :: rest) es = some (st', log, n) → Act.resumed p.1 ∉ log ∧ Act.stopped p.1 ∉ log ∧ n = .suspend ∧ ∃ B, st' = B ++ c :: p :: rest
  | [], A, st', log, n, _, _, _, h => by
    simp only [taskRun, Option.some.injEq, Prod.mk.injEq] at h
    obtain ⟨rfl, rfl, rfl⟩ := h
    exact ⟨by simp, by simp, rfl, A, rfl⟩
  | e :: es, A, st', log, n, hn, hf, hc, h => by
    have main : ∃ B a, taskStep (A ++ c :: p :: rest) e = some (B ++ c :: p :: rest, a) ∧ Act.resumed p.1 ∉ a.1 ∧ Act.stopped p.1 ∉ a.1 ∧ a.2 ≠ .done ∧ a.2 ≠ .abort ∧
        ((B ++ c :: p :: rest).map (·.1)).Nodup := by
      have hnp : ∀ t ∈ A, t.1 ≠ p.1 := by
        intro t ht e
        rw [List.map_append] at hn
        have := (List.nodup_append.1 hn).2.2 t.1 (List.mem_map.2 ⟨t, ht, rfl⟩) p.1 (by simp)
        exact this e
      have hcp : c.1 ≠ p.1 := by
        rw [List.map_append] at hn
        have := (List.nodup_append.1 hn).2.1
        simp only [List.map_cons, List.nodup_cons, List.mem_cons, not_or] at this
        exact this.1.1
      have hpush : ∀ l : List (Nat × BitVec 32), l = A ++ c :: p :: rest → ∃ B, pushTask l e.await = B ++ c :: p :: rest ∧ ((B ++ c :: p :: rest).map (·.1)).Nodup := by
        intro l hl
        subst hl
        cases hw : e.await with
        | none => exact ⟨A, rfl, hn⟩
        | some x =>
          refine ⟨x :: A, rfl, ?_⟩
          rw [List.cons_append, List.map_cons, List.nodup_cons]
          exact ⟨hf.1 x hw, hn⟩
      cases A with
      | nil =>
        have hcc := hc.1 rfl
        simp only [Completes, not_or] at hcc
        obtain ⟨B, hB, hBn⟩ := hpush _ rfl
        refine ⟨B, ([.resumed c.1], .suspend), ?_, by simpa using Ne.symm hcp, by simp, by simp, by simp, hBn⟩
        simp only [List.nil_append, taskStep, hcc.1, Bool.false_eq_true, if_false, ne_eq, hcc.2, not_false_eq_true, if_true]
        rw [← hB]; rfl
      | cons t A =>
        have htp : t.1 ≠ p.1 := hnp t (by simp)
        have hnA : ((A ++ c :: p :: rest).map (·.1)).Nodup := by
          rw [List.cons_append, List.map_cons, List.nodup_cons] at hn
          exact hn.2
        have hne : A ++ c :: p :: rest ≠ [] := by simp
        by_cases he : e.error = true
        · cases A with
          | nil =>
            refine ⟨[], ([.resumed t.1, .stopped c.1], .again), ?_, by simpa using Ne.symm htp, by simpa using Ne.symm hcp, by simp, by simp, hnA⟩
            simp [taskStep, he]
          | cons a A =>
            refine ⟨a :: A, ([.resumed t.1, .stopped a.1], .again), ?_, by simpa using Ne.symm htp, ?_, by simp, by simp, hnA⟩
            · simp [taskStep, he]
            · have := hnp a (by simp); simpa using Ne.symm this
        · by_cases hr : e.result &&& ~~~t.2 = 0
          · cases A with
            | nil =>
              refine ⟨[], ([.resumed t.1], .suspend), ?_, by simpa using Ne.symm htp, by simp, by simp, by simp, hnA⟩
              simp [taskStep, he, hr]
            | cons a A =>
              refine ⟨a :: A, ([.resumed t.1], .suspend), ?_, by simpa using Ne.symm htp, by simp, by simp, by simp, hnA⟩
              simp [taskStep, he, hr]
          · obtain ⟨B, hB, hBn⟩ := hpush _ rfl
            refine ⟨B, ([.resumed t.1], .suspend), ?_, by simpa using Ne.symm htp, by simp, by simp, by simp, hBn⟩
            simp only [List.cons_append, taskStep, he, Bool.false_eq_true, if_false, ne_eq, hr, not_false_eq_true, if_true]
            rw [← hB]; rfl
    obtain ⟨B, a, e1, e2, e3, e4, e5, e6⟩ := main
    rw [taskRun, e1] at h
    simp only [Option.bind_some, e4, e5, or_self, if_false] at h
    cases hq : taskRun (B ++ c :: p :: rest) es with
    | none => rw [hq] at h; cases h
    | some q =>
      obtain ⟨q1, q2, q3⟩ := q
      rw [hq] at h
      simp only [Option.bind_some, Option.some.injEq, Prod.mk.injEq] at h
      obtain ⟨rfl, rfl, rfl⟩ := h
      obtain ⟨i1, i2, i3, i4⟩ := task_awaiting_not_resumed e6 (hf.2 _ e1) (hc.2 _ e1) hq
      refine ⟨?_, ?_, i3, i4⟩ <;> simp only [List.mem_append, not_or] <;> constructor <;> assumption

/-- When the awaited task completes, the awaiting task is the one resumed next. -/
theorem task_completed_resumes_parent {c p : Nat × BitVec 32} {rest : List (Nat × BitVec 32)} {e e' : TEv} (h1 : e.error = false) (h2 : e.result &&& ~~~c.2 = 0) :
    ∃ st log n, taskRun (c :: p :: rest) [e, e'] = some (st, log, n) ∧ ∃ l, log = .resumed c.1 :: .resumed p.1 :: l := by
  have e1 : taskStep (c :: p :: rest) e = some (p :: rest, [.resumed c.1], .suspend) := by simp [taskStep, h1, h2]
  rw [taskRun, e1]
  simp only [Option.bind_some]
  by_cases he : e'.error = true
  · cases rest with
    | nil => simp [taskRun, taskStep, he]
    | cons x xs => simp [taskRun, taskStep, he]
  · by_cases hr : e'.result &&& ~~~p.2 = 0
    · cases rest with
      | nil => simp [taskRun, taskStep, he, hr]
      | cons x xs => simp [taskRun, taskStep, he, hr]
    · simp only [taskRun, taskStep, he, ne_eq, hr, not_false_eq_true, if_true, Bool.false_eq_true, if_false]
      simp

/-- An error nobody recovers from passes up the whole chain: every awaiting task is stopped once and
resumed once (so that it runs its cleanup), innermost first, before the program is ended. -/
theorem task_error_unwinds : ∀ {t : Nat × BitVec 32} {ps : List (Nat × BitVec 32)} {es : List TEv}, (∀ e ∈ es, e.error = true) → es.length = ps.length + 1 →
    taskRun (t :: ps) es = some ([], unwind t.1 (ps.map (·.1)), .abort)
  | t, ps, [], _, h => by simp at h
  | t, [], e :: es, he, _ => by
    have : e.error = true := he e (by simp)
    simp [taskRun, taskStep, this, unwind]
  | t, p :: ps, e :: es, he, hl => by
    have h1 : e.error = true := he e (by simp)
    have ih := task_error_unwinds (t := p) (ps := ps) (es := es) (fun x hx => he x (by simp [hx])) (by simpa using hl)
    have e1 : taskStep (t :: p :: ps) e = some (p :: ps, [.resumed t.1, .stopped p.1], .again) := by simp [taskStep, h1]
    rw [taskRun, e1]
    simp [ih, unwind]

/-- An error from which a task up the chain recovers stops and resumes the tasks up to that one, drops
the ones below it, and leaves the ones above it waiting. -/
theorem task_error_recovered : ∀ {t : Nat × BitVec 32} {A : List (Nat × BitVec 32)} {p : Nat × BitVec 32} {rest : List (Nat × BitVec 32)} {es : List TEv} {e : TEv},
    (∀ x ∈ es, x.error = true) → es.length = A.length + 1 → e.error = false → e.result &&& ~~~p.2 ≠ 0 → e.await = none →
    taskRun (t :: (A ++ p :: rest)) (es ++ [e]) = some (p :: rest, unwind t.1 ((A ++ [p]).map (·.1)), .suspend)
  | t, A, p, rest, [], e, _, h, _, _, _ => by simp at h
  | t, [], p, rest, x :: es, e, hx, hl, he, hr, hw => by
    have : es = [] := by simpa using hl
    subst this
    have h1 : x.error = true := hx x (by simp)
    have e1 : taskStep (t :: p :: rest) x = some (p :: rest, [.resumed t.1, .stopped p.1], .again) := by simp [taskStep, h1]
    have e2 : taskStep (p :: rest) e = some (p :: rest, [.resumed p.1], .suspend) := by
      simp only [taskStep, he, hw, pushTask, Bool.false_eq_true, if_false, if_pos hr]
    rw [List.nil_append, List.cons_append, List.nil_append, taskRun, e1]
    simp [taskRun, e2, unwind]
  | t, a :: A, p, rest, x :: es, e, hx, hl, he, hr, hw => by
    have h1 : x.error = true := hx x (by simp)
    have ih := task_error_recovered (t := a) (A := A) (p := p) (rest := rest) (es := es) (e := e) (fun y hy => hx y (by simp [hy])) (by simpa using hl) he hr hw
    have e1 : taskStep (t :: a :: (A ++ p :: rest)) x = some (a :: (A ++ p :: rest), [.resumed t.1, .stopped a.1], .again) := by simp [taskStep, h1]
    rw [List.cons_append, List.cons_append, taskRun, e1]
    simp [ih, unwind]

/-! ### semaphores -/

theorem modify_sum {i : Nat} {l : List Nat} (h : i < l.length) : (l.modify i (· + 1)).sum = l.sum + 1 := by
  induction l generalizing i with
  | nil => simp at h
  | cons x l ih =>
    cases i with
    | zero => simp [List.modify]; omega
    | succ i =>
      have := ih (i := i) (by simpa using h)
      simp [List.modify] at this ⊢
      omega

/-- C61: in every schedule the count is what it started with, plus the completed releases, minus the
completed awaits, and never negative: awaits never get ahead of the initial count and the releases. -/
theorem semaphore_bound (n : Nat) (progs : List (List SemOp)) (sched : List Nat) :
    let s := semRun (semInit n progs) sched
    0 ≤ s.count ∧ s.count = n + (s.released.sum : Int) - s.acquired.sum ∧ s.acquired.sum ≤ n + s.released.sum := by
  have key : ∀ (sched : List Nat) (s : Sem), 0 ≤ s.count → s.count = n + (s.released.sum : Int) - s.acquired.sum →
      s.acquired.length = s.todo.length → s.released.length = s.todo.length →
      0 ≤ (semRun s sched).count ∧ (semRun s sched).count = n + ((semRun s sched).released.sum : Int) - (semRun s sched).acquired.sum := by
    intro sched
    induction sched with
    | nil => intro s h1 h2 _ _; exact ⟨h1, h2⟩
    | cons i sched ih =>
      intro s h1 h2 h3 h4
      show 0 ≤ (semRun (semStep s i) sched).count ∧ _
      rw [show semRun s (i :: sched) = semRun (semStep s i) sched from rfl]
      have : 0 ≤ (semStep s i).count ∧ (semStep s i).count = n + ((semStep s i).released.sum : Int) - (semStep s i).acquired.sum ∧
          (semStep s i).acquired.length = (semStep s i).todo.length ∧ (semStep s i).released.length = (semStep s i).todo.length := by
        unfold semStep
        cases ht : s.todo[i]? with
        | none => exact ⟨h1, h2, h3, h4⟩
        | some p =>
          have hi : i < s.todo.length := (List.getElem?_eq_some_iff.1 ht).1
          match p with
          | [] => exact ⟨h1, h2, h3, h4⟩
          | .await :: r =>
            by_cases hc : s.count > 0
            · simp only [hc, if_true]
              rw [modify_sum (by omega)]
              refine ⟨by omega, by push_cast; omega, by simpa using h3, by simpa using h4⟩
            · simp only [hc, if_false]
              exact ⟨h1, h2, h3, h4⟩
          | .release :: r =>
            simp only
            rw [modify_sum (by omega)]
            refine ⟨by omega, by push_cast; omega, by simpa using h3, by simpa using h4⟩
      exact ih _ this.1 this.2.1 this.2.2.1 this.2.2.2
  have hz : ∀ l : List (List SemOp), (l.map (fun _ => 0)).sum = 0 := by
    intro l; induction l with
    | nil => rfl
    | cons x l ih => simp [ih]
  obtain ⟨h1, h2⟩ := key sched (semInit n progs) (by simp [semInit]) (by simp [semInit, hz]) (by simp [semInit]) (by simp [semInit])
  refine ⟨h1, h2, ?_⟩
  have : (0 : Int) ≤ n + (((semRun (semInit n progs) sched).released.sum : Nat) : Int) - ((semRun (semInit n progs) sched).acquired.sum : Nat) := h2 ▸ h1
  omega

/-- The coroutines that hold the semaphore. -/
def holds (s : Sem) (i : Nat) : Nat := s.acquired.getD i 0 - s.released.getD i 0

/-- Where no coroutine releases more than it has acquired, at most `n` acquisitions are held at any
time: `semaphore(1)` is mutual exclusion. -/
theorem semaphore_exclusion (n : Nat) (progs : List (List SemOp)) (hb : ∀ p ∈ progs, Balanced 0 p) (sched : List Nat) :
    let s := semRun (semInit n progs) sched
    ((List.range progs.length).map (holds s)).sum ≤ n := by
  intro s
  have key : ∀ (sched : List Nat) (s : Sem), s.acquired.length = s.todo.length → s.released.length = s.todo.length →
      (∀ (i : Nat) (h : i < s.todo.length), s.released.getD i 0 ≤ s.acquired.getD i 0 ∧ Balanced (s.acquired.getD i 0 - s.released.getD i 0) s.todo[i]) →
      (semRun s sched).todo.length = s.todo.length ∧ (semRun s sched).acquired.length = s.todo.length ∧ (semRun s sched).released.length = s.todo.length ∧
      ∀ i < s.todo.length, (semRun s sched).released.getD i 0 ≤ (semRun s sched).acquired.getD i 0 := by
    intro sched
    induction sched with
    | nil => intro s h1 h2 h3; exact ⟨rfl, h1, h2, fun i hi => (h3 i hi).1⟩
    | cons j sched ih =>
      intro s h1 h2 h3
      rw [show semRun s (j :: sched) = semRun (semStep s j) sched from rfl]
      cases ht : s.todo[j]? with
      | none =>
        have : semStep s j = s := by unfold semStep; rw [ht]
        rw [this]; exact ih s h1 h2 h3
      | some p =>
        obtain ⟨hj, hjv⟩ := List.getElem?_eq_some_iff.1 ht
        have h3j := h3 j hj
        match p, ht, hjv with
        | [], ht, _ =>
          have : semStep s j = s := by unfold semStep; rw [ht]
          rw [this]; exact ih s h1 h2 h3
        | .await :: r, ht, hjv =>
          by_cases hc : s.count > 0
          · have e : semStep s j = { s with count := s.count - 1, todo := s.todo.set j r, acquired := s.acquired.modify j (· + 1) } := by
              unfold semStep; rw [ht]; simp [hc]
            rw [e]
            have := ih { s with count := s.count - 1, todo := s.todo.set j r, acquired := s.acquired.modify j (· + 1) } (by simpa using h1) (by simpa using h2) (by
              intro i hi
              simp only [List.length_set] at hi
              have h3i := h3 i hi
              by_cases hij : j = i
              · subst hij
                rw [hjv] at h3i
                simp only [List.getElem_set_self]
                have ea : (s.acquired.modify j (· + 1)).getD j 0 = s.acquired.getD j 0 + 1 := by
                  simp only [List.getD_eq_getElem?_getD, List.getElem?_modify_eq]
                  rw [List.getElem?_eq_getElem (by omega)]; rfl
                rw [ea]
                refine ⟨by omega, ?_⟩
                have : s.acquired.getD j 0 + 1 - s.released.getD j 0 = (s.acquired.getD j 0 - s.released.getD j 0) + 1 := by omega
                rw [this]; exact h3i.2
              · simp only [List.getElem_set_ne hij]
                have ea : (s.acquired.modify j (· + 1)).getD i 0 = s.acquired.getD i 0 := by
                  simp only [List.getD_eq_getElem?_getD, List.getElem?_modify, if_neg hij, Option.map_eq_map, Option.map_id']
                rw [ea]; exact h3i)
            simpa using this
          · have : semStep s j = s := by unfold semStep; rw [ht]; simp [hc]
            rw [this]; exact ih s h1 h2 h3
        | .release :: r, ht, hjv =>
          have e : semStep s j = { s with count := s.count + 1, todo := s.todo.set j r, released := s.released.modify j (· + 1) } := by
            unfold semStep; rw [ht]
          rw [e]
          have := ih { s with count := s.count + 1, todo := s.todo.set j r, released := s.released.modify j (· + 1) } (by simpa using h1) (by simpa using h2) (by
              intro i hi
              simp only [List.length_set] at hi
              have h3i := h3 i hi
              by_cases hij : j = i
              · subst hij
                rw [hjv] at h3i
                simp only [List.getElem_set_self]
                have ea : (s.released.modify j (· + 1)).getD j 0 = s.released.getD j 0 + 1 := by
                  simp only [List.getD_eq_getElem?_getD, List.getElem?_modify_eq]
                  rw [List.getElem?_eq_getElem (by omega)]; rfl
                rw [ea]
                have hb := h3i.2
                cases hk : s.acquired.getD j 0 - s.released.getD j 0 with
                | zero => rw [hk] at hb; exact hb.elim
                | succ k =>
                  rw [hk] at hb
                  refine ⟨by omega, ?_⟩
                  have : s.acquired.getD j 0 - (s.released.getD j 0 + 1) = k := by omega
                  rw [this]; exact hb
              · simp only [List.getElem_set_ne hij]
                have ea : (s.released.modify j (· + 1)).getD i 0 = s.released.getD i 0 := by
                  simp only [List.getD_eq_getElem?_getD, List.getElem?_modify, if_neg hij, Option.map_eq_map, Option.map_id']
                rw [ea]; exact h3i)
          simpa using this
  have hz : ∀ i, (progs.map (fun _ => 0)).getD i 0 = 0 := by
    intro i
    rw [List.getD_eq_getElem?_getD, List.getElem?_map]
    cases progs[i]? <;> rfl
  obtain ⟨k1, k2, k3, k4⟩ := key sched (semInit n progs) (by simp [semInit]) (by simp [semInit]) (by
    intro i hi
    have e1 : (semInit n progs).acquired.getD i 0 = 0 := hz i
    have e2 : (semInit n progs).released.getD i 0 = 0 := hz i
    rw [e1, e2]
    exact ⟨Nat.le_refl _, hb _ (List.getElem_mem _)⟩)
  have hsum : ∀ (a b : List Nat), a.length = b.length → (∀ i < a.length, b.getD i 0 ≤ a.getD i 0) →
      ((List.range a.length).map (fun i => a.getD i 0 - b.getD i 0)).sum + b.sum = a.sum := by
    intro a
    induction a with
    | nil => intro b hl _; cases b with
      | nil => rfl
      | cons => simp at hl
    | cons x a ih =>
      intro b hl hle
      cases b with
      | nil => simp at hl
      | cons y b =>
        have h0 := hle 0 (by simp)
        have := ih b (by simpa using hl) (fun i hi => by simpa using hle (i + 1) (by simpa using hi))
        rw [List.length_cons, List.range_succ_eq_map, List.map_cons, List.map_map, List.sum_cons]
        have e : ((fun i => (x :: a).getD i 0 - (y :: b).getD i 0) ∘ Nat.succ) = (fun i => a.getD i 0 - b.getD i 0) := by
          funext i; simp
        rw [e]
        simp only [List.getD_cons_zero] at h0
        simp only [List.getD_cons_zero, List.sum_cons]
        omega
  have hl : (semInit n progs).todo.length = progs.length := rfl
  rw [hl] at k1 k2 k3 k4
  have h1 := hsum s.acquired s.released (k2.trans k3.symm) (fun i hi => k4 i (by rw [← k2]; exact hi))
  rw [show s.acquired.length = progs.length from k2] at h1
  have h2 := (semaphore_bound n progs sched).2.2
  have h2 : s.acquired.sum ≤ n + s.released.sum := h2
  show ((List.range progs.length).map (fun i => s.acquired.getD i 0 - s.released.getD i 0)).sum ≤ n
  omega

/-- A coroutine waiting for the semaphore goes on when it is resumed with the count positive. -/
theorem semaphore_no_lost_release {s : Sem} {i : Nat} {r : List SemOp} (h : s.todo[i]? = some (.await :: r)) (hc : 0 < s.count) :
    (semStep s i).todo[i]? = some r ∧ (semStep s i).count = s.count - 1 := by
  obtain ⟨hj, -⟩ := List.getElem?_eq_some_iff.1 h
  unfold semStep
  rw [h]
  simp [hc, hj]

/-! ### examples -/

/-- A task (await bits 0) awaiting another one that yields twice (CCO_YIELD = 1<<28) and is done. -/
example : taskRun [(7, 0), (8, 0)] [⟨1 <<< 28, none, false⟩, ⟨1 <<< 30, some (9, 0), false⟩, ⟨1 <<< 28, none, false⟩, ⟨0, none, false⟩, ⟨0, none, false⟩, ⟨0, none, false⟩] =
    some ([], [.resumed 7, .resumed 7, .resumed 9, .resumed 9, .resumed 7, .resumed 8], .done) := by decide

example : NotCompleted [(7, 0), (8, 0)] (7, 0) ([] ++ [(7, 0), (8, 0)]) [⟨1 <<< 28, none, false⟩] ∧ FreshAwaits ([] ++ [(7, 0), (8, 0)]) [⟨1 <<< 28, none, false⟩] := by
  refine ⟨⟨fun _ => ?_, fun _ _ => trivial⟩, ⟨by simp, fun _ _ => trivial⟩⟩
  simp [Completes]

example : taskRun [(1, 0), (2, 0), (3, 0)] [⟨0, none, true⟩, ⟨0, none, true⟩, ⟨1 <<< 28, none, false⟩] =
    some ([(3, 0)], [.resumed 1, .stopped 2, .resumed 2, .stopped 3, .resumed 3], .suspend) := by decide

example : (semRun (semInit 1 [[.await, .release], [.await, .release]]) [0, 1, 1, 0, 1]).acquired = [1, 1] := by decide

example : Balanced 0 [.await, .release, .await, .await, .release] := by simp [Balanced]

end Verif.Coro
