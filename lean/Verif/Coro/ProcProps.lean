import Verif.Coro.ProcLemmas
/- Properties of tasks that await tasks, throw errors and recover from them (C143). -/
namespace Verif.Coro.Proc
open Spec
variable {σ : Type} {P : Nat → Task σ}

theorem play_unique {n m : Nat} {x y z : Cfg σ × List (σ → σ)} (h : StepsN P m x y) (hy : step P y = none) (hx : play P n x = some z) : z = y := by
  rcases Nat.lt_or_ge n m with hlt | hge
  · rw [play_long h n hlt] at hx; cases hx
  · rw [play_steps h hy n hge] at hx; cases hx; rfl

/-- The end of the fiber when the interpreter has one. -/
theorem end_of_call (hw : ∀ r, Written (P r)) {f r : Nat} {d : σ} {w : List (σ → σ)} {res : Res σ} (hc : call P f r d w = some res) (hn : res.2.2 ≠ .wild) :
    ∃ m x, StepsN P m (start P r d, w) x ∧ step P x = none ∧ Agree x res := by
  obtain ⟨d', w', o⟩ := res
  have := (proc_sim hw (ev_sim hw f) r [] 0 d w).2 d' w' o hc
  cases o with
  | over e =>
    obtain ⟨st', rec', m, h⟩ := this
    by_cases he : e = 0
    · subst he
      exact ⟨_, _, h.trans (.step (y := (.done d', w')) rfl .refl), rfl, rfl, rfl, rfl⟩
    · refine ⟨_, _, h.trans (.step (y := (.abort e d', w')) ?_ .refl), rfl, rfl, rfl, rfl, he⟩
      show some (leave P [] e rec' d', w') = _
      rw [leave, if_pos he]
  | susp =>
    obtain ⟨rfl, q, qs, rec', m, h⟩ := this
    exact ⟨m, _, h, rfl, rfl, rfl, rfl, rfl⟩
  | wild => exact absurd rfl hn
  | _ => exact this.elim

/-- C143: a fiber executes its task like a procedure: when it is done, has ended by an unhandled error or
waits for its next turn, then executing the code as ordinary procedures - awaiting a task is calling it, a
thrown error runs the cleanups from the inside to the outside up to the task that recovers from it, which
goes on behind its await - has come to the same data and the same end. Cleanups must not suspend; the case
of a task that recovers from an error that did not come from a task it awaited is left out. -/
theorem task_sequential (hw : ∀ r, Written (P r)) {n r : Nat} {d : σ} {w : List (σ → σ)} {x : Cfg σ × List (σ → σ)}
    (h : play P n (start P r d, w) = some x) : ∃ f res, call P f r d w = some res ∧ (res.2.2 = .wild ∨ Agree x res) := by
  cases hc : call P (n + 1) r d w with
  | none =>
    obtain ⟨m, y, hm, hst⟩ := (proc_sim hw (ev_sim hw (n + 1)) r [] 0 d w).1 hc
    have := play_long hst n (by omega)
    rw [start] at h
    rw [this] at h
    cases h
  | some res =>
    refine ⟨n + 1, res, hc, ?_⟩
    by_cases hn : res.2.2 = .wild
    · exact .inl hn
    · obtain ⟨m, y, h1, h2, h3⟩ := end_of_call hw hc hn
      rw [play_unique h1 h2 h]
      exact .inr h3

/-- C143: and the other way round: whatever the procedures come to, the fiber comes to. -/
theorem task_complete (hw : ∀ r, Written (P r)) {f r : Nat} {d : σ} {w : List (σ → σ)} {res : Res σ} (hc : call P f r d w = some res) (hn : res.2.2 ≠ .wild) :
    ∃ n x, play P n (start P r d, w) = some x ∧ Agree x res := by
  obtain ⟨m, y, h1, h2, h3⟩ := end_of_call hw hc hn
  exact ⟨m, y, play_steps h1 h2 m (Nat.le_refl _), h3⟩

/-! Without `cco_recover_error` nothing is left out. -/

theorem tame_ev (ht : ∀ r, tame (P r).body = true ∧ tame (P r).fin = true) :
    ∀ f r s e d w res, tame s = true → ev P f r s e d w = some res → res.2.2 ≠ .wild ∧ res.2.2 ≠ .recovers := by
  intro f
  induction f with
  | zero => intro r s e d w res _ h; simp [ev] at h
  | succ f ih =>
    have hcl : ∀ r e d w res, cleanup P (ev P f) r e d w = some res → res.2.2 ≠ .wild ∧ res.2.2 ≠ .recovers := by
      intro r e d w res h
      rw [cleanup, Option.bind_eq_some_iff] at h
      obtain ⟨⟨d1, w1, o1⟩, h1, h2⟩ := h
      have := ih r _ e d w _ (ht r).2 h1
      cases o1 <;> cases h2 <;> simp_all
    have hpr : ∀ r d w res, proc P (ev P f) r d w = some res → res.2.2 ≠ .wild ∧ res.2.2 ≠ .recovers := by
      intro r d w res h
      rw [proc, Option.bind_eq_some_iff] at h
      obtain ⟨⟨d1, w1, o1⟩, h1, h2⟩ := h
      have h0 := ih r _ 0 d w _ (ht r).1 h1
      have fin : ∀ e, ((cleanup P (ev P f) r e d1 w1).bind fun y => if y.2.2 = .recovers then some (y.1, y.2.1, .wild) else some y) = some res →
          res.2.2 ≠ .wild ∧ res.2.2 ≠ .recovers := by
        intro e h
        rw [Option.bind_eq_some_iff] at h
        obtain ⟨y, h3, h4⟩ := h
        have := hcl r e d1 w1 y h3
        rw [if_neg this.2] at h4
        cases h4
        exact this
      cases o1 with
      | norm => exact fin 0 h2
      | ret e => exact fin e h2
      | _ => cases h2; simp_all
    intro r s e d w res hs h
    cases s with
    | act g => simp only [ev] at h; cases h; simp
    | seq a b =>
      simp only [tame, Bool.and_eq_true] at hs
      simp only [ev, Option.bind_eq_some_iff] at h
      obtain ⟨x, h1, h2⟩ := h
      split at h2
      · exact ih r b e _ _ _ hs.2 h2
      · cases h2; exact ih r a e _ _ _ hs.1 h1
    | ite c a b =>
      simp only [tame, Bool.and_eq_true] at hs
      simp only [ev] at h
      exact ih r _ e _ _ _ (by split; exacts [hs.1, hs.2]) h
    | loop c a =>
      simp only [ev] at h
      split at h
      · rw [Option.bind_eq_some_iff] at h
        obtain ⟨⟨d1, w1, o1⟩, h1, h2⟩ := h
        have h0 := ih r a e _ _ _ hs h1
        cases o1 with
        | norm => exact ih r _ e _ _ _ hs h2
        | cont => exact ih r _ e _ _ _ hs h2
        | _ => cases h2; simp_all
      · cases h; simp
    | recover => simp [tame] at hs
    | yield n v => cases w <;> (simp only [ev] at h; cases h; simp)
    | await n c =>
      cases w with
      | nil => simp only [ev] at h; cases h; simp
      | cons g w =>
        simp only [ev, Option.bind_eq_some_iff] at h
        obtain ⟨⟨d1, w1, o1⟩, h1, h2⟩ := h
        have h0 := hpr _ _ _ _ h1
        cases o1 with
        | over e' =>
          simp only at h2
          split at h2
          · split at h2 <;> (cases h2; simp)
          · rw [Option.bind_eq_some_iff] at h2
            obtain ⟨y, h3, h4⟩ := h2
            have := hcl r e' d1 w1 y h3
            rw [if_neg this.2] at h4
            cases h4
            exact this
        | _ => cases h2; simp_all
    | _ => simp only [ev] at h; cases h; simp

/-- C143: tasks that never recover from errors are executed like procedures in every case. -/
theorem task_sequential_plain (hw : ∀ r, Written (P r)) (ht : ∀ r, tame (P r).fin = true) {n r : Nat} {d : σ} {w : List (σ → σ)} {x : Cfg σ × List (σ → σ)}
    (h : play P n (start P r d, w) = some x) : ∃ f res, call P f r d w = some res ∧ Agree x res := by
  obtain ⟨f, res, h1, h2⟩ := task_sequential hw h
  refine ⟨f, res, h1, h2.resolve_left fun hr => ?_⟩
  have key := tame_ev (P := P) (fun r => ⟨(hw r).tame, ht r⟩) (f + 1) 0 (.await 1 fun _ => r) 0 d (id :: w)
  simp only [ev, id] at key
  rw [show proc P (ev P f) r d w = some res from h1] at key
  obtain ⟨d1, w1, o1⟩ := res
  cases hr
  exact (key (d1, w1, .wild) rfl rfl).1 rfl

/-! The example of the documentation (docs/coroutine_api.md 330-430): `start` awaits A awaits B awaits C, which
throws 99; A recovers and goes on. The data is what is printed. -/

/-- Print. -/
def say (n : Nat) : Stmt (List Nat) := .act (· ++ [n])

/-- `start` is 0, A is 1, B is 2, C is 3; starting prints the number, work 10 + number, done 20 + number, recovering 30. -/
def doc : Nat → Task (List Nat)
  | 0 => ⟨.seq (say 0) (.await 5 fun _ => 1), say 20⟩
  | 1 => ⟨.seq (say 1) (.seq (.await 5 fun _ => 2) (say 11)), .seq (.ite (fun e _ => e = 99) (.seq (say 30) .recover) (.act id)) (say 21)⟩
  | 2 => ⟨.seq (say 2) (.seq (.await 5 fun _ => 3) (say 12)), say 22⟩
  | _ => ⟨.seq (say 3) (.seq (.throw 99) (.seq (say 13) (.yield 5 1#32))), say 23⟩

theorem doc_written (r : Nat) : Written (doc r) := by
  match r with
  | 0 => exact ⟨by decide, by decide, rfl, rfl⟩
  | 1 => exact ⟨by decide, by decide, rfl, rfl⟩
  | 2 => exact ⟨by decide, by decide, rfl, rfl⟩
  | _ + 3 => exact ⟨by simp [doc, lines, say], by simp [doc, lines, say], rfl, rfl⟩

example : (call doc 20 0 [] [id, id, id, id, id]).map (fun x => (x.1, x.2.1.length, x.2.2)) = some ([0, 1, 2, 3, 23, 22, 30, 11, 21, 20], 1, .over 0) := by decide
example : ∃ n x, play doc n (start doc 0 [], [id, id, id, id]) = some (.done x, []) ∧ x = [0, 1, 2, 3, 23, 22, 30, 11, 21, 20] := ⟨60, _, rfl, rfl⟩

/-- The same without recovering: all cleanups, then the error ends the program. -/
def unhandled : Nat → Task (List Nat) := fun r => if r = 1 then ⟨(doc 1).body, say 21⟩ else doc r

example : ∃ n x, play unhandled n (start unhandled 0 [], [id, id, id, id]) = some (.abort 99 x, [id]) ∧ x = [0, 1, 2, 3, 23, 22, 21, 20] := ⟨60, _, rfl, rfl⟩

/-! What the hypotheses exclude. -/

/-- A task whose cleanup suspends, awaited by another one. -/
def sleepy : Nat → Task (List Nat)
  | 0 => ⟨.await 5 fun _ => 1, .ite (fun e _ => e = 7) (.seq (say 0) .recover) (.act id)⟩
  | _ => ⟨.throw 7, .seq (say 1) (.seq (.yield 6 1#32) (say 2))⟩

/-- C143: a cleanup that suspends while an error is on its way is never finished: the error goes on to the
awaiting task at once, which recovers from it and is done. -/
theorem suspended_cleanup_abandoned : ∃ n w, play sleepy n (start sleepy 0 [], [id, id, id]) = some (.done [1, 0], w) ∧
    (sleepy 1).fin = .seq (say 1) (.seq (.yield 6 1#32) (say 2)) := ⟨40, [id, id], rfl, rfl⟩

/-- A task that throws an error and recovers from it itself. -/
def stubborn : Nat → Task Nat := fun _ => ⟨.seq (.act (· + 1)) (.throw 7), .recover⟩

/-- C143: a task that recovers from the error it has thrown itself does not go on behind the throw: it starts
again, here for ever, without giving up its turn. -/
theorem own_error_restarts (n : Nat) (d : Nat) (w : List (Nat → Nat)) : play stubborn n (start stubborn 0 d, w) = none := by
  have h1 : ∀ d, StepsN stubborn 4 (start stubborn 0 d, w) (start stubborn 0 (d + 1), w) := fun d =>
    .step (y := (.run [.stmt (.act (· + 1)), .stmt (.throw 7), .final, .stmt .recover] 0 0 [] 0 0 d, w)) rfl
      (.step (y := (.run [.stmt (.throw 7), .final, .stmt .recover] 0 0 [] 0 0 (d + 1), w)) rfl
        (.step (y := (.run [.stmt .recover] 0 FINALLY [] 7 0 (d + 1), w)) rfl (.step rfl .refl)))
  have h2 : ∀ m d, StepsN stubborn (4 * m) (start stubborn 0 d, w) (start stubborn 0 (d + m), w) := by
    intro m
    induction m with
    | zero => exact fun d => .refl
    | succ m ih =>
      intro d
      have := (h1 d).trans (ih (d + 1))
      rw [show 4 * (m + 1) = 4 + 4 * m by omega, show d + (m + 1) = d + 1 + m by omega]
      exact this
  exact play_long (h2 (n + 1) d) n (by omega)

end Verif.Coro.Proc
