import Verif.Coro.StructLemmas
/- Properties of coroutine functions as they are written (C140). -/
namespace Verif.Coro
open Spec
variable {σ : Type} {p : Routine σ}

/-- C140: whatever branches and loops the macros are in, and whatever others do with the members between the
calls, a call of a coroutine function returns what the same code would come to if it were executed from the
beginning and just waited at its suspension points; and it goes on from there. -/
theorem coroutine_sequential (hw : Written p) {d0 d d' : σ} {t : List (Pause σ)} {st st' : Int} {f : Nat} {v : BitVec 32}
    (h : Hist p d0 t st d) (hc : callCo p f st d = some (st', d', v)) :
    (st' = DONE → v = 0 ∧ Runs p d0 t d' none) ∧ (st' ≠ DONE → Runs p d0 t d' (some v)) := by
  obtain ⟨h1, ⟨b, h2, h3⟩, h4⟩ := hist_sound hw h
  rw [callCo, if_neg h1] at hc
  rcases runK_sound hw f _ st d b (Loc.jump hw st) h2 h3 hc with ⟨e1, e2, e3⟩ | ⟨e1, e2, -⟩
  · refine ⟨fun _ => ⟨e2, ?_⟩, fun h => absurd e1 h⟩
    have := h4 _ _ _ e3
    rw [List.append_nil] at this
    exact runs_of_execT hw this
  · refine ⟨fun h => absurd h e1, fun _ => ?_⟩
    have := h4 _ _ _ e2
    rw [List.append_nil] at this
    exact runs_of_execT hw this

/-- C140: and nothing is missing: every execution of the code, with any suspensions on its way, is the
outcome of calls of the coroutine. -/
theorem coroutine_complete (hw : Written p) {d0 d' : σ} {t : List (Pause σ)} {o : Option (BitVec 32)} (h : Runs p d0 t d' o) :
    ∃ st d f st' v, Hist p d0 t st d ∧ callCo p f st d = some (st', d', v) ∧ (st' = DONE ↔ o = none) ∧ (∀ w, o = some w → v = w) := by
  have e0 : jump p 0 = [.stmt p.body, .final, .stmt p.fin] := by rw [jump, if_pos rfl]
  -- from driving the machine to the last call
  have last : ∀ {k : List (Frame σ)} {st1 st2 : Int} {d1 : σ} {v : BitVec 32}, Drive p [.stmt p.body, .final, .stmt p.fin] 0 d0 t k st1 d1 → kstep p k st1 d1 = .out st2 d' v →
      ∃ st d f, Hist p d0 t st d ∧ callCo p f st d = some (st2, d', v) := by
    intro k st1 st2 d1 v g1 g2
    obtain ⟨st3, d3, x1, x2, n, x3⟩ := drive_hist g1 (Hist.start (p := p)) (by decide) (by rw [e0]; exact Steps.refl _)
    exact ⟨st3, d3, n + 1, x1, by rw [callCo, if_neg x2]; exact x3 1 _ (by rw [runK, g2, runK])⟩
  have stop : ∀ {k : List (Frame σ)} {st1 : Int}, Drive p [.stmt p.body, .final, .stmt p.fin] 0 d0 t k st1 d' → k = [] → o = none →
      ∃ st d f st' v, Hist p d0 t st d ∧ callCo p f st d = some (st', d', v) ∧ (st' = DONE ↔ o = none) ∧ (∀ w, o = some w → v = w) := by
    intro k st1 g1 hk ho
    subst hk ho
    obtain ⟨st, d, f, x1, x2⟩ := last (st2 := DONE) (v := 0) g1 rfl
    exact ⟨st, d, f, DONE, 0, x1, x2, by simp, by simp⟩
  have susp : ∀ {k : List (Frame σ)} {st1 st2 : Int} {d1 : σ} {v : BitVec 32}, Drive p [.stmt p.body, .final, .stmt p.fin] 0 d0 t k st1 d1 → kstep p k st1 d1 = .out st2 d' v →
      st2 ≠ DONE → o = some v → ∃ st d f st' v, Hist p d0 t st d ∧ callCo p f st d = some (st', d', v) ∧ (st' = DONE ↔ o = none) ∧ (∀ w, o = some w → v = w) := by
    intro k st1 st2 d1 v g1 g2 hs ho
    obtain ⟨st, d, f, x1, x2⟩ := last g1 g2
    exact ⟨st, d, f, st2, v, x1, x2, by simp [hs, ho], fun w hw => by rw [ho] at hw; cases hw; rfl⟩
  have body : ∀ {t1 : List (Pause σ)} {d1 : σ} {o1 : Out}, Exec p.body d0 t1 d1 o1 → Goes p true p.body [.final, .stmt p.fin] 0 d0 t1 d1 o1 :=
    fun g => exec_goes hw g _ true 0 (Loc.body hw) Where.body (fun _ => Int.le_refl _) (by simp)
  have tofin : ∀ {t1 : List (Pause σ)} {d1 : σ} {o1 : Out}, Exec p.body d0 t1 d1 o1 → (o1 = .norm ∨ o1 = .ret) →
      ∃ st1, Drive p [.stmt p.body, .final, .stmt p.fin] 0 d0 t1 [.stmt p.fin] st1 d1 := by
    intro t1 d1 o1 g ho
    obtain ⟨st1, g1, -⟩ := (body g).2 (by rcases ho with rfl | rfl <;> simp)
    rcases ho with rfl | rfl
    · have := g1.trans (.step (k := [.final, .stmt p.fin]) rfl .refl)
      rw [List.append_nil] at this
      exact ⟨_, this⟩
    · exact ⟨_, g1⟩
  cases h with
  | susp g =>
    obtain ⟨k1, st1, d2, st2, x1, x2, x3⟩ := (body g).1 _ rfl
    exact susp x1 x2 x3 rfl
  | left g ho =>
    obtain ⟨st1, g1, -⟩ := (body g).2 (by rcases ho with rfl | rfl <;> simp)
    exact stop g1 (by rcases ho with rfl | rfl <;> rfl) rfl
  | @fin t1 t2 d1 _ o1 o2 g ho g' hq hs =>
    obtain ⟨st1, x1⟩ := tofin g ho
    obtain ⟨st2, x2, -⟩ := (exec_goes hw g' [] false st1 (Loc.fin hw) (Where.fin hw) (by simp) (fun _ => hq)).2 hs
    have hc := calm_out hw.calm g' hq
    refine stop (x1.trans x2) ?_ rfl
    cases o2 with
    | ret => exact absurd rfl hc
    | _ => rfl
  | @finSusp t1 t2 d1 _ o1 v g ho g' hq =>
    obtain ⟨st1, x1⟩ := tofin g ho
    obtain ⟨k1, st2, d2, st3, x2, x3, x4⟩ := (exec_goes hw g' [] false st1 (Loc.fin hw) (Where.fin hw) (by simp) (fun _ => hq)).1 _ rfl
    exact susp (x1.trans x2) x3 x4 rfl

/-- `break` and `continue` only inside of loops. -/
def Spec.closed : Stmt σ → Bool
  | .seq a b | .ite _ a b => closed a && closed b
  | .brk | .cont => false
  | _ => true

theorem closed_out {s : Stmt σ} {d d1 : σ} {t : List (Pause σ)} {o : Out} (hc : closed s = true) (h : Exec s d t d1 o) : o ≠ .brk ∧ o ≠ .cont := by
  induction h with
  | seq _ _ _ ih => simp only [closed, Bool.and_eq_true] at hc; exact ih hc.2
  | seqEnd _ _ ih => simp only [closed, Bool.and_eq_true] at hc; exact ih hc.1
  | ite _ ih =>
    simp only [closed, Bool.and_eq_true] at hc
    exact ih (by split; exacts [hc.1, hc.2])
  | loopGo _ _ _ _ _ ih => exact ih hc
  | awaitAgain _ _ ih => exact ih hc
  | callAgain _ _ ih => exact ih hc
  | brk => simp [closed] at hc
  | cont => simp [closed] at hc
  | _ => simp

/-- C140: a coroutine that is done, stopped or not, has executed its body up to its end or to a return, and
after that the code behind `cco_finally`, once. -/
theorem coroutine_cleanup (hw : Written p) (hb : closed p.body = true) {d0 d d' : σ} {t : List (Pause σ)} {st : Int} {f : Nat} {v : BitVec 32}
    (h : Hist p d0 t st d) (hc : callCo p f st d = some (DONE, d', v)) :
    ∃ t1 t2 d1 o1 o2, t = t1 ++ t2 ∧ Exec p.body d0 t1 d1 o1 ∧ (o1 = .norm ∨ o1 = .ret) ∧ Exec p.fin d1 t2 d' o2 ∧ (∀ w, o2 ≠ .susp w) := by
  have := (coroutine_sequential hw h hc).1 rfl
  obtain ⟨-, hr⟩ := this
  cases hr with
  | left g ho =>
    have := closed_out hb g
    rcases ho with rfl | rfl
    · exact absurd rfl this.1
    · exact absurd rfl this.2
  | fin g ho g' hq hs => exact ⟨_, _, _, _, _, rfl, g, ho, g', hs⟩

/-! A generator that yields inside of a loop, and a cleanup that suspends. -/

/-- `for (i = 0; i < 2; ++i) { if (i == 1) cco_await(ready); cco_yield; } cco_finally: cco_yield; i = 100;` on
the members `i`, `ready`. -/
def counter : Routine (Nat × Bool) where
  body := .seq (.act fun d => (0, d.2)) (.loop (fun d => (d, d.1 < 2))
    (.seq (.ite (fun d => (d, d.1 = 1)) (.await 12 fun d => (d, d.2)) (.act id)) (.seq (.yield 13 1#32) (.act fun d => (d.1 + 1, d.2)))))
  fin := .seq (.yield 17 2#32) (.act fun d => (100, d.2))

theorem counter_written : Written counter := ⟨by decide, by decide, rfl⟩

example : closed counter.body = true := rfl

-- the first value, waiting, the second value, the cleanup, done
example : callCo counter 20 0 (5, false) = some (13, (0, false), 1#32) := by decide
example : callCo counter 20 13 (0, false) = some (12, (1, false), vAWAIT) := by decide
example : callCo counter 20 12 (1, true) = some (13, (1, true), 1#32) := by decide
example : callCo counter 20 13 (1, true) = some (17, (2, true), 2#32) := by decide
example : callCo counter 20 17 (2, true) = some (DONE, (100, true), 0) := by decide

-- stopped after the first value
theorem counter_stopped : Hist counter (5, false) [⟨1#32, id, true⟩, ⟨2#32, id, false⟩] 17 (0, false) := by
  have h1 : callCo counter 20 0 (5, false) = some (13, (0, false), 1#32) := by decide
  have h2 : callCo counter 20 FINALLY (0, false) = some (17, (0, false), 2#32) := by decide
  have h3 : Hist counter (5, false) [⟨1#32, id, true⟩] FINALLY (0, false) := .again id true .start h1 (by decide) (fun _ => ⟨13, by decide, rfl⟩)
  exact .again id false h3 h2 (by decide) (by simp)

example : Runs counter (5, false) [⟨1#32, id, true⟩, ⟨2#32, id, false⟩] (100, false) none := by
  have h : callCo counter 20 17 (0, false) = some (DONE, (100, false), 0) := by decide
  exact ((coroutine_sequential counter_written counter_stopped h).1 rfl).2

/-! What the hypotheses exclude. -/

/-- C140: a `break` outside of a loop leaves the coroutine without its cleanup. -/
theorem loose_break_skips_cleanup : ∃ p : Routine Nat, Written p ∧ callCo p 10 0 0 = some (DONE, 0, 0) ∧ p.fin = .act (· + 1) :=
  ⟨⟨.brk, .act (· + 1)⟩, ⟨by decide, by decide, rfl⟩, rfl, rfl⟩

/-- A cleanup that suspends and then executes `cco_return`. -/
def restless : Routine Nat := ⟨.act id, .seq (.act (· + 1)) (.seq (.yield 5 1#32) .ret)⟩

/-- `n` calls. -/
def calls (p : Routine σ) : Nat → Int → σ → Option (Int × σ)
  | 0, st, d => some (st, d)
  | n + 1, st, d => (callCo p 20 st d).bind fun r => calls p n r.1 r.2.1

/-- C140: `cco_return` behind `cco_finally`, after a suspension there, starts the cleanup again: this
coroutine never is done, however often it is called, and each call executes its cleanup again. -/
theorem return_in_cleanup_restarts (n : Nat) : calls restless (n + 1) 0 0 = some (5, n + 1) := by
  have h : ∀ m d, calls restless m 5 d = some (5, d + m) := by
    intro m
    induction m with
    | zero => intro d; rfl
    | succ m ih => intro d; show calls restless m 5 (d + 1) = _; rw [ih]; congr 2; omega
  show calls restless n 5 1 = _
  rw [h]
  congr 2
  omega

end Verif.Coro
