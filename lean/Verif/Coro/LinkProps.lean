import Verif.Coro.Link
import Mathlib.Tactic.Common
/-
Properties of awaiting and transferring control between tasks (C147).
-/
namespace Verif.Coro.Link

/-! ### Specification: a stack of tasks -/
namespace Spec

/-- Awaiting pushes, completing pops, transferring replaces the innermost task. -/
def step : List (Nat × BitVec 32) → Move → List (Nat × BitVec 32) × List Act × Next
  | [], _ => ([], [], .done)
  | (t, b) :: ps, .ret v =>
    if v &&& ~~~b ≠ 0 then ((t, b) :: ps, [.resumed t], .suspend)
    else (ps, [.resumed t], if ps = [] then .done else .suspend)
  | (t, b) :: ps, .await c b' => ((c, b') :: (t, b) :: ps, [.resumed t], .suspend)
  | (t, b) :: ps, .yieldTo c => ((c, b) :: ps, [.resumed t], .suspend)
  | (t, _) :: [], .fail => ([], [.resumed t], .abort)
  | (t, _) :: (p, b) :: ps, .fail => ((p, b) :: ps, [.resumed t, .stopped p], .again)

/-- The run of a stack of tasks. -/
def run : List (Nat × BitVec 32) → List Move → List Act × Next × Option Nat
  | [], _ => ([], .done, none)
  | (t, _) :: _, [] => ([], .suspend, some t)
  | (t, b) :: ps, m :: ms =>
    let r := step ((t, b) :: ps) m
    if r.2.2 = .done ∨ r.2.2 = .abort then (r.2.1, r.2.2, none)
    else
      let q := run r.1 ms
      (r.2.1 ++ q.1, q.2)

/-- No task awaits a task that is waiting or itself, nor transfers to a waiting one; `CCO_NOOP` is not among the await
bits. -/
def Proper : List (Nat × BitVec 32) → List Move → Prop
  | _, [] => True
  | st, m :: ms =>
    (∀ c b, m = .await c b → c ∉ st.map (·.1) ∧ NOOP &&& ~~~b ≠ 0) ∧
    (∀ c, m = .yieldTo c → c ∉ st.tail.map (·.1)) ∧
    Proper (step st m).1 ms

end Spec

/-- The pointers from `cur` on are this chain. -/
def Chain (h : Objs) : Option Nat → List (Nat × BitVec 32) → Prop
  | none, [] => True
  | some t, (t', b) :: ps => t = t' ∧ h.bits t = b ∧ Chain h (h.parent t) ps
  | _, _ => False

/-- All await bits without `CCO_NOOP`. -/
def NoNoop (st : List (Nat × BitVec 32)) : Prop := ∀ x ∈ st, NOOP &&& ~~~x.2 ≠ 0

/-! ### Lemmas -/

theorem chain_link {h : Objs} {c : Nat} {p : Option Nat} {b : BitVec 32} : ∀ {st : List (Nat × BitVec 32)} {o : Option Nat},
    Chain h o st → c ∉ st.map (·.1) → Chain (h.link c p b) o st
  | [], none, _, _ => trivial
  | [], some _, hc, _ => hc.elim
  | _ :: _, none, hc, _ => hc.elim
  | (t', b') :: ps, some t, hc, hn => by
    obtain ⟨h1, h2, h3⟩ := hc
    subst h1
    simp only [List.map_cons, List.mem_cons, not_or] at hn
    refine ⟨rfl, ?_, ?_⟩
    · simp [Objs.link, Ne.symm hn.1, h2]
    · have : (h.link c p b).parent t = h.parent t := by simp [Objs.link, Ne.symm hn.1]
      rw [this]
      exact chain_link h3 hn.2

theorem step_refines {h : Objs} {t : Nat} {st : List (Nat × BitVec 32)} {m : Move} (hc : Chain h (some t) st) (hn : NoNoop st)
    (ha : ∀ c b, m = .await c b → c ∉ st.map (·.1) ∧ NOOP &&& ~~~b ≠ 0) (hy : ∀ c, m = .yieldTo c → c ∉ st.tail.map (·.1)) :
    Chain (step h t m).1 (step h t m).2.1 (Spec.step st m).1 ∧ (step h t m).2.2 = (Spec.step st m).2 ∧
      NoNoop (Spec.step st m).1 := by
  match st, hc with
  | (t', b) :: ps, ⟨h1, h2, h3⟩ =>
    subst h1
    have hb : NOOP &&& ~~~b ≠ 0 := hn (t, b) (by simp)
    have hps : NoNoop ps := fun x hx => hn x (by simp [hx])
    cases m with
    | ret v =>
      by_cases hv : v &&& ~~~b ≠ 0
      · have e : step h t (.ret v) = (h, some t, [.resumed t], .suspend) := by
          simp only [step, effect, h2, reduceCtorEq, if_false]; rw [if_pos hv]
        have e' : Spec.step ((t, b) :: ps) (.ret v) = ((t, b) :: ps, [.resumed t], .suspend) := by
          rw [Spec.step, if_pos hv]
        rw [e, e']
        exact ⟨⟨rfl, h2, h3⟩, rfl, hn⟩
      · match hp : h.parent t, ps, h3 with
        | none, [], _ =>
          have e : step h t (.ret v) = (h, none, [.resumed t], .done) := by
            simp only [step, effect, h2, hp, reduceCtorEq, if_false]; rw [if_neg hv]
          have e' : Spec.step ((t, b) :: []) (.ret v) = ([], [.resumed t], .done) := by
            rw [Spec.step, if_neg hv]; rfl
          rw [e, e']
          exact ⟨trivial, rfl, hps⟩
        | some p, (p', b') :: qs, h3 =>
          have e : step h t (.ret v) = (h, some p, [.resumed t], .suspend) := by
            simp only [step, effect, h2, hp, reduceCtorEq, if_false]; rw [if_neg hv]
          have e' : Spec.step ((t, b) :: (p', b') :: qs) (.ret v) = ((p', b') :: qs, [.resumed t], .suspend) := by
            rw [Spec.step, if_neg hv]; rfl
          rw [e, e']
          exact ⟨h3, rfl, hps⟩
    | await c b' =>
      obtain ⟨hc', hb'⟩ := ha c b' rfl
      have e : step h t (.await c b') = (h.link c (some t) b', some c, [.resumed t], .suspend) := by
        simp only [step, effect, h2, reduceCtorEq, if_false]; rw [if_pos hb]
      rw [e]
      refine ⟨⟨rfl, by simp [Objs.link], ?_⟩, rfl, ?_⟩
      · have : (h.link c (some t) b').parent c = some t := by simp [Objs.link]
        rw [this]
        exact chain_link (st := (t, b) :: ps) ⟨rfl, h2, h3⟩ hc'
      · intro x hx
        simp only [Spec.step, List.mem_cons] at hx
        rcases hx with rfl | rfl | hx
        · exact hb'
        · exact hb
        · exact hps x hx
    | yieldTo c =>
      have hc' := hy c rfl
      have e : step h t (.yieldTo c) = (h.link c (h.parent t) (h.bits t), some c, [.resumed t], .suspend) := by
        simp only [step, effect, h2, reduceCtorEq, if_false]; rw [if_pos hb]
      rw [e]
      refine ⟨⟨rfl, by simp [Objs.link, h2], ?_⟩, rfl, ?_⟩
      · have : (h.link c (h.parent t) (h.bits t)).parent c = h.parent t := by simp [Objs.link]
        rw [this]
        exact chain_link h3 hc'
      · intro x hx
        simp only [Spec.step, List.mem_cons] at hx
        rcases hx with rfl | hx
        · exact hb
        · exact hps x hx
    | fail =>
      match hp : h.parent t, ps, h3 with
      | none, [], _ =>
        have e : step h t .fail = (h, none, [.resumed t], .abort) := by
          simp only [step, effect, hp, if_true]
        rw [e]
        exact ⟨trivial, rfl, hps⟩
      | some p, (p', b') :: qs, h3 =>
        have e : step h t .fail = (h, some p, [.resumed t, .stopped p], .again) := by
          simp only [step, effect, hp, if_true]
        obtain ⟨g1, g2, g3⟩ := h3
        subst g1
        rw [e]
        exact ⟨⟨rfl, g2, g3⟩, rfl, hps⟩

/-! ### Properties -/

/-- C147 (partial: a task must not be transferred to while it is waiting, and `CCO_NOOP` must not be among the
await bits; see `yield_to_waiting_hangs` and `noop_bits_lose_task`). The pointers written by `cco_await_task` and
`cco_yield_to` make a stack of tasks: awaiting pushes, completing pops and resumes the one below,
transferring replaces the innermost task. -/
theorem tasks_are_stack_partial : ∀ {ms : List Move} {h : Objs} {o : Option Nat} {st : List (Nat × BitVec 32)},
    Chain h o st → NoNoop st → Spec.Proper st ms → run h o ms = Spec.run st ms
  | ms, h, none, [], _, _, _ => by simp [run, Spec.run]
  | _, _, some _, [], hc, _, _ => hc.elim
  | _, _, none, _ :: _, hc, _, _ => hc.elim
  | [], h, some t, (t', b) :: ps, ⟨h1, _, _⟩, _, _ => by simp [run, Spec.run, h1]
  | m :: ms, h, some t, (t', b) :: ps, hc, hn, hp => by
    obtain ⟨r1, r2, r3⟩ := step_refines hc hn hp.1 hp.2.1
    have ih := tasks_are_stack_partial r1 r3 hp.2.2
    rw [run, Spec.run]
    simp only [r2, ih]

/-- Tasks 1 awaits 2, 2 transfers to 3, 3 completes: 1 goes on; it completes. -/
example : run ⟨fun _ => none, fun _ => 0⟩ (some 1) [.await 2 0, .yieldTo 3, .ret 0, .ret 0] =
    ([.resumed 1, .resumed 2, .resumed 3, .resumed 1], .done, none) := by
  rw [tasks_are_stack_partial (st := [(1, 0)]) (by simp [Chain]) (by simp [NoNoop]; decide)
    (by simp [Spec.Proper, Spec.step]; decide)]
  decide

/-- C147. Control can be passed on by `cco_yield_to` any number of times, also back and forth: the tasks are
resumed in the order of the transfers, and when the last one completes the task that awaited the first
of them is resumed; none of the others is. -/
theorem transfers_in_order {h : Objs} {t p : Nat} {b b' : BitVec 32} {ps : List (Nat × BitVec 32)} {cs : List Nat} {v : BitVec 32}
    (hc : Chain h (some t) ((t, b) :: (p, b') :: ps)) (hn : NoNoop ((t, b) :: (p, b') :: ps))
    (hcs : ∀ c ∈ cs, c ∉ (((p, b') :: ps).map (·.1) : List Nat)) (hv : v &&& ~~~b = 0) :
    run h (some t) (cs.map .yieldTo ++ [.ret v]) = ((t :: cs).map .resumed, .suspend, some p) := by
  have hp : ∀ (cs : List Nat) (t : Nat), (∀ c ∈ cs, c ∉ (((p, b') :: ps).map (·.1) : List Nat)) →
      Spec.Proper ((t, b) :: (p, b') :: ps) (cs.map .yieldTo ++ [.ret v]) := by
    intro cs
    induction cs with
    | nil => intro t _; exact ⟨fun _ _ h => by simp at h, fun _ h => by simp at h, trivial⟩
    | cons c cs ih =>
      intro t hcs
      refine ⟨fun _ _ h => by simp at h, fun c' h => ?_, ih c fun x hx => hcs x (by simp [hx])⟩
      have : c = c' := by simpa using h
      subst this
      exact hcs c (by simp)
  have hs : ∀ (cs : List Nat) (t : Nat),
      Spec.run ((t, b) :: (p, b') :: ps) (cs.map .yieldTo ++ [.ret v]) = ((t :: cs).map .resumed, .suspend, some p) := by
    intro cs
    induction cs with
    | nil =>
      intro t
      have e : Spec.step ((t, b) :: (p, b') :: ps) (.ret v) = ((p, b') :: ps, [.resumed t], .suspend) := by
        rw [Spec.step, if_neg (by simpa using hv)]; rfl
      simp [Spec.run, e]
    | cons c cs ih =>
      intro t
      rw [List.map_cons, List.cons_append, Spec.run]
      simp only [Spec.step, ih c]
      simp
  rw [tasks_are_stack_partial hc hn (hp cs t hcs), hs cs t]

/-- The producer 1 and the consumer 2, awaited by 0. -/
example : run ⟨fun t => if t = 1 then some 0 else none, fun _ => 0⟩ (some 1) ([2, 1, 2, 1, 2].map .yieldTo ++ [.ret 0]) =
    ([1, 2, 1, 2, 1, 2].map .resumed, .suspend, some 0) :=
  transfers_in_order (b := 0) (b' := 0) (ps := []) (by simp [Chain]) (by simp [NoNoop]; decide) (by simp) (by simp)

/-- C147, refutation: if an awaited task transfers to the task awaiting it, that one becomes its own parent: however
often it is resumed and whatever it returns, also after it is done, the fiber does not end. -/
theorem yield_to_waiting_hangs {h : Objs} {t p : Nat} {b b' : BitVec 32} {ps : List (Nat × BitVec 32)}
    (hc : Chain h (some t) ((t, b) :: (p, b') :: ps)) (hn : NOOP &&& ~~~b ≠ 0) (vs : List (BitVec 32)) :
    run h (some t) (.yieldTo p :: vs.map .ret) = (.resumed t :: vs.map (fun _ => .resumed p), .suspend, some p) := by
  obtain ⟨_, h2, h3⟩ := hc
  have hpar : h.parent t = some p := by
    match hq : h.parent t, h3 with
    | some q, h3 => exact congrArg some h3.1
    | none, h3 => exact h3.elim
  have loop : ∀ (vs : List (BitVec 32)) (g : Objs), g.parent p = some p →
      run g (some p) (vs.map .ret) = (vs.map (fun _ => .resumed p), .suspend, some p) := by
    intro vs
    induction vs with
    | nil => intro g _; rfl
    | cons v vs ih =>
      intro g hg
      have e : step g p (.ret v) = (g, some p, [.resumed p], .suspend) := by
        simp only [step, effect, hg, reduceCtorEq, if_false]
        split <;> rfl
      rw [List.map_cons, run, e]
      simp [ih g hg]
  have e : step h t (.yieldTo p) = (h.link p (some p) b, some p, [.resumed t], .suspend) := by
    simp only [step, effect, h2, hpar, reduceCtorEq, if_false]; rw [if_pos hn]
  rw [run, e]
  simp [loop vs (h.link p (some p) b) (by simp [Objs.link])]

example : run ⟨fun t => if t = 2 then some 1 else none, fun _ => 0⟩ (some 2) (.yieldTo 1 :: (List.replicate 3 0).map .ret) =
    ([.resumed 2, .resumed 1, .resumed 1, .resumed 1], .suspend, some 1) :=
  yield_to_waiting_hangs (b := 0) (b' := 0) (ps := []) (by simp [Chain]) (by decide) _

/-- C147, refutation: the same with a task awaiting itself. -/
theorem await_self_hangs {h : Objs} {t : Nat} {b b' : BitVec 32} (hb : h.bits t = b) (hn : NOOP &&& ~~~b ≠ 0) (vs : List (BitVec 32)) :
    run h (some t) (.await t b' :: vs.map .ret) = (.resumed t :: vs.map (fun _ => .resumed t), .suspend, some t) := by
  have loop : ∀ (vs : List (BitVec 32)) (g : Objs), g.parent t = some t →
      run g (some t) (vs.map .ret) = (vs.map (fun _ => .resumed t), .suspend, some t) := by
    intro vs
    induction vs with
    | nil => intro g _; rfl
    | cons v vs ih =>
      intro g hg
      have e : step g t (.ret v) = (g, some t, [.resumed t], .suspend) := by
        simp only [step, effect, hg, reduceCtorEq, if_false]
        split <;> rfl
      rw [List.map_cons, run, e]
      simp [ih g hg]
  have e : step h t (.await t b') = (h.link t (some t) b', some t, [.resumed t], .suspend) := by
    simp only [step, effect, hb, reduceCtorEq, if_false]; rw [if_pos hn]
  rw [run, e]
  simp [loop vs (h.link t (some t) b') (by simp [Objs.link])]

/-- C147, refutation: with `CCO_NOOP` among its await bits a task cannot await: the task awaited is never resumed, the
parent goes on instead. -/
theorem noop_bits_lose_task {h : Objs} {t p c : Nat} {b : BitVec 32} (hp : h.parent t = some p) (hb : NOOP &&& ~~~h.bits t = 0) (ms : List Move) :
    run h (some t) (.await c b :: ms) = (.resumed t :: (run (h.link c (some t) b) (some p) ms).1, (run (h.link c (some t) b) (some p) ms).2) := by
  have e : step h t (.await c b) = (h.link c (some t) b, some p, [.resumed t], .suspend) := by
    simp only [step, effect, hp, reduceCtorEq, if_false]; rw [if_neg (by simpa using hb)]
  rw [run, e]
  simp

example : run ⟨fun t => if t = 2 then some 1 else none, fun _ => NOOP⟩ (some 2) [.await 3 0, .ret 0] =
    ([.resumed 2, .resumed 1], .done, none) := by
  rw [noop_bits_lose_task (p := 1) rfl (by decide)]
  decide

end Verif.Coro.Link
