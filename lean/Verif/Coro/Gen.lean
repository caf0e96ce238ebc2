import Verif.Coro.Props
import Verif.Algo.Pipe
/-
C153: coroutines as iterators (generators, coroutine.h 334-379), `c_filter` over them with `cco_flt_take` and
`cco_flt_takewhile` (coroutine.h 383-387), and `c_each` over them with `cco_stop`.

An iterator of a generator is a coroutine object whose members include `ref`; the value is in the generator that `ref`
points to, which nobody else changes meanwhile, so it is part of the data here. Calls of the coroutine function are
`resume` of `Verif.Coro.Model`; `F` bounds the code executed in one call.
-/
namespace Verif.Coro
open Verif.Algo (Stage Base bump mark evalStage evalAll)
variable {σ α : Type}

/-- `Gen_iter` with `Gen_next` (coroutine.h 341-356): the coroutine, whether `ref` is not NULL, and `*ref`. -/
structure Gen (σ α : Type) where
  p : Prog σ
  ref : σ → Bool
  val : σ → α

/-- `Gen_next(&it)`. -/
def Gen.next (G : Gen σ α) (F : Nat) (c : Co σ) : Option (Co σ) := (resume G.p F c).map (·.1)

/-- `Gen_begin(&gen)` (coroutine.h 359-364). -/
def Gen.begin (G : Gen σ α) (F : Nat) (d : σ) : Option (Co σ) := G.next F (fresh d)

/-- One expression of the predicate, with the state of the coroutine: the forms for coroutines end with
`_base.done ? _it.cco.state = CCO_STATE_FINALLY : 1` (coroutine.h 383-387). -/
def evalStageG (s : Stage α) (b : Base) (st : Int) (x : α) : Option (Option α × Base × Int) :=
  (evalStage s b x).map fun r =>
    match s with
    | .coTake _ | .coTakeWhile _ => (r.1, r.2, if r.2.done then FINALLY else st)
    | _ => (r.1, r.2, st)

/-- The expressions joined by `&&`. -/
def evalAllG : List (Stage α) → Base → Int → α → Option (Option α × Base × Int)
  | [], b, st, x => some (some x, b, st)
  | s :: ss, b, st, x =>
    (evalStageG s b st x).bind fun r =>
      match r.1 with
      | none => some (none, r.2.1, r.2.2)
      | some y => evalAllG ss r.2.1 r.2.2 y

/-- `_c_filter` (filter.h 73-80) over a generator: the values that reach the end of the predicate, and the coroutine
when the loop is left. -/
def filterG (G : Gen σ α) (ss : List (Stage α)) (F : Nat) : Nat → Co σ → Base → Option (List α × Co σ)
  | 0, _, _ => none
  | f + 1, c, b =>
    if !b.done && G.ref c.data then
      (evalAllG ss b c.state (G.val c.data)).bind fun r =>
        (G.next F { c with state := r.2.2 }).bind fun c' =>
          (filterG G ss F f c' { r.2.1 with snTop := 0, sbTop := 0 }).map fun q => (r.1.toList ++ q.1, q.2)
    else some ([], c)

/-- `for (c_each(i, Gen, gen)) { … if (stop(*i.ref)) cco_stop(&i); }` (common.h 162-168, coroutine.h 162-166): the
values visited, and the coroutine when the loop is left. -/
def eachG (G : Gen σ α) (stopAt : α → Bool) (F : Nat) : Nat → Co σ → Option (List α × Co σ)
  | 0, _ => none
  | f + 1, c =>
    if G.ref c.data then
      (G.next F (if stopAt (G.val c.data) then stop c else c)).bind fun c' =>
        (eachG G stopAt F f c').map fun q => (G.val c.data :: q.1, q.2)
    else some ([], c)

/-! ### specification -/

namespace Spec

/-- What the documentation asks of a generator (coroutine.h 348-356): `cco_finally` does not suspend, and sets `ref` to
NULL; nothing else does. -/
structure Good (G : Gen σ α) : Prop where
  lines : WellFormed G.p
  start : G.p.inFin 0 = false
  plain : PlainFinally G.p
  keeps : ∀ n d, G.ref d = true → G.ref (G.p.body n d).1 = true
  clears : ∀ d, G.ref (G.p.fin d).1 = false

/-- Generated in this order from the state `c` on, and then the state is `e`. -/
inductive Pulls (G : Gen σ α) (F : Nat) : Co σ → List α → Co σ → Prop
  | nil (c : Co σ) : Pulls G F c [] c
  | cons (c c' e : Co σ) (xs : List α) : G.ref c.data = true → G.next F c = some c' → Pulls G F c' xs e →
      Pulls G F c (G.val c.data :: xs) e

/-- Only the forms for coroutines end the iteration. -/
def CoOnly (ss : List (Stage α)) : Prop := ∀ s ∈ ss, (∀ n, s ≠ .take n) ∧ ∀ p, s ≠ .takeWhile p

end Spec
open Spec Verif.Algo.Spec

/-! ### proofs -/

/-- Between calls: cleanup was executed exactly if the coroutine is done, and `ref` is NULL exactly then. -/
structure GOk (G : Gen σ α) (c : Co σ) : Prop where
  ok : Ok G.p c
  live : c.state ≠ DONE → G.ref c.data = true
  dead : c.state = DONE → G.ref c.data = false

theorem go_ref {G : Gen σ α} (hg : Good G) : ∀ (f : Nat) (c c' : Co σ) (v : Int), Ok G.p c → (c.state ≠ DONE → G.ref c.data = true) →
    (c.state = DONE → G.ref c.data = false) → go G.p f c = some (c', v) →
    (c'.state ≠ DONE → G.ref c'.data = true) ∧ (c'.state = DONE → G.ref c'.data = false)
  | 0, _, _, _, _, _, _, h => by simp [go] at h
  | f + 1, c, c', v, hok, hr, hd, h => by
    rw [go] at h
    split at h
    · cases h; exact ⟨hr, hd⟩
    · rename_i hD
      have hr := hr hD
      split at h
      · rename_i hF
        have hx := hg.plain c.data
        have hcl := hg.clears c.data
        cases hx' : (G.p.fin c.data).2 with
        | yield n v => rw [hx'] at hx; exact hx.elim
        | await n => rw [hx'] at hx; exact hx.elim
        | wait => rw [hx'] at hx; exact hx.elim
        | ret =>
          rw [hx'] at h
          simp only [next, hF, show stopState FINALLY = DONE by decide] at h
          cases f with
          | zero => simp [go] at h
          | succ f =>
            rw [go] at h
            simp only [if_true, Option.some.injEq, Prod.mk.injEq] at h
            obtain ⟨rfl, -⟩ := h
            exact ⟨fun e => absurd rfl e, fun _ => hcl⟩
        | yieldFinal v =>
          rw [hx'] at h
          simp only [next, hF, show stopState FINALLY = DONE by decide, Option.some.injEq, Prod.mk.injEq] at h
          obtain ⟨rfl, -⟩ := h
          exact ⟨fun e => absurd rfl e, fun _ => hcl⟩
        | fall =>
          rw [hx'] at h
          simp only [next, if_true, Option.some.injEq, Prod.mk.injEq] at h
          obtain ⟨rfl, -⟩ := h
          exact ⟨fun e => absurd rfl e, fun _ => hcl⟩
      · rename_i hF
        rcases hok.line with e | e | ⟨e, hfin⟩
        · exact absurd e hD
        · exact absurd e hF
        · rw [if_pos e, hfin] at h
          simp only [Bool.false_eq_true, if_false] at h
          have hk := hg.keeps c.state.toNat c.data hr
          have hen := hok.live hD
          have hwf := hg.lines c.state.toNat c.data
          cases hx' : (G.p.body c.state.toNat c.data).2 with
          | yield n v =>
            rw [hx'] at h
            simp only [next, Option.some.injEq, Prod.mk.injEq] at h
            obtain ⟨rfl, -⟩ := h
            refine ⟨fun _ => hk, fun e => ?_⟩
            simp only [DONE] at e
            omega
          | await n =>
            rw [hx'] at h hwf
            simp only [next] at h
            have hne : ((n : Nat) : Int) ≠ DONE := by simp only [DONE]; omega
            have hok' : Ok G.p ⟨(n : Int), (G.p.body c.state.toNat c.data).1, c.entered⟩ :=
              ⟨fun _ => hen, fun e => absurd e hne, .inr (.inr ⟨Int.natCast_nonneg n, by simpa using hwf.2⟩)⟩
            exact go_ref hg f _ _ _ hok' (fun _ => hk) (fun e => absurd e hne) h
          | wait =>
            rw [hx'] at h
            simp only [next, Option.some.injEq, Prod.mk.injEq] at h
            obtain ⟨rfl, -⟩ := h
            exact ⟨fun _ => hk, fun e => absurd e hD⟩
          | ret =>
            rw [hx'] at h
            simp only [next, show stopState c.state = FINALLY from if_pos e] at h
            have hok' : Ok G.p ⟨FINALLY, (G.p.body c.state.toNat c.data).1, c.entered⟩ := ⟨fun _ => hen, fun e => (by cases e), .inr (.inl rfl)⟩
            exact go_ref hg f _ _ _ hok' (fun _ => hk) (fun e => by cases e) h
          | yieldFinal v =>
            rw [hx'] at h
            simp only [next, show stopState c.state = FINALLY from if_pos e, Option.some.injEq, Prod.mk.injEq] at h
            obtain ⟨rfl, -⟩ := h
            exact ⟨fun _ => hk, fun e => (by cases e)⟩
          | fall =>
            rw [hx'] at h
            simp only [next, Bool.false_eq_true, if_false] at h
            have hok' : Ok G.p ⟨FINALLY, (G.p.body c.state.toNat c.data).1, c.entered⟩ := ⟨fun _ => hen, fun e => (by cases e), .inr (.inl rfl)⟩
            exact go_ref hg f _ _ _ hok' (fun _ => hk) (fun e => by cases e) h

theorem next_gok {G : Gen σ α} (hg : Good G) {F : Nat} {c c' : Co σ} (h : GOk G c) (e : G.next F c = some c') : GOk G c' := by
  obtain ⟨⟨c1, v⟩, h1, rfl⟩ := Option.map_eq_some_iff.1 e
  obtain ⟨h2, h3⟩ := go_ref hg F c c1 v h.ok h.live h.dead h1
  exact ⟨go_ok hg.lines hg.plain F c c1 v h.ok h1, h2, h3⟩

theorem fresh_gok {G : Gen σ α} (hg : Good G) {d : σ} (hd : G.ref d = true) : GOk G (fresh d) :=
  ⟨⟨fun _ => rfl, fun e => (by cases e), .inr (.inr ⟨by simp [fresh], by simpa [fresh] using hg.start⟩)⟩, fun _ => hd, fun e => by cases e⟩

theorem stopped_gok {G : Gen σ α} {c : Co σ} (h : GOk G c) (hr : G.ref c.data = true) : GOk G { c with state := FINALLY } := by
  have hD : c.state ≠ DONE := fun e => by rw [h.dead e] at hr; cases hr
  exact ⟨⟨fun _ => h.ok.live hD, fun e => (by cases e), .inr (.inl rfl)⟩, fun _ => hr, fun e => by cases e⟩

/-- Resuming a stopped generator finishes it. -/
theorem next_stopped {G : Gen σ α} (hg : Good G) (f : Nat) (c : Co σ) (hs : c.state = FINALLY) :
    ∃ c', G.next (f + 2) c = some c' ∧ c'.state = DONE ∧ c'.data = (G.p.fin c.data).1 := by
  have e : stop { c with state := 0 } = c := by cases c; simp only at hs; subst hs; rfl
  obtain ⟨c', v, h1, h2, -, h4⟩ := coroutine_stop_cleans_up hg.plain (c := { c with state := 0 }) (Int.le_refl 0) f
  rw [e] at h1
  exact ⟨c', by rw [Gen.next, h1]; rfl, h2, h4⟩

theorem next_stopped' {G : Gen σ α} (hg : Good G) {F : Nat} {c c' : Co σ} (hs : c.state = FINALLY) (h : G.next F c = some c') : c'.state = DONE := by
  obtain ⟨⟨c1, v⟩, h1, rfl⟩ := Option.map_eq_some_iff.1 h
  unfold resume at h1
  cases F with
  | zero => simp [go] at h1
  | succ F =>
    rw [go, hs, if_neg (by decide), if_pos rfl] at h1
    have hx := hg.plain c.data
    cases hx' : (G.p.fin c.data).2 with
    | yield n v => rw [hx'] at hx; exact hx.elim
    | await n => rw [hx'] at hx; exact hx.elim
    | wait => rw [hx'] at hx; exact hx.elim
    | ret =>
      rw [hx'] at h1
      simp only [next, show stopState FINALLY = DONE by decide] at h1
      cases F with
      | zero => simp [go] at h1
      | succ f =>
        rw [go] at h1
        simp only [if_true, Option.some.injEq, Prod.mk.injEq] at h1
        obtain ⟨rfl, -⟩ := h1
        rfl
    | yieldFinal v =>
      rw [hx'] at h1
      simp only [next, show stopState FINALLY = DONE by decide, Option.some.injEq, Prod.mk.injEq] at h1
      obtain ⟨rfl, -⟩ := h1
      rfl
    | fall =>
      rw [hx'] at h1
      simp only [next, if_true, Option.some.injEq, Prod.mk.injEq] at h1
      obtain ⟨rfl, -⟩ := h1
      rfl

/-! #### the predicate -/

theorem evalStage_done {s : Stage α} {b b' : Base} {x : α} {y : Option α} (h : evalStage s b x = some (y, b'))
    (hs : (∀ n, s ≠ .take n) ∧ (∀ p, s ≠ .takeWhile p) ∧ (∀ n, s ≠ .coTake n) ∧ ∀ p, s ≠ .coTakeWhile p) : b'.done = b.done := by
  have hb : ∀ {k b1}, bump b = some (k, b1) → b1.done = b.done := by
    intro k b1 h
    simp only [bump, Option.bind_eq_bind, Option.bind_eq_some_iff, Option.some.injEq, Prod.mk.injEq] at h
    obtain ⟨_, _, _, rfl⟩ := h; rfl
  have hm : ∀ {q r b1}, mark b q = some (r, b1) → b1.done = b.done := by
    intro q r b1 h
    simp only [mark, Option.bind_eq_bind, Option.bind_eq_some_iff, Option.some.injEq, Prod.mk.injEq] at h
    obtain ⟨_, _, _, rfl⟩ := h; rfl
  cases s with
  | take n => exact absurd rfl (hs.1 n)
  | takeWhile p => exact absurd rfl (hs.2.1 p)
  | coTake n => exact absurd rfl (hs.2.2.1 n)
  | coTakeWhile p => exact absurd rfl (hs.2.2.2 p)
  | filt p => simp only [evalStage, Option.some.injEq, Prod.mk.injEq] at h; rw [← h.2]
  | map f => simp only [evalStage, Option.some.injEq, Prod.mk.injEq] at h; rw [← h.2]
  | skip n =>
    simp only [evalStage, Option.bind_eq_bind, Option.bind_eq_some_iff, Option.some.injEq, Prod.mk.injEq] at h
    obtain ⟨⟨k, b1⟩, h1, _, rfl⟩ := h
    exact hb h1
  | counted n =>
    simp only [evalStage, Option.bind_eq_bind, Option.bind_eq_some_iff, Option.some.injEq, Prod.mk.injEq] at h
    obtain ⟨⟨k, b1⟩, h1, _, rfl⟩ := h
    exact hb h1
  | skipWhile p =>
    simp only [evalStage, Option.bind_eq_bind, Option.bind_eq_some_iff, Option.some.injEq, Prod.mk.injEq] at h
    obtain ⟨⟨k, b1⟩, h1, _, rfl⟩ := h
    exact hm h1

theorem evalAllG_eq : ∀ (ss : List (Stage α)) (b : Base) (st : Int) (x : α),
    (evalAllG ss b st x).map (fun r => (r.1, r.2.1)) = evalAll ss b x
  | [], _, _, _ => rfl
  | s :: ss, b, st, x => by
    rw [evalAllG, evalAll, evalStageG]
    cases h : evalStage s b x with
    | none => rfl
    | some r =>
      obtain ⟨y, b'⟩ := r
      cases y with
      | none => cases s <;> rfl
      | some y =>
        have ih := fun st => evalAllG_eq ss b' st y
        cases s <;> exact ih _

/-- The state of the coroutine behind the predicate: as before, or `CCO_STATE_FINALLY` if the iteration is to end. -/
theorem evalAllG_state : ∀ (ss : List (Stage α)) {b b' : Base} {st st' : Int} {x : α} {y : Option α}, evalAllG ss b st x = some (y, b', st') →
    (st' = st ∨ (st' = FINALLY ∧ b'.done = true)) ∧ (b.done = true → b'.done = true) ∧
    (CoOnly ss → b.done = false → b'.done = true → st' = FINALLY) ∧ (st = FINALLY → st' = FINALLY)
  | [], b, b', st, st', x, y, h => by
    simp only [evalAllG, Option.some.injEq, Prod.mk.injEq] at h
    obtain ⟨_, rfl, rfl⟩ := h
    exact ⟨.inl rfl, id, fun _ h1 h2 => (by rw [h1] at h2; cases h2), id⟩
  | s :: ss, b, b', st, st', x, y, h => by
    rw [evalAllG] at h
    obtain ⟨⟨y1, b1, st1⟩, h1, h⟩ := Option.bind_eq_some_iff.1 h
    -- one stage
    have one : (st1 = st ∨ (st1 = FINALLY ∧ b1.done = true)) ∧ (b.done = true → b1.done = true) ∧
        (CoOnly [s] → b.done = false → b1.done = true → st1 = FINALLY) ∧ (st = FINALLY → st1 = FINALLY) := by
      obtain ⟨⟨y2, b2⟩, h2, h3⟩ := Option.map_eq_some_iff.1 h1
      have mono : b.done = true → b2.done = true := by
        intro hd
        by_cases hs : (∀ n, s ≠ .take n) ∧ (∀ p, s ≠ .takeWhile p) ∧ (∀ n, s ≠ .coTake n) ∧ ∀ p, s ≠ .coTakeWhile p
        · rw [evalStage_done h2 hs]; exact hd
        · have hb : ∀ {k b1}, bump b = some (k, b1) → b1.done = b.done := by
            intro k b1 h
            simp only [bump, Option.bind_eq_bind, Option.bind_eq_some_iff, Option.some.injEq, Prod.mk.injEq] at h
            obtain ⟨_, _, _, rfl⟩ := h; rfl
          have hm : ∀ {q r b1}, mark b q = some (r, b1) → b1.done = b.done := by
            intro q r b1 h
            simp only [mark, Option.bind_eq_bind, Option.bind_eq_some_iff, Option.some.injEq, Prod.mk.injEq] at h
            obtain ⟨_, _, _, rfl⟩ := h; rfl
          cases s with
          | take n =>
            simp only [evalStage, Option.bind_eq_bind, Option.bind_eq_some_iff, Option.some.injEq, Prod.mk.injEq] at h2
            obtain ⟨⟨k, b3⟩, h4, _, rfl⟩ := h2
            simp [hb h4, hd]
          | coTake n =>
            simp only [evalStage, Option.bind_eq_bind, Option.bind_eq_some_iff, Option.some.injEq, Prod.mk.injEq] at h2
            obtain ⟨⟨k, b3⟩, h4, _, rfl⟩ := h2
            simp [hb h4, hd]
          | takeWhile n =>
            simp only [evalStage, Option.bind_eq_bind, Option.bind_eq_some_iff, Option.some.injEq, Prod.mk.injEq] at h2
            obtain ⟨⟨k, b3⟩, h4, _, rfl⟩ := h2
            simp [hm h4, hd]
          | coTakeWhile n =>
            simp only [evalStage, Option.bind_eq_bind, Option.bind_eq_some_iff, Option.some.injEq, Prod.mk.injEq] at h2
            obtain ⟨⟨k, b3⟩, h4, _, rfl⟩ := h2
            simp [hm h4, hd]
          | _ => exact absurd ⟨fun _ h => (nomatch h), fun _ h => (nomatch h), fun _ h => (nomatch h), fun _ h => (nomatch h)⟩ hs
      have plain : (∀ n, s ≠ .coTake n) → (∀ p, s ≠ .coTakeWhile p) → y1 = y2 ∧ b1 = b2 ∧ st1 = st := by
        intro n1 n2
        cases s with
        | coTake n => exact absurd rfl (n1 n)
        | coTakeWhile n => exact absurd rfl (n2 n)
        | _ => simp only [Prod.mk.injEq] at h3; exact ⟨h3.1.symm, h3.2.1.symm, h3.2.2.symm⟩
      have co : ((∃ n, s = .coTake n) ∨ ∃ p, s = .coTakeWhile p) → b1 = b2 ∧ st1 = (if b2.done then FINALLY else st) := by
        rintro (⟨n, rfl⟩ | ⟨p, rfl⟩)
        · simp only [Prod.mk.injEq] at h3; exact ⟨h3.2.1.symm, h3.2.2.symm⟩
        · simp only [Prod.mk.injEq] at h3; exact ⟨h3.2.1.symm, h3.2.2.symm⟩
      by_cases hco : (∃ n, s = .coTake n) ∨ ∃ p, s = .coTakeWhile p
      · obtain ⟨rfl, e⟩ := co hco
        cases hd : b1.done with
        | true =>
          rw [hd, if_pos rfl] at e
          exact ⟨.inr ⟨e, rfl⟩, fun _ => rfl, fun _ _ _ => e, fun _ => e⟩
        | false =>
          rw [hd, if_neg (by simp)] at e
          exact ⟨.inl e, fun h => (by rw [mono h] at hd; cases hd), fun _ _ h => (by cases h), fun h => by rw [e, h]⟩
      · have n1 : ∀ n, s ≠ .coTake n := fun n e => hco (.inl ⟨n, e⟩)
        have n2 : ∀ n, s ≠ .coTakeWhile n := fun n e => hco (.inr ⟨n, e⟩)
        obtain ⟨rfl, rfl, rfl⟩ := plain n1 n2
        refine ⟨.inl rfl, mono, fun hc hd hd' => ?_, id⟩
        obtain ⟨t1, t2⟩ := hc s (by simp)
        rw [evalStage_done h2 ⟨t1, t2, n1, n2⟩, hd] at hd'
        cases hd'
    obtain ⟨o1, o2, o3, o4⟩ := one
    have hsub : CoOnly (s :: ss) → CoOnly [s] ∧ CoOnly ss := fun hc => ⟨fun t ht => hc t (by simp at ht; simp [ht]), fun t ht => hc t (by simp [ht])⟩
    cases y1 with
    | none =>
      simp only [Option.some.injEq, Prod.mk.injEq] at h
      obtain ⟨_, rfl, rfl⟩ := h
      exact ⟨o1, o2, fun hc => o3 (hsub hc).1, o4⟩
    | some y1 =>
      obtain ⟨i1, i2, i3, i4⟩ := evalAllG_state ss h
      refine ⟨?_, fun h => i2 (o2 h), fun hc hd hd' => ?_, fun h => i4 (o4 h)⟩
      · rcases i1 with i1 | i1
        · rcases o1 with o1 | o1
          · exact .inl (i1.trans o1)
          · exact .inr ⟨i1.trans o1.1, i2 o1.2⟩
        · exact .inr i1
      · cases hb1 : b1.done with
        | true => exact i4 (o3 (hsub hc).1 hd hb1)
        | false => exact i3 (hsub hc).2 hb1 hd'

/-! #### the loop -/

theorem filterG_clean {G : Gen σ α} (hg : Good G) {ss : List (Stage α)} (hco : CoOnly ss) {F : Nat} :
    ∀ (f : Nat) {c c' : Co σ} {b : Base} {ys : List α}, GOk G c → (b.done = true → c.state = DONE) → filterG G ss F f c b = some (ys, c') →
      c'.state = DONE ∧ c'.entered = 1
  | 0, _, _, _, _, _, _, h => by cases h
  | f + 1, c, c', b, ys, hk, hb, h => by
    rw [filterG] at h
    split at h
    · rename_i hcond
      rw [Bool.and_eq_true, Bool.not_eq_true'] at hcond
      obtain ⟨⟨y, b1, st1⟩, h1, h⟩ := Option.bind_eq_some_iff.1 h
      obtain ⟨c1, h2, h⟩ := Option.bind_eq_some_iff.1 h
      obtain ⟨⟨q, c2⟩, h3, h4⟩ := Option.map_eq_some_iff.1 h
      simp only [Prod.mk.injEq] at h4
      obtain ⟨_, rfl⟩ := h4
      obtain ⟨s1, -, s3, -⟩ := evalAllG_state ss h1
      have hk1 : GOk G { c with state := st1 } := by
        rcases s1 with e | ⟨e, -⟩
        · rw [e]; exact hk
        · rw [e]; exact stopped_gok hk hcond.2
      exact filterG_clean hg hco f (b := { b1 with snTop := 0, sbTop := 0 }) (next_gok hg hk1 h2) (fun hd => next_stopped' hg (s3 hco hcond.1 hd) h2) h3
    · rename_i hcond
      simp only [Option.some.injEq, Prod.mk.injEq] at h
      obtain ⟨_, rfl⟩ := h
      have hD : c.state = DONE := by
        cases hbd : b.done with
        | true => exact hb hbd
        | false =>
          rw [hbd] at hcond
          cases Decidable.em (c.state = DONE) with
          | inl h => exact h
          | inr h => exact absurd (hk.live h) (by simpa using hcond)
      exact ⟨hD, hk.ok.done hD⟩

/-- C153 (part). When a filter over a generator ends, after `cco_flt_take`, after `cco_flt_takewhile`, or because the
generator ended, the generator is done and its cleanup was executed exactly once. Missing: pipelines with
`c_flt_take` or `c_flt_takewhile` (`c_flt_take_skips_cleanup`). -/
theorem filter_generator_cleanup_partial {G : Gen σ α} (hg : Good G) {ss : List (Stage α)} (hco : CoOnly ss) {F f : Nat} {d : σ} (hd : G.ref d = true)
    {c c' : Co σ} {ys : List α} (hb : G.begin F d = some c) (h : filterG G ss F f c .init = some (ys, c')) : c'.state = DONE ∧ c'.entered = 1 :=
  filterG_clean hg hco f (next_gok hg (fresh_gok hg hd) hb) (fun h => by cases h) h

theorem filterG_values {G : Gen σ α} {ss : List (Stage α)} (hc : counters ss < 20) (hb : flags ss ≤ 20) {F : Nat} :
    ∀ (f : Nat) {c c' : Co σ} {B : Base} {N : Nat} {ys : List α}, B.snTop = 0 → B.sbTop = 0 → B.done = false → (B.sn.length = 20 ∧ B.sb.length = 20) →
      (∀ (i k : Nat), B.sn[i]? = some k → k ≤ N) → N + f < 2 ^ 32 → filterG G ss F f c B = some (ys, c') →
      (∃ xs, Pulls G F c xs c' ∧ G.ref c'.data = false ∧ ys = Verif.Algo.pipeB ss 0 0 B xs) ∨
      (∃ xs e, Pulls G F c xs e ∧ G.ref e.data = true ∧ ∀ zs, ys = Verif.Algo.pipeB ss 0 0 B (xs ++ G.val e.data :: zs))
  | 0, _, _, _, _, _, _, _, _, _, _, _, h => by cases h
  | f + 1, c, c', B, N, ys, hs, hsb, hd, hl, hN, hN2, h => by
    rw [filterG] at h
    split at h
    · rename_i hcond
      rw [Bool.and_eq_true, Bool.not_eq_true'] at hcond
      obtain ⟨⟨y, b1, st1⟩, h1, h⟩ := Option.bind_eq_some_iff.1 h
      obtain ⟨c1, h2, h⟩ := Option.bind_eq_some_iff.1 h
      obtain ⟨⟨q, c2⟩, h3, h4⟩ := Option.map_eq_some_iff.1 h
      simp only [Prod.mk.injEq] at h4 h2 h3
      obtain ⟨rfl, rfl⟩ := h4
      obtain ⟨s1, -, -, -⟩ := evalAllG_state ss h1
      have he : evalAll ss B (G.val c.data) = some (y, b1) := by rw [← evalAllG_eq ss B c.state, h1]; rfl
      have key : ∀ xs, (b1.done = true → Verif.Algo.pipeB ss 0 0 B (G.val c.data :: xs) = y.toList) ∧
          (b1.done = false → Verif.Algo.pipeB ss 0 0 B (G.val c.data :: xs) = y.toList ++ Verif.Algo.pipeB ss 0 0 b1 xs) ∧ Verif.Algo.Frame B.snTop B.sbTop N B b1 := by
        intro xs
        obtain ⟨y', B', d, e, dn, fr, st⟩ := Verif.Algo.evalAll_spec ss (B := B) (N := N) (by omega) (by omega) hl (fun i k _ => hN i k) (by omega) (G.val c.data) xs
        rw [he] at e
        simp only [Option.some.injEq, Prod.mk.injEq] at e
        obtain ⟨rfl, rfl⟩ := e
        rw [hs, hsb] at st
        rw [hd, Bool.false_or] at dn
        subst dn
        refine ⟨fun h => ?_, fun h => ?_, fr⟩
        · rw [st, h]; simp
        · rw [st, h]; simp
      cases hdone : b1.done with
      | true =>
        right
        refine ⟨[], c, .nil _, hcond.2, fun zs => ?_⟩
        cases f with
        | zero => cases h3
        | succ f =>
          rw [filterG] at h3
          simp only [hdone, Bool.not_true, Bool.false_and, Bool.false_eq_true, if_false, Option.some.injEq, Prod.mk.injEq] at h3
          obtain ⟨rfl, rfl⟩ := h3
          simp only [List.append_nil, List.nil_append]
          exact ((key zs).1 hdone).symm
      | false =>
        have est : st1 = c.state := by
          rcases s1 with e | ⟨_, e⟩
          · exact e
          · rw [hdone] at e; cases e
        subst est
        have fr := (key []).2.2
        have ih := filterG_values hc hb f (B := { b1 with snTop := 0, sbTop := 0 }) (N := N + 1) rfl rfl hdone
          ⟨by simp only; rw [fr.len.1, hl.1], by simp only; rw [fr.len.2, hl.2]⟩
          (by intro i k hk; rcases fr.bound i k hk with h | h
              · have := hN i k h; omega
              · exact h) (by omega) h3
        rcases ih with ⟨xs, p1, p2, rfl⟩ | ⟨xs, e, p1, p2, p3⟩
        · exact .inl ⟨G.val c.data :: xs, .cons _ _ _ _ hcond.2 h2 p1, p2, by rw [(key xs).2.1 hdone, Verif.Algo.pipeB_top]⟩
        · exact .inr ⟨G.val c.data :: xs, e, .cons _ _ _ _ hcond.2 h2 p1, p2, fun zs => by
            rw [List.cons_append, (key _).2.1 hdone, p3 zs, Verif.Algo.pipeB_top]⟩
    · rename_i hcond
      simp only [Option.some.injEq, Prod.mk.injEq] at h
      obtain ⟨rfl, rfl⟩ := h
      rw [hd] at hcond
      exact .inl ⟨[], .nil _, by simpa using hcond, by rw [Verif.Algo.pipeB_nil]⟩

/-- C153 (part). What a filter over a generator lets through is what its stages make of the generated sequence, one
stage after the other: all of it if the generator ends, and otherwise, for a generator of any length, all that the
stages make of it whatever it would have generated later. Here `cco_flt_takewhile` includes the first element that
fails, and `cco_flt_take(0)` the first element (`cco_flt_takewhile_passes_failing`, `cco_flt_take_zero`). Missing: more
than 19 counters or 20 flags in a predicate, 2^32 elements. -/
theorem filter_generator_partial {G : Gen σ α} {ss : List (Stage α)} (hc : counters ss < 20) (hb : flags ss ≤ 20) {F f : Nat} (hf : f < 2 ^ 32)
    {c c' : Co σ} {ys : List α} (h : filterG G ss F f c .init = some (ys, c')) :
    (∃ xs, Pulls G F c xs c' ∧ G.ref c'.data = false ∧ ys = pipe ss xs) ∨
    (∃ xs e, Pulls G F c xs e ∧ G.ref e.data = true ∧ ∀ zs, ys = pipe ss (xs ++ G.val e.data :: zs)) := by
  have := filterG_values hc hb f (c := c) (B := .init) (N := 0) rfl rfl rfl (by simp [Base.init]) (by
    intro i k hk
    simp only [Base.init, List.getElem?_replicate] at hk
    split at hk
    · cases hk; omega
    · cases hk) (by omega) h
  simpa only [Verif.Algo.pipeB_init] using this

/-- No `cco_yield_final`. -/
def Spec.NoFinalYield (p : Prog σ) : Prop := ∀ n d v, (p.body n d).2 ≠ .yieldFinal v

theorem go_state {p : Prog σ} (hw : WellFormed p) (hp : PlainFinally p) (hy : NoFinalYield p) : ∀ (f : Nat) (c c' : Co σ) (v : Int), Ok p c →
    go p f c = some (c', v) → c'.state ≠ FINALLY
  | 0, _, _, _, _, h => by simp [go] at h
  | f + 1, c, c', v, hok, h => by
    rw [go] at h
    split at h
    · rename_i hD; cases h; rw [hD]; decide
    · rename_i hD
      split at h
      · rename_i hF
        have hx := hp c.data
        cases hx' : (p.fin c.data).2 with
        | yield n v => rw [hx'] at hx; exact hx.elim
        | await n => rw [hx'] at hx; exact hx.elim
        | wait => rw [hx'] at hx; exact hx.elim
        | ret =>
          rw [hx'] at h
          simp only [next, hF, show stopState FINALLY = DONE by decide] at h
          cases f with
          | zero => simp [go] at h
          | succ f =>
            rw [go] at h
            simp only [if_true, Option.some.injEq, Prod.mk.injEq] at h
            obtain ⟨rfl, -⟩ := h
            simp only; decide
        | yieldFinal v =>
          rw [hx'] at h
          simp only [next, hF, show stopState FINALLY = DONE by decide, Option.some.injEq, Prod.mk.injEq] at h
          obtain ⟨rfl, -⟩ := h
          simp only; decide
        | fall =>
          rw [hx'] at h
          simp only [next, if_true, Option.some.injEq, Prod.mk.injEq] at h
          obtain ⟨rfl, -⟩ := h
          simp only; decide
      · rename_i hF
        rcases hok.line with e | e | ⟨e, hfin⟩
        · exact absurd e hD
        · exact absurd e hF
        · rw [if_pos e, hfin] at h
          simp only [Bool.false_eq_true, if_false] at h
          have hen := hok.live hD
          have hwf := hw c.state.toNat c.data
          cases hx' : (p.body c.state.toNat c.data).2 with
          | yield n v =>
            rw [hx'] at h
            simp only [next, Option.some.injEq, Prod.mk.injEq] at h
            obtain ⟨rfl, -⟩ := h
            simp only [FINALLY]; omega
          | await n =>
            rw [hx'] at h hwf
            simp only [next] at h
            have hne : ((n : Nat) : Int) ≠ DONE := by simp only [DONE]; omega
            have hok' : Ok p ⟨(n : Int), (p.body c.state.toNat c.data).1, c.entered⟩ :=
              ⟨fun _ => hen, fun e => absurd e hne, .inr (.inr ⟨Int.natCast_nonneg n, by simpa using hwf.2⟩)⟩
            exact go_state hw hp hy f _ _ _ hok' h
          | wait =>
            rw [hx'] at h
            simp only [next, Option.some.injEq, Prod.mk.injEq] at h
            obtain ⟨rfl, -⟩ := h
            exact hF
          | ret =>
            rw [hx'] at h
            simp only [next, show stopState c.state = FINALLY from if_pos e] at h
            have hok' : Ok p ⟨FINALLY, (p.body c.state.toNat c.data).1, c.entered⟩ := ⟨fun _ => hen, fun e => (by cases e), .inr (.inl rfl)⟩
            exact go_state hw hp hy f _ _ _ hok' h
          | yieldFinal v => exact absurd hx' (hy _ _ v)
          | fall =>
            rw [hx'] at h
            simp only [next, Bool.false_eq_true, if_false] at h
            have hok' : Ok p ⟨FINALLY, (p.body c.state.toNat c.data).1, c.entered⟩ := ⟨fun _ => hen, fun e => (by cases e), .inr (.inl rfl)⟩
            exact go_state hw hp hy f _ _ _ hok' h

theorem eachG_stop {G : Gen σ α} (hg : Good G) (hy : NoFinalYield G.p) {stopAt : α → Bool} {F : Nat} : ∀ (f : Nat) {c c' : Co σ} {ys : List α},
    GOk G c → c.state ≠ FINALLY → eachG G stopAt F f c = some (ys, c') →
    c'.state = DONE ∧ c'.entered = 1 ∧
    ((Pulls G F c ys c' ∧ ys.all (fun x => !stopAt x) = true) ∨
     ∃ xs e, Pulls G F c xs e ∧ G.ref e.data = true ∧ xs.all (fun x => !stopAt x) = true ∧ stopAt (G.val e.data) = true ∧ ys = xs ++ [G.val e.data])
  | 0, _, _, _, _, _, h => by cases h
  | f + 1, c, c', ys, hk, hF, h => by
    rw [eachG] at h
    split at h
    · rename_i hr
      have hD : c.state ≠ DONE := fun e => by rw [hk.dead e] at hr; cases hr
      obtain ⟨c1, h2, h⟩ := Option.bind_eq_some_iff.1 h
      obtain ⟨⟨q, c2⟩, h3, h4⟩ := Option.map_eq_some_iff.1 h
      simp only [Prod.mk.injEq] at h4
      obtain ⟨rfl, rfl⟩ := h4
      by_cases hs : stopAt (G.val c.data) = true
      · rw [if_pos hs] at h2
        have hst : stop c = { c with state := FINALLY } := by
          rcases hk.ok.line with e | e | e
          · exact absurd e hD
          · exact absurd e hF
          · rw [stop, stopState, if_pos e.1]
        rw [hst] at h2
        have hk1 := next_gok hg (stopped_gok hk hr) h2
        have hD1 := next_stopped' hg rfl h2
        cases f with
        | zero => cases h3
        | succ f =>
          rw [eachG, hk1.dead hD1] at h3
          simp only [Bool.false_eq_true, if_false, Option.some.injEq, Prod.mk.injEq] at h3
          obtain ⟨rfl, rfl⟩ := h3
          exact ⟨hD1, hk1.ok.done hD1, .inr ⟨[], c, .nil _, hr, rfl, hs, rfl⟩⟩
      · rw [if_neg hs] at h2
        have hk1 := next_gok hg hk h2
        have hF1 : c1.state ≠ FINALLY := by
          obtain ⟨⟨c1, v⟩, h1, rfl⟩ := Option.map_eq_some_iff.1 h2
          exact go_state hg.lines hg.plain hy F c c1 v hk.ok h1
        obtain ⟨i1, i2, i3⟩ := eachG_stop hg hy f hk1 hF1 h3
        refine ⟨i1, i2, ?_⟩
        rcases i3 with ⟨p1, p2⟩ | ⟨xs, e, p1, p2, p3, p4, p5⟩
        · exact .inl ⟨.cons _ _ _ _ hr h2 p1, by rw [List.all_cons, p2, Bool.and_true]; simpa using hs⟩
        · exact .inr ⟨G.val c.data :: xs, e, .cons _ _ _ _ hr h2 p1, p2, by rw [List.all_cons, p3, Bool.and_true]; simpa using hs, p4, by simp [p5]⟩
    · rename_i hr
      simp only [Option.some.injEq, Prod.mk.injEq] at h
      obtain ⟨rfl, rfl⟩ := h
      have hD : c.state = DONE := by
        cases Decidable.em (c.state = DONE) with
        | inl h => exact h
        | inr h => exact absurd (hk.live h) hr
      exact ⟨hD, hk.ok.done hD, .inl ⟨.nil _, rfl⟩⟩

/-- C153 (part). `cco_stop` in the body of a loop over a generator ends the loop behind the current element: the
elements visited are those the generator yields up to the first one at which the loop was stopped (all of them if it
never was), the generator is done and its cleanup was executed exactly once. Missing: generators that use
`cco_yield_final` (`cco_stop_at_final_yield`). -/
theorem each_generator_stop_partial {G : Gen σ α} (hg : Good G) (hy : NoFinalYield G.p) {stopAt : α → Bool} {F f : Nat} {d : σ} (hd : G.ref d = true)
    {c c' : Co σ} {ys : List α} (hb : G.begin F d = some c) (h : eachG G stopAt F f c = some (ys, c')) :
    c'.state = DONE ∧ c'.entered = 1 ∧
    ((Pulls G F c ys c' ∧ ys.all (fun x => !stopAt x) = true) ∨
     ∃ xs e, Pulls G F c xs e ∧ G.ref e.data = true ∧ xs.all (fun x => !stopAt x) = true ∧ stopAt (G.val e.data) = true ∧ ys = xs ++ [G.val e.data]) := by
  have hF : c.state ≠ FINALLY := by
    obtain ⟨⟨c1, v⟩, h1, rfl⟩ := Option.map_eq_some_iff.1 hb
    exact go_state hg.lines hg.plain hy F _ c1 v (fresh_gok hg hd).ok h1
  exact eachG_stop hg hy f (next_gok hg (fresh_gok hg hd) hb) hF h

/-! ### witnesses -/

/-- examples/coroutines/generator.c 21-46 without a bound: `for (it->count = 0; ; ++it->count) { it->ref->n = it->count; cco_yield; }
cco_finally: it->ref = NULL;` The data are `count` and whether `ref` is NULL. -/
def natGen : Gen (Nat × Bool) Nat where
  p := { body := fun n d => if n = 0 then ((0, d.2), .yield 1 0) else ((d.1 + 1, d.2), .yield 1 0)
         fin := fun d => ((d.1, false), .fall), finAt := fun _ d => (d, .fall), inFin := fun _ => false }
  ref := (·.2)
  val := (·.1)

theorem natGen_good : Good natGen where
  lines := fun n d => by
    by_cases h : n = 0
    · simp [natGen, h]
    · simp [natGen, h]
  start := rfl
  plain := fun d => trivial
  keeps := fun n d h => by
    simp only [natGen] at h ⊢
    split
    · exact h
    · exact h
  clears := fun _ => rfl

/-- The first value. -/
def natStart : Co (Nat × Bool) := ⟨1, (0, true), 0⟩

example : natGen.begin 5 (7, true) = some natStart := rfl

/-- The hypotheses are met: the even ones, squared, the first three. -/
example : filterG natGen [.filt (· % 2 == 0), .map (fun x => x * x), .coTake 3] 5 20 natStart .init =
    some ([0, 4, 16], ⟨DONE, (4, false), 1⟩) := rfl
example : CoOnly ([.filt (· % 2 == 0), .map (fun x => x * x), .coTake 3] : List (Stage Nat)) := by
  intro s hs; simp only [List.mem_cons, List.not_mem_nil, or_false] at hs
  rcases hs with rfl | rfl | rfl <;> exact ⟨fun _ h => (by cases h), fun _ h => (by cases h)⟩
example : counters ([.filt (· % 2 == 0), .map (fun x => x * x), .coTake 3] : List (Stage Nat)) < 20 ∧
    flags ([.filt (· % 2 == 0), .map (fun x => x * x), .coTake 3] : List (Stage Nat)) ≤ 20 := by decide
example : eachG natGen (· == 2) 5 20 natStart = some ([0, 1, 2], ⟨DONE, (2, false), 1⟩) := rfl
example : NoFinalYield natGen.p := fun n d v h => by simp only [natGen] at h; split at h <;> cases h

/-- C153 is false for `c_flt_take` and `c_flt_takewhile`: the generator stays suspended, its cleanup is not
executed. -/
theorem c_flt_take_skips_cleanup :
    filterG natGen [.take 3] 5 20 natStart .init = some ([0, 1, 2], ⟨1, (3, true), 0⟩) ∧
    filterG natGen [.takeWhile (· < 3)] 5 20 natStart .init = some ([0, 1, 2], ⟨1, (4, true), 0⟩) := ⟨rfl, rfl⟩

/-- C153 is false for `cco_flt_takewhile`: the element that fails the predicate passes. -/
theorem cco_flt_takewhile_passes_failing :
    filterG natGen [.coTakeWhile (· < 3)] 5 20 natStart .init = some ([0, 1, 2, 3], ⟨DONE, (3, false), 1⟩) := rfl

/-- C153 is false for `cco_flt_take(0)`: an element passes. -/
theorem cco_flt_take_zero : filterG natGen [.coTake 0] 5 20 natStart .init = some ([0], ⟨DONE, (0, false), 1⟩) := rfl

/-- A generator of one value: `cco_yield_final; cco_finally: it->ref = NULL;`. -/
def oneGen : Gen Bool Nat where
  p := { body := fun _ d => (d, .yieldFinal 0), fin := fun _ => (false, .fall), finAt := fun _ d => (d, .fall), inFin := fun _ => false }
  ref := id
  val := fun _ => 0

example : Good oneGen := ⟨fun _ _ => trivial, rfl, fun _ => trivial, fun _ _ h => h, fun _ => rfl⟩
/-- Without `cco_stop` it is visited once and cleaned up. -/
example : (oneGen.begin 5 true).bind (eachG oneGen (fun _ => false) 5 20) = some ([0], ⟨DONE, false, 1⟩) := rfl

/-- C153 is false for `cco_stop` at a value that was yielded by `cco_yield_final`: the cleanup is never executed, and the
loop visits this value forever. -/
theorem cco_stop_at_final_yield : oneGen.begin 5 true = some ⟨FINALLY, true, 0⟩ ∧
    (oneGen.next 5 (stop ⟨FINALLY, true, 0⟩) = some ⟨DONE, true, 0⟩) ∧
    ∀ F f, eachG oneGen (fun _ => true) F f ⟨FINALLY, true, 0⟩ = none := by
  refine ⟨rfl, rfl, fun F => ?_⟩
  have done : ∀ f, eachG oneGen (fun _ => true) F f ⟨DONE, true, 0⟩ = none := by
    intro f
    induction f with
    | zero => rfl
    | succ f ih =>
      rw [eachG]
      cases F with
      | zero => rfl
      | succ F =>
        show (eachG oneGen (fun _ => true) (F + 1) f ⟨DONE, true, 0⟩).map _ = none
        rw [ih]; rfl
  intro f
  cases f with
  | zero => rfl
  | succ f =>
    rw [eachG]
    cases F with
    | zero => rfl
    | succ F =>
      show (eachG oneGen (fun _ => true) (F + 1) f ⟨DONE, true, 0⟩).map _ = none
      rw [done]; rfl

end Verif.Coro
