import Verif.Algo.Props
/-
The filter loop with a body of statements (`include/stc/sys/filter.h` 116-160).
-/
namespace Verif.Algo
open Spec

/-! ### Model -/

/-- How the body of a loop ends: normally (or by `continue`), or by `break`. -/
inductive Leave (σ : Type) where
  | on (st : σ)
  | brk (st : σ)
deriving DecidableEq

/-- The predicate (filter.h 130-137) in a round in which `i.ref` holds no pointer yet: only the stages that do not look
at the value can be evaluated, and the body must not be reached. The result is the state of the stages. -/
def evalBlind : List (Stage α) → Base → Option Base
  | .skip n :: ss, b => (bump b).bind fun r => if r.1 > n then evalBlind ss r.2 else some r.2
  | .take n :: ss, b => (bump b).bind fun r =>
    if n > 0 then evalBlind ss { r.2 with done := r.2.done || decide (r.1 ≥ n) } else some { r.2 with done := r.2.done || decide (r.1 ≥ n) }
  | _, _ => none

/-- The rounds of `_c_ffilter` (filter.h 156-160); the body is a function of a state and of `*i.ref`. -/
def ffilterLoop {ι α σ : Type} (W : Walker ι α) (ss : List (Stage α)) (body : σ → α → Option (Leave σ)) : Nat → ι → Base → σ → Option σ
  | 0, _, _, _ => none
  | f + 1, it, b, st =>
    match b.done, W.ref it with
    | true, _ => some st
    | false, none => some st
    | false, some _ =>
      (W.load it).bind fun x =>
      (evalAll ss b x).bind fun r =>
      match r.1 with
      | none => (W.next it).bind fun it => ffilterLoop W ss body f it { r.2 with snTop := 0, sbTop := 0 } st
      | some y => (body st y).bind fun
        | .brk st => some st
        | .on st => (W.next it).bind fun it => ffilterLoop W ss body f it { r.2 with snTop := 0, sbTop := 0 } st

/-- `for (c_ffilter(i, C, cnt, pred)) body`, `c_ffilter_from` and the reverse forms (filter.h 139-160). The variable is set up by
`i = {.iter=start, .ref=i.iter.ref}`. C11 (6.7.9, 23) leaves the order of the two expressions open: `inOrder` tells
whether `start` has been stored when `i.iter.ref` is read. -/
def ffilter {ι α σ : Type} (W : Walker ι α) (ss : List (Stage α)) (body : σ → α → Option (Leave σ)) (inOrder : Bool) (f : Nat) (start : ι) (st : σ) : Option σ :=
  if inOrder then ffilterLoop W ss body f start .init st
  else match W.ref start with
    | none => some st
    | some _ => (evalBlind ss .init).bind fun b => (W.next start).bind fun it =>
      ffilterLoop W ss body f it { b with snTop := 0, sbTop := 0 } st

/-! ### Specification -/

/-- The body executed for the values in turn, up to the first `break`. -/
def Spec.each {α σ : Type} (body : σ → α → Option (Leave σ)) : σ → List α → Option σ
  | st, [] => some st
  | st, x :: xs => (body st x).bind fun
    | .brk st => some st
    | .on st => each body st xs

/-! ### Lemmas -/

theorem ffilterLoop_filterLoop {ι α σ : Type} {W : Walker ι α} {ss : List (Stage α)} (body : σ → α → Option (Leave σ)) :
    ∀ (f : Nat) (it : ι) (b : Base) (st : σ) (ys : List α), filterLoop W ss f it b = some ys → ffilterLoop W ss body f it b st = Spec.each body st ys := by
  intro f
  induction f with
  | zero => intro it b st ys h; cases h
  | succ f ih =>
    intro it b st ys h
    rw [filterLoop] at h
    rw [ffilterLoop]
    cases hd : b.done with
    | true => rw [hd] at h; cases h; rfl
    | false =>
      rw [hd] at h
      cases hr : W.ref it with
      | none => rw [hr] at h; cases h; rfl
      | some p =>
        rw [hr] at h
        simp only [Option.bind_eq_bind] at h ⊢
        cases hx : W.load it with
        | none => rw [hx] at h; cases h
        | some x =>
          rw [hx] at h
          simp only [Option.bind_some] at h ⊢
          cases he : evalAll ss b x with
          | none => rw [he] at h; cases h
          | some r =>
            rw [he] at h
            simp only [Option.bind_some] at h ⊢
            cases hn : W.next it with
            | none => rw [hn] at h; cases h
            | some it' =>
              rw [hn] at h
              simp only [Option.bind_some] at h ⊢
              cases hl : filterLoop W ss f it' { r.2 with snTop := 0, sbTop := 0 } with
              | none => rw [hl] at h; cases h
              | some zs =>
                rw [hl] at h
                simp only [Option.bind_some] at h
                obtain ⟨y, b'⟩ := r
                cases y with
                | none =>
                  cases h
                  exact ih _ _ _ _ hl
                | some y =>
                  cases h
                  show _ = Spec.each body st (y :: zs)
                  rw [Spec.each]
                  show (body st y).bind _ = _
                  cases body st y with
                  | none => rfl
                  | some o =>
                    cases o with
                    | brk st => rfl
                    | on st => exact ih _ _ _ _ hl

/-! ### Properties -/

/-- C64 (partial: the limits of `filter_pipeline_partial`, and the expressions that set up the loop variable are evaluated in order; see
`ffilter_unordered_undefined`). The body is executed for the values that the stages give as functions on
whole sequences, in order, up to the first `break`. -/
theorem ffilter_partial {ι α σ : Type} {W : Walker ι α} {ss : List (Stage α)} (hc : counters ss < 20) (hb : flags ss ≤ 20) {it : ι} {xs : List α}
    (h : Yields W it xs) (hx : xs.length < 2 ^ 32) (f : Nat) (hf : xs.length < f) (body : σ → α → Option (Leave σ)) (st : σ) :
    ffilter W ss body true f it st = Spec.each body st (pipe ss xs) :=
  ffilterLoop_filterLoop body f it .init st _ (filter_spec hc hb h hx f hf)

/-- C64: the body over a deque or queue, both directions. -/
theorem ffilter_deque_partial {α σ : Type} {d : Deque.Deque α} {l : List α} (h : Deque.Spec.Reach d l) {ss : List (Stage α)}
    (hc : counters ss < 20) (hb : flags ss ≤ 20) (hx : l.length < 2 ^ 32) (f : Nat) (hf : l.length < f) (body : σ → α → Option (Leave σ)) (st : σ) :
    ffilter (dequeWalker d) ss body true f (Deque.begin d) st = Spec.each body st (pipe ss l) ∧
      ffilter (dequeRWalker d) ss body true f (Deque.rbegin d) st = Spec.each body st (pipe ss l.reverse) :=
  ⟨ffilter_partial hc hb (iterate_deque h) hx f hf body st, ffilter_partial hc hb (iterate_deque_reverse h) (by simpa using hx) f (by simpa using hf) body st⟩

/-- C64, refutation: a compiler may read `i.iter.ref` before it is set; the first test of a value, or a body that is
reached in the first round, then uses a pointer that was never set. -/
theorem ffilter_unordered_undefined {ι α σ : Type} (W : Walker ι α) {it : ι} {r : Nat} (h : W.ref it = some r) (p : α → Bool) (ss : List (Stage α))
    (body : σ → α → Option (Leave σ)) (f : Nat) (st : σ) : ffilter W (.filt p :: ss) body false f it st = none ∧ ffilter W [] body false f it st = none ∧
      ∀ n, 0 < n → ffilter W [.take n] body false f it st = none := by
  refine ⟨?_, ?_, fun n hn => ?_⟩
  · simp [ffilter, h, evalBlind]
  · simp [ffilter, h, evalBlind]
  · have hb : ∃ r, bump Base.init = some r := ⟨_, rfl⟩
    obtain ⟨q, hq⟩ := hb
    simp [ffilter, h, evalBlind, hq, hn]

/-! ### Cases -/

/-- The sum of the values up to the first one above 40. -/
private def addUp (s x : Nat) : Option (Leave Nat) := some (if x > 40 then .brk s else .on (s + x))

private def five : Walker Nat Nat where
  ref i := if i < 5 then some i else none
  load i := [3, 10, 17, 24, 31][i]?
  next i := some (i + 1)

example : ffilter five [.filt (· > 5), .map (2 * ·)] addUp true 6 0 0 = some 54 := by decide +kernel
example : ffilter five [.filt (· > 5)] addUp false 6 0 0 = none := (ffilter_unordered_undefined five (r := 0) rfl _ [] _ _ _).1

private theorem five_yields : Yields five 0 [3, 10, 17, 24, 31] := by
  refine .cons _ 1 0 _ _ rfl rfl rfl (.cons _ 2 1 _ _ rfl rfl rfl (.cons _ 3 2 _ _ rfl rfl rfl (.cons _ 4 3 _ _ rfl rfl rfl (.cons _ 5 4 _ _ rfl rfl rfl (.nil _ rfl)))))

example (body : Nat → Nat → Option (Leave Nat)) : ffilter five [.skip 1, .take 2] body true 6 0 0 = Spec.each body 0 [10, 17] :=
  ffilter_partial (ss := [.skip 1, .take 2]) (by decide) (by decide) five_yields (by decide) 6 (by decide) body 0

end Verif.Algo
