import Verif.Random.Global
import Verif.Random.NormalProps
import Mathlib.Tactic.Common
/-
C178: each generator on its own. Partial: see `seed_other_file` and `normal_ignores_seeds`. What calls on one generator give does not depend on what is done with
any other, and seeding determines it.
-/
namespace Verif.Random.Global

namespace Spec

/-- Where a call takes its random bits from. -/
inductive Src where
  | hidden64 (u : Nat) | hidden32 (u : Nat) | var (k : Nat)
deriving DecidableEq

/-- The generator each call uses. -/
def source {V : Type} (u : Nat) : Call V → Src
  | .seed _ | .uint | .real | .uniform _ | .shuffleSeed _ | .shuffle _ => .hidden64 u
  | .normal _ => .hidden64 lib
  | .seed32 _ | .uint32 | .real32 | .uniform32 _ => .hidden32 u
  | .from_ k _ | .seedR k _ | .uintR k _ | .realR k _ | .uniformR k _ _ | .normalR k _ _ => .var k

/-- The calls of a program that use generator `g`. -/
def part {V : Type} (g : Src) (p : List (Nat × Call V)) : List (Nat × Call V) :=
  p.filter fun c => source c.1 c.2 = g

/-- What those calls gave, among the results of all calls. -/
def partOf {V : Type} (g : Src) : List (Nat × Call V) → List (Res V) → List (Res V)
  | c :: p, r :: rs => if source c.1 c.2 = g then r :: partOf g p rs else partOf g p rs
  | _, _ => []

/-- Two worlds agree about a generator. -/
def Agree (g : Src) (w v : World) : Prop :=
  match g with
  | .hidden64 u => w.g64 u = v.g64 u
  | .hidden32 u => w.g32 u = v.g32 u
  | .var k => w.var k = v.var k

/-- The call gives its generator a state that only depends on the seed. -/
def Seeds {V : Type} (s : BitVec 64) : Call V → Prop
  | .seed t | .shuffleSeed t | .from_ _ t | .seedR _ t => t = s
  | _ => False

/-- The same call on a variable of the caller instead of the hidden generator. -/
def onVar {V : Type} (k : Nat) : Call V → Option (Call V)
  | .seed s | .shuffleSeed s => some (.seedR k s)
  | .uint => some (.uintR k 1)
  | .real => some (.realR k 1)
  | .uniform d => some (.uniformR k 1 d)
  | _ => none

end Spec

open Spec

variable {V : Type}

@[simp] theorem upd_same {β : Type} (f : Nat → β) (i : Nat) (x : β) : upd f i x i = x := by simp [upd]

theorem upd_ne {β : Type} (f : Nat → β) {i j : Nat} (x : β) (h : j ≠ i) : upd f i x j = f j := by simp [upd, h]

theorem bind_some {α β : Type} {o : Option α} {f : α → Option β} {y : β} (h : o.bind f = some y) :
    ∃ x, o = some x ∧ f x = some y := by
  cases o with
  | none => simp at h
  | some x => exact ⟨x, rfl, h⟩

/-- A call leaves all other generators alone. -/
theorem exec_other (a : Normal.Arith V) (f : Nat) {w w' : World} {u : Nat} {c : Call V} {r : Res V} {g : Src}
    (h : exec a f w u c = some (r, w')) (hg : source u c ≠ g) : Agree g w' w := by
  cases c <;> simp only [exec, Option.bind_eq_some_iff, Option.some.injEq, Prod.mk.injEq] at h
  case seed | uint | real | shuffleSeed | seed32 | uint32 | real32 | from_ | seedR =>
    obtain ⟨-, rfl⟩ := h
    cases g <;> simp only [source, Agree, ne_eq, Src.hidden64.injEq, Src.hidden32.injEq, Src.var.injEq] at hg ⊢
    all_goals exact upd_ne _ _ (fun e => hg e.symm)
  case uniform | normal | shuffle | uniform32 | uintR | realR =>
    obtain ⟨x, hx, -, rfl⟩ := h
    cases g <;> simp only [source, Agree, ne_eq, Src.hidden64.injEq, Src.hidden32.injEq, Src.var.injEq] at hg ⊢
    all_goals exact upd_ne _ _ (fun e => hg e.symm)
  case uniformR | normalR =>
    obtain ⟨x, hx, y, hy, -, rfl⟩ := h
    cases g <;> simp only [source, Agree, ne_eq, Src.hidden64.injEq, Src.hidden32.injEq, Src.var.injEq] at hg ⊢
    all_goals exact upd_ne _ _ (fun e => hg e.symm)

/-- A call depends on its own generator only. -/
theorem exec_same (a : Normal.Arith V) (f : Nat) {w w' v : World} {u : Nat} {c : Call V} {r : Res V}
    (h : exec a f w u c = some (r, w')) (hg : Agree (source u c) w v) :
    ∃ v', exec a f v u c = some (r, v') ∧ Agree (source u c) w' v' := by
  cases c <;> simp only [exec, Option.bind_eq_some_iff, Option.some.injEq, Prod.mk.injEq] at h <;>
    simp only [source, Agree] at hg
  case seed | uint | real | shuffleSeed | seed32 | uint32 | real32 | from_ | seedR =>
    obtain ⟨rfl, rfl⟩ := h
    refine ⟨_, by simp only [exec, hg]; rfl, ?_⟩
    simp [source, Agree, hg]
  case uniform | normal | shuffle | uniform32 | uintR | realR =>
    obtain ⟨x, hx, rfl, rfl⟩ := h
    rw [hg] at hx
    refine ⟨_, by simp only [exec, hx, Option.bind_some]; rfl, ?_⟩
    simp [source, Agree]
  case uniformR | normalR =>
    obtain ⟨x, hx, y, hy, rfl, rfl⟩ := h
    rw [hg] at hx
    refine ⟨_, by simp only [exec, hx, hy, Option.bind_some]; rfl, ?_⟩
    simp [source, Agree]

theorem agree_trans {g : Src} {w v x : World} (h : Agree g w v) (h' : Agree g v x) : Agree g w x := by
  cases g <;> exact Eq.trans h h'

/-- C178 (separate generators): the calls of a program that use one generator give what they give when
they are all of the program, and leave that generator in the same state — whatever else the program
does with other generators in between, and whatever state those are in. -/
theorem generators_separate (a : Normal.Arith V) (f : Nat) (g : Src) : ∀ (p : List (Nat × Call V)) {w w' v : World} {rs : List (Res V)},
    run a f w p = some (rs, w') → Agree g w v →
    ∃ v', run a f v (part g p) = some (partOf g p rs, v') ∧ Agree g w' v'
  | [], w, w', v, rs, h, hg => by
    simp only [run, Option.some.injEq, Prod.mk.injEq] at h
    obtain ⟨rfl, rfl⟩ := h
    exact ⟨v, rfl, hg⟩
  | c :: p, w, w', v, rs, h, hg => by
    simp only [run, Option.bind_eq_some_iff, Option.some.injEq, Prod.mk.injEq] at h
    obtain ⟨⟨r, w1⟩, h1, ⟨q, w2⟩, h2, rfl, rfl⟩ := h
    by_cases hc : source c.1 c.2 = g
    · subst hc
      obtain ⟨v1, e1, g1⟩ := exec_same a f h1 hg
      obtain ⟨v2, e2, g2⟩ := generators_separate a f _ p h2 g1
      refine ⟨v2, ?_, g2⟩
      rw [part] at e2 ⊢
      rw [List.filter_cons_of_pos (by simp), run, e1, Option.bind_some, e2]
      simp [partOf]
    · obtain ⟨v2, e2, g2⟩ := generators_separate a f g p h2 (agree_trans (exec_other a f h1 hc) hg)
      refine ⟨v2, ?_, g2⟩
      rw [part] at e2 ⊢
      rw [List.filter_cons_of_neg (by simpa using hc), e2]
      simp [partOf, hc]

/-- Two runs of the same calls on a generator in the same state give the same. -/
theorem run_same (a : Normal.Arith V) (f : Nat) (g : Src) {p p' : List (Nat × Call V)} {w w1 v v1 : World} {rs rs' : List (Res V)}
    (hp : part g p = part g p') (h : run a f w p = some (rs, w1)) (h' : run a f v p' = some (rs', v1)) (hg : Agree g w v) :
    partOf g p rs = partOf g p' rs' := by
  obtain ⟨x, e, -⟩ := generators_separate a f g p h hg
  obtain ⟨y, e', -⟩ := generators_separate a f g p' h' (v := v) (by cases g <;> rfl)
  rw [hp, e'] at e
  simp only [Option.some.injEq, Prod.mk.injEq] at e
  exact e.1.symm

/-- C178 (seeding): when the first use of a generator is to seed it, then all that is later taken from it
is determined by the seed and the calls made on it: two programs that make the same calls on that
generator get the same from them, whatever they did before and whatever else they do. -/
theorem seeded_results_partial (a : Normal.Arith V) (f : Nat) (g : Src) {p p' : List (Nat × Call V)} {w w1 v v1 : World} {rs rs' : List (Res V)}
    {u : Nat} {c : Call V} {s : BitVec 64} {l : List (Nat × Call V)} (hs : Seeds s c) (hp : part g p = (u, c) :: l)
    (hp' : part g p' = (u, c) :: l) (h : run a f w p = some (rs, w1)) (h' : run a f v p' = some (rs', v1)) :
    partOf g p rs = partOf g p' rs' := by
  obtain ⟨x, e, -⟩ := generators_separate a f g p h (v := w) (by cases g <;> rfl)
  obtain ⟨y, e', -⟩ := generators_separate a f g p' h' (v := v) (by cases g <;> rfl)
  have hg : source u c = g := by
    have : (u, c) ∈ part g p := by rw [hp]; exact List.mem_cons_self
    simpa using (List.mem_filter.1 this).2
  rw [hp] at e
  rw [hp'] at e'
  simp only [run, Option.bind_eq_some_iff, Option.some.injEq, Prod.mk.injEq] at e e'
  obtain ⟨⟨r, w2⟩, h1, ⟨q, w3⟩, h2, e2, -⟩ := e
  obtain ⟨⟨r', v2⟩, h1', ⟨q', v3⟩, h2', e2', -⟩ := e'
  have key : r = r' ∧ Agree g w2 v2 := by
    subst hg
    cases c <;> simp only [Seeds] at hs <;>
      simp only [exec, Option.some.injEq, Prod.mk.injEq] at h1 h1' <;>
      obtain ⟨rfl, rfl⟩ := h1 <;> obtain ⟨rfl, rfl⟩ := h1' <;> simp [source, Agree]
  have hl : part g l = l := by
    refine List.filter_eq_self.2 fun c' hc' => ?_
    have : c' ∈ part g p := by rw [hp]; exact List.mem_cons_of_mem _ hc'
    exact (List.mem_filter.1 this).2
  obtain ⟨x', e3, -⟩ := generators_separate a f g l h2 key.2
  rw [hl, h2'] at e3
  simp only [Option.some.injEq, Prod.mk.injEq] at e3
  obtain ⟨y', e4, -⟩ := generators_separate a f g l h2 (v := w2) (by cases g <;> rfl)
  rw [hl, h2] at e4
  simp only [Option.some.injEq, Prod.mk.injEq] at e4
  rw [← e2, ← e2', key.1, e3.1, ← e4.1]

/-- C178: a program that never seeds gets what it gets after seeding with 1, from both hidden generators. -/
theorem unseeded (u : Nat) : World.init.g64 u = seed64 1 ∧ World.init.g32 u = seed32 1 := by
  simp only [World.init]
  constructor <;> decide +kernel

/-- C178: different seeds give different states. -/
theorem seeds_differ {s t : BitVec 64} (h : s ≠ t) : seed64 s ≠ seed64 t := fun e => h (congrArg Rng.s3 e)

/-- The same calls in unit `u` on the hidden generator and on a variable in the same state. -/
theorem onVar_exec (a : Normal.Arith V) (f : Nat) {w w' v : World} {u k : Nat} {c c' : Call V} {r : Res V} (hc : onVar k c = some c')
    (h : exec a f w u c = some (r, w')) (hg : v.var k = some (w.g64 u)) :
    ∃ v', exec a f v u c' = some (r, v') ∧ v'.var k = some (w'.g64 u) := by
  cases c <;> simp only [onVar, reduceCtorEq, Option.some.injEq] at hc <;> subst hc <;>
    simp only [exec, Option.bind_eq_some_iff, Option.some.injEq, Prod.mk.injEq] at h
  case seed | shuffleSeed =>
    obtain ⟨rfl, rfl⟩ := h
    exact ⟨_, rfl, by simp⟩
  case uint | real =>
    obtain ⟨rfl, rfl⟩ := h
    exact ⟨_, by simp only [exec, hg, Option.bind_some]; rfl, by simp⟩
  case uniform =>
    obtain ⟨x, hx, rfl, rfl⟩ := h
    exact ⟨_, by simp only [exec, hg, hx, Option.bind_some]; rfl, by simp⟩

/-- C178 (hidden and own generators): calls on the hidden generator of a unit give what the `_r` functions
give on a variable of the caller in the same state, with stream 1. -/
theorem hidden_as_own (a : Normal.Arith V) (f : Nat) (u k : Nat) : ∀ (p p' : List (Call V)) {w w' v : World} {rs : List (Res V)},
    p.map (onVar k) = p'.map some → run a f w (p.map (u, ·)) = some (rs, w') → v.var k = some (w.g64 u) →
    ∃ v', run a f v (p'.map (u, ·)) = some (rs, v') ∧ v'.var k = some (w'.g64 u)
  | [], [], w, w', v, rs, _, h, hg => by
    simp only [List.map_nil, run, Option.some.injEq, Prod.mk.injEq] at h
    obtain ⟨rfl, rfl⟩ := h
    exact ⟨v, rfl, hg⟩
  | [], _ :: _, _, _, _, _, hp, _, _ => by simp at hp
  | _ :: _, [], _, _, _, _, hp, _, _ => by simp at hp
  | c :: p, c' :: p', w, w', v, rs, hp, h, hg => by
    simp only [List.map_cons, List.cons.injEq] at hp
    simp only [List.map_cons, run, Option.bind_eq_some_iff, Option.some.injEq, Prod.mk.injEq] at h
    obtain ⟨⟨r, w1⟩, h1, ⟨q, w2⟩, h2, rfl, rfl⟩ := h
    obtain ⟨v1, e1, g1⟩ := onVar_exec a f hp.1 h1 hg
    obtain ⟨v2, e2, g2⟩ := hidden_as_own a f u k p p' hp.2 h2 g1
    exact ⟨v2, by simp only [List.map_cons, run, e1, e2, Option.bind_some], g2⟩

/-- C178 fails across source files: seeding in one file has no effect on what calls in another file
give, for any seed. -/
theorem seed_other_file (a : Normal.Arith V) (f : Nat) {u u' : Nat} (hu : u ≠ u') (w : World) (s : BitVec 64) :
    (run a f w [(u, .seed s), (u', .uint)]).map (·.1) = some [.nothing, .word (uint64 1 (w.g64 u')).1] := by
  simp [run, exec, upd_ne _ _ hu.symm]

/-- C178 fails for `crand64_normal`: in a program whose files other than the library's make any calls —
seeding included — the numbers `crand64_normal` gives are those of the calls of `crand64_normal` alone,
from the initial state. The documentation promises `crand64_normal_r` on the seeded generator. -/
theorem normal_ignores_seeds (a : Normal.Arith V) (f : Nat) {p : List (Nat × Call V)} {w : World} {rs : List (Res V)}
    (hp : ∀ c ∈ p, c.1 ≠ lib) (h : run a f World.init p = some (rs, w)) :
    ∃ v, run a f World.init (p.filter fun c => match c.2 with | .normal _ => true | _ => false) =
      some (partOf (.hidden64 lib) p rs, v) := by
  obtain ⟨v, e, -⟩ := generators_separate a f (.hidden64 lib) p h (v := World.init) rfl
  refine ⟨v, ?_⟩
  rw [← e, part]
  congr 1
  refine List.filter_congr fun c hc => ?_
  have := hp c hc
  obtain ⟨u, c⟩ := c
  cases c <;> simp_all [source]

/-- The point of the polar method as it is, without the floating point: accepted when inside the unit circle. -/
def pointArith : Normal.Arith Int :=
  ⟨fun x y => decide (0 < x * x + y * y ∧ x * x + y * y < 2 ^ 104), fun x _ => x, fun _ y => y, fun v => v⟩

/-- Calls of a program in file 1: seed with 5, have a variable with the same seed, then `c`. -/
def seedThen (c : Call Int) : List (Nat × Call Int) := [(1, .seed 5), (1, .from_ 0 5), (1, c)]

/-- The two differ: after seeding, `crand64_normal` does not give what `crand64_normal_r` gives with a
variable of the same seed, and both are defined. -/
theorem normal_not_seeded :
    ((run pointArith 40 World.init (seedThen (.normal ⟨0, 0⟩))).map (·.1)).isSome ∧
    ((run pointArith 40 World.init (seedThen (.normalR 0 1 ⟨0, 0⟩))).map (·.1)).isSome ∧
    (run pointArith 40 World.init (seedThen (.normal ⟨0, 0⟩))).map (·.1) ≠
      (run pointArith 40 World.init (seedThen (.normalR 0 1 ⟨0, 0⟩))).map (·.1) := by
  decide +kernel

/-! ### Concrete cases -/

/-- Two files and a variable of the caller, interleaved. -/
def demo (s : BitVec 64) : List (Nat × Call Int) :=
  [(2, .uint), (1, .seed 7), (2, .seed s), (1, .uint), (1, .from_ 3 s), (2, .real), (1, .uintR 3 5), (1, .uniform ⟨1, 6, 4⟩),
    (1, .shuffle [1, 2, 3]), (2, .uint32), (1, .normal ⟨0, 0⟩)]

/-- The calls of file 1 on its hidden generator. -/
def demoOne : List (Nat × Call Int) := [(1, .seed 7), (1, .uint), (1, .uniform ⟨1, 6, 4⟩), (1, .shuffle [1, 2, 3])]

theorem demo_part (s : BitVec 64) : part (.hidden64 1) (demo s) = demoOne := by
  simp [part, demo, demoOne, source, lib]

/-- A state after other calls. -/
def demoWorld : World := { World.init with g64 := upd World.init.g64 1 (seed64 99), var := fun _ => some (seed64 4) }

theorem demo_runs : (run pointArith 40 World.init (demo 3)).isSome ∧ (run pointArith 40 demoWorld (demo 4)).isSome := by
  decide +kernel

/-- The two programs get the same from the hidden generator of file 1. -/
example : ∃ r q, run pointArith 40 World.init (demo 3) = some r ∧ run pointArith 40 demoWorld (demo 4) = some q ∧
    partOf (.hidden64 1) (demo 3) r.1 = partOf (.hidden64 1) (demo 4) q.1 := by
  obtain ⟨r, hr⟩ := Option.isSome_iff_exists.1 demo_runs.1
  obtain ⟨q, hq⟩ := Option.isSome_iff_exists.1 demo_runs.2
  have h : Seeds (V := Int) 7 (.seed 7) := by simp [Seeds]
  exact ⟨r, q, hr, hq, seeded_results_partial pointArith 40 (.hidden64 1) h (demo_part 3) (demo_part 4) hr hq⟩

/-- And what file 1 makes of it alone. -/
example : ∃ r v, run pointArith 40 demoWorld (demo 4) = some r ∧
    run pointArith 40 demoWorld demoOne = some (partOf (.hidden64 1) (demo 4) r.1, v) := by
  obtain ⟨r, hr⟩ := Option.isSome_iff_exists.1 demo_runs.2
  have hg : Agree (.hidden64 1) demoWorld demoWorld := by simp [Agree]
  obtain ⟨v, h, -⟩ := generators_separate pointArith 40 (.hidden64 1) (demo 4) hr hg
  rw [demo_part] at h
  exact ⟨r, v, hr, h⟩

/-- The other file does get different numbers for different seeds. -/
example : (run pointArith 40 World.init (demo 3)).map (fun r => r.1[5]?) ≠
    (run pointArith 40 World.init (demo 4)).map fun r => r.1[5]? := by
  decide +kernel

/-- Calls on a hidden generator, and the same on variable 3. -/
def demoHidden : List (Call Int) := [.seed 8, .uint, .uniform ⟨1, 6, 4⟩]

/-- The same on variable 3. -/
def demoOwn : List (Call Int) := [.seedR 3 8, .uintR 3 1, .uniformR 3 1 ⟨1, 6, 4⟩]

theorem demoHidden_runs : (run pointArith 40 World.init (demoHidden.map (Prod.mk 2))).isSome := by
  decide +kernel

example : ∃ r v, run pointArith 40 World.init (demoHidden.map (Prod.mk 2)) = some r ∧
    run pointArith 40 { World.init with var := fun _ => some (World.init.g64 2) } (demoOwn.map (Prod.mk 2)) = some (r.1, v) := by
  obtain ⟨r, hr⟩ := Option.isSome_iff_exists.1 demoHidden_runs
  have hp : demoHidden.map (onVar 3) = demoOwn.map some := by simp [demoHidden, demoOwn, onVar]
  have hg : (World.var { World.init with var := fun _ => some (World.init.g64 2) }) 3 = some (World.init.g64 2) := by simp
  obtain ⟨v, h, -⟩ := hidden_as_own pointArith 40 2 3 demoHidden demoOwn hp hr hg
  exact ⟨r, v, hr, h⟩

example : ∃ r v, run pointArith 40 World.init (demo 3) = some r ∧
    run pointArith 40 World.init ((demo 3).filter fun c => match c.2 with | .normal _ => true | _ => false) =
      some (partOf (.hidden64 lib) (demo 3) r.1, v) := by
  obtain ⟨r, hr⟩ := Option.isSome_iff_exists.1 demo_runs.1
  have hp : ∀ c ∈ demo 3, c.1 ≠ lib := by simp [demo, lib]
  obtain ⟨v, h⟩ := normal_ignores_seeds pointArith 40 hp hr
  exact ⟨r, v, hr, h⟩

example : (run pointArith 9 World.init [(1, .seed 5), (2, .uint)]).map (·.1) =
    some [.nothing, .word (uint64 1 (World.init.g64 2)).1] :=
  seed_other_file _ _ (by decide) _ _

example : seed64 5 ≠ seed64 6 := seeds_differ (by decide)

end Verif.Random.Global
