import Verif.Regex.Instances
import Verif.Alloc.Props

/-!
# The life of a regular expression

`cregex_compile_pro`, `cregex_match_pro`, `cregex_drop` and the calls that do all of it
(`cregex_match_aio`, `cregex_replace_aio_pro`; cregex_prv.c 1157-1182, 1275-1342; cregex.h 85-165), with
the memory they take (`Verif.Alloc.Rx`) and the result codes they return. `none` is undefined behaviour:
`NULL` is dereferenced, the allocator is misused, an assertion fails.
-/

namespace Verif.Regex
open Spec
open Verif.Alloc (Mem Answers Rx RxOp Blk)
open Verif.Utf8 (Byte)
open Verif.Utf8.Spec (Text text enc)

/-! ### result codes -/

/-- The codes of cregex.h 59-71 for the errors of compiling. -/
def Err.code : Err → Int
  | .unmatchedLeft => -4
  | .unmatchedRight => -5
  | .tooManySub => -6
  | .tooManyClasses => -7
  | .malformedClass => -8
  | .missingOperand => -9
  | .unknownOperator => -10
  | .operandOverflow => -11
  | .operatorOverflow => -12
  | .operatorUnderflow => -13

/-- cregex_prv.c 1288-1292: the result of the machine as a code. -/
def matchCode (r : Int) : Int := if r = 1 then 0 else if r = 0 then -1 else -2

/-! ### the calls -/

/-- cregex.h 74-77 `cregex`: the memory of the program, what the program is, and the last error. -/
structure Obj where
  rx : Rx
  prog : Option (Prog × Nat)
  error : Int

/-- `cregex re = {0}`. -/
def Obj.zero : Obj := ⟨⟨none, 0⟩, none, 0⟩

/-- cregex_prv.c 1275-1280 `cregex_compile_pro` of the pattern `s`; the reallocation of `_optimize` depends on
the number of instructions. -/
def compilePro (S I : Nat) (as : Answers) (m : Mem) (o : Obj) (ic dot : Bool) (s : List Nat) : Option (Mem × Obj) :=
  if as 0 = .fail then (Rx.compile S I as m o.rx ⟨(text s).length, 0, true⟩).map fun x => (x.1, ⟨x.2, none, -3⟩)
  else
    match regcomp ic dot (text s).length s with
    | .ub => none
    | .err e => (Rx.compile S I as m o.rx ⟨(text s).length, 0, true⟩).map fun x => (x.1, ⟨x.2, none, e.code⟩)
    | .ok p => (Rx.compile S I as m o.rx ⟨(text s).length, p.1.insts.length, false⟩).map fun x => (x.1, ⟨x.2, some p, 0⟩)

/-- cregex_prv.c 1282-1285 `cregex_captures`. -/
def captures (o : Obj) : Nat := match o.prog with
  | none => 0
  | some p => p.2

/-- cregex_prv.c 1157-1230, 1287-1294 `cregex_match_pro` with `_regexec2`: the long thread lists have `W`
bytes. `re->prog` is read without a check. -/
def matchPro (W : Nat) (a : Alloc.Ans) (m : Mem) (o : Obj) (E : Env) (full : Bool) (s : Nat) : Option (Mem × Int × Option Match) :=
  match o.prog with
  | none => none
  | some p =>
    (exec1 p.1 E full 10 s).bind fun x =>
      if 0 ≤ x.1 then some (m, matchCode x.1, x.2)
      else
        match Alloc.malloc a m 0 W with
        | (m1, none) => some (m1, -2, none)
        | (m1, some i) =>
          (exec1 p.1 E full 100 s).bind fun y =>
            (Alloc.free m1 0 (some i) W).map fun m2 => (m2, matchCode y.1, y.2)

/-- cregex_prv.c 1296-1303 `cregex_match_aio` in the text of `E` (from its beginning); `as` answers the
allocations of the compilation, `a` that of the search. When compiling fails `match` is not written. -/
def matchAio (S I W : Nat) (as : Answers) (a : Alloc.Ans) (m : Mem) (s : List Nat) (E : Env) : Option (Mem × Int × Option Match) :=
  (compilePro S I as m Obj.zero false false s).bind fun c =>
    if c.2.error ≠ 0 then some (c.1, c.2.error, none)
    else
      (matchPro W a c.1 c.2 E false E.bol).bind fun r =>
        (Rx.drop r.1 c.2.rx).map fun m => (m, r.2)

/-- cregex_prv.c 1328-1337 `cregex_replace_aio_pro`: a pattern that does not compile fails the assertion. The
memory of the search and of the strings is there (`replacePro` does not count it). -/
def replaceAio (S I : Nat) (as : Answers) (m : Mem) (ic dot : Bool) (s : List Nat) (E : Env) (buf size : Nat) (repl : List Byte) (count : Nat)
    (tr : Nat → List Byte → Option (List Byte)) (copy : Bool) : Option (Mem × Cstr.Str) :=
  (compilePro S I as m Obj.zero ic dot s).bind fun c =>
    if c.2.error ≠ 0 then none
    else
      match c.2.prog with
      | none => none
      | some p =>
        (replacePro p.1 p.2 E true buf size repl count tr copy).bind fun out =>
          (Rx.drop c.1 c.2.rx).map fun m => (m, out)

/-- One call of `cregex_compile_pro`: the answers of the allocator, the flags, the pattern. -/
structure Req where
  as : Answers
  ic : Bool
  dot : Bool
  pat : List Nat

/-- The calls one after the other on the same variable. -/
def compileAll (S I : Nat) : Mem → Obj → List Req → Option (Mem × Obj)
  | m, o, [] => some (m, o)
  | m, o, q :: qs => (compilePro S I q.as m o q.ic q.dot q.pat).bind fun x => compileAll S I x.1 x.2 qs

/-! ### what is assumed of the allocator -/

/-- The shrinking of the program, if any, does not happen in place. -/
def Moves (as : Answers) : Prop := as 1 ≠ .same

theorem moves_ok {as : Answers} (h : Moves as) (r : RxOp) : Rx.notInPlace as r := fun _ _ => h

/-! ### theorems -/

theorem code_lt (e : Err) : e.code < -3 := by cases e <;> decide

/-- The codes of different errors are different, and none is that of success, of a failing search or of
missing memory. -/
theorem error_codes (e : Err) : e.code < -3 ∧ ∀ e', e'.code = e.code → e' = e :=
  ⟨code_lt e, fun e' => by cases e <;> cases e' <;> decide⟩

theorem matchCode_eq (r : Int) : (matchCode r = 0 ↔ r = 1) ∧ (matchCode r = -1 ↔ r = 0) := by
  unfold matchCode
  split
  · rename_i h; subst h; decide
  · split
    · rename_i h1 h; subst h; decide
    · rename_i h1 h2
      exact ⟨⟨fun h => by omega, fun h => absurd h h1⟩, ⟨fun h => by omega, fun h => absurd h h2⟩⟩

variable {S I W : Nat}

/-- What compiling leaves behind: a program exactly if the code is 0; otherwise no memory. -/
theorem compile_result {as : Answers} {m m' : Mem} {o o' : Obj} {ic dot : Bool} {s : List Nat} (hS : 0 < S)
    (h : compilePro S I as m o ic dot s = some (m', o')) :
    (o'.error = 0 ∧ ∃ p, regcomp ic dot (text s).length s = .ok p ∧ o'.prog = some p ∧ as 0 ≠ .fail ∧ o'.rx.prog.isSome) ∨
      (o'.error ≠ 0 ∧ o'.prog = none ∧ o'.rx = ⟨none, 0⟩ ∧
        ((as 0 = .fail ∧ o'.error = -3) ∨ ∃ e, regcomp ic dot (text s).length s = .err e ∧ o'.error = e.code)) := by
  have hbad : ∀ {x : Mem × Rx}, Rx.compile S I as m o.rx ⟨(text s).length, 0, true⟩ = some x → x.2 = ⟨none, 0⟩ := by
    intro x hx
    unfold Rx.compile at hx
    rw [Option.bind_eq_some_iff] at hx
    obtain ⟨q, -, hx⟩ := hx
    split at hx
    · cases hx; rfl
    · rw [if_pos rfl, Option.map_eq_some_iff] at hx
      obtain ⟨q, -, rfl⟩ := hx
      rfl
  unfold compilePro at h
  split at h
  · rename_i hf
    rw [Option.map_eq_some_iff] at h
    obtain ⟨x, hx, h⟩ := h
    cases h
    exact .inr ⟨by show (-3 : Int) ≠ 0; decide, rfl, hbad hx, .inl ⟨hf, rfl⟩⟩
  · rename_i hf
    split at h
    · cases h
    · rename_i e he
      rw [Option.map_eq_some_iff] at h
      obtain ⟨x, hx, h⟩ := h
      cases h
      refine .inr ⟨?_, rfl, hbad hx, .inr ⟨e, he, rfl⟩⟩
      have := code_lt e
      show e.code ≠ 0
      omega
    · rename_i p hp
      rw [Option.map_eq_some_iff] at h
      obtain ⟨x, hx, h⟩ := h
      cases h
      refine .inl ⟨rfl, p, hp, rfl, hf, ?_⟩
      unfold Rx.compile at hx
      rw [Option.bind_eq_some_iff] at hx
      obtain ⟨q, hq, hx⟩ := hx
      have hq2 : q.2.isSome = true := by
        cases hr : o.rx.prog with
        | none =>
          rw [hr] at hq
          simp only [Alloc.realloc, Alloc.malloc, if_neg hf] at hq
          cases hq; rfl
        | some i =>
          rw [hr] at hq
          simp only [Alloc.realloc] at hq
          by_cases hb : (⟨i, if (some i : Option Nat).isSome then o.rx.asz else 0, 0⟩ : Blk) ∈ m.live
          · rw [if_pos hb] at hq
            cases ha : as 0 with
            | fail => exact absurd ha hf
            | same => rw [ha] at hq; cases hq; rfl
            | moved => rw [ha] at hq; cases hq; rfl
          · rw [if_neg hb] at hq; cases hq
      have hqn : q.2 ≠ none := by intro h; rw [h] at hq2; cases hq2
      rw [if_neg hqn, if_neg (by simp)] at hx
      split at hx
      · cases hx; exact hq2
      · rw [Option.bind_eq_some_iff] at hx
        obtain ⟨z, -, hx⟩ := hx
        split at hx
        · cases hx; exact hq2
        · rename_i hz
          cases hx
          show z.2.isSome = true
          cases hz2 : z.2 with
          | none => exact absurd (.inl hz2) hz
          | some _ => rfl

/-- Compiling with an allocator that does not refuse to replace a program, and does not shrink in place: the
blocks in use are those of the object and those of others (`F`). -/
theorem compile_memory_partial {as : Answers} {m : Mem} {o : Obj} {ic dot : Bool} {s : List Nat} {F : List Blk} (hS : 0 < S)
    (hub : regcomp ic dot (text s).length s ≠ .ub) (hg : Alloc.Good m) (h0 : as 0 ≠ .fail ∨ o.rx.prog = none) (h1 : Moves as)
    (h : m.live.Perm (Rx.fp o.rx ++ F)) :
    ∃ m' o', compilePro S I as m o ic dot s = some (m', o') ∧ m'.live.Perm (Rx.fp o'.rx ++ F) ∧ Alloc.Good m' := by
  have key : ∀ r : RxOp, ∃ m' x, Rx.compile S I as m o.rx r = some (m', x) ∧ m'.live.Perm (Rx.fp x ++ F) ∧ Alloc.Good m' := by
    intro r
    obtain ⟨m', x, e, hp⟩ := Alloc.rx_compile_ok (I := I) hS (as := as) (r := o.rx) (o := r) hg h0 (moves_ok h1 r) h
    exact ⟨m', x, e, hp, Alloc.rx_compile_good hg e⟩
  unfold compilePro
  split
  · obtain ⟨m', x, e, hp⟩ := key ⟨(text s).length, 0, true⟩
    exact ⟨m', _, by rw [e]; rfl, hp⟩
  · split
    · rename_i hc; exact absurd hc hub
    · obtain ⟨m', x, e, hp⟩ := key ⟨(text s).length, 0, true⟩
      exact ⟨m', _, by rw [e]; rfl, hp⟩
    · rename_i p hc
      obtain ⟨m', x, e, hp⟩ := key ⟨(text s).length, p.1.insts.length, false⟩
      exact ⟨m', _, by rw [e]; rfl, hp⟩

/-- Whatever was compiled before into the same variable, matching, the number of captures and the error are
those of the last call of `compile` alone. -/
theorem compile_history (hS : 0 < S) (qs : List Req) (q : Req) (m m' m0 m1 : Mem) (o o' o1 : Obj)
    (h : compileAll S I m o (qs ++ [q]) = some (m', o')) (h1 : compilePro S I q.as m0 Obj.zero q.ic q.dot q.pat = some (m1, o1)) :
    o'.prog = o1.prog ∧ o'.error = o1.error ∧ captures o' = captures o1 ∧
      ∀ a E full s, (matchPro W a m' o' E full s).map (·.2) = (matchPro W a m' o1 E full s).map (·.2) := by
  have hlast : ∃ m2 o2, compilePro S I q.as m2 o2 q.ic q.dot q.pat = some (m', o') := by
    induction qs generalizing m o with
    | nil =>
      simp only [List.nil_append, compileAll, Option.bind_eq_some_iff] at h
      obtain ⟨x, hx, h⟩ := h
      cases h
      exact ⟨m, o, hx⟩
    | cons r rs ih =>
      simp only [List.cons_append, compileAll, Option.bind_eq_some_iff] at h
      obtain ⟨x, -, h⟩ := h
      exact ih _ _ h
  obtain ⟨m2, o2, h2⟩ := hlast
  have hp : o'.prog = o1.prog ∧ o'.error = o1.error := by
    rcases compile_result hS h2 with ⟨a1, p, a2, a3, a4, -⟩ | ⟨a1, a2, -, a4⟩ <;>
      rcases compile_result hS h1 with ⟨b1, p', b2, b3, b4, -⟩ | ⟨b1, b2, -, b4⟩
    · rw [a2] at b2; cases b2; exact ⟨a3.trans b3.symm, a1.trans b1.symm⟩
    · rcases b4 with ⟨b4, -⟩ | ⟨e, b4, -⟩
      · exact absurd b4 a4
      · rw [a2] at b4; cases b4
    · rcases a4 with ⟨a4, -⟩ | ⟨e, a4, -⟩
      · exact absurd a4 b4
      · rw [b2] at a4; cases a4
    · refine ⟨a2.trans b2.symm, ?_⟩
      have hout : ∀ {m x y}, compilePro S I q.as m x q.ic q.dot q.pat = some y → q.as 0 = .fail → y.2.error = -3 := by
        intro m x y hy hf
        unfold compilePro at hy
        rw [if_pos hf, Option.map_eq_some_iff] at hy
        obtain ⟨z, -, rfl⟩ := hy
        rfl
      by_cases hf : q.as 0 = .fail
      · rw [hout h2 hf, hout h1 hf]
      · rcases a4 with ⟨a4, -⟩ | ⟨e, a4, a5⟩
        · exact absurd a4 hf
        · rcases b4 with ⟨b4, -⟩ | ⟨e', b4, b5⟩
          · exact absurd b4 hf
          · rw [a4] at b4; cases b4; rw [a5, b5]
  refine ⟨hp.1, hp.2, ?_, ?_⟩
  · unfold captures; rw [hp.1]
  · intro a E full s
    unfold matchPro
    rw [hp.1]

/-- Matching answers what the machine answers and gives its memory back. -/
theorem match_memory {a : Alloc.Ans} {m : Mem} {o : Obj} {p : Prog × Nat} {E : Env} {full : Bool} {s : Nat} {r : Int × Option Match} {F : List Blk}
    (hp : o.prog = some p) (hx : exec p.1 E full s (decide (a ≠ .fail)) = some r) (h : m.live.Perm F) :
    ∃ m', matchPro W a m o E full s = some (m', matchCode r.1, r.2) ∧ m'.live.Perm F := by
  unfold matchPro
  rw [hp]
  simp only
  unfold exec at hx
  rw [Option.bind_eq_some_iff] at hx
  obtain ⟨x, h1, h2⟩ := hx
  rw [h1]
  simp only [Option.bind_some]
  split at h2
  · rename_i hpos
    cases h2
    exact ⟨m, by rw [if_pos hpos], h⟩
  · rename_i hneg
    rw [if_neg hneg]
    by_cases ha : a = .fail
    · rw [if_neg (by simp [ha])] at h2
      cases h2
      exact ⟨m, by simp [Alloc.malloc, ha]; rfl, h⟩
    · rw [if_pos (by simp [ha])] at h2
      simp only [Alloc.malloc, if_neg ha, h2, Option.bind_some]
      refine ⟨{ m with next := m.next + 1 }, ?_, h⟩
      simp [Alloc.free]

/-- Without a program (never compiled, or compiled with an error) matching and dropping read `NULL`. -/
theorem no_program_undefined {as : Answers} {m m' : Mem} {o o' : Obj} {ic dot : Bool} {s : List Nat} (hS : 0 < S)
    (h : compilePro S I as m o ic dot s = some (m', o')) (he : o'.error ≠ 0) (a : Alloc.Ans) (E : Env) (full : Bool) (k : Nat) :
    matchPro W a m' o' E full k = none ∧ Rx.drop m' o'.rx = none ∧ captures o' = 0 := by
  rcases compile_result hS h with ⟨h1, -⟩ | ⟨-, h2, h3, -⟩
  · exact absurd h1 he
  · exact ⟨by unfold matchPro; rw [h2], by rw [h3]; rfl, by unfold captures; rw [h2]⟩

section
variable {s : List Nat} {l : List (Tok Sur)} {e : Re Sur} {n : Nat} {cs : List Nat} {pre rest : List Byte} {E : Env} {U : Test → Nat → Bool} {as : Answers} {a : Alloc.Ans} {m : Mem} {F : List Blk}

theorem spells_defined {ic dot : Bool} (hs : Spells ic s l) (hn : (l.filter isCls).length ≤ 16) : regcomp ic dot (text s).length s ≠ .ub := by
  rw [regcomp_spells hs hn]
  refine compile_not_ub (fun o ho => plain_atom (spells_plain hs o ho)) ?_
  have h1 := spells_length hs
  have h2 := Verif.Utf8.length_le_text s
  rw [List.length_map]
  omega

theorem zero_fp (h : m.live.Perm F) : m.live.Perm (Rx.fp Obj.zero.rx ++ F) := by
  simpa [Obj.zero, Rx.fp, Alloc.blk] using h

theorem drop_memory {r : Rx} (hr : r.prog.isSome) (h : m.live.Perm (Rx.fp r ++ F)) : ∃ m', Rx.drop m r = some m' ∧ m'.live.Perm F := by
  obtain ⟨m3, e3, h3⟩ := Alloc.free_ok (m := m) (p := r.prog) h
  exact ⟨m3, by unfold Rx.drop; rw [if_pos hr, e3], h3⟩

/-- Compile, match and drop in one call: the code 0 and the leftmost longest match with its groups, or the
code -1 if nothing matches; and every block is given back. Missing: an allocator that shrinks blocks where
they are (`match_aio_inplace`), one that refuses (`match_aio_refused`), and the limits of patterns and texts
named in the hypotheses. -/
theorem match_aio_partial (hS : 0 < S) (hs : Spells false s l) (hn : (l.filter isCls).length ≤ 16) (hw : Tok.one Sur.wb ∈ l → Edges E cs) (hU : E.grp = grpOf U) (hg : G 0 0 l e n)
    (hd : e.depth ≤ 19) (h31 : n ≤ 31) (hf : e.fits Sur.eats = true) (hin : Input E cs pre rest) (hcov : Covered false l e (Soft E) cs 0)
    (hm : Alloc.Good m) (h0 : as 0 ≠ .fail) (h1 : Moves as) (ha : a ≠ .fail) (hF : m.live.Perm F) :
    ∃ m' code x, matchAio S I W as a m s E = some (m', code, x) ∧ m'.live.Perm F ∧
      ((code = 0 ∧ ∃ y i j g, x = some y ∧ Spec.Best (Sur.has false false U cs) e cs.length 0 i j g ∧ y.start = off pre cs i ∧ y.stop = off pre cs j ∧
          ∀ z, y.sub z = subOf (mapG pre cs g z)) ∨
        (code = -1 ∧ NoMatch (Sur.has false false U cs) e cs.length 0)) := by
  obtain ⟨P, hc⟩ := pattern_compiles (dot := false) hs hn (Verif.Utf8.length_le_text s) hg hd h31
  obtain ⟨m1, o1, e1, hp1, hg1⟩ := compile_memory_partial (I := I) (as := as) (o := Obj.zero) hS (by rw [hc]; simp) hm (.inr rfl) h1 (zero_fp hF)
  rcases compile_result hS e1 with ⟨r1, p, r2, r3, -, r5⟩ | ⟨-, -, -, r4⟩
  · rw [hc] at r2
    cases r2
    have hb : E.bol = off pre cs 0 := by rw [hin.bol, off_zero]
    have hsearch := pattern_search (k := 0) hs hn hw hc hU hg hf hin hcov (by omega)
    have run : ∀ ret x, exec P E false (off pre cs 0) true = some (ret, x) →
        ∃ m', matchAio S I W as a m s E = some (m', matchCode ret, x) ∧ m'.live.Perm F := by
      intro ret x hx
      obtain ⟨m2, e2, h2⟩ := match_memory (W := W) (a := a) (m := m1) r3 (by simpa [ha] using hx) hp1
      obtain ⟨m3, e3, h3⟩ := drop_memory r5 h2
      refine ⟨m3, ?_, h3⟩
      unfold matchAio
      rw [e1]
      simp only [Option.bind_some]
      rw [if_neg (by simp [r1]), hb, e2]
      simp only [Option.bind_some, e3]
      rfl
    rcases hsearch with ⟨x, i, j, g, hx, hrest⟩ | ⟨x, hx, hno⟩
    · obtain ⟨m', e2, h2⟩ := run _ _ hx
      exact ⟨m', _, _, e2, h2, .inl ⟨rfl, x, i, j, g, rfl, hrest⟩⟩
    · obtain ⟨m', e2, h2⟩ := run _ _ hx
      exact ⟨m', _, _, e2, h2, .inr ⟨rfl, hno⟩⟩
  · rcases r4 with ⟨r4, -⟩ | ⟨x, r4, -⟩
    · exact absurd r4 h0
    · rw [hc] at r4; cases r4

/-- What is not a pattern is answered with the code of an error of compiling, `match` is left as it is, and every
block is given back, whatever the allocator does. -/
theorem match_aio_error (hS : 0 < S) (hs : Spells false s l) (hn : (l.filter isCls).length ≤ 16) (hne : l ≠ []) (hno : ¬ ∃ e n, G 0 0 l e n)
    (hm : Alloc.Good m) (hF : m.live.Perm F) :
    ∃ m' code, matchAio S I W as a m s E = some (m', code, none) ∧ m'.live.Perm F ∧ code ≤ -3 := by
  have hnok : ∀ p, regcomp false false (text s).length s ≠ .ok p := by
    rintro ⟨P, n⟩ h
    rcases pattern_compiled hs hn h with ⟨h, -⟩ | ⟨e, h⟩
    · exact hne h
    · exact hno ⟨e, n, h⟩
  have key : ∃ m' x, Rx.compile S I as m Obj.zero.rx ⟨(text s).length, 0, true⟩ = some (m', x) ∧ m'.live.Perm (Rx.fp x ++ F) :=
    Alloc.rx_compile_ok (I := I) hS (as := as) (r := Obj.zero.rx) hm (.inr rfl) (fun h => by cases h) (zero_fp hF)
  obtain ⟨m', x, e1, hp⟩ := key
  have hx : x = ⟨none, 0⟩ := by
    unfold Rx.compile at e1
    rw [Option.bind_eq_some_iff] at e1
    obtain ⟨q, -, e1⟩ := e1
    split at e1
    · cases e1; rfl
    · rw [if_pos rfl, Option.map_eq_some_iff] at e1
      obtain ⟨q, -, e1⟩ := e1
      cases e1
      rfl
  subst hx
  have done : ∀ code : Int, code ≤ -3 → compilePro S I as m Obj.zero false false s = some (m', ⟨⟨none, 0⟩, none, code⟩) →
      matchAio S I W as a m s E = some (m', code, none) := by
    intro code hcode h
    unfold matchAio
    rw [h]
    simp only [Option.bind_some]
    rw [if_pos (by omega)]
  have hp' : m'.live.Perm F := by simpa [Rx.fp, Alloc.blk] using hp
  by_cases h0 : as 0 = .fail
  · exact ⟨m', -3, done _ (by omega) (by unfold compilePro; rw [if_pos h0, e1]; rfl), hp', by omega⟩
  · cases hc : regcomp false false (text s).length s with
    | ub => exact absurd hc (spells_defined hs hn)
    | ok p => exact absurd hc (hnok p)
    | err x =>
      have := code_lt x
      exact ⟨m', x.code, done _ (by omega) (by unfold compilePro; rw [if_neg h0, hc]; simp only [e1]; rfl), hp', by omega⟩

/-- If the first allocation is refused the code is CREG_OUTOFMEMORY, for any pattern. -/
theorem match_aio_refused (h0 : as 0 = .fail) : matchAio S I W as a m s E = some (m, -3, none) := by
  unfold matchAio compilePro
  rw [if_pos h0]
  simp [Rx.compile, Obj.zero, Alloc.realloc, Alloc.malloc, h0]

/-- Replacing in one call. Missing: as for `match_aio_partial` and `replace_fits`. -/
theorem replace_aio_partial {ic dot : Bool} {r junk : List Byte} {ps : List Piece} {tr : Nat → List Byte → Option (List Byte)} {copy : Bool} (hS : 0 < S)
    (hs : Spells ic s l) (hn : (l.filter isCls).length ≤ 16) (hw : Tok.one Sur.wb ∉ l) (hU : E.grp = grpOf U) (hg : G 0 0 l e n) (hd : e.depth ≤ 19) (h31 : n ≤ 31) (hf : e.fits Sur.eats = true)
    (hps : Reads r ps) (hEm : E.m = pre ++ text cs ++ rest) (ht : Text cs) (hend : ∃ x y, rune E.m (pre.length + (text cs).length) = some (x, y))
    (hcov : Covered ic l e (rest.head? = some 0#8) cs 0) (count : Nat) (hm : Alloc.Good m) (h0 : as 0 ≠ .fail) (h1 : Moves as) (hF : m.live.Perm F) :
    ∃ m' s' out, replaceAio S I as m ic dot s E pre.length (text cs).length (r ++ 0#8 :: junk) count tr copy = some (m', s') ∧ m'.live.Perm F ∧ Cstr.mem s' = some (out ++ [0#8]) ∧
      Replaced (Sur.has ic dot U) e (fun gt => value (n + 1) (fun k => (tr k (gt k)).getD (gt k)) ps) (fun b => if copy then b else []) count cs out := by
  obtain ⟨P, hc⟩ := pattern_compiles (dot := dot) hs hn (Verif.Utf8.length_le_text s) hg hd h31
  obtain ⟨s', out, e2, h2, h3⟩ := replace_fits (junk := junk) (tr := tr) (copy := copy) hs hn hw hc hU hg hf hps hEm ht hend hcov count
  obtain ⟨m1, o1, e1, hp1, -⟩ := compile_memory_partial (I := I) (as := as) (o := Obj.zero) hS (by rw [hc]; simp) hm (.inr rfl) h1 (zero_fp hF)
  rcases compile_result hS e1 with ⟨r1, p, r2, r3, -, r5⟩ | ⟨-, -, -, r4⟩
  · rw [hc] at r2
    cases r2
    obtain ⟨m3, e3, h4⟩ := drop_memory r5 hp1
    refine ⟨m3, s', out, ?_, h4, h2, h3⟩
    unfold replaceAio
    rw [e1]
    simp only [Option.bind_some]
    rw [if_neg (by simp [r1]), r3]
    simp only [e2, Option.bind_some, e3]
    rfl
  · rcases r4 with ⟨r4, -⟩ | ⟨x, r4, -⟩
    · exact absurd r4 h0
    · rw [hc] at r4; cases r4

/-- Replacing in one call with what is not a pattern fails an assertion instead of returning an error. -/
theorem replace_aio_asserts {ic dot : Bool} (hS : 0 < S) (hs : Spells ic s l) (hn : (l.filter isCls).length ≤ 16) (hne : l ≠ []) (hno : ¬ ∃ e n, G 0 0 l e n)
    (buf size count : Nat) (repl : List Byte) (tr : Nat → List Byte → Option (List Byte)) (copy : Bool) :
    replaceAio S I as m ic dot s E buf size repl count tr copy = none := by
  unfold replaceAio
  cases hc : compilePro S I as m Obj.zero ic dot s with
  | none => rfl
  | some c =>
    obtain ⟨m1, o1⟩ := c
    rcases compile_result hS hc with ⟨-, ⟨P, n⟩, h, -⟩ | ⟨h, -⟩
    · rcases pattern_compiled hs hn h with ⟨h, -⟩ | ⟨e, h⟩
      · exact absurd h hne
      · exact absurd ⟨e, n, h⟩ hno
    · simp only [Option.bind_some]
      rw [if_pos h]

end

/-! ### cases -/

/-- An allocator that always moves blocks. -/
def mv : Answers := fun _ => .moved

theorem empty_mem : Alloc.Good ⟨[], 0⟩ := Alloc.empty_good (Alloc.cregex 1 1)

theorem demo_depth : demoRe.depth ≤ 19 ∧ demoRe.fits Sur.eats = true := by decide

example (cs : List Nat) (h : Text cs) := match_aio_partial (S := 48) (I := 16) (W := 6400) (as := mv) (a := .same) (m := ⟨[], 0⟩) (F := []) (by decide) demo_spells (by decide)
  (fun h => absurd h (by decide)) rfl demo_grammar demo_depth.1 (by decide) demo_depth.2 (strU_input h) (.inl ⟨Soft.of_none rfl, fun h => absurd h (by decide), fun h => by cases h⟩) empty_mem (by decide) (by unfold Moves; decide) (by decide) (.refl _)

/-- The result in `demoText`: the match at bytes 1 to 6, and no block in use. -/
example : ((matchAio 48 16 6400 mv .same ⟨[], 0⟩ demo (strU demoText)).map fun r => (r.1.live, r.2.1, r.2.2.map fun x => (x.start, x.stop))) = some ([], 0, some (1, 6)) := by decide +kernel

/-- With an allocator that shrinks where the block is, the same call frees with a wrong size. -/
theorem match_aio_inplace : matchAio 48 16 6400 (fun _ => .same) .same ⟨[], 0⟩ [97] (strU [97]) = none ∧
    ((matchAio 48 16 6400 mv .same ⟨[], 0⟩ [97] (strU [97])).map fun r => (r.1.live, r.2.1)) = some ([], 0) := by decide +kernel

theorem paren_spells : Spells false [40, 97] [.lpar, .one (.chr 97)] :=
  .tok (t := .lpar) (fun a h => by cases h) (fun _ => by decide) (.tok (t := .one (.chr 97)) (fun a h => by cases h; exact ⟨by decide, by decide⟩) (fun h => by cases h) .nil)

/-- `(a` is not a pattern. -/
theorem paren_wrong : ¬ ∃ (e : Re Sur) (n : Nat), G 0 0 [.lpar, .one (.chr 97)] e n :=
  pattern_rejected (ic := false) (dot := false) (bytes := 2) (x := .unmatchedLeft) paren_spells (by decide) (by decide) rfl rfl

example (as : Answers) (a : Alloc.Ans) (E : Env) := match_aio_error (S := 48) (I := 16) (W := 6400) (as := as) (a := a) (E := E) (m := ⟨[], 0⟩) (F := []) (by decide) paren_spells (by decide) (by simp) paren_wrong empty_mem (.refl _)

example : ((matchAio 48 16 6400 mv .same ⟨[], 0⟩ [40, 97] (strU [97])).map fun r => (r.1.live, r.2.1, r.2.2.isNone)) = some ([], -4, true) := by decide +kernel

example := replace_aio_asserts (S := 48) (I := 16) (E := strU [97]) (as := mv) (m := ⟨[], 0⟩) (dot := false) (by decide) paren_spells (by decide) (by simp) paren_wrong 0 1 9 [0#8] (fun _ _ => none) true

example (cs : List Nat) (ht : Text cs) (count : Nat) := replace_aio_partial (S := 48) (I := 16) (as := mv) (m := ⟨[], 0⟩) (F := []) (E := strU cs) (pre := []) (rest := [0#8]) (dot := false) (copy := true)
  (junk := []) (tr := fun _ _ => none) (by decide) demo_spells (by decide) (by decide) rfl demo_grammar demo_depth.1 (by decide) demo_depth.2 reads_first rfl ht
  ⟨0, 1, by simp [strU, rune]⟩ (.inl ⟨rfl, fun h => absurd h (by decide), fun h => by cases h⟩) count empty_mem (by decide) (by unfold Moves; decide) (.refl _)

/-- The expression `(a` was compiled, then `a`, then the text is searched: as if only `a` had been compiled. -/
example : (((compileAll 48 16 ⟨[], 0⟩ Obj.zero [⟨mv, false, false, [40, 97]⟩, ⟨mv, false, false, [98, 98]⟩, ⟨mv, false, false, [97]⟩]).bind fun x =>
    (matchPro 6400 .same x.1 x.2 (strU [98, 97]) false 0).map fun r => (x.2.error, x.1.live.length, r.2.1, r.2.2.map fun y => (y.start, y.stop)))) = some (0, 1, 0, some (1, 2)) := by decide +kernel

example : ((compilePro 48 16 mv ⟨[], 0⟩ Obj.zero false false [40, 97]).map fun x => (x.1.live, x.2.error, x.2.prog.isNone, (Rx.drop x.1 x.2.rx).isNone)) = some ([], -4, true, true) := by decide +kernel

end Verif.Regex
