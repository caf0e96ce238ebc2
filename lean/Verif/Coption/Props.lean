import Verif.Coption.Safe
import Mathlib.Tactic.Common
/- Properties of option parsing. -/
namespace Verif.Coption
open Spec

/-- The parser reports exactly the options of the command line, in order, with their arguments; it comes
to an end; the argument vector is then the program name, the options with their arguments and the
operands; `ind` is where the operands begin. No long option of the command line may be ambiguous (`coption_ambiguous_never_ends`). -/
theorem coption_reports (shorts : Option Str) (longs : Option (List Long)) (prog : Str) (args : List Str) (hin : Input longs args) :
    ∃ o', run ((parse shorts longs false args).1.length + 1) init (prog :: args) shorts longs =
        some ((parse shorts longs false args).1, o', prog :: (parse shorts longs false args).2.1 ++ (parse shorts longs false args).2.2) ∧
      o'.ind = 1 + (parse shorts longs false args).2.1.length := by
  obtain ⟨o', h, hi⟩ := run_all (shorts := shorts) (longs := longs) args.length args [prog] [] init (by omega) hin rfl rfl rfl
  exact ⟨o', by simpa using h, by simpa using hi⟩

/-- Options with their arguments and operands are together the arguments, each kept in order. -/
theorem parse_split (shorts : Option Str) (longs : Option (List Long)) : ∀ (b : Bool) (args : List Str),
    ((parse shorts longs b args).2.1 ++ (parse shorts longs b args).2.2).Perm args ∧
    (parse shorts longs b args).2.1.Sublist args ∧ (parse shorts longs b args).2.2.Sublist args
  | true, [] => by simp [parse]
  | false, [] => by simp [parse]
  | true, a :: rest => by
    obtain ⟨h1, h2, h3⟩ := parse_split shorts longs false rest
    simp only [parse]
    exact ⟨h1.cons a, h2.cons_cons a, h3.cons a⟩
  | false, a :: rest => by
    rw [parse_cons]
    have key : ∀ b, (a :: (parse shorts longs b rest).2.1 ++ (parse shorts longs b rest).2.2).Perm (a :: rest) ∧
        (a :: (parse shorts longs b rest).2.1).Sublist (a :: rest) ∧ (parse shorts longs b rest).2.2.Sublist (a :: rest) := fun b =>
      let ⟨h1, h2, h3⟩ := parse_split shorts longs b rest
      ⟨h1.cons a, h2.cons_cons a, h3.cons a⟩
    split
    · split
      · exact ⟨by simp, by simp, List.Sublist.refl _⟩
      · obtain ⟨h1, h2, h3⟩ := parse_split shorts longs false rest
        exact ⟨List.perm_middle.trans (h1.cons a), h2.cons a, h3.cons_cons a⟩
    · split
      · exact ⟨by simp, by simp, by simp⟩
      · split
        · exact key _
        · cases shorts with
          | none => exact ⟨by simp, by simp, List.Sublist.refl _⟩
          | some s => exact key _

/-- The loop ends, permutes the argument vector, and leaves the operands, in their order, last, from
`ind` on; everything in front is an option or the argument of one. Missing: ambiguous long options, for which it is false
(`coption_ambiguous_never_ends`). -/
theorem coption_permutes_partial (shorts : Option Str) (longs : Option (List Long)) (prog : Str) (args : List Str) (hin : Input longs args) :
    ∃ f ev o' opts operands, run f init (prog :: args) shorts longs = some (ev, o', prog :: opts ++ operands) ∧
      (prog :: opts ++ operands).Perm (prog :: args) ∧ opts.Sublist args ∧ operands.Sublist args ∧
      o'.ind = (prog :: opts).length ∧ (prog :: opts ++ operands).drop o'.ind = operands := by
  obtain ⟨o', h, hi⟩ := coption_reports shorts longs prog args hin
  obtain ⟨h1, h2, h3⟩ := parse_split shorts longs false args
  refine ⟨_, _, o', _, _, h, h1.cons prog, h2, h3, ?_, ?_⟩
  · rw [hi, List.length_cons]; omega
  · rw [hi, show 1 + (parse shorts longs false args).2.1.length = (prog :: (parse shorts longs false args).2.1).length by simp; omega]
    exact List.drop_left

/-- Without `+` and without `--`, the operands are the arguments that neither are options nor belong to
one: no operand begins with `-` unless it is `-` itself. -/
theorem coption_operands {shorts : Option Str} (longs : Option (List Long)) (hs : shorts.isSome) (hp : posix shorts = false) :
    ∀ (b : Bool) (args : List Str), [dash, dash] ∉ args → ∀ x ∈ (parse shorts longs b args).2.2, isOption x = false
  | true, [], _, x, hx => by simp [parse] at hx
  | false, [], _, x, hx => by simp [parse] at hx
  | true, a :: rest, hd, x, hx => by
    simp only [parse] at hx
    exact coption_operands longs hs hp false rest (by simp_all) x hx
  | false, a :: rest, hd, x, hx => by
    have hd' : [dash, dash] ∉ rest := by simp_all
    have had : a ≠ [dash, dash] := by rintro rfl; simp at hd
    rw [parse_cons] at hx
    by_cases ho : isOption a = true
    · rw [if_neg (by simp [ho]), if_neg had] at hx
      split at hx
      · exact coption_operands longs hs hp _ rest hd' x hx
      · cases shorts with
        | none => cases hs
        | some s => exact coption_operands longs hs hp _ rest hd' x hx
    · rw [if_pos (by simpa using ho), if_neg (by simp [hp])] at hx
      rcases List.mem_cons.1 hx with rfl | hx
      · simpa using ho
      · exact coption_operands longs hs hp false rest hd' x hx

/-- The bytes of a text. -/
def bytes (s : String) : Str := s.toList.map Char.toNat

/-- `program a -xy out b --opt=7 --bar -q -- -x`, with `"xy:"` and the long options `bar` (required) and
`opt` (optional). -/
example : run 9 init [bytes "p", bytes "a", bytes "-xy", bytes "out", bytes "b", bytes "--op=7", bytes "--bar", bytes "-q", bytes "--", bytes "-x"] (some (bytes "xy:"))
      (some [⟨bytes "bar", .required, 98⟩, ⟨bytes "opt", .optional, 111⟩]) =
    some ([(120, 120, none), (121, 121, some (bytes "out")), (111, 111, some (bytes "7")), (98, 98, some (bytes "-q"))],
      ⟨7, 0, none, none, 9, 0, 2⟩, [bytes "p", bytes "-xy", bytes "out", bytes "--op=7", bytes "--bar", bytes "-q", bytes "--", bytes "a", bytes "b", bytes "-x"]) := by
  rfl

/-- The hypotheses of the theorems hold of this command line. -/
example : Input (some [⟨bytes "bar", .required, 98⟩, ⟨bytes "opt", .optional, 111⟩])
    [bytes "a", bytes "-xy", bytes "out", bytes "b", bytes "--op=7", bytes "--bar", bytes "-q", bytes "--", bytes "-x"] := by
  refine ⟨by decide, ?_, ?_⟩
  · rintro ls ⟨⟩; decide
  · rintro ls ⟨⟩; unfold Ambiguous; decide

/-- Long options `foo` and `fob`, and the command line `p --fo`. -/
def twoLongs : List Long := [⟨bytes "foo", .no, 102⟩, ⟨bytes "fob", .no, 103⟩]

theorem ambiguous_step (o : Opt) (hi : o.i = 1) (hn : o.nargs = 0) :
    ∃ o', get o [bytes "p", bytes "--fo"] none (some twoLongs) = some (quest, o', [bytes "p", bytes "--fo"]) ∧ o'.i = 1 ∧ o'.nargs = 0 := by
  obtain ⟨ind, opt, optstr, arg, i, pos, nargs⟩ := o
  simp only at hi hn
  subst hi hn
  exact ⟨⟨ind, 0, some (bytes "--fo"), none, 1, -1, 0⟩, rfl, rfl, rfl⟩

/-- An ambiguous abbreviation is reported, but not passed: the loop of the documentation, if it goes on
after reporting the error, never comes to an end (coption.h 137 returns without advancing). -/
theorem coption_ambiguous_never_ends : ∀ f : Nat, run f init [bytes "p", bytes "--fo"] none (some twoLongs) = none := by
  have key : ∀ (f : Nat) (o : Opt), o.i = 1 → o.nargs = 0 → run f o [bytes "p", bytes "--fo"] none (some twoLongs) = none := by
    intro f
    induction f with
    | zero => intro o _ _; rfl
    | succ f ih =>
      intro o hi hn
      obtain ⟨o', hg, hi', hn'⟩ := ambiguous_step o hi hn
      rw [run, hg]
      simp only [Option.bind_some]
      rw [if_neg (by decide), ih o' hi' hn']
      rfl
  exact fun f => key f init rfl rfl

/-- A program may call `coption_get` as often as it likes, with other specifications each time, after an
ambiguous option and after the end: no call accesses anything out of bounds, the argument vector stays a
permutation of the original one beginning with the program name, and `ind` lies within it. -/
theorem coption_any_calls (ss : List (Option Str × Option (List Long))) (prog : Str) (args : List Str) (hz : ∀ a ∈ prog :: args, 0 ∉ a) :
    ∃ o' args', calls ss init (prog :: args) = some (o', prog :: args') ∧ args'.Perm args ∧ 1 ≤ o'.ind ∧ o'.ind ≤ 1 + args.length := by
  obtain ⟨o', v, h1, h2, h3, h4⟩ := calls_safe ss (o := init) (argv := prog :: args)
    ⟨hz, Nat.le_refl _, by simp [init], by simp [init], Or.inl rfl⟩
  cases v with
  | nil => simp at h4
  | cons p v =>
    simp only [List.head?_cons, Option.some.injEq] at h4
    subst h4
    have hp := (List.perm_cons p).1 h3
    have := h2.ind
    have := hp.length_eq
    exact ⟨o', v, h1, hp, by omega, by simp at *; omega⟩

/-- Eight calls, the last ones after the end, and an ambiguous option in between. -/
example : calls (List.replicate 8 (some (bytes "x"), some twoLongs)) init [bytes "p", bytes "a", bytes "-x", bytes "--fo"] =
    some (⟨2, 0, some (bytes "--fo"), none, 3, -1, 1⟩, [bytes "p", bytes "-x", bytes "a", bytes "--fo"]) := by rfl

/-- Having returned -1, the parser returns -1 again and changes nothing. Missing: a command line with
`--`, for which it is false (`coption_again_after_dashes`). -/
theorem coption_end_again_partial {o o' : Opt} {argv v : List Str} {s : Str} {longs : Option (List Long)} (hz : ∀ a ∈ argv, 0 ∉ a)
    (hd : [dash, dash] ∉ argv) (hv : ∀ ls, longs = some ls → ∀ l ∈ ls, l.val ≠ -1) (h : get o argv (some s) longs = some (-1, o', v)) :
    get o' v (some s) longs = some (-1, o', v) := by
  unfold get at h
  simp only [Option.bind_eq_bind, Option.bind_eq_some_iff] at h
  obtain ⟨o1, h1, b, hb, h⟩ := h
  cases b with
  | false =>
    exfalso
    rw [if_neg (by simp), Option.bind_eq_some_iff] at h
    obtain ⟨d, hd1, h⟩ := h
    split at h
    next hdd =>
      rw [Option.bind_eq_some_iff] at h
      obtain ⟨e, he, h⟩ := h
      split at h
      next he0 =>
        -- the argument would be `--`
        subst hdd he0
        unfold noMore at hb
        split at hb
        · cases hb
        next hlt =>
          have hi : o1.i < argv.length := by simp only at hlt; omega
          have ha : argv[o1.i]? = some argv[o1.i] := List.getElem?_eq_getElem hi
          have hm : argv[o1.i] ∈ argv := List.getElem_mem hi
          have hz1 := hz _ hm
          have hb' : nonOption argv o1.i = some false := hb
          rw [nonOption_ok hz hi] at hb'
          unfold argCh at hd1 he
          rw [show (⟨o1.ind, 0, none, none, o1.i, o1.pos, o1.nargs⟩ : Opt).i = o1.i from rfl, ha] at hd1 he
          simp only [Option.bind_some] at hd1 he
          generalize argv[o1.i] = a at *
          match a with
          | [] => simp [chr] at hd1
          | [c] => simp [isOption] at hb'
          | [c, d] =>
            simp only [chr, List.length_cons, List.length_nil] at hd1
            simp at hd1
            simp [isOption] at hb'
            subst hd1 hb'
            exact hd hm
          | c :: d :: e :: t =>
            simp [chr] at he
            exact hz1 (by simp [he])
      next => exact absurd rfl (getLong_val h hv)
    next => exact absurd rfl (getShort_val h)
  | true =>
    rw [if_pos rfl, Option.some.injEq, Prod.mk.injEq, Prod.mk.injEq] at h
    obtain ⟨-, rfl, rfl⟩ := h
    unfold get
    have hs : skipIf { o1 with opt := 0, optstr := none, arg := none, ind := o1.i - o1.nargs } argv (some s) =
        some { o1 with opt := 0, optstr := none, arg := none, ind := o1.i - o1.nargs } := by
      unfold skipIf at h1 ⊢
      by_cases hp : posix (some s)
      · rw [if_pos hp]
      · rw [if_neg hp] at h1 ⊢
        refine skip_stays _ ?_
        rcases skip_ends _ (Nat.le_refl _) h1 with hl | hl
        · exact hl
        · unfold noMore at hb
          simp only at hb
          split at hb
          next hl' => exact hl'
          · rw [hl] at hb; simp at hb
    rw [hs]
    simp only [Option.bind_eq_bind, Option.bind_some]
    rw [show noMore ⟨o1.i - o1.nargs, 0, none, none, o1.i, o1.pos, o1.nargs⟩ argv = some true from hb]
    rfl

/-- `p a -x b`, which ends after two calls. -/
example : get ⟨2, 0, none, none, 4, 0, 2⟩ [bytes "p", bytes "-x", bytes "a", bytes "b"] (some (bytes "x")) none =
    some (-1, ⟨2, 0, none, none, 4, 0, 2⟩, [bytes "p", bytes "-x", bytes "a", bytes "b"]) := by rfl

/-- After `--` the parser returns -1 once; a further call takes the operand `-x` for an option. -/
theorem coption_again_after_dashes :
    ∃ o1 o2, get init [bytes "p", bytes "--", bytes "-x"] (some (bytes "x")) none = some (-1, o1, [bytes "p", bytes "--", bytes "-x"]) ∧ o1.ind = 2 ∧
      get o1 [bytes "p", bytes "--", bytes "-x"] (some (bytes "x")) none = some (120, o2, [bytes "p", bytes "--", bytes "-x"]) ∧ o2.ind = 3 :=
  ⟨_, _, rfl, rfl, rfl, rfl⟩

end Verif.Coption
