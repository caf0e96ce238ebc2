import Verif.Regex.FitProps
/-
Flags in front of a pattern: `(?i)`, `(?-i)`, `(?s)`, `(?-s)` and combinations (cregex_prv.c 757-766,
1078-1080). They override the flags given to the compiler (docs/cregex_api.md 12-13, 174-175).
-/
namespace Verif.Regex.Spec

/-- How flags are written: `(?on-off)`. -/
def flagText (on off : List Nat) : List Nat := [40, 63] ++ on ++ (if off = [] then [] else 45 :: off) ++ [41]

/-- The letters `i` and `s`. -/
def Letters (l : List Nat) : Prop := ∀ c ∈ l, c = 105 ∨ c = 115

/-- Whether a flag is set behind `(?on-off)`. -/
def flagSet (c : Nat) (before : Bool) (on off : List Nat) : Bool := (before || on.contains c) && !off.contains c

/-- The expression with the operand `m` in front. -/
def Re.front {α : Type} (m : α) : Re α → Re α
  | .alt a b => .alt (a.front m) b
  | .cat a b => .cat (a.front m) b
  | e => .cat (.one m) e

end Verif.Regex.Spec

namespace Verif.Regex
open Verif.Utf8 (Byte casefold)
open Verif.Utf8.Spec (Scalar enc text Text)
open Spec

/-! ### the expression with something in front -/

section
variable {α : Type} {m : α}

theorem front_G {lv n n' : Nat} {ts : List (Tok α)} {e : Re α} (h : G lv n ts e n') : (lv = 0 → G 0 n (.one m :: ts) (e.front m) n') ∧ (lv ≠ 0 → G 1 n (.one m :: ts) (e.front m) n') := by
  induction h with
  | @one n a => exact ⟨by simp, fun _ => .cat (ts := [.one m]) (.item .one) .one⟩
  | grp h _ => exact ⟨by simp, fun _ => .cat (ts := [.one m]) (.item .one) (.grp h)⟩
  | star h _ => exact ⟨by simp, fun _ => .cat (ts := [.one m]) (.item .one) (.star h)⟩
  | plus h _ => exact ⟨by simp, fun _ => .cat (ts := [.one m]) (.item .one) (.plus h)⟩
  | opt h _ => exact ⟨by simp, fun _ => .cat (ts := [.one m]) (.item .one) (.opt h)⟩
  | item _ ih => exact ⟨by simp, fun _ => ih.2 (by simp)⟩
  | cat _ h2 ih => exact ⟨by simp, fun _ => .cat (ih.2 (by simp)) h2⟩
  | seq _ ih => exact ⟨fun _ => .seq (ih.2 (by simp)), by simp⟩
  | alt _ h2 ih => exact ⟨fun _ => .alt (ih.1 rfl) h2, by simp⟩

theorem front_head {lv n n' : Nat} {ts : List (Tok α)} {e : Re α} (h : G lv n ts e n') : (lv ≠ 0 → (e.front m).head = some m) ∧ ((e.front m).head = some m ∨ (e.front m).head = none) := by
  induction h with
  | one | grp | star | plus | opt => exact ⟨fun _ => rfl, .inl rfl⟩
  | item _ ih => exact ⟨fun _ => ih.1 (by simp), ih.2⟩
  | cat _ _ ih => exact ⟨fun _ => ih.1 (by simp), ih.2⟩
  | seq _ ih => exact ⟨by simp, ih.2⟩
  | alt => exact ⟨by simp, .inr rfl⟩

/-- An expression that is no choice between alternatives is a sequence. -/
theorem sequence {n n' : Nat} {ts : List (Tok α)} {e : Re α} (h : G 0 n ts e n') (hna : ∀ a b, e ≠ .alt a b) : G 1 n ts e n' := by
  cases h with
  | seq h => exact h
  | alt => exact absurd rfl (hna _ _)

theorem front_parse {R : α → Nat → Nat → Prop} (hR : ∀ i j, R m i j ↔ j = i) : ∀ (e : Re α) (i j : Nat) (g g' : Groups), Parse R (e.front m) i g j g' ↔ Parse R e i g j g' := by
  have base : ∀ (e : Re α) (i j : Nat) (g g' : Groups), Parse R (.cat (.one m) e) i g j g' ↔ Parse R e i g j g' := by
    intro e i j g g'
    constructor
    · intro h
      cases h with
      | cat h1 h2 =>
        cases h1 with
        | one h => obtain rfl := (hR _ _).1 h; exact h2
    · intro h
      exact .cat (.one ((hR i i).2 rfl)) h
  intro e
  induction e with
  | cat a b iha _ =>
    intro i j g g'
    constructor
    · intro h; cases h with | cat h1 h2 => exact .cat ((iha _ _ _ _).1 h1) h2
    · intro h; cases h with | cat h1 h2 => exact .cat ((iha _ _ _ _).2 h1) h2
  | alt a b iha _ =>
    intro i j g g'
    constructor
    · intro h
      cases h with
      | altL h1 => exact .altL ((iha _ _ _ _).1 h1)
      | altR h2 => exact .altR h2
    · intro h
      cases h with
      | altL h1 => exact .altL ((iha _ _ _ _).2 h1)
      | altR h2 => exact .altR h2
  | one | grp | star | plus | opt => exact base _

theorem front_matches {R : α → Nat → Nat → Prop} (hR : ∀ i j, R m i j ↔ j = i) : ∀ (e : Re α) (i j : Nat), Matches R (e.front m) i j ↔ Matches R e i j := by
  have base : ∀ (e : Re α) (i j : Nat), Matches R (.cat (.one m) e) i j ↔ Matches R e i j := by
    intro e i j
    constructor
    · intro h
      cases h with
      | cat h1 h2 =>
        cases h1 with
        | one h => obtain rfl := (hR _ _).1 h; exact h2
    · intro h
      exact .cat (.one ((hR i i).2 rfl)) h
  intro e
  induction e with
  | cat a b iha _ =>
    intro i j
    constructor
    · intro h; cases h with | cat h1 h2 => exact .cat ((iha _ _).1 h1) h2
    · intro h; cases h with | cat h1 h2 => exact .cat ((iha _ _).2 h1) h2
  | alt a b iha _ =>
    intro i j
    constructor
    · intro h
      cases h with
      | altL h1 => exact .altL ((iha _ _).1 h1)
      | altR h2 => exact .altR h2
    · intro h
      cases h with
      | altL h1 => exact .altL ((iha _ _).2 h1)
      | altR h2 => exact .altR h2
  | one | grp | star | plus | opt => exact base _

theorem front_size {eats : α → Bool} (hm : eats m = false) : ∀ e : Re α, (e.front m).single = e.single ∧ (e.front m).strict eats = e.strict eats ∧ (e.front m).open eats = e.open eats ∧
    (∀ c, (e.front m).forks eats c = e.forks eats c) ∧ ∀ c, (e.front m).places eats c = e.places eats c := by
  intro e
  induction e with
  | cat a b iha _ =>
    obtain ⟨h1, h2, h3, h4, h5⟩ := iha
    simp only [Re.front, Re.single, Re.strict, Re.open, Re.forks, Re.places, h1, h2, h3, h4, h5, implies_true, and_self]
  | alt a b iha _ =>
    obtain ⟨h1, h2, h3, h4, h5⟩ := iha
    simp only [Re.front, Re.single, Re.strict, Re.open, Re.forks, Re.places, h1, h2, h3, h4, h5, implies_true, and_self]
  | one | grp | star | plus | opt => simp [Re.front, Re.single, Re.strict, Re.open, Re.forks, Re.places, hm]

theorem front_fits {eats : α → Bool} (hm : eats m = false) (e : Re α) : (e.front m).fits eats = e.fits eats := by
  obtain ⟨h1, h2, h3, h4, h5⟩ := front_size hm e
  unfold Re.fits Re.all
  rw [h1, h2, h3, h4, h5]

end

/-! ### what the lexer makes of the flags -/

theorem flags_on {r : List Nat} {en : Bool} : ∀ {l : List Nat} {st : LS}, Letters l →
    flags en st (l ++ r) = flags en { st with ic := if l.contains 105 then en else st.ic, dot := if l.contains 115 then en else st.dot } r
  | [], st, _ => by simp
  | c :: l, st, h => by
    have hl : Letters l := fun x hx => h x (by simp [hx])
    rcases h c (by simp) with rfl | rfl
    · rw [List.cons_append, flags, flags_on hl]
      simp only [List.contains_cons]
      cases l.contains 105 <;> cases l.contains 115 <;> simp
    · rw [List.cons_append, flags, flags_on hl]
      simp only [List.contains_cons]
      cases l.contains 105 <;> cases l.contains 115 <;> simp

/-- The symbol for the mode. -/
theorem lex_flags {ic dot : Bool} {n : Nat} {on off r : List Nat} (h1 : Letters on) (h2 : Letters off) :
    lex ⟨flagText on off ++ r, false, ic, dot, n⟩ = .ok (some (.one (if flagSet 105 ic on off then .icase else .cased)), ⟨r, false, flagSet 105 ic on off, flagSet 115 dot on off, n⟩) := by
  have key : ∀ st : LS, st.ic = ic → st.dot = dot → st.lit = false → st.nclass = n →
      flags true st (on ++ ((if off = [] then [] else 45 :: off) ++ 41 :: r)) = .ok (some (.one (if flagSet 105 ic on off then .icase else .cased)), ⟨r, false, flagSet 105 ic on off, flagSet 115 dot on off, n⟩) := by
    rintro ⟨rest, lit, ic', dot', n'⟩ rfl rfl rfl rfl
    rw [flags_on h1]
    by_cases he : off = []
    · subst he
      have a : ∀ x b : Bool, (if x = true then true else b) = ((b || x) && !List.contains ([] : List Nat) 0) := by decide
      simp only [if_true, List.nil_append, flags, a]
      rfl
    · rw [if_neg he, List.cons_append, flags, flags_on h2]
      have a : ∀ x y b : Bool, (if y = true then false else if x = true then true else b) = ((b || x) && !y) := by decide
      simp only [flags, a]
      rfl
  unfold lex
  simp only [flagText, List.append_assoc, List.cons_append, List.nil_append, nextc_char (show (40 : Nat) ≠ 92 by omega), R.bind]
  simp only [Bool.false_eq_true, if_false, show ¬ (40 = 0) by omega, show ¬ (40 = 42) by omega, show ¬ (40 = 63) by omega, show ¬ (40 = 43) by omega, show ¬ (40 = 124) by omega,
    show ¬ (40 = 94) by omega, show ¬ (40 = 36) by omega, show ¬ (40 = 46) by omega, show ¬ (40 = 91) by omega, if_true]
  exact key _ rfl rfl rfl rfl

/-- Compiling a pattern with flags in front. -/
theorem regcomp_flags {ic dot : Bool} {bytes : Nat} {s on off : List Nat} {l : List (Tok Sur)} (h1 : Letters on) (h2 : Letters off) (h : Spells (flagSet 105 ic on off) s l) (hn : (l.filter isCls).length ≤ 16) :
    regcomp ic dot bytes (flagText on off ++ s) =
      compile (5 + 6 * bytes) ic (((.one (.mode (flagSet 105 ic on off))) :: l).map (Tok.map (opOf (flagSet 105 ic on off) (flagSet 115 dot on off)))) := by
  unfold regcomp
  rw [compile_finish, List.append_assoc, parseLoop, lex_flags h1 h2]
  simp only [R.bind, List.map_cons, tokens]
  simp only [Tok.map, opOf]
  cases hx : token (5 + 6 * bytes) ps0 (.one (if flagSet 105 ic on off = true then .icase else .cased)) with
  | ub => rfl
  | err => rfl
  | ok s' => simp only [spells_parse h (flagText on off ++ s).length 0 s' (by omega) (by simp [flagText]; omega)]

/-- The flag of the compiler is only recorded. -/
theorem compile_icase {cap n : Nat} {ic : Bool} {ts : List (Tok Op)} {P : Prog} (h : compile cap ic ts = .ok (P, n)) (b : Bool) : compile cap b ts = .ok ({ P with icase := b }, n) := by
  unfold compile at h ⊢
  obtain ⟨s1, e1, h⟩ := bind_ok h
  obtain ⟨⟨o2, x2⟩, e2, h⟩ := bind_ok h
  obtain ⟨s3, e3, h⟩ := bind_ok h
  obtain ⟨⟨o4, x4⟩, e4, h⟩ := bind_ok h
  simp only [e1, e2, e3, e4, R.bind] at h ⊢
  by_cases hnb : s3.nbra ≠ 0
  · rw [if_pos hnb] at h; cases h
  · rw [if_neg hnb] at h ⊢
    cases hx : x4.ands with
    | nil => rw [hx] at h; cases h
    | cons nd _ =>
      rw [hx] at h
      simp only at h ⊢
      cases ho : optimize x4.h (x4.h.length + 1) 0 with
      | none => rw [ho] at h; cases h
      | some hh => rw [ho] at h; cases h; rfl

/-! ### the matcher does not depend on the flag of the program -/

section
variable {P : Prog} {E : Env} {full : Bool} {cap s : Nat}

theorem chain_prog (b : Bool) {d cur : Nat} : ∀ f pc se q, chain { P with icase := b } E full cap d cur s f pc se q = chain P E full cap d cur s f pc se q := by
  intro f
  induction f with
  | zero => intros; rfl
  | succ f ih => intro pc se q; simp only [chain, ih]

theorem threads_prog (b : Bool) : ∀ f d l q, threads { P with icase := b } E full cap s f d l q = threads P E full cap s f d l q := by
  intro f
  induction f with
  | zero => intros; rfl
  | succ f ih =>
    intro d l q
    cases l with
    | nil => rfl
    | cons t ts => simp only [threads, ih, chain_prog]

theorem mainLoop_prog {b : Bool} (h : startType { P with icase := b } = startType P) : ∀ f s check tl ic matched mp,
    mainLoop { P with icase := b } E full cap f s check tl ic matched mp = mainLoop P E full cap f s check tl ic matched mp := by
  intro f
  induction f with
  | zero => intros; rfl
  | succ f ih => intro s check tl ic matched mp; simp only [mainLoop, seek, inject, h, ih, threads_prog]

/-- The first instruction sets the mode. -/
theorem mainLoop_set {ic ic' : Bool} {o : Op} (hst : startType P = .none) (ho : opAt P.insts P.start = some o) (hm : o = .icase ∨ o = .cased) {f : Nat} :
    mainLoop P E full cap f s true [] ic false none = mainLoop P E full cap f s true [] ic' false none := by
  cases f with
  | zero => rfl
  | succ f =>
    simp only [mainLoop, seek, hst, startCheck, if_true, Option.bind_some, inject, Bool.false_eq_true, if_false]
    cases hr : rune E.m s with
    | none => rfl
    | some rn =>
      simp only [Option.bind_some]
      cases hi : renewEmpty cap [] P.start s with
      | none => rfl
      | some tl =>
        have htl : ∃ se, tl = [⟨P.start, se⟩] := by
          unfold renewEmpty at hi
          obtain ⟨⟨b, l⟩, h1, rfl⟩ := Option.map_eq_some_iff.1 hi
          simp only [renew, bump, List.nil_append] at h1
          split at h1
          · cases h1; exact ⟨_, rfl⟩
          · cases h1
        obtain ⟨se, rfl⟩ := htl
        simp only [Option.bind_some]
        have : threads P E full cap s (cap + 1) 0 [⟨P.start, se⟩] ⟨rn.1, ic, [], [], false, none⟩ = threads P E full cap s (cap + 1) 0 [⟨P.start, se⟩] ⟨rn.1, ic', [], [], false, none⟩ := by
          obtain ⟨I, e1, e2, -⟩ := opAt_inst ho
          simp only [threads, chain, e1, Option.bind_some, e2]
          rcases hm with rfl | rfl <;> rfl
        rw [this]

/-- No class in the program. -/
def NoClass (P : Prog) : Prop := ∀ I ∈ P.insts, ∀ neg sp, I.op ≠ .cls neg sp

/-- The same up to the flag. -/
def Mid.alike (q q' : Mid) : Prop := ∃ b, q' = { q with icase := b }

inductive OutAlike : Option Out → Option Out → Prop
  | none : OutAlike none none
  | full : OutAlike (some .full) (some .full)
  | ok {q q'} : q.alike q' → OutAlike (some (.ok q)) (some (.ok q'))

theorem eff_flag {o : Op} (h : ∀ neg sp, o ≠ .cls neg sp) {r : Nat} (b b' : Bool) :
    (eff E s r b o = none ∧ eff E s r b' o = none) ∨ ∃ r' c c' e, eff E s r b o = some (r', c, e) ∧ eff E s r b' o = some (r', c', e) := by
  cases o with
  | cls neg sp => exact absurd rfl (h neg sp)
  | bol =>
    simp only [eff]
    split
    · exact .inr ⟨_, _, _, _, rfl, rfl⟩
    · split
      · exact .inl ⟨rfl, rfl⟩
      · cases E.m[s - 1]? with
        | none => exact .inl ⟨rfl, rfl⟩
        | some x => exact .inr ⟨_, _, _, _, rfl, rfl⟩
  | eol =>
    simp only [eff]
    split <;> exact .inr ⟨_, _, _, _, rfl, rfl⟩
  | eoz =>
    simp only [eff]
    split
    · exact .inr ⟨_, _, _, _, rfl, rfl⟩
    · split
      · cases E.m[s + 1]? with
        | none => exact .inl ⟨rfl, rfl⟩
        | some x => exact .inr ⟨_, _, _, _, rfl, rfl⟩
      · exact .inr ⟨_, _, _, _, rfl, rfl⟩
  | wbound | nwbound =>
    simp only [eff]
    cases boundary E s with
    | none => exact .inl ⟨rfl, rfl⟩
    | some x => exact .inr ⟨_, _, _, _, rfl, rfl⟩
  | _ => exact .inr ⟨_, _, _, _, rfl, rfl⟩

theorem chain_alike (hP : NoClass P) {d cur : Nat} : ∀ f pc se q q', Mid.alike q q' → OutAlike (chain P E full cap d cur s f pc se q) (chain P E full cap d cur s f pc se q') := by
  intro f
  induction f with
  | zero => intros; exact .none
  | succ f ih =>
    rintro pc se q _ ⟨b, rfl⟩
    simp only [chain]
    cases hI : P.insts[pc]? with
    | none => exact .none
    | some I =>
      simp only [Option.bind_some]
      rcases eff_flag (E := E) (s := s) (hP I (List.mem_of_getElem? hI)) (r := q.r) q.icase b with ⟨e1, e2⟩ | ⟨r', c, c', e, e1, e2⟩
      · rw [e1, e2]; exact .none
      · rw [e1, e2]
        simp only [Option.bind_some]
        cases e with
        | go =>
          cases I.next with
          | none => exact .none
          | some k => exact ih _ _ _ _ ⟨c', rfl⟩
        | die => exact .ok ⟨c', rfl⟩
        | eat =>
          cases I.next with
          | none => exact .none
          | some k =>
            simp only [Option.bind_some, eat]
            cases renew cap 0 q.nl k se with
            | none => exact .none
            | some x =>
              simp only [Option.map_some]
              split
              · exact .full
              · exact .ok ⟨c', rfl⟩
        | opening k =>
          cases I.next with
          | none => exact .none
          | some n => exact ih _ _ _ _ ⟨c', rfl⟩
        | closing k =>
          simp only []
          cases setSize se k s with
          | none => exact .none
          | some se' =>
            cases I.next with
            | none => exact .none
            | some n => exact ih _ _ _ _ ⟨c', rfl⟩
        | fork right =>
          simp only [fork]
          cases renew cap d (⟨cur, se⟩ :: q.pend) right se with
          | none => exact .none
          | some x =>
            simp only [Option.map_some, Option.bind_some]
            split
            · rename_i h1
              split at h1
              · rename_i hx; simp only [hx, if_true]; exact .full
              · cases h1
            · rename_i h1
              split at h1
              · cases h1
              · rename_i hx
                cases h1
                simp only [hx, Bool.false_eq_true, if_false]
                cases I.next with
                | none => exact .none
                | some k => exact ih _ _ _ _ ⟨c', rfl⟩
        | fin =>
          simp only [finish]
          cases finMatch E full s r' se.start with
          | none => exact .none
          | some x => exact .ok ⟨c', rfl⟩

theorem threads_alike (hP : NoClass P) : ∀ f d l q q', Mid.alike q q' → OutAlike (threads P E full cap s f d l q) (threads P E full cap s f d l q') := by
  intro f
  induction f with
  | zero => intros; exact .none
  | succ f ih =>
    rintro d l q _ ⟨b, rfl⟩
    cases l with
    | nil => exact .ok ⟨b, rfl⟩
    | cons t ts =>
      simp only [threads]
      have := chain_alike (E := E) (full := full) (cap := cap) (s := s) hP (d := d) (cur := t.inst) (P.insts.length + 1) t.inst t.se { q with pend := ts } { q with icase := b, pend := ts } ⟨b, rfl⟩
      revert this
      generalize chain P E full cap d t.inst s (P.insts.length + 1) t.inst t.se { q with pend := ts } = x
      generalize chain P E full cap d t.inst s (P.insts.length + 1) t.inst t.se { q with icase := b, pend := ts } = y
      intro h
      cases h with
      | none => exact .none
      | full => exact .full
      | ok h =>
        obtain ⟨b', rfl⟩ := h
        exact ih _ _ _ _ ⟨b', rfl⟩

theorem mainLoop_alike (hP : NoClass P) : ∀ f s check tl ic ic' matched mp, mainLoop P E full cap f s check tl ic matched mp = mainLoop P E full cap f s check tl ic' matched mp := by
  intro f
  induction f with
  | zero => intros; rfl
  | succ f ih =>
    intro s check tl ic ic' matched mp
    simp only [mainLoop]
    cases seek P E check s with
    | none => rfl
    | some o =>
      cases o with
      | none => rfl
      | some s =>
        simp only [Option.bind_some]
        cases rune E.m s with
        | none => rfl
        | some rn =>
          simp only [Option.bind_some]
          cases inject P cap matched tl s with
          | none => rfl
          | some tl =>
            simp only [Option.bind_some]
            have := threads_alike (E := E) (full := full) (cap := cap) (s := s) hP (cap + 1) 0 tl ⟨rn.1, ic, [], [], matched, mp⟩ ⟨rn.1, ic', [], [], matched, mp⟩ ⟨ic', rfl⟩
            revert this
            generalize threads P E full cap s (cap + 1) 0 tl ⟨rn.1, ic, [], [], matched, mp⟩ = x
            generalize threads P E full cap s (cap + 1) 0 tl ⟨rn.1, ic', [], [], matched, mp⟩ = y
            intro h
            cases h with
            | none => rfl
            | full => rfl
            | ok h =>
              obtain ⟨b', rfl⟩ := h
              simp only [Option.bind_some]
              split
              · rfl
              · exact ih _ _ _ _ _ _ _

end

theorem frag_headOp {h : List Inst} : ∀ {e : Re Op} {a b f l : Nat} {o : Op}, Frag h e a b f l → e.head = some o → opAt h f = some o
  | .one _, a, b, f, l, o, hf, he => by
    obtain ⟨rfl, -, -, h4⟩ := hf
    rw [h4]; exact he
  | .cat e1 e2, a, b, f, l, o, hf, he => by
    obtain ⟨m, l1, f2, h1, -, -⟩ := hf
    exact frag_headOp h1 he
  | .plus e, a, b, f, l, o, hf, he => by
    obtain ⟨b', l1, h1, -⟩ := hf
    exact frag_headOp h1 he
  | .grp _ _, _, _, _, _, _, _, he | .alt _ _, _, _, _, _, _, _, he | .star _, _, _, _, _, _, _, he | .opt _, _, _, _, _, _, _, he => by cases he

theorem compile_first {cap n : Nat} {ic : Bool} {ts : List (Tok Op)} {P : Prog} {e : Re Op} {o : Op} (h : compile cap ic ts = .ok (P, n)) (hg : G 0 0 ts e n) (he : e.head = some o) :
    opAt P.insts P.start = some o := by
  obtain ⟨hp, e0, l, hf, hopt, hic, hcase⟩ := compile_frag h
  obtain ⟨k', hO, -, hfin⟩ := optimize_inv ⟨rfl, fun _ => rfl, fun _ _ => rfl, fun i hi => by omega⟩ hopt
  rw [hO.op]
  rcases hcase with ⟨rfl, -⟩ | ⟨A, e', hg', hq, rfl⟩
  · exact absurd rfl (G_ne_nil hg)
  · obtain ⟨rfl, -⟩ := G_unique hg hg'
    exact frag_headOp hf (by rw [show Re.head (.cat A (.one Op.fin)) = e.head from hq.head]; exact he)

/-! ### the theorems -/

section
variable {n k bytes : Nat} {ic dot full alloc : Bool} {s on off : List Nat} {l : List (Tok Sur)} {e : Re Sur} {P : Prog} {E : Env} {U : Test → Nat → Bool} {cs : List Nat} {pre rest : List Byte}
  {o : Option Match} {ret : Int}

/-- The pattern is the same as with the flags given to the compiler. `hset` is needed, see
`flag_misses_class`: the mode is set when the instruction for it is executed, and of several alternatives
the last one is executed first. -/
theorem flags_exec (h1 : Letters on) (h2 : Letters off) (hs : Spells (flagSet 105 ic on off) s l) (hn : (l.filter isCls).length ≤ 16) (hg : G 0 0 l e n)
    (hset : flagSet 105 ic on off = ic ∨ (∀ a b, e ≠ .alt a b) ∨ ∀ t ∈ l, isCls t = false) (hc : regcomp ic dot bytes (flagText on off ++ s) = .ok (P, n)) :
    ∃ P', regcomp (flagSet 105 ic on off) (flagSet 115 dot on off) bytes ((Sur.mode (flagSet 105 ic on off)).show ++ s) = .ok (P', n) ∧ ∀ E full k alloc, exec P E full k alloc = exec P' E full k alloc := by
  rw [regcomp_flags h1 h2 hs hn] at hc
  generalize flagSet 105 ic on off = ic' at *
  generalize flagSet 115 dot on off = dot' at *
  have hs' : Spells ic' ((Sur.mode ic').show ++ s) (.one (.mode ic') :: l) := .tok (t := .one (.mode ic')) (fun a ha => by cases ha; rfl) (fun h => by cases h) hs
  have hn' : ((Tok.one (Sur.mode ic') :: l).filter isCls).length ≤ 16 := by simpa [isCls] using hn
  rw [regcomp_spells hs' hn']
  refine ⟨_, compile_icase hc ic', fun E full k alloc => ?_⟩
  have hg' : G 0 0 (.one (.mode ic') :: l) (e.front (.mode ic')) n := (front_G hg).1 rfl
  have hgo := G_map (opOf ic' dot') hg'
  have hhead : HeadOk ((e.front (.mode ic')).map (opOf ic' dot')) := by
    refine free_head (ic := ic') (fun a ha => ?_) (ones_head (G_ones hg' (spells_fine hs')))
    rcases (front_head (m := Sur.mode ic') hg).2 with h | h
    · rw [h] at ha; cases ha; exact ⟨by simp, fun c hc => by cases hc⟩
    · rw [h] at ha; cases ha
  have t1 := head_start hc hgo hhead
  have t2 := head_start (compile_icase hc ic') hgo hhead
  have hic : P.icase = ic := (compile_frag hc).choose_spec.choose_spec.choose_spec.2.2.1
  have one : ∀ cap, exec1 P E full cap k = exec1 { P with icase := ic' } E full cap k := by
    intro cap
    unfold exec1
    rw [mainLoop_prog (t2.trans t1.symm)]
    simp only [hic]
    rcases hset with rfl | h | h
    · rfl
    · have hm := compile_first hc hgo (o := opOf ic' dot' (.mode ic')) (by rw [head_map, (front_head (m := Sur.mode ic') (sequence hg h)).1 (by simp)]; rfl)
      exact mainLoop_set t1 hm (by cases ic' <;> simp [opOf])
    · refine mainLoop_alike (fun I hI neg sp => ?_) _ _ _ _ _ _ _ _
      obtain ⟨-, hall, -⟩ := compile_means (fun o ho => plain_atom (spells_plain hs' o ho)) hc
      refine hall (fun o => o ≠ .cls neg sp) (by simp) (by simp) (by simp) (by simp) (by simp) (fun o ho => ?_) I hI
      obtain ⟨a, ha, rfl⟩ := one_map ho
      intro hcl
      have ht : isCls (Tok.one a) = false := by
        rcases List.mem_cons.1 ha with hx | hx
        · cases hx; rfl
        · exact h _ hx
      cases a <;> simp only [opOf] at hcl <;> first | (cases ht; done) | (cases hcl) | (split at hcl <;> cases hcl)
  unfold exec
  rw [one, one]

/-- Flags in front of a pattern that fits: what is found is what the pattern behind them means with these
flags, whatever was given to the compiler. Also `^` and letters at the beginning are found everywhere
(compare `Covered` for the same pattern without flags in front). Missing: alternatives with a class,
when the flags change the case mode. -/
theorem flags_search_partial (h1 : Letters on) (h2 : Letters off) (hs : Spells (flagSet 105 ic on off) s l) (hn : (l.filter isCls).length ≤ 16) (hg : G 0 0 l e n)
    (hset : flagSet 105 ic on off = ic ∨ (∀ a b, e ≠ .alt a b) ∨ ∀ t ∈ l, isCls t = false) (hc : regcomp ic dot bytes (flagText on off ++ s) = .ok (P, n))
    (hw : Tok.one Sur.wb ∈ l → Edges E cs) (hz : Tok.one Sur.eoz ∈ l → Soft E) (hU : E.grp = grpOf U) (hf : e.fits Sur.eats = true) (hin : Input E cs pre rest) (hk : k ≤ cs.length) :
    (∃ x i j g, exec P E false (Regex.off pre cs k) true = some (1, some x) ∧ Spec.Best (Sur.has (flagSet 105 ic on off) (flagSet 115 dot on off) U cs) e cs.length k i j g ∧
      x.start = Regex.off pre cs i ∧ x.stop = Regex.off pre cs j ∧ ∀ y, x.sub y = subOf (mapG pre cs g y)) ∨
    ∃ o, exec P E false (Regex.off pre cs k) true = some (0, o) ∧ NoMatch (Sur.has (flagSet 105 ic on off) (flagSet 115 dot on off) U cs) e cs.length k := by
  obtain ⟨P', hc', hex⟩ := flags_exec h1 h2 hs hn hg hset hc
  generalize flagSet 105 ic on off = ic' at *
  generalize flagSet 115 dot on off = dot' at *
  have hs' : Spells ic' ((Sur.mode ic').show ++ s) (.one (.mode ic') :: l) := .tok (t := .one (.mode ic')) (fun a ha => by cases ha; rfl) (fun h => by cases h) hs
  have hn' : ((Tok.one (Sur.mode ic') :: l).filter isCls).length ≤ 16 := by simpa [isCls] using hn
  have hg' : G 0 0 (.one (.mode ic') :: l) (e.front (.mode ic')) n := (front_G hg).1 rfl
  have hR : ∀ i j, Sur.has ic' dot' U cs (.mode ic') i j ↔ j = i := fun i j => by simp [Sur.has]
  have hh : FreeHead ic' (e.front (.mode ic')) := by
    intro a ha
    rcases (front_head (m := Sur.mode ic') hg).2 with h | h
    · rw [h] at ha; cases ha; exact ⟨by simp, fun c hc => by cases hc⟩
    · rw [h] at ha; cases ha
  have := pattern_search (k := k) hs' hn' (fun h => hw (by simpa using h)) hc' hU hg' (by rw [front_fits rfl]; exact hf) hin (.inr ⟨hh, fun h => hz (by simpa using h)⟩) hk
  rw [hex]
  rcases this with ⟨x, i, j, g, q1, ⟨b1, b2, b3, b4, b5⟩, q3⟩ | ⟨o, q1, q2⟩
  · exact .inl ⟨x, i, j, g, q1, ⟨b1, b2, b3, (front_parse hR e i j _ g).1 b4, fun i' j' w1 w2 w3 => b5 i' j' w1 w2 ((front_matches hR e i' j').2 w3)⟩, q3⟩
  · exact .inr ⟨o, q1, fun i j w1 w2 w3 => q2 i j w1 w2 ((front_matches hR e i j).2 w3)⟩

end

/-! ### cases, and what fails -/

/-- `(?is-s)b[c].` in the text `aBCx`, compiled without flags: the hypotheses of the theorem, and the answer. -/
example : flagText [105, 115] [115] = [40, 63, 105, 115, 45, 115, 41] ∧ flagSet 105 false [105, 115] [115] = true ∧ flagSet 115 false [105, 115] [115] = false ∧
    Letters [105, 115] ∧ Letters [115] ∧ Spells true [98, 91, 99, 93, 46] [.one (.chr 98), .one (.cls false [.chr 99] false), .one .dot] ∧
    G 0 0 [.one (.chr 98), .one (.cls false [.chr 99] false), .one Sur.dot] (.cat (.cat (.one (.chr 98)) (.one (.cls false [.chr 99] false))) (.one .dot)) 0 ∧
    Re.fits Sur.eats (.cat (.cat (.one (.chr 98)) (.one (.cls false [.chr 99] false))) (.one Sur.dot)) = true ∧
    patResult false false false (flagText [105, 115] [115] ++ [98, 91, 99, 93, 46]) (strU [97, 66, 67, 120]) = some (some (1, some (1, 4, ⟨none, 0⟩))) := by
  refine ⟨by decide, by decide, by decide, by simp [Letters], by simp [Letters], ?_, ?_, by decide +kernel, by decide +kernel⟩
  · refine .tok (t := .one (.chr 98)) ?_ (by simp) (.tok (t := .one (.cls false [.chr 99] false)) ?_ (by simp) (.tok (t := .one .dot) ?_ (by simp) .nil)) <;> intro a ha <;> cases ha
    · unfold Sur.ok; decide
    · exact ⟨by decide, by simp [Item.ok, plainIn, Placed, Item.placed]⟩
    · trivial
  · exact .seq (.cat (ts := [_, _]) (.cat (ts := [_]) (.item .one) .one) .one)

/-- The flags have an effect: without them there is no match. -/
example : patResult false false false [98, 91, 99, 93, 46] (strU [97, 66, 67, 120]) = some (some (0, none)) ∧
    patResult true false false (flagText [] [105] ++ [98, 91, 99, 93, 46]) (strU [97, 66, 67, 120]) = some (some (0, none)) ∧
    patResult false false false (flagText [115] [] ++ [98, 46]) (strU [98, 10]) = some (some (1, some (0, 2, ⟨none, 0⟩))) ∧
    patResult false true false (flagText [] [115] ++ [98, 46]) (strU [98, 10]) = some (some (0, none)) := by
  refine ⟨?_, ?_, ?_, ?_⟩ <;> decide +kernel

/-- With `^` behind flags the second line is found, and without flags in front it is not (`caret_misses_line`). -/
example : patResult false false false (flagText [] [105] ++ [94, 98]) (strU [97, 97, 10, 98]) = some (some (1, some (3, 4, ⟨none, 0⟩))) := by decide +kernel

/-- `(?i)x|[b]` does not match `B`, although `x|[b]` compiled with CREG_ICASE does (and `(?i)x|[b]` does
behind another character): the class is tested before the instruction that sets the mode is executed. -/
theorem flag_misses_class : patResult false false false (flagText [105] [] ++ [120, 124, 91, 98, 93]) (strU [66]) = some (some (0, none)) ∧
    patResult true false false [120, 124, 91, 98, 93] (strU [66]) = some (some (1, some (0, 1, ⟨none, 0⟩))) ∧
    patResult false false false (flagText [105] [] ++ [120, 124, 91, 98, 93]) (strU [97, 66]) = some (some (1, some (1, 2, ⟨none, 0⟩))) := by
  refine ⟨?_, ?_, ?_⟩ <;> decide +kernel

/-- Flags inside of a pattern have an effect on alternatives before them: `B|(?i)x` and `[B]|(?i)x` do not
match `B`. -/
theorem flag_leaks : patResult false false false ([66, 124] ++ flagText [105] [] ++ [120]) (strU [66]) = some (some (0, none)) ∧
    patResult false false false ([91, 66, 93, 124] ++ flagText [105] [] ++ [120]) (strU [66]) = some (some (0, none)) ∧
    patResult false false false [66, 124, 120] (strU [66]) = some (some (1, some (0, 1, ⟨none, 0⟩))) := by
  refine ⟨?_, ?_, ?_⟩ <;> decide +kernel

end Verif.Regex
