import Verif.Coption.Spec
import Mathlib.Tactic.Common
/- Lemmas about option parsing. -/
namespace Verif.Coption
open Spec

/-! ### permuting -/

theorem shiftLoop_eq : ∀ (n : Nat) (pre A C : List Str) (y : Str) (j k : Nat), A.length = n → k ≤ j → j - k = pre.length + A.length →
    ∃ z, shiftLoop (pre ++ A ++ y :: C) j k n = some (pre ++ z :: A ++ C)
  | 0, pre, A, C, y, j, k, hn, _, _ => by
    have : A = [] := List.length_eq_zero_iff.1 hn
    subst this
    exact ⟨y, by simp [shiftLoop]⟩
  | n + 1, pre, A, C, y, j, k, hn, hk, hj => by
    obtain ⟨A', q, rfl⟩ : ∃ A' q, A = A' ++ [q] := by
      rcases List.eq_nil_or_concat A with h | ⟨A', q, h⟩
      · simp [h] at hn
      · exact ⟨A', q, by simpa using h⟩
    have hl : A'.length = n := by simpa using hn
    simp only [List.length_append, List.length_cons, List.length_nil] at hj
    obtain ⟨z, hz⟩ := shiftLoop_eq n pre A' (q :: C) q j (k + 1) hl (by omega) (by omega)
    refine ⟨z, ?_⟩
    rw [shiftLoop]
    have h1 : (pre ++ (A' ++ [q]) ++ y :: C)[j - k - 1]? = some q := by
      rw [show j - k - 1 = pre.length + A'.length by omega, List.append_assoc, List.getElem?_append_right (by omega)]
      simp
    have h2 : (pre ++ (A' ++ [q]) ++ y :: C).set (j - k) q = pre ++ A' ++ q :: q :: C := by
      rw [hj, List.set_append_right _ _ (by simp)]
      simp
    rw [h1]
    simp only [Option.bind_eq_bind, Option.bind_some]
    rw [guard_pos (by constructor; omega; simp; omega)]
    simp only [Option.bind_some, h2, hz]
    simp

theorem permute_eq (pre non : List Str) (x : Str) (C : List Str) : permute (pre ++ non ++ x :: C) (pre.length + non.length) non.length = some (pre ++ x :: non ++ C) := by
  unfold permute
  have h1 : (pre ++ non ++ x :: C)[pre.length + non.length]? = some x := by
    rw [List.getElem?_append_right (by simp)]; simp
  obtain ⟨z, hz⟩ := shiftLoop_eq non.length pre non C x (pre.length + non.length) 0 rfl (by omega) (by omega)
  rw [h1]
  simp only [Option.bind_eq_bind, Option.bind_some, hz]
  rw [guard_pos (by omega)]
  simp only [Option.bind_some]
  congr 1
  rw [Nat.add_sub_cancel, List.append_assoc, List.set_append_right _ _ (by omega)]
  simp

theorem permuteAll_eq : ∀ (grp pre non C : List Str), permuteAll (pre ++ non ++ (grp ++ C)) non.length (pre.length + non.length) grp.length = some (pre ++ grp ++ non ++ C)
  | [], pre, non, C => by simp [permuteAll]
  | x :: grp, pre, non, C => by
    rw [List.length_cons, permuteAll, List.cons_append, permute_eq]
    have := permuteAll_eq grp (pre ++ [x]) non C
    simp only [List.length_append, List.length_cons, List.length_nil, List.append_assoc, List.cons_append, List.nil_append] at this
    simp only [Option.bind_some, List.append_assoc, List.cons_append]
    rw [show pre.length + non.length + 1 = pre.length + (0 + 1) + non.length by omega]
    exact this

theorem permuteIf_eq (grp pre non C : List Str) {i : Nat} (hi : i = pre.length + non.length + grp.length) :
    permuteIf (pre ++ non ++ (grp ++ C)) non.length (pre.length + non.length) i = some (pre ++ grp ++ non ++ C) := by
  unfold permuteIf
  by_cases h : non.length > 0
  · rw [if_pos h, hi, Nat.add_sub_cancel_left]
    exact permuteAll_eq grp pre non C
  · rw [if_neg h]
    have : non = [] := by cases non with
      | nil => rfl
      | cons => simp at h
    subst this
    simp

/-- The end of a call that is through with its arguments `grp`. -/
theorem finish_adv {pre non grp C : List Str} {o : Opt} {c : Int} (hi : o.i + 1 = pre.length + non.length + grp.length) (hn : o.nargs = non.length)
    (ha : atEnd (pre ++ non ++ (grp ++ C)) o = some true) :
    finish (pre ++ non ++ (grp ++ C)) o (pre.length + non.length) c =
      some (c, { o with i := pre.length + non.length + grp.length, pos := 0, ind := pre.length + grp.length }, pre ++ grp ++ non ++ C) := by
  unfold finish
  rw [ha]
  simp only [Option.bind_eq_bind, Option.bind_some, if_true]
  rw [hn, permuteIf_eq grp pre non C hi]
  simp only [Option.bind_some]
  rw [hi]
  congr 4
  omega

/-- The end of a call with more letters to come. -/
theorem finish_stay {argv : List Str} {o : Opt} {i0 : Nat} {c : Int} (ha : atEnd argv o = some false) :
    finish argv o i0 c = some (c, { o with ind := o.i - o.nargs }, argv) := by
  unfold finish
  rw [ha]
  rfl

/-! ### characters -/

theorem argCh_at {P : List Str} {a : Str} {rest : List Str} {i k : Nat} (h : i = P.length) : argCh (P ++ a :: rest) i k = chr a k := by
  unfold argCh
  rw [h, List.getElem?_append_right (Nat.le_refl _), Nat.sub_self]
  rfl

theorem getElem_at {P : List Str} {a : Str} {rest : List Str} {i : Nat} (h : i = P.length) : (P ++ a :: rest)[i]? = some a := by
  rw [h, List.getElem?_append_right (Nat.le_refl _), Nat.sub_self]
  rfl

theorem chr_lt {s : Str} {k : Nat} (h : k < s.length) : chr s k = some s[k] := by
  unfold chr; rw [if_pos h, List.getElem?_eq_getElem h]

theorem chr_end {s : Str} : chr s s.length = some 0 := by
  unfold chr; simp

theorem chr_drop {s cs : Str} {c k : Nat} (h : s.drop k = c :: cs) : k < s.length ∧ chr s k = some c ∧ s.drop (k + 1) = cs := by
  have hk : k < s.length := by
    by_cases hk : k < s.length
    · exact hk
    · rw [List.drop_eq_nil_of_le (by omega)] at h; cases h
  rw [List.drop_eq_getElem_cons hk, List.cons.injEq] at h
  exact ⟨hk, by rw [chr_lt hk, h.1], h.2⟩

theorem chr_drop_nil {s : Str} {k : Nat} (hk : k ≤ s.length) (h : s.drop k = []) : chr s k = some 0 := by
  have : k = s.length := by
    have := List.drop_eq_nil_iff.1 h
    omega
  rw [this]; exact chr_end

/-- Whether the argument is an option. -/
theorem nonOption_at {P : List Str} {a : Str} {rest : List Str} {i : Nat} (hz : 0 ∉ a) (h : i = P.length) : nonOption (P ++ a :: rest) i = some (!isOption a) := by
  unfold nonOption
  rw [argCh_at h, argCh_at h]
  match a, hz with
  | [], _ => simp [chr, isOption, dash]
  | [c], hz =>
    by_cases hc : c = dash <;> simp [chr, isOption, hc]
  | c :: d :: t, hz =>
    have hd : d ≠ 0 := by intro e; exact hz (by simp [e])
    by_cases hc : c = dash <;> simp [chr, isOption, hc, hd]

theorem head_chr {x : Str} (hz : 0 ∉ x) : ∃ d, chr x 0 = some d ∧ (d = dash ↔ x.head? = some dash) := by
  cases x with
  | nil => exact ⟨0, by simp [chr], by simp [dash]⟩
  | cons c t => exact ⟨c, by simp [chr], by simp⟩

/-! ### one call -/

theorem skipIf_option {o : Opt} {P : List Str} {a : Str} {rest : List Str} {shorts : Option Str} (hz : 0 ∉ a) (hi : o.i = P.length) (ha : isOption a = true) :
    skipIf o (P ++ a :: rest) shorts = some o := by
  unfold skipIf
  by_cases h : posix shorts
  · rw [if_pos h]
  · rw [if_neg h]
    cases hf : (P ++ a :: rest).length - o.i with
    | zero => rw [skip]
    | succ f =>
      rw [skip, if_pos (by rw [hi]; simp), nonOption_at hz hi, ha]
      simp

/-- The state in which a call looks at an option. -/
def clear (o : Opt) : Opt := { o with opt := 0, optstr := none, arg := none }

theorem noMore_option {o : Opt} {P : List Str} {a : Str} {rest : List Str} (hz : 0 ∉ a) (hi : o.i = P.length) (ha : isOption a = true) :
    noMore o (P ++ a :: rest) = some false := by
  unfold noMore
  rw [if_neg (by rw [hi]; simp), nonOption_at hz hi, ha]
  rfl

theorem noMore_operand {o : Opt} {P : List Str} {a : Str} {rest : List Str} (hz : 0 ∉ a) (hi : o.i = P.length) (ha : isOption a = false) :
    noMore o (P ++ a :: rest) = some true := by
  unfold noMore
  rw [if_neg (by rw [hi]; simp), nonOption_at hz hi, ha]
  rfl

theorem isOption_cases {a : Str} (h : isOption a = true) : ∃ d t, a = dash :: d :: t := by
  match a, h with
  | c :: d :: t, h => exact ⟨d, t, by simp [isOption] at h; simp [h]⟩

/-- The part of a call for an option (coption.h 120 on). -/
def dispatch (argv : List Str) (o : Opt) (shorts : Option Str) (longs : Option (List Long)) : Option (Int × Opt × List Str) := do
  let d ← argCh argv o.i 1
  if d = dash then do
    let e ← argCh argv o.i 2
    if e = 0 then do
      let argv ← permute argv o.i o.nargs
      some (-1, { o with i := o.i + 1, ind := o.i + 1 - o.nargs }, argv)
    else getLong argv o longs
  else
    match shorts with
    | some s => getShort argv o s
    | none => finish argv o o.i (-1)

theorem get_option {o : Opt} {P : List Str} {a : Str} {rest : List Str} {shorts : Option Str} {longs : Option (List Long)} (hz : 0 ∉ a) (hi : o.i = P.length) (ha : isOption a = true) :
    get o (P ++ a :: rest) shorts longs = dispatch (P ++ a :: rest) (clear o) shorts longs := by
  unfold get
  rw [skipIf_option hz hi ha]
  simp only [Option.bind_eq_bind, Option.bind_some]
  rw [show ({ ind := o.ind, opt := 0, optstr := none, arg := none, i := o.i, pos := o.pos, nargs := o.nargs } : Opt) = clear o from rfl,
    noMore_option hz (show (clear o).i = P.length from hi) ha]
  rfl

/-- An operand in the way is stepped over. -/
theorem get_operand {o : Opt} {P : List Str} {a : Str} {rest : List Str} {shorts : Option Str} {longs : Option (List Long)} (hz : 0 ∉ a) (hi : o.i = P.length) (ha : isOption a = false)
    (hp : posix shorts = false) :
    get o (P ++ a :: rest) shorts longs = get { o with i := o.i + 1, nargs := o.nargs + 1 } (P ++ a :: rest) shorts longs := by
  have : skipIf o (P ++ a :: rest) shorts = skipIf { o with i := o.i + 1, nargs := o.nargs + 1 } (P ++ a :: rest) shorts := by
    unfold skipIf
    rw [hp]
    simp only [Bool.false_eq_true, if_false]
    rw [show (P ++ a :: rest).length - o.i = ((P ++ a :: rest).length - (o.i + 1)) + 1 by rw [hi]; simp; omega]
    rw [skip, if_pos (by rw [hi]; simp), nonOption_at hz hi, ha]
    simp
  unfold get
  rw [this]

theorem run_step {f : Nat} {o o1 o' : Opt} {argv argv1 fin : List Str} {shorts : Option Str} {longs : Option (List Long)} {c : Int} {ev : List Event}
    (hg : get o argv shorts longs = some (c, o1, argv1)) (hc : c ≠ -1) (hr : run f o1 argv1 shorts longs = some (ev, o', fin)) :
    run (f + 1) o argv shorts longs = some ((c, o1.opt, o1.arg) :: ev, o', fin) := by
  rw [run, hg]
  simp only [Option.bind_some, hc, if_false, hr]

theorem run_end {f : Nat} {o o1 : Opt} {argv argv1 : List Str} {shorts : Option Str} {longs : Option (List Long)}
    (hg : get o argv shorts longs = some (-1, o1, argv1)) : run (f + 1) o argv shorts longs = some ([], o1, argv1) := by
  rw [run, hg]
  simp

/-! ### letters -/

theorem kind_strchr (c : Nat) : ∀ s : Str,
    (kindOf c s = none ∧ strchr c s = none) ∨
    (kindOf c s = some .no ∧ ∃ p, strchr c s = some p ∧ p[0]? ≠ some colon) ∨
    (kindOf c s = some .required ∧ ∃ p, strchr c s = some p ∧ p[0]? = some colon ∧ p.getD 1 0 ≠ colon) ∨
    (kindOf c s = some .optional ∧ ∃ p, strchr c s = some p ∧ p[0]? = some colon ∧ p.getD 1 0 = colon)
  | [] => .inl ⟨rfl, rfl⟩
  | x :: xs => by
    rw [kindOf, strchr]
    by_cases h : x = c
    · simp only [if_pos h]
      match xs with
      | [] => exact .inr (.inl ⟨rfl, [], rfl, by simp⟩)
      | [y] =>
        by_cases hy : y = colon
        · refine .inr (.inr (.inl ⟨by simp [colons, hy], [y], rfl, by simp [hy], by simp [colon]⟩))
        · exact .inr (.inl ⟨by simp [colons, hy], [y], rfl, by simp [hy]⟩)
      | y :: z :: t =>
        by_cases hy : y = colon
        · by_cases hzz : z = colon
          · exact .inr (.inr (.inr ⟨by simp [colons, hy, hzz], y :: z :: t, rfl, by simp [hy], by simp [hzz]⟩))
          · exact .inr (.inr (.inl ⟨by simp [colons, hy, hzz], y :: z :: t, rfl, by simp [hy], by simp [hzz]⟩))
        · exact .inr (.inl ⟨by simp [colons, hy], y :: z :: t, rfl, by simp [hy]⟩)
    · simp only [if_neg h]
      exact kind_strchr c xs

/-- What remains to be shown of the arguments behind one that was just processed. -/
def Rest (shorts : Option Str) (longs : Option (List Long)) (pre non : List Str) (a : Str) (rest : List Str) : Prop :=
  ∀ (t : Bool) (o : Opt), (t = true → rest ≠ []) → o.i = pre.length + non.length + (1 + (if t then 1 else 0)) → o.pos = 0 → o.nargs = non.length →
    ∃ o', run ((parse shorts longs t rest).1.length + 1) o (pre ++ (a :: if t then rest.take 1 else []) ++ non ++ (if t then rest.drop 1 else rest)) shorts longs =
      some ((parse shorts longs t rest).1, o', pre ++ a :: (parse shorts longs t rest).2.1 ++ (non ++ (parse shorts longs t rest).2.2)) ∧
      o'.ind = pre.length + 1 + (parse shorts longs t rest).2.1.length

theorem run_letters {s : Str} {longs : Option (List Long)} {pre non : List Str} {a : Str} {rest : List Str} (hz : 0 ∉ a) (hzr : ∀ x ∈ rest, 0 ∉ x) (ha : isOption a = true) (hs : a[1]? ≠ some dash)
    (H : Rest (some s) longs pre non a rest) : ∀ (cs : Str) (k : Nat) (o : Opt), cs ≠ [] → 1 ≤ k → a.drop k = cs → o.i = pre.length + non.length → o.nargs = non.length →
      (o.pos = k ∨ (o.pos = 0 ∧ k = 1)) →
      ∃ o', run (((letters s rest cs).1 ++ (parse (some s) longs (letters s rest cs).2 rest).1).length + 1) o (pre ++ non ++ a :: rest) (some s) longs =
        some ((letters s rest cs).1 ++ (parse (some s) longs (letters s rest cs).2 rest).1, o',
          pre ++ a :: (parse (some s) longs (letters s rest cs).2 rest).2.1 ++ (non ++ (parse (some s) longs (letters s rest cs).2 rest).2.2)) ∧
        o'.ind = pre.length + 1 + (parse (some s) longs (letters s rest cs).2 rest).2.1.length := by
  intro cs
  induction cs with
  | nil => intro k o h; exact absurd rfl h
  | cons c cs ih =>
    intro k o _ hk hd hi hn hp
    obtain ⟨hkl, hck, hd'⟩ := chr_drop hd
    have hiP : o.i = (pre ++ non).length := by simp [hi]
    obtain ⟨d, t, hat⟩ := isOption_cases ha
    have hdd : d ≠ dash := by rw [hat] at hs; simpa using hs
    have h1 : chr a 1 = some d := by rw [hat]; simp [chr]
    -- the state in which the letter is looked up
    have hdisp : get o (pre ++ non ++ a :: rest) (some s) longs = getShort (pre ++ non ++ a :: rest) (clear o) s := by
      rw [get_option hz hiP ha]
      unfold dispatch
      rw [argCh_at (show (clear o).i = (pre ++ non).length from hiP), h1]
      simp only [Option.bind_eq_bind, Option.bind_some, if_neg hdd]
    have hpos : (if (clear o).pos = 0 then { clear o with pos := 1 } else clear o) = { clear o with pos := (k : Int) } := by
      rcases hp with hp | ⟨hp, rfl⟩
      · have : (clear o).pos ≠ 0 := by show o.pos ≠ 0; rw [hp]; omega
        rw [if_neg this]
        show clear o = _
        have : (clear o).pos = (k : Int) := hp
        rw [← this]
      · have : (clear o).pos = 0 := hp
        rw [if_pos this]; rfl
    have hget : getShort (pre ++ non ++ a :: rest) (clear o) s = (match strchr c s with
        | none => finish (pre ++ non ++ a :: rest) { clear o with pos := (k : Int) + 1, opt := (c : Int), optstr := some [dash, c] } o.i quest
        | some p =>
          if p[0]? = some colon then do
            let q ← shortArg (pre ++ non ++ a :: rest) { clear o with pos := (k : Int) + 1, opt := (c : Int), optstr := some [dash, c] } (p.getD 1 0)
            finish (pre ++ non ++ a :: rest) { q.1 with pos := -1 } o.i q.2
          else finish (pre ++ non ++ a :: rest) { clear o with pos := (k : Int) + 1, opt := (c : Int), optstr := some [dash, c] } o.i (c : Int)) := by
      unfold getShort
      rw [hpos]
      simp only [Option.bind_eq_bind]
      rw [argCh_at (show (clear o).i = (pre ++ non).length from hiP)]
      simp only [Int.toNat_natCast, hck, Option.bind_some]
      rfl
    rw [hdisp.symm] at hget
    -- a letter without argument
    have plain : ∀ code : Int, code ≠ -1 →
        get o (pre ++ non ++ a :: rest) (some s) longs = finish (pre ++ non ++ a :: rest) { clear o with pos := (k : Int) + 1, opt := (c : Int), optstr := some [dash, c] } o.i code →
        ∃ o', run ((((code, (c : Int), none) : Event) :: (letters s rest cs).1 ++ (parse (some s) longs (letters s rest cs).2 rest).1).length + 1) o (pre ++ non ++ a :: rest) (some s) longs =
          some (((code, (c : Int), none) : Event) :: (letters s rest cs).1 ++ (parse (some s) longs (letters s rest cs).2 rest).1, o',
            pre ++ a :: (parse (some s) longs (letters s rest cs).2 rest).2.1 ++ (non ++ (parse (some s) longs (letters s rest cs).2 rest).2.2)) ∧
          o'.ind = pre.length + 1 + (parse (some s) longs (letters s rest cs).2 rest).2.1.length := by
      intro code hcode hg
      cases cs with
      | nil =>
        have hae : atEnd (pre ++ non ++ ([a] ++ rest)) { clear o with pos := (k : Int) + 1, opt := (c : Int), optstr := some [dash, c] } = some true := by
          unfold atEnd
          rw [if_neg (by show ¬ ((k : Int) + 1 < 0); omega)]
          show (argCh (pre ++ non ++ a :: rest) o.i _).bind _ = _
          rw [argCh_at hiP]
          rw [show ((k : Int) + 1).toNat = k + 1 by omega, chr_drop_nil (by omega) hd']
          rfl
        have hg' := hg
        rw [hi] at hg'
        have hg' := hg'.trans (finish_adv (pre := pre) (non := non) (grp := [a]) (C := rest)
          (o := { clear o with pos := (k : Int) + 1, opt := (c : Int), optstr := some [dash, c] }) (c := code) (by show o.i + 1 = _; simp [hi]) hn hae)
        obtain ⟨o', hr, hind⟩ := H false { clear o with pos := 0, opt := (c : Int), optstr := some [dash, c], i := pre.length + non.length + [a].length, ind := pre.length + [a].length }
          (by simp) (by simp) rfl hn
        refine ⟨o', ?_, ?_⟩
        · have := run_step hg' hcode (by simpa using hr)
          simpa [letters, clear] using this
        · simpa [letters] using hind
      | cons c2 cs2 =>
        obtain ⟨hk2, hck2, -⟩ := chr_drop hd'
        have hc2 : c2 ≠ 0 := by
          intro e
          apply hz
          have : c2 ∈ a.drop (k + 1) := by rw [hd']; simp
          exact e ▸ List.mem_of_mem_drop this
        have hae : atEnd (pre ++ non ++ a :: rest) { clear o with pos := (k : Int) + 1, opt := (c : Int), optstr := some [dash, c] } = some false := by
          unfold atEnd
          rw [if_neg (by show ¬ ((k : Int) + 1 < 0); omega)]
          show (argCh (pre ++ non ++ a :: rest) o.i _).bind _ = _
          rw [argCh_at hiP]
          rw [show ((k : Int) + 1).toNat = k + 1 by omega, hck2]
          simp [hc2]
        rw [finish_stay hae] at hg
        obtain ⟨o', hr, hind⟩ := ih (k + 1) { clear o with pos := (k : Int) + 1, opt := (c : Int), optstr := some [dash, c], ind := o.i - o.nargs } (by simp) (by omega) hd' hi hn (.inl (by simp))
        refine ⟨o', ?_, hind⟩
        exact run_step hg hcode hr
    -- a letter with an argument
    have witharg : ∀ (p : Str) (kd : Kind), strchr c s = some p → p[0]? = some colon → kindOf c s = some kd → kd ≠ .no → (p.getD 1 0 = colon ↔ kd = .optional) →
        ∃ o', run (((letters s rest (c :: cs)).1 ++ (parse (some s) longs (letters s rest (c :: cs)).2 rest).1).length + 1) o (pre ++ non ++ a :: rest) (some s) longs =
        some ((letters s rest (c :: cs)).1 ++ (parse (some s) longs (letters s rest (c :: cs)).2 rest).1, o',
          pre ++ a :: (parse (some s) longs (letters s rest (c :: cs)).2 rest).2.1 ++ (non ++ (parse (some s) longs (letters s rest (c :: cs)).2 rest).2.2)) ∧
        o'.ind = pre.length + 1 + (parse (some s) longs (letters s rest (c :: cs)).2 rest).2.1.length := by
      intro p kd hp1 hp2 hkd hno hop
      rw [hp1] at hget
      simp only [if_pos hp2] at hget
      have hlet : letters s rest (c :: cs) = ([(withArg kd c (if cs = [] then none else some cs) rest).1], (withArg kd c (if cs = [] then none else some cs) rest).2) := by
        rw [letters, hkd]
        cases kd with
        | no => exact absurd rfl hno
        | required => rfl
        | optional => rfl
      -- the end of the call: `t` says whether the next argument was taken
      have fin : ∀ (t : Bool) (code : Int) (arg : Option Str), code ≠ -1 → (t = true → rest ≠ []) →
          shortArg (pre ++ non ++ a :: rest) { clear o with pos := (k : Int) + 1, opt := (c : Int), optstr := some [dash, c] } (p.getD 1 0) =
            some ({ clear o with pos := (k : Int) + 1, opt := (c : Int), optstr := some [dash, c], i := o.i + (if t then 1 else 0), arg := arg }, code) →
          letters s rest (c :: cs) = ([(code, (c : Int), arg)], t) →
          ∃ o', run (((letters s rest (c :: cs)).1 ++ (parse (some s) longs (letters s rest (c :: cs)).2 rest).1).length + 1) o (pre ++ non ++ a :: rest) (some s) longs =
          some ((letters s rest (c :: cs)).1 ++ (parse (some s) longs (letters s rest (c :: cs)).2 rest).1, o',
            pre ++ a :: (parse (some s) longs (letters s rest (c :: cs)).2 rest).2.1 ++ (non ++ (parse (some s) longs (letters s rest (c :: cs)).2 rest).2.2)) ∧
          o'.ind = pre.length + 1 + (parse (some s) longs (letters s rest (c :: cs)).2 rest).2.1.length := by
        intro t code arg hcode ht hsa hl
        rw [hsa] at hget
        simp only [Option.bind_eq_bind, Option.bind_some] at hget
        rw [hl]
        have hsplit : pre ++ non ++ a :: rest = pre ++ non ++ ((a :: if t then rest.take 1 else []) ++ (if t then rest.drop 1 else rest)) := by
          cases t with
          | false => rfl
          | true => cases rest <;> simp
        have hglen : (a :: if t then rest.take 1 else []).length = 1 + (if t then 1 else 0) := by
          cases t with
          | false => rfl
          | true =>
            cases hr : rest with
            | nil => exact absurd hr (ht rfl)
            | cons x xs => simp
        have hg := hget
        rw [hsplit, hi] at hg
        have hg := hg.trans (finish_adv (pre := pre) (non := non) (grp := a :: if t then rest.take 1 else []) (C := if t then rest.drop 1 else rest)
          (o := { clear o with pos := -1, opt := (c : Int), optstr := some [dash, c], i := pre.length + non.length + (if t then 1 else 0), arg := arg }) (c := code)
          (by rw [hglen]; show pre.length + non.length + (if t then 1 else 0) + 1 = _; omega) hn rfl)
        obtain ⟨o', hr, hind⟩ := H t { clear o with pos := 0, opt := (c : Int), optstr := some [dash, c], i := pre.length + non.length + (a :: if t then rest.take 1 else []).length, arg := arg, ind := pre.length + (a :: if t then rest.take 1 else []).length } ht (by simp only [hglen]) (by rfl) (by exact hn)
        refine ⟨o', ?_, hind⟩
        rw [hsplit]
        exact run_step hg hcode hr
      cases cs with
      | cons c2 cs2 =>
        obtain ⟨hk2, hck2, -⟩ := chr_drop hd'
        have hc2 : c2 ≠ 0 := by
          intro e
          apply hz
          have : c2 ∈ a.drop (k + 1) := by rw [hd']; simp
          exact e ▸ List.mem_of_mem_drop this
        refine fin false (c : Int) (some (c2 :: cs2)) (by omega) (by simp) ?_ (by rw [hlet]; simp [withArg])
        unfold shortArg
        simp only [Option.bind_eq_bind]
        rw [argCh_at (show (clear o).i = (pre ++ non).length from hiP), getElem_at (show (clear o).i = (pre ++ non).length from hiP)]
        rw [show ((k : Int) + 1).toNat = k + 1 by omega, hck2]
        simp only [Option.bind_some, ne_eq, hc2, not_false_eq_true, if_true, hd']
        rfl
      | nil =>
        have h0 : chr a (k + 1) = some 0 := chr_drop_nil (by omega) hd'
        cases hr : rest with
        | nil =>
          have hlet' := hlet
          rw [hr] at hlet'
          simp only [if_true, withArg] at hlet'
          rw [hr] at fin
          refine fin false (if kd = .required then (colon : Int) else (c : Int)) none (by split <;> first | decide | omega) (by simp) ?_ hlet'
          unfold shortArg
          simp only [Option.bind_eq_bind]
          rw [argCh_at (show (clear o).i = (pre ++ non).length from hiP), getElem_at (show (clear o).i = (pre ++ non).length from hiP)]
          rw [show ((k : Int) + 1).toNat = k + 1 by omega, h0]
          simp only [Option.bind_some, ne_eq, not_true_eq_false, if_false]
          rw [if_neg (by show ¬ (o.i + 1 < _); rw [hi]; simp; omega)]
          cases kd with
          | no => exact absurd rfl hno
          | required =>
            have : ¬ p.getD 1 0 = colon := by rw [hop]; simp
            rw [if_pos this]; rfl
          | optional =>
            have : p.getD 1 0 = colon := by rw [hop]
            rw [if_neg (by simpa using this)]; rfl
        | cons x xs =>
          have hzx : 0 ∉ x := hzr x (by rw [hr]; simp)
          obtain ⟨dd, hdd1, hdd2⟩ := head_chr hzx
          have hlet' := hlet
          rw [hr] at hlet'
          simp only [if_true, withArg] at hlet'
          rw [hr] at fin
          have hlt : (clear o).i + 1 < (pre ++ non ++ a :: x :: xs).length := by show o.i + 1 < _; rw [hi]; simp; omega
          have hnx : argCh (pre ++ non ++ a :: x :: xs) ((clear o).i + 1) 0 = some dd := by
            rw [show pre ++ non ++ a :: x :: xs = (pre ++ non ++ [a]) ++ x :: xs by simp, argCh_at (by show o.i + 1 = _; rw [hi]; simp; omega), hdd1]
          have hgx : (pre ++ non ++ a :: x :: xs)[(clear o).i + 1]? = some x := by
            rw [show pre ++ non ++ a :: x :: xs = (pre ++ non ++ [a]) ++ x :: xs by simp]
            exact getElem_at (by show o.i + 1 = _; rw [hi]; simp; omega)
          have hsa : shortArg (pre ++ non ++ a :: x :: xs) { clear o with pos := (k : Int) + 1, opt := (c : Int), optstr := some [dash, c] } (p.getD 1 0) =
              if p.getD 1 0 ≠ colon ∨ dd ≠ dash then some ({ clear o with pos := (k : Int) + 1, opt := (c : Int), optstr := some [dash, c], i := o.i + 1, arg := some x }, (c : Int))
              else some ({ clear o with pos := (k : Int) + 1, opt := (c : Int), optstr := some [dash, c] }, (c : Int)) := by
            unfold shortArg
            simp only [Option.bind_eq_bind]
            rw [argCh_at (show (clear o).i = (pre ++ non).length from hiP), getElem_at (show (clear o).i = (pre ++ non).length from hiP)]
            rw [show ((k : Int) + 1).toNat = k + 1 by omega, h0]
            simp only [Option.bind_some, ne_eq, not_true_eq_false, if_false, if_pos hlt, hnx, hgx]
            rfl
          have hiff : (p.getD 1 0 ≠ colon ∨ dd ≠ dash) ↔ (kd = .required ∨ x.head? ≠ some dash) := by
            rw [ne_eq, hop, ne_eq, hdd2]
            cases kd with
            | no => exact absurd rfl hno
            | required => simp
            | optional => simp
          by_cases hb : kd = .required ∨ x.head? ≠ some dash
          · refine fin true (c : Int) (some x) (by omega) (by simp) ?_ (by rw [hlet', if_pos hb])
            rw [hsa, if_pos (hiff.2 hb)]
            rfl
          · refine fin false (c : Int) none (by omega) (by simp) ?_ (by rw [hlet', if_neg hb])
            rw [hsa, if_neg (fun e => hb (hiff.1 e))]
            rfl
    rcases kind_strchr c s with ⟨h1, h2⟩ | ⟨h1, p, h2, h3⟩ | ⟨h1, p, h2, h3, h4⟩ | ⟨h1, p, h2, h3, h4⟩
    · rw [h2] at hget
      have hl : letters s rest (c :: cs) = ((quest, (c : Int), none) :: (letters s rest cs).1, (letters s rest cs).2) := by rw [letters, h1]
      rw [hl]
      exact plain quest (by simp [quest]) hget
    · rw [h2] at hget
      simp only [if_neg h3] at hget
      have hl : letters s rest (c :: cs) = (((c : Int), (c : Int), none) :: (letters s rest cs).1, (letters s rest cs).2) := by rw [letters, h1]
      rw [hl]
      exact plain c (by omega) hget
    · exact witharg p .required h2 h3 h1 (by simp) (by simp only [h4]; simp)
    · exact witharg p .optional h2 h3 h1 (by simp) (by simp only [h4])

/-! ### long options -/

theorem nameEnd_eq : ∀ (t : Str) (j : Nat), nameEnd t j = j + (t.takeWhile (· ≠ equals)).length
  | [], j => by simp [nameEnd]
  | c :: cs, j => by
    rw [nameEnd]
    by_cases h : c = equals
    · simp [h]
    · rw [if_neg h, nameEnd_eq cs, List.takeWhile_cons_of_pos (by simpa using h), List.length_cons]; omega

theorem strncmpEq_iff : ∀ (n w l : Str), strncmpEq n.length (n ++ w) l = n.isPrefixOf l
  | [], _, _ => by simp [strncmpEq]
  | x :: n, w, [] => by simp [strncmpEq]
  | x :: n, w, y :: l => by
    simp only [List.length_cons, List.cons_append, strncmpEq, List.isPrefixOf_cons₂, strncmpEq_iff n w l]
    rfl

theorem chr_prefix {n l : Str} (h : n.isPrefixOf l = true) (hz : 0 ∉ l) : ∃ c, chr l n.length = some c ∧ (c = 0 ↔ l = n) := by
  obtain ⟨t, rfl⟩ := List.isPrefixOf_iff_prefix.1 h
  cases t with
  | nil => exact ⟨0, by simp [chr], by simp⟩
  | cons c t =>
    refine ⟨c, by simp [chr], ?_⟩
    have : c ≠ 0 := by intro e; exact hz (by simp [e])
    simp [this]

theorem findLong_eq (n w : Str) : ∀ (ls : List Long) (r : Found), (∀ l ∈ ls, 0 ∉ l.name) →
    findLong (n ++ w) n.length ls r = some ⟨r.nExact + (exact ls n).length, (exact ls n).getLast?.or r.exact, r.nPartial + (longer ls n).length, (longer ls n).getLast?.or r.part⟩
  | [], r, _ => by simp [findLong, exact, longer]
  | l :: ls, r, hz => by
    rw [findLong, strncmpEq_iff]
    have hz' : ∀ l ∈ ls, 0 ∉ l.name := fun x hx => hz x (by simp [hx])
    by_cases hp : n.isPrefixOf l.name = true
    · obtain ⟨c, hc1, hc2⟩ := chr_prefix hp (hz l (by simp))
      rw [if_pos hp, hc1]
      simp only [Option.bind_some]
      by_cases hc : c = 0
      · have he : l.name = n := hc2.1 hc
        have e1 : exact (l :: ls) n = l :: exact ls n := by simp [exact, he]
        have e2 : longer (l :: ls) n = longer ls n := by simp [longer, he]
        rw [if_pos hc, findLong_eq n w ls _ hz', e1, e2]
        congr 1
        simp only [List.length_cons, Found.mk.injEq]
        refine ⟨by omega, ?_, trivial, trivial⟩
        cases h : exact ls n with
        | nil => simp
        | cons x xs => simp [List.getLast?_cons]
      · have he : l.name ≠ n := fun e => hc (hc2.2 e)
        have e1 : exact (l :: ls) n = exact ls n := by simp [exact, he]
        have e2 : longer (l :: ls) n = l :: longer ls n := by
          unfold longer
          rw [List.filter_cons_of_pos (by simp [hp, he])]
        rw [if_neg hc, findLong_eq n w ls _ hz', e1, e2]
        congr 1
        simp only [List.length_cons, Found.mk.injEq]
        refine ⟨trivial, trivial, by omega, ?_⟩
        cases h : longer ls n with
        | nil => simp
        | cons x xs => simp [List.getLast?_cons]
    · rw [if_neg hp, findLong_eq n w ls _ hz']
      have he : l.name ≠ n := by
        intro e; apply hp; rw [e]; simp
      have e1 : exact (l :: ls) n = exact ls n := by simp [exact, he]
      have e2 : longer (l :: ls) n = longer ls n := by
        unfold longer
        rw [List.filter_cons_of_neg (by simp [hp])]
      rw [e1, e2]

/-- The option chosen by the code is the one meant. -/
theorem choice_eq {ls : List Long} {a : Str} (hn : ¬ Ambiguous ls a) (r : Found)
    (hr : r = ⟨0 + (exact ls (nameOf a)).length, (exact ls (nameOf a)).getLast?.or none, 0 + (longer ls (nameOf a)).length, (longer ls (nameOf a)).getLast?.or none⟩) :
    ¬ (r.nExact > 1 ∨ (r.nExact = 0 ∧ r.nPartial > 1)) ∧ (if r.nExact = 1 then r.exact else if r.nPartial = 1 then r.part else none) = resolve ls a := by
  subst hr
  simp only [Nat.zero_add]
  unfold Ambiguous at hn
  constructor
  · intro h
    apply hn
    rcases h with h | ⟨h1, h2⟩
    · exact .inl h
    · exact .inr ⟨List.length_eq_zero_iff.1 h1, h2⟩
  · unfold resolve
    cases he : exact ls (nameOf a) with
    | nil =>
      cases hl : longer ls (nameOf a) with
      | nil => simp
      | cons l t =>
        cases t with
        | nil => simp
        | cons => exact absurd (.inr ⟨he, by simp [hl]⟩) hn
    | cons l t =>
      cases t with
      | nil => simp
      | cons => exact absurd (.inl (by simp [he])) hn

theorem valueOf_chr {a : Str} (ha : 2 ≤ a.length) (hz : 0 ∉ a) :
    (valueOf a = none ∧ chr a (2 + (nameOf a).length) = some 0) ∨
    (∃ v, valueOf a = some v ∧ chr a (2 + (nameOf a).length) = some equals ∧ a.drop (2 + (nameOf a).length + 1) = v) := by
  have hsplit : a.drop 2 = nameOf a ++ (a.drop 2).dropWhile (· ≠ equals) := (List.takeWhile_append_dropWhile).symm
  have hd : a.drop (2 + (nameOf a).length) = (a.drop 2).dropWhile (· ≠ equals) := by
    rw [← List.drop_drop]
    conv_lhs => rw [hsplit]
    simp
  have hlen : 2 + (nameOf a).length ≤ a.length := by
    have := congrArg List.length hsplit
    simp only [List.length_drop, List.length_append] at this
    omega
  cases hw : (a.drop 2).dropWhile (· ≠ equals) with
  | nil =>
    left
    rw [hw] at hd
    exact ⟨by unfold valueOf; rw [hw], chr_drop_nil hlen hd⟩
  | cons c v =>
    right
    rw [hw] at hd
    obtain ⟨-, h2, h3⟩ := chr_drop hd
    have hc : c = equals := by
      have hne : (a.drop 2).dropWhile (· ≠ equals) ≠ [] := by rw [hw]; simp
      have := List.head_dropWhile_not (fun x => decide (x ≠ equals)) hne
      simp only [hw, List.head_cons] at this
      simpa using this
    exact ⟨v, by unfold valueOf; rw [hw], by rw [h2, hc], h3⟩

theorem run_long {shorts : Option Str} {longs : Option (List Long)} {pre non : List Str} {a : Str} {rest : List Str} (hz : 0 ∉ a) (hzr : ∀ x ∈ rest, 0 ∉ x) (ha : isOption a = true)
    (h1 : a[1]? = some dash) (h2 : a ≠ [dash, dash]) (hzl : ∀ ls, longs = some ls → ∀ l ∈ ls, 0 ∉ l.name ∧ l.val ≠ -1) (hamb : ∀ ls, longs = some ls → ¬ Ambiguous ls a)
    (H : Rest shorts longs pre non a rest) {o : Opt} (hi : o.i = pre.length + non.length) (hn : o.nargs = non.length) :
    ∃ o', run (((long longs rest a).1 :: (parse shorts longs (long longs rest a).2 rest).1).length + 1) o (pre ++ non ++ a :: rest) shorts longs =
      some ((long longs rest a).1 :: (parse shorts longs (long longs rest a).2 rest).1, o',
        pre ++ a :: (parse shorts longs (long longs rest a).2 rest).2.1 ++ (non ++ (parse shorts longs (long longs rest a).2 rest).2.2)) ∧
      o'.ind = pre.length + 1 + (parse shorts longs (long longs rest a).2 rest).2.1.length := by
  have hiP : o.i = (pre ++ non).length := by simp [hi]
  obtain ⟨d, t, hat⟩ := isOption_cases ha
  have hd : d = dash := by rw [hat] at h1; simpa using h1
  subst hd
  obtain ⟨e, t', rfl⟩ : ∃ e t', t = e :: t' := by
    cases t with
    | nil => exact absurd hat h2
    | cons e t' => exact ⟨e, t', rfl⟩
  have he : e ≠ 0 := by intro h; apply hz; rw [hat]; simp [h]
  have hdisp : get o (pre ++ non ++ a :: rest) shorts longs = getLong (pre ++ non ++ a :: rest) (clear o) longs := by
    rw [get_option hz hiP ha]
    unfold dispatch
    rw [argCh_at (show (clear o).i = (pre ++ non).length from hiP), argCh_at (show (clear o).i = (pre ++ non).length from hiP)]
    rw [show chr a 1 = some dash by rw [hat]; simp [chr], show chr a 2 = some e by rw [hat]; simp [chr]]
    simp only [Option.bind_eq_bind, Option.bind_some, if_true, if_neg he]
  -- the end of the call: `tk` says whether the next argument was taken
  have fin : ∀ (tk : Bool) (code : Int) (o1 : Opt), code ≠ -1 → (tk = true → rest ≠ []) → o1.i = pre.length + non.length + (if tk then 1 else 0) → o1.nargs = non.length → o1.pos = -1 →
      get o (pre ++ non ++ a :: rest) shorts longs = finish (pre ++ non ++ a :: rest) o1 (pre.length + non.length) code →
      long longs rest a = ((code, o1.opt, o1.arg), tk) →
      ∃ o', run (((long longs rest a).1 :: (parse shorts longs (long longs rest a).2 rest).1).length + 1) o (pre ++ non ++ a :: rest) shorts longs =
        some ((long longs rest a).1 :: (parse shorts longs (long longs rest a).2 rest).1, o',
          pre ++ a :: (parse shorts longs (long longs rest a).2 rest).2.1 ++ (non ++ (parse shorts longs (long longs rest a).2 rest).2.2)) ∧
        o'.ind = pre.length + 1 + (parse shorts longs (long longs rest a).2 rest).2.1.length := by
    intro tk code o1 hcode ht hi1 hn1 hp1 hg hl
    rw [hl]
    have hsplit : pre ++ non ++ a :: rest = pre ++ non ++ ((a :: if tk then rest.take 1 else []) ++ (if tk then rest.drop 1 else rest)) := by
      cases tk with
      | false => rfl
      | true => cases rest <;> simp
    have hglen : (a :: if tk then rest.take 1 else []).length = 1 + (if tk then 1 else 0) := by
      cases tk with
      | false => rfl
      | true =>
        cases hr : rest with
        | nil => exact absurd hr (ht rfl)
        | cons x xs => simp
    rw [hsplit] at hg
    have hg := hg.trans (finish_adv (pre := pre) (non := non) (grp := a :: if tk then rest.take 1 else []) (C := if tk then rest.drop 1 else rest) (o := o1) (c := code)
      (by rw [hglen, hi1]; omega) hn1 (by unfold atEnd; rw [hp1]; rfl))
    obtain ⟨o', hr, hind⟩ := H tk { o1 with i := pre.length + non.length + (a :: if tk then rest.take 1 else []).length, pos := 0, ind := pre.length + (a :: if tk then rest.take 1 else []).length }
      ht (by simp only [hglen]) (by rfl) (by exact hn1)
    refine ⟨o', ?_, hind⟩
    rw [hsplit]
    have := run_step hg hcode hr
    exact this
  cases hls : longs with
  | none =>
    rw [← hls]
    refine fin false quest { clear o with pos := -1 } (by decide) (by simp) (by simpa [clear] using hi) hn rfl ?_ ?_
    · rw [hdisp, hls, ← hi]; rfl
    · unfold long; rw [hls]; rfl
  | some ls =>
    rw [← hls]
    have hzl := hzl ls hls
    have hdrop : a.drop 2 = nameOf a ++ (a.drop 2).dropWhile (· ≠ equals) := (List.takeWhile_append_dropWhile).symm
    have hj : nameEnd (a.drop 2) 2 = 2 + (nameOf a).length := nameEnd_eq _ _
    obtain ⟨c1, c2⟩ := choice_eq (hamb ls hls) _ rfl
    have hfl : findLong (a.drop 2) (nameEnd (a.drop 2) 2 - 2) ls ⟨0, none, 0, none⟩ =
        some ⟨0 + (exact ls (nameOf a)).length, (exact ls (nameOf a)).getLast?.or none, 0 + (longer ls (nameOf a)).length, (longer ls (nameOf a)).getLast?.or none⟩ := by
      rw [hj, Nat.add_sub_cancel_left]
      conv_lhs => rw [hdrop]
      exact findLong_eq _ _ ls _ (fun l hl => (hzl l hl).1)
    have hgl : get o (pre ++ non ++ a :: rest) shorts longs = (match resolve ls a with
        | none => finish (pre ++ non ++ a :: rest) { clear o with pos := -1, optstr := some a } o.i quest
        | some l => (longArg (pre ++ non ++ a :: rest) { clear o with pos := -1, optstr := some a, opt := l.val } a (2 + (nameOf a).length) l).bind fun q =>
          finish (pre ++ non ++ a :: rest) q.1 o.i q.2) := by
      rw [hdisp, hls]
      unfold getLong
      simp only [Option.bind_eq_bind]
      rw [getElem_at (show (clear o).i = (pre ++ non).length from hiP)]
      simp only [Option.bind_some, hfl]
      rw [if_neg c1, c2, hj]
      rfl
    have hlen : 2 ≤ a.length := by rw [hat]; simp
    cases hres : resolve ls a with
    | none =>
      rw [hres] at hgl
      refine fin false quest { clear o with pos := -1, optstr := some a } (by decide) (by simp) (by simpa [clear] using hi) hn rfl (by rw [hgl, hi]) ?_
      unfold long; rw [hls]; simp [hres, clear]
    | some l =>
      rw [hres] at hgl
      simp only at hgl
      have hlm : l ∈ ls := by
        unfold resolve at hres
        split at hres
        · rename_i l' he
          cases hres
          have : l ∈ exact ls (nameOf a) := by rw [he]; simp
          exact (List.mem_filter.1 this).1
        · cases hres
        · split at hres
          · rename_i l' he
            cases hres
            have : l ∈ longer ls (nameOf a) := by rw [he]; simp
            exact (List.mem_filter.1 this).1
          · cases hres
      have hval : l.val ≠ -1 := (hzl l hlm).2
      have hlong : long longs rest a = if l.type = .no then ((l.val, l.val, none), false) else withArg l.type l.val (valueOf a) rest := by
        unfold long; rw [hls]; simp [hres]
      by_cases hty : l.type = .no
      · rw [if_pos hty] at hlong
        refine fin false l.val { clear o with pos := -1, optstr := some a, opt := l.val } hval (by simp) (by simpa [clear] using hi) hn rfl ?_ (by rw [hlong]; rfl)
        rw [hgl]
        have : ∃ c, chr a (2 + (nameOf a).length) = some c := by
          rcases valueOf_chr hlen hz with ⟨-, h⟩ | ⟨v, -, h, -⟩ <;> exact ⟨_, h⟩
        obtain ⟨c, hc⟩ := this
        unfold longArg
        rw [hc]
        simp only [Option.bind_eq_bind, Option.bind_some, hty, ne_eq, not_true_eq_false, if_false, hi]
      · rw [if_neg hty] at hlong
        rcases valueOf_chr hlen hz with ⟨hv, hc⟩ | ⟨v, hv, hc, hdv⟩
        · rw [hv] at hlong
          cases hr : rest with
          | nil =>
            have hlong' := hlong
            rw [hr] at hlong'
            simp only [withArg] at hlong'
            rw [hr] at fin hgl
            refine fin false (if l.type = .required then (colon : Int) else l.val) { clear o with pos := -1, optstr := some a, opt := l.val }
              (by split <;> first | decide | exact hval) (by simp) (by simpa [clear] using hi) hn rfl ?_ (by rw [hlong']; rfl)
            rw [hgl]
            unfold longArg
            rw [hc]
            simp only [Option.bind_eq_bind, Option.bind_some, ne_eq, hty, not_false_eq_true, if_true]
            rw [if_neg (show ¬ (0 = equals) by decide)]
            rw [if_neg (by rintro ⟨-, h⟩; revert h; show ¬ (o.i + 1 < _); rw [hi]; simp; omega)]
            by_cases hq : l.type = .required
            · simp only [hq, if_true, Option.bind_some, hi]
            · simp only [hq, if_false, Option.bind_some, hi]
          | cons x xs =>
            have hzx : 0 ∉ x := hzr x (by rw [hr]; simp)
            obtain ⟨dd, hdd1, hdd2⟩ := head_chr hzx
            have hlong' := hlong
            rw [hr] at hlong'
            simp only [withArg] at hlong'
            rw [hr] at fin hgl
            have hlt : (clear o).i + 1 < (pre ++ non ++ a :: x :: xs).length := by show o.i + 1 < _; rw [hi]; simp; omega
            have hnx : argCh (pre ++ non ++ a :: x :: xs) ((clear o).i + 1) 0 = some dd := by
              rw [show pre ++ non ++ a :: x :: xs = (pre ++ non ++ [a]) ++ x :: xs by simp, argCh_at (by show o.i + 1 = _; rw [hi]; simp; omega), hdd1]
            have hgx : (pre ++ non ++ a :: x :: xs)[(clear o).i + 1]? = some x := by
              rw [show pre ++ non ++ a :: x :: xs = (pre ++ non ++ [a]) ++ x :: xs by simp]
              exact getElem_at (by show o.i + 1 = _; rw [hi]; simp; omega)
            have hla : longArg (pre ++ non ++ a :: x :: xs) { clear o with pos := -1, optstr := some a, opt := l.val } a (2 + (nameOf a).length) l =
                if l.type = .required ∨ dd ≠ dash then some ({ clear o with pos := -1, optstr := some a, opt := l.val, i := o.i + 1, arg := some x }, l.val)
                else some ({ clear o with pos := -1, optstr := some a, opt := l.val }, l.val) := by
              unfold longArg
              rw [hc]
              simp only [Option.bind_eq_bind, Option.bind_some, ne_eq, hty, not_false_eq_true, if_true]
              rw [if_neg (show ¬ (0 = equals) by decide), if_pos ⟨trivial, hlt⟩, hnx]
              simp only [Option.bind_some, hgx]
              rfl
            by_cases hb : l.type = .required ∨ x.head? ≠ some dash
            · have hb' : l.type = .required ∨ dd ≠ dash := by rw [ne_eq, hdd2]; exact hb
              rw [if_pos hb] at hlong'
              refine fin true l.val { clear o with pos := -1, optstr := some a, opt := l.val, i := o.i + 1, arg := some x } hval (by simp) (by simp [hi]) hn rfl ?_ (by rw [hlong'])
              rw [hgl, hla, if_pos hb']
              simp only [Option.bind_some, hi]
            · have hb' : ¬ (l.type = .required ∨ dd ≠ dash) := by rw [ne_eq, hdd2]; exact hb
              rw [if_neg hb] at hlong'
              refine fin false l.val { clear o with pos := -1, optstr := some a, opt := l.val } hval (by simp) (by simpa [clear] using hi) hn rfl ?_ (by rw [hlong']; rfl)
              rw [hgl, hla, if_neg hb']
              simp only [Option.bind_some, hi]
        · rw [hv] at hlong
          refine fin false l.val { clear o with pos := -1, optstr := some a, opt := l.val, arg := some v } hval (by simp) (by simpa [clear] using hi) hn rfl ?_ (by rw [hlong]; rfl)
          rw [hgl]
          unfold longArg
          rw [hc]
          simp only [Option.bind_eq_bind, Option.bind_some, ne_eq, hty, not_false_eq_true, if_true, hdv, hi]

/-! ### all arguments -/

/-- Conditions on the arguments and option tables. -/
structure Input (lo : Option (List Long)) (av : List Str) : Prop where
  args : ∀ a ∈ av, 0 ∉ a
  longs : ∀ ls, lo = some ls → ∀ l ∈ ls, 0 ∉ l.name ∧ l.val ≠ -1
  unambiguous : ∀ ls, lo = some ls → ∀ a ∈ av, isLong a = true → ¬ Ambiguous ls a

theorem parse_cons (shorts : Option Str) (longs : Option (List Long)) (a : Str) (rest : List Str) : parse shorts longs false (a :: rest) =
    if ¬ isOption a then
      if posix shorts then ([], [], a :: rest)
      else ((parse shorts longs false rest).1, (parse shorts longs false rest).2.1, a :: (parse shorts longs false rest).2.2)
    else if a = [dash, dash] then ([], [a], rest)
    else if a[1]? = some dash then
      ((long longs rest a).1 :: (parse shorts longs (long longs rest a).2 rest).1, a :: (parse shorts longs (long longs rest a).2 rest).2.1, (parse shorts longs (long longs rest a).2 rest).2.2)
    else
      match shorts with
      | none => ([], [], a :: rest)
      | some s => ((letters s rest (a.drop 1)).1 ++ (parse shorts longs (letters s rest (a.drop 1)).2 rest).1,
          a :: (parse shorts longs (letters s rest (a.drop 1)).2 rest).2.1, (parse shorts longs (letters s rest (a.drop 1)).2 rest).2.2) := by
  cases shorts <;> simp only [parse]

theorem run_all {shorts : Option Str} {longs : Option (List Long)} : ∀ (m : Nat) (todo pre non : List Str) (o : Opt), todo.length ≤ m → Input longs todo →
    o.i = pre.length + non.length → o.nargs = non.length → o.pos = 0 →
    ∃ o', run ((parse shorts longs false todo).1.length + 1) o (pre ++ non ++ todo) shorts longs =
      some ((parse shorts longs false todo).1, o', pre ++ (parse shorts longs false todo).2.1 ++ (non ++ (parse shorts longs false todo).2.2)) ∧
      o'.ind = pre.length + (parse shorts longs false todo).2.1.length := by
  intro m
  induction m with
  | zero =>
    intro todo pre non o hm hin hi hn hp
    have : todo = [] := List.length_eq_zero_iff.1 (by omega)
    subst this
    refine ⟨{ clear o with ind := o.i - o.nargs }, ?_, ?_⟩
    · simp only [parse, List.length_nil, List.append_nil]
      refine run_end ?_
      unfold get
      have : skipIf o (pre ++ non) shorts = some o := by
        unfold skipIf
        by_cases h : posix shorts
        · rw [if_pos h]
        · rw [if_neg h, show (pre ++ non).length - o.i = 0 by rw [hi]; simp, skip]
      rw [this]
      simp only [Option.bind_eq_bind, Option.bind_some]
      unfold noMore
      rw [if_pos (by show (pre ++ non).length ≤ o.i; rw [hi]; simp)]
      rfl
    · simp [parse, hi, hn]
  | succ m ih =>
    intro todo pre non o hm hin hi hn hp
    cases todo with
    | nil => exact ih [] pre non o (by simp) hin hi hn hp
    | cons a rest =>
      have hz : 0 ∉ a := hin.args a (by simp)
      have hin' : Input longs rest := ⟨fun x hx => hin.args x (by simp [hx]), hin.longs, fun ls h x hx => hin.unambiguous ls h x (by simp [hx])⟩
      have hm' : rest.length ≤ m := by simpa using hm
      have hiP : o.i = (pre ++ non).length := by simp [hi]
      have H : Rest shorts longs pre non a rest := by
        intro t o1 ht h1 h2 h3
        cases t with
        | false =>
          obtain ⟨o', hr, hind⟩ := ih rest (pre ++ [a]) non o1 hm' hin' (by simp at h1 ⊢; omega) h3 h2
          refine ⟨o', ?_, by simpa using hind⟩
          simpa using hr
        | true =>
          cases hrest : rest with
          | nil => exact absurd hrest (ht rfl)
          | cons x xs =>
            subst hrest
            obtain ⟨o', hr, hind⟩ := ih xs (pre ++ [a, x]) non o1 (by simp at hm'; omega) ⟨fun y hy => hin'.args y (by simp [hy]), hin'.longs, fun ls h y hy => hin'.unambiguous ls h y (by simp [hy])⟩
              (by simp at h1 ⊢; omega) h3 h2
            refine ⟨o', ?_, ?_⟩
            · simpa [parse] using hr
            · simp [parse] at hind ⊢; omega
      by_cases ho : isOption a = true
      · by_cases hdd : a = [dash, dash]
        · have hpar : parse shorts longs false (a :: rest) = ([], [a], rest) := by rw [parse_cons, if_neg (by simp [ho]), if_pos hdd]
          rw [hpar]
          refine ⟨{ clear o with i := o.i + 1, ind := o.i + 1 - o.nargs }, ?_, ?_⟩
          · refine run_end ?_
            rw [get_option hz hiP ho]
            unfold dispatch
            rw [argCh_at (show (clear o).i = (pre ++ non).length from hiP), argCh_at (show (clear o).i = (pre ++ non).length from hiP), hdd]
            simp only [chr, List.length_cons, List.length_nil, Option.bind_eq_bind]
            simp only [show (1 : Nat) < 0 + 1 + 1 by omega, show ¬ ((2 : Nat) < 0 + 1 + 1) by omega, show (2 : Nat) = 0 + 1 + 1 by omega, if_true, if_false,
              List.getElem?_cons_succ, List.getElem?_cons_zero, Option.bind_some]
            have hpm : permute (pre ++ non ++ [dash, dash] :: rest) (clear o).i (clear o).nargs = some (pre ++ [dash, dash] :: non ++ rest) := by
              show permute _ o.i o.nargs = _
              rw [hi, hn]; exact permute_eq pre non [dash, dash] rest
            rw [hpm]
            simp [clear]
          · simp [hi, hn]; omega
        · by_cases hl : a[1]? = some dash
          · have hpar : parse shorts longs false (a :: rest) = ((long longs rest a).1 :: (parse shorts longs (long longs rest a).2 rest).1, a :: (parse shorts longs (long longs rest a).2 rest).2.1, (parse shorts longs (long longs rest a).2 rest).2.2) := by
              rw [parse_cons, if_neg (by simp [ho]), if_neg hdd, if_pos hl]
            rw [hpar]
            obtain ⟨o', hr, hind⟩ := run_long hz (fun x hx => hin'.args x hx) ho hl hdd hin.longs (fun ls h => hin.unambiguous ls h a (by simp) (by
              obtain ⟨d, t, hat⟩ := isOption_cases ho
              have hd : d = dash := by rw [hat] at hl; simpa using hl
              subst hd
              cases t with
              | nil => exact absurd hat hdd
              | cons e t' => rw [hat]; rfl)) H hi hn
            exact ⟨o', hr, by simp only [List.length_cons]; omega⟩
          · cases hs : shorts with
            | none =>
              subst hs
              have hpar : parse none longs false (a :: rest) = ([], [], a :: rest) := by
                rw [parse_cons, if_neg (by simp [ho]), if_neg hdd, if_neg hl]
              rw [hpar]
              obtain ⟨d, t, hat⟩ := isOption_cases ho
              have hd : d ≠ dash := by rw [hat] at hl; simpa using hl
              refine ⟨{ clear o with ind := o.i - o.nargs }, ?_, by simp [hi, hn]⟩
              rw [show pre ++ (([] : List Event), ([] : List Str), a :: rest).2.1 ++ (non ++ (([] : List Event), ([] : List Str), a :: rest).2.2) = pre ++ non ++ a :: rest by simp]
              refine run_end ?_
              rw [get_option hz hiP ho]
              unfold dispatch
              rw [argCh_at (show (clear o).i = (pre ++ non).length from hiP), show chr a 1 = some d by rw [hat]; simp [chr]]
              simp only [Option.bind_eq_bind, Option.bind_some, if_neg hd]
              refine finish_stay ?_
              unfold atEnd
              rw [if_neg (by show ¬ (o.pos < 0); rw [hp]; decide)]
              rw [argCh_at (show (clear o).i = (pre ++ non).length from hiP), show (clear o).pos.toNat = 0 by show o.pos.toNat = 0; rw [hp]; rfl,
                show chr a 0 = some dash by rw [hat]; simp [chr]]
              rfl
            | some s =>
              subst hs
              have hpar : parse (some s) longs false (a :: rest) = ((letters s rest (a.drop 1)).1 ++ (parse (some s) longs (letters s rest (a.drop 1)).2 rest).1, a :: (parse (some s) longs (letters s rest (a.drop 1)).2 rest).2.1, (parse (some s) longs (letters s rest (a.drop 1)).2 rest).2.2) := by
                rw [parse_cons, if_neg (by simp [ho]), if_neg hdd, if_neg hl]
              rw [hpar]
              obtain ⟨d, t, hat⟩ := isOption_cases ho
              obtain ⟨o', hr, hind⟩ := run_letters hz (fun x hx => hin'.args x hx) ho hl H (a.drop 1) 1 o (by rw [hat]; simp) (by omega) rfl hi hn (.inr ⟨hp, rfl⟩)
              exact ⟨o', hr, by simp only [List.length_cons]; omega⟩
      · have ho' : isOption a = false := by simpa using ho
        by_cases hpx : posix shorts = true
        · have hpar : parse shorts longs false (a :: rest) = ([], [], a :: rest) := by rw [parse_cons, if_pos (by simp [ho']), if_pos hpx]
          rw [hpar]
          refine ⟨{ clear o with ind := o.i - o.nargs }, ?_, by simp [hi, hn]⟩
          rw [show pre ++ (([] : List Event), ([] : List Str), a :: rest).2.1 ++ (non ++ (([] : List Event), ([] : List Str), a :: rest).2.2) = pre ++ non ++ a :: rest by simp]
          refine run_end ?_
          unfold get
          have : skipIf o (pre ++ non ++ a :: rest) shorts = some o := by unfold skipIf; rw [if_pos hpx]
          rw [this]
          simp only [Option.bind_eq_bind, Option.bind_some]
          rw [show ({ ind := o.ind, opt := 0, optstr := none, arg := none, i := o.i, pos := o.pos, nargs := o.nargs } : Opt) = clear o from rfl,
            noMore_operand hz (show (clear o).i = (pre ++ non).length from hiP) ho']
          rfl
        · have hpx' : posix shorts = false := by simpa using hpx
          have hpar : parse shorts longs false (a :: rest) = ((parse shorts longs false rest).1, (parse shorts longs false rest).2.1, a :: (parse shorts longs false rest).2.2) := by
            rw [parse_cons, if_pos (by simp [ho']), if_neg hpx]
          rw [hpar]
          obtain ⟨o', hr, hind⟩ := ih rest pre (non ++ [a]) { o with i := o.i + 1, nargs := o.nargs + 1 } hm' hin' (by simp [hi]; omega) (by simp [hn]) hp
          refine ⟨o', ?_, hind⟩
          rw [run, get_operand hz hiP ho' hpx']
          rw [run] at hr
          simpa using hr

end Verif.Coption
