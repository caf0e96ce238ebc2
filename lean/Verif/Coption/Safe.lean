import Verif.Coption.Lemmas
import Mathlib.Tactic.Common
/-
Calls of the option parser in any number, also after it returned -1 or reported an ambiguous option, and
with other specifications each time.
-/
namespace Verif.Coption
open Spec

/-- What holds between calls: the arguments are C strings, the operands passed so far lie behind the
program name, and an argument parsed in part is an option with letters left, or an ambiguous one. -/
structure Inv (o : Opt) (argv : List Str) : Prop where
  zero : ∀ a ∈ argv, 0 ∉ a
  nargs : o.nargs + 1 ≤ o.i
  i_le : o.i ≤ argv.length
  ind : 1 ≤ o.ind ∧ o.ind ≤ argv.length
  pos : o.pos = 0 ∨ ∃ a, argv[o.i]? = some a ∧ isOption a = true ∧
    ((o.pos = -1 ∧ isLong a = true) ∨ (1 ≤ o.pos ∧ o.pos.toNat < a.length ∧ a[1]? ≠ some dash))

/-- `coption_permute_` moves an argument over operands behind the program name. -/
theorem permute_safe {argv : List Str} {j n : Nat} (hn : n + 1 ≤ j) (hj : j < argv.length) :
    ∃ v, permute argv j n = some v ∧ v.Perm argv ∧ v.head? = argv.head? := by
  have hx : argv.drop j = argv[j] :: argv.drop (j + 1) := List.drop_eq_getElem_cons hj
  have e : argv = argv.take (j - n) ++ (argv.drop (j - n)).take n ++ argv[j] :: argv.drop (j + 1) := by
    rw [← hx]
    have h1 : argv.drop j = (argv.drop (j - n)).drop n := by rw [List.drop_drop]; congr 1; omega
    rw [h1, List.append_assoc, List.take_append_drop, List.take_append_drop]
  have l1 : (argv.take (j - n)).length = j - n := by rw [List.length_take]; omega
  have l2 : ((argv.drop (j - n)).take n).length = n := by rw [List.length_take, List.length_drop]; omega
  have h := permute_eq (argv.take (j - n)) ((argv.drop (j - n)).take n) argv[j] (argv.drop (j + 1))
  rw [l1, l2, ← e, show j - n + n = j by omega] at h
  refine ⟨_, h, ?_, ?_⟩
  · conv_rhs => rw [e]
    rw [List.append_assoc, List.append_assoc]
    exact List.Perm.append_left _ List.perm_middle.symm
  · conv_rhs => rw [e]
    have : argv.take (j - n) ≠ [] := by intro h0; rw [h0] at l1; simp at l1; omega
    cases ht : argv.take (j - n) with
    | nil => exact absurd ht this
    | cons => rfl

theorem permuteAll_safe {n : Nat} : ∀ (f : Nat) {argv : List Str} {j : Nat}, n + 1 ≤ j → j + f ≤ argv.length →
    ∃ v, permuteAll argv n j f = some v ∧ v.Perm argv ∧ v.head? = argv.head?
  | 0, argv, j, _, _ => ⟨argv, rfl, List.Perm.refl _, rfl⟩
  | f + 1, argv, j, hn, hj => by
    obtain ⟨v, h1, h2, h3⟩ := permute_safe hn (show j < argv.length by omega)
    obtain ⟨w, g1, g2, g3⟩ := permuteAll_safe (n := n) f (argv := v) (j := j + 1) (by omega) (by rw [h2.length_eq]; omega)
    exact ⟨w, by rw [permuteAll, h1, Option.bind_some, g1], g2.trans h2, g3.trans h3⟩

theorem permuteIf_safe {n i0 i : Nat} {argv : List Str} (hn : n + 1 ≤ i0) (h0 : i0 ≤ i) (hi : i ≤ argv.length) :
    ∃ v, permuteIf argv n i0 i = some v ∧ v.Perm argv ∧ v.head? = argv.head? := by
  unfold permuteIf
  split
  · exact permuteAll_safe (i - i0) hn (by omega)
  · exact ⟨argv, rfl, List.Perm.refl _, rfl⟩

/-- What a call leaves behind. -/
def Kept (argv : List Str) (r : Option (Int × Opt × List Str)) : Prop :=
  ∃ c o' v, r = some (c, o', v) ∧ Inv o' v ∧ v.Perm argv ∧ v.head? = argv.head?

/-- The end of a call. -/
theorem finish_safe {argv : List Str} {o : Opt} {i0 : Nat} {c : Int} (hz : ∀ a ∈ argv, 0 ∉ a) (hn : o.nargs + 1 ≤ i0) (h0 : i0 ≤ o.i) (hi : o.i < argv.length)
    (hp : o.pos < 0 ∨ o.pos = 0 ∨ ∃ a, argv[o.i]? = some a ∧ isOption a = true ∧ 1 ≤ o.pos ∧ o.pos.toNat ≤ a.length ∧ a[1]? ≠ some dash) :
    Kept argv (finish argv o i0 c) := by
  have adv : atEnd argv o = some true → Kept argv (finish argv o i0 c) := by
    intro ha
    obtain ⟨v, h1, h2, h3⟩ := permuteIf_safe (n := o.nargs) (i0 := i0) (i := o.i + 1) hn (by omega) hi
    refine ⟨c, _, v, by unfold finish; rw [ha]; simp only [Option.bind_eq_bind, Option.bind_some, if_true, h1]; rfl, ?_, h2, h3⟩
    have hl := h2.length_eq
    exact ⟨fun a m => hz a (h2.mem_iff.1 m), by simp only; omega, by simp only; omega, by simp only; omega, Or.inl rfl⟩
  have stay : atEnd argv o = some false → (o.pos = 0 ∨ ∃ a, argv[o.i]? = some a ∧ isOption a = true ∧
      ((o.pos = -1 ∧ isLong a = true) ∨ (1 ≤ o.pos ∧ o.pos.toNat < a.length ∧ a[1]? ≠ some dash))) → Kept argv (finish argv o i0 c) := by
    intro ha hp'
    exact ⟨c, _, argv, finish_stay ha, ⟨hz, by simp only; omega, by simp only; omega, by simp only; omega, hp'⟩, List.Perm.refl _, rfl⟩
  rcases hp with hp | hp | ⟨a, ha, ho, hp, hl, hd⟩
  · exact adv (by unfold atEnd; rw [if_pos hp])
  · have he : ∃ ch, argCh argv o.i o.pos.toNat = some ch := by
      unfold argCh
      rw [List.getElem?_eq_getElem hi, hp]
      simp only [Option.bind_some, chr, Int.toNat_zero]
      by_cases h : 0 < argv[o.i].length
      · exact ⟨_, by rw [if_pos h, List.getElem?_eq_getElem h]⟩
      · exact ⟨0, by rw [if_neg h, if_pos (by omega)]⟩
    obtain ⟨ch, he⟩ := he
    have e : atEnd argv o = some (decide (ch = 0)) := by
      unfold atEnd; rw [if_neg (by omega), he]; rfl
    by_cases h : ch = 0
    · exact adv (by rw [e]; simp [h])
    · exact stay (by rw [e]; simp [h]) (Or.inl hp)
  · have e0 : atEnd argv o = (chr a o.pos.toNat).bind fun c => some (decide (c = 0)) := by
      unfold atEnd argCh; rw [if_neg (by omega), ha]; rfl
    by_cases h : o.pos.toNat < a.length
    · have hne : a[o.pos.toNat] ≠ 0 := by
        intro h0
        exact hz a (List.mem_of_getElem? ha) (h0 ▸ List.getElem_mem h)
      exact stay (by rw [e0, chr_lt h]; simp [hne]) (Or.inr ⟨a, ha, ho, Or.inr ⟨hp, h, hd⟩⟩)
    · exact adv (by rw [e0, show o.pos.toNat = a.length by omega, chr_end]; rfl)

theorem nonOption_ok {argv : List Str} {i : Nat} (hz : ∀ a ∈ argv, 0 ∉ a) (hi : i < argv.length) : nonOption argv i = some (!isOption argv[i]) := by
  have e : argv = argv.take i ++ argv[i] :: argv.drop (i + 1) := by
    rw [← List.drop_eq_getElem_cons hi, List.take_append_drop]
  conv_lhs => rw [e]
  exact nonOption_at (hz _ (List.getElem_mem hi)) (by rw [List.length_take]; omega)

theorem skip_safe : ∀ (f : Nat) {o : Opt} {argv : List Str}, Inv o argv → ∃ o', skip argv f o = some o' ∧ Inv o' argv
  | 0, o, argv, h => ⟨o, rfl, h⟩
  | f + 1, o, argv, h => by
    rw [skip]
    by_cases hi : o.i < argv.length
    · rw [if_pos hi, nonOption_ok h.zero hi, Option.bind_some]
      by_cases ho : isOption argv[o.i] = true
      · rw [if_neg (by simp [ho])]; exact ⟨o, rfl, h⟩
      · rw [if_pos (by simp [ho])]
        refine skip_safe f ⟨h.zero, ?_, ?_, h.ind, Or.inl ?_⟩
        · have := h.nargs; simp only; omega
        · simp only; omega
        · rcases h.pos with hp | ⟨a, ha, hoa, -⟩
          · exact hp
          · rw [List.getElem?_eq_getElem hi, Option.some.injEq] at ha
            rw [ha] at ho; exact absurd hoa ho
    · rw [if_neg hi]; exact ⟨o, rfl, h⟩

theorem strncmpEq_len : ∀ {m : Nat} {a b : Str}, strncmpEq m a b = true → m ≤ a.length → m ≤ b.length
  | 0, _, _, _, _ => Nat.zero_le _
  | m + 1, [], _, _, h => by simp at h
  | m + 1, x :: xs, [], h, _ => by simp [strncmpEq] at h
  | m + 1, x :: xs, y :: ys, h, hl => by
    simp only [strncmpEq, Bool.and_eq_true] at h
    have := strncmpEq_len h.2 (by simpa using hl)
    simpa using this

theorem chr_some {s : Str} {k : Nat} (h : k ≤ s.length) : ∃ c, chr s k = some c := by
  by_cases h' : k < s.length
  · exact ⟨_, chr_lt h'⟩
  · exact ⟨0, by rw [show k = s.length by omega]; exact chr_end⟩

theorem argCh_some {argv : List Str} {i k : Nat} {a : Str} (ha : argv[i]? = some a) (h : k ≤ a.length) : ∃ c, argCh argv i k = some c := by
  obtain ⟨c, hc⟩ := chr_some h
  exact ⟨c, by unfold argCh; rw [ha]; exact hc⟩

theorem findLong_safe {name : Str} {m : Nat} (hm : m ≤ name.length) : ∀ (ls : List Long) (r : Found), ∃ r', findLong name m ls r = some r'
  | [], r => ⟨r, rfl⟩
  | l :: ls, r => by
    rw [findLong]
    split
    next h =>
      obtain ⟨c, hc⟩ := chr_some (strncmpEq_len h hm)
      rw [hc]; exact findLong_safe hm ls _
    next => exact findLong_safe hm ls r

theorem nameEnd_bounds : ∀ (s : Str) (j : Nat), j ≤ nameEnd s j ∧ nameEnd s j ≤ j + s.length
  | [], j => by simp [nameEnd]
  | c :: cs, j => by
    rw [nameEnd]
    split
    · simp
    · have := nameEnd_bounds cs (j + 1)
      rw [List.length_cons]; omega

theorem longArg_safe {argv : List Str} {o : Opt} {a : Str} {j : Nat} (l : Long) (hj : j ≤ a.length) (hi : o.i < argv.length) :
    ∃ q, longArg argv o a j l = some q ∧ q.1.nargs = o.nargs ∧ q.1.pos = o.pos ∧ o.i ≤ q.1.i ∧ q.1.i < argv.length := by
  obtain ⟨c, hc⟩ := chr_some hj
  unfold longArg
  rw [hc]
  simp only [Option.bind_eq_bind, Option.bind_some]
  split
  · split
    · exact ⟨_, rfl, rfl, rfl, Nat.le_refl _, hi⟩
    · split
      next h =>
        obtain ⟨d, hd⟩ := argCh_some (k := 0) (List.getElem?_eq_getElem h.2) (Nat.zero_le _)
        rw [hd, List.getElem?_eq_getElem h.2]
        simp only [Option.bind_some]
        split
        · exact ⟨_, rfl, rfl, rfl, Nat.le_succ _, h.2⟩
        · exact ⟨_, rfl, rfl, rfl, Nat.le_refl _, hi⟩
      next =>
        split <;> exact ⟨_, rfl, rfl, rfl, Nat.le_refl _, hi⟩
  · exact ⟨_, rfl, rfl, rfl, Nat.le_refl _, hi⟩

theorem getLong_safe {argv : List Str} {o : Opt} {a : Str} (longs : Option (List Long)) (h : Inv o argv) (ha : argv[o.i]? = some a) (ho : isLong a = true) :
    Kept argv (getLong argv o longs) := by
  have hi : o.i < argv.length := (List.getElem?_eq_some_iff.1 ha).1
  have hop : isOption a = true := by
    match a, ho with
    | c :: d :: e :: t, ho => simp only [isLong, Bool.and_eq_true] at ho; simpa [isOption] using ho.1
  have hlen : 2 ≤ a.length := by
    match a, ho with
    | c :: d :: e :: t, _ => simp
  unfold getLong
  cases longs with
  | none => exact finish_safe h.zero h.nargs (Nat.le_refl _) hi (Or.inl (by simp))
  | some ls =>
    obtain ⟨b1, b2⟩ := nameEnd_bounds (a.drop 2) 2
    rw [List.length_drop] at b2
    obtain ⟨r, hr⟩ := findLong_safe (name := a.drop 2) (m := nameEnd (a.drop 2) 2 - 2) (by rw [List.length_drop]; omega) ls ⟨0, none, 0, none⟩
    simp only [Option.bind_eq_bind, ha, Option.bind_some, hr]
    split
    · exact ⟨_, _, argv, rfl, ⟨h.zero, h.nargs, h.i_le, h.ind, Or.inr ⟨a, ha, hop, Or.inl ⟨rfl, ho⟩⟩⟩, List.Perm.refl _, rfl⟩
    · split
      · exact finish_safe h.zero h.nargs (Nat.le_refl _) hi (Or.inl (by simp))
      next l _ =>
        obtain ⟨q, h1, h2, h3, h4, h5⟩ := longArg_safe (argv := argv) (o := { o with pos := -1, optstr := some a, opt := l.val }) (a := a) (j := nameEnd (a.drop 2) 2) l (by omega) hi
        rw [h1]
        simp only [Option.bind_some]
        exact finish_safe h.zero (by rw [h2]; exact h.nargs) h4 h5 (Or.inl (by rw [h3]; simp))

theorem shortArg_safe {argv : List Str} {o : Opt} {a : Str} (p2 : Nat) (ha : argv[o.i]? = some a) (hp : o.pos.toNat ≤ a.length) :
    ∃ q, shortArg argv o p2 = some q ∧ q.1.nargs = o.nargs ∧ o.i ≤ q.1.i ∧ q.1.i < argv.length := by
  have hi : o.i < argv.length := (List.getElem?_eq_some_iff.1 ha).1
  obtain ⟨c, hc⟩ := argCh_some ha hp
  unfold shortArg
  rw [hc, ha]
  simp only [Option.bind_eq_bind, Option.bind_some]
  split
  · exact ⟨_, rfl, rfl, Nat.le_refl _, hi⟩
  · split
    next h =>
      obtain ⟨d, hd⟩ := argCh_some (k := 0) (List.getElem?_eq_getElem h) (Nat.zero_le _)
      rw [hd, List.getElem?_eq_getElem h]
      simp only [Option.bind_some]
      split
      · exact ⟨_, rfl, rfl, Nat.le_succ _, h⟩
      · exact ⟨_, rfl, rfl, Nat.le_refl _, hi⟩
    next => split <;> exact ⟨_, rfl, rfl, Nat.le_refl _, hi⟩

theorem getShort_safe {argv : List Str} {o : Opt} {a : Str} (shorts : Str) (h : Inv o argv) (ha : argv[o.i]? = some a) (ho : isOption a = true) (hd : a[1]? ≠ some dash) :
    Kept argv (getShort argv o shorts) := by
  have hi : o.i < argv.length := (List.getElem?_eq_some_iff.1 ha).1
  have hlen : 2 ≤ a.length := by
    match a, ho with
    | c :: d :: t, _ => simp
  obtain ⟨P, hP, hP1, hP2⟩ : ∃ P : Int, (if o.pos = 0 then { o with pos := 1 } else o : Opt) = { o with pos := P } ∧ 1 ≤ P ∧ P.toNat < a.length := by
    rcases h.pos with hp | ⟨b, hb, _, hp⟩
    · exact ⟨1, by rw [if_pos hp], by omega, by simp; omega⟩
    · rw [ha, Option.some.injEq] at hb
      subst hb
      rcases hp with ⟨_, hl⟩ | ⟨h1, h2, _⟩
      · exfalso
        match a, hl with
        | c :: d :: e :: t, hl =>
          simp only [isLong, Bool.and_eq_true, beq_iff_eq] at hl
          simp [hl.2] at hd
      · exact ⟨o.pos, by rw [if_neg (by omega)], h1, h2⟩
  obtain ⟨c, hc⟩ := argCh_some ha (Nat.le_of_lt hP2)
  have fin : ∀ (o' : Opt) (c : Int), o'.i = o.i → o'.nargs = o.nargs → o'.pos = P + 1 → Kept argv (finish argv o' o.i c) := by
    intro o' c e1 e2 e3
    exact finish_safe h.zero (by rw [e2]; exact h.nargs) (by omega) (by omega)
      (Or.inr (Or.inr ⟨a, by rw [e1]; exact ha, ho, by omega, by omega, hd⟩))
  unfold getShort
  simp only [hP, Option.bind_eq_bind, hc, Option.bind_some]
  split
  · exact fin _ _ rfl rfl rfl
  next p _ =>
    split
    · obtain ⟨q, h1, h2, h3, h4⟩ := shortArg_safe (argv := argv) (o := { o with pos := P + 1, opt := (c : Int), optstr := some [dash, c] }) (a := a) (p.getD 1 0) ha (by simp only; omega)
      rw [h1]
      simp only [Option.bind_some]
      exact finish_safe h.zero (by simp only; rw [h2]; exact h.nargs) h3 h4 (Or.inl (by simp))
    · exact fin _ _ rfl rfl rfl

/-- One call, whatever happened before. -/
theorem get_safe {o : Opt} {argv : List Str} (shorts : Option Str) (longs : Option (List Long)) (h : Inv o argv) : Kept argv (get o argv shorts longs) := by
  obtain ⟨o1, h1, i1⟩ : ∃ o1, skipIf o argv shorts = some o1 ∧ Inv o1 argv := by
    unfold skipIf
    split
    · exact ⟨o, rfl, h⟩
    · exact skip_safe _ h
  unfold get
  rw [h1]
  simp only [Option.bind_eq_bind, Option.bind_some]
  have stop : Kept argv (some (-1, { o1 with opt := 0, optstr := none, arg := none, ind := o1.i - o1.nargs }, argv)) := by
    have := i1.nargs
    have := i1.i_le
    exact ⟨_, _, argv, rfl, ⟨i1.zero, by simp only; omega, by simp only; omega, by simp only; omega, i1.pos⟩, List.Perm.refl _, rfl⟩
  have i2 : Inv { o1 with opt := 0, optstr := none, arg := none } argv := ⟨i1.zero, i1.nargs, i1.i_le, i1.ind, i1.pos⟩
  unfold noMore
  simp only
  by_cases hi : argv.length ≤ o1.i
  · rw [if_pos hi]; exact stop
  rw [if_neg hi]
  have hi' : o1.i < argv.length := by omega
  rw [nonOption_ok i1.zero hi']
  simp only [Option.bind_some]
  by_cases ho : isOption argv[o1.i] = true
  swap
  · rw [if_pos (by simp [ho])]; exact stop
  rw [if_neg (by simp [ho])]
  have ha : argv[o1.i]? = some argv[o1.i] := List.getElem?_eq_getElem hi'
  generalize argv[o1.i] = a at ha ho
  have hz := i1.zero a (List.mem_of_getElem? ha)
  match a, ho with
  | c :: d :: t, ho =>
    have hc : c = dash := by simpa [isOption] using ho
    have e1 : argCh argv o1.i 1 = some d := by unfold argCh; rw [ha]; simp [chr]
    rw [e1]
    simp only [Option.bind_some]
    by_cases hd : d = dash
    · rw [if_pos hd]
      cases t with
      | nil =>
        have e2 : argCh argv o1.i 2 = some 0 := by unfold argCh; rw [ha]; simp [chr]
        rw [e2]
        simp only [Option.bind_some, if_true]
        obtain ⟨v, g1, g2, g3⟩ := permute_safe i1.nargs hi'
        rw [g1]
        have hp : o1.pos = 0 := by
          rcases i1.pos with hp | ⟨b, hb, _, hp⟩
          · exact hp
          · rw [ha, Option.some.injEq] at hb
            subst hb
            rcases hp with ⟨_, hl⟩ | ⟨_, _, hl⟩
            · simp [isLong] at hl
            · simp [hd] at hl
        have := i1.nargs
        have hl := g2.length_eq
        exact ⟨_, _, v, rfl, ⟨fun a m => i1.zero a (g2.mem_iff.1 m), by simp only; omega, by simp only; omega, by simp only; omega, Or.inl hp⟩, g2, g3⟩
      | cons e t =>
        have e2 : argCh argv o1.i 2 = some e := by unfold argCh; rw [ha]; simp [chr]
        rw [e2]
        have : e ≠ 0 := by intro h0; exact hz (by simp [h0])
        simp only [Option.bind_some, this, if_false]
        exact getLong_safe longs i2 ha (by simp [isLong, hc, hd])
    · rw [if_neg hd]
      cases shorts with
      | some s => exact getShort_safe s i2 ha ho (by simpa using hd)
      | none =>
        refine finish_safe i1.zero i1.nargs (Nat.le_refl _) hi' ?_
        rcases i1.pos with hp | ⟨b, hb, hob, hp⟩
        · exact Or.inr (Or.inl hp)
        · rw [ha, Option.some.injEq] at hb
          subst hb
          rcases hp with ⟨hp, _⟩ | ⟨hp, hl, hl'⟩
          · exact Or.inl (by simp only; omega)
          · exact Or.inr (Or.inr ⟨_, ha, hob, hp, Nat.le_of_lt hl, hl'⟩)

/-- A program calling `coption_get` as it likes: each call with its own specifications. -/
def calls : List (Option Str × Option (List Long)) → Opt → List Str → Option (Opt × List Str)
  | [], o, argv => some (o, argv)
  | s :: ss, o, argv => (get o argv s.1 s.2).bind fun r => calls ss r.2.1 r.2.2

theorem calls_safe : ∀ (ss : List (Option Str × Option (List Long))) {o : Opt} {argv : List Str}, Inv o argv →
    ∃ o' v, calls ss o argv = some (o', v) ∧ Inv o' v ∧ v.Perm argv ∧ v.head? = argv.head?
  | [], o, argv, h => ⟨o, argv, rfl, h, List.Perm.refl _, rfl⟩
  | s :: ss, o, argv, h => by
    obtain ⟨c, o1, v, h1, h2, h3, h4⟩ := get_safe s.1 s.2 h
    obtain ⟨o2, w, g1, g2, g3, g4⟩ := calls_safe ss h2
    exact ⟨o2, w, by rw [calls, h1]; exact g1, g2, g3.trans h3, g4.trans h4⟩

/-! ### calls after the end -/

theorem finish_val {argv : List Str} {o : Opt} {i0 : Nat} {c : Int} {r : Int × Opt × List Str} (h : finish argv o i0 c = some r) : r.1 = c := by
  unfold finish at h
  simp only [Option.bind_eq_bind, Option.bind_eq_some_iff] at h
  obtain ⟨b, _, h⟩ := h
  cases b with
  | true =>
    simp only [if_true, Option.bind_eq_some_iff] at h
    obtain ⟨v, _, h⟩ := h
    cases h; rfl
  | false => cases h; rfl

theorem findLong_mem {name : Str} {m : Nat} {l0 : List Long} : ∀ (ls : List Long) {r r' : Found}, findLong name m ls r = some r' → (∀ l ∈ ls, l ∈ l0) →
    (∀ l, r.exact = some l ∨ r.part = some l → l ∈ l0) → ∀ l, r'.exact = some l ∨ r'.part = some l → l ∈ l0
  | [], r, r', h, _, hr => by cases h; exact hr
  | x :: ls, r, r', h, hm, hr => by
    rw [findLong] at h
    have hm' : ∀ l ∈ ls, l ∈ l0 := fun l hl => hm l (by simp [hl])
    have hx := hm x (by simp)
    split at h
    · rw [Option.bind_eq_some_iff] at h
      obtain ⟨c, _, h⟩ := h
      refine findLong_mem ls h hm' ?_
      intro l hl
      split at hl
      · rcases hl with hl | hl
        · cases hl; exact hx
        · exact hr l (Or.inr hl)
      · rcases hl with hl | hl
        · exact hr l (Or.inl hl)
        · cases hl; exact hx
    · exact findLong_mem ls h hm' hr

theorem longArg_val {argv : List Str} {o : Opt} {a : Str} {j : Nat} {l : Long} {q : Opt × Int} (h : longArg argv o a j l = some q) : q.2 = l.val ∨ q.2 = colon := by
  unfold longArg at h
  simp only [Option.bind_eq_bind, Option.bind_eq_some_iff] at h
  obtain ⟨c, _, h⟩ := h
  split at h
  · split at h
    · cases h; exact Or.inl rfl
    · split at h
      · simp only [Option.bind_eq_some_iff] at h
        obtain ⟨d, _, h⟩ := h
        split at h
        · simp only [Option.bind_eq_some_iff] at h
          obtain ⟨x, _, h⟩ := h
          cases h; exact Or.inl rfl
        · cases h; exact Or.inl rfl
      · split at h <;> cases h
        · exact Or.inr rfl
        · exact Or.inl rfl
  · cases h; exact Or.inl rfl

theorem getLong_val {argv : List Str} {o : Opt} {longs : Option (List Long)} {r : Int × Opt × List Str} (h : getLong argv o longs = some r)
    (hv : ∀ ls, longs = some ls → ∀ l ∈ ls, l.val ≠ -1) : r.1 ≠ -1 := by
  unfold getLong at h
  cases longs with
  | none => rw [finish_val h]; decide
  | some ls =>
    simp only [Option.bind_eq_bind, Option.bind_eq_some_iff] at h
    obtain ⟨a, _, f, hf, h⟩ := h
    have hmem := findLong_mem (l0 := ls) ls hf (fun _ h => h) (by simp)
    split at h
    · cases h; simp [quest]
    · split at h
      · rw [finish_val h]; decide
      next l hl =>
        rw [Option.bind_eq_some_iff] at h
        obtain ⟨q, hq, h⟩ := h
        rw [finish_val h]
        have : l ∈ ls := by
          split at hl
          · exact hmem l (Or.inl hl)
          · split at hl
            · exact hmem l (Or.inr hl)
            · cases hl
        rcases longArg_val hq with e | e
        · rw [e]; exact hv ls rfl l this
        · rw [e]; decide

theorem shortArg_val {argv : List Str} {o : Opt} {p2 : Nat} {q : Opt × Int} (h : shortArg argv o p2 = some q) : q.2 = o.opt ∨ q.2 = colon := by
  unfold shortArg at h
  simp only [Option.bind_eq_bind, Option.bind_eq_some_iff] at h
  obtain ⟨c, _, a, _, h⟩ := h
  split at h
  · cases h; exact Or.inl rfl
  · split at h
    · simp only [Option.bind_eq_some_iff] at h
      obtain ⟨d, _, h⟩ := h
      split at h
      · simp only [Option.bind_eq_some_iff] at h
        obtain ⟨x, _, h⟩ := h
        cases h; exact Or.inl rfl
      · cases h; exact Or.inl rfl
    · split at h <;> cases h
      · exact Or.inr rfl
      · exact Or.inl rfl

theorem getShort_val {argv : List Str} {o : Opt} {s : Str} {r : Int × Opt × List Str} (h : getShort argv o s = some r) : r.1 ≠ -1 := by
  unfold getShort at h
  simp only [Option.bind_eq_bind, Option.bind_eq_some_iff] at h
  obtain ⟨c, _, h⟩ := h
  split at h
  · rw [finish_val h]; decide
  · split at h
    · rw [Option.bind_eq_some_iff] at h
      obtain ⟨q, hq, h⟩ := h
      rw [finish_val h]
      rcases shortArg_val hq with e | e
      · rw [e]; simp only; omega
      · rw [e]; decide
    · rw [finish_val h]; omega

theorem skip_ends : ∀ (f : Nat) {o o' : Opt} {argv : List Str}, argv.length - o.i ≤ f → skip argv f o = some o' →
    argv.length ≤ o'.i ∨ nonOption argv o'.i = some false
  | 0, o, o', argv, hf, h => by cases h; exact Or.inl (by omega)
  | f + 1, o, o', argv, hf, h => by
    rw [skip] at h
    by_cases hi : o.i < argv.length
    · rw [if_pos hi, Option.bind_eq_some_iff] at h
      obtain ⟨b, hb, h⟩ := h
      cases b with
      | true => exact skip_ends f (by simp only; omega) h
      | false => cases h; exact Or.inr hb
    · rw [if_neg hi] at h; cases h; exact Or.inl (by omega)

theorem skip_stays (f : Nat) {o : Opt} {argv : List Str} (h : argv.length ≤ o.i) : skip argv f o = some o := by
  cases f with
  | zero => rfl
  | succ f => rw [skip, if_neg (by omega)]

end Verif.Coption
