import Verif.Cbits.Props
/-
Bit sets of a length fixed at compile time, `#define i_type Bits, 128` (cbits.h:222-246, with the
operations shared with the dynamic ones, 251-323), and printing a bit set (cbits.h:90-100).

The object is the array of words itself, so it is never allocated and is copied by assignment. In the
model it is a `Bits` whose `size` is the declared length `L`; `L` is at least 1, so that the array
(cbits.h:226) has `nWords L` words.
-/
namespace Verif.Cbits
open Spec

/-- cbits.h:236-240 `_with_size` of the set type of length `L`: the requested size is only compared
with the length. The object on the stack holds `junk` at first. -/
def fixedWithSize (L : Nat) (junk : Nat → BitVec 64) (n : Nat) (v : Bool) : Option Bits :=
  if n ≤ L then setAll (fresh junk L) v else none

/-- cbits.h:242-246 `_with_pattern` of the set type of length `L`. -/
def fixedWithPattern (L : Nat) (junk : Nat → BitVec 64) (n : Nat) (p : BitVec 64) : Option Bits :=
  if n ≤ L then setPattern (fresh junk L) p else none

/-- cbits.h:283-288 `_from` of the set type of length `L`. -/
def fixedFrom (L : Nat) (junk : Nat → BitVec 64) (str : List Char) : Option Bits :=
  (fixedWithSize L junk str.length false).bind fun s => fromLoop str str.length s

/-- cbits.h:230-232 `_move`, `_take`, `_clone`, `_copy`: the new contents of the set `self`, given the
other one. -/
def fixedAssign (_self other : Bits) : Bits := other

/-- cbits.h:259-260 `_test` with any index: the division truncates towards zero, so that indices from
-63 to -1 read the first word. -/
def testI (s : Bits) (i : Int) : Option Bool :=
  if i.tdiv 64 < 0 then none
  else (s.words[(i.tdiv 64).toNat]?).map fun w => (w &&& bit (i % 64).toNat) != 0#64

/-- cbits.h:98-99, the loop of `cbits_print`: what it writes for `n` bits from `i`. -/
def printLoop (s : Bits) : Nat → Int → Option (List Char)
  | 0, _ => some []
  | n + 1, i => (testI s i).bind fun b => (printLoop s n (i + 1)).map ((if b then '1' else '0') :: ·)

/-- cbits.h:90-100 `cbits_print`: -1 for `end` stands for the size. -/
def print (s : Bits) (start stop : Int) : Option (List Char) :=
  let stop := if stop = -1 then (s.size : Int) else stop
  printLoop s (stop - start).toNat start

/-- A call on a set of fixed length; `assign` is `_copy` or `_take`. -/
inductive FOp where
  | base (o : Op)
  | assign (o : Bits)

/-- Execute one call. -/
def fstep (s : Bits) : FOp → Option Bits
  | .base o => (step s o).map (·.1)
  | .assign o => some (fixedAssign s o)

namespace Spec

/-- the calls that exist for sets of fixed length: all but `resize`; copying is `assign`. -/
def fixedOp : Op → Prop
  | .resize .. => False
  | .copy _ => False
  | _ => True

/-- Histories of one set of the type of length `L`. -/
inductive FReach (L : Nat) : Bits → List Bool → Prop
  | withSize {junk n v s} : fixedWithSize L junk n v = some s → FReach L s (List.replicate L v)
  | withPattern {junk n p s} : fixedWithPattern L junk n p = some s →
      FReach L s ((List.range L).map fun i => p.getLsbD (i % 64))
  | fromStr {junk str s} : fixedFrom L junk str = some s →
      FReach L s (str.map (· == '1') ++ List.replicate (L - str.length) false)
  | call {s s' bs o} : FReach L s bs → fixedOp o → valid bs o → fstep s (.base o) = some s' →
      FReach L s' (after bs o)
  | assign {s o s' bs os} : FReach L s bs → FReach L o os → fstep s (.assign o) = some s' → FReach L s' os

end Spec

/-- Every well formed set is the result of copying. -/
theorem wf_reach {s : Bits} (h : WF s) : Reach s (bitsOf s) := by
  obtain ⟨s', r, e, w, b, _⟩ := step_spec (s := ⟨[], 0⟩) rfl (.copy s) h
  have : s' = s := by
    simp only [step, copy, clone] at e
    obtain ⟨ws, n⟩ := s
    simp only [WF] at h
    split at e
    · simp at e; obtain ⟨rfl, _⟩ := e; simp [← h]
    · rename_i hn
      simp at e hn; subst hn; obtain ⟨rfl, _⟩ := e; simp [← h]
  subst this
  exact .call (o := .copy s') .init h e

theorem fixedFrom_spec {L : Nat} (junk : Nat → BitVec 64) {str : List Char} (h : str.length ≤ L) :
    ∃ s, fixedFrom L junk str = some s ∧ WF s ∧ s.size = L ∧
      bitsOf s = str.map (· == '1') ++ List.replicate (L - str.length) false := by
  obtain ⟨s1, e1, w1, z1, b1⟩ := setAll_spec (wf_fresh junk L) false
  have z1' : s1.size = L := z1
  obtain ⟨s2, e2, w2, z2, b2⟩ := fromLoop_spec str str.length s1 w1 (by omega) (Nat.le_refl _)
  refine ⟨s2, by simp [fixedFrom, fixedWithSize, h, e1, e2], w2, by omega, ?_⟩
  apply List.ext_getElem (by simp [length_bitsOf]; omega)
  intro i h1 h2
  have hi : i < L := by simp at h2; omega
  have := b2 i false (by rw [b1, List.getElem?_replicate, if_pos (by simpa [fresh] using hi)])
  rw [List.getElem?_eq_getElem h1] at this
  by_cases hlt : i < str.length
  · rw [List.getElem_append_left (by simpa using hlt)]
    simp [hlt] at this
    rw [this]; simp
  · rw [List.getElem_append_right (by simpa using hlt)]
    simpa [hlt] using this

theorem freach_inv {L : Nat} {s : Bits} {bs : List Bool} (h : FReach L s bs) :
    WF s ∧ s.size = L ∧ bitsOf s = bs := by
  induction h with
  | @withSize junk n v s e =>
    unfold fixedWithSize at e
    split at e <;> try cases e
    obtain ⟨s', e', w, z, b⟩ := setAll_spec (wf_fresh junk L) v
    rw [e'] at e; cases e
    exact ⟨w, z, b⟩
  | @withPattern junk n p s e =>
    unfold fixedWithPattern at e
    split at e <;> try cases e
    obtain ⟨s', e', w, z, b⟩ := setPattern_spec (wf_fresh junk L) p
    rw [e'] at e; cases e
    exact ⟨w, z, b⟩
  | @fromStr junk str s e =>
    have hle : str.length ≤ L := by
      by_contra hc
      simp [fixedFrom, fixedWithSize, hc] at e
    obtain ⟨s', e', w, z, b⟩ := fixedFrom_spec junk hle
    rw [e'] at e; cases e
    exact ⟨w, z, b⟩
  | @call s s' bs o _ ho hv e ih =>
    obtain ⟨hw, hz, rfl⟩ := ih
    obtain ⟨s1, r, e1, w, b, _⟩ := step_spec hw o hv
    simp only [fstep, e1, Option.map_some, Option.some.injEq] at e
    subst e
    refine ⟨w, ?_, b⟩
    have := congrArg List.length b
    rw [length_bitsOf] at this
    rw [this]
    cases o <;> simp_all [after, fixedOp, valid, length_bitsOf]
  | @assign s o s' bs os _ _ e _ ih =>
    simp only [fstep, fixedAssign, Option.some.injEq] at e
    subst e; exact ih

/-- A set of fixed length is as good as a dynamic one of that size. -/
theorem freach_reach {L : Nat} {s : Bits} {bs : List Bool} (h : FReach L s bs) : Reach s bs ∧ bs.length = L := by
  obtain ⟨w, z, rfl⟩ := freach_inv h
  exact ⟨wf_reach w, by rw [length_bitsOf, z]⟩

/-- C156. After any history of valid calls a set of the type of length `L` holds exactly the `L`
booleans the calls describe, whatever its memory held before it was made; its size is always `L`, and
`test`, `at`, `count` and `to_str` answer accordingly. Every further valid call is defined. Two such
sets are compared as sets, and assigning one to the other makes it hold the same booleans. -/
theorem cbits_fixed {L : Nat} {s : Bits} {bs : List Bool} (h : FReach L s bs) :
    bs.length = L ∧ s.size = L ∧
    (∀ i, i < L → test s i = bs[i]?) ∧ (∀ i, at' s i = bs[i]?) ∧ count s = some (bs.count true) ∧
    (∀ start stop, start ≤ stop → start ≤ L →
      toStr s start stop = some (((bs.take stop).drop start).map fun b => if b then '1' else '0')) ∧
    (∀ o, fixedOp o → valid bs o → ∃ s', fstep s (.base o) = some s' ∧ FReach L s' (after bs o)) ∧
    (∀ o os, FReach L o os →
      (∃ s', fstep s (.assign o) = some s' ∧ FReach L s' os) ∧
      (∃ r, disjoint s o = some r ∧ (r = true ↔ ∀ i : Nat, ¬ (bs[i]? = some true ∧ os[i]? = some true))) ∧
      (∃ r, subsetOf s o = some r ∧ (r = true ↔ ∀ i : Nat, os[i]? = some true → bs[i]? = some true))) := by
  obtain ⟨hr, hl⟩ := freach_reach h
  obtain ⟨h1, h2, h3, h4⟩ := cbits_list hr
  refine ⟨hl, by omega, fun i hi => h2 i (by omega), h3, cbits_count hr,
    fun a b hab ha => (cbits_string hr).1 a b hab (by omega), fun o ho hv => ?_, fun o os hos => ?_⟩
  · obtain ⟨s', r, e, _⟩ := h4 o hv
    have e' : fstep s (.base o) = some s' := by simp [fstep, e]
    exact ⟨s', e', .call h ho hv e'⟩
  · obtain ⟨hro, hlo⟩ := freach_reach hos
    exact ⟨⟨o, rfl, .assign h hos rfl⟩, (cbits_algebra hr hro (by omega)).2.2.2,
      cbits_subset_partial hr hro (by omega)⟩

/-- C156, how sets of fixed length are made: a requested size or a text longer than `L` is refused; a
text shorter than `L` is followed by zeros. -/
theorem cbits_fixed_make (L : Nat) (junk : Nat → BitVec 64) :
    (∀ n v, n ≤ L → ∃ s, fixedWithSize L junk n v = some s ∧ FReach L s (List.replicate L v)) ∧
    (∀ n p, n ≤ L → ∃ s, fixedWithPattern L junk n p = some s ∧
      FReach L s ((List.range L).map fun i => p.getLsbD (i % 64))) ∧
    (∀ str : List Char, str.length ≤ L → ∃ s, fixedFrom L junk str = some s ∧
      FReach L s (str.map (· == '1') ++ List.replicate (L - str.length) false)) ∧
    (∀ n, L < n → (∀ v, fixedWithSize L junk n v = none) ∧ (∀ p, fixedWithPattern L junk n p = none) ∧
      (∀ str : List Char, str.length = n → fixedFrom L junk str = none)) := by
  refine ⟨fun n v h => ?_, fun n p h => ?_, fun str h => ?_, fun n h => ⟨fun v => ?_, fun p => ?_, fun str hs => ?_⟩⟩
  · obtain ⟨s, e, _⟩ := setAll_spec (wf_fresh junk L) v
    have e' : fixedWithSize L junk n v = some s := by rw [fixedWithSize, if_pos h, e]
    exact ⟨s, e', .withSize e'⟩
  · obtain ⟨s, e, _⟩ := setPattern_spec (wf_fresh junk L) p
    have e' : fixedWithPattern L junk n p = some s := by rw [fixedWithPattern, if_pos h, e]
    exact ⟨s, e', .withPattern e'⟩
  · obtain ⟨s, e, _⟩ := fixedFrom_spec junk h
    exact ⟨s, e, .fromStr e⟩
  · exact if_neg (by omega)
  · exact if_neg (by omega)
  · rw [fixedFrom, fixedWithSize, if_neg (by omega)]; rfl

/-- A set of the type of length 70 made from a text of three characters, flipped as a whole. -/
example : ∃ s, FReach 70 s (List.map (!·) ([true, false, true] ++ List.replicate 67 false)) ∧
    count s = some 68 ∧ test s 69 = some true := by
  obtain ⟨s, _, h⟩ := (cbits_fixed_make 70 fun _ => 0xdeadbeef#64).2.2.1 ['1', '0', '1'] (by decide)
  obtain ⟨s', _, h'⟩ := (cbits_fixed h).2.2.2.2.2.2.1 .flipAll trivial trivial
  have := cbits_fixed h'
  exact ⟨s', h', by rw [this.2.2.2.2.1]; decide, by rw [this.2.2.1 69 (by decide)]; decide⟩

/-- C156, refutation of the size argument's meaning: the set made by `with_size(n, true)` holds `L`
ones, however small `n` is; a dynamic set made by the same call holds `n`. -/
theorem cbits_fixed_size_ignored (L n : Nat) (h : n < L) (junk : Nat → BitVec 64) :
    ∃ s d, fixedWithSize L junk n true = some s ∧ withSize true junk n true = some d ∧
      count s = some L ∧ count d = some n := by
  obtain ⟨s, e, hs⟩ := (cbits_fixed_make L junk).1 n true (by omega)
  obtain ⟨d, e', _⟩ := setAll_spec (wf_fresh junk n) true
  have ed : withSize true junk n true = some d := by simpa [withSize] using e'
  refine ⟨s, d, e, ed, ?_, ?_⟩
  · rw [(cbits_fixed hs).2.2.2.2.1, List.count_replicate_self]
  · rw [cbits_count (.withSize ed), List.count_replicate_self]

example : ∃ s d, fixedWithSize 100 (fun _ => 7#64) 3 true = some s ∧ withSize true (fun _ => 7#64) 3 true = some d ∧
    count s = some 100 ∧ count d = some 3 := cbits_fixed_size_ignored 100 3 (by decide) _

/-! ### printing -/

theorem testI_nat (s : Bits) (i : Nat) : testI s i = test s i := by
  have h1 : (i : Int).tdiv 64 = ((i / 64 : Nat) : Int) := by
    rw [Int.tdiv_eq_ediv_of_nonneg (by omega)]; omega
  have h2 : ((i : Int) % 64).toNat = i % 64 := by omega
  rw [testI, h1, if_neg (by omega), Int.toNat_natCast, h2, test]
  have hb : bit (i % 64) = bit i := by simp [bit]
  cases s.words[i / 64]? <;> simp [hb]

theorem printLoop_spec {s : Bits} {bs : List Bool} (h : Reach s bs) : ∀ (n i : Nat), i + n ≤ bs.length →
    printLoop s n i = some (((bs.drop i).take n).map fun b => if b then '1' else '0')
  | 0, i, _ => by simp [printLoop]
  | n + 1, i, hn => by
    have hi : i < bs.length := by omega
    have := printLoop_spec h n (i + 1) (by omega)
    rw [printLoop, testI_nat, (cbits_list h).2.1 i hi, List.getElem?_eq_getElem hi,
      show (i : Int) + 1 = ((i + 1 : Nat) : Int) by omega]
    rw [List.drop_eq_getElem_cons hi, List.take_succ_cons, List.map_cons, Option.bind_some, this]
    rfl

/-- C157 (partial: the part printed lies within the set). `cbits_print` writes one '0' or '1' for every
bit of the part, the same characters as `to_str`; without a range, or with -1 as its end, it goes up to
the last bit. -/
theorem cbits_print_partial {s : Bits} {bs : List Bool} (h : Reach s bs) :
    (∀ start stop : Nat, start ≤ stop → stop ≤ bs.length →
      print s start stop = some (((bs.take stop).drop start).map fun b => if b then '1' else '0') ∧
      print s start stop = toStr s start stop) ∧
    (∀ start : Nat, print s start (-1) = some ((bs.drop start).map fun b => if b then '1' else '0')) := by
  constructor
  · intro start stop h1 h2
    have : print s start stop = some (((bs.take stop).drop start).map fun b => if b then '1' else '0') := by
      simp only [print, if_neg (show ¬ ((stop : Int) = -1) by omega)]
      rw [show ((stop : Int) - start).toNat = stop - start by omega, printLoop_spec h _ _ (by omega), List.drop_take]
    exact ⟨this, by rw [this, (cbits_string h).1 start stop h1 (by omega)]⟩
  · intro start
    simp only [print, if_pos, (cbits_list h).1]
    by_cases hs : start ≤ bs.length
    · rw [show ((bs.length : Int) - start).toNat = bs.length - start by omega, printLoop_spec h _ _ (by omega),
        List.take_of_length_le (by simp)]
    · rw [show ((bs.length : Int) - start).toNat = 0 by omega, List.drop_eq_nil_of_le (by omega)]
      rfl

example : ∃ s, Reach s ((List.replicate 70 true).set 64 false) ∧ print s 62 (-1) = some "11011111".toList := by
  obtain ⟨s, h⟩ := reach70
  exact ⟨s, h, by rw [show (62 : Int) = ((62 : Nat) : Int) from rfl, (cbits_print_partial h).2 62]; decide⟩

/-- C157, refutation beyond the set: `to_str` stops at the last bit, but `cbits_print` goes on: a set of
three ones prints as five, past the last word the read is undefined, and index -1 prints bit 63. -/
theorem cbits_print_overruns (junk : Nat → BitVec 64) :
    ∃ s, withSize true junk 3 true = some s ∧ print s 0 5 = some "11111".toList ∧ toStr s 0 5 = some "111".toList ∧
      print s 0 65 = none ∧ print s (-1) 1 = some "11".toList := by
  refine ⟨⟨[BitVec.allOnes 64], 3⟩, ?_, by decide +kernel, by decide +kernel, by decide +kernel, by decide +kernel⟩
  simp [withSize, setAll, fresh, nWords, fillWord, downLoop]

end Verif.Cbits
