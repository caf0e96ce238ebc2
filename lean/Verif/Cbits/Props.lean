import Verif.Cbits.Lemmas
/- C31-C35, C76, C77: bit sets. -/
namespace Verif.Cbits
open Spec

theorem step_spec {s : Bits} (h : WF s) (o : Op) (hv : valid (bitsOf s) o) :
    ∃ s' r, step s o = some (s', r) ∧ WF s' ∧ bitsOf s' = after (bitsOf s) o ∧ (r = false → s' = s) := by
  cases o with
  | set i =>
    obtain ⟨s', e, w, _, b⟩ := set_spec h (i := i) (by simpa [valid, length_bitsOf] using hv)
    exact ⟨s', true, by simp [step, e], w, b, by simp⟩
  | reset i =>
    obtain ⟨s', e, w, _, b⟩ := reset_spec h (i := i) (by simpa [valid, length_bitsOf] using hv)
    exact ⟨s', true, by simp [step, e], w, b, by simp⟩
  | setValue i v =>
    obtain ⟨s', e, w, _, b⟩ := setValue_spec h (i := i) (by simpa [valid, length_bitsOf] using hv) v
    exact ⟨s', true, by simp [step, e], w, b, by simp⟩
  | flip i =>
    obtain ⟨s', e, w, _, b⟩ := flip_spec h (i := i) (by simpa [valid, length_bitsOf] using hv)
    exact ⟨s', true, by simp [step, e], w, b, by simp⟩
  | flipAll =>
    obtain ⟨s', e, w, _, b⟩ := flipAll_spec h
    exact ⟨s', true, by simp [step, e], w, b, by simp⟩
  | setAll v =>
    obtain ⟨s', e, w, _, b⟩ := setAll_spec h v
    exact ⟨s', true, by simp [step, e], w, by
      rw [b]; simp only [after, List.map_const', length_bitsOf], by simp⟩
  | setPattern p =>
    obtain ⟨s', e, w, _, b⟩ := setPattern_spec h p
    refine ⟨s', true, by simp [step, e], w, ?_, by simp⟩
    rw [b]
    apply List.ext_getElem (by simp [after, length_bitsOf])
    intro i h1 h2
    simp [after]
  | intersect o =>
    obtain ⟨s', e, w, _, b⟩ := combine_spec h hv.2 (by rw [hv.1, length_bitsOf]) (· &&& ·) (· && ·)
      (fun x y j _ => BitVec.getLsbD_and)
    exact ⟨s', true, by simp [step, intersect, e], w, b, by simp⟩
  | union o =>
    obtain ⟨s', e, w, _, b⟩ := combine_spec h hv.2 (by rw [hv.1, length_bitsOf]) (· ||| ·) (· || ·)
      (fun x y j _ => BitVec.getLsbD_or)
    exact ⟨s', true, by simp [step, union, e], w, b, by simp⟩
  | xor o =>
    obtain ⟨s', e, w, _, b⟩ := combine_spec h hv.2 (by rw [hv.1, length_bitsOf]) (· ^^^ ·) (· ^^ ·)
      (fun x y j _ => BitVec.getLsbD_xor)
    exact ⟨s', true, by simp [step, xor, e], w, b, by simp⟩
  | resize ok junk n v =>
    obtain ⟨s', e, w, b1, b2⟩ := resize_spec h ok junk (n := n) hv v
    refine ⟨s', ok, e, w, ?_, b1⟩
    cases ok
    · rw [b1 rfl]; rfl
    · rw [b2 rfl]; simp [after, length_bitsOf]
  | copy o =>
    obtain ⟨s', e, w, b⟩ := copy_spec (s := s) (o := o) hv
    exact ⟨s', true, by simp [step, e], w, b, by simp⟩

theorem reach_inv {s : Bits} {bs : List Bool} (h : Reach s bs) : WF s ∧ bitsOf s = bs := by
  induction h with
  | init => exact ⟨rfl, rfl⟩
  | @withSize junk n v s e =>
    obtain ⟨s', e', w, _, b⟩ := setAll_spec (wf_fresh junk n) v
    have : s' = s := by simpa [withSize, e'] using e
    subst this
    exact ⟨w, b⟩
  | @withPattern junk n p s e =>
    obtain ⟨s', e', w, _, b⟩ := setPattern_spec (wf_fresh junk n) p
    have : s' = s := by simpa [withPattern, e'] using e
    subst this
    exact ⟨w, b⟩
  | @fromStr junk str s e =>
    obtain ⟨s', e', w, b⟩ := fromStr_spec junk str
    have : s' = s := by simpa [e'] using e
    subst this
    exact ⟨w, b⟩
  | @call s s' bs o r _ hv e ih =>
    obtain ⟨hw, rfl⟩ := ih
    obtain ⟨s1, r1, e1, w, b, _⟩ := step_spec hw o hv
    rw [e1] at e; cases e
    exact ⟨w, b⟩

/-- C31. After any history of valid calls, a bit set of any size holds exactly the list of
booleans the calls describe: its size, `test` and `at` agree with the list, bits outside it are
never read, and every further valid call is defined. -/
theorem cbits_list {s : Bits} {bs : List Bool} (h : Reach s bs) :
    s.size = bs.length ∧ (∀ i, i < bs.length → test s i = bs[i]?) ∧ (∀ i, at' s i = bs[i]?) ∧
    (∀ o, valid bs o → ∃ s' r, step s o = some (s', r) ∧ Reach s' (after bs o) ∧ (r = false → s' = s)) := by
  obtain ⟨hw, rfl⟩ := reach_inv h
  have ht : ∀ i, i < s.size → test s i = (bitsOf s)[i]? := fun i hi => by
    rw [test_spec hw hi, getElem?_bitsOf s i hi]
  refine ⟨(length_bitsOf s).symm, ?_, ?_, ?_⟩
  · intro i hi; exact ht i (by rwa [length_bitsOf] at hi)
  · intro i
    unfold at'
    split
    · rename_i hi; exact ht i hi
    · rename_i hi; rw [List.getElem?_eq_none (by rw [length_bitsOf]; omega)]
  · intro o hv
    obtain ⟨s', r, e, _, _, h3⟩ := step_spec hw o hv
    exact ⟨s', r, e, .call h hv e, h3⟩

/-- A 70-bit set (two words) with garbage in new memory, all bits set, one cleared and one
flipped back. -/
theorem reach70 : ∃ s, Reach s ((List.replicate 70 true).set 64 false) := by
  obtain ⟨s, e, _⟩ := setAll_spec (wf_fresh (fun _ => 0xdeadbeef#64) 70) true
  have h0 : Reach s (List.replicate 70 true) := .withSize (junk := fun _ => 0xdeadbeef#64) (by simpa [withSize] using e)
  obtain ⟨s', r, _, h1, _⟩ := (cbits_list h0).2.2.2 (.reset 64) (by decide)
  exact ⟨s', h1⟩

example : ∃ s, Reach s ((List.replicate 70 true).set 64 false) ∧ test s 64 = some false ∧
    test s 65 = some true ∧ at' s 70 = none := by
  obtain ⟨s, h⟩ := reach70
  have := cbits_list h
  exact ⟨s, h, this.2.1 64 (by decide), this.2.1 65 (by decide), this.2.2.1 70⟩

/-- The effect of the point operations, read back through `test`: exactly bit `i` changes. -/
theorem cbits_point {s : Bits} {bs : List Bool} (h : Reach s bs) {i : Nat} (hi : i < bs.length) (v : Bool) :
    (∃ s', set s i = some s' ∧ ∀ j, j < bs.length → test s' j = if j = i then some true else test s j) ∧
    (∃ s', reset s i = some s' ∧ ∀ j, j < bs.length → test s' j = if j = i then some false else test s j) ∧
    (∃ s', setValue s i v = some s' ∧ ∀ j, j < bs.length → test s' j = if j = i then some v else test s j) ∧
    (∃ s', flip s i = some s' ∧ ∀ j, j < bs.length →
      test s' j = if j = i then (test s i).map (!·) else test s j) ∧
    (∃ s', flipAll s = some s' ∧ ∀ j, j < bs.length → test s' j = (test s j).map (!·)) ∧
    (∃ s', setAll s v = some s' ∧ ∀ j, j < bs.length → test s' j = some v) := by
  obtain ⟨hw, rfl⟩ := reach_inv h
  have hi' : i < s.size := by rwa [length_bitsOf] at hi
  have key : ∀ s', WF s' → s'.size = s.size → ∀ j, j < (bitsOf s).length → test s' j = (bitsOf s')[j]? :=
    fun s' w z j hj => by
      rw [length_bitsOf] at hj
      rw [test_spec w (by omega), getElem?_bitsOf s' j (by omega)]
  have pt : ∀ s' b, WF s' → s'.size = s.size → bitsOf s' = (bitsOf s).set i b → ∀ j, j < (bitsOf s).length →
      test s' j = if j = i then some b else test s j := fun s' b w z e j hj => by
    rw [key s' w z j hj, key s hw rfl j hj, e]
    split
    · rename_i hji; subst hji; rw [List.getElem?_set_self hj]
    · rename_i hji; rw [List.getElem?_set_ne (Ne.symm hji)]
  refine ⟨?_, ?_, ?_, ?_, ?_, ?_⟩
  · obtain ⟨s', e, w, z, b⟩ := set_spec hw hi'; exact ⟨s', e, pt s' _ w z b⟩
  · obtain ⟨s', e, w, z, b⟩ := reset_spec hw hi'; exact ⟨s', e, pt s' _ w z b⟩
  · obtain ⟨s', e, w, z, b⟩ := setValue_spec hw hi' v; exact ⟨s', e, pt s' _ w z b⟩
  · obtain ⟨s', e, w, z, b⟩ := flip_spec hw hi'
    refine ⟨s', e, fun j hj => ?_⟩
    rw [key s' w z j hj, b, key s hw rfl j hj, key s hw rfl i hi, List.getElem?_modify]
    by_cases hji : j = i
    · subst hji; simp
    · simp [hji, Ne.symm hji]
  · obtain ⟨s', e, w, z, b⟩ := flipAll_spec hw
    refine ⟨s', e, fun j hj => ?_⟩
    rw [key s' w z j hj, b, key s hw rfl j hj, List.getElem?_map]
  · obtain ⟨s', e, w, z, b⟩ := setAll_spec hw v
    refine ⟨s', e, fun j hj => ?_⟩
    rw [key s' w z j hj, b, List.getElem?_replicate, if_pos (by rwa [length_bitsOf] at hj)]

example : ∃ s s', Reach s ((List.replicate 70 true).set 64 false) ∧ flip s 69 = some s' ∧
    test s' 69 = some false := by
  obtain ⟨s, h⟩ := reach70
  obtain ⟨s', e, he⟩ := (cbits_point h (i := 69) (by decide) true).2.2.2.1
  refine ⟨s, s', h, e, ?_⟩
  rw [he 69 (by decide), if_pos rfl, (cbits_list h).2.1 69 (by decide)]
  rfl

/-- C32. `count` is the number of indices below the size whose bit is set, whatever operations
produced the set (bits past the end in the last word do not matter). -/
theorem cbits_count {s : Bits} {bs : List Bool} (h : Reach s bs) : count s = some (bs.count true) := by
  obtain ⟨hw, rfl⟩ := reach_inv h
  exact count_spec hw

/-- 69 of 70 bits set although both words are all ones except one bit. -/
example : ∃ s, Reach s ((List.replicate 70 true).set 64 false) ∧ count s = some 69 := by
  obtain ⟨s, h⟩ := reach70
  exact ⟨s, h, by rw [cbits_count h]; decide⟩

/-- C77. The portable population count agrees with the number of one bits for all 2^64 words. -/
theorem popcount_portable (w : BitVec 64) :
    popcountPortable w = ((List.range 64).filter (fun i => w.getLsbD i)).length :=
  popcountPortable_eq w

example : popcountPortable 0xdeadbeefcafef00d#64 = 42 := by rw [popcount_portable]; decide

/-- C33. Union, intersection and symmetric difference of two sets of the same size are the
bitwise ones, and `disjoint` holds exactly when there is no common index. -/
theorem cbits_algebra {s o : Bits} {bs os : List Bool} (h : Reach s bs) (ho : Reach o os)
    (hl : bs.length = os.length) :
    (∃ s', union s o = some s' ∧ Reach s' (List.zipWith (· || ·) bs os)) ∧
    (∃ s', intersect s o = some s' ∧ Reach s' (List.zipWith (· && ·) bs os)) ∧
    (∃ s', xor s o = some s' ∧ Reach s' (List.zipWith (· ^^ ·) bs os)) ∧
    (∃ r, disjoint s o = some r ∧ (r = true ↔ ∀ i : Nat, ¬ (bs[i]? = some true ∧ os[i]? = some true))) := by
  obtain ⟨hw, rfl⟩ := reach_inv h
  obtain ⟨hwo, rfl⟩ := reach_inv ho
  have hz : o.size = s.size := by simpa [length_bitsOf] using hl.symm
  have hv : o.size = (bitsOf s).length ∧ WF o := ⟨by rw [length_bitsOf]; exact hz, hwo⟩
  refine ⟨?_, ?_, ?_, ?_⟩
  · obtain ⟨s', e, w, z, b⟩ := combine_spec hw hwo hz (· ||| ·) (· || ·) (fun x y j _ => BitVec.getLsbD_or)
    exact ⟨s', e, .call (o := .union o) h hv (r := true) (by simp [step, union, e])⟩
  · obtain ⟨s', e, w, z, b⟩ := combine_spec hw hwo hz (· &&& ·) (· && ·) (fun x y j _ => BitVec.getLsbD_and)
    exact ⟨s', e, .call (o := .intersect o) h hv (r := true) (by simp [step, intersect, e])⟩
  · obtain ⟨s', e, w, z, b⟩ := combine_spec hw hwo hz (· ^^^ ·) (· ^^ ·) (fun x y j _ => BitVec.getLsbD_xor)
    exact ⟨s', e, .call (o := .xor o) h hv (r := true) (by simp [step, xor, e])⟩
  · obtain ⟨r, e, hr⟩ := disjoint_spec hw hwo hz.symm
    refine ⟨r, e, hr.trans ⟨fun H i hi => ?_, fun H i hi hb => ?_⟩⟩
    · have hlt : i < s.size := by
        have := (List.getElem?_eq_some_iff.1 hi.1).1; rwa [length_bitsOf] at this
      rw [getElem?_bitsOf s i hlt, getElem?_bitsOf o i (by omega)] at hi
      exact H i hlt ⟨by simpa using hi.1, by simpa using hi.2⟩
    · exact H i ⟨by rw [getElem?_bitsOf s i hi, hb.1], by rw [getElem?_bitsOf o i (by omega), hb.2]⟩

example : ∃ s o, Reach s ([true, false, true].map id) ∧ Reach o [false, true, false] ∧
    disjoint s o = some true := by
  have h1 : ∃ s, Reach s ([true, false, true].map id) := by
    obtain ⟨s, e, _⟩ := fromStr_spec (fun _ => 5#64) ['1', '0', '1']; exact ⟨s, .fromStr e⟩
  have h2 : ∃ s, Reach s [false, true, false] := by
    obtain ⟨s, e, _⟩ := fromStr_spec (fun _ => 5#64) ['0', '1', '0']; exact ⟨s, .fromStr e⟩
  obtain ⟨s, h1⟩ := h1; obtain ⟨o, h2⟩ := h2
  obtain ⟨r, e, hr⟩ := (cbits_algebra h1 h2 rfl).2.2.2
  refine ⟨s, o, h1, h2, ?_⟩
  rw [e, hr.2]
  rintro (_ | _ | _ | i) <;> simp

/-- C34 (partial). What `subset_of(self, other)` computes: true exactly when every bit set in
`other` is set in `self`. The documented direction is the opposite one and fails: see
`cbits_subset_reversed`. -/
theorem cbits_subset_partial {s o : Bits} {bs os : List Bool} (h : Reach s bs) (ho : Reach o os)
    (hl : bs.length = os.length) :
    ∃ r, subsetOf s o = some r ∧ (r = true ↔ ∀ i : Nat, os[i]? = some true → bs[i]? = some true) := by
  obtain ⟨hw, rfl⟩ := reach_inv h
  obtain ⟨hwo, rfl⟩ := reach_inv ho
  have hz : s.size = o.size := by simpa [length_bitsOf] using hl
  obtain ⟨r, e, hr⟩ := subsetOf_spec hw hwo hz
  refine ⟨r, e, hr.trans ⟨fun H i hi => ?_, fun H i hi hb => ?_⟩⟩
  · have hlt : i < o.size := by
      have := (List.getElem?_eq_some_iff.1 hi).1; rwa [length_bitsOf] at this
    rw [getElem?_bitsOf o i hlt] at hi
    rw [getElem?_bitsOf s i (by omega), H i (by omega) (by simpa using hi)]
  · have := H i (by rw [getElem?_bitsOf o i (by omega), hb])
    rw [getElem?_bitsOf s i hi] at this
    simpa using this

/-- C34, refutation of the documented direction: `{}` is a subset of `{0}` but
`subset_of({}, {0})` is false, and `{0}` is not a subset of `{}` but the answer is true. -/
theorem cbits_subset_reversed :
    ∃ e f : Bits, Reach e [false] ∧ Reach f [true] ∧ subsetOf e f = some false ∧ subsetOf f e = some true :=
  ⟨⟨[0#64], 1⟩, ⟨[0xffffffffffffffff#64], 1⟩,
    .withSize (junk := fun _ => 7#64) (n := 1) (v := false) rfl,
    .withSize (junk := fun _ => 7#64) (n := 1) (v := true) rfl, by decide, by decide⟩

/-- C35. Resizing to a positive size keeps the bits below both sizes and gives every new bit the
requested value, whatever the operations before left behind in the last word; a failed
reallocation changes nothing. -/
theorem cbits_resize {s : Bits} {bs : List Bool} (h : Reach s bs) (ok : Bool) (junk : Nat → BitVec 64)
    {n : Nat} (hn : 0 < n) (v : Bool) :
    ∃ s', resize ok junk s n v = some (s', ok) ∧ (ok = false → s' = s) ∧
      (ok = true → s'.size = n ∧ ∀ i, i < n → test s' i = if i < bs.length then test s i else some v) := by
  obtain ⟨hw, rfl⟩ := reach_inv h
  obtain ⟨s', e, w, b1, b2⟩ := resize_spec hw ok junk hn v
  refine ⟨s', e, b1, fun hok => ?_⟩
  have hz : s'.size = n := by
    have := congrArg List.length (b2 hok)
    rw [length_bitsOf] at this
    simp [length_bitsOf] at this
    omega
  refine ⟨hz, fun i hi => ?_⟩
  rw [test_spec w (by omega), ← getElem?_bitsOf s' i (by omega), b2 hok, length_bitsOf]
  split
  · rename_i hlt
    rw [List.getElem?_append_left (by simp [length_bitsOf]; omega), List.getElem?_take_of_lt hi,
      getElem?_bitsOf s i hlt, test_spec hw hlt]
  · rename_i hlt
    rw [List.getElem?_append_right (by simp [length_bitsOf]; omega), List.getElem?_replicate, if_pos]
    simp [length_bitsOf]; omega

/-- Shrinking to 3 and growing again does not bring old bits back. -/
example : ∃ s s1 s2, Reach s ((List.replicate 70 true).set 64 false) ∧
    resize true (fun _ => 9#64) s 3 false = some (s1, true) ∧
    resize true (fun _ => 9#64) s1 200 false = some (s2, true) ∧
    test s2 2 = some true ∧ test s2 3 = some false ∧ test s2 199 = some false := by
  obtain ⟨s, h⟩ := reach70
  obtain ⟨s1, e1, _, h1⟩ := cbits_resize h true (fun _ => 9#64) (n := 3) (by decide) false
  have r1 := Reach.call (o := .resize true (fun _ => 9#64) 3 false) h (by decide) e1
  obtain ⟨s2, e2, _, h2⟩ := cbits_resize r1 true (fun _ => 9#64) (n := 200) (by decide) false
  refine ⟨s, s1, s2, h, e1, e2, ?_, (h2 rfl).2 3 (by decide), (h2 rfl).2 199 (by decide)⟩
  have := (h2 rfl).2 2 (by decide)
  rw [if_pos (by decide)] at this
  rw [this]
  exact (cbits_list r1).2.1 2 (by decide)

/-- C76. `to_str(start, stop)` writes one '0'/'1' per bit of the requested part, and a set built
from that text has the same bits. -/
theorem cbits_string {s : Bits} {bs : List Bool} (h : Reach s bs) :
    (∀ start stop, start ≤ stop → start ≤ bs.length →
      toStr s start stop = some (((bs.take stop).drop start).map fun b => if b then '1' else '0')) ∧
    (∀ junk, ∃ str t, toStr s 0 bs.length = some str ∧ fromStr true junk str = some t ∧ Reach t bs) := by
  obtain ⟨hw, rfl⟩ := reach_inv h
  have key : ∀ start stop, start ≤ stop → start ≤ (bitsOf s).length →
      toStr s start stop = some ((((bitsOf s).take stop).drop start).map fun b => if b then '1' else '0') := by
    intro start stop h1 h2
    rw [length_bitsOf] at h2
    unfold toStr
    by_cases hgt : stop > s.size
    · simp only [if_pos hgt, if_pos h2]
      rw [strLoop_spec hw _ _ (by omega), List.take_of_length_le (i := stop) (by rw [length_bitsOf]; omega),
        List.take_of_length_le (by simp [length_bitsOf])]
    · simp only [if_neg hgt, if_pos h1]
      rw [strLoop_spec hw _ _ (by omega), List.drop_take]
  refine ⟨key, fun junk => ?_⟩
  have e := key 0 (bitsOf s).length (by omega) (by omega)
  rw [List.take_length, List.drop_zero] at e
  obtain ⟨t, et, wt, bt⟩ := fromStr_spec junk ((bitsOf s).map fun b => if b then '1' else '0')
  refine ⟨_, t, e, et, ?_⟩
  have := Reach.fromStr et
  rw [List.map_map] at this
  have hid : ((fun x => x == '1') ∘ fun b : Bool => if b = true then '1' else '0') = id := by
    funext b; cases b <;> rfl
  rwa [hid, List.map_id] at this

example : ∃ s, Reach s ((List.replicate 70 true).set 64 false) ∧
    toStr s 62 1000 = some ['1', '1', '0', '1', '1', '1', '1', '1'] := by
  obtain ⟨s, h⟩ := reach70
  exact ⟨s, h, by rw [(cbits_string h).1 62 1000 (by decide) (by decide)]; decide⟩

end Verif.Cbits
