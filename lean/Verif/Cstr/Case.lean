import Verif.Utf8.Case
/- Case folding at most increases the encoded length by half. -/
namespace Verif.Utf8
open Spec

noncomputable def chkFoldLen (c : Nat) : Bool :=
  Nat.ble (encLen (foldLoopB c foldTab) * 2) (encLen c * 3)

theorem tabFoldLen : (points foldTab).all chkFoldLen = true := by decide +kernel

theorem casefold_len (c : Nat) : 2 * (enc (casefold c)).length ≤ 3 * (enc c).length := by
  simp only [casefold_eq]
  by_cases h : c ∈ points foldTab
  · have := List.all_eq_true.1 tabFoldLen c h
    simp only [chkFoldLen, foldLoopB_eq] at this
    have := Nat.le_of_ble_eq_true this
    rw [encLen_eq, encLen_eq]; omega
  · rw [foldLoop_out c _ h]; omega

end Verif.Utf8
