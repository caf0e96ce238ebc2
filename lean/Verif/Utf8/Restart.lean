import Verif.Utf8.Props
/-
C44: one decoder can be used for a whole buffer, as `utf8_icompare` (utf8_prv.c 142-157) and `cstr_tocase_sv`
(cstr_prv.c 260-281) do.
-/
namespace Verif.Utf8

theorem decode_restart {d : D} (h : d.state = 0) (b : Byte) : decode d b = decode ⟨0, 0⟩ b := by
  obtain ⟨st, cp⟩ := d
  simp only at h
  subst h
  rfl

theorem dcpLoop_state (avail : Nat) : ∀ (m : List Byte) (d : D) (k : Nat) {d' : D} {n : Nat}, dcpLoop avail d m k = some (d', n) → d'.state = 0
  | [], _, _, _, _, h => by cases h
  | b :: m, d, k, d', n, h => by
    rw [dcpLoop] at h
    cases hd : decode d b with
    | none => rw [hd] at h; cases h
    | some e =>
      rw [hd] at h
      simp only [Option.bind_eq_bind, Option.bind_some] at h
      split at h
      · rename_i h0; cases h; exact h0
      · split at h
        · cases h; rfl
        · split at h
          · cases h; rfl
          · exact dcpLoop_state avail m e (k + 1) h

/-- C44. After every call the decoder is back in its initial state, and in that state a call does not depend on what
was decoded before: calls in sequence with one decoder are calls with new decoders, also behind invalid sequences and
sequences cut off by the end of the buffer. -/
theorem utf8_decoder_restarts (d : D) (m : List Byte) (avail : Nat) (h : d.state = 0) :
    dcpLoop avail d m 0 = dcpLoop avail ⟨0, 0⟩ m 0 ∧
    ∀ d' n, dcpLoop avail d m 0 = some (d', n) → d'.state = 0 := by
  refine ⟨?_, fun d' n h' => dcpLoop_state avail m d 0 h'⟩
  cases m with
  | nil => rfl
  | cons b m => rw [dcpLoop, dcpLoop, decode_restart h]

example : dcpLoop 2 ⟨0, 0x20AC⟩ [0xE2#8, 0x82#8] 0 = some (⟨0, 0xFFFD⟩, 1) := by decide +kernel

end Verif.Utf8
