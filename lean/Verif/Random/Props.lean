import Verif.Random.Lemmas
/- C53 (range), C54 (unbiased), C55 (shuffle), C56 (period), C102 (real numbers in [0, 1)). -/
namespace Verif.Random
open Spec
open scoped List
variable {σ β : Type}

/-! ### C53 -/

/-- Bounds of a uniform distribution for which `high - low + 1` can be computed. -/
structure Bounds (w : Nat) (low high : Int) : Prop where
  word : 0 < w
  lowOk : -((2 : Int) ^ (w - 1)) ≤ low
  le : low ≤ high
  highOk : high < 2 ^ (w - 1)
  count : high - low + 1 < 2 ^ (w - 1)

example : Bounds 64 (-100) 100 := ⟨by decide, by decide, by decide, by decide, by decide⟩

/-- C53: for every generator, the value is in `[low, high]`; this holds for both ways of computing
it. (The full claim is for all `low ≤ high`; if `high - low + 1` is above the largest signed number
the computation of the range overflows, see `uniform_full_range_overflows`.) -/
theorem uniform_in_range_partial {w : Nat} {low high : Int} (hb : Bounds w low high) :
    ∃ d, makeUniform w low high = some d ∧
      ∀ (gen : σ → BitVec w × σ) (f : Nat) (s s' : σ) (v : Int),
        uniform w gen d f s = some (v, s') ∨ uniformMod w gen d f s = some (v, s') → low ≤ v ∧ v ≤ high := by
  obtain ⟨d, h1, hg⟩ := makeUniform_spec hb.word hb.lowOk hb.le hb.highOk hb.count
  have hle := hb.le
  refine ⟨d, h1, ?_⟩
  intro gen f
  induction f with
  | zero => rintro s s' v (h | h) <;> cases h
  | succ f ih =>
    rintro s s' v (h | h)
    · rw [uniform_step hb.word hg] at h
      cases hp : pickMul w (high - low + 1).toNat (gen s).1.toNat with
      | none => rw [hp] at h; exact ih _ _ _ (.inl h)
      | some x =>
        rw [hp] at h
        have hx := pickMul_lt (gen s).1.isLt hg.pos hp
        cases h
        omega
    · rw [uniformMod_step hb.word hg] at h
      cases hp : pickMod w (high - low + 1).toNat (gen s).1.toNat with
      | none => rw [hp] at h; exact ih _ _ _ (.inr h)
      | some x =>
        rw [hp] at h
        have hx := pickMod_lt hg.pos hp
        cases h
        omega

/-- The range of a distribution over more than `INT64_MAX` (`INT32_MAX`) values cannot be computed:
already `[0, INT64_MAX]` overflows. -/
theorem uniform_full_range_overflows :
    makeUniform 64 0 9223372036854775807 = none ∧ makeUniform 32 0 2147483647 = none ∧
      makeUniform 64 (-9223372036854775808) 9223372036854775807 = none := by
  decide

/-! ### C54 -/

/-- C54: each value of `[low, high]` is returned, at the first draw, for exactly the same number of
generator outputs; and fewer than half of the outputs give no value. -/
theorem uniform_unbiased_partial {w : Nat} {low high : Int} (hb : Bounds w low high) :
    ∃ d, makeUniform w low high = some d ∧
      (∀ v, low ≤ v → v ≤ high →
        (outputs w fun x => uniform w (tape 0#w) d 1 [x] = some (v, [])).card = 2 ^ w / (high - low + 1).toNat ∧
        (outputs w fun x => uniformMod w (tape 0#w) d 1 [x] = some (v, [])).card = 2 ^ w / (high - low + 1).toNat) ∧
      2 ^ w < 2 * ((high - low + 1).toNat * (2 ^ w / (high - low + 1).toNat)) := by
  obtain ⟨d, h1, hg⟩ := makeUniform_spec hb.word hb.lowOk hb.le hb.highOk hb.count
  have hle := hb.le
  have hW := half_lt hb.word
  have hhalf := hg.half
  refine ⟨d, h1, ?_, ?_⟩
  · intro v hv1 hv2
    obtain ⟨k, hk⟩ : ∃ k : Nat, v = low + k := ⟨(v - low).toNat, by omega⟩
    have hkn : k < (high - low + 1).toNat := by omega
    constructor
    · rw [← count_pickMul (w := w) hg.pos hkn]
      unfold outputs
      congr 1
      refine Finset.filter_congr fun x hx => ?_
      rw [Finset.mem_range] at hx
      beta_reduce; rw [uniform_step hb.word hg]
      simp only [tape, BitVec.toNat_ofNat, Nat.mod_eq_of_lt hx]
      cases hp : pickMul w (high - low + 1).toNat x with
      | none => simp [uniform]
      | some y => simp [hk]
    · rw [← count_pickMod (w := w) hg.pos (by omega) hkn]
      unfold outputs
      congr 1
      refine Finset.filter_congr fun x hx => ?_
      rw [Finset.mem_range] at hx
      beta_reduce; rw [uniformMod_step hb.word hg]
      simp only [tape, BitVec.toNat_ofNat, Nat.mod_eq_of_lt hx]
      cases hp : pickMod w (high - low + 1).toNat x with
      | none => simp [uniformMod]
      | some y => simp [hk]
  · have := Nat.div_add_mod (2 ^ w) (high - low + 1).toNat
    have := Nat.mod_lt (2 ^ w) hg.pos
    omega

/-- C54: an output that gives no value at the first draw only causes a redraw from the next state;
one that does ends the call. -/
theorem uniform_redraws {w : Nat} {low high : Int} (hb : Bounds w low high) :
    ∃ d, makeUniform w low high = some d ∧ ∀ (gen : σ → BitVec w × σ) (f : Nat) (s : σ),
      (uniform w gen d (f + 1) s =
        match uniform w (tape 0#w) d 1 [(gen s).1] with
        | none => uniform w gen d f (gen s).2
        | some (v, _) => some (v, (gen s).2)) ∧
      (uniformMod w gen d (f + 1) s =
        match uniformMod w (tape 0#w) d 1 [(gen s).1] with
        | none => uniformMod w gen d f (gen s).2
        | some (v, _) => some (v, (gen s).2)) := by
  obtain ⟨d, h1, hg⟩ := makeUniform_spec hb.word hb.lowOk hb.le hb.highOk hb.count
  refine ⟨d, h1, fun gen f s => ⟨?_, ?_⟩⟩
  · rw [uniform_step hb.word hg, uniform_step hb.word hg]
    simp only [tape]
    cases hp : pickMul w (high - low + 1).toNat (gen s).1.toNat with
    | none => simp [uniform]
    | some y => simp
  · rw [uniformMod_step hb.word hg, uniformMod_step hb.word hg]
    simp only [tape]
    cases hp : pickMod w (high - low + 1).toNat (gen s).1.toNat with
    | none => simp [uniformMod]
    | some y => simp

example : (makeUniform 64 1 6).bind (fun d => uniform 64 (uint64 1) d 3 (seed64 7)) ≠ none := by decide
example : (makeUniform 4 0 2).bind (fun d => uniform 4 (tape 0#4) d 2 [0#4, 13#4]) = some (2, []) := by decide

/-! ### C55 -/

/-- C55: for every generator, shuffling gives a permutation, after one draw per element but the
first. -/
theorem shuffle_permutes (gen : σ → BitVec 64 × σ) (l : List β) (s : σ) (hl : l.length < 2 ^ 63) :
    ∃ l', shuffle gen l s = some (l', after gen (l.length - 1) s) ∧ l' ~ l :=
  shuffleLoop_perm gen (l.length - 1) l s (by omega) hl

/-- C55: every permutation comes out for some random stream. -/
theorem shuffle_reaches_all {l l' : List β} (hl : l.length < 2 ^ 63) (hp : l' ~ l) :
    ∃ ts, shuffle (tape 0#64) l ts = some (l', []) := by
  have hlen := hp.length_eq
  refine shuffleLoop_reach (l.length - 1) l l' (by omega) hl hp ?_
  rw [List.drop_eq_nil_of_le (by omega), List.drop_eq_nil_of_le (by omega)]

example : shuffle (tape 0#64) [10, 20, 30, 40] [5#64, 0#64, 1#64] = some ([30, 40, 10, 20], []) := by decide

/-! ### C56 -/

/-- C56: the transition of crand64 is one to one for every stream; with an odd stream the state
does not repeat before `2^64` steps, the starting state comes back, and only after a multiple of
`2^64` steps. -/
theorem crand64_period (st : BitVec 64) :
    (Function.Injective fun s : Rng 64 => (uint64 st s).2) ∧
    (st.toNat % 2 = 1 → ∀ s : Rng 64,
      (∀ n m, n < m → m < n + 2 ^ 64 → after (uint64 st) n s ≠ after (uint64 st) m s) ∧
      (∃ p, 0 < p ∧ after (uint64 st) p s = s) ∧
      (∀ p, after (uint64 st) p s = s → 2 ^ 64 ∣ p)) := by
  refine ⟨step_inj64 st, fun ho s => ⟨?_, returns _ (step_inj64 st) s, ?_⟩⟩
  · intro n m h1 h2 e
    obtain ⟨k, rfl⟩ : ∃ k, m = n + k := ⟨m - n, by omega⟩
    rw [after_add] at e
    have := congrArg Rng.s3 e
    rw [counter64 st k] at this
    have hz : BitVec.ofNat 64 k * st = 0#64 := by simpa using this.symm
    have := Nat.le_of_dvd (by omega) (odd_mul_zero ho hz)
    omega
  · intro p e
    have := congrArg Rng.s3 e
    rw [counter64] at this
    exact odd_mul_zero ho (by simpa using this)

/-- C56 for crand32, with `2^32`. -/
theorem crand32_period (st : BitVec 32) :
    (Function.Injective fun s : Rng 32 => (uint32 st s).2) ∧
    (st.toNat % 2 = 1 → ∀ s : Rng 32,
      (∀ n m, n < m → m < n + 2 ^ 32 → after (uint32 st) n s ≠ after (uint32 st) m s) ∧
      (∃ p, 0 < p ∧ after (uint32 st) p s = s) ∧
      (∀ p, after (uint32 st) p s = s → 2 ^ 32 ∣ p)) := by
  refine ⟨step_inj32 st, fun ho s => ⟨?_, returns _ (step_inj32 st) s, ?_⟩⟩
  · intro n m h1 h2 e
    obtain ⟨k, rfl⟩ : ∃ k, m = n + k := ⟨m - n, by omega⟩
    rw [after_add] at e
    have := congrArg Rng.s3 e
    rw [counter32 st k] at this
    have hz : BitVec.ofNat 32 k * st = 0#32 := by simpa using this.symm
    have := Nat.le_of_dvd (by omega) (odd_mul_zero ho hz)
    omega
  · intro p e
    have := congrArg Rng.s3 e
    rw [counter32] at this
    exact odd_mul_zero ho (by simpa using this)

/-- C56: from the same state, different streams give different numbers at once; and different
seeds give different states. -/
theorem streams_differ :
    (∀ (s : Rng 64) (a b : BitVec 64), (uint64 a s).1 = (uint64 b s).1 → a = b) ∧
    (∀ (s : Rng 32) (a b : BitVec 32), (uint32 a s).1 = (uint32 b s).1 → a = b) ∧
    (∀ a b, seed64 a = seed64 b → a = b) ∧ (∀ a b, seed32 a = seed32 b → a = b) := by
  refine ⟨?_, ?_, fun a b h => congrArg Rng.s3 h, fun a b h => congrArg Rng.s3 h⟩
  · intro s a b h
    simp only [uint64] at h
    simpa using h
  · intro s a b h
    simp only [uint32] at h
    simpa using h

example : (1#64).toNat % 2 = 1 := by decide
/-- An even stream: the counter comes back after half as many steps. -/
example (s : Rng 64) : (after (uint64 2#64) (2 ^ 63) s).s3 = s.s3 := by
  rw [counter64]
  have : BitVec.ofNat 64 (2 ^ 63) * 2#64 = 0#64 := by decide
  rw [this]; simp

/-! ### C102 -/

/-- C102: `crand64_real` and `crand32_real` are in `[0, 1)`, and each of their possible values comes
from the same number of generator words. -/
theorem real_unit_interval :
    (∀ (st : BitVec 64) (s : Rng 64), (real64 st s).1 < 2 ^ 53 ∧ (real64 st s).2 = (uint64 st s).2) ∧
    (∀ (st : BitVec 32) (s : Rng 32), (real32 st s).1 < 2 ^ 32 ∧ (real32 st s).2 = (uint32 st s).2) ∧
    (∀ (st : BitVec 64) (s : Rng 64) (k : Nat), (real64 st s).1 = k ↔
      k * 2 ^ 11 ≤ (uint64 st s).1.toNat ∧ (uint64 st s).1.toNat < (k + 1) * 2 ^ 11) := by
  refine ⟨fun st s => ⟨?_, rfl⟩, fun st s => ⟨?_, rfl⟩, fun st s k => ?_⟩
  · have := (uint64 st s).1.isLt
    simp only [real64, BitVec.toNat_ushiftRight, Nat.shiftRight_eq_div_pow]
    omega
  · exact (uint32 st s).1.isLt
  · simp only [real64, BitVec.toNat_ushiftRight, Nat.shiftRight_eq_div_pow]
    omega

end Verif.Random
