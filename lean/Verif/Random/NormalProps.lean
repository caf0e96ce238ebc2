import Verif.Random.Normal
/-
Properties of the normal distribution (C146).
-/
namespace Verif.Random.Normal

/-! ### Lemmas -/

theorem draw_spec (gen : σ → BitVec 64 × σ) (a : Arith V) : ∀ (k f : Nat) (s : σ) (p : Int × Int) (ps : List (Int × Int)),
    k ≤ f → (points gen k s).filter (fun p => a.accept p.1 p.2) = p :: ps →
    ∃ k' s', k' ≤ k ∧ draw gen a f s = some (p, s') ∧ (points gen k' s').filter (fun p => a.accept p.1 p.2) = ps
  | 0, _, _, _, _, _, h => by simp [points] at h
  | k + 1, 0, _, _, _, hf, _ => by omega
  | k + 1, f + 1, s, p, ps, hf, h => by
    rw [points, List.filter_cons] at h
    by_cases hc : a.accept (((gen s).1.sshiftRight 11).toInt) (((gen (gen s).2).1.sshiftRight 11).toInt) = true
    · rw [if_pos hc] at h
      obtain ⟨h1, h2⟩ := List.cons.inj h
      refine ⟨k, (gen (gen s).2).2, by omega, ?_, h2⟩
      rw [← h1]
      simp only [draw, coord, hc, if_true]
    · rw [if_neg hc] at h
      obtain ⟨k', s', hk, hd, hp⟩ := draw_spec gen a k f _ p ps (by omega) h
      refine ⟨k', s', by omega, ?_, hp⟩
      simp only [draw, coord, hc, if_false]
      exact hd

theorem calls_even (gen : σ → BitVec 64 × σ) (a : Arith V) (f : Nat) : ∀ (m n k : Nat) (d : Dist V) (s : σ), n ≤ m → k ≤ f →
    d.hasNext % 2 = 0 → d.hasNext + n ≤ 2147483647 → n ≤ (deviates a (points gen k s)).length →
    calls gen a f n d s = some ((deviates a (points gen k s)).take n)
  | _, 0, _, _, _, _, _, _, _, _ => by simp [calls]
  | 0, n + 1, _, _, _, hm, _, _, _, _ => by omega
  | m + 1, n + 1, k, d, s, hm, hk, he, ho, hl => by
    unfold deviates at hl ⊢
    rcases hps : (points gen k s).filter (fun p => a.accept p.1 p.2) with _ | ⟨p, ps⟩
    · rw [hps] at hl; simp at hl
    · obtain ⟨k', s', hk', hd, hp⟩ := draw_spec gen a k f s p ps hk hps
      rw [hps] at hl ⊢
      have e1 : normal gen a f d s = some (a.scale (a.fst p.1 p.2), ⟨a.snd p.1 p.2, d.hasNext + 1⟩, s') := by
        rw [normal, if_neg (by omega), if_neg (by omega), hd]; rfl
      rw [calls, e1]
      simp only [Option.bind_some, List.flatMap_cons, List.cons_append, List.nil_append, List.take_succ_cons]
      match n, hm, ho, hl with
      | 0, _, _, _ => simp [calls]
      | n + 1, hm, ho, hl =>
        have e2 : normal gen a f ⟨a.snd p.1 p.2, d.hasNext + 1⟩ s' =
            some (a.scale (a.snd p.1 p.2), ⟨a.snd p.1 p.2, d.hasNext + 1 + 1⟩, s') := by
          have h1 : ¬ d.hasNext + 1 + 1 > 2147483647 := by omega
          have h2 : (d.hasNext + 1) % 2 = 1 := by omega
          simp only [normal, h1, h2, if_false, if_true]
        have ih := calls_even gen a f m n k' ⟨a.snd p.1 p.2, d.hasNext + 1 + 1⟩ s' (by omega) (by omega)
          (by simp only; omega) (by simp only; omega)
          (by
            unfold deviates; rw [hp]
            simp only [List.flatMap_cons, List.cons_append, List.nil_append, List.length_cons] at hl
            omega)
        unfold deviates at ih
        rw [hp] at ih
        rw [calls, e2]
        simp only [Option.bind_some, ih, Option.map_some, List.take_succ_cons]

/-! ### Properties -/

/-- C146 (partial: up to 2^31 - 1 calls, see `normal_counter_overflows`). With a fresh distribution object
the calls return, in order, both numbers of every accepted point the generator gives: no point is
skipped or used twice, whatever the generator and however many points are rejected. -/
theorem normal_partial (gen : σ → BitVec 64 × σ) (a : Arith V) (s : σ) (x : V) {n k f : Nat} (hk : k ≤ f)
    (hn : n ≤ 2147483647) (hl : n ≤ (deviates a (points gen k s)).length) :
    calls gen a f n ⟨x, 0⟩ s = some ((deviates a (points gen k s)).take n) :=
  calls_even gen a f n n k ⟨x, 0⟩ s (Nat.le_refl _) hk (by simp) (by simp only; omega) hl

/-- C146. The coordinates are multiples of 2^-52 from -1 up to but not including 1, so the conversion to
`double` is exact. -/
theorem coord_range (gen : σ → BitVec 64 × σ) (s : σ) :
    -(2 ^ 52) ≤ (coord gen s).1 ∧ (coord gen s).1 < 2 ^ 52 := by
  have h : (coord gen s).1 = (gen s).1.toInt >>> 11 := by simp [coord, BitVec.toInt_sshiftRight]
  have h1 := BitVec.le_toInt (gen s).1
  have h2 := BitVec.toInt_lt (x := (gen s).1)
  rw [h, Int.shiftRight_eq_div_pow]
  omega

/-- A counter, for the examples: the outputs are the multiples of 2^11. -/
def demoGen (s : Nat) : BitVec 64 × Nat := (BitVec.ofNat 64 (s * 2048), s + 1)
/-- Arithmetic for the examples: every other point is accepted. -/
def demoArith : Arith Int := ⟨fun x _ => x % 4 = 2, fun x _ => x, fun _ y => y, fun v => 10 * v⟩

example : deviates demoArith (points demoGen 8 0) = [20, 30, 60, 70, 100, 110, 140, 150] := by decide +kernel

example : calls demoGen demoArith 8 5 ⟨0, 0⟩ 0 = some [20, 30, 60, 70, 100] := by
  rw [normal_partial demoGen demoArith 0 0 (k := 8) (by decide) (by decide) (by decide +kernel)]
  decide +kernel

/-- C146, refutation: the call counter is an `int`: once 2^31 - 1 numbers have been drawn the next call is
undefined, whatever the generator. -/
theorem normal_counter_overflows (gen : σ → BitVec 64 × σ) (a : Arith V) (s : σ) (x : V) (f : Nat) {n : Nat}
    (hn : 2147483647 < n) : calls gen a f n ⟨x, 0⟩ s = none := by
  have aux : ∀ (m : Nat) (d : Dist V) (s : σ), 2147483647 < d.hasNext + m → d.hasNext ≤ 2147483647 → calls gen a f m d s = none := by
    intro m
    induction m with
    | zero => intro d s h1 h2; omega
    | succ m ih =>
      intro d s h1 h2
      rw [calls]
      rcases hr : normal gen a f d s with _ | r
      · rfl
      · have hc : r.2.1.hasNext = d.hasNext + 1 ∧ d.hasNext + 1 ≤ 2147483647 := by
          unfold normal at hr
          split at hr
          · cases hr
          · split at hr
            · cases hr; simp only; exact ⟨trivial, by omega⟩
            · rcases hd : draw gen a f s with _ | q
              · rw [hd] at hr; cases hr
              · rw [hd] at hr; cases hr; simp only; exact ⟨trivial, by omega⟩
        rw [Option.bind_some, ih r.2.1 r.2.2 (by omega) (by omega)]; rfl
  exact aux n ⟨x, 0⟩ s (by simp only; omega) (by simp)

end Verif.Random.Normal
