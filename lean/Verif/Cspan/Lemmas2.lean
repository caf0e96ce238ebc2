import Verif.Cspan.Lemmas
/- Slicing and iteration. -/
namespace Verif.Cspan
open Spec

/-! ### slices -/

/-- Extent of a sliced dimension. -/
def outDim (n : Nat) (g : Arg) : Nat := ((endOf n g - g.start).toNat - 1) / stepOf g + 1

/-- Shape of a slice. -/
def outShape : List Nat → List Arg → List Nat
  | n :: ns, g :: gs => if g.stop = 0 then outShape ns gs else outDim n g :: outShape ns gs
  | _, _ => []

/-- Strides of a slice. -/
def outStride : List Int → List Arg → List Int
  | t :: ts, g :: gs => if g.stop = 0 then outStride ts gs else t * (stepOf g : Int) :: outStride ts gs
  | _, _ => []

/-- First element of a slice. -/
def starts (gs : List Arg) : List Nat := gs.map fun g => g.start.toNat

theorem stepOf_pos {g : Arg} (h : 0 ≤ g.step) : 0 < stepOf g := by
  unfold stepOf; split <;> omega

theorem stopOf_eq (n : Int) (g : Arg) : stopOf n g = endOf n g := rfl

theorem sliceDim_spec {n : Nat} {t : Int} {g : Arg} (hn : n < 2147483648) (ht : t.natAbs < 2147483648) (h1 : 0 ≤ g.start)
    (h2 : g.start < endOf n g) (h3 : endOf n g ≤ n) (h4 : 0 ≤ g.step) (h5 : g.step < 2147483648)
    (h6 : g.step.natAbs * t.natAbs < 2147483648) :
    sliceDim n t g = some ((outDim n g : Int), t * (stepOf g : Int)) := by
  unfold sliceDim
  simp only [stopOf_eq]
  have hu : ¬ uless (n : Int) (endOf n g) = true := by
    rw [uless_iff] <;> omega
  have hlen : toI32 (endOf n g - g.start) = endOf n g - g.start := toI32_ok (by omega) (by omega)
  rw [isz_ok (by omega) (by omega)]
  simp only [Option.bind_eq_bind, Option.bind_some, hlen]
  rw [guard_pos (by exact ⟨by omega, hu⟩)]
  simp only [Option.bind_some]
  obtain ⟨L, hL⟩ : ∃ L : Nat, endOf n g - g.start = (L : Int) + 1 := ⟨(endOf n g - g.start - 1).toNat, by omega⟩
  rw [hL]
  have hd : outDim n g = L / stepOf g + 1 := by
    unfold outDim
    rw [hL]
    congr 2
  by_cases hs : 0 < g.step
  · obtain ⟨k, hk⟩ := Int.eq_ofNat_of_zero_le h4
    have hsk : stepOf g = k := by unfold stepOf; rw [if_neg (by omega), hk]; rfl
    have hst : toI32 g.step = (k : Int) := by rw [toI32_ok (by omega) h5, hk]
    have hm : (t * (k : Int)).natAbs < 2147483648 := by
      rw [Int.natAbs_mul, Nat.mul_comm]
      rw [hk] at h6
      exact h6
    have hdiv : ((L : Int) + 1 - 1).tdiv (k : Int) = ((L / k : Nat) : Int) := by
      rw [show (L : Int) + 1 - 1 = (L : Int) by omega]; rfl
    have hle : L / k ≤ L := Nat.div_le_self _ _
    have j1 : i32 (t * (k : Int)) = some (t * (k : Int)) := i32_ok (by omega) (by omega)
    have j2 : i32 (((L / k : Nat) : Int) + 1) = some (((L / k : Nat) : Int) + 1) := by
      generalize L / k = q at hle ⊢
      exact i32_ok (by omega) (by omega)
    rw [if_pos hs, hst, j1, hdiv, j2]
    have hk0 : (k : Int) ≠ 0 := by omega
    simp only [Option.bind_some]
    rw [guard_pos hk0]
    simp only [Option.bind_some, hd, hsk]
    push_cast
    rfl
  · have hz : g.step = 0 := by omega
    have hsk : stepOf g = 1 := by unfold stepOf; rw [if_pos hz]
    rw [if_neg hs, hd, hsk]
    simp

theorem sliceLoop_spec {ns : List Nat} {ts : List Int} {gs : List Arg} (h : ArgsOk ns ts gs)
    (hn : ∀ n ∈ ns, n < 2147483648) (ht : ∀ t ∈ ts, t.natAbs < 2147483648) {off : Int}
    (hb : off.natAbs + extent ns ts < 4611686018427387904) :
    sliceLoop (ints ns) ts gs off = some (off + dot (starts gs) ts, ints (outShape ns gs), outStride ts gs) := by
  induction gs generalizing ns ts off with
  | nil =>
    cases ns with
    | cons => cases ts <;> exact absurd h (by simp [ArgsOk])
    | nil =>
      cases ts with
      | cons => exact absurd h (by simp [ArgsOk])
      | nil => simp [sliceLoop, starts, outShape, outStride]
  | cons g gs ih =>
    cases ns with
    | nil => cases ts <;> exact absurd h (by simp [ArgsOk])
    | cons n ns =>
      cases ts with
      | nil => exact absurd h (by simp [ArgsOk])
      | cons t ts =>
        obtain ⟨hg, hgs⟩ : ArgOk n t g ∧ ArgsOk ns ts gs := h
        have hnn := hn n (by simp)
        have hs0 : 0 ≤ g.start ∧ g.start ≤ n := by
          rcases hg with h | h
          · omega
          · omega
        obtain ⟨a, ha⟩ := Int.eq_ofNat_of_zero_le hs0.1
        have hm := natAbs_mul_le (i := a) (n := n) (by omega) t
        rw [extent_cons] at hb
        have hstart : g.start.toNat = a := by rw [ha]; rfl
        have e : off + dot (starts (g :: gs)) (t :: ts) = off + (a : Int) * t + dot (starts gs) ts := by
          simp only [starts, List.map_cons, dot_cons, hstart]; ring
        have ih' := ih hgs (fun m hm => hn m (by simp [hm])) (fun m hm => ht m (by simp [hm]))
          (off := off + (a : Int) * t) (by omega)
        rw [e]
        simp only [ints_cons, sliceLoop, ha]
        have i1 : isz ((a : Int) * t) = some ((a : Int) * t) := isz_ok (by omega) (by omega)
        have i2 : isz (off + (a : Int) * t) = some (off + (a : Int) * t) := isz_ok (by omega) (by omega)
        simp only [i1, i2, Option.bind_eq_bind, Option.bind_some]
        by_cases hst : g.stop = 0
        · rw [if_pos hst]
          have hu : uless (a : Int) (n : Int) = true := by
            have : g.start < n := by
              rcases hg with h | h
              · exact h.2.2
              · exact absurd hst h.1
            rw [uless_iff] <;> omega
          rw [guard_pos hu]
          simp only [Option.bind_some, ih', outShape, outStride, if_pos hst]
        · rw [if_neg hst]
          have hr : g.stop ≠ 0 ∧ 0 ≤ g.start ∧ g.start < endOf n g ∧ endOf n g ≤ n ∧ 0 ≤ g.step ∧
              g.step < 2147483648 ∧ g.step.natAbs * t.natAbs < 2147483648 := by
            rcases hg with h | h
            · exact absurd h.1 hst
            · exact h
          rw [sliceDim_spec hnn (ht t (by simp)) hr.2.1 hr.2.2.1 hr.2.2.2.1 hr.2.2.2.2.1 hr.2.2.2.2.2.1 hr.2.2.2.2.2.2]
          simp only [Option.bind_some, ih', outShape, outStride, if_neg hst]
          rfl

theorem outShape_length {ns : List Nat} {ts : List Int} {gs : List Arg} (h : ArgsOk ns ts gs) :
    (outShape ns gs).length = outRank gs ∧ (outStride ts gs).length = outRank gs := by
  induction gs generalizing ns ts with
  | nil => cases ns <;> cases ts <;> simp_all [ArgsOk, outShape, outStride, outRank]
  | cons g gs ih =>
    cases ns with
    | nil => cases ts <;> exact absurd h (by simp [ArgsOk])
    | cons n ns =>
      cases ts with
      | nil => exact absurd h (by simp [ArgsOk])
      | cons t ts =>
        obtain ⟨h1, h2⟩ := ih h.2
        unfold outRank at h1 h2 ⊢
        by_cases hst : g.stop = 0
        · simp [outShape, outStride, hst, h1, h2]
        · simp [outShape, outStride, hst, h1, h2]

/-- Each index tuple of the slice stands for a selected one, at the same address. -/
theorem pick_spec {ns : List Nat} {ts : List Int} {gs : List Arg} (h : ArgsOk ns ts gs) {j : List Nat}
    (hj : InRange j (outShape ns gs)) :
    InRange (pick gs j) ns ∧ Selected ns gs (pick gs j) ∧
      dot (pick gs j) ts = dot (starts gs) ts + dot j (outStride ts gs) := by
  induction gs generalizing ns ts j with
  | nil =>
    cases ns with
    | cons => cases ts <;> exact absurd h (by simp [ArgsOk])
    | nil =>
      cases ts with
      | cons => exact absurd h (by simp [ArgsOk])
      | nil => exact ⟨List.Forall₂.nil, trivial, by simp [pick, starts, outStride]⟩
  | cons g gs ih =>
    cases ns with
    | nil => cases ts <;> exact absurd h (by simp [ArgsOk])
    | cons n ns =>
      cases ts with
      | nil => exact absurd h (by simp [ArgsOk])
      | cons t ts =>
        obtain ⟨hg, hgs⟩ : ArgOk n t g ∧ ArgsOk ns ts gs := h
        by_cases hst : g.stop = 0
        · have hr : 0 ≤ g.start ∧ g.start < n := by
            rcases hg with h | h
            · exact h.2
            · exact absurd hst h.1
          simp only [outShape, if_pos hst] at hj
          obtain ⟨i1, i2, i3⟩ := ih hgs hj
          simp only [pick, if_pos hst, outStride, starts, List.map_cons, dot_cons, Selected]
          refine ⟨.cons (by omega) i1, ⟨by omega, i2⟩, ?_⟩
          rw [i3]; simp only [starts]; ring
        · have hr : 0 ≤ g.start ∧ g.start < endOf n g ∧ endOf n g ≤ n ∧ 0 ≤ g.step := by
            rcases hg with h | h
            · exact absurd h.1 hst
            · exact ⟨h.2.1, h.2.2.1, h.2.2.2.1, h.2.2.2.2.1⟩
          simp only [outShape, if_neg hst] at hj
          cases hj with
          | @cons i _ is _ hi his =>
            obtain ⟨i1, i2, i3⟩ := ih hgs his
            obtain ⟨a, ha⟩ := Int.eq_ofNat_of_zero_le hr.1
            have hstart : g.start.toNat = a := by rw [ha]; rfl
            have hi' : stepOf g * i ≤ (endOf n g - g.start).toNat - 1 := by
              have h1 : i ≤ ((endOf n g - g.start).toNat - 1) / stepOf g := by
                unfold outDim at hi; omega
              calc stepOf g * i ≤ stepOf g * (((endOf n g - g.start).toNat - 1) / stepOf g) :=
                    Nat.mul_le_mul_left _ h1
                _ ≤ _ := Nat.mul_div_le _ _
            have hlt : ((a + stepOf g * i : Nat) : Int) < endOf n g := by omega
            simp only [pick, if_neg hst, outStride, starts, List.map_cons, dot_cons, Selected, hstart]
            refine ⟨.cons (by omega) i1, ⟨⟨by omega, hlt, ?_⟩, i2⟩, ?_⟩
            · rw [ha]
              exact ⟨(i : Int), by push_cast; ring⟩
            · rw [i3]; simp only [starts]; push_cast; ring

/-- Every selected index tuple is reached. -/
theorem pick_surj {ns : List Nat} {ts : List Int} {gs : List Arg} (h : ArgsOk ns ts gs) {idx : List Nat}
    (hin : InRange idx ns) (hs : Selected ns gs idx) : ∃ j, InRange j (outShape ns gs) ∧ pick gs j = idx := by
  induction gs generalizing ns ts idx with
  | nil =>
    cases ns with
    | cons => cases ts <;> exact absurd h (by simp [ArgsOk])
    | nil =>
      cases hin
      exact ⟨[], List.Forall₂.nil, rfl⟩
  | cons g gs ih =>
    cases ns with
    | nil => cases ts <;> exact absurd h (by simp [ArgsOk])
    | cons n ns =>
      cases ts with
      | nil => exact absurd h (by simp [ArgsOk])
      | cons t ts =>
        obtain ⟨hg, hgs⟩ : ArgOk n t g ∧ ArgsOk ns ts gs := h
        cases hin with
        | @cons i _ is _ hi his =>
          obtain ⟨s1, s2⟩ := hs
          obtain ⟨j, j1, j2⟩ := ih hgs his s2
          by_cases hst : g.stop = 0
          · rw [if_pos hst] at s1
            refine ⟨j, by simpa [outShape, hst] using j1, ?_⟩
            simp only [pick, if_pos hst, j2]
            rw [← s1]; rfl
          · rw [if_neg hst] at s1
            have hr : 0 ≤ g.start ∧ 0 ≤ g.step := by
              rcases hg with h | h
              · exact absurd h.1 hst
              · exact ⟨h.2.1, h.2.2.2.2.1⟩
            obtain ⟨a, ha⟩ := Int.eq_ofNat_of_zero_le hr.1
            have hstart : g.start.toNat = a := by rw [ha]; rfl
            obtain ⟨k0, hk0⟩ := s1.2.2
            have hpos := stepOf_pos hr.2
            have hk : 0 ≤ k0 := by
              by_contra hneg
              have : (stepOf g : Int) * k0 < 0 := Int.mul_neg_of_pos_of_neg (by omega) (by omega)
              omega
            obtain ⟨k, rfl⟩ := Int.eq_ofNat_of_zero_le hk
            have hik : i = a + stepOf g * k := by
              have : (i : Int) - a = ((stepOf g * k : Nat) : Int) := by rw [← ha, hk0]; push_cast; rfl
              omega
            refine ⟨k :: j, ?_, ?_⟩
            · simp only [outShape, if_neg hst]
              refine .cons ?_ j1
              unfold outDim
              have : k ≤ ((endOf n g - g.start).toNat - 1) / stepOf g := by
                rw [Nat.le_div_iff_mul_le hpos, Nat.mul_comm]
                omega
              omega
            · simp only [pick, if_neg hst, j2, hstart, ← hik]

/-- A slice of a span is again a span with small distances. -/
theorem outShape_fits {ns : List Nat} {ts : List Int} {gs : List Arg} (h : ArgsOk ns ts gs)
    (hn : ∀ n ∈ ns, n < 2147483648) : (∀ n ∈ outShape ns gs, 0 < n ∧ n < 2147483648) := by
  induction gs generalizing ns ts with
  | nil => cases ns <;> simp [outShape]
  | cons g gs ih =>
    cases ns with
    | nil => simp [outShape]
    | cons n ns =>
      cases ts with
      | nil => exact absurd h (by simp [ArgsOk])
      | cons t ts =>
        obtain ⟨hg, hgs⟩ : ArgOk n t g ∧ ArgsOk ns ts gs := h
        have ih' := ih hgs fun m hm => hn m (by simp [hm])
        have hnn := hn n (by simp)
        by_cases hst : g.stop = 0
        · simpa [outShape, hst] using ih'
        · have hr : 0 ≤ g.start ∧ g.start < endOf n g ∧ endOf n g ≤ n ∧ 0 ≤ g.step := by
            rcases hg with h | h
            · exact absurd h.1 hst
            · exact ⟨h.2.1, h.2.2.1, h.2.2.2.1, h.2.2.2.2.1⟩
          simp only [outShape, if_neg hst, List.mem_cons]
          rintro m (rfl | hm)
          · unfold outDim
            have := Nat.div_le_self ((endOf n g - g.start).toNat - 1) (stepOf g)
            generalize ((endOf n g - g.start).toNat - 1) / stepOf g = q at this ⊢
            omega
          · exact ih' m hm

/-! ### iteration -/

theorem rowRank_append {A N : List Nat} (h : A.length = N.length) (X M : List Nat) :
    rowRank (A ++ X) (N ++ M) = rowRank A N * M.prod + rowRank X M := by
  induction A generalizing N with
  | nil => cases N with
    | nil => simp [rowRank]
    | cons => simp at h
  | cons a A ih => cases N with
    | nil => simp at h
    | cons n N =>
      simp only [List.cons_append, rowRank, ih (by simpa using h), List.prod_append]; ring

theorem rowRank_zeros (M : List Nat) : rowRank (List.replicate M.length 0) M = 0 := by
  induction M with
  | nil => rfl
  | cons m M ih => simp [List.replicate_succ, rowRank, ih]

theorem zeros_inRange {M : List Nat} (h : ∀ m ∈ M, 0 < m) : InRange (List.replicate M.length 0) M := by
  induction M with
  | nil => exact .nil
  | cons m M ih =>
    rw [List.length_cons, List.replicate_succ]
    exact .cons (h m (by simp)) (ih fun x hx => h x (by simp [hx]))

theorem dot_zeros (k : Nat) (T : List Int) : dot (List.replicate k 0) T = 0 := by
  induction k generalizing T with
  | zero => simp
  | succ k ih => cases T with
    | nil => simp
    | cons t T => simp [List.replicate_succ, ih]

theorem le_append {A N B M : List Nat} (h : Le A N) (h' : Le B M) : Le (A ++ B) (N ++ M) := List.rel_append h h'

theorem inRange_snoc {A N : List Nat} {a n : Nat} (h : InRange (A ++ [a]) (N ++ [n])) : InRange A N ∧ a < n := by
  have h1 := inRange_reverse h
  rw [List.reverse_append, List.reverse_append] at h1
  cases h1 with
  | cons h2 h3 =>
    have this : InRange A.reverse.reverse N.reverse.reverse := inRange_reverse h3
    rw [List.reverse_reverse, List.reverse_reverse] at this
    exact ⟨this, h2⟩

theorem carry_succ {sh st pos : List Int} {r : Nat} {off n y t u y' p q off' : Int} (h1 : pos[r + 1]? = some n)
    (h2 : sh[r + 1]? = some n) (h3 : pos[r]? = some y) (h4 : i32 (y + 1) = some y') (h5 : st[r + 1]? = some t)
    (h6 : st[r]? = some u) (h7 : isz (n * t) = some p) (h8 : isz (u - p) = some q) (h9 : isz (off + q) = some off') :
    carry sh st (r + 1) pos off = carry sh st r ((pos.set (r + 1) 0).set r y') off' := by
  conv_lhs => unfold carry
  simp only [h1, h2, h3, h4, h5, h6, h7, h8, h9, Option.bind_eq_bind, Option.bind_some, if_true]

theorem next2_eq {sh st pos : List Int} {x x' t : Int} (h1 : st[sh.length - 1]? = some t)
    (h2 : pos[sh.length - 1]? = some x) (h3 : i32 (x + 1) = some x') :
    next2 sh st pos = carry sh st (sh.length - 1) (pos.set (sh.length - 1) x') t := by
  simp only [next2, h1, h2, h3, Option.bind_eq_bind, Option.bind_some]

theorem next1_eq {sh st pos : List Int} {x x' n t : Int} (h1 : pos[0]? = some x) (h2 : i32 (x + 1) = some x')
    (h3 : sh[0]? = some n) (h4 : st[0]? = some t) :
    next1 sh st pos = some (pos.set 0 x', t, decide (x' = n)) := by
  simp only [next1, h1, h2, h3, h4, Option.bind_eq_bind, Option.bind_some]

theorem carry_spec {p : List Nat} (r : Nat) : ∀ (A N Z M : List Nat) (d n : Nat) (T1 T2 : List Int) (t : Int),
    A.length = r → N.length = r → T1.length = r → T2.length = M.length → Z = List.replicate M.length 0 →
    InRange A N → d ≤ n → (∀ m ∈ N ++ n :: M, 0 < m ∧ m < 2147483648) → Le p (N ++ n :: M) →
    extent (N ++ n :: M) (T1 ++ t :: T2) < 4611686018427387904 →
    ∃ p' done, carry (ints (N ++ n :: M)) (T1 ++ t :: T2) r (ints (A ++ d :: Z))
        (dot (A ++ d :: Z) (T1 ++ t :: T2) - dot p (T1 ++ t :: T2)) =
          some (ints p', dot p' (T1 ++ t :: T2) - dot p (T1 ++ t :: T2), done) ∧
      rowRank p' (N ++ n :: M) = rowRank (A ++ d :: Z) (N ++ n :: M) ∧ p'.length = (N ++ n :: M).length ∧
      (done = false → InRange p' (N ++ n :: M)) ∧ (done = true → rowRank p' (N ++ n :: M) = (N ++ n :: M).prod) := by
  induction r with
  | zero =>
    intro A N Z M d n T1 T2 t hA hN hT1 hT2 hZ hin hd hpos hp hext
    have e1 := List.length_eq_zero_iff.1 hA
    have e2 := List.length_eq_zero_iff.1 hN
    have e3 := List.length_eq_zero_iff.1 hT1
    subst e1 e2 e3 hZ
    refine ⟨d :: List.replicate M.length 0, decide ((d : Int) = n), rfl, rfl, by simp, ?_, ?_⟩
    · intro h
      have hne : d ≠ n := by
        intro e; subst e; simp at h
      exact .cons (by omega) (zeros_inRange fun m hm => (hpos m (by simp [hm])).1)
    · intro h
      have : d = n := by simpa using h
      subst this
      simp [rowRank, rowRank_zeros]
  | succ r ih =>
    intro A N Z M d n T1 T2 t hA hN hT1 hT2 hZ hin hd hpos hp hext
    subst hZ
    have hg1 : (ints (A ++ d :: List.replicate M.length 0))[r + 1]? = some (d : Int) := by
      rw [ints_get, ← hA, get_snoc]; rfl
    have hg2 : (ints (N ++ n :: M))[r + 1]? = some (n : Int) := by
      rw [ints_get, ← hN, get_snoc]; rfl
    by_cases hdn : d = n
    · subst hdn
      -- split off the last digit of the prefix
      have mk : ∀ {β : Type} (L : List β), L.length = r + 1 → ∃ (L' : List β) (x : β), L = L' ++ [x] ∧ L'.length = r := by
        intro β L hL
        have hne : L ≠ [] := by rintro rfl; simp at hL
        exact ⟨L.dropLast, L.getLast hne, (List.dropLast_append_getLast hne).symm, by simp [hL]⟩
      obtain ⟨A', a, rfl, hA'⟩ := mk A hA
      obtain ⟨N', m, rfl, hN'⟩ := mk N hN
      obtain ⟨T', u, rfl, hT'⟩ := mk T1 hT1
      have hin2 : InRange A' N' ∧ a < m := inRange_snoc hin
      have aN : N' ++ [m] ++ d :: M = N' ++ m :: d :: M := by simp
      have aT : T' ++ [u] ++ t :: T2 = T' ++ u :: t :: T2 := by simp
      have aA : A' ++ [a] ++ d :: List.replicate M.length 0 = A' ++ a :: d :: List.replicate M.length 0 := by simp
      rw [aN, aT] at hext
      rw [aN] at hpos hp
      rw [aN, aT, aA]
      rw [aA] at hg1
      rw [aN] at hg2
      have hrep : (0 : Nat) :: List.replicate M.length 0 = List.replicate (d :: M).length 0 := by
        simp [List.replicate_succ]
      obtain ⟨p', done, c1, c2, c3, c4, c5⟩ := ih A' N' (0 :: List.replicate M.length 0) (d :: M) (a + 1) m T' (t :: T2) u
        hA' hN' hT' (by simp [hT2]) hrep hin2.1 hin2.2 hpos hp hext
      refine ⟨p', done, ?_, ?_, c3, c4, c5⟩
      · -- one turn of the loop
        have hg3 : (ints (A' ++ a :: d :: List.replicate M.length 0))[r]? = some (a : Int) := by
          rw [ints_get, ← hA', get_snoc]; rfl
        have hg4 : (T' ++ u :: t :: T2)[r + 1]? = some t := by
          have : T' ++ u :: t :: T2 = (T' ++ [u]) ++ t :: T2 := by simp
          rw [this, ← hT1, get_snoc]
        have hg5 : (T' ++ u :: t :: T2)[r]? = some u := by rw [← hT', get_snoc]
        have hset : ((ints (A' ++ a :: d :: List.replicate M.length 0)).set (r + 1) 0).set r ((a : Int) + 1) =
            ints (A' ++ (a + 1) :: 0 :: List.replicate M.length 0) := by
          have s1 : (ints (A' ++ a :: d :: List.replicate M.length 0)).set (r + 1) 0 =
              ints (A' ++ a :: 0 :: List.replicate M.length 0) := by
            have := set_snoc (ints (A' ++ [a])) (d : Int) 0 (ints (List.replicate M.length 0))
            rw [ints_length, hA] at this
            simpa [ints_append] using this
          rw [s1]
          have := set_snoc (ints A') (a : Int) ((a : Int) + 1) (ints (0 :: List.replicate M.length 0))
          rw [ints_length, hA'] at this
          simpa [ints_append] using this
        have hm := hpos m (by simp)
        have hext' : extent N' T' + (m * u.natAbs + (d * t.natAbs + extent M T2)) < 4611686018427387904 := by
          rw [extent_append (by omega)] at hext
          exact hext
        have hu : u.natAbs ≤ m * u.natAbs := Nat.le_mul_of_pos_left _ hm.1
        have hdt : ((d : Int) * t).natAbs = d * t.natAbs := by rw [Int.natAbs_mul, Int.natAbs_natCast]
        have hpb := dot_bound hp (T' ++ u :: t :: T2)
        have hLe1 : Le (A' ++ a :: d :: List.replicate M.length 0) (N' ++ m :: d :: M) := by
          refine le_append (inRange_le hin2.1) (.cons (by omega) (.cons (Nat.le_refl _) ?_))
          exact inRange_le (zeros_inRange fun x hx => (hpos x (by simp [hx])).1)
        have hqb := dot_bound hLe1 (T' ++ u :: t :: T2)
        have hLe2 : Le (A' ++ (a + 1) :: 0 :: List.replicate M.length 0) (N' ++ m :: d :: M) := by
          refine le_append (inRange_le hin2.1) (.cons (by omega) (.cons (Nat.zero_le _) ?_))
          exact inRange_le (zeros_inRange fun x hx => (hpos x (by simp [hx])).1)
        have hqb2 := dot_bound hLe2 (T' ++ u :: t :: T2)
        have hoff : dot (A' ++ a :: d :: List.replicate M.length 0) (T' ++ u :: t :: T2) - dot p (T' ++ u :: t :: T2) +
            (u - (d : Int) * t) =
            dot (A' ++ (a + 1) :: 0 :: List.replicate M.length 0) (T' ++ u :: t :: T2) - dot p (T' ++ u :: t :: T2) := by
          rw [dot_append (by omega), dot_append (by omega)]
          simp only [dot_cons]
          push_cast; ring
        rw [← c1]
        have i1 : i32 ((a : Int) + 1) = some ((a : Int) + 1) := i32_ok (by omega) (by omega)
        have i2 : isz ((d : Int) * t) = some ((d : Int) * t) := isz_ok (by omega) (by omega)
        have i3 : isz (u - (d : Int) * t) = some (u - (d : Int) * t) := isz_ok (by omega) (by omega)
        rw [carry_succ hg1 hg2 hg3 i1 hg4 hg5 i2 i3 (isz_ok (by omega) (by omega))]
        rw [hset, hoff]
      · rw [c2, rowRank_append (by omega), rowRank_append (by omega)]
        simp only [rowRank, List.prod_cons]
        ring
    · refine ⟨A ++ d :: List.replicate M.length 0, false, ?_, rfl, by simp [hA, hN], fun _ => ?_, by simp⟩
      · have hdi : ¬ ((d : Int) = n) := by omega
        conv_lhs => unfold carry
        simp only [hg1, hg2, Option.bind_eq_bind, Option.bind_some, if_neg hdi]
      · refine List.rel_append hin (.cons (by omega) (zeros_inRange fun m hm => (hpos m (by simp [hm])).1))

/-- Advancing the iterator goes to the next index tuple in row-major order. -/
theorem next_spec {s : Span} {ns p : List Nat} (h : Shape s ns) (hp : ∀ n ∈ ns, 0 < n) (hin : InRange p ns) (a : Int) :
    ∃ p', next s ⟨some a, ints p⟩ =
        some ⟨if rowRank p ns + 1 = ns.prod then none else some (a + (dot p' s.stride - dot p s.stride)), ints p'⟩ ∧
      (rowRank p ns + 1 < ns.prod → InRange p' ns ∧ rowRank p' ns = rowRank p ns + 1) := by
  have hne : ns ≠ [] := by rintro rfl; exact absurd h.pos (by simp)
  have hlp : p.length = ns.length := hin.length_eq
  have hpne : p ≠ [] := by rintro rfl; simp at hlp; exact hne (List.length_eq_zero_iff.1 hlp.symm)
  have hrank := h.rank
  have htne : s.stride ≠ [] := by
    intro e; rw [e] at hrank; simp at hrank; exact hne (List.length_eq_zero_iff.1 hrank.symm)
  obtain ⟨N, n, rfl⟩ : ∃ A b, ns = A ++ [b] := ⟨ns.dropLast, ns.getLast hne, (List.dropLast_append_getLast hne).symm⟩
  obtain ⟨A, d, rfl⟩ : ∃ A b, p = A ++ [b] := ⟨p.dropLast, p.getLast hpne, (List.dropLast_append_getLast hpne).symm⟩
  obtain ⟨T, t, hT⟩ : ∃ A b, s.stride = A ++ [b] :=
    ⟨s.stride.dropLast, s.stride.getLast htne, (List.dropLast_append_getLast htne).symm⟩
  have hAN : A.length = N.length := by simpa using hlp
  have hTN : T.length = N.length := by rw [hT] at hrank; simpa using hrank
  have hin2 : InRange A N ∧ d < n := inRange_snoc hin
  have hall : ∀ m ∈ N ++ [n], 0 < m ∧ m < 2147483648 := fun m hm => ⟨hp m hm, h.fits m hm⟩
  have hn := hall n (by simp)
  have hsmall := h.small
  rw [hT] at hsmall ⊢
  obtain ⟨p', done, c1, c2, c3, c4, c5⟩ := carry_spec (p := A ++ [d]) A.length A N [] [] (d + 1) n T [] t rfl hAN.symm
    (by omega) rfl rfl hin2.1 hin2.2 hall (inRange_le hin) hsmall
  have hoff : dot (A ++ [d + 1]) (T ++ [t]) - dot (A ++ [d]) (T ++ [t]) = t := by
    rw [dot_append (by omega), dot_append (by omega)]
    simp only [dot_cons, dot_nil]; push_cast; ring
  rw [hoff] at c1
  have hrr : rowRank (A ++ [d + 1]) (N ++ [n]) = rowRank (A ++ [d]) (N ++ [n]) + 1 := by
    rw [rowRank_append hAN, rowRank_append hAN]
    simp [rowRank]; omega
  rw [hrr] at c2
  have hlt := rowRank_lt hin
  have hdone : done = decide (rowRank (A ++ [d]) (N ++ [n]) + 1 = (N ++ [n]).prod) := by
    cases done with
    | true =>
      have := c5 rfl
      rw [c2] at this
      simp [this]
    | false =>
      have := rowRank_lt (c4 rfl)
      rw [c2] at this
      simp; simp at this; omega
  have hpos1 : (ints (A ++ [d]))[A.length]? = some (d : Int) := by rw [ints_get, get_snoc]; rfl
  have hset : (ints (A ++ [d])).set A.length ((d : Int) + 1) = ints (A ++ [d + 1]) := by
    have := set_snoc (ints A) (d : Int) ((d : Int) + 1) []
    rw [ints_length] at this
    simpa [ints_append] using this
  have hi32 : i32 ((d : Int) + 1) = some ((d : Int) + 1) := i32_ok (by omega) (by omega)
  have hnext : nextN s.shape s.stride (ints (A ++ [d])) = some (ints p', dot p' (T ++ [t]) - dot (A ++ [d]) (T ++ [t]), done) := by
    have hlen : s.shape.length = A.length + 1 := by rw [h.shape]; simp [hAN]
    unfold nextN
    by_cases h1 : s.shape.length = 1
    · rw [if_pos h1]
      have hA0 : A = [] := List.length_eq_zero_iff.1 (by omega)
      have hN0 : N = [] := List.length_eq_zero_iff.1 (by omega)
      have hT0 : T = [] := List.length_eq_zero_iff.1 (by omega)
      subst hA0 hN0 hT0
      rw [h.shape, hT]
      have hcc : carry (ints ([] ++ [n])) ([] ++ [t]) ([] : List Nat).length (ints ([] ++ [d + 1])) t =
          some (ints [d + 1], t, decide (((d + 1 : Nat) : Int) = n)) := rfl
      rw [hcc] at c1
      rw [next1_eq (x := (d : Int)) (n := (n : Int)) (t := t) rfl hi32 rfl rfl, ← c1]
      rfl
    · rw [if_neg h1]
      have hl1 : s.shape.length - 1 = A.length := by omega
      have hgt : (T ++ [t])[A.length]? = some t := by rw [hAN, ← hTN, get_snoc]
      rw [next2_eq (by rw [hl1, hT]; exact hgt) (by rw [hl1]; exact hpos1) hi32, hl1, hT, h.shape, hset]
      exact c1
  refine ⟨p', ?_, ?_⟩
  · simp only [next, hnext, Option.bind_eq_bind, Option.bind_some]
    rw [hdone]
    by_cases hc : rowRank (A ++ [d]) (N ++ [n]) + 1 = (N ++ [n]).prod
    · simp [hc]
    · simp [hc]
  · intro hlt'
    have : done = false := by
      rw [hdone]; simp; simp at hlt'; omega
    exact ⟨c4 this, c2⟩

theorem range_mul (n P : Nat) :
    ((List.range n).flatMap fun i => (List.range P).map fun k => i * P + k) = List.range (n * P) := by
  induction n with
  | zero => simp
  | succ n ih =>
    rw [List.range_succ, List.flatMap_append, ih, Nat.add_mul, Nat.one_mul, List.range_add]
    simp

/-- The tuples are listed in row-major order. -/
theorem map_rowRank_tuples (ns : List Nat) : (tuples ns).map (rowRank · ns) = List.range ns.prod := by
  induction ns with
  | nil => rfl
  | cons n ns ih =>
    rw [List.prod_cons, ← range_mul, ← ih]
    simp only [tuples, List.map_flatMap, List.map_map]
    rfl

theorem tuples_inRange {ns p : List Nat} : p ∈ tuples ns ↔ InRange p ns := by
  induction ns generalizing p with
  | nil =>
    simp only [tuples, List.mem_singleton]
    constructor
    · rintro rfl; exact .nil
    · intro h; cases h; rfl
  | cons n ns ih =>
    simp only [tuples, List.mem_flatMap, List.mem_range, List.mem_map]
    constructor
    · rintro ⟨i, hi, q, hq, rfl⟩
      exact .cons hi (ih.1 hq)
    · intro h
      cases h with
      | cons h1 h2 => exact ⟨_, h1, _, ih.2 h2, rfl⟩

theorem tuples_length (ns : List Nat) : (tuples ns).length = ns.prod := by
  have := congrArg List.length (map_rowRank_tuples ns)
  simpa using this

/-- A list of consecutive tuples, up to the last one. -/
def Consec (ns : List Nat) (k : Nat) (L : List (List Nat)) : Prop :=
  (∀ p ∈ L, InRange p ns) ∧ L.map (rowRank · ns) = List.range' k (ns.prod - k)

theorem consec_tuples (ns : List Nat) : Consec ns 0 (tuples ns) := by
  refine ⟨fun p hp => tuples_inRange.1 hp, ?_⟩
  rw [map_rowRank_tuples, List.range_eq_range']; rfl

theorem Consec.cons {ns : List Nat} {k : Nat} {p : List Nat} {L : List (List Nat)} (h : Consec ns k (p :: L)) :
    InRange p ns ∧ rowRank p ns = k ∧ k < ns.prod ∧ Consec ns (k + 1) L := by
  obtain ⟨h1, h2⟩ := h
  have hlt : 0 < ns.prod - k := by
    by_contra hn
    rw [show ns.prod - k = 0 by omega] at h2
    simp at h2
  obtain ⟨m, hm⟩ : ∃ m, ns.prod - k = m + 1 := ⟨ns.prod - k - 1, by omega⟩
  rw [hm, List.range'_succ, List.map_cons, List.cons.injEq] at h2
  refine ⟨h1 p (by simp), h2.1, by omega, fun q hq => h1 q (by simp [hq]), ?_⟩
  rw [h2.2]; congr 1; omega

/-- What remains after a tuple: nothing, or it starts with the next one. -/
theorem next_consec {s : Span} {ns p : List Nat} {L : List (List Nat)} {k : Nat} (h : Shape s ns) (hp : ∀ n ∈ ns, 0 < n)
    (hc : Consec ns k (p :: L)) {d : Int} (hd : s.data = some d) :
    ∃ p', next s ⟨some (addr s p), ints p⟩ = some ⟨if L = [] then none else some (addr s p'), ints p'⟩ ∧
      (∀ q L', L = q :: L' → q = p') := by
  obtain ⟨h1, h2, h3, h4⟩ := hc.cons
  obtain ⟨p', n1, n2⟩ := next_spec h hp h1 (addr s p)
  refine ⟨p', ?_, ?_⟩
  · rw [n1]
    have hiff : rowRank p ns + 1 = ns.prod ↔ L = [] := by
      rw [h2]
      have hl := congrArg List.length h4.2
      simp only [List.length_map, List.length_range'] at hl
      rw [← List.length_eq_zero_iff]; omega
    have ha : addr s p + (dot p' s.stride - dot p s.stride) = addr s p' := by unfold addr; ring
    rw [ha]
    by_cases hL : L = []
    · rw [if_pos hL, if_pos (hiff.2 hL)]
    · rw [if_neg hL, if_neg (fun e => hL (hiff.1 e))]
  · rintro q L' rfl
    obtain ⟨g1, g2, g3, _⟩ := h4.cons
    have := n2 (by omega)
    exact rowRank_inj g1 this.1 (by omega)

theorem eachLoop_spec {s : Span} {ns : List Nat} (h : Shape s ns) (hp : ∀ n ∈ ns, 0 < n) {d : Int} (hd : s.data = some d)
    (L : List (List Nat)) : ∀ (p : List Nat) (k f : Nat), Consec ns k (p :: L) → L.length < f →
    eachLoop s f ⟨some (addr s p), ints p⟩ = some ((p :: L).map fun q => (ints q, addr s q)) := by
  induction L with
  | nil =>
    intro p k f hc hf
    obtain ⟨f, rfl⟩ : ∃ g, f = g + 1 := ⟨f - 1, by simp at hf; omega⟩
    obtain ⟨p', n1, -⟩ := next_consec h hp hc hd
    rw [eachLoop]
    simp only [n1, if_true, Option.bind_eq_bind, Option.bind_some]
    unfold eachLoop
    simp
  | cons q L ih =>
    intro p k f hc hf
    obtain ⟨f, rfl⟩ : ∃ g, f = g + 1 := ⟨f - 1, by simp at hf; omega⟩
    obtain ⟨p', n1, n2⟩ := next_consec h hp hc hd
    have e := n2 q L rfl
    subst e
    rw [eachLoop]
    simp only [n1, Option.bind_eq_bind, Option.bind_some, if_neg (List.cons_ne_nil q L)]
    rw [ih q (k + 1) f hc.cons.2.2.2 (by simp at hf; omega)]
    simp

theorem begin_eq {s : Span} {ns : List Nat} (h : Shape s ns) {d : Int} (hd : s.data = some d) :
    begin s = ⟨some (addr s (List.replicate ns.length 0)), ints (List.replicate ns.length 0)⟩ := by
  unfold begin addr
  rw [dot_zeros, hd, h.shape, ints_length]
  simp [ints]

/-- The first tuple is the tuple of zeros. -/
theorem tuples_head {ns : List Nat} (hp : ∀ n ∈ ns, 0 < n) : ∃ L, tuples ns = List.replicate ns.length 0 :: L := by
  have hpos := prod_pos' hp
  cases hT : tuples ns with
  | nil =>
    have := tuples_length ns
    rw [hT] at this; simp at this; omega
  | cons p L =>
    have hc := consec_tuples ns
    rw [hT] at hc
    obtain ⟨h1, h2, _, _⟩ := hc.cons
    exact ⟨L, by rw [rowRank_inj h1 (zeros_inRange hp) (by rw [h2, rowRank_zeros])]⟩

theorem each_spec {s : Span} {ns : List Nat} (h : Shape s ns) (hp : ∀ n ∈ ns, 0 < n) {d : Int} (hd : s.data = some d)
    {f : Nat} (hf : ns.prod ≤ f) : each s f = some ((tuples ns).map fun q => (ints q, addr s q)) := by
  obtain ⟨L, hL⟩ := tuples_head hp
  have hc := consec_tuples ns
  have hl := tuples_length ns
  rw [hL] at hc hl ⊢
  unfold each
  rw [begin_eq h hd]
  exact eachLoop_spec h hp hd L _ 0 f hc (by simp at hl; omega)

theorem setAllLoop_spec {β : Type} {s : Span} {ns : List Nat} (v : β) (h : Shape s ns) (hp : ∀ n ∈ ns, 0 < n) {d : Int}
    (hd : s.data = some d) (L : List (List Nat)) : ∀ (p : List Nat) (k f : Nat) (mem : Int → Option β),
    Consec ns k (p :: L) → L.length < f → (∀ q ∈ p :: L, mem (addr s q) ≠ none) →
    setAllLoop s v f ⟨some (addr s p), ints p⟩ mem =
      some fun b => if ∃ q ∈ p :: L, addr s q = b then some v else mem b := by
  induction L with
  | nil =>
    intro p k f mem hc hf hm
    obtain ⟨f, rfl⟩ : ∃ g, f = g + 1 := ⟨f - 1, by simp at hf; omega⟩
    obtain ⟨p', n1, -⟩ := next_consec h hp hc hd
    obtain ⟨x, hx⟩ := Option.ne_none_iff_exists'.1 (hm p (by simp))
    rw [setAllLoop]
    simp only [hx, n1, if_true, Option.bind_eq_bind, Option.bind_some]
    unfold setAllLoop
    simp only [List.mem_singleton, exists_eq_left]
    congr 1; funext b
    simp only [eq_comm]
  | cons q L ih =>
    intro p k f mem hc hf hm
    obtain ⟨f, rfl⟩ : ∃ g, f = g + 1 := ⟨f - 1, by simp at hf; omega⟩
    obtain ⟨p', n1, n2⟩ := next_consec h hp hc hd
    have e := n2 q L rfl
    subst e
    obtain ⟨x, hx⟩ := Option.ne_none_iff_exists'.1 (hm p (by simp))
    rw [setAllLoop]
    simp only [hx, n1, Option.bind_eq_bind, Option.bind_some, if_neg (List.cons_ne_nil q L)]
    rw [ih q (k + 1) f _ hc.cons.2.2.2 (by simp at hf; omega) (by
      intro r hr
      show (if _ then _ else _) ≠ none
      split
      · simp
      · exact hm r (by simp at hr ⊢; tauto))]
    congr 1; funext b
    by_cases h1 : ∃ r ∈ q :: L, addr s r = b
    · have h2 : ∃ r ∈ p :: q :: L, addr s r = b := by
        obtain ⟨r, hr, e⟩ := h1
        exact ⟨r, List.mem_cons_of_mem _ hr, e⟩
      rw [if_pos h1, if_pos h2]
    · rw [if_neg h1]
      by_cases h3 : b = addr s p
      · rw [if_pos h3, if_pos ⟨p, by simp, h3.symm⟩]
      · rw [if_neg h3, if_neg]
        rintro ⟨r, hr, e⟩
        rcases List.mem_cons.1 hr with rfl | hr
        · exact h3 e.symm
        · exact h1 ⟨r, hr, e⟩

theorem eqLoop_spec {β : Type} (eq : β → β → Bool) (mem : Int → Option β) (m : Int → β) {x y : Span} {ns : List Nat}
    (h : Shape x ns) (h' : Shape y ns) (hp : ∀ n ∈ ns, 0 < n) {d d' : Int} (hd : x.data = some d) (hd' : y.data = some d')
    (L : List (List Nat)) : ∀ (p : List Nat) (k f : Nat), Consec ns k (p :: L) → L.length < f →
    (∀ q ∈ p :: L, mem (addr x q) = some (m (addr x q)) ∧ mem (addr y q) = some (m (addr y q))) →
    eqLoop eq mem x y f ⟨some (addr x p), ints p⟩ ⟨some (addr y p), ints p⟩ =
      some ((p :: L).all fun q => eq (m (addr x q)) (m (addr y q))) := by
  induction L with
  | nil =>
    intro p k f hc hf hm
    obtain ⟨f, rfl⟩ : ∃ g, f = g + 1 := ⟨f - 1, by simp at hf; omega⟩
    obtain ⟨p', n1, -⟩ := next_consec h hp hc hd
    obtain ⟨p'', n1', -⟩ := next_consec h' hp hc hd'
    have hm1 := hm p (by simp)
    rw [eqLoop]
    simp only [hm1, n1, n1', if_true, Option.bind_eq_bind, Option.bind_some]
    unfold eqLoop
    by_cases he : eq (m (addr x p)) (m (addr y p)) = true
    · simp [he]
    · simp [he]
  | cons q L ih =>
    intro p k f hc hf hm
    obtain ⟨f, rfl⟩ : ∃ g, f = g + 1 := ⟨f - 1, by simp at hf; omega⟩
    obtain ⟨p', n1, n2⟩ := next_consec h hp hc hd
    obtain ⟨p'', n1', n2'⟩ := next_consec h' hp hc hd'
    have e := n2 q L rfl
    have e' := n2' q L rfl
    subst e
    subst e'
    have hm1 := hm p (by simp)
    rw [eqLoop]
    simp only [hm1, n1, n1', Option.bind_eq_bind, Option.bind_some, if_neg (List.cons_ne_nil q L)]
    rw [ih q (k + 1) f hc.cons.2.2.2 (by simp at hf; omega) (fun r hr => hm r (List.mem_cons_of_mem _ hr))]
    by_cases he : eq (m (addr x p)) (m (addr y p)) = true
    · simp [he]
    · simp [he]

end Verif.Cspan
