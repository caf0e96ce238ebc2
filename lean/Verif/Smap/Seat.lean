import Verif.Smap.Iter
/-
Iterators in terms of the finite map: `Seat cmp m it P S` says that the map holds the entries
`P ++ S` and that the iterator stands at the first entry of `S`.
-/
set_option linter.unusedSimpArgs false
set_option linter.unusedVariables false
namespace Verif.Smap
open T Spec
variable {κ ν : Type} {cmp : κ → κ → Int} {m : Map κ ν}

def Seat (cmp : κ → κ → Int) (m : Map κ ν) (it : Iter) (P S : FMap κ ν) : Prop :=
  ∃ t fs A B, Rep cmp m t fs (P ++ S) ∧ lab t = A ++ B ∧ A.map Prod.snd = P.map some ∧ B.map Prod.snd = S.map some ∧ At m.nodes (lev t) it B

theorem Seat.holds {it : Iter} {P S : FMap κ ν} (h : Seat cmp m it P S) : Holds cmp m (P ++ S) := by
  obtain ⟨t, fs, A, B, h, -⟩ := h
  exact ⟨t, fs, h⟩

theorem lab_pairwise {t : T κ ν} {M : FMap κ ν} (h : Ord cmp t M) :
    (lab t).Pairwise fun x y => ∀ a b, x.2 = some a → y.2 = some b → cmp a.1 b.1 < 0 := by
  have h1 : (M.map some).Pairwise fun x y => ∀ a b, x = some a → y = some b → cmp a.1 b.1 < 0 := by
    rw [List.pairwise_map]
    refine h.2.imp ?_
    intro a b hab a' b' ha hb
    simp only [Option.some.injEq] at ha hb
    subst ha hb
    exact hab
  rw [← h.1, List.pairwise_map] at h1
  exact h1

/-- An entry has one place in the tree. -/
theorem lab_unique (hc : Lawful cmp) {t : T κ ν} {M : FMap κ ν} (h : Ord cmp t M) {A B A' B' : List (Nat × Option (κ × ν))} {i i' : Nat}
    {e e' : κ × ν} (h1 : lab t = A ++ (i, some e) :: B) (h2 : lab t = A' ++ (i', some e') :: B') (h3 : cmp e.1 e'.1 = 0) :
    A = A' ∧ i = i' ∧ e = e' ∧ B = B' := by
  have hp := lab_pairwise h
  have h3' := (hc.eq_iff _ _).mp h3
  have key := h1.symm.trans h2
  rcases List.append_eq_append_iff.mp key with ⟨C, hC1, hC2⟩ | ⟨C, hC1, hC2⟩
  · cases C with
    | nil =>
      simp only [List.append_nil, List.nil_append, List.cons.injEq, Prod.mk.injEq, Option.some.injEq] at hC1 hC2
      exact ⟨hC1.symm, hC2.1.1, hC2.1.2, hC2.2⟩
    | cons c C =>
      simp only [List.cons_append, List.cons.injEq] at hC2
      rw [h1, hC2.2, List.pairwise_append, List.pairwise_cons] at hp
      have := hp.2.1.1 (i', some e') (by simp) e e' rfl rfl
      omega
  · cases C with
    | nil =>
      simp only [List.append_nil, List.nil_append, List.cons.injEq, Prod.mk.injEq, Option.some.injEq] at hC1 hC2
      exact ⟨hC1, hC2.1.1.symm, hC2.1.2.symm, hC2.2.symm⟩
    | cons c C =>
      simp only [List.cons_append, List.cons.injEq] at hC2
      rw [h2, hC2.2, List.pairwise_append, List.pairwise_cons] at hp
      have := hp.2.1.1 (i, some e) (by simp) e' e rfl rfl
      omega

/-- The keys before and after an entry. -/
theorem ascending_mid {P S : FMap κ ν} {e : κ × ν} (h : Ascending cmp (P ++ e :: S)) :
    (∀ a ∈ P, cmp a.1 e.1 < 0) ∧ (∀ b ∈ S, cmp e.1 b.1 < 0) := by
  unfold Ascending at h
  rw [List.pairwise_append, List.pairwise_cons] at h
  exact ⟨fun a ha => h.2.2 a ha e (by simp), h.2.1.1⟩

theorem map_some_inj {a b : FMap κ ν} (h : a.map some = b.map some) : a = b := by
  have := congrArg (List.filterMap id) h
  simpa using this

theorem below_append_from (hc : Lawful cmp) (k : κ) {M : FMap κ ν} (h : Ascending cmp M) : below cmp k M ++ from' cmp k M = M := by
  induction M with
  | nil => rfl
  | cons e M ih =>
    have hp := List.pairwise_cons.mp h
    by_cases h1 : cmp e.1 k < 0
    · have h2 : ¬ 0 ≤ cmp e.1 k := by omega
      have := ih hp.2
      simp only [below, from'] at this ⊢
      simp [h1, h2, this]
    · have hb : below cmp k (e :: M) = [] := filter_none fun x hx => by
        simp only [List.mem_cons] at hx
        rcases hx with rfl | hx
        · simpa using h1
        · have := hc.gt_right (hp.1 x hx) (show 0 ≤ cmp e.1 k by omega)
          simp; omega
      have hf : from' cmp k (e :: M) = e :: M := filter_all fun x hx => by
        simp only [List.mem_cons] at hx
        rcases hx with rfl | hx
        · simpa using h1
        · have := hc.gt_right (hp.1 x hx) (show 0 ≤ cmp e.1 k by omega)
          simp; omega
      rw [hb, hf, List.nil_append]

/-! ### using an iterator -/

theorem Seat.ref_none {it : Iter} {P : FMap κ ν} (h : Seat cmp m it P []) : it.ref = none := by
  obtain ⟨t, fs, A, B, -, -, -, hB, hat⟩ := h
  have : B = [] := by simpa using hB
  subst this
  exact hat

theorem Seat.ref_some {it : Iter} {P S : FMap κ ν} {e : κ × ν} (h : Seat cmp m it P (e :: S)) :
    ∃ i, it.ref = some i ∧ load m.nodes i = some e := by
  obtain ⟨t, fs, A, B, hR, hl, hA, hB, hat⟩ := h
  cases B with
  | nil => simp at hB
  | cons x B =>
    simp only [List.map_cons, List.cons.injEq] at hB
    refine ⟨x.1, hat.1, hR.is.load ?_⟩
    rw [← hB.1, hl]
    simp

theorem begin_seat {M : FMap κ ν} (h : Holds cmp m M) : ∃ it, begin' m = some it ∧ Seat cmp m it [] M := by
  obtain ⟨t, fs, h⟩ := h
  obtain ⟨it, h1, h2⟩ := begin_at h
  exact ⟨it, h1, t, fs, [], lab t, h, rfl, rfl, h.ord.1, h2⟩

theorem Seat.next {it : Iter} {P S : FMap κ ν} {e : κ × ν} (h : Seat cmp m it P (e :: S)) :
    ∃ it', Smap.next m it = some it' ∧ Seat cmp m it' (P ++ [e]) S := by
  obtain ⟨t, fs, A, B, hR, hl, hA, hB, hat⟩ := h
  cases B with
  | nil => simp at hB
  | cons x B =>
    simp only [List.map_cons, List.cons.injEq] at hB
    obtain ⟨it', h1, h2⟩ := next_at hR.lev36 hat
    refine ⟨it', h1, t, fs, A ++ [x], B, by simpa using hR, by simpa using hl, by simp [hA, hB.1], hB.2, h2⟩

theorem Seat.each {it : Iter} {P S : FMap κ ν} (h : Seat cmp m it P S) {f : Nat} (hf : S.length ≤ f) : eachFrom m f it = some S := by
  obtain ⟨t, fs, A, B, hR, hl, hA, hB, hat⟩ := h
  refine eachFrom_at hR.lev36 hR.is hat hB (fun x hx => by rw [hl]; simp [hx]) ?_
  have := congrArg List.length hB
  simp at this
  omega

theorem find_seat (hc : Lawful cmp) {P S : FMap κ ν} {e : κ × ν} (h : Holds cmp m (P ++ e :: S)) {k : κ} (hk : cmp e.1 k = 0) (tn0 : Option Nat) :
    ∃ it, findIt cmp m k tn0 = some it ∧ Seat cmp m it P (e :: S) := by
  obtain ⟨t, fs, hR⟩ := h
  obtain ⟨hl, hr⟩ := ascending_mid hR.ord.2
  obtain ⟨it, A, i, B, h1, h2, h3⟩ := (findIt_spec hc hR k tn0).1 e (find_mid hc hl hk)
  obtain ⟨A', X, hX1, hX2, hX3⟩ := List.map_eq_append_iff.mp (hR.ord.1.trans List.map_append)
  cases X with
  | nil => simp at hX3
  | cons x X =>
    obtain ⟨j, y⟩ := x
    simp only [List.map_cons, List.cons.injEq] at hX3
    obtain ⟨rfl, hX3⟩ := hX3
    obtain ⟨rfl, rfl, -, rfl⟩ := lab_unique hc hR.ord h2 hX1 (hc.refl _)
    exact ⟨it, h1, t, fs, A, (i, some e) :: B, hR, h2, hX2, by simp [hX3], h3⟩

theorem lower_seat (hc : Lawful cmp) {M : FMap κ ν} (h : Holds cmp m M) (k : κ) :
    ∃ it, lowerBound cmp m k = some it ∧ Seat cmp m it (below cmp k M) (from' cmp k M) := by
  obtain ⟨t, fs, hR⟩ := h
  obtain ⟨it, A, B, h1, h2, h3, h4⟩ := lowerBound_spec hc hR k
  have hM := below_append_from hc k hR.ord.2
  refine ⟨it, h1, t, fs, A, B, by rw [hM]; exact hR, h2, h4, ?_, h3⟩
  have ho := hR.ord.1
  rw [h2, ← hM, List.map_append, List.map_append, h4] at ho
  exact List.append_cancel_left ho

/-! ### erasing at an iterator -/

theorem Seat.eraseAt (hc : Lawful cmp) {it : Iter} {P S : FMap κ ν} {e : κ × ν} (h : Seat cmp m it P (e :: S)) (inl : Bool) :
    ∃ it' m', Smap.eraseAt cmp inl m it = some (it', m', valueDrop e) ∧ Seat cmp m' it' P S := by
  obtain ⟨i, r1, r2⟩ := h.ref_some
  obtain ⟨it1, n1, n2⟩ := h.next
  obtain ⟨t, fs, A, B, hR, hl, hA, hB, hat⟩ := h
  obtain ⟨hlt, hgt⟩ := ascending_mid hR.ord.2
  obtain ⟨m', u, x, fs', e1, e2, e3⟩ := erase_rep hc hR (find_mid hc hlt (hc.refl e.1))
  rw [remove_mid hc hlt hgt (hc.refl e.1)] at e2
  cases B with
  | nil => simp at hB
  | cons y B =>
    obtain ⟨j0, y⟩ := y
    simp only [List.map_cons, List.cons.injEq] at hB
    obtain ⟨rfl, hB⟩ := hB
    obtain ⟨A1, i1, eo, B1, q1, q2, q3, q4⟩ := e3
    obtain ⟨rfl, rfl, rfl, rfl⟩ := lab_unique hc hR.ord hl q1 (by rw [hc.eq_iff]; exact q2)
    have hsuf : ∃ A2, lab u = A2 ++ B ∧ A2.map Prod.snd = P.map some := by
      rcases q4 with ⟨-, q4⟩ | ⟨-, A', ex, rfl, q4⟩
      · exact ⟨A, q4, hA⟩
      · exact ⟨A' ++ [(j0, ex)], by simp [q4], by simpa using hA⟩
    obtain ⟨A2, s1, s2⟩ := hsuf
    cases S with
    | nil =>
      refine ⟨it1, m', ?_, u, fs', A2, B, by simpa using e2, s1, s2, hB, ?_⟩
      · have hn := n2.ref_none
        simp only [Smap.eraseAt, r1, r2, n1, e1, hn, Option.bind_eq_bind, Option.bind_some]
      · have : B = [] := by simpa using hB
        subst this
        exact n2.ref_none
    | cons e' S =>
      obtain ⟨j, k1, k2⟩ := n2.ref_some
      have hl' : load m'.nodes j = some e' := by
        obtain ⟨t2, fs2, A3, B3, hR3, hl3, hA3, hB3, hat3⟩ := n2
        -- the node of the next entry is that of `B`
        cases B with
        | nil => simp at hB
        | cons b B =>
          cases B3 with
          | nil => simp at hB3
          | cons b3 B3 =>
            simp only [List.map_cons, List.cons.injEq] at hB hB3
            -- both trees are read from the same array
            have hb : At m.nodes (lev t) it ((j0, some e) :: b :: B) := hat
            obtain ⟨itx, x1, x2⟩ := next_at hR.lev36 hb
            rw [n1] at x1
            simp only [Option.some.injEq] at x1
            subst x1
            have hj : j = b.1 := by
              have := x2.1
              rw [k1] at this
              simpa using this
            rw [hj]
            refine e2.is.load ?_
            rw [s1, ← hB.1]
            simp
      obtain ⟨it2, f1, f2⟩ := find_seat hc (P := P) (S := S) ⟨u, fs', e2⟩ (hc.refl e'.1) it1.tn
      refine ⟨it2, m', ?_, f2⟩
      simp only [Smap.eraseAt, r1, r2, n1, e1, k1, k2, hl', Option.bind_eq_bind, Option.bind_some]
      have : (if inl = true then e'.1 else e'.1) = e'.1 := by split <;> rfl
      rw [this, f1]
      rfl

theorem eraseToEnd_seat (hc : Lawful cmp) (inl : Bool) : ∀ {S : FMap κ ν} {m : Map κ ν} {it : Iter} {P : FMap κ ν} {f : Nat}, Seat cmp m it P S → S.length ≤ f →
    ∃ it' m', eraseToEnd cmp inl f m it = some (it', m', S.flatMap valueDrop) ∧ Seat cmp m' it' P []
  | [], m, it, P, f, h, _ => ⟨it, m, by unfold eraseToEnd; rw [h.ref_none]; simp, h⟩
  | e :: S, m, it, P, 0, h, hf => by simp at hf
  | e :: S, m, it, P, f + 1, h, hf => by
    obtain ⟨i, r1, -⟩ := h.ref_some
    obtain ⟨it1, m1, a1, a2⟩ := h.eraseAt hc inl
    obtain ⟨it2, m2, b1, b2⟩ := eraseToEnd_seat hc inl (f := f) a2 (by simpa using hf)
    refine ⟨it2, m2, ?_, b2⟩
    unfold eraseToEnd
    rw [r1]
    simp only [a1, b1, Option.bind_eq_bind, Option.bind_some, List.flatMap_cons]

theorem Seat.len {it : Iter} {P S : FMap κ ν} (h : Seat cmp m it P S) : S.length ≤ m.nodes.length := by
  obtain ⟨t, fs, A, B, hR, -⟩ := h
  have := hR.height_lt.2
  simp at this
  omega

theorem eraseRangeLoop_seat [DecidableEq κ] (hc : Lawful cmp) {e2 : κ × ν} {S2 : FMap κ ν} : ∀ {S1 : FMap κ ν} {m : Map κ ν} {it : Iter} {P : FMap κ ν} {k : κ} {f : Nat},
    Seat cmp m it P (S1 ++ e2 :: S2) → (S1 ++ e2 :: S2).head?.map Prod.fst = some k → S1.length < f →
    ∃ it' m', eraseRangeLoop cmp false e2.1 f m it k = some (it', m', S1.flatMap valueDrop) ∧ Seat cmp m' it' P (e2 :: S2)
  | S1, _, _, _, _, 0, _, _, hf => by simp at hf
  | [], m, it, P, k, f + 1, h, hk, _ => by
    simp at hk
    exact ⟨it, m, by simp [eraseRangeLoop, hk], h⟩
  | e :: S1, m, it, P, k, f + 1, h, hk, hf => by
    simp at hk
    subst hk
    rw [List.cons_append] at h
    have hasc : Ascending cmp (P ++ e :: (S1 ++ e2 :: S2)) := by
      obtain ⟨t, fs, hR⟩ := h.holds
      exact hR.ord.2
    obtain ⟨hlt, hgt⟩ := ascending_mid hasc
    have hne : e.1 ≠ e2.1 := by
      intro he
      have := hgt e2 (by simp)
      rw [he, hc.refl] at this
      omega
    obtain ⟨it1, n1, n2⟩ := h.next
    obtain ⟨x, S', hx⟩ : ∃ x S', S1 ++ e2 :: S2 = x :: S' := by
      cases S1 with
      | nil => exact ⟨_, _, rfl⟩
      | cons a S1 => exact ⟨_, _, rfl⟩
    obtain ⟨i, r1, r2⟩ : ∃ i, it1.ref = some i ∧ load m.nodes i = some x := by
      have := n2
      rw [hx] at this
      exact this.ref_some
    obtain ⟨t, fs, hR⟩ := h.holds
    obtain ⟨m', u, y, fs', a1, a2, -⟩ := erase_rep hc hR (find_mid hc hlt (hc.refl e.1))
    rw [remove_mid hc hlt hgt (hc.refl e.1)] at a2
    obtain ⟨it2, f1, f2⟩ := find_seat hc (m := m') (P := P) (e := x) (S := S') ⟨u, fs', by rw [← hx]; exact a2⟩ (hc.refl x.1) it1.tn
    rw [← hx] at f2
    obtain ⟨it3, m3, b1, b2⟩ := eraseRangeLoop_seat hc (k := x.1) (f := f) f2 (by rw [hx]; rfl) (by simpa using hf)
    refine ⟨it3, m3, ?_, b2⟩
    simp only [eraseRangeLoop]
    rw [if_neg hne]
    simp only [n1, r1, r2, a1, f1, b1, Option.bind_eq_bind, Option.bind_some, Bool.false_eq_true, if_false, List.flatMap_cons]

/-! ### the ends -/

theorem front_spec {e : κ × ν} {M : FMap κ ν} (h : Holds cmp m (e :: M)) : front m = some e := by
  obtain ⟨t, fs, h⟩ := h
  have hn : t ≠ .nil := by
    rintro rfl
    exact absurd h.ord.of_nil (by simp)
  obtain ⟨A, j, x, h1, h2⟩ := outermost_left (f := m.nodes.length + 1) h.is hn (by have := h.height_lt; omega)
  have hx : x = some e := by
    have := h.ord.1
    rw [h2] at this
    simp at this
    exact this.1
  simp only [front, h.root, h1, Option.bind_eq_bind, Option.bind_some]
  exact h.is.load (by rw [h2, hx]; simp)

theorem back_spec {e : κ × ν} {M : FMap κ ν} (h : Holds cmp m (M ++ [e])) : back m = some e := by
  obtain ⟨t, fs, h⟩ := h
  have hn : t ≠ .nil := by
    rintro rfl
    exact absurd h.ord.of_nil (by simp)
  obtain ⟨A, j, x, h1, h2⟩ := outermost_right (f := m.nodes.length + 1) h.is hn (by have := h.height_lt; omega)
  have hx : x = some e := by
    have := h.ord.1
    rw [h2] at this
    simp only [List.map_append, List.map_cons, List.map_nil] at this
    have := (List.append_inj' this rfl).2
    simpa using this
  simp only [back, h.root, h1, Option.bind_eq_bind, Option.bind_some]
  exact h.is.load (by rw [h2, hx]; simp)

/-! ### comparison -/

theorem eqLoop_spec {eqf : κ → κ → Bool} {o : Map κ ν} : ∀ {S R : FMap κ ν} {i j : Iter} {P Q : FMap κ ν} {f : Nat}, Seat cmp m i P S → Seat cmp o j Q R →
    S.length = R.length → S.length ≤ f → eqLoop eqf m o f i j = some ((S.zip R).all fun p => eqf p.1.1 p.2.1)
  | [], R, i, j, P, Q, f, h, _, _, _ => by
    unfold eqLoop
    rw [h.ref_none]
    simp
  | e :: S, [], _, _, _, _, _, _, _, hl, _ => by simp at hl
  | e :: S, e' :: R, i, j, P, Q, 0, _, _, _, hf => by simp at hf
  | e :: S, e' :: R, i, j, P, Q, f + 1, h, h', hl, hf => by
    obtain ⟨a, r1, r2⟩ := h.ref_some
    obtain ⟨b, s1, s2⟩ := h'.ref_some
    obtain ⟨i', n1, n2⟩ := h.next
    obtain ⟨j', k1, k2⟩ := h'.next
    have ih := eqLoop_spec (eqf := eqf) n2 k2 (by simpa using hl) (f := f) (by simpa using hf)
    unfold eqLoop
    rw [r1]
    simp only [r2, s1, s2, Option.bind_eq_bind, Option.bind_some, n1, k1, ih, List.zip_cons_cons, List.all_cons]
    cases eqf e.1 e'.1 <;> simp

theorem eq_spec {eqf : κ → κ → Bool} {o : Map κ ν} {M N : FMap κ ν} (h : Holds cmp m M) (h' : Holds cmp o N) :
    eq eqf m o = some (decide (M.length = N.length) && (M.zip N).all fun p => eqf p.1.1 p.2.1) := by
  obtain ⟨i, b1, b2⟩ := begin_seat h
  obtain ⟨j, c1, c2⟩ := begin_seat h'
  have hm : m.size = M.length := by obtain ⟨t, fs, h⟩ := h; exact h.size
  have ho : o.size = N.length := by obtain ⟨t, fs, h⟩ := h'; exact h.size
  simp only [eq, hm, ho]
  by_cases hl : M.length = N.length
  · rw [if_neg (by simp [hl])]
    simp only [b1, c1, Option.bind_eq_bind, Option.bind_some]
    rw [eqLoop_spec b2 c2 hl b2.len]
    simp [hl]
  · rw [if_pos hl]; simp [hl]

/-! ### destruction -/

theorem dropR_spec {d : Buf (Node κ ν)} : ∀ {t : T κ ν} {M : FMap κ ν} {f : Nat}, Is d t → Ord cmp t M → height t < f →
    ∃ ds, dropR d f (idx t) = some ds ∧ ds.Perm (M.flatMap valueDrop)
  | _, _, 0, _, _, hf => by simp at hf
  | .nil, M, f + 1, _, ho, _ => ⟨[], by simp [dropR], by rw [ho.of_nil]; simp⟩
  | .node i lv l eo r, M, f + 1, h, ho, hf => by
    obtain ⟨Ml, e, Mr, rfl, rfl, ol, or', -⟩ := ho.node
    simp only [height] at hf
    obtain ⟨a, a1, a2⟩ := dropR_spec (f := f) h.2.2.1 ol (by omega)
    obtain ⟨b, b1, b2⟩ := dropR_spec (f := f) h.2.2.2 or' (by omega)
    refine ⟨a ++ b ++ valueDrop e, ?_, ?_⟩
    · simp only [dropR, idx_node, h.1, ne_eq, not_false_eq_true, if_true, h.2.1, a1, b1, Option.bind_eq_bind, Option.bind_some]
    · simp only [List.flatMap_append, List.flatMap_cons, List.append_assoc]
      exact a2.append ((List.perm_append_comm.trans (List.Perm.append_left _ b2)))

theorem drop_spec {M : FMap κ ν} (h : Holds cmp m M) : ∃ ds, drop m = some ds ∧ ds.Perm (M.flatMap valueDrop) := by
  obtain ⟨t, fs, h⟩ := h
  unfold drop
  by_cases h0 : m.cap = 0
  · have : M = [] := by
      have := h.len
      cases M with
      | nil => rfl
      | cons => simp at this; omega
    subst this
    exact ⟨[], by simp [h0], by simp⟩
  · rw [if_pos h0, h.root]
    exact dropR_spec h.is h.ord (by have := h.height_lt; omega)

end Verif.Smap
