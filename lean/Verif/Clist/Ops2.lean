import Verif.Clist.Ops
/- Reverse, remove, find, equality, sort and clone. -/
namespace Verif.Clist
variable {α : Type}

theorem Upd.keep2 {h h' : Heap α} {A B : List Nat} (u : Upd h h' A B) {C : List Nat} {D : List Nat}
    (hA : ∀ a, a ∈ A → a ∈ C) (hD : ∀ a, a ∈ D ↔ (a ∈ B ∨ (a ∈ C ∧ a ∉ A)))
    (hl : ∀ a ∈ C, a ∉ A → (h.rd a).isSome) : Upd h h' C D := by
  have hB : ∀ a, a ∈ B → a ∈ C → a ∈ A := by
    intro a hb hc
    by_contra ha
    have := u.fresh a hb ha
    have h2 := hl a hc ha
    rw [this] at h2; cases h2
  refine ⟨fun a h1 h2 => u.frame a (fun hh => h1 (hA a hh)) (fun hh => h2 ((hD a).2 (.inl hh))),
    fun a h1 h2 => ?_, fun a h1 h2 => ?_, fun a h1 => ?_⟩
  · have h3 : a ∈ A := by by_contra h3; exact h2 ((hD a).2 (.inr ⟨h1, h3⟩))
    exact u.freed a h3 (fun hh => h2 ((hD a).2 (.inl hh)))
  · rcases (hD a).1 h1 with h3 | h3
    · exact u.fresh a h3 (fun hh => h2 (hA a hh))
    · exact absurd h3.1 h2
  · rcases (hD a).1 h1 with h3 | h3
    · exact u.live a h3
    · by_cases h4 : a ∈ B
      · exact u.live a h4
      · rw [u.frame a h3.2 h4]; exact hl a h3.1 h3.2

/-! ### reverse -/

theorem reverseLoop_spec {f : Nat} {h : Heap α} {last rev : Option Nat} {A B : List (Nat × α)}
    (i : IsList h last A) (j : IsList h rev B) (hd' : ∀ a ∈ addrs A, a ∉ addrs B) (hf : A.length < f) :
    ∃ h' last', reverseLoop f ⟨h, last⟩ rev = some ⟨h', last'⟩ ∧ IsList h' last' (A.reverse ++ B) ∧
      (∀ b, b ∉ addrs A → b ∉ addrs B → h'.rd b = h.rd b) := by
  induction A generalizing f h last rev B with
  | nil =>
    obtain ⟨f, rfl⟩ : ∃ g, f = g + 1 := ⟨f - 1, by simp at hf; omega⟩
    have := i.last
    subst this
    exact ⟨h, rev, rfl, by simpa using j, fun _ _ _ => rfl⟩
  | cons x A ih =>
    obtain ⟨f, rfl⟩ : ∃ g, f = g + 1 := ⟨f - 1, by simp at hf; omega⟩
    obtain ⟨h1, l1, e1, e2, ⟨n, e3⟩, e4, e5⟩ := unlinkMid (P := []) i
    rw [List.append_nil, ← i.last] at e1
    have j1 : IsList h1 rev B := j.frame fun a ha => e5 a (fun hh => hd' a (by simpa using hh) ha)
    have hxB : x.1 ∉ addrs B := hd' x.1 (by simp)
    obtain ⟨h2, e6, e7, e8⟩ := linkAfter_spec j1.cyc j1.nodup hxB e3
    have i2 : IsList h2 l1 A := by
      refine IsList.frame (by simpa using e2) fun a ha => e8 a (hd' a (by simp [ha])) ?_
      rintro rfl; exact e4 (by simpa using ha)
    have j2 : IsList h2 (if rev = none then some x.1 else rev) (x :: B) := by
      refine ⟨?_, e7, ?_⟩
      · by_cases hB : B = []
        · subst hB
          have hh : rev = none := j.last
          rw [if_pos hh]; rfl
        · rw [if_neg (by rw [j.last, lastA_eq_none]; exact hB), lastA_cons_ne hB, j.last]
      · rw [addrs_cons, List.nodup_cons]; exact ⟨hxB, j.nodup⟩
    have hxA : x.1 ∉ addrs A := by simpa using e4
    obtain ⟨h3, l3, e9, e10, e11⟩ := ih (f := f) i2 j2 (by
      intro a ha hh
      rw [addrs_cons, List.mem_cons] at hh
      rcases hh with rfl | hh
      · exact hxA ha
      · exact hd' a (by simp [ha]) hh) (by simp at hf; omega)
    refine ⟨h3, l3, ?_, by simpa using e10, ?_⟩
    · rcases hz : last with _ | z
      · rw [hz] at i; cases i.eq_nil
      · rw [hz] at e1
        rw [← j.last] at e6
        simp only [reverseLoop, e1, Option.bind_eq_bind, Option.bind_some, insertAfterNode, e6, e9]
    · intro b hb hb'
      rw [addrs_cons, List.mem_cons, not_or] at hb
      rw [e11 b hb.2 (by simp [hb.1, hb']), e8 b hb' hb.1, e5 b (by simp [hb.1, hb.2])]

theorem reverse_spec {h : Heap α} {last : Option Nat} {l : List (Nat × α)} (i : IsList h last l) :
    ∃ h' last', reverse ⟨h, last⟩ = some ⟨h', last'⟩ ∧ IsList h' last' l.reverse ∧
      Upd h h' (addrs l) (addrs l.reverse) := by
  obtain ⟨h', last', e1, e2, e3⟩ := reverseLoop_spec (f := h.length + 1) i (IsList.nil h) (by simp)
    (by have := i.length_le; omega)
  rw [List.append_nil] at e2
  have hm : ∀ a, a ∈ addrs l.reverse ↔ a ∈ addrs l := by simp [addrs]
  refine ⟨h', last', e1, e2, ⟨fun a h1 _ => e3 a h1 (by simp), fun a h1 h2 => absurd ((hm a).2 h1) h2,
    fun a h1 h2 => absurd ((hm a).1 h1) h2, fun a h1 => ?_⟩⟩
  obtain ⟨c, hc⟩ := e2.live h1; simp [hc]

/-! ### remove -/

theorem nxt_before {h : Heap α} {last : Option Nat} {P S : List (Nat × α)} {x : Nat × α} {p : Nat}
    (i : IsList h last (P ++ x :: S)) (hp : lastA (x :: S ++ P) = some p) : nxt h p = some x.1 := by
  obtain ⟨r1, _⟩ := i.rot
  obtain ⟨X', z, v, hX⟩ := exists_snoc (l := x :: S ++ P) (by simp)
  rw [hX, lastA_snoc, Option.some.injEq] at hp
  subst hp
  unfold Cyc at r1
  have : hd (x :: S ++ P) 0 = x.1 := rfl
  rw [this, hX, seg_append] at r1
  exact nxt_eq r1.2.1

/-- A pass without matches changes nothing. -/
theorem removeLoop_none {ρ : Type} {eq : α → ρ → Bool} {val : ρ} {f n p : Nat} {h : Heap α} {last : Option Nat}
    {P S : List (Nat × α)} {x : Nat × α} (i : IsList h last (P ++ x :: S))
    (hp : lastA (x :: S ++ P) = some p) (hno : ∀ y ∈ x :: S, eq y.2 val = false) (hf : S.length < f) :
    removeLoop eq val f ⟨h, last⟩ p n = some (⟨h, last⟩, n, []) := by
  induction S generalizing P x f p with
  | nil =>
    obtain ⟨f, rfl⟩ : ∃ g, f = g + 1 := ⟨f - 1, by simp at hf; omega⟩
    obtain ⟨m, hx⟩ := i.rd
    simp only [removeLoop, nxt_before i hp, Option.bind_eq_bind, Option.bind_some, hx, hno x (by simp),
      Bool.false_eq_true, if_false, if_pos (i.getLast.2 rfl)]
  | cons y S ih =>
    obtain ⟨f, rfl⟩ : ∃ g, f = g + 1 := ⟨f - 1, by simp at hf; omega⟩
    obtain ⟨m, hx⟩ := i.rd
    have hl : last ≠ some x.1 := fun hh => by simpa using i.getLast.1 hh
    simp only [removeLoop, nxt_before i hp, Option.bind_eq_bind, Option.bind_some, hx, hno x (by simp),
      Bool.false_eq_true, if_false, if_neg hl]
    exact ih (P := P ++ [x]) (x := y) (by simpa using i)
      (by rw [← List.append_assoc, lastA_snoc]) (fun z hz => hno z (by simp [hz])) (by simp at hf; omega)

theorem removeLoop_spec {ρ : Type} {eq : α → ρ → Bool} {val : ρ} {f n p : Nat} {h : Heap α} {last : Option Nat}
    {P S : List (Nat × α)} (i : IsList h last (P ++ S)) (hS : S ≠ [])
    (hp : lastA (S ++ P) = some p) (hno : ∀ y ∈ P, eq y.2 val = false)
    (hf : S.length + (P.length + S.length) < f) :
    ∃ h' last', removeLoop eq val f ⟨h, last⟩ p n =
        some (⟨h', last'⟩, n + (S.filter fun y => eq y.2 val).length, vals (S.filter fun y => eq y.2 val)) ∧
      IsList h' last' (P ++ S.filter fun y => !eq y.2 val) ∧
      Upd h h' (addrs (P ++ S)) (addrs (P ++ S.filter fun y => !eq y.2 val)) := by
  induction S generalizing P f p n h last with
  | nil => exact absurd rfl hS
  | cons x S ih =>
    obtain ⟨f, rfl⟩ : ∃ g, f = g + 1 := ⟨f - 1, by simp at hf; omega⟩
    obtain ⟨m, hx⟩ := i.rd
    by_cases hm : eq x.2 val = true
    · obtain ⟨h1, l1, e1, e2, e3⟩ := eraseMid i
      rw [hp] at e1
      have hfil : (x :: S).filter (fun y => eq y.2 val) = x :: S.filter (fun y => eq y.2 val) := by simp [hm]
      have hfil' : (x :: S).filter (fun y => !eq y.2 val) = S.filter (fun y => !eq y.2 val) := by simp [hm]
      rw [hfil, hfil']
      by_cases hX : S ++ P = []
      · obtain ⟨rfl, rfl⟩ := List.append_eq_nil_iff.1 hX
        refine ⟨h1, l1, ?_, by simpa using e2, by simpa using e3⟩
        have hl : l1 = none := e2.last
        simp only [removeLoop, nxt_before i hp, Option.bind_eq_bind, Option.bind_some, hx, hm, if_true, e1,
          if_pos hl]
        rfl
      · have hl1 : l1 ≠ none := by
          rw [e2.last, Ne, lastA_eq_none]
          intro hh; apply hX
          simp only [List.append_eq_nil_iff] at hh ⊢; tauto
        have hl2 : l1 ≠ some x.1 := by
          rw [e2.last]
          intro hh
          have h3 := lastA_mem hh
          have := i.nodup
          simp only [addrs_append, addrs_cons, List.nodup_append, List.nodup_cons, List.mem_append] at this h3
          rcases h3 with h3 | h3
          · exact this.2.2 x.1 h3 x.1 (by simp) rfl
          · exact this.2.1.1 h3
        have hp' : lastA (S ++ P) = some p := by rwa [List.cons_append, lastA_cons_ne hX] at hp
        by_cases hS' : S = []
        · subst hS'
          have hP : P ≠ [] := by simpa using hX
          obtain ⟨y, P', rfl⟩ := List.exists_cons_of_ne_nil hP
          have e0 := removeLoop_none (eq := eq) (val := val) (f := f) (n := n + 1) (p := p) (P := []) (S := P') (x := y)
            (by simpa using e2) (by simpa using hp') hno
            (by simp at hf; omega)
          refine ⟨h1, l1, ?_, by simpa using e2, by simpa using e3⟩
          simp only [removeLoop, nxt_before i hp, Option.bind_eq_bind, Option.bind_some, hx, hm, if_true, e1,
            if_neg hl1, if_neg hl2, e0]
          rfl
        · obtain ⟨h2, l2, e4, e5, e6⟩ := ih (f := f) (n := n + 1) e2 hS' hp' hno (by simp at hf; omega)
          refine ⟨h2, l2, ?_, e5, e3.trans e6⟩
          simp only [removeLoop, nxt_before i hp, Option.bind_eq_bind, Option.bind_some, hx, hm, if_true, e1,
            if_neg hl1, if_neg hl2, e4, List.length_cons, vals_cons]
          congr 3; omega
    · have hm' : eq x.2 val = false := by simpa using hm
      have hfil : (x :: S).filter (fun y => eq y.2 val) = S.filter (fun y => eq y.2 val) := by simp [hm']
      have hfil' : (x :: S).filter (fun y => !eq y.2 val) = x :: S.filter (fun y => !eq y.2 val) := by simp [hm']
      rw [hfil, hfil']
      by_cases hS' : S = []
      · subst hS'
        refine ⟨h, last, ?_, by simpa using i, by simpa using i.upd⟩
        simp only [removeLoop, nxt_before i hp, Option.bind_eq_bind, Option.bind_some, hx, hm',
          Bool.false_eq_true, if_false, if_pos (i.getLast.2 rfl)]
        rfl
      · have hl : last ≠ some x.1 := fun hh => hS' (i.getLast.1 hh)
        obtain ⟨h2, l2, e4, e5, e6⟩ := ih (P := P ++ [x]) (f := f) (n := n) (p := x.1) (h := h) (last := last)
          (by simpa using i) hS' (by rw [← List.append_assoc, lastA_snoc])
          (by
            intro y hy
            rcases List.mem_append.1 hy with hy | hy
            · exact hno y hy
            · simp only [List.mem_singleton] at hy; rw [hy]; exact hm')
          (by simp at hf ⊢; omega)
        refine ⟨h2, l2, ?_, by simpa using e5, by simpa using e6⟩
        simp only [removeLoop, nxt_before i hp, Option.bind_eq_bind, Option.bind_some, hx, hm',
          Bool.false_eq_true, if_false, if_neg hl, e4]

theorem remove_spec {ρ : Type} {eq : α → ρ → Bool} {val : ρ} {h : Heap α} {last : Option Nat}
    {l : List (Nat × α)} (i : IsList h last l) :
    ∃ h' last', remove eq ⟨h, last⟩ val =
        some (⟨h', last'⟩, (l.filter fun y => eq y.2 val).length, vals (l.filter fun y => eq y.2 val)) ∧
      IsList h' last' (l.filter fun y => !eq y.2 val) ∧
      Upd h h' (addrs l) (addrs (l.filter fun y => !eq y.2 val)) := by
  by_cases hl : l = []
  · subst hl
    have := i.last
    subst this
    exact ⟨h, none, rfl, IsList.nil h, Upd.refl (by simp)⟩
  · obtain ⟨z, hz⟩ : ∃ z, last = some z := by
      rcases hz : last with _ | z
      · rw [hz] at i; exact absurd i.eq_nil hl
      · exact ⟨z, rfl⟩
    subst hz
    obtain ⟨h', last', e1, e2, e3⟩ := removeLoop_spec (eq := eq) (val := val) (f := 2 * h.length + 2) (n := 0) (P := [])
      i hl (by rw [List.append_nil, i.last]) (by simp) (by have := i.length_le; simp; omega)
    exact ⟨h', last', by simpa [remove] using e1, e2, e3⟩

/-! ### find and equality -/

theorem findLoop_spec {ρ : Type} {eq : α → ρ → Bool} {val : ρ} {h : Heap α} {obj : Nat → Option Nat} {o : Nat}
    {f : Nat} {P M S : List (Nat × α)} {it : Iter} (i : IsList h (obj o) (P ++ M ++ S)) (hit : At P (M ++ S) it)
    (ho : it.home = some o) (hf : M.length < f) :
    (∃ A x B it', M = A ++ x :: B ∧ (∀ y ∈ A, eq y.2 val = false) ∧ eq x.2 val = true ∧
      findLoop eq h obj val (hdA S) f it = some (some it') ∧ At (P ++ A) (x :: B ++ S) it' ∧ it'.home = some o) ∨
    ((∀ y ∈ M, eq y.2 val = false) ∧ findLoop eq h obj val (hdA S) f it = some none) := by
  induction M generalizing P f it with
  | nil =>
    obtain ⟨f, rfl⟩ : ∃ g, f = g + 1 := ⟨f - 1, by simp at hf; omega⟩
    refine .inr ⟨by simp, ?_⟩
    have : it.ref = hdA S := by simpa using hit.1
    simp only [findLoop, if_pos this]
  | cons x M ih =>
    obtain ⟨f, rfl⟩ : ∃ g, f = g + 1 := ⟨f - 1, by simp at hf; omega⟩
    have i0 : IsList h (obj o) (P ++ x :: (M ++ S)) := by simpa using i
    obtain ⟨n, hx⟩ := i0.rd
    have hr : it.ref = some x.1 := hit.1
    have hne : it.ref ≠ hdA S := by
      rw [hr]
      intro hh
      cases S with
      | nil => cases hh
      | cons y S =>
        simp only [hdA_cons, Option.some.injEq] at hh
        have hnd := i.nodup
        simp only [addrs_append, addrs_cons, List.nodup_append] at hnd
        exact hnd.2.2 x.1 (by simp) y.1 (by simp) hh
    by_cases hm : eq x.2 val = true
    · refine .inl ⟨[], x, M, it, rfl, by simp, hm, ?_, by simpa using hit, ho⟩
      have hs : findLoop eq h obj val (hdA S) (f + 1) it = if it.ref = hdA S then some none else (do
        let a ← it.ref
        let c ← h.rd a
        if eq c.value val then some (some it)
        else do
          let it ← next h obj it
          findLoop eq h obj val (hdA S) f it) := rfl
      rw [hs, if_neg hne]
      simp only [hr, Option.bind_eq_bind, Option.bind_some, hx, hm, if_true]
    · obtain ⟨it1, e1, e2, e3⟩ := next_spec i0 hr ho
      have hs : findLoop eq h obj val (hdA S) (f + 1) it = if it.ref = hdA S then some none else (do
        let a ← it.ref
        let c ← h.rd a
        if eq c.value val then some (some it)
        else do
          let it ← next h obj it
          findLoop eq h obj val (hdA S) f it) := rfl
      have hstep : findLoop eq h obj val (hdA S) (f + 1) it = findLoop eq h obj val (hdA S) f it1 := by
        rw [hs, if_neg hne]
        simp only [hr, Option.bind_eq_bind, Option.bind_some, hx, hm, if_false, e1, Bool.false_eq_true]
      rw [hstep]
      rcases ih (P := P ++ [x]) (f := f) (by simpa using i) e2 e3 (by simp at hf; omega) with
        ⟨A, y, B, it', k1, k2, k3, k4, k5, k6⟩ | ⟨k1, k2⟩
      · refine .inl ⟨x :: A, y, B, it', by simp [k1], ?_, k3, k4, by simpa using k5, k6⟩
        intro z hz
        rcases List.mem_cons.1 hz with rfl | hz
        · simpa using hm
        · exact k2 z hz
      · refine .inr ⟨?_, k2⟩
        intro z hz
        rcases List.mem_cons.1 hz with rfl | hz
        · simpa using hm
        · exact k1 z hz

theorem eqLoop_spec {eq : α → α → Bool} {h : Heap α} {l1 l2 : Option Nat} {f : Nat} {P S Q T : List (Nat × α)}
    (i : IsList h l1 (P ++ S)) (j : IsList h l2 (Q ++ T)) (hf : S.length ≤ f) :
    eqLoop eq h l1 l2 f (hdA S) (hdA T) =
      some (decide (S.length = T.length) && ((vals S).zip (vals T)).all fun p => eq p.1 p.2) := by
  induction S generalizing f P Q T with
  | nil =>
    cases T with
    | nil => cases f <;> rfl
    | cons y T => cases f <;> rfl
  | cons x S ih =>
    cases T with
    | nil => cases f <;> rfl
    | cons y T =>
      obtain ⟨f, rfl⟩ : ∃ g, f = g + 1 := ⟨f - 1, by simp at hf; omega⟩
      obtain ⟨n, hx⟩ := i.rd
      obtain ⟨m, hy⟩ := j.rd
      have := ih (f := f) (P := P ++ [x]) (Q := Q ++ [y]) (T := T) (by simpa using i) (by simpa using j)
        (by simp at hf; omega)
      simp only [hdA_cons, eqLoop, hx, hy, Option.bind_eq_bind, Option.bind_some, nextAt_spec i, nextAt_spec j, this]
      by_cases he : eq x.2 y.2 = true
      · simp [he]
      · simp [he]

theorem eq_spec {eqv : α → α → Bool} {h : Heap α} {l1 l2 : Option Nat} {A B : List (Nat × α)}
    (i : IsList h l1 A) (j : IsList h l2 B) :
    eq eqv h l1 l2 = some (decide (A.length = B.length) && ((vals A).zip (vals B)).all fun p => eqv p.1 p.2) := by
  obtain ⟨it, e1, e2, _⟩ := begin_spec i 0
  obtain ⟨jt, f1, f2, _⟩ := begin_spec j 0
  have := eqLoop_spec (eq := eqv) (f := h.length + 1) (P := []) (Q := []) (S := A) (T := B) i j
    (by have := i.length_le; omega)
  simp only [eq, e1, f1, Option.bind_eq_bind, Option.bind_some, e2.1, f2.1, this]

/-! ### sort -/

theorem gather_spec {ok : Nat → Bool} {h : Heap α} {last : Option Nat} {P S : List (Nat × α)} {f k cap : Nat}
    {arr : List α} (i : IsList h last (P ++ S)) (hf : S.length ≤ f) (hc : arr.length ≤ cap) :
    (gather ok h last f (hdA S) k arr cap = some (some (arr ++ vals S))) ∨
    (gather ok h last f (hdA S) k arr cap = some none ∧ ∃ k, ok k = false) := by
  induction S generalizing P f k cap arr with
  | nil => left; cases f <;> simp [gather]
  | cons x S ih =>
    obtain ⟨f, rfl⟩ : ∃ g, f = g + 1 := ⟨f - 1, by simp at hf; omega⟩
    obtain ⟨n, hx⟩ := i.rd
    have ih' := fun k cap arr => ih (f := f) (P := P ++ [x]) (k := k) (cap := cap) (arr := arr) (by simpa using i)
      (by simp at hf; omega)
    by_cases hl : arr.length = cap
    · by_cases hok : ok k = true
      · have e : gather ok h last (f + 1) (hdA (x :: S)) k arr cap =
            gather ok h last f (hdA S) (k + 1) (arr ++ [x.2]) (cap + cap / 2 + 8) := by
          simp only [hdA_cons, gather, if_pos hl, hok, if_true, hx, Option.bind_eq_bind, Option.bind_some,
            nextAt_spec i]
        rw [e]
        simpa using ih' (k + 1) (cap + cap / 2 + 8) (arr ++ [x.2]) (by simp; omega)
      · right
        refine ⟨?_, k, by simpa using hok⟩
        simp only [hdA_cons, gather, if_pos hl, hok, Bool.false_eq_true, if_false]
    · have e : gather ok h last (f + 1) (hdA (x :: S)) k arr cap =
          gather ok h last f (hdA S) k (arr ++ [x.2]) cap := by
        simp only [hdA_cons, gather, if_neg hl, guard_pos (show arr.length < cap by omega), hx, Option.bind_eq_bind,
          Option.bind_some, nextAt_spec i]
      rw [e]
      simpa using ih' k cap (arr ++ [x.2]) (by simp; omega)

/-- Storing new values keeps the links. -/
theorem scatter_spec {last : Option Nat} {P S : List (Nat × α)} {f : Nat} {h : Heap α} {xs : List α}
    (i : IsList h last (P ++ S)) (hf : S.length ≤ f) (hl : xs.length = S.length) :
    ∃ h', scatter last f h (hdA S) xs = some h' ∧ IsList h' last (P ++ (addrs S).zip xs) ∧
      (∀ b, b ∉ addrs S → h'.rd b = h.rd b) := by
  induction S generalizing P f h xs with
  | nil =>
    have : xs = [] := by simpa using hl
    subst this
    exact ⟨h, by cases f <;> rfl, by simpa using i, fun _ _ => rfl⟩
  | cons x S ih =>
    obtain ⟨f, rfl⟩ : ∃ g, f = g + 1 := ⟨f - 1, by simp at hf; omega⟩
    cases xs with
    | nil => simp at hl
    | cons v xs =>
      have hx := ((seg_append _ _ _ _).1 i.cyc).2.1
      set c : Cell α := ⟨x.2, some (hd S (hd (P ++ x :: S) 0))⟩ with hcdef
      set h1 : Heap α := h.set x.1 (some { c with value := v }) with hh1
      have hrd : ∀ b, h1.rd b = if b = x.1 then some { c with value := v } else h.rd b :=
        fun b => rd_set h x.1 _ b (lt_of_rd hx)
      have hnd := i.nodup
      simp only [addrs_append, addrs_cons, List.nodup_append, List.nodup_cons] at hnd
      have i1 : IsList h1 last (P ++ (x.1, v) :: S) := by
        refine ⟨?_, ?_, ?_⟩
        · rw [i.last]
          by_cases hS : S = []
          · subst hS; simp
          · rw [lastA_append_ne (by simp), lastA_append_ne (by simp), lastA_cons_ne hS, lastA_cons_ne hS]
        · have hq : hd (P ++ (x.1, v) :: S) 0 = hd (P ++ x :: S) 0 := by
            rw [hd_append, hd_append]; rfl
          have := i.cyc
          unfold Cyc at this ⊢
          rw [hq]
          rw [seg_append] at this ⊢
          refine ⟨this.1.frame fun a ha => ?_, ?_, this.2.2.frame fun a ha => ?_⟩
          · rw [hrd, if_neg]; rintro rfl; exact hnd.2.2 x.1 ha x.1 (by simp) rfl
          · rw [hrd, if_pos rfl]
          · rw [hrd, if_neg]; rintro rfl; exact hnd.2.1.1 ha
        · have := i.nodup
          simpa using this
      obtain ⟨h2, e1, e2, e3⟩ := ih (f := f) (P := P ++ [(x.1, v)]) (h := h1) (xs := xs) (by simpa using i1)
        (by simp at hf; omega) (by simpa using hl)
      refine ⟨h2, ?_, by simpa using e2, ?_⟩
      · have hn : nextAt h1 last x.1 = some (hdA S) := nextAt_spec (x := (x.1, v)) i1
        have hx' : h.rd x.1 = some c := hx
        have hw : h.wr x.1 { c with value := v } = some h1 := by
          rw [Buf.wr, if_pos (lt_of_rd hx)]
        simp only [hdA_cons, scatter, hx', Option.bind_eq_bind, Option.bind_some, hw, hn, e1]
      · intro b hb
        rw [addrs_cons, List.mem_cons, not_or] at hb
        rw [e3 b hb.2, hrd, if_neg hb.1]

/-! ### clone -/

theorem cloneLoop_spec {cl : α → α} {want : Nat → Option Nat} {last : Option Nat} {f k : Nat} {h : Heap α}
    {tl : Option Nat} {P S B : List (Nat × α)} (i : IsList h last (P ++ S)) (j : IsList h tl B)
    (hd' : ∀ a ∈ addrs (P ++ S), a ∉ addrs B) (hf : S.length ≤ f) (hw : ∀ k, (want k).isSome) :
    ∃ h' tl' C, cloneLoop cl want last f ⟨h, tl⟩ (hdA S) k = some ⟨h', tl'⟩ ∧ IsList h' tl' (B ++ C) ∧
      vals C = (vals S).map cl ∧ IsList h' last (P ++ S) ∧ Upd h h' (addrs B) (addrs (B ++ C)) ∧
      (∀ a ∈ addrs (P ++ S), a ∉ addrs (B ++ C)) := by
  induction S generalizing P f k h tl B with
  | nil =>
    refine ⟨h, tl, [], by cases f <;> rfl, by simpa using j, rfl, i, by simpa using j.upd, by simpa using hd'⟩
  | cons x S ih =>
    obtain ⟨f, rfl⟩ : ∃ g, f = g + 1 := ⟨f - 1, by simp at hf; omega⟩
    obtain ⟨n, hx⟩ := i.rd
    obtain ⟨w, hwk⟩ := Option.isSome_iff_exists.1 (hw k)
    obtain ⟨h1, e, e1, e2, e3⟩ := pushBack_spec j w (cl x.2)
    obtain ⟨i1, d1⟩ := e3.keep i hd'
    obtain ⟨h2, tl2, C, k1, k2, k3, k4, k5, k6⟩ := ih (f := f) (P := P ++ [x]) (k := k + 1) (by simpa using i1) e2
      (by simpa using d1) (by simp at hf; omega)
    refine ⟨h2, tl2, (e, cl x.2) :: C, ?_, by simpa using k2, by simp [k3], by simpa using k4, ?_, ?_⟩
    · simp only [hdA_cons, cloneLoop, hx, Option.bind_eq_bind, Option.bind_some, hwk, e1, nextAt_spec i1, k1]
    · have := e3.trans k5
      simpa using this
    · simpa using k6

theorem clone_spec {cl : α → α} {want : Nat → Option Nat} {last : Option Nat} {h : Heap α} {l : List (Nat × α)}
    (i : IsList h last l) (hw : ∀ k, (want k).isSome) :
    ∃ h' tl C, clone cl want ⟨h, last⟩ = some ⟨h', tl⟩ ∧ IsList h' tl C ∧ vals C = (vals l).map cl ∧
      IsList h' last l ∧ Upd h h' [] (addrs C) := by
  obtain ⟨it, e1, e2, _⟩ := begin_spec i 0
  obtain ⟨h', tl, C, k1, k2, k3, k4, k5, k6⟩ := cloneLoop_spec (cl := cl) (k := 0) (f := h.length + 1) (P := []) (S := l)
    (B := []) i (IsList.nil h) (by simp) (by have := i.length_le; omega) hw
  refine ⟨h', tl, C, ?_, k2, k3, k4, k5⟩
  simp only [clone, e1, Option.bind_eq_bind, Option.bind_some, e2.1, k1]

theorem putN_spec {want : Nat → Option Nat} {h : Heap α} {last : Option Nat} {l : List (Nat × α)} {k : Nat}
    (xs : List α) (i : IsList h last l) (hw : ∀ k, (want k).isSome) :
    ∃ h' last' C, putN want k ⟨h, last⟩ xs = some ⟨h', last'⟩ ∧ IsList h' last' (l ++ C) ∧ vals C = xs ∧
      Upd h h' (addrs l) (addrs (l ++ C)) := by
  induction xs generalizing h last l k with
  | nil => exact ⟨h, last, [], rfl, by simpa using i, rfl, by simpa using i.upd⟩
  | cons x xs ih =>
    obtain ⟨w, hwk⟩ := Option.isSome_iff_exists.1 (hw k)
    obtain ⟨h1, e, e1, e2, e3⟩ := pushBack_spec i w x
    obtain ⟨h2, l2, C, k1, k2, k3, k4⟩ := ih (k := k + 1) e2
    refine ⟨h2, l2, (e, x) :: C, ?_, by simpa using k2, by simp [k3], ?_⟩
    · simp only [putN, hwk, e1, Option.bind_eq_bind, Option.bind_some, k1]
    · have := e3.trans k4
      simpa using this

end Verif.Clist
