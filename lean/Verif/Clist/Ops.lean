import Verif.Clist.Lemmas
/- What each list function does to the represented node list. -/
namespace Verif.Clist
variable {α : Type}

/-- Address of the first node (NULL if none). -/
def hdA (l : List (Nat × α)) : Option Nat := l.head?.map Prod.fst

@[simp] theorem hdA_nil : hdA ([] : List (Nat × α)) = none := rfl
@[simp] theorem hdA_cons (p : Nat × α) (l : List (Nat × α)) : hdA (p :: l) = some p.1 := rfl

theorem hdA_ne {l : List (Nat × α)} (h : l ≠ []) (q : Nat) : hdA l = some (hd l q) := by
  cases l with
  | nil => exact absurd rfl h
  | cons => rfl

/-- The values of a node list. -/
def vals (l : List (Nat × α)) : List α := l.map Prod.snd

@[simp] theorem vals_nil : vals ([] : List (Nat × α)) = [] := rfl
@[simp] theorem vals_cons (p : Nat × α) (l : List (Nat × α)) : vals (p :: l) = p.2 :: vals l := rfl
@[simp] theorem vals_append (a b : List (Nat × α)) : vals (a ++ b) = vals a ++ vals b := by simp [vals]
@[simp] theorem length_vals (l : List (Nat × α)) : (vals l).length = l.length := by simp [vals]

/-- The iterator stands between `P` and `S` and may be used for editing. -/
def At (P S : List (Nat × α)) (it : Iter) : Prop := it.ref = hdA S ∧ (S ≠ [] → it.prev = lastA (S ++ P))

theorem Upd.keep {h h' : Heap α} {A B : List Nat} {last : Option Nat} {l : List (Nat × α)} (u : Upd h h' A B)
    (i : IsList h last l) (hd : ∀ a ∈ addrs l, a ∉ A) : IsList h' last l ∧ ∀ a ∈ addrs l, a ∉ B := by
  have h1 : ∀ a ∈ addrs l, a ∉ B := by
    intro a ha hb
    obtain ⟨c, hc⟩ := i.live ha
    rw [u.fresh a hb (hd a ha)] at hc; cases hc
  exact ⟨i.frame fun a ha => u.frame a (hd a ha) (h1 a ha), h1⟩

theorem IsList.getLast {h : Heap α} {last : Option Nat} {P S : List (Nat × α)} {x : Nat × α}
    (i : IsList h last (P ++ x :: S)) : last = some x.1 ↔ S = [] := by
  constructor
  · intro hl
    by_contra hS
    rw [i.last, lastA_append_ne (by simp), lastA_cons_ne hS] at hl
    have hm := lastA_mem hl
    have := i.nodup
    rw [addrs_append, addrs_cons, List.nodup_append, List.nodup_cons] at this
    exact this.2.1.1 hm
  · rintro rfl
    rw [i.last, lastA_snoc]

theorem IsList.rot {h : Heap α} {last : Option Nat} {P S : List (Nat × α)} (i : IsList h last (P ++ S)) :
    Cyc h (S ++ P) ∧ (addrs (S ++ P)).Nodup := ⟨i.cyc.rotate, nodup_rot i.nodup⟩

/-! ### insertion -/

theorem pushBack_spec {h : Heap α} {last : Option Nat} {l : List (Nat × α)} (i : IsList h last l) (w : Nat) (v : α) :
    ∃ h' e, pushBack ⟨h, last⟩ (some w) v = some (⟨h', some e⟩, e) ∧ IsList h' (some e) (l ++ [(e, v)]) ∧
      Upd h h' (addrs l) (addrs (l ++ [(e, v)])) := by
  obtain ⟨h1, h', e1, e2, e3, e4, e5⟩ := newLink_spec i.cyc i.nodup w v
  refine ⟨h', fresh h w, ?_, ⟨by simp, ?_, ?_⟩, e5.congr (fun _ => Iff.rfl) (by simp [or_comm])⟩
  · simp only [pushBack, e1, Option.bind_eq_bind, Option.bind_some, i.last, e2]
  · exact Cyc.rotate (a := [_]) e3
  · exact nodup_rot (a := [_]) e4

theorem pushFront_spec {h : Heap α} {last : Option Nat} {l : List (Nat × α)} (i : IsList h last l) (w : Nat) (v : α) :
    ∃ h' last' e, pushFront ⟨h, last⟩ (some w) v = some (⟨h', last'⟩, e) ∧ IsList h' last' ((e, v) :: l) ∧
      Upd h h' (addrs l) (addrs ((e, v) :: l)) := by
  obtain ⟨h1, h', e1, e2, e3, e4, e5⟩ := newLink_spec i.cyc i.nodup w v
  refine ⟨h', if last = none then some (fresh h w) else last, fresh h w, ?_, ⟨?_, e3, e4⟩, e5⟩
  · simp only [pushFront, e1, Option.bind_eq_bind, Option.bind_some]
    rw [i.last, e2]; rfl
  · by_cases hl : l = []
    · subst hl; have hh : last = none := i.last; rw [if_pos hh]; rfl
    · rw [if_neg (by rw [i.last, lastA_eq_none]; exact hl), lastA_cons_ne hl, i.last]

theorem insertAt_spec {h : Heap α} {last : Option Nat} {P S : List (Nat × α)} {it : Iter}
    (i : IsList h last (P ++ S)) (hit : At P S it) (w : Nat) (v : α) :
    ∃ h' last' e it', insertAt ⟨h, last⟩ it (some w) v = some (⟨h', last'⟩, it') ∧
      IsList h' last' (P ++ (e, v) :: S) ∧ At P ((e, v) :: S) it' ∧ it'.home = it.home ∧
      Upd h h' (addrs (P ++ S)) (addrs (P ++ (e, v) :: S)) := by
  obtain ⟨r1, r2⟩ := i.rot
  obtain ⟨h1, h', e1, e2, e3, e4, e5⟩ := newLink_spec r1 r2 w v
  set e := fresh h w
  have hU : Upd h h' (addrs (P ++ S)) (addrs (P ++ (e, v) :: S)) :=
    e5.congr (by simp [or_comm]) (fun a => by simp only [addrs_append, addrs_cons, List.mem_append, List.mem_cons]; tauto)
  have hC : Cyc h' (P ++ (e, v) :: S) := Cyc.rotate (a := (e, v) :: S) (b := P) e3
  have hN : (addrs (P ++ (e, v) :: S)).Nodup := nodup_rot (a := (e, v) :: S) (b := P) e4
  have hnode : before it last = lastA (S ++ P) := by
    unfold before
    cases S with
    | nil => rw [if_neg (by simp [hit.1]), i.last]; simp
    | cons x S => rw [if_pos (by simp [hit.1]), hit.2 (by simp)]
  by_cases hS : S = []
  · subst hS
    refine ⟨h', some e, e, ⟨some e, it.home, if last.isSome then last else some e⟩, ?_,
      ⟨by simp, hC, hN⟩, ⟨rfl, fun _ => ?_⟩, rfl, hU⟩
    · simp only [insertAt, e1, Option.bind_eq_bind, Option.bind_some]
      have hh : it.ref = none := hit.1
      rw [hnode, e2, Option.bind_some, if_pos (Or.inr hh)]
    · rw [i.last, List.append_nil]
      by_cases hP : P = []
      · subst hP; rfl
      · rw [if_pos]
        · exact (lastA_append_ne (a := [(e, v)]) hP).symm
        · obtain ⟨P', z, u, rfl⟩ := exists_snoc hP; simp
  · refine ⟨h', last, e, ⟨some e, it.home, it.prev⟩, ?_, ⟨?_, hC, hN⟩, ⟨rfl, fun _ => ?_⟩, rfl, hU⟩
    · simp only [insertAt, e1, Option.bind_eq_bind, Option.bind_some]
      rw [hnode, e2, Option.bind_some, if_neg]
      rw [i.last, lastA_eq_none, hit.1, hdA_ne hS 0]
      simp [hS]
    · rw [i.last, lastA_append_ne hS, lastA_append_ne (by simp), lastA_cons_ne hS]
    · rw [hit.2 hS, List.cons_append, lastA_cons_ne (by simp [hS])]

/-! ### removal -/

theorem unlinkMid {h : Heap α} {last : Option Nat} {P S : List (Nat × α)} {x : Nat × α}
    (i : IsList h last (P ++ x :: S)) :
    ∃ h' last', unlinkAfter ⟨h, last⟩ (lastA (x :: S ++ P)) = some (⟨h', last'⟩, x.1) ∧
      IsList h' last' (P ++ S) ∧ (∃ n, h'.rd x.1 = some ⟨x.2, n⟩) ∧ x.1 ∉ addrs (P ++ S) ∧
      (∀ b, b ∉ addrs (P ++ x :: S) → h'.rd b = h.rd b) := by
  obtain ⟨r1, r2⟩ := i.rot
  obtain ⟨h', z, e0, e1, e2, e3, e4⟩ := unlink_spec (last := last) (x := x) (X := S ++ P) r1 r2
  refine ⟨h', _, e1, ⟨?_, e2.rotate, ?_⟩, e3, ?_, fun b hb => e4 b ?_⟩
  · by_cases hX : S ++ P = []
    · rw [if_pos hX]
      obtain ⟨rfl, rfl⟩ := List.append_eq_nil_iff.1 hX
      rfl
    · rw [if_neg hX]
      by_cases hS : S = []
      · rw [if_pos (i.getLast.2 hS)]
        subst hS
        rw [List.nil_append] at hX
        rw [List.append_nil, ← e0, List.nil_append, lastA_cons_ne hX]
      · rw [if_neg (fun hl => hS (i.getLast.1 hl)), i.last, lastA_append_ne (by simp), lastA_cons_ne hS,
          lastA_append_ne hS]
  · refine nodup_rot (a := S) ?_
    rw [List.cons_append, addrs_cons, List.nodup_cons] at r2
    exact r2.2
  · have := r2
    rw [List.cons_append, addrs_cons, List.nodup_cons] at this
    simpa [or_comm] using this.1
  · simp only [addrs_append, addrs_cons, List.mem_append, List.mem_cons, not_or] at hb ⊢
    tauto

theorem eraseMid {h : Heap α} {last : Option Nat} {P S : List (Nat × α)} {x : Nat × α}
    (i : IsList h last (P ++ x :: S)) :
    ∃ h' last', eraseAfter ⟨h, last⟩ (lastA (x :: S ++ P)) = some (⟨h', last'⟩, x.2) ∧
      IsList h' last' (P ++ S) ∧ Upd h h' (addrs (P ++ x :: S)) (addrs (P ++ S)) := by
  obtain ⟨h1, last', e1, e2, ⟨n, e3⟩, e4, e5⟩ := unlinkMid i
  have hrd := fun b => rd_set h1 x.1 none b (lt_of_rd e3)
  have hI : IsList (h1.set x.1 none) last' (P ++ S) := e2.frame fun a ha => by
    rw [hrd, if_neg]; rintro rfl; exact e4 ha
  refine ⟨h1.set x.1 none, last', ?_, hI, ?_⟩
  · simp only [eraseAfter, e1, Option.bind_eq_bind, Option.bind_some, Buf.kill, e3, Option.map_some]
  · refine ⟨fun a h2 h3 => ?_, fun a h2 h3 => ?_, fun a h2 h3 => ?_, fun a h2 => ?_⟩
    · rw [hrd, if_neg (fun hh => h2 (by simp [hh])), e5 a h2]
    · rw [hrd, if_pos]
      simp only [addrs_append, addrs_cons, List.mem_append, List.mem_cons, not_or] at h2 h3
      tauto
    · refine absurd ?_ h3
      simp only [addrs_append, addrs_cons, List.mem_append, List.mem_cons] at h2 ⊢
      tauto
    · obtain ⟨c, hc⟩ := hI.live h2; simp [hc]

theorem nextAt_spec {h : Heap α} {last : Option Nat} {P S : List (Nat × α)} {x : Nat × α}
    (i : IsList h last (P ++ x :: S)) : nextAt h last x.1 = some (hdA S) := by
  unfold nextAt
  by_cases hS : S = []
  · rw [if_pos (i.getLast.2 hS)]; subst hS; rfl
  · rw [if_neg (fun hl => hS (i.getLast.1 hl))]
    have := ((seg_append _ _ _ _).1 i.cyc).2.1
    rw [nxt_eq this, hd_ne hS _ 0, hdA_ne hS 0]; rfl

theorem IsList.rd {h : Heap α} {last : Option Nat} {P S : List (Nat × α)} {x : Nat × α}
    (i : IsList h last (P ++ x :: S)) : ∃ n, h.rd x.1 = some ⟨x.2, n⟩ :=
  ⟨_, ((seg_append _ _ _ _).1 i.cyc).2.1⟩

theorem eraseAt_spec {h : Heap α} {last : Option Nat} {P S : List (Nat × α)} {x : Nat × α} {it : Iter}
    (i : IsList h last (P ++ x :: S)) (hit : At P (x :: S) it) :
    ∃ h' last' it', eraseAt ⟨h, last⟩ it = some (⟨h', last'⟩, x.2, it') ∧
      IsList h' last' (P ++ S) ∧ At P S it' ∧ it'.home = it.home ∧
      Upd h h' (addrs (P ++ x :: S)) (addrs (P ++ S)) := by
  obtain ⟨h', last', e1, e2, e3⟩ := eraseMid i
  refine ⟨h', last', { it with ref := hdA S }, ?_, e2, ⟨rfl, fun hS => ?_⟩, rfl, e3⟩
  · simp only [eraseAt, hit.1, hdA_cons, Option.bind_eq_bind, Option.bind_some, nextAt_spec i, hit.2 (by simp), e1]
  · have := hit.2 (by simp)
    rw [List.cons_append, lastA_cons_ne (by simp [hS])] at this
    exact this

theorem popFront_spec {h : Heap α} {last : Option Nat} {x : Nat × α} {S : List (Nat × α)}
    (i : IsList h last (x :: S)) :
    ∃ h' last', popFront ⟨h, last⟩ = some (⟨h', last'⟩, x.2) ∧ IsList h' last' S ∧
      Upd h h' (addrs (x :: S)) (addrs S) := by
  obtain ⟨h', last', e1, e2, e3⟩ := eraseMid (P := []) i
  refine ⟨h', last', ?_, e2, e3⟩
  have hl : last = lastA (x :: S ++ []) := by rw [List.append_nil]; exact i.last
  have hs : last.isSome := by
    rcases hq : last with _ | z
    · rw [hq] at i; cases i.eq_nil
    · rfl
  simp only [popFront, hs, guard_true', Option.bind_eq_bind, Option.bind_some]
  rw [hl] at e1 ⊢
  exact e1

theorem dropLoop_spec {f : Nat} {h : Heap α} {last : Option Nat} {l : List (Nat × α)}
    (i : IsList h last l) (hf : l.length < f) :
    ∃ h', dropLoop f ⟨h, last⟩ = some (⟨h', none⟩, vals l) ∧ Upd h h' (addrs l) [] := by
  induction l generalizing f h last with
  | nil =>
    obtain ⟨f, rfl⟩ : ∃ g, f = g + 1 := ⟨f - 1, by simp at hf; omega⟩
    have := i.last
    subst this
    exact ⟨h, rfl, Upd.refl (by simp)⟩
  | cons x S ih =>
    obtain ⟨f, rfl⟩ : ∃ g, f = g + 1 := ⟨f - 1, by simp at hf; omega⟩
    obtain ⟨h1, l1, e1, e2, e3⟩ := eraseMid (P := []) i
    obtain ⟨h2, e4, e5⟩ := ih (f := f) e2 (by simp at hf ⊢; omega)
    refine ⟨h2, ?_, e3.trans e5⟩
    rw [List.append_nil, ← i.last] at e1
    rcases hz : last with _ | z
    · rw [hz] at i; cases i.eq_nil
    · rw [hz] at e1
      simp only [dropLoop, e1, Option.bind_eq_bind, Option.bind_some, e4]
      rfl

theorem drop_spec {h : Heap α} {last : Option Nat} {l : List (Nat × α)} (i : IsList h last l) :
    ∃ h', drop ⟨h, last⟩ = some (⟨h', none⟩, vals l) ∧ Upd h h' (addrs l) [] :=
  dropLoop_spec i (by have := i.length_le; simp only; omega)

/-! ### iterators -/

theorem begin_spec {h : Heap α} {last : Option Nat} {l : List (Nat × α)} (i : IsList h last l) (o : Nat) :
    ∃ it, begin o ⟨h, last⟩ = some it ∧ At [] l it ∧ it.home = some o := by
  by_cases hl : l = []
  · subst hl
    have := i.last
    subst this
    exact ⟨⟨none, some o, none⟩, rfl, ⟨rfl, fun hh => absurd rfl hh⟩, rfl⟩
  · obtain ⟨l', z, v, rfl⟩ := exists_snoc hl
    have hz : last = some z := by rw [i.last]; simp
    subst hz
    have := ((seg_append _ _ _ _).1 i.cyc).2.1
    refine ⟨⟨some (hd (l' ++ [(z, v)]) 0), some o, some z⟩, ?_, ⟨?_, fun _ => ?_⟩, rfl⟩
    · simp only [begin, nxt_eq this, Option.bind_eq_bind, Option.bind_some, hd_nil]
    · rw [hdA_ne hl 0]
    · rw [List.append_nil, lastA_snoc]

theorem At.end (P : List (Nat × α)) : At P [] «end» := ⟨rfl, fun h => absurd rfl h⟩

/-- An iterator only needs `ref` and `_last` to be advanced; it is fully valid afterwards. -/
theorem next_spec {h : Heap α} {obj : Nat → Option Nat} {o : Nat} {P S : List (Nat × α)} {x : Nat × α} {it : Iter}
    (i : IsList h (obj o) (P ++ x :: S)) (hr : it.ref = some x.1) (ho : it.home = some o) :
    ∃ it', next h obj it = some it' ∧ At (P ++ [x]) S it' ∧ it'.home = some o := by
  refine ⟨⟨hdA S, some o, some x.1⟩, ?_, ⟨rfl, fun _ => ?_⟩, rfl⟩
  · simp only [next, hr, ho, Option.bind_eq_bind, Option.bind_some, nextAt_spec i]
  · rw [← List.append_assoc, lastA_snoc]

theorem advance_spec {h : Heap α} {obj : Nat → Option Nat} {o : Nat} (n : Nat) {P S : List (Nat × α)} {it : Iter}
    (i : IsList h (obj o) (P ++ S)) (hit : At P S it) (ho : it.home = some o) :
    ∃ it', advance h obj n it = some it' ∧ At (P ++ S.take n) (S.drop n) it' ∧ it'.home = some o := by
  induction n generalizing P S it with
  | zero => exact ⟨it, rfl, by simpa using hit, ho⟩
  | succ n ih =>
    cases S with
    | nil => exact ⟨it, by simp [advance, hit.1], by simpa using hit, ho⟩
    | cons x S =>
      obtain ⟨it1, e1, e2, e3⟩ := next_spec i hit.1 ho
      obtain ⟨it2, e4, e5, e6⟩ := ih (P := P ++ [x]) (S := S) (by simpa using i) e2 e3
      refine ⟨it2, ?_, by simpa using e5, e6⟩
      simp only [advance, hit.1, hdA_cons, e1, Option.bind_eq_bind, Option.bind_some, e4, reduceCtorEq, if_false]

theorem eachLoop_spec {h : Heap α} {last : Option Nat} {P S : List (Nat × α)} {f : Nat}
    (i : IsList h last (P ++ S)) (hf : S.length ≤ f) : eachLoop h last f (hdA S) = some (vals S) := by
  induction S generalizing P f with
  | nil => cases f <;> rfl
  | cons x S ih =>
    obtain ⟨f, rfl⟩ : ∃ g, f = g + 1 := ⟨f - 1, by simp at hf; omega⟩
    obtain ⟨n, hx⟩ := i.rd
    have := ih (P := P ++ [x]) (f := f) (by simpa using i) (by simp at hf; omega)
    simp only [hdA_cons, eachLoop, hx, Option.bind_eq_bind, Option.bind_some, nextAt_spec i, this, vals_cons]

theorem each_spec {h : Heap α} {last : Option Nat} {l : List (Nat × α)} (i : IsList h last l) :
    each ⟨h, last⟩ = some (vals l) := by
  obtain ⟨it, e1, e2, _⟩ := begin_spec i 0
  have := eachLoop_spec (P := []) (f := h.length + 1) i (by have := i.length_le; omega)
  simp only [each, e1, Option.bind_eq_bind, Option.bind_some, e2.1, this]

theorem countLoop_spec {h : Heap α} {z : Nat} {P S : List (Nat × α)} {f n : Nat} {x : Nat × α}
    (i : IsList h (some z) (P ++ x :: S)) (hf : S.length < f) (hP : S = [] → P ≠ []) :
    S ≠ [] → countLoop h z f x.1 n = some (n + S.length - 1) := by
  induction S generalizing P f n x with
  | nil => exact fun h => absurd rfl h
  | cons y S ih =>
    intro _
    obtain ⟨f, rfl⟩ : ∃ g, f = g + 1 := ⟨f - 1, by simp at hf; omega⟩
    have hx := ((seg_append _ _ _ _).1 i.cyc).2.1
    have i' : IsList h (some z) ((P ++ [x]) ++ y :: S) := by simpa using i
    have hy := i'.getLast
    simp only [countLoop, nxt_eq hx, Option.bind_eq_bind, Option.bind_some, hd_cons]
    by_cases hS : S = []
    · have := hy.2 hS
      simp only [Option.some.injEq] at this
      subst hS
      rw [if_pos this.symm]; simp
    · rw [if_neg (fun hh => hS (hy.1 (by rw [hh]))), ih i' (by simp at hf ⊢; omega) (by simp) hS]
      simp only [List.length_cons, Option.some.injEq]; omega

theorem count_spec {h : Heap α} {last : Option Nat} {l : List (Nat × α)} (i : IsList h last l) :
    count ⟨h, last⟩ = some l.length := by
  by_cases hl : l = []
  · subst hl
    have := i.last
    subst this
    rfl
  · obtain ⟨l', z, v, rfl⟩ := exists_snoc hl
    have hz : last = some z := by rw [i.last]; simp
    subst hz
    -- the walk starts at the last node: one step leads to the first one
    have hzz := ((seg_append _ _ _ _).1 i.cyc).2.1
    have hlen := i.length_le
    simp only [count, countLoop, nxt_eq hzz, hd_nil, Option.bind_eq_bind, Option.bind_some]
    cases l' with
    | nil => simp
    | cons x l' =>
      have i' : IsList h (some z) ([] ++ x :: (l' ++ [(z, v)])) := by simpa using i
      have hx : x.1 ≠ z := by
        intro hh
        have := i'.getLast.1 (by rw [hh])
        simp at this
      have hx' : hd (x :: l' ++ [(z, v)]) 0 ≠ z := hx
      rw [if_neg hx']
      have hx2 : hd (x :: l' ++ [(z, v)]) 0 = x.1 := rfl
      rw [hx2, countLoop_spec i' (by simp only [List.length_append, List.length_cons, List.length_nil] at hlen ⊢; omega) (by simp) (by simp)]
      congr 1; simp only [List.length_cons, List.length_append, List.length_nil]; omega

theorem front_spec {h : Heap α} {last : Option Nat} {x : Nat × α} {S : List (Nat × α)}
    (i : IsList h last (x :: S)) : front ⟨h, last⟩ = some x.2 := by
  obtain ⟨it, e1, e2, _⟩ := begin_spec i 0
  obtain ⟨n, hx⟩ := IsList.rd (P := []) i
  rcases hz : last with _ | z
  · rw [hz] at i; cases i.eq_nil
  · rw [hz] at e1
    simp only [begin, Option.bind_eq_bind, Option.bind_eq_some_iff, Option.some.injEq] at e1
    obtain ⟨m, h1, rfl⟩ := e1
    have := e2.1
    simp only [hdA_cons, Option.some.injEq] at this
    subst this
    simp only [front, Option.bind_eq_bind, Option.bind_some, h1, hx, Option.map_some]

theorem back_spec {h : Heap α} {last : Option Nat} {l : List (Nat × α)} {z : Nat × α}
    (i : IsList h last (l ++ [z])) : back ⟨h, last⟩ = some z.2 := by
  obtain ⟨n, hx⟩ := i.rd
  have := i.last
  rw [lastA_snoc] at this
  subst this
  simp only [back, Option.bind_eq_bind, Option.bind_some, hx, Option.map_some]

/-! ### ranges -/

theorem addrs_tail {M : List (Nat × α)} {e : Nat} (h : e ∈ addrs M.tail) : e ∈ addrs M := by
  obtain ⟨p, hp, hq⟩ := List.mem_map.1 h
  exact List.mem_map.2 ⟨p, List.mem_of_mem_tail hp, hq⟩

theorem eraseRangeLoop_spec {f e : Nat} {h : Heap α} {last : Option Nat} {P M S : List (Nat × α)}
    (i : IsList h last (P ++ M ++ S)) (hM : M ≠ []) (hf : M.length ≤ f) (he : e ∉ addrs M.tail)
    (he' : S ++ P ≠ [] → e = hd (S ++ P) 0) :
    ∃ h' last', eraseRangeLoop e (lastA (M ++ S ++ P)) f ⟨h, last⟩ = some (⟨h', last'⟩, vals M) ∧
      IsList h' last' (P ++ S) ∧ Upd h h' (addrs (P ++ M ++ S)) (addrs (P ++ S)) := by
  induction M generalizing f h last with
  | nil => exact absurd rfl hM
  | cons x M ih =>
    obtain ⟨f, rfl⟩ : ∃ g, f = g + 1 := ⟨f - 1, by simp at hf; omega⟩
    have i0 : IsList h last (P ++ x :: (M ++ S)) := by simpa using i
    obtain ⟨h1, l1, e1, e2, e3⟩ := eraseMid i0
    rw [← List.cons_append] at e1
    by_cases hX : M ++ S ++ P = []
    · simp only [List.append_eq_nil_iff] at hX
      obtain ⟨⟨rfl, rfl⟩, rfl⟩ := hX
      refine ⟨h1, l1, ?_, e2, e3⟩
      have hl : l1 = none := e2.last
      simp only [eraseRangeLoop, e1, Option.bind_eq_bind, Option.bind_some, if_pos hl]
      rfl
    · have hp : lastA (x :: M ++ S ++ P) = lastA (M ++ S ++ P) := by
        simp only [List.cons_append]; exact lastA_cons_ne hX
      have hl1 : l1 ≠ none := by
        rw [e2.last, Ne, lastA_eq_none]
        intro hh; apply hX
        simp only [List.append_eq_nil_iff] at hh ⊢
        tauto
      obtain ⟨c1, c2⟩ := e2.rot
      obtain ⟨X', z, v, hXe⟩ := exists_snoc hX
      have hz : lastA (x :: M ++ S ++ P) = some z := by rw [hp, hXe, lastA_snoc]
      have hnz : nxt h1 z = some (hd (M ++ S ++ P) 0) := by
        unfold Cyc at c1
        rw [hXe, seg_append] at c1
        rw [hXe, nxt_eq c1.2.1]; rfl
      by_cases hM' : M = []
      · subst hM'
        refine ⟨h1, l1, ?_, by simpa using e2, by simpa using e3⟩
        have hSP : e = hd (S ++ P) 0 := he' (by simpa using hX)
        rw [hz] at e1 ⊢
        rw [List.nil_append, ← hSP] at hnz
        simp only [eraseRangeLoop, e1, Option.bind_eq_bind, Option.bind_some, if_neg hl1, hnz, ne_eq, not_true,
          if_false]
        rfl
      · obtain ⟨h2, l2, e4, e5, e6⟩ := ih (f := f) (h := h1) (last := l1) (by simpa using e2) hM'
          (by simp at hf; omega) (fun hh => he (addrs_tail hh))
        refine ⟨h2, l2, ?_, e5, ?_⟩
        · have hne : hd (M ++ S ++ P) 0 ≠ e := by
            intro hh
            apply he
            rw [List.append_assoc, hd_append] at hh
            rw [← hh]
            exact hd_mem hM' _
          rw [← hp, hz] at e4
          rw [hz] at e1 ⊢
          simp only [eraseRangeLoop, e1, Option.bind_eq_bind, Option.bind_some, if_neg hl1, hnz, ne_eq, hne,
            not_false_eq_true, if_true, e4]
          rfl
        · have e3' : Upd h h1 (addrs (P ++ x :: M ++ S)) (addrs (P ++ M ++ S)) := by simpa using e3
          exact e3'.trans e6

theorem eraseRange_spec {h : Heap α} {last : Option Nat} {P M S : List (Nat × α)} {it1 it2 : Iter}
    (i : IsList h last (P ++ M ++ S)) (h1 : At P (M ++ S) it1) (h2 : it2.ref = hdA S)
    (hne : S = [] → P ++ M ≠ []) :
    ∃ h' last', eraseRange ⟨h, last⟩ it1 it2 = some (⟨h', last'⟩, vals M, it2) ∧
      IsList h' last' (P ++ S) ∧ Upd h h' (addrs (P ++ M ++ S)) (addrs (P ++ S)) := by
  -- the stop address
  have hend : ∃ e, stopAt ⟨h, last⟩ it2 = some e ∧ (S ++ P ≠ [] → e = hd (S ++ P) 0) ∧ e ∉ addrs M.tail := by
    have hnd := i.nodup
    by_cases hS : S = []
    · subst hS
      unfold stopAt
      rw [h2]
      have hPM := hne rfl
      rw [List.append_nil] at i hnd
      obtain ⟨l', z, v, hl'⟩ := exists_snoc hPM
      have hlast : last = some z := by rw [i.last, hl', lastA_snoc]
      have hc := i.cyc
      unfold Cyc at hc
      refine ⟨hd (P ++ M) 0, ?_, ?_, ?_⟩
      · rw [hlast]
        rw [hl', seg_append] at hc
        simp only [hdA_nil, Option.bind_some]
        rw [nxt_eq hc.2.1, hl']; rfl
      · intro hP
        rw [List.nil_append] at hP ⊢
        rw [hd_append, hd_ne hP]
      · intro hm
        rw [hd_append] at hm
        cases P with
        | cons p P =>
          rw [hd_cons] at hm
          rw [List.cons_append, addrs_cons, List.nodup_cons] at hnd
          apply hnd.1
          obtain ⟨q, hq, hq'⟩ := List.mem_map.1 hm
          exact List.mem_map.2 ⟨q, by simp [List.mem_of_mem_tail hq], hq'⟩
        | nil =>
          cases M with
          | nil => simp at hm
          | cons x M =>
            simp only [hd_nil, hd_cons, List.tail_cons] at hm
            simp only [List.nil_append, addrs_cons, List.nodup_cons] at hnd
            exact hnd.1 hm
    · unfold stopAt
      rw [h2, hdA_ne hS 0]
      refine ⟨hd S 0, rfl, fun _ => ?_, fun hm => ?_⟩
      · rw [hd_append, hd_ne hS]
      · rw [addrs_append, List.nodup_append] at hnd
        refine hnd.2.2 (hd S 0) ?_ (hd S 0) (hd_mem hS 0) rfl
        obtain ⟨q, hq, hq'⟩ := List.mem_map.1 hm
        exact List.mem_map.2 ⟨q, by simp [List.mem_of_mem_tail hq], hq'⟩
  obtain ⟨e, he0, he1, he2⟩ := hend
  by_cases hM : M = []
  · subst hM
    refine ⟨h, last, ?_, by simpa using i, by simpa using i.upd⟩
    simp only [eraseRange]
    rw [Option.bind_eq_bind, he0, Option.bind_some, if_neg]
    · rfl
    · rw [h1.1, h2]; simp
  · obtain ⟨h', last', e1, e2, e3⟩ := eraseRangeLoop_spec (f := h.length + 1) i hM
      (by have := i.length_le; simp at this; omega) he2 he1
    refine ⟨h', last', ?_, e2, e3⟩
    simp only [eraseRange]
    rw [Option.bind_eq_bind, he0, Option.bind_some, if_pos]
    · rw [h1.2 (by simp [hM]), e1]; rfl
    · rw [h1.1, h2]
      intro hh
      cases M with
      | nil => exact hM rfl
      | cons x M =>
        rw [List.cons_append, hdA_cons] at hh
        cases S with
        | nil => cases hh
        | cons y S =>
          simp only [hdA_cons, Option.some.injEq] at hh
          have hnd := i.nodup
          simp only [addrs_append, addrs_cons, List.nodup_append] at hnd
          exact hnd.2.2 x.1 (by simp) y.1 (by simp) hh

theorem splitOff_spec {h : Heap α} {last : Option Nat} {P M S : List (Nat × α)} {it1 it2 : Iter}
    (i : IsList h last (P ++ M ++ S)) (h1 : At P (M ++ S) it1) (h2 : At (P ++ M) S it2) :
    ∃ h' last', splitOff ⟨h, last⟩ it1 it2 = some (⟨h', last'⟩, lastA M) ∧
      IsList h' last' (P ++ S) ∧ IsList h' (lastA M) M ∧
      Upd h h' (addrs (P ++ M ++ S)) (addrs (P ++ S) ++ addrs M) := by
  by_cases hM : M = []
  · subst hM
    refine ⟨h, last, ?_, by simpa using i, IsList.nil _, by simpa using i.upd⟩
    rw [splitOff, if_pos]
    · rfl
    · rw [h1.1, h2.1]; simp
  have hne : it1.ref ≠ it2.ref := by
    rw [h1.1, h2.1]
    intro hh
    cases M with
    | nil => exact hM rfl
    | cons x M =>
      rw [List.cons_append, hdA_cons] at hh
      cases S with
      | nil => cases hh
      | cons y S =>
        simp only [hdA_cons, Option.some.injEq] at hh
        have hnd := i.nodup
        simp only [addrs_append, addrs_cons, List.nodup_append] at hnd
        exact hnd.2.2 x.1 (by simp) y.1 (by simp) hh
  have hp2 : before it2 last = lastA M := by
    unfold before
    cases S with
    | nil => rw [if_neg (by simp [h2.1]), i.last, List.append_nil, lastA_append_ne hM]
    | cons y S => rw [if_pos (by simp [h2.1]), h2.2 (by simp), ← List.append_assoc, lastA_append_ne hM]
  have hp1 := h1.2 (by simp [hM])
  have hr1 : it1.ref = some (hd M 0) := by
    rw [h1.1, hdA_ne (by simp [hM]) 0, hd_append, hd_ne hM]
  have hnd := i.nodup
  have nM : (addrs M).Nodup := by
    simp only [addrs_append, List.nodup_append] at hnd; exact hnd.1.2.1
  have nPS : (addrs (P ++ S)).Nodup := by
    simp only [addrs_append, List.nodup_append] at hnd ⊢
    exact ⟨hnd.1.1, hnd.2.1, fun a ha b hb => hnd.2.2 a (by simp [ha]) b hb⟩
  have hUpd : ∀ h', (∀ b, b ∉ addrs (P ++ M ++ S) → h'.rd b = h.rd b) → Cyc h' (P ++ S) → Cyc h' M →
      Upd h h' (addrs (P ++ M ++ S)) (addrs (P ++ S) ++ addrs M) := by
    intro h' hf c1 c2
    refine ⟨fun a h3 _ => hf a h3, fun a h3 h4 => ?_, fun a h3 h4 => ?_, fun a h3 => ?_⟩
    · exfalso
      simp only [addrs_append, List.mem_append, not_or] at h3 h4; tauto
    · exfalso
      simp only [addrs_append, List.mem_append, not_or] at h3 h4; tauto
    · rcases List.mem_append.1 h3 with h3 | h3
      · obtain ⟨c, hc⟩ := c1.live h3; simp [hc]
      · obtain ⟨c, hc⟩ := c2.live h3; simp [hc]
  by_cases hX : S ++ P = []
  · obtain ⟨rfl, rfl⟩ := List.append_eq_nil_iff.1 hX
    simp only [List.nil_append, List.append_nil] at *
    obtain ⟨M', w, u, hMe⟩ := exists_snoc hM
    have hw : lastA M = some w := by rw [hMe, lastA_snoc]
    have hc := i.cyc
    unfold Cyc at hc
    have hrw : h.rd w = some ⟨u, some (hd M 0)⟩ := by
      rw [hMe, seg_append] at hc
      rw [hMe]; exact hc.2.1
    set q := hd M 0 with hq
    have l1 := lt_of_rd hrw
    have hrw' : Buf.rd (h.set w (some ⟨u, some q⟩)) w = some ⟨u, some q⟩ := by rw [rd_set _ _ _ _ l1, if_pos rfl]
    have hsame : ∀ b, Buf.rd ((h.set w (some ⟨u, some q⟩)).set w (some ⟨u, some q⟩)) b = h.rd b := by
      intro b
      rw [rd_set _ _ _ _ (by simpa using l1), rd_set _ _ _ _ l1]
      by_cases hb : b = w
      · rw [if_pos hb, hb, hrw]
      · rw [if_neg hb, if_neg hb]
    have cM : Cyc ((h.set w (some ⟨u, some q⟩)).set w (some ⟨u, some q⟩)) M := Seg.frame hc fun a _ => hsame a
    refine ⟨_, none, ?_, IsList.nil _, ⟨rfl, cM, nM⟩, hUpd _ (fun b _ => hsame b) trivial cM⟩
    have hl : last = some w := i.last.trans hw
    rw [splitOff, if_neg hne]
    simp only [hp1, hp2, hw, Option.bind_eq_bind, Option.bind_some, nxt_eq hrw, setNext_eq hrw, hr1, setNext_eq hrw',
      if_pos hl, if_true]
  · have iR : Cyc h ((S ++ P) ++ M) ∧ (addrs ((S ++ P) ++ M)).Nodup := by
      have i' : IsList h last ((P ++ M) ++ S) := i
      obtain ⟨r1, r2⟩ := i'.rot
      rw [← List.append_assoc] at r1 r2
      exact ⟨r1, r2⟩
    obtain ⟨g1, g2, z, w, k1, k2, k3, k4, k5, k6, k7, k8, k9⟩ := cut_spec hX hM iR.1 iR.2
    have hzw : z ≠ w := by
      intro hh
      have h3 := lastA_mem k1
      have h4 := lastA_mem k2
      have := iR.2
      rw [addrs_append, List.nodup_append] at this
      exact this.2.2 z h3 w h4 hh
    have hlast : (if last = some w then (if z = w then none else some z) else last) = lastA (P ++ S) := by
      by_cases hS : S = []
      · subst hS
        rw [if_pos (by rw [i.last, List.append_nil, lastA_append_ne hM, k2]), if_neg hzw, List.append_nil, ← k1,
          List.nil_append]
      · rw [if_neg, i.last, lastA_append_ne hS, lastA_append_ne hS]
        rw [i.last, lastA_append_ne hS]
        intro hh
        have := iR.2
        rw [addrs_append, List.nodup_append] at this
        exact this.2.2 w (by have := lastA_mem hh; simp [this]) w (lastA_mem k2) rfl
    refine ⟨g2, lastA (P ++ S), ?_, ⟨rfl, k7.rotate, nPS⟩, ⟨rfl, k8, nM⟩, hUpd g2 (fun b hb => k9 b ?_) k7.rotate k8⟩
    · rw [splitOff, if_neg hne]
      rw [List.append_assoc, lastA_append_ne hX, k1] at hp1
      simp only [hp1, hp2, k2, Option.bind_eq_bind, Option.bind_some, k4, k5, hr1, k6, hlast]
    · simp only [addrs_append, List.mem_append, not_or] at hb ⊢
      tauto

theorem splice_spec {h : Heap α} {self other : Option Nat} {P S Y : List (Nat × α)} {it : Iter}
    (i : IsList h self (P ++ S)) (hit : At P S it) (j : IsList h other Y)
    (hd' : ∀ a ∈ addrs Y, a ∉ addrs (P ++ S)) :
    ∃ h' self' it', splice h self it other = some (h', self', none, it') ∧
      IsList h' self' (P ++ Y ++ S) ∧ At (P ++ Y) S it' ∧ it'.home = it.home ∧
      Upd h h' (addrs (P ++ S) ++ addrs Y) (addrs (P ++ Y ++ S)) := by
  have hlive : ∀ a ∈ addrs (P ++ S), a ∉ addrs Y := fun a h1 h2 => hd' a h2 h1
  by_cases hl : P ++ S = []
  · obtain ⟨rfl, rfl⟩ := List.append_eq_nil_iff.1 hl
    have := i.last
    subst this
    refine ⟨h, other, it, rfl, by simpa using j, ⟨hit.1, fun hh => absurd rfl hh⟩, rfl, ?_⟩
    simpa using j.upd
  by_cases hY : Y = []
  · subst hY
    have hs : ∃ z, self = some z := by
      rcases hz : self with _ | z
      · rw [hz] at i; exact absurd i.eq_nil hl
      · exact ⟨z, rfl⟩
    obtain ⟨z, rfl⟩ := hs
    have := j.last
    subst this
    refine ⟨h, some z, it, rfl, by simpa using i, by simpa using hit, rfl, ?_⟩
    simpa using i.upd
  obtain ⟨r1, r2⟩ := i.rot
  have hl' : S ++ P ≠ [] := by
    intro hh; apply hl
    simp only [List.append_eq_nil_iff] at hh ⊢; tauto
  have nn : (addrs ((S ++ P) ++ Y)).Nodup := by
    rw [addrs_append, List.nodup_append]
    refine ⟨r2, j.nodup, fun a ha b hb hab => ?_⟩
    subst hab
    exact hd' a hb (by simpa [or_comm] using ha)
  obtain ⟨g1, g2, z, w, k1, k2, k3, k4, k5, k6, k7, k8⟩ := join_spec hl' hY r1 j.cyc nn
  have hother : other = some w := by rw [j.last, k2]
  subst hother
  obtain ⟨y, hself⟩ : ∃ y, self = some y := by
    rcases hz : self with _ | z
    · rw [hz] at i; exact absurd i.eq_nil hl
    · exact ⟨z, rfl⟩
  have hp : before it (some y) = some z := by
    unfold before
    cases S with
    | nil =>
      rw [if_neg (by simp [hit.1]), ← hself, i.last, List.append_nil]
      simpa using k1
    | cons x S => rw [if_pos (by simp [hit.1]), hit.2 (by simp), k1]
  have hC : Cyc g2 (P ++ Y ++ S) := by
    have : Cyc g2 (S ++ (P ++ Y)) := by rw [← List.append_assoc]; exact k7
    exact this.rotate
  have hN : (addrs (P ++ Y ++ S)).Nodup := by
    rw [List.append_assoc] at nn
    exact nodup_rot nn
  refine ⟨g2, if it.ref = none then some w else self, { it with prev := some w }, ?_, ⟨?_, hC, hN⟩,
    ⟨hit.1, fun hS => ?_⟩, rfl, ?_⟩
  · subst hself
    simp only [splice, hp, Option.bind_eq_bind, Option.bind_some, k3, k4, k5, k6]
  · by_cases hS : S = []
    · subst hS
      have hh : it.ref = none := hit.1
      rw [if_pos hh, List.append_nil, lastA_append_ne hY, k2]
    · rw [if_neg (by rw [hit.1, hdA_ne hS 0]; simp), i.last, lastA_append_ne hS, lastA_append_ne hS]
  · rw [← List.append_assoc, lastA_append_ne hY, k2]
  · refine ⟨fun a h1 _ => k8 a ?_, fun a h1 h2 => ?_, fun a h1 h2 => ?_, fun a h1 => ?_⟩
    · simp only [addrs_append, List.mem_append, not_or] at h1 ⊢; tauto
    · exfalso; simp only [addrs_append, List.mem_append, not_or] at h1 h2; tauto
    · exfalso; simp only [addrs_append, List.mem_append, not_or] at h1 h2; tauto
    · obtain ⟨c, hc⟩ := hC.live h1; simp [hc]

end Verif.Clist
