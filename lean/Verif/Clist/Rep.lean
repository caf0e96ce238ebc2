import Verif.Clist.Ops2
import Verif.Clist.Spec
import Verif.Sort.Props
/- Every call keeps the representation and does what the specification says. -/
namespace Verif.Clist
open Spec
variable {α : Type}

/-- `G s` are the nodes of list `s`; lists share no node, and there is no other live node. -/
structure Rep (m : Mem α) (G : Nat → List (Nat × α)) : Prop where
  list : ∀ s, IsList m.heap (m.last s) (G s)
  disj : ∀ s t, s ≠ t → ∀ a ∈ addrs (G s), a ∉ addrs (G t)
  owned : ∀ a c, m.heap.rd a = some c → ∃ s, a ∈ addrs (G s)

theorem Rep.init : Rep (Mem.init (α := α)) (fun _ => []) :=
  ⟨fun _ => IsList.nil _, fun _ _ _ _ h => by simp at h, fun a c h => by simp [Mem.init, Buf.rd] at h⟩

theorem upd_same {β : Type} (f : Nat → β) (s : Nat) (x : β) : upd f s x s = x := if_pos rfl
theorem upd_upd {β : Type} (f : Nat → β) (s : Nat) (x y : β) : upd (upd f s x) s y = upd f s y := by
  funext q
  by_cases h : q = s <;> simp [upd, h]
theorem upd_ne {β : Type} (f : Nat → β) {s t : Nat} (x : β) (h : t ≠ s) : upd f s x t = f t := if_neg h

theorem Rep.put1 {m : Mem α} {G : Nat → List (Nat × α)} (R : Rep m G) {s : Nat} {h' : Heap α} {last' : Option Nat}
    {l : List (Nat × α)} (i : IsList h' last' l) (u : Upd m.heap h' (addrs (G s)) (addrs l)) :
    Rep (m.put s ⟨h', last'⟩) (upd G s l) := by
  have keep := fun t (ht : t ≠ s) => u.keep (R.list t) (fun a ha => R.disj t s ht a ha)
  refine ⟨fun t => ?_, fun t1 t2 h12 a h1 h2 => ?_, fun a c hc => ?_⟩
  · by_cases ht : t = s
    · subst ht; simpa [Mem.put, upd_same] using i
    · simpa [Mem.put, upd_ne _ _ ht] using (keep t ht).1
  · by_cases ht1 : t1 = s
    · subst ht1
      rw [upd_same] at h1
      rw [upd_ne _ _ (Ne.symm h12)] at h2
      exact (keep t2 (Ne.symm h12)).2 a h2 h1
    · rw [upd_ne _ _ ht1] at h1
      by_cases ht2 : t2 = s
      · subst ht2
        rw [upd_same] at h2
        exact (keep t1 ht1).2 a h1 h2
      · rw [upd_ne _ _ ht2] at h2
        exact R.disj t1 t2 h12 a h1 h2
  · have hc' : h'.rd a = some c := hc
    by_cases hl : a ∈ addrs l
    · exact ⟨s, by rwa [upd_same]⟩
    · by_cases hg : a ∈ addrs (G s)
      · rw [u.freed a hg hl] at hc'; cases hc'
      · rw [u.frame a hg hl] at hc'
        obtain ⟨t, ht⟩ := R.owned a c hc'
        have hts : t ≠ s := by rintro rfl; exact hg ht
        exact ⟨t, by rwa [upd_ne _ _ hts]⟩

theorem Rep.put2 {m : Mem α} {G : Nat → List (Nat × α)} (R : Rep m G) {s t : Nat} (hst : s ≠ t) {h' : Heap α}
    {x y : Option Nat} {A B : List (Nat × α)} (i : IsList h' x A) (j : IsList h' y B)
    (hd' : ∀ a ∈ addrs A, a ∉ addrs B)
    (u : Upd m.heap h' (addrs (G s) ++ addrs (G t)) (addrs A ++ addrs B)) :
    Rep ((m.put s ⟨h', x⟩).put t ⟨h', y⟩) (upd (upd G s A) t B) := by
  have keep := fun q (h1 : q ≠ s) (h2 : q ≠ t) => u.keep (R.list q) (fun a ha => by
    simp only [List.mem_append, not_or]
    exact ⟨R.disj q s h1 a ha, R.disj q t h2 a ha⟩)
  have hG : ∀ q, (upd (upd G s A) t B) q = if q = t then B else if q = s then A else G q := fun _ => rfl
  have hL : ∀ q, ((m.put s ⟨h', x⟩).put t ⟨h', y⟩).last q = if q = t then y else if q = s then x else m.last q :=
    fun _ => rfl
  refine ⟨fun q => ?_, fun q1 q2 h12 a h1 h2 => ?_, fun a c hc => ?_⟩
  · rw [hG, hL]
    by_cases h1 : q = t
    · rw [if_pos h1, if_pos h1]; exact j
    · by_cases h2 : q = s
      · rw [if_neg h1, if_neg h1, if_pos h2, if_pos h2]; exact i
      · rw [if_neg h1, if_neg h1, if_neg h2, if_neg h2]; exact (keep q h2 h1).1
  · rw [hG] at h1 h2
    have aux : ∀ q, q ≠ s → q ≠ t → a ∈ addrs (G q) → a ∉ addrs A ∧ a ∉ addrs B := by
      intro q k1 k2 ha
      have := (keep q k1 k2).2 a ha
      simpa [not_or] using this
    by_cases k1 : q1 = t
    · rw [if_pos k1] at h1
      have k2 : q2 ≠ t := fun hh => h12 (k1.trans hh.symm)
      rw [if_neg k2] at h2
      by_cases k3 : q2 = s
      · rw [if_pos k3] at h2; exact hd' a h2 h1
      · rw [if_neg k3] at h2; exact (aux q2 k3 k2 h2).2 h1
    · rw [if_neg k1] at h1
      by_cases k3 : q1 = s
      · rw [if_pos k3] at h1
        have k4 : q2 ≠ s := fun hh => h12 (k3.trans hh.symm)
        by_cases k2 : q2 = t
        · rw [if_pos k2] at h2; exact hd' a h1 h2
        · rw [if_neg k2, if_neg k4] at h2; exact (aux q2 k4 k2 h2).1 h1
      · rw [if_neg k3] at h1
        by_cases k2 : q2 = t
        · rw [if_pos k2] at h2; exact (aux q1 k3 k1 h1).2 h2
        · rw [if_neg k2] at h2
          by_cases k4 : q2 = s
          · rw [if_pos k4] at h2; exact (aux q1 k3 k1 h1).1 h2
          · rw [if_neg k4] at h2; exact R.disj q1 q2 h12 a h1 h2
  · have hc' : h'.rd a = some c := hc
    by_cases hA : a ∈ addrs A
    · exact ⟨s, by rw [hG, if_neg hst, if_pos rfl]; exact hA⟩
    by_cases hB : a ∈ addrs B
    · exact ⟨t, by rw [hG, if_pos rfl]; exact hB⟩
    have hn : a ∉ addrs A ++ addrs B := by simp [hA, hB]
    by_cases hg : a ∈ addrs (G s) ++ addrs (G t)
    · rw [u.freed a hg hn] at hc'; cases hc'
    · rw [u.frame a hg hn] at hc'
      obtain ⟨q, hq⟩ := R.owned a c hc'
      simp only [List.mem_append, not_or] at hg
      refine ⟨q, ?_⟩
      rw [hG, if_neg (by rintro rfl; exact hg.2 hq), if_neg (by rintro rfl; exact hg.1 hq)]
      exact hq

/-- The sequences. -/
def seqs (G : Nat → List (Nat × α)) : Nat → List α := fun s => vals (G s)

theorem seqs_upd (G : Nat → List (Nat × α)) (s : Nat) (l : List (Nat × α)) :
    seqs (upd G s l) = put (seqs G) s (vals l) := by
  funext t; unfold seqs upd put; split <;> rfl

theorem Rep.contents {m : Mem α} {G : Nat → List (Nat × α)} (R : Rep m G) : contents m = seqs G := by
  funext s
  unfold Spec.contents seqs
  rw [Mem.lst, each_spec (R.list s)]; rfl

theorem seat_spec {m : Mem α} {G : Nat → List (Nat × α)} (R : Rep m G) (s k : Nat) :
    ∃ it, seat m s k = some it ∧ At ((G s).take k) ((G s).drop k) it ∧ it.home = some s := by
  obtain ⟨b, e1, e2, e3⟩ := begin_spec (R.list s) s
  obtain ⟨it, e4, e5, e6⟩ := advance_spec (obj := m.last) k (P := []) (S := G s) (R.list s) e2 e3
  exact ⟨it, by simp only [seat, Mem.lst, e1, Option.bind_eq_bind, Option.bind_some, e4], by simpa using e5, e6⟩

theorem IsList.split {h : Heap α} {last : Option Nat} {l : List (Nat × α)} (i : IsList h last l) (k : Nat) :
    IsList h last (l.take k ++ l.drop k) := by rwa [List.take_append_drop]

theorem drop_cons {l : List (Nat × α)} {k : Nat} (hk : k < l.length) : l.drop k = l[k] :: l.drop (k + 1) :=
  List.drop_eq_getElem_cons hk

theorem vals_take (l : List (Nat × α)) (k : Nat) : vals (l.take k) = (vals l).take k := by simp [vals]
theorem vals_drop (l : List (Nat × α)) (k : Nat) : vals (l.drop k) = (vals l).drop k := by simp [vals]

theorem split3 (l : List (Nat × α)) (k n : Nat) :
    l.take k ++ (l.drop k).take n ++ l.drop (k + n) = l := by
  rw [List.append_assoc, ← List.drop_drop, List.take_append_drop, List.take_append_drop]

theorem take_add_eq (l : List (Nat × α)) (k n : Nat) : l.take (k + n) = l.take k ++ (l.drop k).take n := by
  rw [List.take_add]

/-- The new state and what the call did. -/
def Good (F : Fns α) (m : Mem α) (G : Nat → List (Nat × α)) (o : Op α) : Prop :=
  ∃ m' r G', run F m o = some (m', r) ∧ Rep m' G' ∧ After F (seqs G) r (seqs G') o

variable {F : Fns α} {m : Mem α} {G : Nat → List (Nat × α)}

theorem good_pushBack (R : Rep m G) (s w : Nat) (v : α) : Good F m G (.pushBack s (some w) v) := by
  obtain ⟨h', e, e1, e2, e3⟩ := pushBack_spec (R.list s) w v
  refine ⟨m.put s ⟨h', some e⟩, ⟨[], 0, true⟩, upd G s (G s ++ [(e, v)]), ?_, R.put1 e2 e3, ?_⟩
  · simp only [run, Mem.lst, e1, Option.bind_eq_bind, Option.bind_some]
  · exact ⟨by rw [seqs_upd]; simp [seqs], rfl⟩

theorem good_pushFront (R : Rep m G) (s w : Nat) (v : α) : Good F m G (.pushFront s (some w) v) := by
  obtain ⟨h', l', e, e1, e2, e3⟩ := pushFront_spec (R.list s) w v
  refine ⟨m.put s ⟨h', l'⟩, ⟨[], 0, true⟩, upd G s ((e, v) :: G s), ?_, R.put1 e2 e3, ?_⟩
  · simp only [run, Mem.lst, e1, Option.bind_eq_bind, Option.bind_some]
  · exact ⟨by rw [seqs_upd]; simp [seqs], rfl⟩

theorem good_putN (R : Rep m G) (s : Nat) (w : Nat → Option Nat) (hw : ∀ k, (w k).isSome) (vs : List α) :
    Good F m G (.putN s w vs) := by
  obtain ⟨h', l', C, e1, e2, e3, e4⟩ := putN_spec (k := 0) vs (R.list s) hw
  refine ⟨m.put s ⟨h', l'⟩, ⟨[], 0, true⟩, upd G s (G s ++ C), ?_, R.put1 e2 e4, ?_⟩
  · simp only [run, Mem.lst, e1, Option.bind_eq_bind, Option.bind_some]
  · exact ⟨by rw [seqs_upd]; simp [seqs, e3], rfl⟩

theorem good_popFront (R : Rep m G) (s : Nat) (hs : seqs G s ≠ []) : Good F m G (.popFront s) := by
  have i := R.list s
  cases hg : G s with
  | nil => simp [seqs, hg] at hs
  | cons x S =>
    rw [hg] at i
    obtain ⟨h', l', e1, e2, e3⟩ := popFront_spec i
    refine ⟨m.put s ⟨h', l'⟩, ⟨[x.2], 0, true⟩, upd G s S, ?_, R.put1 e2 (by rw [hg]; exact e3), ?_⟩
    · simp only [run, Mem.lst, e1, Option.bind_eq_bind, Option.bind_some]
    · exact ⟨by rw [seqs_upd]; simp [seqs, hg], by simp [seqs, hg]⟩

theorem good_insertAt (R : Rep m G) (s k w : Nat) (v : α) : Good F m G (.insertAt s k (some w) v) := by
  obtain ⟨it, e0, hit, _⟩ := seat_spec R s k
  obtain ⟨h', l', e, it', e1, e2, _, _, e3⟩ := insertAt_spec ((R.list s).split k) hit w v
  refine ⟨m.put s ⟨h', l'⟩, ⟨[], 0, true⟩, upd G s ((G s).take k ++ (e, v) :: (G s).drop k), ?_,
    R.put1 e2 (by rw [List.take_append_drop] at e3; exact e3), ?_⟩
  · simp only [run, e0, Mem.lst, e1, Option.bind_eq_bind, Option.bind_some]
  · exact ⟨by rw [seqs_upd]; simp [seqs, vals_take, vals_drop], rfl⟩

theorem good_insertEnd (R : Rep m G) (s w : Nat) (v : α) : Good F m G (.insertEnd s (some w) v) := by
  obtain ⟨h', l', e, it', e1, e2, _, _, e3⟩ := insertAt_spec (P := G s) (S := []) (by simpa using R.list s)
    (At.end _) w v
  refine ⟨m.put s ⟨h', l'⟩, ⟨[], 0, true⟩, upd G s (G s ++ [(e, v)]), ?_, R.put1 e2 (by simpa using e3), ?_⟩
  · simp only [run, Mem.lst, e1, Option.bind_eq_bind, Option.bind_some]
  · exact ⟨by rw [seqs_upd]; simp [seqs], rfl⟩

theorem good_eraseAt (R : Rep m G) (s k : Nat) (hk : k < (seqs G s).length) : Good F m G (.eraseAt s k) := by
  obtain ⟨it, e0, hit, _⟩ := seat_spec R s k
  have hk' : k < (G s).length := by simpa [seqs] using hk
  have i := (R.list s).split k
  rw [drop_cons hk'] at i hit
  obtain ⟨h', l', it', e1, e2, _, _, e3⟩ := eraseAt_spec i hit
  refine ⟨m.put s ⟨h', l'⟩, ⟨[(G s)[k].2], 0, true⟩, upd G s ((G s).take k ++ (G s).drop (k + 1)), ?_,
    R.put1 e2 (by rw [← drop_cons hk', List.take_append_drop] at e3; exact e3), ?_⟩
  · simp only [run, e0, Mem.lst, e1, Option.bind_eq_bind, Option.bind_some]
  · refine ⟨by rw [seqs_upd]; simp [seqs, vals_take, vals_drop], ?_⟩
    rw [seqs, ← vals_drop, drop_cons hk']; rfl

theorem good_eraseRange (R : Rep m G) (s k n : Nat) (hs : seqs G s ≠ []) : Good F m G (.eraseRange s k n) := by
  obtain ⟨it1, e1, h1, _⟩ := seat_spec R s k
  obtain ⟨it2, e2, h2, _⟩ := seat_spec R s (k + n)
  have i := R.list s
  have hG : G s ≠ [] := by intro hh; exact hs (by simp [seqs, hh])
  rw [← split3 (G s) k n] at i
  obtain ⟨h', l', e3, e4, e5⟩ := eraseRange_spec (it1 := it1) (it2 := it2) i
    (by rw [← List.drop_drop, List.take_append_drop]; exact h1) h2.1 (by
      intro hh hp
      apply hG
      rw [← split3 (G s) k n, hp, hh]; rfl)
  rw [split3] at e5
  refine ⟨m.put s ⟨h', l'⟩, ⟨vals (((G s).drop k).take n), 0, true⟩,
    upd G s ((G s).take k ++ (G s).drop (k + n)), ?_, R.put1 e4 e5, ?_⟩
  · simp only [run, e1, e2, Mem.lst, e3, Option.bind_eq_bind, Option.bind_some]
  · exact ⟨by rw [seqs_upd]; simp [seqs, vals_take, vals_drop], by simp [seqs, vals_take, vals_drop]⟩

theorem good_eraseToEnd (R : Rep m G) (s k : Nat) (hs : seqs G s ≠ []) : Good F m G (.eraseToEnd s k) := by
  obtain ⟨it1, e1, h1, _⟩ := seat_spec R s k
  have i := R.list s
  have hG : G s ≠ [] := by intro hh; exact hs (by simp [seqs, hh])
  have hsp : (G s).take k ++ (G s).drop k ++ [] = G s := by simp
  rw [← hsp] at i
  obtain ⟨h', l', e3, e4, e5⟩ := eraseRange_spec (it1 := it1) (it2 := «end») i
    (by rw [List.append_nil]; exact h1) rfl (by
      intro _ hp
      apply hG
      rw [← hsp, hp]; rfl)
  rw [hsp] at e5
  rw [List.append_nil] at e4 e5
  refine ⟨m.put s ⟨h', l'⟩, ⟨vals ((G s).drop k), 0, true⟩, upd G s ((G s).take k), ?_, R.put1 e4 e5, ?_⟩
  · simp only [run, e1, Mem.lst, e3, Option.bind_eq_bind, Option.bind_some]
  · exact ⟨by rw [seqs_upd]; simp [seqs, vals_take], by simp [seqs, vals_drop]⟩

theorem good_splice (R : Rep m G) (s k t : Nat) (hst : s ≠ t) : Good F m G (.splice s k t) := by
  obtain ⟨it, e0, hit, _⟩ := seat_spec R s k
  obtain ⟨h', x, it', e1, e2, _, _, e3⟩ := splice_spec ((R.list s).split k) hit (R.list t)
    (by rw [List.take_append_drop]; exact R.disj t s (Ne.symm hst))
  refine ⟨(m.put s ⟨h', x⟩).put t ⟨h', none⟩, ⟨[], 0, true⟩,
    upd (upd G s ((G s).take k ++ G t ++ (G s).drop k)) t [], ?_,
    R.put2 hst e2 (IsList.nil _) (by simp) (by rw [List.take_append_drop] at e3; simpa using e3), ?_⟩
  · simp only [run, e0, e1, Option.bind_eq_bind, Option.bind_some]
  · exact ⟨by rw [seqs_upd, seqs_upd]; simp [seqs, vals_take, vals_drop], rfl⟩

theorem good_spliceRange (R : Rep m G) (s k t a n : Nat) (hst : s ≠ t) : Good F m G (.spliceRange s k t a n) := by
  obtain ⟨it, e0, hit, _⟩ := seat_spec R s k
  obtain ⟨it1, e1, h1, _⟩ := seat_spec R t a
  obtain ⟨it2, e2, h2, _⟩ := seat_spec R t (a + n)
  have i := R.list t
  rw [← split3 (G t) a n] at i
  obtain ⟨h3, l3, k1, k2, k3, k4⟩ := splitOff_spec (it1 := it1) (it2 := it2) i
    (by rw [← List.drop_drop, List.take_append_drop]; exact h1) (by rw [← take_add_eq]; exact h2)
  rw [split3] at k4
  obtain ⟨k5, k6⟩ := k4.keep (R.list s) (R.disj s t hst)
  simp only [List.mem_append, not_or] at k6
  obtain ⟨h', x, it', p1, p2, _, _, p3⟩ := splice_spec (k5.split k) hit k3
    (by rw [List.take_append_drop]; exact fun b hb hb' => (k6 b hb').2 hb)
  rw [List.take_append_drop] at p3
  -- the rest of `t` is not touched by the splice
  have hrest : ∀ b ∈ addrs ((G t).take a ++ (G t).drop (a + n)), b ∉ addrs (G s) ++ addrs (((G t).drop a).take n) := by
    intro b hb hb'
    rcases List.mem_append.1 hb' with hb' | hb'
    · exact (k6 b hb').1 hb
    · have := (R.list t).nodup
      rw [← split3 (G t) a n] at this
      simp only [addrs_append, List.nodup_append, List.mem_append] at this hb
      rcases hb with hb | hb
      · exact this.1.2.2 b hb b hb' rfl
      · exact this.2.2 b (.inr hb') b hb rfl
  obtain ⟨q1, q2⟩ := p3.keep k2 hrest
  have hU : Upd m.heap h' (addrs (G s) ++ addrs (G t))
      (addrs ((G s).take k ++ ((G t).drop a).take n ++ (G s).drop k) ++
        addrs ((G t).take a ++ (G t).drop (a + n))) := by
    have u1 : Upd m.heap h3 (addrs (G t) ++ addrs (G s)) ((addrs ((G t).take a ++ (G t).drop (a + n)) ++
        addrs (((G t).drop a).take n)) ++ addrs (G s)) := by
      refine k4.extend (fun b hb => R.disj s t hst b hb) fun b hb => ?_
      obtain ⟨c, hc⟩ := (R.list s).live hb; simp [hc]
    have u2 : Upd h3 h' ((addrs (G s) ++ addrs (((G t).drop a).take n)) ++ addrs ((G t).take a ++ (G t).drop (a + n)))
        (addrs ((G s).take k ++ ((G t).drop a).take n ++ (G s).drop k) ++ addrs ((G t).take a ++ (G t).drop (a + n))) := by
      refine p3.extend hrest fun b hb => ?_
      obtain ⟨c, hc⟩ := k2.live hb; simp [hc]
    refine (u1.congr (A' := addrs (G s) ++ addrs (G t)) (fun b => ?_) (fun b => ?_)).trans u2
    · simp only [List.mem_append]; tauto
    · simp only [List.mem_append]; tauto
  refine ⟨(m.put s ⟨h', x⟩).put t ⟨h', l3⟩, ⟨[], 0, true⟩,
    upd (upd G s ((G s).take k ++ ((G t).drop a).take n ++ (G s).drop k)) t ((G t).take a ++ (G t).drop (a + n)), ?_,
    R.put2 hst p2 q1 (fun b hb hb' => q2 b hb' hb) hU, ?_⟩
  · simp only [run, e0, e1, e2, Option.bind_eq_bind, Option.bind_some, spliceRange, k1, p1]
  · exact ⟨by rw [seqs_upd, seqs_upd]; simp [seqs, vals_take, vals_drop], rfl⟩

theorem good_splitOff (R : Rep m G) (s a n t : Nat) : Good F m G (.splitOff s a n t) := by
  obtain ⟨it1, e1, h1, _⟩ := seat_spec R s a
  obtain ⟨it2, e2, h2, _⟩ := seat_spec R s (a + n)
  have i := R.list s
  rw [← split3 (G s) a n] at i
  obtain ⟨h3, l3, k1, k2, k3, k4⟩ := splitOff_spec (it1 := it1) (it2 := it2) i
    (by rw [← List.drop_drop, List.take_append_drop]; exact h1) (by rw [← take_add_eq]; exact h2)
  rw [split3] at k4
  have hMrest : ∀ b ∈ addrs (((G s).drop a).take n), b ∉ addrs ((G s).take a ++ (G s).drop (a + n)) := by
    intro b hb' hb
    have := (R.list s).nodup
    rw [← split3 (G s) a n] at this
    simp only [addrs_append, List.nodup_append, List.mem_append] at this hb
    rcases hb with hb | hb
    · exact this.1.2.2 b hb b hb' rfl
    · exact this.2.2 b (.inr hb') b hb rfl
  by_cases hst : s = t
  · subst hst
    obtain ⟨h4, k5, k6⟩ := drop_spec k2
    obtain ⟨k7, _⟩ := k6.keep k3 hMrest
    have u2 : Upd h3 h4 (addrs ((G s).take a ++ (G s).drop (a + n)) ++ addrs (((G s).drop a).take n))
        ([] ++ addrs (((G s).drop a).take n)) := by
      refine k6.extend hMrest fun b hb => ?_
      obtain ⟨c, hc⟩ := k3.live hb; simp [hc]
    have hu := k4.trans u2
    rw [List.nil_append] at hu
    have R' := R.put1 (s := s) k7 hu
    refine ⟨m.put s ⟨h4, lastA (((G s).drop a).take n)⟩, ⟨vals ((G s).take a ++ (G s).drop (a + n)), 0, true⟩,
      upd G s (((G s).drop a).take n), ?_, R', ?_⟩
    · simp only [run, e1, e2, Mem.lst, k1, Option.bind_eq_bind, Option.bind_some, Clist.take, Mem.put, upd_same, k5]
      congr 3
      exact upd_upd _ _ _ _
    · refine ⟨?_, ?_⟩
      · rw [seqs_upd]
        funext q
        by_cases hq : q = s
        · simp [put, hq, seqs, vals_take, vals_drop]
        · simp [put, hq]
      · simp [put, seqs, vals_take, vals_drop]
  · have hst' : t ≠ s := fun hh => hst hh.symm
    obtain ⟨k5, k6⟩ := k4.keep (R.list t) (R.disj t s hst')
    simp only [List.mem_append, not_or] at k6
    obtain ⟨h4, p1, p2⟩ := drop_spec k5
    obtain ⟨q1, _⟩ := p2.keep k2 (fun b hb hb' => (k6 b hb').1 hb)
    obtain ⟨q2, _⟩ := p2.keep k3 (fun b hb hb' => (k6 b hb').2 hb)
    have hU : Upd m.heap h4 (addrs (G s) ++ addrs (G t))
        (addrs ((G s).take a ++ (G s).drop (a + n)) ++ addrs (((G s).drop a).take n)) := by
      have u1 := k4.extend (C := addrs (G t)) (fun b hb => R.disj t s hst' b hb) fun b hb => by
        obtain ⟨c, hc⟩ := (R.list t).live hb; simp [hc]
      have u2 := p2.extend (C := addrs ((G s).take a ++ (G s).drop (a + n)) ++ addrs (((G s).drop a).take n))
        (fun b hb hb' => by
          rcases List.mem_append.1 hb with hb | hb
          · exact (k6 b hb').1 hb
          · exact (k6 b hb').2 hb) fun b hb => by
          rcases List.mem_append.1 hb with hb | hb
          · obtain ⟨c, hc⟩ := k2.live hb; simp [hc]
          · obtain ⟨c, hc⟩ := k3.live hb; simp [hc]
      refine (u1.trans (u2.congr (fun b => ?_) (fun b => Iff.rfl))).congr (fun _ => Iff.rfl) (fun b => by simp)
      simp only [List.mem_append]; tauto
    refine ⟨(m.put s ⟨h4, l3⟩).put t ⟨h4, lastA (((G s).drop a).take n)⟩, ⟨vals (G t), 0, true⟩,
      upd (upd G s ((G s).take a ++ (G s).drop (a + n))) t (((G s).drop a).take n), ?_,
      R.put2 hst q1 q2 (fun b hb hb' => hMrest b hb' hb) hU, ?_⟩
    · simp only [run, e1, e2, Mem.lst, k1, Option.bind_eq_bind, Option.bind_some, Clist.take, Mem.put,
        upd_ne _ _ hst', p1]
    · refine ⟨by rw [seqs_upd, seqs_upd]; simp [seqs, vals_take, vals_drop], ?_⟩
      simp [put, hst', seqs]

theorem good_moveNode (R : Rep m G) (s k t : Nat) (hk : k < (seqs G s).length) : Good F m G (.moveNode s k t) := by
  obtain ⟨it, e0, hit, _⟩ := seat_spec R s k
  have hk' : k < (G s).length := by simpa [seqs] using hk
  have i := (R.list s).split k
  rw [drop_cons hk'] at i hit
  have hprev := hit.2 (List.cons_ne_nil _ _)
  obtain ⟨h1, l1, k1, k2, ⟨n, k3⟩, k4, k5⟩ := unlinkMid i
  set x := (G s)[k]'hk' with hx
  have hsx : ∀ b, b ∈ addrs (G s) ↔ (b = x.1 ∨ b ∈ addrs ((G s).take k ++ (G s).drop (k + 1))) := by
    intro b
    conv_lhs => rw [← List.take_append_drop k (G s), drop_cons hk', ← hx]
    simp only [addrs_append, addrs_cons, List.mem_append, List.mem_cons]; tauto
  have hk5 : ∀ b, b ∉ addrs (G s) → h1.rd b = m.heap.rd b := by
    intro b hb
    apply k5
    rw [hsx] at hb
    simp only [addrs_append, addrs_cons, List.mem_append, List.mem_cons, not_or] at hb ⊢
    tauto
  by_cases hst : s = t
  · subst hst
    obtain ⟨h2, p1, p2, p3⟩ := linkAfter_spec k2.cyc k2.nodup k4 k3
    have j : IsList h2 (some x.1) ((G s).take k ++ (G s).drop (k + 1) ++ [x]) := by
      refine ⟨by rw [lastA_snoc], Cyc.rotate (a := [x]) p2, ?_⟩
      refine nodup_rot (a := [x]) ?_
      rw [List.cons_append, List.nil_append, addrs_cons, List.nodup_cons]
      exact ⟨k4, k2.nodup⟩
    have hm : ∀ b, b ∈ addrs ((G s).take k ++ (G s).drop (k + 1) ++ [x]) ↔ b ∈ addrs (G s) := by
      intro b
      rw [hsx, addrs_append, List.mem_append]
      simp only [addrs_cons, addrs_nil, List.mem_singleton]; tauto
    have hU : Upd m.heap h2 (addrs (G s)) (addrs ((G s).take k ++ (G s).drop (k + 1) ++ [x])) := by
      refine ⟨fun b hb _ => ?_, fun b h3 h4 => absurd ((hm b).2 h3) h4, fun b h3 h4 => absurd ((hm b).1 h3) h4,
        fun b hb => ?_⟩
      · have hb' := hb
        rw [hsx, not_or] at hb'
        rw [p3 b hb'.2 hb'.1, hk5 b hb]
      · obtain ⟨c, hc⟩ := j.live hb; simp [hc]
    refine ⟨m.put s ⟨h2, some x.1⟩, ⟨[], 0, true⟩, upd G s ((G s).take k ++ (G s).drop (k + 1) ++ [x]), ?_,
      R.put1 j hU, ?_⟩
    · simp only [run, e0, Mem.lst, hprev, k1, Option.bind_eq_bind, Option.bind_some, pushBackNode, Mem.put, upd_same]
      rw [k2.last, p1]
      simp only [Option.bind_some]
      congr 3
      exact upd_upd _ _ _ _
    · refine ⟨?_, rfl⟩
      rw [seqs_upd]
      have hd1 : (vals (G s)).drop k = x.2 :: (vals (G s)).drop (k + 1) := by
        rw [← vals_drop, drop_cons hk', vals_cons, vals_drop]
      funext q
      by_cases hq : q = s
      · simp [put, hq, seqs, vals_take, vals_drop, hd1]
      · simp [put, hq]
  · have hst' : t ≠ s := fun hh => hst hh.symm
    have j1 : IsList h1 (m.last t) (G t) := (R.list t).frame fun b hb => hk5 b (R.disj t s hst' b hb)
    have hxt : x.1 ∉ addrs (G t) := R.disj s t hst x.1 ((hsx x.1).2 (.inl rfl))
    obtain ⟨h2, p1, p2, p3⟩ := linkAfter_spec j1.cyc j1.nodup hxt k3
    have j : IsList h2 (some x.1) (G t ++ [x]) := by
      refine ⟨by rw [lastA_snoc], Cyc.rotate (a := [x]) p2, ?_⟩
      refine nodup_rot (a := [x]) ?_
      rw [List.cons_append, List.nil_append, addrs_cons, List.nodup_cons]
      exact ⟨hxt, j1.nodup⟩
    have hsub : ∀ b ∈ addrs ((G s).take k ++ (G s).drop (k + 1)), b ∉ addrs (G t) ∧ b ≠ x.1 := by
      intro b hb
      refine ⟨R.disj s t hst b ((hsx b).2 (.inr hb)), ?_⟩
      rintro rfl; exact k4 hb
    have i2 : IsList h2 l1 ((G s).take k ++ (G s).drop (k + 1)) := k2.frame fun b hb => p3 b (hsub b hb).1 (hsub b hb).2
    have hm : ∀ b, b ∈ addrs ((G s).take k ++ (G s).drop (k + 1)) ++ addrs (G t ++ [x]) ↔
        b ∈ addrs (G s) ++ addrs (G t) := by
      intro b
      rw [List.mem_append, List.mem_append, hsx, addrs_append, addrs_append, List.mem_append, List.mem_append]
      simp only [addrs_cons, addrs_nil, List.mem_singleton]; tauto
    have hU : Upd m.heap h2 (addrs (G s) ++ addrs (G t)) (addrs ((G s).take k ++ (G s).drop (k + 1)) ++ addrs (G t ++ [x])) := by
      refine ⟨fun b hb _ => ?_, fun b h3 h4 => absurd ((hm b).2 h3) h4, fun b h3 h4 => absurd ((hm b).1 h3) h4,
        fun b hb => ?_⟩
      · rw [List.mem_append, not_or] at hb
        have hb' := hb.1
        rw [hsx, not_or] at hb'
        rw [p3 b hb.2 hb'.1, hk5 b hb.1]
      · rcases List.mem_append.1 hb with hb | hb
        · obtain ⟨c, hc⟩ := i2.live hb; simp [hc]
        · obtain ⟨c, hc⟩ := j.live hb; simp [hc]
    refine ⟨(m.put s ⟨h2, l1⟩).put t ⟨h2, some x.1⟩, ⟨[], 0, true⟩,
      upd (upd G s ((G s).take k ++ (G s).drop (k + 1))) t (G t ++ [x]), ?_,
      R.put2 hst i2 j (fun b hb hb' => ?_) hU, ?_⟩
    · simp only [run, e0, Mem.lst, hprev, k1, Option.bind_eq_bind, Option.bind_some, pushBackNode, Mem.put,
        upd_ne _ _ hst']
      rw [j1.last, p1]
      rfl
    · rw [addrs_append, List.mem_append] at hb'
      rcases hb' with hb' | hb'
      · exact (hsub b hb).1 hb'
      · simp only [addrs_cons, addrs_nil, List.mem_singleton] at hb'
        exact (hsub b hb).2 hb'
    · refine ⟨?_, rfl⟩
      have hd1 : (vals (G s)).drop k = x.2 :: (vals (G s)).drop (k + 1) := by
        rw [← vals_drop, drop_cons hk', vals_cons, vals_drop]
      rw [seqs_upd, seqs_upd]
      funext q
      by_cases hq : q = t
      · simp [put, hq, hst', seqs, vals_take, vals_drop, hd1]
      · by_cases hq' : q = s
        · simp [put, hst, hq', seqs, vals_take, vals_drop]
        · simp [put, hq, hq']

theorem good_reverse (R : Rep m G) (s : Nat) : Good F m G (.reverse s) := by
  obtain ⟨h', l', e1, e2, e3⟩ := reverse_spec (R.list s)
  refine ⟨m.put s ⟨h', l'⟩, ⟨[], 0, true⟩, upd G s (G s).reverse, ?_, R.put1 e2 e3, ?_⟩
  · simp only [run, Mem.lst, e1, Option.bind_eq_bind, Option.bind_some]
  · exact ⟨by rw [seqs_upd]; simp [seqs, vals], rfl⟩

theorem vals_filter (l : List (Nat × α)) (p : α → Bool) : vals (l.filter fun y => p y.2) = (vals l).filter p := by
  induction l with
  | nil => rfl
  | cons x l ih =>
    by_cases h : p x.2 = true
    · simp [h, ih]
    · simp [h, ih]

theorem good_remove (R : Rep m G) (s : Nat) (v : α) : Good F m G (.remove s v) := by
  obtain ⟨h', l', e1, e2, e3⟩ := remove_spec (eq := F.eq) (val := v) (R.list s)
  refine ⟨m.put s ⟨h', l'⟩, ⟨vals ((G s).filter fun y => F.eq y.2 v), ((G s).filter fun y => F.eq y.2 v).length, true⟩,
    upd G s ((G s).filter fun y => !F.eq y.2 v), ?_, R.put1 e2 e3, ?_⟩
  · simp only [run, Mem.lst, e1, Option.bind_eq_bind, Option.bind_some]
  · refine ⟨?_, ?_, ?_⟩
    · rw [seqs_upd, vals_filter _ (fun x => !F.eq x v)]; rfl
    · exact vals_filter _ (fun x => F.eq x v)
    · rw [seqs, ← vals_filter _ (fun x => F.eq x v), length_vals]

theorem upd_self {β : Type} (f : Nat → β) (s : Nat) : upd f s (f s) = f := by
  funext q
  by_cases h : q = s <;> simp [upd, h]

theorem eraseIfLoop_spec {p : α → Bool} {s f : Nat} {P S : List (Nat × α)} {it : Iter} (R : Rep m G)
    (hG : G s = P ++ S) (hit : At P S it) (ho : it.home = some s) (hf : S.length < f) :
    ∃ m' G', eraseIfLoop p s f m it = some (m', (vals S).filter p) ∧ Rep m' G' ∧
      seqs G' = put (seqs G) s (vals P ++ (vals S).filter fun x => !p x) := by
  induction S generalizing P f it m G with
  | nil =>
    obtain ⟨f, rfl⟩ : ∃ g, f = g + 1 := ⟨f - 1, by simp at hf; omega⟩
    refine ⟨m, G, ?_, R, ?_⟩
    · unfold eraseIfLoop; rw [hit.1]; rfl
    · funext q
      by_cases hq : q = s
      · simp [put, hq, seqs, hG]
      · simp [put, hq]
  | cons x S ih =>
    obtain ⟨f, rfl⟩ : ∃ g, f = g + 1 := ⟨f - 1, by simp at hf; omega⟩
    have i := R.list s
    rw [hG] at i
    obtain ⟨n, hx⟩ := i.rd
    have hf' : S.length < f := by simp at hf; omega
    by_cases hp : p x.2 = true
    · obtain ⟨h', l', it', e1, e2, e3, e4, e5⟩ := eraseAt_spec i hit
      have R' := R.put1 (s := s) e2 (by rw [hG]; exact e5)
      obtain ⟨m', G', k1, k2, k3⟩ := ih (P := P) R' (upd_same _ _ _) e3 (e4.trans ho) hf'
      refine ⟨m', G', ?_, k2, ?_⟩
      · unfold eraseIfLoop
        rw [hit.1]
        simp only [hdA_cons, hx, Option.bind_eq_bind, Option.bind_some, hp, if_true, Mem.lst, e1, k1,
          vals_cons, List.filter_cons_of_pos]
      · rw [k3, seqs_upd]
        funext q
        by_cases hq : q = s
        · simp [put, hq, hp]
        · simp [put, hq]
    · obtain ⟨it', e1, e2, e3⟩ := next_spec (obj := m.last) i hit.1 ho
      obtain ⟨m', G', k1, k2, k3⟩ := ih (P := P ++ [x]) R (by simpa using hG) e2 e3 hf'
      refine ⟨m', G', ?_, k2, ?_⟩
      · unfold eraseIfLoop
        rw [hit.1]
        simp only [hdA_cons, hx, Option.bind_eq_bind, Option.bind_some, if_neg hp, e1, k1]
        simp [hp]
      · rw [k3]; simp [hp]

theorem good_eraseIf (R : Rep m G) (s : Nat) (p : α → Bool) : Good F m G (.eraseIf s p) := by
  obtain ⟨b, e1, e2, e3⟩ := begin_spec (R.list s) s
  obtain ⟨m', G', k1, k2, k3⟩ := eraseIfLoop_spec (p := p) (P := []) (f := m.heap.length + 1) R rfl e2 e3
    (by have := (R.list s).length_le; omega)
  refine ⟨m', ⟨(vals (G s)).filter p, 0, true⟩, G', ?_, k2, k3, rfl⟩
  simp only [run, Clist.eraseIf, Mem.lst, e1, k1, Option.bind_eq_bind, Option.bind_some]

theorem good_sort (hw : StrictWeak F.less) (R : Rep m G) (s : Nat) (ok : Nat → Bool) :
    Good F m G (.sort s ok) := by
  have i := R.list s
  obtain ⟨b, e1, e2, _⟩ := begin_spec i 0
  have hlen := i.length_le
  rcases gather_spec (ok := ok) (f := m.heap.length + 1) (k := 0) (cap := 0) (arr := []) (P := []) (S := G s) i
    (by omega) (by simp) with hg | ⟨hg, k0, hk0⟩
  · obtain ⟨arr', f1, f2, f3⟩ := Sort.sort_correct hw (vals (G s))
    have hal : arr'.length = (G s).length := by rw [f2.length_eq, length_vals]
    obtain ⟨h', k1, k2, k3⟩ := scatter_spec (f := m.heap.length + 1) (P := []) (S := G s) (xs := arr') i (by omega) hal
    rw [List.nil_append] at k2
    have hadd : addrs ((addrs (G s)).zip arr') = addrs (G s) := by
      unfold addrs
      rw [List.map_fst_zip]; simp [hal]
    have hval : vals ((addrs (G s)).zip arr') = arr' := by
      unfold vals
      rw [List.map_snd_zip]; simp [hal]
    have hU : Upd m.heap h' (addrs (G s)) (addrs ((addrs (G s)).zip arr')) := by
      rw [hadd]
      refine ⟨fun a h1 _ => k3 a h1, fun a h1 h2 => absurd h1 h2, fun a h1 h2 => absurd h1 h2, fun a h1 => ?_⟩
      obtain ⟨c, hc⟩ := k2.live (a := a) (by rw [hadd]; exact h1); simp [hc]
    refine ⟨m.put s ⟨h', m.last s⟩, ⟨[], 0, b.ref.isSome⟩, upd G s ((addrs (G s)).zip arr'), ?_,
      R.put1 k2 hU, arr', ?_, f2, rfl, fun _ => f3, ?_, ?_⟩
    · rw [List.nil_append] at hg
      simp only [run, Clist.sort, Mem.lst, e1, Option.bind_eq_bind, Option.bind_some, e2.1, hg, f1, k1]
    · rw [seqs_upd, hval]
    · intro hb
      have hb' : b.ref = none := by simpa using hb
      rw [e2.1] at hb'
      cases hG : G s with
      | nil =>
        rw [hG] at hal
        simp only [List.length_nil, List.length_eq_zero_iff] at hal
        simp [seqs, hG, hal]
      | cons x S => rw [hG] at hb'; cases hb'
    · intro _ hne
      show b.ref.isSome = true
      rw [e2.1]
      cases hG : G s with
      | nil => exact absurd (by simp [seqs, hG]) hne
      | cons x S => rfl
  · refine ⟨m.put s ⟨m.heap, m.last s⟩, ⟨[], 0, false⟩, upd G s (G s), ?_, R.put1 i i.upd, vals (G s), ?_,
      List.Perm.refl _, rfl, (fun h => by cases h), (fun _ => rfl), fun hall => ?_⟩
    · simp only [run, Clist.sort, Mem.lst, e1, Option.bind_eq_bind, Option.bind_some, e2.1, hg]
    · rw [seqs_upd]
    · rw [hall] at hk0; cases hk0

theorem last_ne (R : Rep m G) {s t : Nat} (hst : s ≠ t) (hne : G s ≠ [] ∨ G t ≠ []) : m.last s ≠ m.last t := by
  intro hh
  rw [(R.list s).last, (R.list t).last] at hh
  rcases hz : lastA (G s) with _ | z
  · rw [hz] at hh
    rcases hne with h | h
    · exact h (lastA_eq_none.1 hz)
    · exact h (lastA_eq_none.1 hh.symm)
  · exact R.disj s t hst z (lastA_mem hz) (lastA_mem (hh ▸ hz))

theorem good_copy (R : Rep m G) (s t : Nat) (w : Nat → Option Nat) (hw : ∀ k, (w k).isSome) :
    Good F m G (.copy s t w) := by
  have i := R.list s
  have htriv : ∀ r, m.last s = m.last t → ⟨[], 0, true⟩ = r → ∃ m' G', run F m (.copy s t w) = some (m', r) ∧
      Rep m' G' ∧ seqs G' = seqs G := by
    rintro r hl rfl
    refine ⟨m.put s (m.lst s), upd G s (G s), ?_, R.put1 i i.upd, ?_⟩
    · have hc : Clist.copy F.cl w (m.lst s) (m.last t) = some (m.lst s, []) := if_pos hl
      simp only [run, hc, Option.bind_eq_bind, Option.bind_some]
    · funext q; unfold seqs upd; split
      · rename_i hq; rw [hq]
      · rfl
  by_cases hst : s = t
  · obtain ⟨m', G', e1, e2, e3⟩ := htriv ⟨[], 0, true⟩ (by rw [hst]) rfl
    exact ⟨m', _, G', e1, e2, by show (if s = t then _ else _); rw [if_pos hst]; exact ⟨e3, rfl⟩⟩
  · by_cases hne : G s ≠ [] ∨ G t ≠ []
    · have hl := last_ne R hst hne
      obtain ⟨h1, e1, e2⟩ := drop_spec i
      obtain ⟨i1, _⟩ := e2.keep (R.list t) (R.disj t s (Ne.symm hst))
      obtain ⟨h2, tl, C, e3, e4, e5, e6, e7⟩ := clone_spec (cl := F.cl) i1 hw
      refine ⟨m.put s ⟨h2, tl⟩, ⟨vals (G s), 0, true⟩, upd G s C, ?_, R.put1 e4 (e2.trans e7), ?_⟩
      · simp only [run, Clist.copy, Mem.lst, if_neg hl, e1, e3, Option.bind_eq_bind, Option.bind_some]
      · show (if s = t then _ else _)
        rw [if_neg hst]
        exact ⟨by rw [seqs_upd, e5]; rfl, rfl⟩
    · have h1 : G s = [] := by by_contra h; exact hne (.inl h)
      have h2 : G t = [] := by by_contra h; exact hne (.inr h)
      obtain ⟨m', G', e1, e2, e3⟩ := htriv ⟨[], 0, true⟩
        (by rw [(R.list s).last, (R.list t).last, h1, h2]) rfl
      refine ⟨m', _, G', e1, e2, ?_⟩
      show (if s = t then _ else _)
      rw [if_neg hst]
      refine ⟨?_, by simp [seqs, h1]⟩
      rw [e3]
      funext q
      by_cases hq : q = s
      · simp [put, hq, seqs, h1, h2]
      · simp [put, hq]

theorem good_move (R : Rep m G) (s t : Nat) : Good F m G (.move s t) := by
  by_cases hst : s = t
  · subst hst
    have i := R.list s
    refine ⟨m.put s ⟨m.heap, m.last s⟩, ⟨[], 0, true⟩, upd G s (G s), ?_, R.put1 i i.upd, ?_⟩
    · have hd0 : drop (α := α) ⟨m.heap, none⟩ = some (⟨m.heap, none⟩, []) := rfl
      simp only [run, Clist.take, Mem.lst, Mem.put, upd_same, hd0, Option.bind_eq_bind, Option.bind_some]
      congr 3
      exact upd_upd _ _ _ _
    · refine ⟨?_, by rw [if_pos rfl]⟩
      funext q
      by_cases hq : q = s
      · simp [put, hq, seqs, upd]
      · simp [put, hq, seqs, upd]
  · have hst' : t ≠ s := fun hh => hst hh.symm
    obtain ⟨h1, e1, e2⟩ := drop_spec (R.list t)
    obtain ⟨i1, _⟩ := e2.keep (R.list s) (R.disj s t hst)
    have hU : Upd m.heap h1 (addrs (G s) ++ addrs (G t)) (addrs ([] : List (Nat × α)) ++ addrs (G s)) := by
      refine (e2.extend (C := addrs (G s)) (fun b hb => R.disj s t hst b hb) fun b hb => ?_).congr
        (fun b => by simp [or_comm]) (fun b => by simp)
      obtain ⟨c, hc⟩ := (R.list s).live hb; simp [hc]
    refine ⟨(m.put s ⟨h1, none⟩).put t ⟨h1, m.last s⟩, ⟨vals (G t), 0, true⟩, upd (upd G s []) t (G s), ?_,
      R.put2 hst (IsList.nil _) i1 (by simp) hU, ?_⟩
    · simp only [run, Clist.take, Mem.lst, Mem.put, upd_ne _ _ hst', e1, Option.bind_eq_bind, Option.bind_some]
    · exact ⟨by rw [seqs_upd, seqs_upd]; simp [seqs], by rw [if_neg hst]; rfl⟩

theorem good_clear (R : Rep m G) (s : Nat) : Good F m G (.clear s) := by
  obtain ⟨h1, e1, e2⟩ := drop_spec (R.list s)
  refine ⟨m.put s ⟨h1, none⟩, ⟨vals (G s), 0, true⟩, upd G s [], ?_, R.put1 (IsList.nil _) e2, ?_⟩
  · simp only [run, Mem.lst, e1, Option.bind_eq_bind, Option.bind_some]
  · exact ⟨by rw [seqs_upd]; rfl, rfl⟩

theorem good_of_valid (hw : StrictWeak F.less) (R : Rep m G) {o : Op α} (hv : valid (seqs G) o) :
    Good F m G o := by
  cases o with
  | pushBack s w v => obtain ⟨w, rfl⟩ := Option.isSome_iff_exists.1 hv; exact good_pushBack R s w v
  | pushFront s w v => obtain ⟨w, rfl⟩ := Option.isSome_iff_exists.1 hv; exact good_pushFront R s w v
  | putN s w vs => exact good_putN R s w hv vs
  | popFront s => exact good_popFront R s hv
  | insertAt s k w v => obtain ⟨w, rfl⟩ := Option.isSome_iff_exists.1 hv.2; exact good_insertAt R s k w v
  | insertEnd s w v => obtain ⟨w, rfl⟩ := Option.isSome_iff_exists.1 hv; exact good_insertEnd R s w v
  | eraseAt s k => exact good_eraseAt R s k hv
  | eraseRange s k n => exact good_eraseRange R s k n hv.2
  | eraseToEnd s k => exact good_eraseToEnd R s k hv.2
  | splice s k t => exact good_splice R s k t hv.1
  | spliceRange s k t i n => exact good_spliceRange R s k t i n hv.1
  | splitOff s i n t => exact good_splitOff R s i n t
  | moveNode s k t => exact good_moveNode R s k t hv
  | reverse s => exact good_reverse R s
  | remove s v => exact good_remove R s v
  | eraseIf s p => exact good_eraseIf R s p
  | sort s ok => exact good_sort hw R s ok
  | copy s t w => exact good_copy R s t w hv
  | move s t => exact good_move R s t
  | clear s => exact good_clear R s

theorem reach_rep (hw : StrictWeak F.less) {m : Mem α} (h : Reach F m) : ∃ G, Rep m G := by
  induction h with
  | init => exact ⟨_, Rep.init⟩
  | call _ hv hr ih =>
    obtain ⟨G, R⟩ := ih
    rw [R.contents] at hv
    obtain ⟨m', r, G', e1, e2, _⟩ := good_of_valid (F := F) hw R hv
    rw [hr] at e1
    cases e1
    exact ⟨G', e2⟩

end Verif.Clist
