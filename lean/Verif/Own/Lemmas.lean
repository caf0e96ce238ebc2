import Verif.Own.Spec
import Mathlib.Tactic.Common
/-
The invariant behind the ownership properties: every live block belongs to one variable in use, every object made is in
one place.
-/
namespace Verif.Own
open Spec
variable {ν : Type}

theorem set_same {α : Type} (f : Nat → α) (i : Nat) (x : α) : set f i x i = x := by simp [set]
theorem set_ne {α : Type} (f : Nat → α) {i j : Nat} (x : α) (h : j ≠ i) : set f i x j = f j := by simp [set, h]
theorem set_id {α : Type} (f : Nat → α) {i : Nat} {x : α} (h : f i = x) : set f i x = f := by
  funext j; by_cases e : j = i
  · subst e; rw [set_same, h]
  · rw [set_ne _ _ e]

/-- `place` tells where each object is (`none`: gone), `owner` which variable a live block belongs to. -/
structure Inv (s : St ν) (m : Vals ν) (place : Nat → Option Nat) (owner : Nat → Nat) : Prop where
  var : ∀ i l, m i = some l → (s.var i = .null ∧ l = []) ∨
    ∃ h b, s.var i = .ptr h ∧ s.heap h = some b ∧ owner h = i ∧ b.el.map (·.2) = l
  blk : ∀ h b, s.heap h = some b → m (owner h) ≠ none ∧ s.var (owner h) = .ptr h ∧ (b.el.map (·.1)).Nodup ∧
    ∀ x, x ∈ b.el.map (·.1) ↔ x < s.next ∧ place x = some h
  live : ∀ x h, x < s.next → place x = some h → s.heap h ≠ none
  gnd : (s.gone.map (·.1)).Nodup
  gone : ∀ x, x ∈ s.gone.map (·.1) ↔ x < s.next ∧ place x = none

/-- What `deref` of a variable is: no block, or one that belongs to it. -/
def Has (s : St ν) (owner : Nat → Nat) (i : Nat) (oh : Option Nat) (b : Blk ν) : Prop :=
  (oh = none ∧ b = ⟨0, []⟩ ∧ ∀ h, s.heap h ≠ none → owner h ≠ i) ∨ ∃ h, oh = some h ∧ s.heap h = some b ∧ owner h = i

theorem has_unused {s : St ν} {m : Vals ν} {pl ow} (I : Inv s m pl ow) {i : Nat} (h : m i = none) :
    Has s ow i none ⟨0, []⟩ := by
  refine Or.inl ⟨rfl, rfl, fun h' hl e => ?_⟩
  obtain ⟨b, hb⟩ := Option.ne_none_iff_exists'.1 hl
  exact (I.blk h' b hb).1 (e ▸ h)

theorem has_used {s : St ν} {m : Vals ν} {pl ow} (I : Inv s m pl ow) {i : Nat} {l} (h : m i = some l) :
    ∃ oh b, deref s i = some (oh, b) ∧ Has s ow i oh b ∧ b.el.map (·.2) = l ∧ s.var i ≠ .junk := by
  rcases I.var i l h with ⟨hv, rfl⟩ | ⟨h', b, hv, hb, ho, hl⟩
  · refine ⟨none, ⟨0, []⟩, by simp [deref, hv], Or.inl ⟨rfl, rfl, fun h' hl e => ?_⟩, rfl, by simp [hv]⟩
    obtain ⟨b, hb⟩ := Option.ne_none_iff_exists'.1 hl
    have := (I.blk h' b hb).2.1
    rw [e, hv] at this
    cases this
  · exact ⟨some h', b, by simp [deref, hv, hb], Or.inr ⟨h', rfl, hb, ho⟩, hl, by simp [hv]⟩

/-- A variable gets other contents, in its block or a new one. -/
theorem inv_put {s : St ν} {m : Vals ν} {pl ow} (I : Inv s m pl ow) {i : Nat} {oh : Option Nat} {b : Blk ν}
    (hh : Has s ow i oh b) {h' : Nat} (hh' : s.heap h' = none ∨ some h' = oh) (c : Nat) {el : List (Nat × ν)}
    {g : List (Nat × Bool)} {n : Nat} (hn : s.next ≤ n) (hnd : (el.map (·.1)).Nodup) (hg : (g.map (·.1)).Nodup)
    (hd : ∀ x, x ∈ el.map (·.1) → x ∉ g.map (·.1))
    (hs : ∀ x, (x ∈ el.map (·.1) ∨ x ∈ g.map (·.1)) ↔ (x ∈ b.el.map (·.1) ∨ (s.next ≤ x ∧ x < n))) :
    ∃ pl' ow', Inv ⟨set (free s.heap oh) h' (some ⟨c, el⟩), set s.var i (.ptr h'), n, s.gone ++ g⟩
      (set m i (some (el.map (·.2)))) pl' ow' := by
  -- other live blocks are not touched
  have hheap : ∀ h, h ≠ h' → set (free s.heap oh) h' (some ⟨c, el⟩) h = if oh = some h then none else s.heap h := by
    intro h hne
    rw [set_ne _ _ hne]
    cases oh with
    | none => simp [free]
    | some o =>
      simp only [free, set]
      by_cases e : h = o
      · simp [e]
      · rw [if_neg e, if_neg (by simpa using fun h => e h.symm)]
  have hmem : ∀ x, x ∈ b.el.map (·.1) → x < s.next ∧ (∃ h, oh = some h ∧ pl x = some h) := by
    intro x hx
    rcases hh with ⟨_, rfl, _⟩ | ⟨h, e, hb, _⟩
    · simp at hx
    · have := ((I.blk h b hb).2.2.2 x).1 hx
      exact ⟨this.1, h, e, this.2⟩
  have hmem' : ∀ x h, x < s.next → oh = some h → pl x = some h → x ∈ b.el.map (·.1) := by
    intro x h hx e hp
    rcases hh with ⟨e', _, _⟩ | ⟨h2, e', hb, _⟩
    · rw [e] at e'; cases e'
    · rw [e] at e'; cases e'
      exact ((I.blk h b hb).2.2.2 x).2 ⟨hx, hp⟩
  have hpl' : ∀ x, x < s.next → pl x = some h' → oh = some h' := by
    intro x hx hp
    rcases hh' with e | e
    · exact absurd e (I.live x h' hx hp)
    · exact e.symm
  have how : ∀ h, s.heap h ≠ none → oh ≠ some h → ow h ≠ i := by
    intro h hl hne e
    rcases hh with ⟨_, _, hx⟩ | ⟨h2, e', hb, ho⟩
    · exact hx h hl e
    · obtain ⟨b', hb'⟩ := Option.ne_none_iff_exists'.1 hl
      have h1 := (I.blk h b' hb').2.1
      have h2' := (I.blk h2 b hb).2.1
      rw [e] at h1; rw [ho, h1] at h2'
      cases h2'
      exact hne e'
  have hlt : ∀ x, (x ∈ el.map (·.1) ∨ x ∈ g.map (·.1)) → x < n := by
    intro x hx
    rcases (hs x).1 hx with h | h
    · exact Nat.lt_of_lt_of_le (hmem x h).1 hn
    · exact h.2
  refine ⟨fun x => if x ∈ el.map (·.1) then some h' else if x ∈ g.map (·.1) then none else pl x,
    fun h => if h = h' then i else ow h, ?_, ?_, ?_, ?_, ?_⟩
  · intro j l hj
    by_cases e : j = i
    · subst e
      rw [set_same] at hj; cases hj
      exact Or.inr ⟨h', ⟨c, el⟩, set_same _ _ _, set_same _ _ _, by simp, rfl⟩
    · rw [set_ne _ _ e] at hj
      rcases I.var j l hj with ⟨hv, hl⟩ | ⟨h, b', hv, hb, ho, hl⟩
      · exact Or.inl ⟨by simp only; rw [set_ne _ _ e, hv], hl⟩
      · have h1 : oh ≠ some h := by
          intro e'
          rcases hh with ⟨e2, _, _⟩ | ⟨h2, e2, _, ho2⟩
          · rw [e'] at e2; cases e2
          · rw [e'] at e2; cases e2; exact e (ho ▸ ho2)
        have h2 : h ≠ h' := by
          rintro rfl
          rcases hh' with e' | e'
          · rw [hb] at e'; cases e'
          · exact h1 e'.symm
        refine Or.inr ⟨h, b', ?_, ?_, ?_, hl⟩
        · simp only; rw [set_ne _ _ e, hv]
        · simp only; rw [hheap h h2, if_neg h1, hb]
        · rw [if_neg h2, ho]
  · intro h b' hb'
    simp only at hb' ⊢
    by_cases e : h = h'
    · subst e
      rw [set_same] at hb'; cases hb'
      simp only [if_true]
      refine ⟨by rw [set_same]; simp, set_same _ _ _, hnd, fun x => ?_⟩
      constructor
      · intro hx
        exact ⟨hlt x (Or.inl hx), by rw [if_pos hx]⟩
      · rintro ⟨hx, hp⟩
        by_cases hxe : x ∈ el.map (·.1)
        · exact hxe
        · rw [if_neg hxe] at hp
          by_cases hxg : x ∈ g.map (·.1)
          · rw [if_pos hxg] at hp; cases hp
          · rw [if_neg hxg] at hp
            exfalso
            by_cases hxn : x < s.next
            · exact ((hs x).2 (Or.inl (hmem' x h hxn (hpl' x hxn hp) hp))).elim hxe hxg
            · exact ((hs x).2 (Or.inr ⟨by omega, hx⟩)).elim hxe hxg
    · rw [hheap h e] at hb'
      by_cases h1 : oh = some h
      · rw [if_pos h1] at hb'; cases hb'
      · rw [if_neg h1] at hb'
        obtain ⟨a1, a2, a3, a4⟩ := I.blk h b' hb'
        have hne := how h (by rw [hb']; simp) h1
        rw [if_neg e]
        refine ⟨by rw [set_ne _ _ hne]; exact a1, by rw [set_ne _ _ hne]; exact a2, a3, fun x => ?_⟩
        rw [a4 x]
        constructor
        · rintro ⟨hx, hp⟩
          have hnb : x ∉ b.el.map (·.1) := by
            intro hxb
            obtain ⟨_, h2, e2, e3⟩ := hmem x hxb
            rw [hp] at e3; cases e3
            exact h1 e2
          have hno : ¬(x ∈ el.map (·.1) ∨ x ∈ g.map (·.1)) := by
            intro hx'
            rcases (hs x).1 hx' with h | h
            · exact hnb h
            · omega
          rw [if_neg fun h => hno (Or.inl h), if_neg fun h => hno (Or.inr h)]
          exact ⟨Nat.lt_of_lt_of_le hx hn, hp⟩
        · rintro ⟨hx, hp⟩
          by_cases hxe : x ∈ el.map (·.1)
          · rw [if_pos hxe] at hp; cases hp; exact absurd rfl e
          · rw [if_neg hxe] at hp
            by_cases hxg : x ∈ g.map (·.1)
            · rw [if_pos hxg] at hp; cases hp
            · rw [if_neg hxg] at hp
              refine ⟨?_, hp⟩
              by_contra hxn
              exact ((hs x).2 (Or.inr ⟨by omega, hx⟩)).elim hxe hxg
  · intro x h hx hp
    simp only at hx hp ⊢
    by_cases hxe : x ∈ el.map (·.1)
    · rw [if_pos hxe] at hp; cases hp
      rw [set_same]; simp
    · rw [if_neg hxe] at hp
      by_cases hxg : x ∈ g.map (·.1)
      · rw [if_pos hxg] at hp; cases hp
      · rw [if_neg hxg] at hp
        have hno : ¬(x ∈ b.el.map (·.1) ∨ (s.next ≤ x ∧ x < n)) := fun hx' => ((hs x).2 hx').elim hxe hxg
        have hxn : x < s.next := by
          by_contra hxn
          exact hno (Or.inr ⟨by omega, hx⟩)
        have h1 : oh ≠ some h := fun e => hno (Or.inl (hmem' x h hxn e hp))
        have h2 : h ≠ h' := by
          rintro rfl
          exact h1 (hpl' x hxn hp)
        rw [hheap h h2, if_neg h1]
        exact I.live x h hxn hp
  · simp only [List.map_append]
    refine List.nodup_append.2 ⟨I.gnd, hg, ?_⟩
    intro x hx y hy e
    subst e
    obtain ⟨hxn, hp⟩ := (I.gone x).1 hx
    rcases (hs x).1 (Or.inr hy) with h | h
    · obtain ⟨_, h2, _, e3⟩ := hmem x h
      rw [hp] at e3; cases e3
    · omega
  · intro x
    simp only [List.map_append, List.mem_append]
    constructor
    · rintro (hx | hx)
      · obtain ⟨hxn, hp⟩ := (I.gone x).1 hx
        refine ⟨Nat.lt_of_lt_of_le hxn hn, ?_⟩
        have hxe : x ∉ el.map (·.1) := by
          intro hxe
          rcases (hs x).1 (Or.inl hxe) with h | h
          · obtain ⟨_, h2, _, e3⟩ := hmem x h
            rw [hp] at e3; cases e3
          · omega
        rw [if_neg hxe, hp]
        split <;> rfl
      · exact ⟨hlt x (Or.inr hx), by rw [if_neg fun h => hd x h hx, if_pos hx]⟩
    · rintro ⟨hx, hp⟩
      by_cases hxe : x ∈ el.map (·.1)
      · rw [if_pos hxe] at hp; cases hp
      · rw [if_neg hxe] at hp
        by_cases hxg : x ∈ g.map (·.1)
        · exact Or.inr hxg
        · rw [if_neg hxg] at hp
          refine Or.inl ((I.gone x).2 ⟨?_, hp⟩)
          by_contra hxn
          exact ((hs x).2 (Or.inr ⟨by omega, hx⟩)).elim hxe hxg

/-- A variable is given up, with its block and what is in it. -/
theorem inv_drop {s : St ν} {m : Vals ν} {pl ow} (I : Inv s m pl ow) {i : Nat} {oh : Option Nat} {b : Blk ν}
    (hh : Has s ow i oh b) {g : List (Nat × Bool)} (hg : (g.map (·.1)).Nodup)
    (hs : ∀ x, x ∈ g.map (·.1) ↔ x ∈ b.el.map (·.1)) :
    ∃ pl' ow', Inv ⟨free s.heap oh, s.var, s.next, s.gone ++ g⟩ (set m i none) pl' ow' := by
  rcases hh with ⟨rfl, rfl, hx⟩ | ⟨h, rfl, hb, ho⟩
  · have hg0 : g = [] := by
      cases g with
      | nil => rfl
      | cons y g => have := (hs y.1).1 (by simp); simp at this
    subst hg0
    refine ⟨pl, ow, ⟨fun j l hj => ?_, fun h b hb => ?_, I.live, by simpa using I.gnd, by simpa using I.gone⟩⟩
    · by_cases e : j = i
      · subst e; rw [set_same] at hj; cases hj
      · rw [set_ne _ _ e] at hj; exact I.var j l hj
    · obtain ⟨a1, a2⟩ := I.blk h b hb
      have hne := hx h (by simp only [free] at hb; rw [hb]; simp)
      exact ⟨by rw [set_ne _ _ hne]; exact a1, a2⟩
  · obtain ⟨b1, b2, b3, b4⟩ := I.blk h b hb
    refine ⟨fun x => if x ∈ g.map (·.1) then none else pl x, ow, ⟨fun j l hj => ?_, fun h2 b' hb2 => ?_, ?_, ?_, ?_⟩⟩
    · by_cases e : j = i
      · subst e; rw [set_same] at hj; cases hj
      · rw [set_ne _ _ e] at hj
        rcases I.var j l hj with hv | ⟨h2, b', hv, hb', ho', hl⟩
        · exact Or.inl hv
        · refine Or.inr ⟨h2, b', hv, ?_, ho', hl⟩
          simp only [free]
          rw [set_ne _ _ (by rintro rfl; exact e (ho' ▸ ho)), hb']
    · simp only [free] at hb2
      by_cases e : h2 = h
      · subst e; rw [set_same] at hb2; cases hb2
      · rw [set_ne _ _ e] at hb2
        obtain ⟨a1, a2, a3, a4⟩ := I.blk h2 b' hb2
        have hne : ow h2 ≠ i := by
          intro e'
          rw [e', ← ho, b2] at a2
          cases a2; exact e rfl
        refine ⟨by rw [set_ne _ _ hne]; exact a1, a2, a3, fun x => ?_⟩
        rw [a4 x]
        simp only
        by_cases hxg : x ∈ g.map (·.1)
        · rw [if_pos hxg]
          have := (b4 x).1 ((hs x).1 hxg)
          rw [this.2]
          simp [Ne.symm e]
        · rw [if_neg hxg]
    · intro x h2 hx hp
      simp only at hx hp ⊢
      by_cases hxg : x ∈ g.map (·.1)
      · rw [if_pos hxg] at hp; cases hp
      · rw [if_neg hxg] at hp
        have : h2 ≠ h := by
          rintro rfl
          exact hxg ((hs x).2 ((b4 x).2 ⟨hx, hp⟩))
        simp only [free]
        rw [set_ne _ _ this]
        exact I.live x h2 hx hp
    · simp only [List.map_append]
      refine List.nodup_append.2 ⟨I.gnd, hg, ?_⟩
      intro x hx y hy e
      subst e
      have h1 := (I.gone x).1 hx
      have h2 := (b4 x).1 ((hs x).1 hy)
      rw [h1.2] at h2; cases h2.2
    · intro x
      simp only [List.map_append, List.mem_append]
      by_cases hxg : x ∈ g.map (·.1)
      · rw [if_pos hxg]
        exact ⟨fun _ => ⟨((b4 x).1 ((hs x).1 hxg)).1, rfl⟩, fun _ => Or.inr hxg⟩
      · rw [if_neg hxg, ← I.gone x]
        simp [hxg]

/-- A variable not in use is zero-initialised. -/
theorem inv_null {s : St ν} {m : Vals ν} {pl ow} (I : Inv s m pl ow) {i : Nat} (hi : m i = none) :
    Inv { s with var := set s.var i .null } (set m i (some [])) pl ow := by
  refine ⟨fun j l hj => ?_, fun h b hb => ?_, I.live, I.gnd, I.gone⟩
  · by_cases e : j = i
    · subst e; rw [set_same] at hj; cases hj
      exact Or.inl ⟨set_same _ _ _, rfl⟩
    · rw [set_ne _ _ e] at hj
      simp only
      rw [set_ne _ _ e]
      exact I.var j l hj
  · obtain ⟨a1, a2⟩ := I.blk h b hb
    have hne : ow h ≠ i := fun e => a1 (e ▸ hi)
    simp only
    rw [set_ne _ _ hne, set_ne _ _ hne]
    exact ⟨a1, a2⟩

/-- The contents of one variable pass to another. -/
theorem inv_move {s : St ν} {m : Vals ν} {pl ow} (I : Inv s m pl ow) {i j : Nat} {l} (hi : m i = some l) (hj : m j = none) :
    ∃ ow', Inv { s with var := set (set s.var i .null) j (s.var i) } (set (set m i (some [])) j (some l)) pl ow' := by
  have hij : i ≠ j := by rintro rfl; rw [hi] at hj; cases hj
  refine ⟨fun h => if ow h = i then j else ow h, ⟨fun x l' hx => ?_, fun h b hb => ?_, I.live, I.gnd, I.gone⟩⟩
  · by_cases e : x = j
    · subst e; rw [set_same] at hx; cases hx
      simp only
      rw [set_same]
      rcases I.var i l hi with hv | ⟨h, b, hv, hb, ho, hl⟩
      · exact Or.inl hv
      · exact Or.inr ⟨h, b, hv, hb, by simp [ho], hl⟩
    · rw [set_ne _ _ e] at hx
      simp only
      rw [set_ne _ _ e]
      by_cases e' : x = i
      · subst e'; rw [set_same] at hx; cases hx
        exact Or.inl ⟨set_same _ _ _, rfl⟩
      · rw [set_ne _ _ e'] at hx
        rw [set_ne _ _ e']
        rcases I.var x l' hx with hv | ⟨h, b, hv, hb, ho, hl⟩
        · exact Or.inl hv
        · exact Or.inr ⟨h, b, hv, hb, by rw [if_neg (by rw [ho]; exact e'), ho], hl⟩
  · obtain ⟨a1, a2, a3⟩ := I.blk h b hb
    simp only
    by_cases e : ow h = i
    · rw [if_pos e, set_same, set_same]
      exact ⟨by simp, e ▸ a2, a3⟩
    · have hne : ow h ≠ j := fun e => a1 (e ▸ hj)
      rw [if_neg e, set_ne _ _ hne, set_ne _ _ hne, set_ne _ _ e, set_ne _ _ e]
      exact ⟨a1, a2, a3⟩

/-- Two variables exchange their contents. -/
theorem inv_swap {s : St ν} {m : Vals ν} {pl ow} (I : Inv s m pl ow) {i j : Nat} {l l'} (hi : m i = some l) (hj : m j = some l')
    (hij : i ≠ j) :
    ∃ ow', Inv { s with var := set (set s.var i (s.var j)) j (s.var i) } (set (set m i (some l')) j (some l)) pl ow' := by
  refine ⟨fun h => if ow h = i then j else if ow h = j then i else ow h, ⟨fun x l2 hx => ?_, fun h b hb => ?_, I.live, I.gnd, I.gone⟩⟩
  · by_cases e : x = j
    · subst e; rw [set_same] at hx; cases hx
      simp only
      rw [set_same]
      rcases I.var i l hi with hv | ⟨h, b, hv, hb, ho, hl⟩
      · exact Or.inl hv
      · exact Or.inr ⟨h, b, hv, hb, by simp [ho], hl⟩
    · rw [set_ne _ _ e] at hx
      simp only
      rw [set_ne _ _ e]
      by_cases e' : x = i
      · subst e'; rw [set_same] at hx; cases hx
        rw [set_same]
        rcases I.var j l' hj with hv | ⟨h, b, hv, hb, ho, hl⟩
        · exact Or.inl hv
        · exact Or.inr ⟨h, b, hv, hb, by rw [if_neg (by rw [ho]; exact hij.symm), if_pos ho], hl⟩
      · rw [set_ne _ _ e'] at hx
        rw [set_ne _ _ e']
        rcases I.var x l2 hx with hv | ⟨h, b, hv, hb, ho, hl⟩
        · exact Or.inl hv
        · exact Or.inr ⟨h, b, hv, hb, by rw [if_neg (by rw [ho]; exact e'), if_neg (by rw [ho]; exact e), ho], hl⟩
  · obtain ⟨a1, a2, a3⟩ := I.blk h b hb
    simp only
    by_cases e : ow h = i
    · rw [if_pos e, set_same, set_same]
      exact ⟨by simp, e ▸ a2, a3⟩
    · rw [if_neg e]
      by_cases e' : ow h = j
      · rw [if_pos e', set_ne _ _ hij, set_ne _ _ hij, set_same, set_same]
        exact ⟨by simp, e' ▸ a2, a3⟩
      · rw [if_neg e', set_ne _ _ e', set_ne _ _ e', set_ne _ _ e, set_ne _ _ e]
        exact ⟨a1, a2, a3⟩

theorem fresh_ids (n : Nat) (vs : List ν) : (fresh n vs).map (·.1) = List.range' n vs.length := by
  induction vs generalizing n with
  | nil => rfl
  | cons v vs ih => simp [fresh, ih, List.range'_succ]

theorem fresh_vals (n : Nat) (vs : List ν) : (fresh n vs).map (·.2) = vs := by
  induction vs generalizing n with
  | nil => rfl
  | cons v vs ih => simp [fresh, ih]

theorem has_nodup {s : St ν} {m : Vals ν} {pl ow} (I : Inv s m pl ow) {i : Nat} {oh b} (h : Has s ow i oh b) :
    (b.el.map (·.1)).Nodup ∧ ∀ x ∈ b.el.map (·.1), x < s.next := by
  rcases h with ⟨_, rfl, _⟩ | ⟨h, _, hb, _⟩
  · simp
  · exact ⟨(I.blk h b hb).2.2.1, fun x hx => (((I.blk h b hb).2.2.2 x).1 hx).1⟩

theorem has_var {s : St ν} {m : Vals ν} {pl ow} (I : Inv s m pl ow) {i : Nat} {h b} (hh : Has s ow i (some h) b) :
    s.heap h = some b ∧ s.var i = .ptr h := by
  rcases hh with ⟨e, _, _⟩ | ⟨h2, e, hb, ho⟩
  · cases e
  · cases e; exact ⟨hb, ho ▸ (I.blk h b hb).2.1⟩

theorem free_set {heap : Nat → Option (Blk ν)} {h : Nat} {x : Option (Blk ν)} : set (free heap (some h)) h x = set heap h x := by
  funext j
  by_cases e : j = h
  · subst e; rw [set_same, set_same]
  · rw [set_ne _ _ e, set_ne _ _ e, free, set_ne _ _ e]

/-- Other contents in the same block. -/
theorem inv_put_same {s : St ν} {m : Vals ν} {pl ow} (I : Inv s m pl ow) {i : Nat} {h : Nat} {b : Blk ν}
    (hh : Has s ow i (some h) b) {el : List (Nat × ν)}
    {g : List (Nat × Bool)} {n : Nat} (hn : s.next ≤ n) (hnd : (el.map (·.1)).Nodup) (hg : (g.map (·.1)).Nodup)
    (hd : ∀ x, x ∈ el.map (·.1) → x ∉ g.map (·.1))
    (hs : ∀ x, (x ∈ el.map (·.1) ∨ x ∈ g.map (·.1)) ↔ (x ∈ b.el.map (·.1) ∨ (s.next ≤ x ∧ x < n))) :
    ∃ pl' ow', Inv ⟨set s.heap h (some { b with el := el }), s.var, n, s.gone ++ g⟩
      (set m i (some (el.map (·.2)))) pl' ow' := by
  have := inv_put I hh (h' := h) (Or.inr rfl) b.cap hn hnd hg hd hs
  rwa [free_set, set_id s.var (has_var I hh).2] at this

theorem take_drop_perm (l : List Nat) (p x : Nat) : (l.take p ++ x :: l.drop p).Perm (x :: l) :=
  List.perm_middle.trans ((List.take_append_drop p l).symm ▸ List.Perm.refl _)

theorem ins_facts (el : List (Nat × ν)) (p n : Nat) (v : ν) (hnd : (el.map (·.1)).Nodup) (hlt : ∀ x ∈ el.map (·.1), x < n) :
    ((el.take p ++ (n, v) :: el.drop p).map (·.1)).Nodup ∧
    ∀ x, (x ∈ (el.take p ++ (n, v) :: el.drop p).map (·.1) ∨ x ∈ ([] : List (Nat × Bool)).map (·.1)) ↔
      (x ∈ el.map (·.1) ∨ (n ≤ x ∧ x < n + 1)) := by
  have e : (el.take p ++ (n, v) :: el.drop p).map (·.1) = (el.map (·.1)).take p ++ n :: (el.map (·.1)).drop p := by
    simp [List.map_take, List.map_drop]
  rw [e]
  have hp := take_drop_perm (el.map (·.1)) p n
  refine ⟨hp.nodup_iff.2 (List.nodup_cons.2 ⟨fun h => absurd (hlt n h) (by omega), hnd⟩), fun x => ?_⟩
  rw [hp.mem_iff, List.mem_cons]
  have : x = n ↔ (n ≤ x ∧ x < n + 1) := by omega
  rw [this]
  simp only [List.map_nil, List.not_mem_nil, or_false]
  exact or_comm

theorem fresh_facts (n : Nat) (vs : List ν) :
    ((fresh n vs).map (·.1)).Nodup ∧
    ∀ x, (x ∈ (fresh n vs).map (·.1) ∨ x ∈ ([] : List (Nat × Bool)).map (·.1)) ↔
      (x ∈ ([] : List (Nat × ν)).map (·.1) ∨ (n ≤ x ∧ x < n + vs.length)) := by
  rw [fresh_ids]
  refine ⟨List.nodup_range', fun x => ?_⟩
  simp [List.mem_range'_1]

theorem erase_facts (el : List (Nat × ν)) {p : Nat} {x : Nat × ν} (d : Bool) (n : Nat) (hnd : (el.map (·.1)).Nodup) (hp : el[p]? = some x) :
    ((el.eraseIdx p).map (·.1)).Nodup ∧ (∀ y, y ∈ (el.eraseIdx p).map (·.1) → y ∉ ([(x.1, d)] : List (Nat × Bool)).map (·.1)) ∧
    ∀ y, (y ∈ (el.eraseIdx p).map (·.1) ∨ y ∈ ([(x.1, d)] : List (Nat × Bool)).map (·.1)) ↔
      (y ∈ el.map (·.1) ∨ (n ≤ y ∧ y < n)) := by
  obtain ⟨hlt, hx⟩ := List.getElem?_eq_some_iff.1 hp
  have hperm : (el.map (·.1)).Perm (x.1 :: (el.eraseIdx p).map (·.1)) := by
    have h1 : el = el.take p ++ x :: el.drop (p + 1) := by
      rw [← hx, List.getElem_cons_drop, List.take_append_drop]
    have h2 : el.eraseIdx p = el.take p ++ el.drop (p + 1) := List.eraseIdx_eq_take_drop_succ el p
    rw [h2]
    conv => lhs; rw [h1]
    simp only [List.map_append, List.map_cons]
    exact List.perm_middle
  have hnd' := hperm.nodup_iff.1 hnd
  obtain ⟨n1, n2⟩ := List.nodup_cons.1 hnd'
  refine ⟨n2, fun y hy hy' => ?_, fun y => ?_⟩
  · simp at hy'; subst hy'; exact n1 hy
  · rw [hperm.mem_iff, List.mem_cons]
    have : ¬ (n ≤ y ∧ y < n) := by omega
    simp only [this, or_false, List.map_cons, List.map_nil, List.mem_singleton]
    exact or_comm

theorem eraseIdx_map' {α β : Type} (f : α → β) (l : List α) (p : Nat) : (l.map f).eraseIdx p = (l.eraseIdx p).map f := by
  rw [List.eraseIdx_eq_take_drop_succ, List.eraseIdx_eq_take_drop_succ, List.map_append, List.map_take, List.map_drop]

theorem ids_rev (el : List (Nat × ν)) : (el.reverse.map fun x => ((x.1, true) : Nat × Bool)).map (·.1) = (el.map (·.1)).reverse := by
  simp [List.map_reverse, Function.comp_def]

theorem gone_facts (el : List (Nat × ν)) (hnd : (el.map (·.1)).Nodup) :
    ((el.reverse.map fun x => ((x.1, true) : Nat × Bool)).map (·.1)).Nodup ∧
    ∀ x, x ∈ (el.reverse.map fun x => ((x.1, true) : Nat × Bool)).map (·.1) ↔ x ∈ el.map (·.1) := by
  rw [ids_rev]
  exact ⟨(List.reverse_perm _).nodup_iff.2 hnd, fun x => List.mem_reverse⟩

theorem grant_some {s : St ν} {n : Nat} {a : Option (Nat × Nat)} {h c : Nat} (e : grant s n a = some (h, c)) :
    s.heap h = none := by
  simp only [grant, Option.filter_eq_some_iff] at e
  have := e.2
  rw [Bool.and_eq_true] at this
  exact Option.isNone_iff_eq_none.1 this.1

theorem regrant_some {s : St ν} {o : Option Nat} {n : Nat} {a : Option (Nat × Nat)} {h c : Nat} (e : regrant s o n a = some (h, c)) :
    s.heap h = none ∨ some h = o := by
  simp only [regrant, Option.filter_eq_some_iff, Bool.and_eq_true, Bool.or_eq_true, decide_eq_true_eq] at e
  simpa using e.2.1

/-- `_drop` of a variable in use. -/
theorem drop_inv {s : St ν} {m : Vals ν} {pl ow} (I : Inv s m pl ow) {i : Nat} {l} (hi : m i = some l) :
    ∃ oh b pl' ow', deref s i = some (oh, b) ∧ Has s ow i oh b ∧
      drop s i = some ⟨free s.heap oh, s.var, s.next, s.gone ++ b.el.reverse.map fun x => (x.1, true)⟩ ∧
      Inv ⟨free s.heap oh, s.var, s.next, s.gone ++ b.el.reverse.map fun x => (x.1, true)⟩ (set m i none) pl' ow' := by
  obtain ⟨oh, b, hd, hh, hl, hv⟩ := has_used I hi
  obtain ⟨g1, g2⟩ := gone_facts b.el (has_nodup I hh).1
  obtain ⟨pl', ow', I'⟩ := inv_drop I hh g1 g2
  exact ⟨oh, b, pl', ow', hd, hh, by simp [drop, hd], I'⟩

/-- `_clone` into a variable not in use. -/
theorem clone_inv {k : Kind} {s : St ν} {m : Vals ν} {pl ow} (I : Inv s m pl ow) {i j : Nat} {l} (hi : m i = some l) (hj : m j = none)
    (a : Option (Nat × Nat)) (hg : k = .vec ∨ ∀ h b, deref s i = some (h, b) → grant s b.el.length a ≠ none) :
    ∃ t r pl' ow', clone k s j i a = some (t, r) ∧ Inv t (set m j (some (if r then l else []))) pl' ow' := by
  obtain ⟨oh, b, hd, hh, hl, hv⟩ := has_used I hi
  simp only [clone, hd, Option.bind_some]
  by_cases he : k = .vec ∧ b.el = []
  · rw [if_pos he]
    have : l = [] := by rw [← hl, he.2]; rfl
    subst this
    exact ⟨_, true, pl, ow, rfl, by simpa using inv_null I hj⟩
  · rw [if_neg he]
    cases hgr : grant s b.el.length a with
    | none =>
      rcases hg with hk | hg
      · simp only [if_pos hk]
        exact ⟨_, false, pl, ow, rfl, by simpa using inv_null I hj⟩
      · exact absurd hgr (hg oh b hd)
    | some x =>
      obtain ⟨h', c⟩ := x
      have hlen : l.length = b.el.length := by rw [← hl]; simp
      obtain ⟨f1, f2⟩ := fresh_facts s.next (b.el.map (·.2))
      obtain ⟨pl', ow', I'⟩ := inv_put I (has_unused I hj) (h' := h') (Or.inl (grant_some hgr)) c (el := fresh s.next (b.el.map (·.2)))
        (g := []) (n := s.next + b.el.length) (by omega) f1 (by simp) (by simp) (by simpa using f2)
      refine ⟨_, true, pl', ow', rfl, ?_⟩
      simpa [fresh_vals, hl, free] using I'

/-- Every call of a program that keeps the rules is defined, has the effect on the values and keeps the invariant. -/
theorem inv_step {k : Kind} {s : St ν} {m : Vals ν} {pl ow} (I : Inv s m pl ow) {op : Op ν} (hL : Legal m op) (hG : Granted k s op) :
    ∃ t r m' pl' ow', step k s op = some (t, r) ∧ Spec.step m r op = some m' ∧ Inv t m' pl' ow' := by
  cases op with
  | init i =>
    have hi : m i = none := by
      by_contra h; exact hL (by simp [Spec.step, h])
    exact ⟨_, true, _, pl, ow, rfl, by simp [Spec.step, hi], inv_null I hi⟩
  | insert i p v a =>
    cases hi : m i with
    | none => exact absurd (by simp [Spec.step, hi]) hL
    | some l =>
      have hp : p ≤ l.length := by
        by_contra h; exact hL (by simp [Spec.step, hi, h])
      obtain ⟨oh, b, hd, hh, hl, hv⟩ := has_used I hi
      have hlen : l.length = b.el.length := by rw [← hl]; simp
      obtain ⟨n1, n2⟩ := has_nodup I hh
      obtain ⟨f1, f2⟩ := ins_facts b.el p s.next v n1 n2
      have hvals : (b.el.take p ++ (s.next, v) :: b.el.drop p).map (·.2) = l.take p ++ v :: l.drop p := by
        rw [← hl]; simp [List.map_take, List.map_drop]
      simp only [step, insert, hd, Option.bind_some, if_pos (hlen ▸ hp), Spec.step, hi, if_pos hp]
      by_cases hc : b.el.length < b.cap
      · rw [if_pos hc]
        cases oh with
        | none =>
          rcases hh with ⟨_, rfl, _⟩ | ⟨h, e, _⟩
          · simp at hc
          · cases e
        | some h =>
          obtain ⟨pl', ow', I'⟩ := inv_put_same I hh (g := []) (n := s.next + 1) (by omega) f1 (by simp) (by simp) f2
          refine ⟨_, true, _, pl', ow', rfl, rfl, ?_⟩
          rw [hvals] at I'
          simpa using I'
      · rw [if_neg hc]
        cases hr : regrant s oh (b.el.length + 1) a with
        | none => exact ⟨s, false, m, pl, ow, rfl, by simp, I⟩
        | some x =>
          obtain ⟨h', c⟩ := x
          obtain ⟨pl', ow', I'⟩ := inv_put I hh (h' := h') (regrant_some hr) c (g := []) (n := s.next + 1) (by omega) f1 (by simp) (by simp) f2
          refine ⟨_, true, _, pl', ow', rfl, rfl, ?_⟩
          rw [hvals] at I'
          simpa using I'
  | remove i p d =>
    cases hi : m i with
    | none => exact absurd (by simp [Spec.step, hi]) hL
    | some l =>
      have hp : p < l.length := by
        by_contra h; exact hL (by simp [Spec.step, hi, h])
      obtain ⟨oh, b, hd, hh, hl, hv⟩ := has_used I hi
      have hlen : l.length = b.el.length := by rw [← hl]; simp
      obtain ⟨n1, n2⟩ := has_nodup I hh
      cases oh with
      | none =>
        rcases hh with ⟨_, rfl, _⟩ | ⟨h, e, _⟩
        · simp only [List.length_nil] at hlen; omega
        · cases e
      | some h =>
        have hx : b.el[p]? = some (b.el[p]'(by omega)) := List.getElem?_eq_getElem _
        obtain ⟨f1, f2, f3⟩ := erase_facts b.el d s.next n1 hx
        obtain ⟨pl', ow', I'⟩ := inv_put_same I hh (n := s.next) (by omega) f1 (by simp) f2 f3
        refine ⟨_, true, _, pl', ow', by simp only [step, remove, hd, Option.bind_some, hx, Option.map_some]; rfl, by simp only [Spec.step, hi, Option.bind_some, if_pos hp]; rfl, ?_⟩
        have : (b.el.eraseIdx p).map (·.2) = l.eraseIdx p := by rw [← hl, eraseIdx_map']
        rw [this] at I'
        exact I'
  | clear i =>
    cases hi : m i with
    | none => exact absurd (by simp [Spec.step, hi]) hL
    | some l =>
      obtain ⟨oh, b, hd, hh, hl, hv⟩ := has_used I hi
      obtain ⟨n1, n2⟩ := has_nodup I hh
      cases oh with
      | none =>
        have : b.el = [] := by
          rcases hh with ⟨_, rfl, _⟩ | ⟨h, e, _⟩
          · rfl
          · cases e
        refine ⟨s, true, set m i (some []), pl, ow, by simp [step, clear, hd], by simp [Spec.step, hi], ?_⟩
        rw [set_id m (by rw [hi, ← hl, this]; rfl)]
        exact I
      | some h =>
        obtain ⟨g1, g2⟩ := gone_facts b.el n1
        obtain ⟨pl', ow', I'⟩ := inv_put_same I hh (el := []) (n := s.next) (by omega) (by simp) g1 (by simp) (fun x => by
          rw [g2 x]
          have : ¬ (s.next ≤ x ∧ x < s.next) := by omega
          simp [this])
        exact ⟨_, true, _, pl', ow', by simp only [step, clear, hd, Option.map_some], by simp only [Spec.step, hi, Option.bind_some]; rfl, I'⟩
  | clone j i a =>
    cases hi : m i with
    | none => exact absurd (by simp [Spec.step, hi]) hL
    | some l =>
      have hj : m j = none := by
        by_contra h; exact hL (by simp [Spec.step, hi, h])
      obtain ⟨t, r, pl', ow', h1, I'⟩ := clone_inv I hi hj a hG
      exact ⟨t, r, _, pl', ow', h1, by simp [Spec.step, hi, hj], I'⟩
  | copy j i a =>
    cases hi : m i with
    | none => exact absurd (by simp [Spec.step, hi]) hL
    | some l =>
    cases hj : m j with
    | none => exact absurd (by simp [Spec.step, hi, hj]) hL
    | some l' =>
      obtain ⟨oh, b, hd, hh, hl, hv⟩ := has_used I hi
      obtain ⟨oj, bj, hdj, hhj, hlj, hvj⟩ := has_used I hj
      simp only [step, copy, hd, hdj, Option.bind_some, Spec.step, hi, hj]
      by_cases he : oh = oj
      · rw [if_pos he]
        refine ⟨s, true, set m j (some l), pl, ow, rfl, by simp, ?_⟩
        rw [set_id]
        · exact I
        · rw [hj, ← hl, ← hlj]
          rcases hh with ⟨e, rfl, _⟩ | ⟨h, e, hb, ho⟩ <;> rcases hhj with ⟨e', rfl, _⟩ | ⟨h2, e', hb', ho'⟩
          · rfl
          · rw [e, e'] at he; cases he
          · rw [e, e'] at he; cases he
          · rw [e, e'] at he; cases he
            rw [hb] at hb'; cases hb'; rfl
      · rw [if_neg he]
        have hij : i ≠ j := by
          rintro rfl
          rw [hd] at hdj; cases hdj; exact he rfl
        cases k with
        | vec =>
          simp only
          obtain ⟨n1, n2⟩ := has_nodup I hhj
          have hfl : (b.el.map (·.2)).length = b.el.length := by simp
          cases oj with
          | none =>
            have hbj : bj = ⟨0, []⟩ := by
              rcases hhj with ⟨_, e, _⟩ | ⟨h, e, _⟩
              · exact e
              · cases e
            subst hbj
            have hcl : clear s j = some s := by simp [clear, hdj]
            simp only [hcl, Option.bind_some, refill, hdj]
            by_cases hz : (b.el.map (·.2)).length ≤ 0
            · have : b.el.map (·.2) = [] := List.length_eq_zero_iff.1 (by omega)
              rw [if_pos hz, if_pos this]
              refine ⟨s, true, set m j (some l), pl, ow, rfl, by simp, ?_⟩
              rw [set_id]
              · exact I
              · rw [hj, ← hl, this, ← hlj]; rfl
            · rw [if_neg hz]
              cases hr : regrant s none (b.el.map (·.2)).length a with
              | none =>
                refine ⟨s, false, set m j (some []), pl, ow, rfl, by simp, ?_⟩
                rw [set_id]
                · exact I
                · rw [hj, ← hlj]; rfl
              | some x =>
                obtain ⟨h', c⟩ := x
                obtain ⟨f1, f2⟩ := fresh_facts s.next (b.el.map (·.2))
                obtain ⟨pl', ow', I'⟩ := inv_put I hhj (h' := h') (regrant_some hr) c (g := []) (n := s.next + (b.el.map (·.2)).length) (by omega) f1 (by simp) (by simp) f2
                refine ⟨_, true, _, pl', ow', rfl, rfl, ?_⟩
                subst hl
                rw [fresh_vals] at I'
                simpa using I'
          | some h =>
            obtain ⟨g1, g2⟩ := gone_facts bj.el n1
            obtain ⟨pl1, ow1, I1⟩ := inv_put_same I hhj (el := []) (n := s.next) (by omega) (by simp) g1 (by simp) (fun x => by
              rw [g2 x]
              have : ¬ (s.next ≤ x ∧ x < s.next) := by omega
              simp [this])
            simp only [clear, hdj, Option.map_some, Option.bind_some]
            obtain ⟨oj1, b1, hd1, hh1, hl1, hv1⟩ := has_used I1 (i := j) (set_same _ _ _)
            have hvar := (has_var I hhj).2
            have hd1' : deref (⟨set s.heap h (some { bj with el := [] }), s.var, s.next, s.gone ++ bj.el.reverse.map fun x => (x.1, true)⟩ : St ν) j = some (some h, { bj with el := [] }) := by
              simp [deref, hvar, set_same]
            rw [hd1'] at hd1; cases hd1
            simp only [refill, hd1', Option.bind_some]
            obtain ⟨f1, f2⟩ := fresh_facts s.next (b.el.map (·.2))
            by_cases hc : (b.el.map (·.2)).length ≤ bj.cap
            · rw [if_pos hc]
              obtain ⟨pl', ow', I'⟩ := inv_put_same I1 hh1 (g := []) (n := s.next + (b.el.map (·.2)).length) (by simp) f1 (by simp) (by simp) f2
              refine ⟨_, true, _, pl', ow', rfl, rfl, ?_⟩
              subst hl
              rw [fresh_vals] at I'
              have hset : set (set m j (some (List.map (·.2) ([] : List (Nat × ν))))) j (some (b.el.map (·.2))) = set m j (some (b.el.map (·.2))) := by
                funext x; by_cases e : x = j <;> simp [set, e]
              rw [hset] at I'
              simpa using I'
            · rw [if_neg hc]
              cases hr : regrant (⟨set s.heap h (some { bj with el := [] }), s.var, s.next, s.gone ++ bj.el.reverse.map fun x => (x.1, true)⟩ : St ν) (some h) (b.el.map (·.2)).length a with
              | none => exact ⟨_, false, _, pl1, ow1, rfl, rfl, I1⟩
              | some x =>
                obtain ⟨h', c⟩ := x
                obtain ⟨pl', ow', I'⟩ := inv_put I1 hh1 (h' := h') (regrant_some hr) c (g := []) (n := s.next + (b.el.map (·.2)).length) (by simp) f1 (by simp) (by simp) f2
                refine ⟨_, true, _, pl', ow', rfl, rfl, ?_⟩
                subst hl
                rw [fresh_vals] at I'
                have hset : set (set m j (some (List.map (·.2) ([] : List (Nat × ν))))) j (some (b.el.map (·.2))) = set m j (some (b.el.map (·.2))) := by
                  funext x; by_cases e : x = j <;> simp [set, e]
                rw [hset] at I'
                simpa using I'
        | other =>
          simp only
          obtain ⟨oj2, bj2, pl1, ow1, hd2, hh2, hdr, I1⟩ := drop_inv I hj
          rw [hdr, Option.bind_some]
          have hi1 : set m j none i = some l := by rw [set_ne _ _ hij, hi]
          have hdi : deref (⟨free s.heap oj2, s.var, s.next, s.gone ++ bj2.el.reverse.map fun x => (x.1, true)⟩ : St ν) i = some (oh, b) := by
            rw [hd2] at hdj; cases hdj
            rcases hh with ⟨e, rfl, _⟩ | ⟨h, e, hb, ho⟩
            · subst e
              simp only [deref] at hd ⊢
              cases hvi : s.var i with
              | junk => exact absurd hvi hv
              | null => rfl
              | ptr h => rw [hvi] at hd; cases hx : s.heap h <;> simp [hx] at hd
            · subst e
              have hvi := (has_var I (Or.inr ⟨h, rfl, hb, ho⟩)).2
              simp only [deref, hvi]
              have : free s.heap oj h = some b := by
                cases oj with
                | none => exact hb
                | some h2 => rw [free, set_ne _ _ (fun e => he (by rw [e])), hb]
              rw [this]; rfl
          obtain ⟨t, r, pl', ow', h1, I'⟩ := clone_inv (k := .other) I1 hi1 (set_same m j none) a (Or.inr (by
            intro h' b' hd'
            rcases hG with hk | hG
            · cases hk
            · rw [hdi] at hd'; cases hd'
              exact hG oh b oj bj _ hd hdj he hdr))
          refine ⟨t, r, _, pl', ow', h1, rfl, ?_⟩
          have hset : ∀ x, set (set m j none) j x = set m j x := by
            intro y; funext x; by_cases e : x = j <;> simp [set, e]
          rw [hset] at I'
          exact I'
  | move j i =>
    cases hi : m i with
    | none => exact absurd (by simp [Spec.step, hi]) hL
    | some l =>
      have hj : m j = none := by
        by_contra h; exact hL (by simp [Spec.step, hi, h])
      obtain ⟨oh, b, hd, hh, hl, hv⟩ := has_used I hi
      obtain ⟨ow', I'⟩ := inv_move I hi hj
      exact ⟨_, true, _, pl, ow', by simp only [step, move, if_neg hv, Option.map_some], by simp only [Spec.step, hi, Option.bind_some, if_pos hj], I'⟩
  | take j i =>
    cases hi : m i with
    | none => exact absurd (by simp [Spec.step, hi]) hL
    | some l =>
    cases hj : m j with
    | none => exact absurd (by simp [Spec.step, hi, hj]) hL
    | some l' =>
      obtain ⟨oh, b, hd, hh, hl, hv⟩ := has_used I hi
      simp only [step, take, if_neg hv, Spec.step, hi, hj, Option.bind_some]
      by_cases hij : i = j
      · subst hij
        refine ⟨_, true, _, pl, ow, by simp only [drop, deref, set_same, Option.map_some]; rfl, rfl, ?_⟩
        have h1 : set (set m i (some [])) i (some l) = m := by
          funext x; by_cases e : x = i <;> simp [set, e, hi]
        have h2 : set (set s.var i .null) i (s.var i) = s.var := by
          funext x; by_cases e : x = i <;> simp [set, e]
        simp only [h1, h2, free, List.reverse_nil, List.map_nil, List.append_nil]
        exact I
      · obtain ⟨oj2, bj2, pl1, ow1, hd2, hh2, hdr, I1⟩ := drop_inv I hj
        have hi1 : set m j none i = some l := by rw [set_ne _ _ hij, hi]
        obtain ⟨ow', I'⟩ := inv_move I1 hi1 (set_same m j none)
        have hd3 : deref ({ s with var := set s.var i .null }) j = some (oj2, bj2) := by
          rw [← hd2]; simp only [deref, set_ne _ _ (Ne.symm hij)]
        refine ⟨_, true, _, pl1, ow', by simp only [drop, hd3, Option.map_some]; rfl, rfl, ?_⟩
        have hset : set (set (set m j none) i (some [])) j (some l) = set (set m i (some [])) j (some l) := by
          funext x; by_cases e : x = j <;> simp [set, e]
        rw [hset] at I'
        exact I'
  | swap i j =>
    cases hi : m i with
    | none => exact absurd (by simp [Spec.step, hi]) hL
    | some l =>
    cases hj : m j with
    | none => exact absurd (by simp [Spec.step, hi, hj]) hL
    | some l' =>
      have hij : i ≠ j := by
        intro h; exact hL (by simp [Spec.step, hi, hj, h])
      obtain ⟨oh, b, hd, hh, hl, hv⟩ := has_used I hi
      obtain ⟨oj, bj, hdj, hhj, hlj, hvj⟩ := has_used I hj
      obtain ⟨ow', I'⟩ := inv_swap I hi hj hij
      refine ⟨_, true, _, pl, ow', ?_, by simp only [Spec.step, hi, hj, Option.bind_some, if_neg hij], I'⟩
      simp only [step, swap]
      rw [if_neg (by simp [hij, hv, hvj])]
      rfl
  | drop i =>
    cases hi : m i with
    | none => exact absurd (by simp [Spec.step, hi]) hL
    | some l =>
      obtain ⟨oh, b, pl', ow', hd, hh, hdr, I'⟩ := drop_inv I hi
      exact ⟨_, true, _, pl', ow', by simp only [step, hdr, Option.map_some], by simp only [Spec.step, hi, Option.bind_some], I'⟩

theorem reach_inv {k : Kind} {s : St ν} {m : Vals ν} (h : Reach k s m) : ∃ pl ow, Inv s m pl ow := by
  induction h with
  | start =>
    exact ⟨fun _ => none, fun _ => 0, ⟨by simp, by simp [start], by simp [start], by simp [start], by simp [start]⟩⟩
  | step _ hL hG h1 h2 ih =>
    obtain ⟨pl, ow, I⟩ := ih
    obtain ⟨t, r, m', pl', ow', e1, e2, I'⟩ := inv_step I hL hG
    rw [h1] at e1; cases e1
    rw [h2] at e2; cases e2
    exact ⟨pl', ow', I'⟩

/-! No block holds more elements than it has room for. -/

/-- All live blocks have room for their elements. -/
def Fits (heap : Nat → Option (Blk ν)) : Prop := ∀ h b, heap h = some b → b.el.length ≤ b.cap

theorem fits_set {heap : Nat → Option (Blk ν)} (F : Fits heap) (h : Nat) {b : Blk ν} (hb : b.el.length ≤ b.cap) : Fits (set heap h (some b)) := by
  intro h' b' e
  by_cases hh : h' = h
  · subst hh; rw [set_same] at e; cases e; exact hb
  · rw [set_ne _ _ hh] at e; exact F h' b' e

theorem fits_free {heap : Nat → Option (Blk ν)} (F : Fits heap) (h : Option Nat) : Fits (free heap h) := by
  cases h with
  | none => exact F
  | some h =>
    intro h' b' e
    by_cases hh : h' = h
    · subst hh; rw [free, set_same] at e; cases e
    · rw [free, set_ne _ _ hh] at e; exact F h' b' e

theorem fits_deref {s : St ν} (F : Fits s.heap) {i : Nat} {h b} (e : deref s i = some (h, b)) : b.el.length ≤ b.cap := by
  simp only [deref] at e
  split at e
  · cases e
  · cases e; simp
  · obtain ⟨b', hb, e⟩ := Option.map_eq_some_iff.1 e
    cases e; exact F _ _ hb

theorem fresh_length (n : Nat) (vs : List ν) : (fresh n vs).length = vs.length := by
  have := congrArg List.length (fresh_ids n vs)
  simpa using this

theorem grant_cap {s : St ν} {n : Nat} {a : Option (Nat × Nat)} {h c : Nat} (e : grant s n a = some (h, c)) : n ≤ c := by
  simp only [grant, Option.filter_eq_some_iff, Bool.and_eq_true, decide_eq_true_eq] at e
  exact e.2.2

theorem regrant_cap {s : St ν} {o : Option Nat} {n : Nat} {a : Option (Nat × Nat)} {h c : Nat} (e : regrant s o n a = some (h, c)) : n ≤ c := by
  simp only [regrant, Option.filter_eq_some_iff, Bool.and_eq_true, decide_eq_true_eq] at e
  exact e.2.2

theorem fits_drop {s t : St ν} (F : Fits s.heap) {i : Nat} (e : drop s i = some t) : Fits t.heap := by
  obtain ⟨⟨h, b⟩, _, rfl⟩ := Option.map_eq_some_iff.1 e
  exact fits_free F h

theorem fits_clear {s t : St ν} (F : Fits s.heap) {i : Nat} (e : clear s i = some t) : Fits t.heap := by
  obtain ⟨⟨h, b⟩, _, rfl⟩ := Option.map_eq_some_iff.1 e
  cases h with
  | none => exact F
  | some h => exact fits_set F h (by simp)

theorem fits_clone {k : Kind} {s t : St ν} (F : Fits s.heap) {j i : Nat} {a r} (e : clone k s j i a = some (t, r)) : Fits t.heap := by
  obtain ⟨⟨h, b⟩, _, e⟩ := Option.bind_eq_some_iff.1 e
  simp only at e
  split at e
  · cases e; exact F
  · split at e
    · split at e
      · cases e; exact F
      · cases e
    · rename_i hg
      cases e
      exact fits_set F _ (by simpa [fresh_length] using grant_cap hg)

theorem fits_refill {s t : St ν} (F : Fits s.heap) {j : Nat} {vs : List ν} {a r} (e : refill s j vs a = some (t, r)) : Fits t.heap := by
  obtain ⟨⟨h, b⟩, _, e⟩ := Option.bind_eq_some_iff.1 e
  simp only at e
  split at e
  · rename_i hc
    split at e
    · split at e
      · cases e; exact F
      · cases e
    · cases e
      exact fits_set F _ (by simpa [fresh_length] using hc)
  · split at e
    · cases e; exact F
    · rename_i hg
      cases e
      exact fits_set (fits_free F _) _ (by simpa [fresh_length] using regrant_cap hg)

theorem fits_step {k : Kind} {s t : St ν} (F : Fits s.heap) {op : Op ν} {r} (e : step k s op = some (t, r)) : Fits t.heap := by
  cases op with
  | init i => cases e; exact F
  | insert i p v a =>
    obtain ⟨⟨h, b⟩, hd, e⟩ := Option.bind_eq_some_iff.1 e
    simp only at e
    split at e
    · rename_i hp
      have hlen : (b.el.take p ++ (s.next, v) :: b.el.drop p).length = b.el.length + 1 := by
        simp; omega
      split at e
      · rename_i hc
        obtain ⟨h', _, e⟩ := Option.map_eq_some_iff.1 e
        cases e
        exact fits_set F _ (by simp only [hlen]; omega)
      · split at e
        · cases e; exact F
        · rename_i hg
          cases e
          exact fits_set (fits_free F _) _ (by simpa only [hlen] using regrant_cap hg)
    · cases e
  | remove i p d =>
    obtain ⟨t', e1, h2⟩ := Option.map_eq_some_iff.1 e
    cases h2
    clear e
    rename' e1 => e
    obtain ⟨⟨h, b⟩, hd, e⟩ := Option.bind_eq_some_iff.1 e
    obtain ⟨h', _, e⟩ := Option.bind_eq_some_iff.1 e
    obtain ⟨x, _, rfl⟩ := Option.map_eq_some_iff.1 e
    have := fits_deref F hd
    refine fits_set F _ ?_
    have h3 := (List.eraseIdx_sublist b.el p).length_le
    simp only; omega
  | clear i =>
    obtain ⟨t', e1, h2⟩ := Option.map_eq_some_iff.1 e
    cases h2
    clear e
    rename' e1 => e; exact fits_clear F e
  | clone j i a => exact fits_clone F e
  | copy j i a =>
    obtain ⟨⟨h, b⟩, _, e⟩ := Option.bind_eq_some_iff.1 e
    obtain ⟨⟨h', b'⟩, _, e⟩ := Option.bind_eq_some_iff.1 e
    simp only at e
    split at e
    · cases e; exact F
    · cases k with
      | vec =>
        obtain ⟨s', h1, e⟩ := Option.bind_eq_some_iff.1 e
        exact fits_refill (fits_clear F h1) e
      | other =>
        obtain ⟨s', h1, e⟩ := Option.bind_eq_some_iff.1 e
        exact fits_clone (fits_drop F h1) e
  | move j i =>
    obtain ⟨t', e1, h2⟩ := Option.map_eq_some_iff.1 e
    cases h2
    clear e
    rename' e1 => e
    simp only [move] at e
    split at e
    · cases e
    · cases e; exact F
  | take j i =>
    obtain ⟨t', e1, h2⟩ := Option.map_eq_some_iff.1 e
    cases h2
    clear e
    rename' e1 => e
    simp only [take] at e
    split at e
    · cases e
    · obtain ⟨t2, e2, rfl⟩ := Option.map_eq_some_iff.1 e
      have := fits_drop (s := { s with var := set s.var i .null }) F e2
      exact this
  | swap i j =>
    obtain ⟨t', e1, h2⟩ := Option.map_eq_some_iff.1 e
    cases h2
    clear e
    rename' e1 => e
    simp only [swap] at e
    split at e
    · cases e
    · cases e; exact F
  | drop i =>
    obtain ⟨t', e1, h2⟩ := Option.map_eq_some_iff.1 e
    cases h2
    clear e
    rename' e1 => e; exact fits_drop F e

end Verif.Own
