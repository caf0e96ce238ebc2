import Verif.Regex.Spec
/- The grammar of patterns is unambiguous. -/
namespace Verif.Regex
open Spec (Tok Re G)

variable {α : Type}

/-- What is open: the number of a group, the alternatives before it and the sequence before it. -/
structure Frame (α : Type) where
  no : Nat
  alt : Option (Re α)
  seq : Option (Re α)

structure Pst (α : Type) where
  stk : List (Frame α)
  alt : Option (Re α)
  seq : Option (Re α)
  item : Option (Re α)
  n : Nat

def pcat (a b : Option (Re α)) : Option (Re α) :=
  match a, b with
  | some a, some b => some (.cat a b)
  | a, none => a
  | none, b => b

def palt (a b : Option (Re α)) : Option (Re α) :=
  match a, b with
  | some a, some b => some (.alt a b)
  | a, none => a
  | none, b => b

def Pst.all (p : Pst α) : Option (Re α) := palt p.alt (pcat p.seq p.item)

def pstep (p : Pst α) : Tok α → Pst α
  | .one a => ⟨p.stk, p.alt, pcat p.seq p.item, some (.one a), p.n⟩
  | .star => ⟨p.stk, p.alt, p.seq, p.item.map .star, p.n⟩
  | .plus => ⟨p.stk, p.alt, p.seq, p.item.map .plus, p.n⟩
  | .opt => ⟨p.stk, p.alt, p.seq, p.item.map .opt, p.n⟩
  | .bar => ⟨p.stk, p.all, none, none, p.n⟩
  | .lpar => ⟨⟨p.n + 1, p.alt, pcat p.seq p.item⟩ :: p.stk, none, none, none, p.n + 1⟩
  | .rpar =>
    match p.stk with
    | [] => p
    | f :: stk => ⟨stk, f.alt, f.seq, p.all.map (.grp f.no), p.n⟩

theorem G_run {l n n' : Nat} {ts : List (Tok α)} {e : Re α} (h : G l n ts e n') : ∀ stk a s it,
    (l = 2 → ts.foldl pstep ⟨stk, a, s, it, n⟩ = ⟨stk, a, pcat s it, some e, n'⟩) ∧
    (l = 1 → ∃ s' it', ts.foldl pstep ⟨stk, a, none, none, n⟩ = ⟨stk, a, s', some it', n'⟩ ∧ pcat s' (some it') = some e) ∧
    (l = 0 → ∃ a' s' it', ts.foldl pstep ⟨stk, none, none, none, n⟩ = ⟨stk, a', s', some it', n'⟩ ∧ palt a' (pcat s' (some it')) = some e) := by
  induction h with
  | one => intro stk a s it; exact ⟨fun _ => rfl, fun h => by omega, fun h => by omega⟩
  | @grp n n' ts e _ ih =>
    intro stk a s it
    refine ⟨fun _ => ?_, fun h => by omega, fun h => by omega⟩
    obtain ⟨a', s', it', h1, h2⟩ := (ih (⟨n + 1, a, pcat s it⟩ :: stk) none none none).2.2 rfl
    simp only [List.foldl_cons, List.foldl_append, List.foldl_nil, pstep, h1, Pst.all, h2, Option.map_some]
  | star _ ih | plus _ ih | opt _ ih =>
    intro stk a s it
    refine ⟨fun _ => ?_, fun h => by omega, fun h => by omega⟩
    simp only [List.foldl_append, (ih stk a s it).1 rfl, List.foldl_cons, List.foldl_nil, pstep, Option.map_some]
  | item _ ih =>
    intro stk a s it
    refine ⟨fun h => by omega, fun _ => ⟨_, _, (ih stk a none none).1 rfl, rfl⟩, fun h => by omega⟩
  | cat _ _ ih1 ih2 =>
    intro stk a s it
    refine ⟨fun h => by omega, fun _ => ?_, fun h => by omega⟩
    obtain ⟨s', it', h1, h2⟩ := (ih1 stk a none none).2.1 rfl
    have h6 := (ih2 stk a s' (some it')).1 rfl
    rw [← h1, ← List.foldl_append] at h6
    exact ⟨_, _, h6, by rw [h2]; rfl⟩
  | seq _ ih =>
    intro stk a s it
    refine ⟨fun h => by omega, fun h => by omega, fun _ => ?_⟩
    obtain ⟨s', it', h1, h2⟩ := (ih stk none none none).2.1 rfl
    exact ⟨none, s', it', h1, by rw [h2]; rfl⟩
  | alt _ _ ih1 ih2 =>
    intro stk a s it
    refine ⟨fun h => by omega, fun h => by omega, fun _ => ?_⟩
    obtain ⟨a', s', it', h1, h2⟩ := (ih1 stk none none none).2.2 rfl
    obtain ⟨s2, it2, h3, h4⟩ := (ih2 stk (palt a' (pcat s' (some it'))) none none).2.1 rfl
    refine ⟨palt a' (pcat s' (some it')), s2, it2, ?_, ?_⟩
    · rw [List.foldl_append, h1, List.foldl_cons]; exact h3
    · rw [h2, h4]; rfl

/-- A pattern has one meaning. -/
theorem G_unique {ts : List (Tok α)} {e e' : Re α} {n n' : Nat} (h : G 0 0 ts e n) (h' : G 0 0 ts e' n') : e = e' ∧ n = n' := by
  obtain ⟨a, s, it, h1, h2⟩ := (G_run h [] none none none).2.2 rfl
  obtain ⟨a', s', it', h3, h4⟩ := (G_run h' [] none none none).2.2 rfl
  rw [h1] at h3
  cases h3
  rw [h2] at h4
  cases h4
  exact ⟨rfl, rfl⟩

theorem G_ne_nil {l n n' : Nat} {ts : List (Tok α)} {e : Re α} (h : G l n ts e n') : ts ≠ [] := by
  cases h with
  | one | grp | star | plus | opt => simp
  | item h => cases h <;> simp
  | cat h1 h2 => intro e; have := (List.append_eq_nil_iff.1 e).2; cases h2 <;> simp at this
  | seq h => cases h with
    | item h => cases h <;> simp
    | cat h1 h2 => intro e; have := (List.append_eq_nil_iff.1 e).2; cases h2 <;> simp at this
  | alt => simp

end Verif.Regex
