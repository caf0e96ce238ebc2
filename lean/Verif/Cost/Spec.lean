/-
How often a user-supplied comparison is consulted, described from the outside: the answer of a function is
settled by the comparisons of at most `k` pairs, if every other comparison that agrees on these pairs gives
the same answer. This needs no counters in the models.
-/
namespace Verif.Cost
variable {α β γ : Type}

/-- The result of `f` for the comparison `less` is settled by at most `k` of its answers. -/
def Settled (k : Nat) (f : (α → α → γ) → β) (less : α → α → γ) : Prop :=
  ∃ qs : List (α × α), qs.length ≤ k ∧ ∀ less' : α → α → γ, (∀ q ∈ qs, less' q.1 q.2 = less q.1 q.2) → f less' = f less

theorem Settled.const {less : α → α → γ} (b : β) (k : Nat) : Settled k (fun _ => b) less := ⟨[], Nat.zero_le _, fun _ _ => rfl⟩

theorem Settled.mono {k k' : Nat} {f : (α → α → γ) → β} {less : α → α → γ} (h : Settled k f less) (hk : k ≤ k') : Settled k' f less := by
  obtain ⟨qs, h1, h2⟩ := h
  exact ⟨qs, Nat.le_trans h1 hk, h2⟩

/-- One question, then going on. -/
theorem Settled.ask {k : Nat} {less : α → α → γ} {x y : α} {f : (α → α → γ) → γ → β} (h : Settled k (fun l => f l (less x y)) less) :
    Settled (k + 1) (fun l => f l (l x y)) less := by
  obtain ⟨qs, h1, h2⟩ := h
  refine ⟨(x, y) :: qs, by simpa using h1, fun l hl => ?_⟩
  show f l (l x y) = f less (less x y)
  rw [hl (x, y) (by simp)]
  exact h2 l fun q hq => hl q (by simp [hq])

/-- What is computed from a settled result. -/
theorem Settled.map {δ : Type} {k : Nat} {f : (α → α → γ) → β} {less : α → α → γ} (h : Settled k f less) (g : β → δ) : Settled k (fun l => g (f l)) less := by
  obtain ⟨qs, h1, h2⟩ := h
  exact ⟨qs, h1, fun l hl => by simp only [h2 l hl]⟩

/-- One after the other. -/
theorem Settled.bind {δ : Type} {k j : Nat} {f : (α → α → γ) → β} {less : α → α → γ} {g : (α → α → γ) → β → δ} (h : Settled k f less)
    (hg : Settled j (fun l => g l (f less)) less) : Settled (k + j) (fun l => g l (f l)) less := by
  obtain ⟨qs, h1, h2⟩ := h
  obtain ⟨ps, h3, h4⟩ := hg
  refine ⟨qs ++ ps, by rw [List.length_append]; omega, fun l hl => ?_⟩
  simp only [h2 l fun q hq => hl q (by simp [hq])]
  exact h4 l fun q hq => hl q (by simp [hq])

end Verif.Cost
