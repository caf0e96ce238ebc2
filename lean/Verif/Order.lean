/- The assumption on user supplied comparisons, shared by all ordered components. -/
namespace Verif

/-- `i_less` is a strict weak ordering. -/
structure StrictWeak {α : Type _} (less : α → α → Bool) : Prop where
  asymm : ∀ a b, less a b = true → less b a = false
  negtrans : ∀ a b c, less a b = false → less b c = false → less a c = false

namespace StrictWeak
variable {α : Type _} {less : α → α → Bool} (h : StrictWeak less)
include h

theorem irrefl (a : α) : less a a = false := by
  cases ha : less a a
  · rfl
  · have := h.asymm a a ha; simp [this] at ha

theorem trans {a b c : α} (hab : less a b = true) (hbc : less b c = true) : less a c = true := by
  cases hac : less a c
  · have h1 := h.asymm _ _ hbc
    -- a ≥ c and c ≥ b give a ≥ b
    have := h.negtrans _ _ _ hac h1
    simp [this] at hab
  · rfl

theorem lt_of_lt_of_le {a b c : α} (hab : less a b = true) (hcb : less c b = false) : less a c = true := by
  cases hac : less a c
  · have := h.negtrans _ _ _ hac hcb; simp [this] at hab
  · rfl

theorem lt_of_le_of_lt {a b c : α} (hba : less b a = false) (hbc : less b c = true) : less a c = true := by
  cases hac : less a c
  · have := h.negtrans _ _ _ hba hac; simp [this] at hbc
  · rfl

end StrictWeak

theorem strictWeak_nat : StrictWeak (fun a b : Nat => decide (a < b)) where
  asymm a b := by simp; omega
  negtrans a b c := by simp; omega

end Verif
