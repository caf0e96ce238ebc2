import Verif.Algo.Spec
import Mathlib.Tactic.Ring
import Mathlib.Tactic.Common
namespace Verif.Algo
open Spec
variable {ι α : Type}

/-! ### ranges -/

theorem sig_ok {w : Nat} {x : Int} (h1 : -((2 : Int) ^ (w - 1)) ≤ x) (h2 : x < 2 ^ (w - 1)) : sig w x = some x :=
  if_pos ⟨h1, h2⟩

theorem range_cons {i stop step : Int} {xs : List Int} (h : IsRange (i + step) stop step xs) (hi : Inside i stop step 0) :
    IsRange i stop step (i :: xs) := by
  intro k
  cases k with
  | zero => rw [if_pos hi]; simp
  | succ k =>
    have e : i + ((k + 1 : Nat) : Int) * step = i + step + k * step := by push_cast; ring
    have := h k
    simp only [List.getElem?_cons_succ]
    rw [this]
    simp only [Inside, e]

theorem range_nil {i stop step : Int} (hs : step ≠ 0) (h : ¬ Inside i stop step 0) : IsRange i stop step [] := by
  intro k
  rw [if_neg, List.getElem?_nil]
  intro hk
  apply h
  unfold Inside at *
  rcases hk with ⟨a, b⟩ | ⟨a, b⟩
  · left
    have : 0 ≤ (k : Int) * step := Int.mul_nonneg (by omega) (by omega)
    constructor
    · exact a
    · simp only [Nat.cast_zero, Int.zero_mul, Int.add_zero]; omega
  · right
    have : (k : Int) * step ≤ 0 := Int.mul_nonpos_of_nonneg_of_nonpos (by omega) (by omega)
    constructor
    · exact a
    · simp only [Nat.cast_zero, Int.zero_mul, Int.add_zero]; omega

theorem inside0 {i stop step : Int} : Inside i stop step 0 ↔ (0 < step ∧ i < stop) ∨ (step < 0 ∧ stop < i) := by
  simp [Inside]

/-- The `end` computed from `stop`. -/
def finOf (stop step : Int) : Int := stop - if step > 0 then 1 else 0

theorem fits_fin {w : Nat} {start stop step : Int} (hs : step ≠ 0) (hf : Fits w start stop step) :
    sig w (finOf stop step) = some (finOf stop step) := by
  unfold finOf
  by_cases h : 0 < step
  · have := hf.up h
    rw [if_pos h]
    exact sig_ok (by omega) (by omega)
  · have := hf.down (by omega)
    rw [if_neg h]
    exact sig_ok (by omega) (by omega)

theorem goOn {i stop step : Int} (hs : step ≠ 0) : (decide (step > 0) = decide (i ≤ finOf stop step)) ↔ Inside i stop step 0 := by
  rw [inside0]
  unfold finOf
  by_cases h : 0 < step
  · simp [h]; omega
  · simp [h]; omega

theorem fits_next {w : Nat} {i stop step : Int} (hf : Fits w i stop step) (hi : Inside i stop step 0) :
    sig w (i + step) = some (i + step) ∧ Fits w (i + step) stop step := by
  rw [inside0] at hi
  have h1 := hf.start1
  have h2 := hf.start2
  have h : -((2 : Int) ^ (w - 1)) ≤ i + step ∧ i + step < 2 ^ (w - 1) := by
    rcases hi with ⟨a, b⟩ | ⟨a, b⟩
    · have := hf.up a; omega
    · have := hf.down a; omega
  exact ⟨sig_ok h.1 h.2, ⟨h.1, h.2, hf.up, hf.down⟩⟩

theorem range5Loop_spec {w : Nat} {stop step : Int} (hs : step ≠ 0) : ∀ (f : Nat) (i : Int), Fits w i stop step →
    (stop - i).natAbs < f → ∃ xs, range5Loop w (finOf stop step) step f i = some xs ∧ IsRange i stop step xs := by
  intro f
  induction f with
  | zero => intro i _ h; omega
  | succ f ih =>
    intro i hf hm
    by_cases hi : Inside i stop step 0
    · obtain ⟨h1, h2⟩ := fits_next hf hi
      by_cases hn : Inside (i + step) stop step 0
      · obtain ⟨xs, e, hx⟩ := ih (i + step) h2 (by
          rw [inside0] at hi hn; omega)
        refine ⟨i :: xs, ?_, range_cons hx hi⟩
        rw [range5Loop, if_pos ((goOn hs).2 hi)]
        simp only [h1, e, Option.bind_eq_bind, Option.bind_some]
      · have hf0 : 0 < f := by rw [inside0] at hi; omega
        refine ⟨[i], ?_, range_cons (range_nil hs hn) hi⟩
        obtain ⟨g, rfl⟩ : ∃ g, f = g + 1 := ⟨f - 1, by omega⟩
        rw [range5Loop, if_pos ((goOn hs).2 hi)]
        have : range5Loop w (finOf stop step) step (g + 1) (i + step) = some [] := by
          rw [range5Loop, if_neg (fun h => hn ((goOn hs).1 h))]
        simp only [h1, this, Option.bind_eq_bind, Option.bind_some]
    · refine ⟨[], ?_, range_nil hs hi⟩
      rw [range5Loop, if_neg (fun h => hi ((goOn hs).1 h))]

theorem range4_spec {w : Nat} {stop : Int} : ∀ (f : Nat) (i : Int), Fits w i stop 1 →
    (stop - i).natAbs < f → ∃ xs, range4 w stop f i = some xs ∧ IsRange i stop 1 xs := by
  intro f
  induction f with
  | zero => intro i _ h; omega
  | succ f ih =>
    intro i hf hm
    by_cases hi : Inside i stop 1 0
    · obtain ⟨h1, h2⟩ := fits_next hf hi
      have hi' := hi
      rw [inside0] at hi'
      obtain ⟨xs, e, hx⟩ := ih (i + 1) h2 (by omega)
      refine ⟨i :: xs, ?_, range_cons hx hi⟩
      rw [range4, if_pos (by omega)]
      simp only [h1, e, Option.bind_eq_bind, Option.bind_some]
    · refine ⟨[], ?_, range_nil (by decide) hi⟩
      rw [inside0] at hi
      rw [range4, if_neg (by omega)]

theorem stop_iff {v stop step : Int} (hs : step ≠ 0) : (decide (step > 0) = decide (v > finOf stop step)) ↔ ¬ Inside v stop step 0 := by
  rw [inside0]
  unfold finOf
  by_cases h : 0 < step
  · simp [h]; omega
  · simp [h]; omega

theorem rangeNext_spec {w : Nat} {v stop step : Int} (hs : step ≠ 0) (hf : Fits w v stop step) (hv : Inside v stop step 0) :
    rangeNext w ⟨some v, finOf stop step, step⟩ =
      some ⟨if Inside (v + step) stop step 0 then some (v + step) else none, finOf stop step, step⟩ := by
  obtain ⟨h1, _⟩ := fits_next hf hv
  simp only [rangeNext, h1, Option.bind_eq_bind, Option.bind_some]
  by_cases h : Inside (v + step) stop step 0
  · rw [if_neg (fun h' => (stop_iff hs).1 h' h), if_pos h]
  · rw [if_pos ((stop_iff hs).2 h), if_neg h]

theorem rangeEach_spec {w : Nat} {stop step : Int} (hs : step ≠ 0) : ∀ (n : Nat) (v : Int), Fits w v stop step →
    (stop - v).natAbs ≤ n → Inside v stop step 0 →
    ∃ xs, Yields (rangeWalker w) ⟨some v, finOf stop step, step⟩ xs ∧ IsRange v stop step xs := by
  intro n
  induction n with
  | zero => intro v _ h hi; rw [inside0] at hi; omega
  | succ n ih =>
    intro v hf hm hv
    have hn := rangeNext_spec hs hf hv
    obtain ⟨_, h2⟩ := fits_next hf hv
    by_cases h : Inside (v + step) stop step 0
    · rw [if_pos h] at hn
      obtain ⟨xs, hy, hx⟩ := ih (v + step) h2 (by rw [inside0] at hv h; omega) h
      exact ⟨v :: xs, .cons _ _ 0 v xs rfl rfl hn hy, range_cons hx hv⟩
    · rw [if_neg h] at hn
      exact ⟨[v], .cons _ _ 0 v [] rfl rfl hn (.nil _ rfl), range_cons (range_nil hs h) hv⟩

/-! ### walking -/

theorem Path.yields {W : Walker ι α} {it e : ι} {l : List (ι × α)} (h : Path W it l e) (he : W.ref e = none) : Yields W it (l.map Prod.snd) := by
  induction h with
  | nil it => exact .nil it he
  | cons it it' e r x l h1 h2 h3 p ih => exact .cons it it' r x _ h1 h2 h3 (ih he)

theorem yields_path {W : Walker ι α} {it : ι} {xs : List α} (h : Yields W it xs) : ∃ l e, Path W it l e ∧ W.ref e = none ∧ l.map Prod.snd = xs := by
  induction h with
  | nil it h => exact ⟨[], it, .nil it, h, rfl⟩
  | cons it it' r x xs h1 h2 h3 _ ih =>
    obtain ⟨l, e, p1, p2, p3⟩ := ih
    exact ⟨_, e, .cons it it' e r x l h1 h2 h3 p1, p2, by rw [List.map_cons, p3]⟩

theorem each_yields {W : Walker ι α} {it : ι} {xs : List α} (h : Yields W it xs) : ∀ f, xs.length < f → eachLoop W f it = some xs := by
  induction h with
  | nil it h =>
    intro f hf
    obtain ⟨f, rfl⟩ : ∃ g, f = g + 1 := ⟨f - 1, by omega⟩
    rw [eachLoop, h]
  | cons it it' r x xs h1 h2 h3 _ ih =>
    intro f hf
    obtain ⟨f, rfl⟩ : ∃ g, f = g + 1 := ⟨f - 1, by omega⟩
    have := ih f (by simp at hf; omega)
    rw [eachLoop, h1]
    simp only [h2, h3, this, Option.bind_eq_bind, Option.bind_some]

theorem yields_each {W : Walker ι α} : ∀ {f : Nat} {it : ι} {xs : List α}, eachLoop W f it = some xs → Yields W it xs := by
  intro f
  induction f with
  | zero => intro it xs h; cases h
  | succ f ih =>
    intro it xs h
    rw [eachLoop] at h
    cases hr : W.ref it with
    | none => rw [hr] at h; cases h; exact .nil _ hr
    | some r =>
      rw [hr] at h
      simp only [Option.bind_eq_bind, Option.bind_eq_some_iff] at h
      obtain ⟨x, h1, it', h2, ys, h3, h4⟩ := h
      cases h4
      exact .cons _ _ _ _ _ hr h1 h2 (ih h3)

theorem eachN_yields {W : Walker ι α} {it : ι} {xs : List α} (h : Yields W it xs) (n : Nat) :
    ∀ f k, xs.length < f → eachNLoop W n f k it = some (xs.take (n - k).toNat) := by
  induction h with
  | nil it h =>
    intro f k hf
    obtain ⟨f, rfl⟩ : ∃ g, f = g + 1 := ⟨f - 1, by omega⟩
    rw [eachNLoop, h]; simp
  | cons it it' r x xs h1 h2 h3 _ ih =>
    intro f k hf
    obtain ⟨f, rfl⟩ : ∃ g, f = g + 1 := ⟨f - 1, by omega⟩
    have := ih f (k + 1) (by simp at hf; omega)
    rw [eachNLoop, h1]
    by_cases hk : k < n
    · have e : ((n : Int) - k).toNat = ((n : Int) - (k + 1)).toNat + 1 := by omega
      simp only [hk, if_true, h2, h3, this, Option.bind_eq_bind, Option.bind_some, e, List.take_succ_cons]
    · have e : ((n : Int) - k).toNat = 0 := by omega
      simp only [hk, if_false, e, List.take_zero]

/-- Searching a stretch whose pointers differ from the end pointer. -/
theorem find_path {W : Walker ι α} {endref : Option Nat} {p : α → Bool} {it e : ι} {l : List (ι × α)} (h : Path W it l e) (he : W.ref e = endref)
    (hl : ∀ q ∈ l, W.ref q.1 ≠ endref) : ∀ f, l.length < f → findLoop W endref p f it = some ((l.find? fun q => p q.2).map Prod.fst) := by
  induction h with
  | nil it =>
    intro f hf
    obtain ⟨f, rfl⟩ : ∃ g, f = g + 1 := ⟨f - 1, by omega⟩
    rw [findLoop, if_pos he]; rfl
  | cons it it' e r x l h1 h2 h3 hp ih =>
    intro f hf
    obtain ⟨f, rfl⟩ : ∃ g, f = g + 1 := ⟨f - 1, by omega⟩
    have := ih he (fun q hq => hl q (List.mem_cons_of_mem _ hq)) f (by simp at hf; omega)
    rw [findLoop, if_neg (hl _ List.mem_cons_self)]
    simp only [h2, Option.bind_eq_bind, Option.bind_some]
    cases hx : p x with
    | true => simp [hx]
    | false => simp [hx, h3, this]

theorem path_ref {W : Walker ι α} {it e : ι} {l : List (ι × α)} (h : Path W it l e) : ∀ q ∈ l, W.ref q.1 ≠ none := by
  induction h with
  | nil it => simp
  | cons it it' e r x l h1 h2 h3 hp ih =>
    intro q hq
    rcases List.mem_cons.1 hq with rfl | hq
    · rw [h1]; simp
    · exact ih q hq

theorem find_all {W : Walker ι α} {p : α → Bool} {it : ι} {xs : List α} (h : Yields W it xs) (f : Nat) (hf : xs.length < f) :
    ∃ r, findLoop W none p f it = some r ∧ (r.isSome = xs.any p) ∧ (∀ j, r = some j → W.load j = xs.find? p) := by
  obtain ⟨l, e, hp, he, rfl⟩ := yields_path h
  refine ⟨_, find_path hp he (path_ref hp) f (by simpa using hf), ?_, ?_⟩
  · rw [Option.isSome_map, List.any_map, Bool.eq_iff_iff, List.find?_isSome]
    simp [List.any_eq_true]
  · clear hf h
    induction hp with
    | nil it => simp
    | cons it it' e r x l h1 h2 h3 hp ih =>
      intro j hj
      by_cases hx : p x
      · simp [hx] at hj ⊢; subst hj; exact h2
      · simp only [List.find?_cons, hx, Bool.false_eq_true, if_false, List.map_cons] at hj ⊢
        exact ih he j hj

theorem append_yields {σ β : Type} {W : Walker ι α} {p : α → Bool} {clone : α → β} {push : σ → β → Option σ} {R : σ → List β → Prop}
    (hpush : ∀ s l y, R s l → ∃ s', push s y = some s' ∧ R s' (l ++ [y])) {it : ι} {xs : List α} (h : Yields W it xs) :
    ∀ f s l, xs.length < f → R s l → ∃ s', appendIf W p clone push f it s = some s' ∧ R s' (l ++ (xs.filter p).map clone) := by
  induction h with
  | nil it h =>
    intro f s l hf hr
    obtain ⟨f, rfl⟩ : ∃ g, f = g + 1 := ⟨f - 1, by omega⟩
    refine ⟨s, ?_, by simpa using hr⟩
    rw [appendIf, h]
  | cons it it' r x xs h1 h2 h3 _ ih =>
    intro f s l hf hr
    obtain ⟨f, rfl⟩ : ∃ g, f = g + 1 := ⟨f - 1, by omega⟩
    rw [appendIf, h1]
    simp only [h2, h3, Option.bind_eq_bind, Option.bind_some]
    cases hx : p x with
    | true =>
      obtain ⟨s1, e1, hr1⟩ := hpush s l (clone x) hr
      obtain ⟨s2, e2, hr2⟩ := ih f s1 _ (by simp at hf; omega) hr1
      exact ⟨s2, by simp [e1, e2], by simpa [hx] using hr2⟩
    | false =>
      obtain ⟨s2, e2, hr2⟩ := ih f s l (by simp at hf; omega) hr
      exact ⟨s2, by simp [e2], by simpa [hx] using hr2⟩

theorem zip_yields {ι₁ ι₂ β : Type} {V : Walker ι₁ α} {W : Walker ι₂ β} {i : ι₁} {xs : List α} (h : Yields V i xs) :
    ∀ {j : ι₂} {ys : List β}, Yields W j ys → Yields (zipWalker V W) (i, j) (xs.zip ys) := by
  induction h with
  | nil it h => intro j ys _; exact .nil _ (by simp [zipWalker, h])
  | cons it it' r x xs h1 h2 h3 _ ih =>
    intro j ys hy
    cases hy with
    | nil _ h => exact .nil _ (by simp [zipWalker, h])
    | cons _ j' r' y ys g1 g2 g3 hy =>
      exact .cons _ (it', j') 0 _ _ (by simp [zipWalker, h1, g1]) (by simp [zipWalker, h2, g2]) (by simp [zipWalker, h3, g3]) (ih hy)

end Verif.Algo
