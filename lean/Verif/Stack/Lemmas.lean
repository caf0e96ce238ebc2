import Verif.Stack.Spec
import Verif.Vec.Lemmas
namespace Verif.Stack
open Vec (Rep)
variable {α : Type}

/-- Invariant: the vec invariant, and for the fixed variant the block is the inline array. -/
structure Inv (fixed : Option Nat) (s : Stack α) (l : List α) : Prop where
  rep : Rep s l
  fix : ∀ n, fixed = some n → s.cap = n ∧ s.data.isSome

theorem inv_init (fixed : Option Nat) (h : fixed ≠ some 0) : Inv fixed (init fixed : Stack α) [] := by
  cases fixed with
  | none => exact ⟨⟨rfl, fun _ => ⟨rfl, rfl⟩, fun _ h => by simp [init] at h⟩, by simp⟩
  | some n =>
    refine ⟨⟨rfl, by simp [init], ?_⟩, by simp [init]⟩
    intro b hb
    simp [init] at hb
    subst hb
    have : n ≠ 0 := by intro h0; simp [h0] at h
    simp [init, this]

theorem reserve_spec {fixed : Option Nat} {s : Stack α} {l : List α} (h : Inv fixed s l) (ok : Bool)
    (c : Nat) :
    Inv fixed (reserve fixed ok s c).1 l ∧ (reserve fixed ok s c).1.dropped = s.dropped ∧
    ((reserve fixed ok s c).2 = true → c ≤ (reserve fixed ok s c).1.cap ∧
      (reserve fixed ok s c).1.data ≠ none) ∧
    ((reserve fixed ok s c).2 = false → (reserve fixed ok s c).1 = s ∧
      match fixed with
      | some n => n < c
      | none => ok = true → c = 0) := by
  cases fixed with
  | none =>
    obtain ⟨h1, h2, h3, h4, h5⟩ := Vec.reserve_spec h.rep ok c
    have : reserve none ok s c = Vec.reserve ok s c := rfl
    rw [this]
    exact ⟨⟨h1, by simp⟩, h2, h4, h5⟩
  | some n =>
    obtain ⟨h1, h2⟩ := h.fix n rfl
    refine ⟨h, rfl, ?_, ?_⟩
    · simp only [reserve, decide_eq_true_eq]
      intro hc
      exact ⟨by omega, by intro hn; simp [hn] at h2⟩
    · simp [reserve]

theorem capacity_eq {fixed : Option Nat} {s : Stack α} {l : List α} (h : Inv fixed s l) :
    capacity fixed s = s.cap := by
  cases fixed with
  | none => rfl
  | some n => simp [capacity, (h.fix n rfl).1]

theorem write_spec {fixed : Option Nat} {s : Stack α} {l : List α} (h : Inv fixed s l) (arr : List α)
    (hc : l.length + arr.length ≤ s.cap) (hd : s.data ≠ none) :
    ∃ b b', s.data = some b ∧ b.cpy s.size arr = some b' ∧ l.length + arr.length ≤ b.length ∧
      Inv fixed { s with data := some b', size := s.size + arr.length } (l ++ arr) := by
  cases hs : s.data with
  | none => exact absurd hs hd
  | some b =>
    obtain ⟨h1, h2, h3⟩ := h.rep.blk b hs
    have hz := h.rep.size
    refine ⟨b, _, rfl, by rw [Buf.cpy, if_pos (by omega)], by omega, ?_, ?_⟩
    · refine ⟨by simp [hz], by simp, ?_⟩
      intro c hc'
      simp only [Option.some.injEq] at hc'
      subst hc'
      refine ⟨by simp; omega, ?_, h3⟩
      rw [hz, List.take_append_of_le_length (by simp; omega), List.take_of_length_le (by simp; omega), h2]
      simp
    · intro n hn
      exact ⟨(h.fix n hn).1, rfl⟩

theorem push_spec {fixed : Option Nat} {s : Stack α} {l : List α} (h : Inv fixed s l) (ok : Bool)
    (x : α) :
    ∃ s' r, push fixed ok s x = some (s', r) ∧ s'.dropped = s.dropped ∧
      (r = true → Inv fixed s' (l ++ [x]) ∧ ∀ n, fixed = some n → l.length < n) ∧
      (r = false → s' = s ∧
        match fixed with
        | some n => l.length = n
        | none => ok = false) := by
  have hz := h.rep.size
  have hle := h.rep.le_cap
  have key : ∀ w : Stack α, Inv fixed w l → w.dropped = s.dropped → l.length < w.cap →
      ∃ s', (do
        let b ← w.data
        let b ← b.wr w.size x
        some ({ w with data := some b, size := w.size + 1 }, true)) = some (s', true) ∧
        s'.dropped = s.dropped ∧ Inv fixed s' (l ++ [x]) := by
    intro w hw hdr hlt
    obtain ⟨b, b', e1, e2, e3, e4⟩ := write_spec hw [x] (by simp; omega) (by
      intro hn; have := (hw.rep.null hn).1; omega)
    have hwr : b.wr w.size x = some b' := by
      rw [← e2]
      simp only [List.length_singleton] at e3
      have hwz := hw.rep.size
      rw [Buf.wr, Buf.cpy, if_pos (by omega), if_pos (by simp; omega)]
      rw [List.set_eq_take_append_cons_drop, if_pos (by omega)]
      simp
    exact ⟨{ w with data := some b', size := w.size + 1 },
      by simp only [e1, hwr, Option.bind_eq_bind, Option.bind_some], hdr, e4⟩
  unfold push
  rw [capacity_eq h]
  by_cases hc : s.size = s.cap
  · rw [if_pos hc]
    obtain ⟨r1, r2, r4, r5⟩ := reserve_spec h ok (s.size * 3 / 2 + 4)
    rcases hr : reserve fixed ok s (s.size * 3 / 2 + 4) with ⟨w, b⟩
    rw [hr] at r1 r2 r4 r5
    simp only at r1 r2 r4 r5
    cases b
    · refine ⟨w, false, rfl, r2, by simp, fun _ => ⟨(r5 rfl).1, ?_⟩⟩
      have := (r5 rfl).2
      cases fixed with
      | none =>
        cases ok
        · rfl
        · exact absurd (this rfl) (by omega)
      | some n => have := (h.fix n rfl).1; simp only; omega
    · obtain ⟨s', e1, e2, e3⟩ := key w r1 r2 (by have := (r4 rfl).1; omega)
      refine ⟨s', true, e1, e2, fun _ => ⟨e3, ?_⟩, by simp⟩
      intro n hn
      subst hn
      have h1 := (h.fix n rfl).1
      have h2 := (r1.fix n rfl).1
      have h3 := (r4 rfl).1
      omega
  · rw [if_neg hc]
    obtain ⟨s', e1, e2, e3⟩ := key s h rfl (by omega)
    refine ⟨s', true, e1, e2, fun _ => ⟨e3, ?_⟩, by simp⟩
    intro n hn
    have := (h.fix n hn).1
    omega

theorem append_spec {fixed : Option Nat} {s : Stack α} {l : List α} (h : Inv fixed s l) (ok : Bool)
    (arr : List α) :
    ∃ s' r, append fixed ok s arr = some (s', r) ∧ s'.dropped = s.dropped ∧
      (r = true → Inv fixed s' (l ++ arr)) ∧ (r = false → s' = s) := by
  have hz := h.rep.size
  have hle := h.rep.le_cap
  have key : ∀ w : Stack α, Inv fixed w l → w.dropped = s.dropped → l.length + arr.length ≤ w.cap →
      w.data ≠ none →
      ∃ s', (do
        let b ← w.data
        let b ← b.cpy w.size arr
        some ({ w with data := some b, size := w.size + arr.length }, true)) = some (s', true) ∧
        s'.dropped = s.dropped ∧ Inv fixed s' (l ++ arr) := by
    intro w hw hdr hlt hn
    obtain ⟨b, b', e1, e2, e3, e4⟩ := write_spec hw arr hlt hn
    exact ⟨{ w with data := some b', size := w.size + arr.length },
      by simp only [e1, e2, Option.bind_eq_bind, Option.bind_some], hdr, e4⟩
  unfold append
  rw [capacity_eq h]
  by_cases hc : s.size + arr.length ≥ s.cap
  · rw [if_pos hc]
    obtain ⟨r1, r2, r4, r5⟩ := reserve_spec h ok (s.size * 3 / 2 + arr.length)
    rcases hr : reserve fixed ok s (s.size * 3 / 2 + arr.length) with ⟨w, b⟩
    rw [hr] at r1 r2 r4 r5
    simp only at r1 r2 r4 r5
    cases b
    · exact ⟨w, false, rfl, r2, by simp, fun _ => (r5 rfl).1⟩
    · obtain ⟨s', e1, e2, e3⟩ := key w r1 r2 (by have := (r4 rfl).1; omega) (r4 rfl).2
      exact ⟨s', true, e1, e2, fun _ => e3, by simp⟩
  · rw [if_neg hc]
    obtain ⟨s', e1, e2, e3⟩ := key s h rfl (by omega) (by
      intro hn; have := (h.rep.null hn).1; omega)
    exact ⟨s', true, e1, e2, fun _ => e3, by simp⟩

theorem pop_spec {fixed : Option Nat} {s : Stack α} {l : List α} (h : Inv fixed s l) (hl : l ≠ []) :
    ∃ s', pop s = some s' ∧ Inv fixed s' l.dropLast ∧ s'.dropped = s.dropped ++ [l.getLast hl] := by
  obtain ⟨b, b', hd, hk, hne, hr⟩ := Vec.killLast_spec h.rep hl
  exact ⟨⟨some b', s.size - 1, s.cap, s.dropped ++ [l.getLast hl]⟩,
    by simp [pop, hd, hk, hne], ⟨hr _, fun n hn => ⟨(h.fix n hn).1, rfl⟩⟩, rfl⟩

theorem pull_spec {fixed : Option Nat} {s : Stack α} {l : List α} (h : Inv fixed s l) (hl : l ≠ []) :
    ∃ s', pull s = some (s', l.getLast hl) ∧ Inv fixed s' l.dropLast ∧ s'.dropped = s.dropped := by
  obtain ⟨b, b', hd, hk, hne, hr⟩ := Vec.killLast_spec h.rep hl
  exact ⟨⟨some b', s.size - 1, s.cap, s.dropped⟩,
    by simp [pull, hd, hk, hne], ⟨hr _, fun n hn => ⟨(h.fix n hn).1, rfl⟩⟩, rfl⟩

theorem clear_spec {fixed : Option Nat} {s : Stack α} {l : List α} (h : Inv fixed s l) :
    ∃ s', clear s = some s' ∧ Inv fixed s' [] ∧ s'.dropped = s.dropped ++ l.reverse := by
  unfold clear
  have hs := h.rep.size
  by_cases h0 : s.size = 0
  · have hl : l = [] := List.length_eq_zero_iff.1 (by omega)
    subst hl
    simp [h0, h]
  · have hl : l ≠ [] := by intro h1; simp [h1] at hs; omega
    obtain ⟨b, hd, h1, h2, h3⟩ := h.rep.blk_of_ne hl
    obtain ⟨b', e1, e2⟩ := Vec.dropDown_spec b s.dropped l h2
    rw [← hs] at e1
    refine ⟨⟨some b', 0, s.cap, s.dropped ++ l.reverse⟩, by simp [h0, hd, e1], ⟨⟨rfl, by simp, ?_⟩, ?_⟩, rfl⟩
    · intro c hc
      simp at hc; subst hc
      simp [e2, h1, h3]
    · exact fun n hn => ⟨(h.fix n hn).1, rfl⟩

theorem at_spec {fixed : Option Nat} {s : Stack α} {l : List α} (h : Inv fixed s l) (i : Nat) :
    at' s i = l[i]? := Vec.at_spec h.rep i

theorem top_spec {fixed : Option Nat} {s : Stack α} {l : List α} (h : Inv fixed s l) :
    top s = l.getLast? := by
  have hs := h.rep.size
  unfold top
  by_cases hl : l = []
  · subst hl
    simp [show s.size = 0 by simpa using hs]
  · obtain ⟨b, hd, h1, h2, h3⟩ := h.rep.blk_of_ne hl
    have := List.length_pos_iff.2 hl
    rw [guard_pos (by omega)]
    simp only [hd, Option.bind_eq_bind, Option.bind_some]
    rw [hs, Buf.rd_of_take h2 (by omega), List.getLast?_eq_getElem?]

theorem step_spec {fixed : Option Nat} {s : Stack α} {l : List α} (h : Inv fixed s l) (o : Op α)
    (hv : Spec.valid l o) :
    ∃ s' r x, step fixed s o = some (s', r, x) ∧ Inv fixed s' (Spec.after l r o) ∧
      x = Spec.out l o ∧ s'.dropped = s.dropped ++ Spec.destroyed l o ∧ (r = false → s' = s) := by
  cases o with
  | push ok x =>
    obtain ⟨s', r, e1, e2, e3, e4⟩ := push_spec h ok x
    refine ⟨s', r, none, by simp [step, e1], ?_, rfl, by simp [Spec.destroyed, e2], fun hr => (e4 hr).1⟩
    cases r
    · simpa [Spec.after, (e4 rfl).1] using h
    · simpa [Spec.after] using (e3 rfl).1
  | append ok arr =>
    obtain ⟨s', r, e1, e2, e3, e4⟩ := append_spec h ok arr
    refine ⟨s', r, none, by simp [step, e1], ?_, rfl, by simp [Spec.destroyed, e2], e4⟩
    cases r
    · simpa [Spec.after, e4 rfl] using h
    · simpa [Spec.after] using e3 rfl
  | pop =>
    obtain ⟨s', e1, e2, e3⟩ := pop_spec h hv
    exact ⟨s', true, none, by simp [step, e1], by simpa [Spec.after] using e2, rfl,
      by simp [Spec.destroyed, e3, List.getLast?_eq_some_getLast hv], by simp⟩
  | pull =>
    obtain ⟨s', e1, e2, e3⟩ := pull_spec h hv
    exact ⟨s', true, some _, by simp only [step, e1]; rfl, by simpa [Spec.after] using e2,
      by simp [Spec.out, List.getLast?_eq_some_getLast hv], by simp [Spec.destroyed, e3], by simp⟩
  | reserve ok n =>
    obtain ⟨r1, r2, r4, r5⟩ := reserve_spec h ok n
    exact ⟨(reserve fixed ok s n).1, (reserve fixed ok s n).2, none, rfl, by simpa [Spec.after] using r1, rfl, by simp [Spec.destroyed, r2],
      fun hr => (r5 hr).1⟩
  | shrinkToFit ok =>
    obtain ⟨r1, r2, r4, r5⟩ := reserve_spec h ok s.size
    exact ⟨(reserve fixed ok s s.size).1, true, none, rfl, by simpa [Spec.after] using r1, rfl, by
      simp [Spec.destroyed, r2], by simp⟩
  | clear =>
    obtain ⟨s', e1, e2, e3⟩ := clear_spec h
    exact ⟨s', true, none, by simp [step, e1], by simpa [Spec.after] using e2, rfl,
      by simp [Spec.destroyed, e3], by simp⟩

theorem reach_inv {fixed : Option Nat} (hf : fixed ≠ some 0) {s : Stack α} {l : List α}
    (h : Spec.Reach fixed s l) : Inv fixed s l := by
  induction h with
  | init => exact inv_init fixed hf
  | call _ hv hs ih =>
    obtain ⟨s', r, x, e1, e2, _⟩ := step_spec ih _ hv
    rw [hs] at e1
    simp only [Option.some.injEq, Prod.mk.injEq] at e1
    obtain ⟨rfl, rfl, rfl⟩ := e1
    exact e2

end Verif.Stack
