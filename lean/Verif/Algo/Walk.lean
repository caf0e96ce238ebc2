import Verif.Algo.Erase
import Verif.Hmap.Props
import Verif.Clist.Props
import Verif.Smap.Props
/- The iterators of the containers go over their contents. -/
namespace Verif.Algo
open Spec
variable {ι α : Type}

theorem deque_yields_rbegin {d : Deque.Deque α} {l : List α} (h : Deque.Rep d l) : Yields (dequeRWalker d) (Deque.rbegin d) l.reverse := by
  have key : ∀ f it xs, Deque.revFrom d f it = some xs → Yields (dequeRWalker d) it xs := by
    intro f
    induction f with
    | zero =>
      intro it xs hx
      rw [Deque.revFrom] at hx
      split at hx
      · rename_i hr
        cases hx
        exact .nil _ hr
      · cases hx
    | succ f ih =>
      intro it xs hx
      rw [Deque.revFrom] at hx
      cases hr : it.ref with
      | none =>
        rw [hr] at hx
        cases hx
        exact .nil _ hr
      | some r =>
        rw [hr] at hx
        simp only [Option.bind_eq_bind, Option.bind_eq_some_iff, Option.some.injEq] at hx
        obtain ⟨b, hb, x, hx1, it', hn, ys, hy, rfl⟩ := hx
        exact .cons it it' r x ys hr (by simp [dequeRWalker, hb, hr, hx1]) hn (ih _ _ hy)
  exact key _ _ _ (Deque.eachReverse_spec h l.length (Nat.le_refl _))

theorem hmap_yields {κ ν : Type} {H : Hmap.Hasher κ} {m : Hmap.Map κ ν} {M : Hmap.Spec.FMap κ ν} (h : Hmap.Rep H m M) :
    ∃ it es, Hmap.begin' m = some it ∧ Hmap.each m = some es ∧ Yields (hmapWalker m) it es := by
  have key : ∀ f it xs, Hmap.eachLoop m f it = some xs → Yields (hmapWalker m) it xs := by
    intro f
    induction f with
    | zero =>
      intro it xs hx
      cases it with
      | none => cases hx; exact .nil _ rfl
      | some i => cases hx
    | succ f ih =>
      intro it xs hx
      cases it with
      | none => cases hx; exact .nil _ rfl
      | some i =>
        rw [Hmap.eachLoop] at hx
        simp only [Option.bind_eq_bind, Option.bind_eq_some_iff, Option.some.injEq] at hx
        obtain ⟨c, hc, e, he, it', hn, ys, hy, rfl⟩ := hx
        subst he
        exact .cons (some i) it' i e ys rfl (by simp [hmapWalker, hc]) (by simp [hmapWalker, hn]) (ih _ _ hy)
  obtain ⟨es, he, _⟩ := Hmap.each_spec h
  have he' := he
  simp only [Hmap.each, Option.bind_eq_bind, Option.bind_eq_some_iff] at he'
  obtain ⟨it, h1, h2⟩ := he'
  exact ⟨it, es, h1, he, key _ _ _ h2⟩

theorem smap_yields {κ ν : Type} {cmp : κ → κ → Int} {m : Smap.Map κ ν} : ∀ (S P : List (κ × ν)) (it : Smap.Iter), Smap.Seat cmp m it P S → Yields (smapWalker m) it S := by
  intro S
  induction S with
  | nil => intro P it h; exact .nil _ h.ref_none
  | cons e S ih =>
    intro P it h
    obtain ⟨i, h1, h2⟩ := h.ref_some
    obtain ⟨it', h3, h4⟩ := h.next
    exact .cons it it' i e S h1 (by simp [smapWalker, h1, h2]) h3 (ih _ _ h4)

theorem list_yields {m : Clist.Mem α} {o : Nat} : ∀ (S P : List (Nat × α)) (it : Clist.Iter), Clist.IsList m.heap (m.last o) (P ++ S) → Clist.At P S it →
    it.home = some o → Yields (listWalker m) it (Clist.vals S) := by
  intro S
  induction S with
  | nil => intro P it _ hit _; exact .nil _ hit.1
  | cons x S ih =>
    intro P it i hit ho
    obtain ⟨it', e1, e2, e3⟩ := Clist.next_spec i hit.1 ho
    obtain ⟨n, hx⟩ := i.rd
    refine .cons it it' x.1 x.2 (Clist.vals S) hit.1 ?_ e1 (ih (P ++ [x]) it' (by simpa using i) e2 e3)
    have : it.ref = some x.1 := hit.1
    simp [listWalker, this, hx]

end Verif.Algo
