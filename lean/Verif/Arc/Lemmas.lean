import Verif.Arc.Spec
import Mathlib.Data.List.Perm.Basic
import Mathlib.Data.List.Nodup
import Mathlib.Data.List.Pairwise
import Mathlib.Tactic.Common
/- The invariant of shared pointers. -/
namespace Verif.Arc
open Spec
open scoped List
variable {α : Type}

/-! ### counting references -/

def hits (a : Nat) (h : Arc) : Int := if h.use = a then 1 else 0

def optW (a : Nat) : Option Arc → Int
  | some h => hits a h
  | none => 0

def actW (a : Nat) : Act α → Int
  | .inc h => - hits a h
  | .dec h | .set _ h => hits a h
  | _ => 0

def varW (a : Nat) (vs : List (Option Arc)) : Int := (vs.map (optW a)).sum
def todoW (a : Nat) (cs : List (Act α)) : Int := (cs.map (actW a)).sum
def thW (a : Nat) (t : Thread α) : Int := varW a t.vars + todoW a t.todo
def total (s : State α) (a : Nat) : Int := (s.threads.map (thW a)).sum + (s.chan.map (hits a)).sum

theorem hits_nonneg (a : Nat) (h : Arc) : 0 ≤ hits a h := by unfold hits; split <;> omega
theorem hits_self (h : Arc) : hits h.use h = 1 := if_pos rfl
theorem hits_ne {a : Nat} {h : Arc} (e : h.use ≠ a) : hits a h = 0 := if_neg e

theorem sum_nonneg {l : List Int} (h : ∀ x ∈ l, 0 ≤ x) : 0 ≤ l.sum := by
  induction l with
  | nil => simp
  | cons x l ih =>
    rw [List.sum_cons]
    have := h x (by simp)
    have := ih fun y hy => h y (by simp [hy])
    omega

theorem le_sum {l : List Int} (h : ∀ x ∈ l, 0 ≤ x) {x : Int} (hx : x ∈ l) : x ≤ l.sum := by
  induction l with
  | nil => cases hx
  | cons y l ih =>
    rw [List.sum_cons]
    have h1 := h y (by simp)
    have h2 := sum_nonneg (l := l) fun z hz => h z (by simp [hz])
    rcases List.mem_cons.1 hx with rfl | hx
    · omega
    · have := ih (fun z hz => h z (by simp [hz])) hx
      omega

theorem optW_nonneg (a : Nat) (o : Option Arc) : 0 ≤ optW a o := by
  cases o with
  | none => simp [optW]
  | some h => exact hits_nonneg a h

theorem varW_nonneg (a : Nat) (vs : List (Option Arc)) : 0 ≤ varW a vs :=
  sum_nonneg fun x hx => by
    obtain ⟨o, _, rfl⟩ := List.mem_map.1 hx
    exact optW_nonneg a o

theorem varW_pos {vs : List (Option Arc)} {h : Arc} (hm : some h ∈ vs) : 1 ≤ varW h.use vs := by
  have := le_sum (l := vs.map (optW h.use)) (fun x hx => by
    obtain ⟨o, _, rfl⟩ := List.mem_map.1 hx
    exact optW_nonneg _ o) (List.mem_map.2 ⟨some h, hm, rfl⟩)
  unfold varW
  simpa [optW, hits_self] using this

theorem varW_set (a : Nat) : ∀ (vs : List (Option Arc)) (x : Nat) (o o' : Option Arc), vs[x]? = some o → varW a (vs.set x o') = varW a vs - optW a o + optW a o' := by
  intro vs
  induction vs with
  | nil => intro x o o' h; simp at h
  | cons v vs ih =>
    intro x o o' h
    cases x with
    | zero =>
      simp at h; subst h
      simp [varW]; omega
    | succ x =>
      have := ih x o o' (by simpa using h)
      simp only [varW, List.set_cons_succ, List.map_cons, List.sum_cons] at this ⊢
      omega

/-! ### shapes of calls in progress -/

def frees (bs : List (Nat × Nat)) : List (Act α) := bs.map fun b => .free b.1 b.2

/-- The last step of a call. -/
inductive Tail (vs : List (Option Arc)) : List (Act α) → Prop
  | nil : Tail vs []
  | set (x : Nat) (h : Arc) : vs[x]? = some none → Tail vs [.set x h]
  | ctl (x p : Nat) : vs[x]? = some none → Tail vs [.ctl x p]

/-- At most one decrement, then the last step. -/
inductive Tail1 (vs : List (Option Arc)) : List (Act α) → Prop
  | tail (r : List (Act α)) : Tail vs r → Tail1 vs r
  | dec (h : Arc) (r : List (Act α)) : h.use ≠ 0 → Tail vs r → Tail1 vs (.dec h :: r)

inductive Shape (L : Layout) (vs : List (Option Arc)) : List (Act α) → Prop
  | tail (r : List (Act α)) : Tail1 vs r → Shape L vs r
  | inc (h : Arc) (r : List (Act α)) : h.use ≠ 0 → Tail1 vs r → 1 ≤ varW h.use vs + todoW h.use (.inc h :: r) → Shape L vs (.inc h :: r)
  | kdrop (g : Nat) (bs : List (Nat × Nat)) (r : List (Act α)) : (∃ b ∈ bs, b.1 ≤ g ∧ g + L.sz ≤ b.1 + b.2) → Tail vs r →
      Shape L vs (.kdrop g :: (frees bs ++ r))
  | frees (bs : List (Nat × Nat)) (r : List (Act α)) : Tail vs r → Shape L vs (frees bs ++ r)
  | make (x : Nat) (v : α) : vs[x]? = some none → Shape L vs [.make x v]
  | raw (v : α) : Shape L vs [.raw v]
  | read (x : Nat) (h : Arc) : vs[x]? = some (some h) → h.use ≠ 0 → Shape L vs [.read x]
  | count (x : Nat) (h : Arc) : vs[x]? = some (some h) → h.use ≠ 0 → Shape L vs [.count x]

def actRefs : Act α → List Arc
  | .inc h | .dec h | .set _ h => [h]
  | _ => []

/-- All handles a thread has. -/
def mentions (t : Thread α) : List Arc := t.vars.filterMap id ++ t.todo.flatMap actRefs

def actBlocks (L : Layout) : Act α → List (Nat × Nat)
  | .free p n => [(p, n)]
  | .ctl _ p => if p ≠ 0 then [(p, L.sz)] else []
  | _ => []

def actVals : Act α → List Nat
  | .kdrop g => [g]
  | .ctl _ p => if p ≠ 0 then [p] else []
  | _ => []

/-- The blocks and values a thread is about to release or use. -/
def tblocks (L : Layout) (t : Thread α) : List (Nat × Nat) := t.todo.flatMap (actBlocks L)
def tvals (t : Thread α) : List Nat := t.todo.flatMap actVals

theorem todoW_cons (a : Nat) (c : Act α) (cs : List (Act α)) : todoW a (c :: cs) = actW a c + todoW a cs := by simp [todoW]
theorem todoW_append (a : Nat) (cs ds : List (Act α)) : todoW a (cs ++ ds) = todoW a cs + todoW a ds := by simp [todoW]
theorem todoW_frees (a : Nat) (bs : List (Nat × Nat)) : todoW a (frees bs : List (Act α)) = 0 := by
  induction bs with
  | nil => rfl
  | cons b bs ih => simpa [frees, todoW, actW] using ih

theorem frees_refs (bs : List (Nat × Nat)) : (frees bs : List (Act α)).flatMap actRefs = [] := by
  induction bs with
  | nil => rfl
  | cons b bs ih => simpa [frees, actRefs] using ih

theorem frees_blocks (L : Layout) (bs : List (Nat × Nat)) : (frees bs : List (Act α)).flatMap (actBlocks L) = bs := by
  induction bs with
  | nil => rfl
  | cons b bs ih => simpa [frees, actBlocks] using ih

theorem frees_vals (bs : List (Nat × Nat)) : (frees bs : List (Act α)).flatMap actVals = [] := by
  induction bs with
  | nil => rfl
  | cons b bs ih => simpa [frees, actVals] using ih

theorem Tail.nonneg {vs : List (Option Arc)} {r : List (Act α)} (h : Tail vs r) (a : Nat) : 0 ≤ todoW a r := by
  cases h with
  | nil => simp [todoW]
  | set x h _ => simpa [todoW, actW] using hits_nonneg a h
  | ctl x p _ => simp [todoW, actW]

theorem Tail.pos {vs : List (Option Arc)} {r : List (Act α)} (h : Tail vs r) {k : Arc} (hk : k ∈ r.flatMap actRefs) : 1 ≤ todoW k.use r := by
  cases h with
  | nil => simp at hk
  | set x h _ => simp [actRefs] at hk; subst hk; simp [todoW, actW, hits_self]
  | ctl x p _ => simp [actRefs] at hk

theorem Tail1.nonneg {vs : List (Option Arc)} {r : List (Act α)} (h : Tail1 vs r) (a : Nat) : 0 ≤ todoW a r := by
  cases h with
  | tail _ h => exact h.nonneg a
  | dec h r _ hr =>
    rw [todoW_cons]
    have := hr.nonneg a
    have := hits_nonneg a h
    simp only [actW]; omega

theorem Tail1.pos {vs : List (Option Arc)} {r : List (Act α)} (h : Tail1 vs r) {k : Arc} (hk : k ∈ r.flatMap actRefs) : 1 ≤ todoW k.use r := by
  cases h with
  | tail _ h => exact h.pos hk
  | dec h r _ hr =>
    rw [List.flatMap_cons, List.mem_append] at hk
    rw [todoW_cons]
    simp only [actW]
    rcases hk with hk | hk
    · simp [actRefs] at hk; subst hk
      have := hr.nonneg k.use
      rw [hits_self]; omega
    · have := hr.pos hk
      have := hits_nonneg k.use h
      omega

theorem Shape.nonneg {L : Layout} {t : Thread α} (h : Shape L t.vars t.todo) (a : Nat) : 0 ≤ thW a t := by
  have hv := varW_nonneg a t.vars
  unfold thW
  generalize t.todo = r at h
  cases h with
  | tail _ h => have := h.nonneg a; omega
  | inc h r h0 hr hw =>
    by_cases e : h.use = a
    · subst e; omega
    · rw [todoW_cons]; simp only [actW, hits_ne e]
      have := hr.nonneg a; omega
  | kdrop g bs r _ hr =>
    rw [todoW_cons, todoW_append, todoW_frees]
    have := hr.nonneg a
    simp only [actW]; omega
  | frees bs r hr =>
    rw [todoW_append, todoW_frees]
    have := hr.nonneg a; omega
  | make x v _ => simpa [todoW, actW] using hv
  | raw v => simpa [todoW, actW] using hv
  | read x h _ _ => simpa [todoW, actW] using hv
  | count x h _ _ => simpa [todoW, actW] using hv

theorem Shape.pos {L : Layout} {t : Thread α} (h : Shape L t.vars t.todo) {k : Arc} (hk : k ∈ mentions t) : 1 ≤ thW k.use t := by
  unfold mentions at hk
  rw [List.mem_append] at hk
  by_cases hv : some k ∈ t.vars
  · have h1 := varW_pos hv
    unfold thW
    generalize t.todo = r at h
    cases h with
    | tail _ h => have := h.nonneg k.use; omega
    | inc h r h0 hr hw =>
      by_cases e : h.use = k.use
      · rw [← e]; exact hw
      · rw [todoW_cons]; simp only [actW, hits_ne e]
        have := hr.nonneg k.use; omega
    | kdrop g bs r _ hr =>
      rw [todoW_cons, todoW_append, todoW_frees]
      have := hr.nonneg k.use
      simp only [actW]; omega
    | frees bs r hr =>
      rw [todoW_append, todoW_frees]
      have := hr.nonneg k.use; omega
    | make x v _ => simpa [todoW, actW] using h1
    | raw v => simpa [todoW, actW] using h1
    | read x h _ _ => simpa [todoW, actW] using h1
    | count x h _ _ => simpa [todoW, actW] using h1
  · have hk : k ∈ t.todo.flatMap actRefs := by
      rcases hk with hk | hk
      · exfalso; apply hv; simpa using hk
      · exact hk
    have hv := varW_nonneg k.use t.vars
    unfold thW
    generalize t.todo = r at h hk
    cases h with
    | tail _ h => have := h.pos hk; omega
    | inc h r h0 hr hw =>
      by_cases e : h.use = k.use
      · rw [← e]; exact hw
      · rw [List.flatMap_cons, List.mem_append] at hk
        rcases hk with hk | hk
        · simp [actRefs] at hk; exact absurd (by rw [hk]) e
        · rw [todoW_cons]; simp only [actW, hits_ne e]
          have := hr.pos hk; omega
    | kdrop g bs r _ hr =>
      rw [List.flatMap_cons, List.flatMap_append, frees_refs] at hk
      rw [todoW_cons, todoW_append, todoW_frees]
      have := hr.pos (by simpa [actRefs] using hk)
      simp only [actW]; omega
    | frees bs r hr =>
      rw [List.flatMap_append, frees_refs, List.nil_append] at hk
      rw [todoW_append, todoW_frees]
      have := hr.pos hk; omega
    | make x v _ => simp [actRefs] at hk
    | raw v => simp [actRefs] at hk
    | read x h _ _ => simp [actRefs] at hk
    | count x h _ _ => simp [actRefs] at hk

/-! ### the invariant -/

/-- The blocks of an object. -/
def objBlocks (L : Layout) (h : Arc) : List (Nat × Nat) :=
  if h.use + L.off = h.get then [(h.use, L.rep)] else [(h.use, L.off + 4), (h.get, L.sz)]

def Ref (O : List Arc) (h : Arc) : Prop := h.use = 0 ∨ h ∈ O

structure Inv (L : Layout) (s : State α) (O : List Arc) : Prop where
  blk : s.mem.blocks ~ O.flatMap (objBlocks L) ++ s.threads.flatMap (tblocks L) ++ s.raws.map fun p => (p, L.sz)
  dis : s.mem.blocks.Pairwise Apart
  pos : ∀ b ∈ s.mem.blocks, b.1 ≠ 0
  val : s.mem.vals.map Prod.fst ~ O.map Arc.get ++ s.threads.flatMap tvals ++ s.raws
  nod : (s.mem.vals.map Prod.fst).Nodup
  cnt : ∀ h ∈ O, s.mem.cnt h.use = total s h.use ∧ 1 ≤ total s h.use
  uniq : O.Pairwise fun h k => h.use ≠ k.use
  shape : ∀ t ∈ s.threads, Shape L t.vars t.todo
  ref : ∀ t ∈ s.threads, ∀ h ∈ mentions t, Ref O h
  chan : ∀ h ∈ s.chan, Ref O h

variable {L : Layout}

theorem obj_use (h : Arc) : ∃ n, (h.use, n) ∈ objBlocks L h ∧ (n = L.rep ∨ n = L.off + 4) := by
  unfold objBlocks
  split
  · exact ⟨_, by simp, .inl rfl⟩
  · exact ⟨_, by simp, .inr rfl⟩

theorem obj_get (hp : Proper L) (h : Arc) : ∃ b ∈ objBlocks L h, b.1 ≤ h.get ∧ h.get + L.sz ≤ b.1 + b.2 := by
  unfold objBlocks
  have := hp.rep
  split
  · rename_i e
    exact ⟨(h.use, L.rep), by simp, by simp only; omega, by simp only; omega⟩
  · exact ⟨(h.get, L.sz), by simp, by simp only; omega, by simp only; omega⟩

theorem covers_of {m : Mem α} {b : Nat × Nat} (hb : b ∈ m.blocks) {a n : Nat} (h1 : b.1 ≤ a) (h2 : a + n ≤ b.1 + b.2) : m.covers a n = true := by
  rw [Mem.covers, List.any_eq_true]
  exact ⟨b, hb, by simp [h1, h2]⟩

theorem Inv.objMem {s : State α} {O : List Arc} (i : Inv L s O) {h : Arc} (hh : h ∈ O) {b : Nat × Nat} (hb : b ∈ objBlocks L h) : b ∈ s.mem.blocks := by
  rw [i.blk.mem_iff]
  simp only [List.mem_append, List.mem_flatMap]
  exact .inl (.inl ⟨h, hh, hb⟩)

theorem Inv.useNe {s : State α} {O : List Arc} (i : Inv L s O) {h : Arc} (hh : h ∈ O) : h.use ≠ 0 := by
  obtain ⟨n, h1, _⟩ := obj_use (L := L) h
  exact i.pos _ (i.objMem hh h1)

theorem Inv.useCovers {s : State α} {O : List Arc} (i : Inv L s O) (hp : Proper L) {h : Arc} (hh : h ∈ O) : s.mem.covers h.use 8 = true := by
  obtain ⟨n, h1, h2⟩ := obj_use (L := L) h
  have := hp.off
  have := hp.rep
  refine covers_of (i.objMem hh h1) (Nat.le_refl _) ?_
  rcases h2 with rfl | rfl <;> simp only <;> omega

theorem Inv.same {s : State α} {O : List Arc} (i : Inv L s O) {h k : Arc} (hh : h ∈ O) (hk : k ∈ O) (e : h.use = k.use) : h = k := by
  by_contra hne
  haveI : Std.Symm (fun h k : Arc => h.use ≠ k.use) := ⟨fun _ _ h => Ne.symm h⟩
  exact List.Pairwise.forall i.uniq hh hk hne e

theorem tail_vals_covered {vs : List (Option Arc)} {r : List (Act α)} (h : Tail vs r) {g : Nat} (hg : g ∈ r.flatMap actVals) :
    ∃ b ∈ r.flatMap (actBlocks L), b.1 ≤ g ∧ g + L.sz ≤ b.1 + b.2 := by
  cases h with
  | nil => simp at hg
  | set x h _ => simp [actVals] at hg
  | ctl x p _ =>
    by_cases hp : p = 0
    · subst hp; simp [actVals] at hg
    · simp [actVals, hp] at hg
      subst hg
      exact ⟨(g, L.sz), by simp [actBlocks, hp], Nat.le_refl _, Nat.le_refl _⟩

theorem shape_vals_covered {t : Thread α} (h : Shape L t.vars t.todo) {g : Nat} (hg : g ∈ tvals t) :
    ∃ b ∈ tblocks L t, b.1 ≤ g ∧ g + L.sz ≤ b.1 + b.2 := by
  unfold tvals at hg
  unfold tblocks
  have t1 : ∀ {r : List (Act α)}, Tail1 t.vars r → g ∈ r.flatMap actVals → ∃ b ∈ r.flatMap (actBlocks L), b.1 ≤ g ∧ g + L.sz ≤ b.1 + b.2 := by
    intro r hr hg
    cases hr with
    | tail _ h => exact tail_vals_covered h hg
    | dec h r _ hr =>
      obtain ⟨b, h1, h2⟩ := tail_vals_covered (L := L) hr (g := g) (by simpa [actVals] using hg)
      exact ⟨b, by simpa [actBlocks] using h1, h2⟩
  generalize t.todo = r at h hg
  cases h with
  | tail _ h => exact t1 h hg
  | inc h r h0 hr hw =>
    obtain ⟨b, h1, h2⟩ := t1 hr (by simpa [actVals] using hg)
    exact ⟨b, by simpa [actBlocks] using h1, h2⟩
  | kdrop g' bs r hc hr =>
    rw [List.flatMap_cons, List.flatMap_append, frees_vals] at hg
    rw [List.flatMap_cons, List.flatMap_append, frees_blocks]
    simp only [actVals, List.singleton_append, List.nil_append, List.mem_cons] at hg
    rcases hg with rfl | hg
    · obtain ⟨b, hb, h1⟩ := hc
      exact ⟨b, by simp [actBlocks, hb], h1⟩
    · obtain ⟨b, h1, h2⟩ := tail_vals_covered (L := L) hr hg
      exact ⟨b, by simp only [List.mem_append]; exact .inr (.inr h1), h2⟩
  | frees bs r hr =>
    rw [List.flatMap_append, frees_vals, List.nil_append] at hg
    rw [List.flatMap_append, frees_blocks]
    obtain ⟨b, h1, h2⟩ := tail_vals_covered (L := L) hr hg
    exact ⟨b, by simp only [List.mem_append]; exact .inr h1, h2⟩
  | make x v _ => simp [actVals] at hg
  | raw v => simp [actVals] at hg
  | read x h _ _ => simp [actVals] at hg
  | count x h _ _ => simp [actVals] at hg

/-- Every live value is in an allocated block. -/
theorem Inv.covered {s : State α} {O : List Arc} (i : Inv L s O) (hp : Proper L) {g : Nat} (hg : g ∈ s.mem.vals.map Prod.fst) :
    ∃ b ∈ s.mem.blocks, b.1 ≤ g ∧ g + L.sz ≤ b.1 + b.2 := by
  rw [i.val.mem_iff] at hg
  simp only [List.mem_append, List.mem_map, List.mem_flatMap] at hg
  rcases hg with (⟨h, hh, rfl⟩ | ⟨t, ht, hg⟩) | hg
  · obtain ⟨b, h1, h2⟩ := obj_get hp h
    exact ⟨b, i.objMem hh h1, h2⟩
  · obtain ⟨b, h1, h2⟩ := shape_vals_covered (i.shape t ht) hg
    refine ⟨b, ?_, h2⟩
    rw [i.blk.mem_iff]
    simp only [List.mem_append, List.mem_flatMap]
    exact .inl (.inr ⟨t, ht, h1⟩)
  · refine ⟨(g, L.sz), ?_, Nat.le_refl _, Nat.le_refl _⟩
    rw [i.blk.mem_iff]
    simp only [List.mem_append, List.mem_map]
    exact .inr ⟨g, hg, rfl⟩

theorem Inv.freshVal {s : State α} {O : List Arc} (i : Inv L s O) (hp : Proper L) {a n g : Nat} (hf : Fresh s.mem (a, n)) (h1 : a ≤ g) (h2 : g + L.sz ≤ a + n) :
    g ∉ s.mem.vals.map Prod.fst := by
  intro hg
  obtain ⟨b, hb, h3, h4⟩ := i.covered hp hg
  have := hp.sz
  have h5 := hf.2 b hb
  unfold Apart at h5
  simp only at h5
  omega

theorem Inv.freshUse {s : State α} {O : List Arc} (i : Inv L s O) (hp : Proper L) {a n : Nat} (hf : Fresh s.mem (a, n)) (hn : 0 < n) {h : Arc} (hh : h ∈ O) : h.use ≠ a := by
  intro e
  obtain ⟨k, h1, h2⟩ := obj_use (L := L) h
  have h5 := hf.2 _ (i.objMem hh h1)
  have := hp.off
  have := hp.rep
  have := hp.sz
  unfold Apart at h5
  simp only at h5
  rcases h2 with rfl | rfl <;> omega

theorem split {β : Type} {l : List β} {i : Nat} {t : β} (h : l[i]? = some t) : ∃ A B, l = A ++ t :: B ∧ ∀ t', l.set i t' = A ++ t' :: B := by
  obtain ⟨hi, rfl⟩ := List.getElem?_eq_some_iff.1 h
  refine ⟨l.take i, l.drop (i + 1), ?_, fun t' => List.set_eq_take_append_cons_drop .. |>.trans (if_pos hi)⟩
  rw [← List.drop_eq_getElem_cons hi, List.take_append_drop]

end Verif.Arc
