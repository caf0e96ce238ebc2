import Verif.Alloc.Model
import Mathlib.Tactic.Common

/-! Programs whose statements keep the books balanced, one container type at a time. -/

namespace Verif.Alloc

/-- The blocks of the variables in scope. -/
def owned {K : Kind} (vars : List (Option K.σ)) : List Blk :=
  vars.flatMap fun o => match o with
    | none => []
    | some s => K.fp s

/-- The blocks in use are exactly those of the variables in scope, with the sizes and contexts these will
pass when they free them: nothing is lost, shared or freed too early. -/
def Balanced {K : Kind} (w : World K) : Prop := w.mem.live.Perm (owned w.vars)

/-- Conditions on the statements of a program, which may depend on the values of the variables. -/
structure Rules (K : Kind) where
  new : Nat → Prop
  make : Answers → Nat → Prop
  un : K.σ → Answers → K.Op → Prop
  out : K.σ → Answers → K.Op1 → Prop
  bin : K.σ → K.σ → Answers → K.Op2 → Prop
  take : K.σ → K.σ → Prop
  drop : K.σ → Prop

/-- The statement meets the conditions. -/
def okAct {K : Kind} (R : Rules K) (w : World K) : Act K → Prop
  | .new a => R.new a
  | .mk as n => R.make as n
  | .un i as o => ∀ s, w.get i = some s → R.un s as o
  | .out i as o => ∀ s, w.get i = some s → R.out s as o
  | .bin i j as o => ∀ s t, w.get i = some s → w.get j = some t → R.bin s t as o
  | .take i j => ∀ s t, w.get i = some s → w.get j = some t → R.take s t
  | .drop i => ∀ s, w.get i = some s → R.drop s

/-- Every statement meets the conditions when it is executed. -/
def Obeys {K : Kind} (R : Rules K) : World K → List (Act K) → Prop
  | _, [] => True
  | w, a :: as => okAct R w a ∧ ∀ w', stepW w a = some w' → Obeys R w' as

/-- Each call of a container type keeps the books, whatever other blocks `F` there are; `G` is what may be
assumed of the allocator. -/
structure Lawful (K : Kind) (R : Rules K) (ok : K.σ → Prop) (G : Mem → Prop) : Prop where
  new : ∀ a, R.new a → ok (K.new a) ∧ K.fp (K.new a) = []
  make : ∀ as m n F, G m → R.make as n → m.live.Perm F →
    ∃ m' s, K.make as m n = some (m', s) ∧ ok s ∧ m'.live.Perm (K.fp s ++ F)
  un : ∀ as m s o F, G m → R.un s as o → ok s → m.live.Perm (K.fp s ++ F) →
    ∃ m' s', K.un as m s o = some (m', s') ∧ ok s' ∧ m'.live.Perm (K.fp s' ++ F)
  out : ∀ as m s o F, G m → R.out s as o → ok s → m.live.Perm (K.fp s ++ F) →
    ∃ m' s' t, K.out as m s o = some (m', s', t) ∧ ok s' ∧ ok t ∧ m'.live.Perm (K.fp s' ++ (K.fp t ++ F))
  bin : ∀ as m s t o F, G m → R.bin s t as o → ok s → ok t → m.live.Perm (K.fp s ++ (K.fp t ++ F)) →
    ∃ m' s' t', K.bin as m s t o = some (m', s', t') ∧ ok s' ∧ ok t' ∧ m'.live.Perm (K.fp s' ++ (K.fp t' ++ F))
  take : ∀ m s t F, G m → R.take s t → ok s → ok t → m.live.Perm (K.fp s ++ (K.fp t ++ F)) →
    ∃ m' s', K.take m s t = some (m', s') ∧ ok s' ∧ m'.live.Perm (K.fp s' ++ F)
  drop : ∀ m s F, G m → R.drop s → ok s → m.live.Perm (K.fp s ++ F) → ∃ m', K.drop m s = some m' ∧ m'.live.Perm F

/-- The calls of a container type preserve a property of the allocator. -/
structure Keeps (K : Kind) (G : Mem → Prop) : Prop where
  make : ∀ as m n r, G m → K.make as m n = some r → G r.1
  un : ∀ as m s o r, G m → K.un as m s o = some r → G r.1
  out : ∀ as m s o r, G m → K.out as m s o = some r → G r.1
  bin : ∀ as m s t o r, G m → K.bin as m s t o = some r → G r.1
  take : ∀ m s t r, G m → K.take m s t = some r → G r.1
  drop : ∀ m s r, G m → K.drop m s = some r → G r

variable {K : Kind}

theorem owned_append (l r : List (Option K.σ)) : owned (l ++ r) = owned l ++ owned r := by
  simp [owned]

theorem owned_one (s : K.σ) : owned [some s] = K.fp s := by simp [owned]

theorem owned_set (vars : List (Option K.σ)) (i : Nat) (x : Option K.σ) (hi : i < vars.length) :
    (owned (vars.set i x)).Perm (owned [x] ++ owned (vars.set i none)) := by
  induction vars generalizing i with
  | nil => simp at hi
  | cons v vs ih =>
    cases i with
    | zero => simp [owned]
    | succ i =>
      simp only [List.set_cons_succ]
      have h := ih i (by simpa using hi)
      rw [show v :: vs.set i x = [v] ++ vs.set i x from rfl,
        show v :: vs.set i none = [v] ++ vs.set i none from rfl, owned_append, owned_append]
      refine (h.append_left _).trans ?_
      rw [← List.append_assoc, ← List.append_assoc]
      exact List.Perm.append_right _ List.perm_append_comm

theorem get_lt {w : World K} {i : Nat} {s : K.σ} (h : w.get i = some s) : i < w.vars.length := by
  unfold World.get at h
  by_contra hn
  rw [List.getElem?_eq_none (by omega)] at h
  simp at h

theorem get_set {w : World K} {i : Nat} {s : K.σ} (h : w.get i = some s) : w.vars.set i (some s) = w.vars := by
  have hi := get_lt h
  apply List.ext_getElem?
  intro k
  rw [List.getElem?_set]
  by_cases hk : i = k
  · subst hk
    unfold World.get at h
    rw [if_pos rfl, if_pos hi]
    cases hv : w.vars[i]? with
    | none => rw [hv] at h; simp at h
    | some o => rw [hv] at h; simp at h; rw [h]
  · rw [if_neg hk]

theorem owned_get {w : World K} {i : Nat} {s : K.σ} (h : w.get i = some s) :
    (owned w.vars).Perm (K.fp s ++ owned (w.vars.set i none)) := by
  have := owned_set w.vars i (some s) (get_lt h)
  rwa [get_set h, owned_one] at this

theorem get_ne {w : World K} {i j : Nat} (x : Option K.σ) (hij : i ≠ j) :
    (⟨w.mem, w.vars.set i x⟩ : World K).get j = w.get j := by
  unfold World.get
  simp only
  rw [List.getElem?_set_ne hij]

/-- All variables in scope satisfy `ok`. -/
def AllOk (ok : K.σ → Prop) (vars : List (Option K.σ)) : Prop := ∀ s, some s ∈ vars → ok s

theorem allOk_get {ok : K.σ → Prop} {w : World K} (h : AllOk ok w.vars) {i : Nat} {s : K.σ}
    (hg : w.get i = some s) : ok s := by
  apply h
  unfold World.get at hg
  cases hv : w.vars[i]? with
  | none => rw [hv] at hg; simp at hg
  | some o =>
    rw [hv] at hg; simp at hg; subst hg
    exact List.mem_of_getElem? hv

theorem allOk_set {ok : K.σ → Prop} {vars : List (Option K.σ)} (h : AllOk ok vars) (i : Nat) (x : Option K.σ)
    (hx : ∀ s, x = some s → ok s) : AllOk ok (vars.set i x) := by
  intro s hs
  rcases List.mem_or_eq_of_mem_set hs with h1 | h1
  · exact h s h1
  · exact hx s h1.symm

theorem allOk_append {ok : K.σ → Prop} {vars : List (Option K.σ)} (h : AllOk ok vars) (s : K.σ) (hs : ok s) :
    AllOk ok (vars ++ [some s]) := by
  intro t ht
  rcases List.mem_append.1 ht with h1 | h1
  · exact h t h1
  · simp at h1; subst h1; exact hs

theorem step_balanced {R : Rules K} {ok : K.σ → Prop} {G : Mem → Prop} (L : Lawful K R ok G) (w : World K)
    (a : Act K) (hG : G w.mem) (hb : Balanced w) (ho : AllOk ok w.vars) (hr : okAct R w a) :
    ∃ w', stepW w a = some w' ∧ Balanced w' ∧ AllOk ok w'.vars := by
  unfold Balanced at hb ⊢
  cases a with
  | new a =>
    obtain ⟨h1, h2⟩ := L.new a hr
    refine ⟨_, rfl, ?_, allOk_append ho _ h1⟩
    simp only [owned_append, owned_one, h2, List.append_nil]
    exact hb
  | mk as n =>
    obtain ⟨m', s, e, h1, h2⟩ := L.make as w.mem n _ hG hr hb
    refine ⟨_, by simp only [stepW, e]; rfl, ?_, allOk_append ho _ h1⟩
    simp only [owned_append, owned_one]
    exact h2.trans List.perm_append_comm
  | un i as o =>
    cases hg : w.get i with
    | none => exact ⟨w, by simp only [stepW, hg], hb, ho⟩
    | some s =>
      obtain ⟨m', s', e, h1, h2⟩ := L.un as w.mem s o _ hG (hr s hg) (allOk_get ho hg) (hb.trans (owned_get hg))
      refine ⟨⟨m', w.vars.set i (some s')⟩, by simp only [stepW, hg, e]; rfl, ?_,
        allOk_set ho i _ (by intro t ht; cases ht; exact h1)⟩
      have := owned_set w.vars i (some s') (get_lt hg)
      rw [owned_one] at this
      exact h2.trans this.symm
  | out i as o =>
    cases hg : w.get i with
    | none => exact ⟨w, by simp only [stepW, hg], hb, ho⟩
    | some s =>
      obtain ⟨m', s', t, e, h1, h1', h2⟩ := L.out as w.mem s o _ hG (hr s hg) (allOk_get ho hg) (hb.trans (owned_get hg))
      refine ⟨⟨m', w.vars.set i (some s') ++ [some t]⟩, by simp only [stepW, hg, e]; rfl, ?_,
        allOk_append (allOk_set ho i _ (by intro t ht; cases ht; exact h1)) _ h1'⟩
      have := owned_set w.vars i (some s') (get_lt hg)
      rw [owned_one] at this
      simp only [owned_append, owned_one]
      refine h2.trans ?_
      refine List.Perm.trans ?_ (this.symm.append_right _)
      rw [List.append_assoc]
      exact List.Perm.append_left _ List.perm_append_comm
  | bin i j as o =>
    cases hg : w.get i with
    | none => exact ⟨w, by simp only [stepW, hg], hb, ho⟩
    | some s =>
    cases hg' : w.get j with
    | none => exact ⟨w, by simp only [stepW, hg, hg'], hb, ho⟩
    | some t =>
    by_cases hij : i = j
    · exact ⟨w, by simp only [stepW, hg, hg', hij, if_pos], hb, ho⟩
    · have hg2 := (get_ne (w := w) none hij).trans hg'
      have hp := hb.trans ((owned_get hg).trans ((owned_get hg2).append_left _))
      obtain ⟨m', s', t', e, h1, h1', h2⟩ :=
        L.bin as w.mem s t o _ hG (hr s t hg hg') (allOk_get ho hg) (allOk_get ho hg') hp
      refine ⟨⟨m', (w.vars.set i (some s')).set j (some t')⟩, by simp only [stepW, hg, hg', if_neg hij, e]; rfl, ?_,
        allOk_set (allOk_set ho i _ (by intro t ht; cases ht; exact h1)) j _ (by intro t ht; cases ht; exact h1')⟩
      simp only at h2 ⊢
      have hc : ∀ x y, (w.vars.set i x).set j y = (w.vars.set j y).set i x := fun x y => List.set_comm _ _ hij
      have a1 := owned_set (w.vars.set i (some s')) j (some t') (by simpa using get_lt hg')
      rw [owned_one] at a1
      have a2 := owned_set (w.vars.set j none) i (some s') (by simpa using get_lt hg)
      rw [owned_one, ← hc, ← hc] at a2
      refine h2.trans (List.Perm.trans ?_ a1.symm)
      refine List.Perm.trans ?_ (a2.symm.append_left _)
      rw [← List.append_assoc, ← List.append_assoc]
      exact List.Perm.append_right _ List.perm_append_comm
  | take i j =>
    cases hg : w.get i with
    | none => exact ⟨w, by simp only [stepW, hg], hb, ho⟩
    | some s =>
    cases hg' : w.get j with
    | none => exact ⟨w, by simp only [stepW, hg, hg'], hb, ho⟩
    | some t =>
    by_cases hij : i = j
    · exact ⟨w, by simp only [stepW, hg, hg', hij, if_pos], hb, ho⟩
    · have hg2 := (get_ne (w := w) none hij).trans hg'
      have hp := hb.trans ((owned_get hg).trans ((owned_get hg2).append_left _))
      obtain ⟨m', s', e, h1, h2⟩ := L.take w.mem s t _ hG (hr s t hg hg') (allOk_get ho hg) (allOk_get ho hg') hp
      refine ⟨⟨m', (w.vars.set i (some s')).set j none⟩, by simp only [stepW, hg, hg', if_neg hij, e]; rfl, ?_,
        allOk_set (allOk_set ho i _ (by intro t ht; cases ht; exact h1)) j _ (by intro t ht; cases ht)⟩
      simp only at h2 ⊢
      have hc : ∀ x y, (w.vars.set i x).set j y = (w.vars.set j y).set i x := fun x y => List.set_comm _ _ hij
      have a2 := owned_set (w.vars.set j none) i (some s') (by simpa using get_lt hg)
      rw [owned_one, ← hc, ← hc] at a2
      exact h2.trans a2.symm
  | drop i =>
    cases hg : w.get i with
    | none => exact ⟨w, by simp only [stepW, hg], hb, ho⟩
    | some s =>
      obtain ⟨m', e, h2⟩ := L.drop w.mem s _ hG (hr s hg) (allOk_get ho hg) (hb.trans (owned_get hg))
      exact ⟨⟨m', w.vars.set i none⟩, by simp only [stepW, hg, e]; rfl, h2,
        allOk_set ho i _ (by intro t ht; cases ht)⟩

theorem step_keeps {G : Mem → Prop} (T : Keeps K G) {w w' : World K} {a : Act K} (h : G w.mem) (e : stepW w a = some w') :
    G w'.mem := by
  cases a with
  | new a => cases e; exact h
  | mk as n =>
    simp only [stepW, Option.map_eq_some_iff] at e
    obtain ⟨r, e, rfl⟩ := e
    exact T.make _ _ _ _ h e
  | un i as o =>
    simp only [stepW] at e
    split at e
    · cases e; exact h
    · simp only [Option.map_eq_some_iff] at e
      obtain ⟨r, e, rfl⟩ := e
      exact T.un _ _ _ _ _ h e
  | out i as o =>
    simp only [stepW] at e
    split at e
    · cases e; exact h
    · simp only [Option.map_eq_some_iff] at e
      obtain ⟨r, e, rfl⟩ := e
      exact T.out _ _ _ _ _ h e
  | bin i j as o =>
    simp only [stepW] at e
    split at e
    · split at e
      · cases e; exact h
      · simp only [Option.map_eq_some_iff] at e
        obtain ⟨r, e, rfl⟩ := e
        exact T.bin _ _ _ _ _ _ h e
    · cases e; exact h
  | take i j =>
    simp only [stepW] at e
    split at e
    · split at e
      · cases e; exact h
      · simp only [Option.map_eq_some_iff] at e
        obtain ⟨r, e, rfl⟩ := e
        exact T.take _ _ _ _ h e
    · cases e; exact h
  | drop i =>
    simp only [stepW] at e
    split at e
    · cases e; exact h
    · simp only [Option.map_eq_some_iff] at e
      obtain ⟨r, e, rfl⟩ := e
      exact T.drop _ _ _ h e

theorem run_balanced {R : Rules K} {ok : K.σ → Prop} {G : Mem → Prop} (L : Lawful K R ok G) (T : Keeps K G)
    (acts : List (Act K)) :
    ∀ w : World K, G w.mem → Balanced w → AllOk ok w.vars → Obeys R w acts →
      ∃ w', run w acts = some w' ∧ Balanced w' ∧ AllOk ok w'.vars := by
  induction acts with
  | nil => intro w _ hb ho _; exact ⟨w, rfl, hb, ho⟩
  | cons a as ih =>
    intro w hG hb ho hr
    obtain ⟨w1, e, hb1, ho1⟩ := step_balanced L w a hG hb ho hr.1
    obtain ⟨w2, e2, h2⟩ := ih w1 (step_keeps T hG e) hb1 ho1 (hr.2 w1 e)
    exact ⟨w2, by rw [run, e]; exact e2, h2⟩

/-- Nothing is assumed. -/
def Any (_ : Mem) : Prop := True

theorem keeps_any : Keeps K Any :=
  ⟨fun _ _ _ _ _ _ => trivial, fun _ _ _ _ _ _ _ => trivial, fun _ _ _ _ _ _ _ => trivial,
   fun _ _ _ _ _ _ _ _ => trivial, fun _ _ _ _ _ _ => trivial, fun _ _ _ _ _ => trivial⟩

theorem empty_balanced : Balanced (World.empty K) := List.Perm.nil

theorem empty_ok (ok : K.σ → Prop) : AllOk ok (World.empty K).vars := by intro s h; simp [World.empty] at h

/-- When no variable is in scope any more, no block is in use. -/
theorem all_dropped {w : World K} (hb : Balanced w) (h : ∀ i, w.get i = none) : w.mem.live = [] := by
  unfold Balanced at hb
  have : owned w.vars = [] := by
    unfold owned
    rw [List.flatMap_eq_nil_iff]
    intro o ho
    obtain ⟨i, hi⟩ := List.getElem?_of_mem ho
    have := h i
    unfold World.get at this
    rw [hi] at this
    simp at this
    subst this
    rfl
  rw [this] at hb
  exact hb.eq_nil

/-! ## The allocator -/

theorem malloc_cases (a : Ans) (m : Mem) (c n : Nat) :
    (a = .fail ∧ malloc a m c n = (m, none)) ∨
    (a ≠ .fail ∧ ∃ m' i, malloc a m c n = (m', some i) ∧ m'.live = ⟨i, n, c⟩ :: m.live) := by
  by_cases h : a = .fail
  · exact .inl ⟨h, by simp [malloc, h]⟩
  · exact .inr ⟨h, ⟨⟨m.next, n, c⟩ :: m.live, m.next + 1⟩, m.next, by simp [malloc, h], rfl⟩

theorem free_ok {m : Mem} {F : List Blk} {p : Option Nat} {n c : Nat} (h : m.live.Perm (blk p n c ++ F)) :
    ∃ m', free m c p n = some m' ∧ m'.live.Perm F := by
  cases p with
  | none => exact ⟨m, rfl, h⟩
  | some i =>
    have hm : (⟨i, n, c⟩ : Blk) ∈ m.live := h.mem_iff.2 (by simp [blk])
    refine ⟨{ m with live := m.live.erase ⟨i, n, c⟩ }, by simp only [free, if_pos hm], ?_⟩
    have := h.erase ⟨i, n, c⟩
    simpa [blk] using this

theorem realloc_ok {m : Mem} {F : List Blk} {p : Option Nat} {old c : Nat} (a : Ans) (n : Nat)
    (h : m.live.Perm (blk p old c ++ F)) :
    ∃ m' q, realloc a m c p old n = some (m', q) ∧
      ((q = none ∧ a = .fail ∧ ((n ≠ 0 ∨ p = none) → m'.live.Perm (blk p old c ++ F)) ∧
          (n = 0 → m'.live.Perm F)) ∨
       (q.isSome ∧ a ≠ .fail ∧ m'.live.Perm (blk q n c ++ F))) := by
  cases p with
  | none =>
    rcases malloc_cases a m c n with ⟨ha, e⟩ | ⟨ha, m', i, e, hl⟩
    · exact ⟨m, none, by simp [realloc, e], .inl ⟨rfl, ha, fun _ => h, fun _ => h⟩⟩
    · exact ⟨m', some i, by simp [realloc, e], .inr ⟨rfl, ha, by rw [hl]; simpa [blk] using h⟩⟩
  | some i =>
    have hm : (⟨i, old, c⟩ : Blk) ∈ m.live := h.mem_iff.2 (by simp [blk])
    have he : (m.live.erase ⟨i, old, c⟩).Perm F := by simpa [blk] using h.erase ⟨i, old, c⟩
    cases a with
    | fail =>
      by_cases hn : n = 0
      · exact ⟨{ m with live := m.live.erase ⟨i, old, c⟩ }, none, by simp only [realloc, if_pos hm, if_pos hn], .inl ⟨rfl, rfl, by simp [hn], fun _ => he⟩⟩
      · exact ⟨m, none, by simp only [realloc, if_pos hm, if_neg hn], .inl ⟨rfl, rfl, fun _ => h, fun h0 => absurd h0 hn⟩⟩
    | same => exact ⟨{ m with live := ⟨i, n, c⟩ :: m.live.erase ⟨i, old, c⟩ }, some i, by simp only [realloc, if_pos hm], .inr ⟨rfl, by simp, by simpa [blk] using he⟩⟩
    | moved => exact ⟨⟨⟨m.next, n, c⟩ :: m.live.erase ⟨i, old, c⟩, m.next + 1⟩, some m.next, by simp only [realloc, if_pos hm], .inr ⟨rfl, by simp, by simpa [blk] using he⟩⟩

end Verif.Alloc
