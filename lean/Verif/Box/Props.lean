import Verif.Box.Lemmas
/- Properties of owning pointers. -/
namespace Verif.Box
open Spec
open scoped List
variable {α : Type} {cl : α → α} {k : Nat} {s : State α} {w : View α} {made : List α}

/-- No undefined behaviour: every legal call succeeds, in every history. -/
theorem box_step_defined (h : Reach cl k s w made) {op : Op α} {w' : View α} (hw : Spec.step cl w op = some w') {a : Nat} (hf : Fresh s.mem a) :
    ∃ s', step cl s a op = some s' ∧ Reach cl k s' w' (made ++ creates cl w op) := by
  obtain ⟨s', h1, _⟩ := sim_step cl (reach_sim h) hw hf
  exact ⟨s', h1, .step s s' w w' made a op h hw hf h1⟩

/-- Boxes contain the values they should: moving, taking, assigning and releasing hand over the value
itself, and the variables are vacant, NULL or full when they should be. -/
theorem box_contents (h : Reach cl k s w made) (x : Nat) :
    (∀ o, w.vars[x]? = some (some o) → ∃ p, s.vars[x]? = some (some p) ∧ Points s.mem p o) ∧ (w.vars[x]? = some none → s.vars[x]? = some none) ∧
      (∀ o, w.raws[x]? = some o → ∃ p, s.raws[x]? = some p ∧ Points s.mem p o) ∧ s.vars.length = w.vars.length ∧ s.raws.length = w.raws.length := by
  have hs := reach_sim h
  exact ⟨fun o ho => hs.var ho, fun hx => hs.vac hx, fun o ho => f2_get hs.fr x ho, hs.fv.length_eq, hs.fr.length_eq⟩

/-- The values destroyed, in order, are those the specification destroys. -/
theorem box_destroyed (h : Reach cl k s w made) : s.mem.dropped = w.dropped := (reach_sim h).dr

theorem filterMap_count (l : List (Option Nat)) (q : Nat) : (l.filterMap id).count q = l.count (some q) := by
  induction l with
  | nil => rfl
  | cons o l ih =>
    cases o with
    | none => simpa using ih
    | some p => simpa [List.count_cons] using ih

theorem owners_perm (h : Reach cl k s w made) : owners s ~ s.mem.blocks := by
  have hs := reach_sim h
  rw [List.perm_iff_count]
  intro q
  by_cases hq : q = 0
  · subst hq
    rw [List.count_eq_zero.2 hs.z, List.count_eq_zero]
    simp [owners]
  · have := hs.cnt q hq
    rw [← this, owners, List.count_filter (by simpa using hq), List.count_append, filterMap_count]

/-- Every block is owned by exactly one box or pointer of the user, so nothing leaks and nothing is
owned twice. -/
theorem box_owned_once (h : Reach cl k s w made) : (owners s).Nodup ∧ owners s ~ s.mem.blocks ∧ s.mem.vals.map Prod.fst ~ s.mem.blocks :=
  ⟨(owners_perm h).nodup_iff.2 (reach_sim h).nd, owners_perm h, (reach_sim h).vl⟩

theorem count_set_flat {β : Type} [DecidableEq α] (f : β → List α) {l : List β} {i : Nat} {o : β} (o' : β) (h : l[i]? = some o) (v : α) :
    ((l.set i o').flatMap f).count v + (f o).count v = (l.flatMap f).count v + (f o').count v := by
  induction l generalizing i with
  | nil => simp at h
  | cons x l ih =>
    cases i with
    | zero =>
      simp at h; subst h
      simp only [List.set_cons_zero, List.flatMap_cons, List.count_append]
      omega
    | succ i =>
      have := ih (i := i) (by simpa using h)
      simp only [List.set_cons_succ, List.flatMap_cons, List.count_append]
      omega

theorem count_erase_flat {β : Type} [DecidableEq α] (f : β → List α) {l : List β} {i : Nat} {o : β} (h : l[i]? = some o) (v : α) :
    ((l.eraseIdx i).flatMap f).count v + (f o).count v = (l.flatMap f).count v := by
  induction l generalizing i with
  | nil => simp at h
  | cons x l ih =>
    cases i with
    | zero =>
      simp at h; subst h
      simp only [List.eraseIdx_cons_zero, List.flatMap_cons, List.count_append]
      omega
    | succ i =>
      have := ih (i := i) (by simpa using h)
      simp only [List.eraseIdx_cons_succ, List.flatMap_cons, List.count_append]
      omega

theorem step_conserved {w w' : View α} {op : Op α} (h : Spec.step cl w op = some w') :
    w'.dropped ++ held w' ~ w.dropped ++ held w ++ creates cl w op := by
  classical
  rw [List.perm_iff_count]
  intro v
  let f : Option (Option α) → List α := fun o => o.join.toList
  have hset : ∀ {l : List (Option (Option α))} {i : Nat} {o : Option (Option α)} (o' : Option (Option α)), l[i]? = some o →
      ((l.set i o').flatMap f).count v + (f o).count v = (l.flatMap f).count v + (f o').count v := fun o' h => count_set_flat f o' h v
  have f0 : (f none).count v = 0 := rfl
  have f1 : (f (some none)).count v = 0 := rfl
  have f2 : ∀ o : Option α, f (some o) = o.toList := fun _ => rfl
  have hne : ∀ {l : List (Option (Option α))} {x y : Nat} {o : Option (Option α)} (c : Option (Option α)), x ≠ y → l[y]? = some o → (l.set x c)[y]? = some o :=
    fun c hxy h => by rw [List.getElem?_set_ne hxy]; exact h
  have heq : (fun o : Option (Option α) => o.join.toList) = f := rfl
  unfold held
  rw [heq]
  simp only [List.count_append]
  cases op with
  | init x =>
    simp only [Spec.step] at h
    split at h <;> cases h
    rename_i hx
    have e := hset (some none) hx
    simp only [View.set, creates, List.count_nil]
    omega
  | make x u =>
    simp only [Spec.step] at h
    split at h <;> cases h
    rename_i hx
    have e := hset (some (some u)) hx
    simp only [f2, Option.toList_some] at e
    simp only [View.set, creates]
    omega
  | raw u =>
    simp only [Spec.step] at h
    cases h
    simp only [creates, List.flatMap_cons, List.count_append, Option.toList_some]
    omega
  | freeRaw i =>
    simp only [Spec.step] at h
    split at h <;> cases h
    rename_i o hi
    have e := count_erase_flat Option.toList hi v
    simp only [creates, List.count_nil, List.count_append]
    omega
  | fromPtr x i =>
    simp only [Spec.step] at h
    split at h <;> cases h
    rename_i o hx hi
    have e := count_erase_flat Option.toList hi v
    have e2 := hset (some o) hx
    simp only [f2] at e2
    simp only [View.set, creates, List.count_nil]
    omega
  | drop x =>
    simp only [Spec.step] at h
    split at h <;> cases h
    rename_i o hx
    have e2 := hset none hx
    simp only [f2] at e2
    simp only [View.set, creates, List.count_nil, List.count_append]
    omega
  | move x y =>
    simp only [Spec.step] at h
    split at h <;> cases h
    rename_i o hx hy
    have hxy : x ≠ y := by rintro rfl; rw [hx] at hy; cases hy
    have e1 := hset (some none) hx
    have e2 := hset (some o) (hne (some none) hxy hy)
    simp only [f2] at e1 e2
    simp only [View.set, creates, List.count_nil]
    have : List.count v (none : Option α).toList = 0 := rfl
    omega
  | release x =>
    simp only [Spec.step] at h
    split at h <;> cases h
    rename_i o hx
    have e1 := hset (some none) hx
    simp only [f2] at e1
    simp only [View.set, creates, List.count_nil, List.flatMap_cons, List.count_append]
    have : List.count v (none : Option α).toList = 0 := rfl
    omega
  | resetTo x i =>
    simp only [Spec.step] at h
    split at h <;> cases h
    rename_i o q hx hi
    have e := count_erase_flat Option.toList hi v
    have e2 := hset (some q) hx
    simp only [f2] at e2
    simp only [View.set, creates, List.count_nil, List.count_append]
    omega
  | take x y =>
    simp only [Spec.step] at h
    split at h
    · rename_i o q hx hy
      by_cases hxy : x = y
      · rw [if_pos hxy] at h; cases h
      rw [if_neg hxy] at h
      cases h
      have e1 := hset (some q) hx
      have e2 := hset none (hne (some q) hxy hy)
      simp only [f2] at e1 e2
      simp only [View.set, creates, List.count_nil, List.count_append]
      omega
    · cases h
  | assign x y =>
    simp only [Spec.step] at h
    split at h
    · rename_i o q hx hy
      by_cases hxy : x = y
      · rw [if_pos hxy] at h; cases h; simp [creates]
      rw [if_neg hxy] at h
      cases h
      have e1 := hset (some q) hx
      have e2 := hset (some none) (hne (some q) hxy hy)
      simp only [f2] at e1 e2
      simp only [View.set, creates, List.count_nil, List.count_append]
      have : List.count v (none : Option α).toList = 0 := rfl
      omega
    · cases h
  | clone x y =>
    simp only [Spec.step] at h
    split at h <;> cases h
    rename_i o hx hy
    have e1 := hset (some (o.map cl)) hy
    simp only [f2] at e1
    simp only [View.set, creates, hx]
    cases o with
    | none =>
      simp only [Option.map_none] at e1 ⊢
      have : List.count v (none : Option α).toList = 0 := rfl
      simp only [List.count_nil]
      omega
    | some u => simp only [Option.map_some, Option.toList_some] at e1 ⊢; omega

/-- Values are neither lost nor destroyed twice: the values created are those destroyed and those held. -/
theorem box_conserved (h : Reach cl k s w made) : made ~ s.mem.dropped ++ held w := by
  rw [box_destroyed h]
  induction h with
  | init => simp [Spec.init, held, List.flatMap_replicate]
  | step s s' w w' made a op _ hw _ _ ih =>
    exact (ih.append_right _).trans (step_conserved hw).symm

/-- When nobody owns anything any more, every value was destroyed exactly once and all memory is free. -/
theorem box_no_leak (h : Reach cl k s w made) (ho : owners s = []) : s.mem.blocks = [] ∧ s.mem.vals = [] ∧ s.mem.dropped ~ made := by
  have h1 := owners_perm h
  rw [ho] at h1
  have h1 : s.mem.blocks = [] := List.nil_perm.1 h1
  have h2 := (reach_sim h).vl
  rw [h1] at h2
  have h2 : s.mem.vals = [] := by simpa using List.perm_nil.1 h2
  refine ⟨h1, h2, ?_⟩
  have h3 := box_conserved h
  have hp : ∀ p o, Points s.mem p o → o = none := by
    intro p o hp
    cases o with
    | none => rfl
    | some v => exact absurd (points_mem hp.2).1 (by rw [h1]; simp)
  have hh : held w = [] := by
    unfold held
    have hs := reach_sim h
    rw [List.append_eq_nil_iff, List.flatMap_eq_nil_iff, List.flatMap_eq_nil_iff]
    constructor
    · intro o ho
      cases o with
      | none => rfl
      | some o =>
        obtain ⟨i, hi⟩ := List.getElem?_of_mem ho
        obtain ⟨p, _, hp1⟩ := hs.var hi
        rw [hp p o hp1]; rfl
    · intro o ho
      obtain ⟨i, hi⟩ := List.getElem?_of_mem ho
      obtain ⟨p, _, hp1⟩ := f2_get hs.fr i hi
      rw [hp p o hp1]; rfl
  rw [hh, List.append_nil] at h3
  exact h3.symm

/-! ### examples -/

theorem run_reach : ∀ (es : List (Op α × Nat)) (s s' : State α) (w w' : View α) (made : List α), Reach cl k s w made → run cl s w es = some (s', w') → ∃ made', Reach cl k s' w' made' := by
  intro es
  induction es with
  | nil => intro s s' w w' made h e; simp [run] at e; obtain ⟨rfl, rfl⟩ := e; exact ⟨made, h⟩
  | cons x es ih =>
    intro s s' w w' made h e
    obtain ⟨op, a⟩ := x
    simp only [run] at e
    by_cases hf : Fresh s.mem a
    · rw [if_pos hf, Option.bind_eq_some_iff] at e
      obtain ⟨w1, hw, e⟩ := e
      obtain ⟨s1, hs, e⟩ := Option.bind_eq_some_iff.1 e
      exact ih s1 s' w1 w' _ (.step s s1 w w1 made a op h hw hf hs) e
    · rw [if_neg hf] at e; cases e

def exOps : List (Op Nat × Nat) :=
  [(.make 0 5, 100), (.clone 0 1, 200), (.assign 1 0, 1), (.raw 7, 300), (.resetTo 0 0, 1), (.move 1 2, 1), (.take 2 0, 1), (.release 2, 1), (.drop 1, 1)]

example : ∃ (s : State Nat) (w : View Nat) (made : List Nat), Reach (· + 1) 3 s w made ∧ w.vars = [none, none, some none] ∧ w.raws = [some 7] ∧ s.mem.dropped = [6, 5] ∧ owners s = [300] := by
  obtain ⟨made, h⟩ := run_reach (cl := (· + 1)) (k := 3) exOps (Box.init 3) _ (Spec.init 3) _ [] .init (rfl : run (· + 1) (Box.init 3) (Spec.init 3) exOps = some ((run (· + 1) (Box.init 3) (Spec.init 3) exOps).get rfl))
  exact ⟨_, _, made, h, rfl, rfl, rfl, rfl⟩

example : ∃ (s : State Nat) (w : View Nat) (made : List Nat), Reach (· + 1) 3 s w made ∧ owners s = [] ∧ s.mem.dropped = [6, 5, 7] := by
  obtain ⟨made, h⟩ := run_reach (cl := (· + 1)) (k := 3) (exOps ++ [(.freeRaw 0, 1)]) (Box.init 3) _ (Spec.init 3) _ [] .init
    (rfl : run (· + 1) (Box.init 3) (Spec.init 3) (exOps ++ [(.freeRaw 0, 1)]) = some ((run (· + 1) (Box.init 3) (Spec.init 3) (exOps ++ [(.freeRaw 0, 1)])).get rfl))
  exact ⟨_, _, made, h, rfl, rfl⟩

/-- A legal call, with an address for it. -/
example : ∃ (s : State Nat) (w w' : View Nat) (made : List Nat), Reach (· + 1) 3 s w made ∧ Spec.step (· + 1) w (.make 0 9) = some w' ∧ Fresh s.mem 400 := by
  obtain ⟨made, h⟩ := run_reach (cl := (· + 1)) (k := 3) exOps (Box.init 3) _ (Spec.init 3) _ [] .init (rfl : run (· + 1) (Box.init 3) (Spec.init 3) exOps = some ((run (· + 1) (Box.init 3) (Spec.init 3) exOps).get rfl))
  exact ⟨_, _, _, made, h, rfl, by decide⟩

end Verif.Box
