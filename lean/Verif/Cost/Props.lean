import Verif.Sort.Cost
import Verif.Sort.Props
import Verif.PQueue.Cost
import Verif.PQueue.Props
import Verif.Smap.Cost
import Verif.Smap.Props
import Mathlib.Tactic.Common
/- C136 to C139: how deep `sort` nests, and how many answers of the comparison decide what searching and the
heap and tree operations do. -/
namespace Verif.Cost
variable {α κ ν : Type} [DecidableEq κ]

/-- C136: sorting a container of less than `66 * 2 ^ d` elements never has more than `d` calls of the sort
function active at once: with a call stack of `d` frames it gives the result it gives without limit. -/
theorem sort_nesting {less : α → α → Bool} (hl : StrictWeak less) (l : List α) (d : Nat) (hd : 0 < d) (h : l.length < 66 * 2 ^ d) :
    ∃ l', Sort.sort less l = some l' ∧ Sort.sortFrames less (l.length + 2) d l 0 ((l.length : Int) - 1) = some l' := by
  obtain ⟨l', e, -⟩ := Sort.sort_correct hl l
  refine ⟨l', e, ?_⟩
  obtain ⟨d, rfl⟩ : ∃ k, d = k + 1 := ⟨d - 1, by omega⟩
  exact Sort.sortFrames_of (d + 1) (by omega) _ l l' _ _ _ (Nat.le_refl _) (Nat.le_refl _) e (by
    have : ((l.length : Nat) : Int) < ((66 * 2 ^ (d + 1) : Nat) : Int) := by exact_mod_cast h
    push_cast at this ⊢
    omega)

/-- C136: 57 frames sort anything that can be indexed. -/
theorem sort_nesting_bounded {less : α → α → Bool} (hl : StrictWeak less) (l : List α) (h : l.length < 2 ^ 63) :
    ∃ l', Sort.sort less l = some l' ∧ Sort.sortFrames less (l.length + 2) 57 l 0 ((l.length : Int) - 1) = some l' :=
  sort_nesting hl l 57 (by decide) (by omega)

/-- A thousand elements: four frames. -/
example (l : List Nat) (h : l.length = 1000) : ∃ l', Sort.sort Sort.natLess l = some l' ∧
    Sort.sortFrames Sort.natLess (l.length + 2) 4 l 0 ((l.length : Int) - 1) = some l' :=
  sort_nesting Sort.natLess_sw l 4 (by decide) (by omega)

/-- C137: `lower_bound` in less than `2 ^ b` elements is decided by at most `6 * b` comparisons. -/
theorem lower_bound_comparisons (less : α → α → Bool) (l : List α) (x : α) (b : Nat) (h : l.length < 2 ^ b) :
    Settled (6 * b) (fun le => Sort.lowerBound le l x) less := by
  have h1 : 7 ^ (6 * b) * l.length < 8 ^ (6 * b) :=
    Nat.lt_of_lt_of_le (Nat.mul_lt_mul_of_pos_left h (Nat.pow_pos (by decide))) (Sort.pow78 b)
  have h2 := Sort.lowerLoop_settled (less := less) x l (((l.length : Int) - 0).toNat + 1) (6 * b) 0 ((l.length : Int) - 0) (((l.length : Int) - 0) / 2)
    (by simpa using h1) (by omega)
  exact h2.map fun r => r.bind fun s => some (if s = (l.length : Int) then none else some s)

/-- C137: `binary_search` needs one more. -/
theorem binary_search_comparisons (less : α → α → Bool) (l : List α) (x : α) (b : Nat) (h : l.length < 2 ^ b) :
    Settled (6 * b + 1) (fun le => Sort.binarySearch le l x) less := by
  have h1 := lower_bound_comparisons less l x b h
  refine h1.bind (g := fun le r => r.bind fun res => match res with
    | none => some none
    | some k => (Sort.getI l k).bind fun y => some (if le x y then none else some k)) ?_
  rcases Sort.lowerBound less l x with _ | _ | k
  · exact Settled.const _ _
  · exact Settled.const _ _
  · simp only [Option.bind_some]
    cases hg : Sort.getI l k with
    | none => exact Settled.const _ _
    | some y => exact Settled.ask (f := fun _ (c : Bool) => some (if c then none else some k)) (Settled.const _ _)

/-- The bound says something: without any comparison the answer is not settled. -/
example : ¬ Settled 0 (fun le => Sort.lowerBound le [1, 3, 5] 4) Sort.natLess := by
  rintro ⟨qs, h1, h2⟩
  have h3 : qs = [] := by simpa using h1
  subst h3
  have := h2 (fun _ _ => true) (by simp)
  revert this
  decide

/-- C138: `push` on less than `2 ^ (b + 1) - 1` elements is decided by at most `b` comparisons. -/
theorem pqueue_push_comparisons (less : α → α → Bool) (ok : Bool) (q : PQueue.PQ α) (x : α) (b : Nat) (h : q.elems.length + 1 < 2 ^ (b + 1)) :
    Settled b (fun le => PQueue.push le ok q x) less := by
  unfold PQueue.push
  simp only [Option.bind_eq_bind]
  cases hg : PQueue.grow ok q with
  | none => exact Settled.const _ _
  | some p =>
    have hp : p.1.elems = q.elems := by
      unfold PQueue.grow PQueue.reserve at hg
      split at hg
      · split at hg
        · cases hg; rfl
        · split at hg
          · split at hg <;> cases hg; rfl
          · split at hg <;> cases hg <;> rfl
      · cases hg; rfl
    simp only [Option.bind_some]
    by_cases hc : p.1.elems.length < p.1.cap
    · simp only [if_pos hc]
      have := PQueue.siftUpF_settled (less := less) x (p.1.elems.length + 1) b (p.1.elems.length + 1) (p.1.elems ++ [x]) (by rw [hp]; exact h)
      exact this.map fun r => r.bind fun l => some { p.1 with elems := l }
    · simp only [if_neg hc]
      exact Settled.const _ _

/-- C138: erasing at a position (and so `pop` and `pull`) is decided by `2 * log2 n` comparisons of the
remaining `n` elements. -/
theorem pqueue_erase_comparisons (less : α → α → Bool) (q : PQueue.PQ α) (i : Nat) :
    Settled (2 * Nat.log2 ((q.elems.length - 1) / (i + 1))) (fun le => PQueue.eraseAt le q i) less := by
  unfold PQueue.eraseAt
  simp only [Option.bind_eq_bind]
  cases q.elems[i]? with
  | none => exact Settled.const _ _
  | some x =>
    simp only [Option.bind_some]
    cases q.elems[q.elems.length - 1]? with
    | none => exact Settled.const _ _
    | some y =>
      simp only [Option.bind_some]
      exact (PQueue.siftDown_settled _ _ _ (Nat.succ_pos i)).map fun r => r.bind fun l => some { q with elems := l, dropped := q.dropped ++ [x] }

theorem pqueue_pop_comparisons (less : α → α → Bool) (q : PQueue.PQ α) :
    Settled (2 * Nat.log2 (q.elems.length - 1)) (fun le => PQueue.pop le q) less ∧
    Settled (2 * Nat.log2 (q.elems.length - 1)) (fun le => PQueue.pull le q) less := by
  have h := pqueue_erase_comparisons less q 0
  rw [Nat.zero_add, Nat.div_one] at h
  constructor
  · exact h.map fun r => if q.elems.length = 0 then none else r
  · unfold PQueue.pull
    simp only [Option.bind_eq_bind]
    cases q.elems[0]? with
    | none => exact Settled.const _ _
    | some v => exact h.map fun r => r.bind fun q => some (q, v)

/-- C138: `make_heap` is linear. -/
theorem pqueue_make_heap_comparisons (less : α → α → Bool) (q : PQueue.PQ α) :
    Settled (2 * q.elems.length) (fun le => PQueue.makeHeap le q) less := by
  have h := PQueue.heapifyFrom_settled (less := less) q.elems.length (q.elems.length / 2) q.elems
  have h2 : 2 * PQueue.sumLog q.elems.length (q.elems.length / 2) ≤ 2 * q.elems.length := by
    rw [← PQueue.sumLog_tail q.elems.length q.elems.length (by omega)]
    have := PQueue.sumLog_le q.elems.length
    omega
  exact (h.mono h2).map fun r => r.bind fun l => some { q with elems := l }

example : ¬ Settled 0 (fun le => (PQueue.push le true (⟨true, [5], 4, []⟩ : PQueue.PQ Nat) 7).map (·.elems)) PQueue.natLess := by
  rintro ⟨qs, h1, h2⟩
  have h3 : qs = [] := by simpa using h1
  subst h3
  have := h2 (fun _ _ => false) (by simp)
  revert this
  decide

/-- The height of a reachable tree. -/
theorem smap_low {cmp : κ → κ → Int} (hc : Smap.Lawful cmp) {m : Smap.Map κ ν} {M : Smap.Spec.FMap κ ν} (h : Smap.Spec.Reach cmp m M) :
    Smap.Low m.nodes (2 * Nat.log2 (M.length + 1)) m.root := by
  obtain ⟨t, fs, hr⟩ := Smap.reach_holds hc h
  have h2 := Smap.T.height_le hr.aa
  have h3 := Smap.T.size_ge hr.aa
  rw [hr.ord.length] at h3
  have h4 : Smap.T.lev t ≤ Nat.log2 (M.length + 1) := (Nat.le_log2 (by omega)).mpr h3
  rw [hr.root]
  exact (Smap.Low.of_is hr.is).le (by omega)

/-- C139: looking a key up is decided by at most `2 * log2 (n + 1)` comparisons. -/
theorem smap_search_comparisons {cmp : κ → κ → Int} (hc : Smap.Lawful cmp) {m : Smap.Map κ ν} {M : Smap.Spec.FMap κ ν} (h : Smap.Spec.Reach cmp m M) (k : κ) :
    let n := 2 * Nat.log2 (M.length + 1)
    Settled n (fun c => Smap.find c m k) cmp ∧ Settled n (fun c => Smap.get c m k) cmp ∧ Settled n (fun c => Smap.contains c m k) cmp ∧
      Settled n (fun c => Smap.lowerBound c m k) cmp := by
  have hf : Settled (2 * Nat.log2 (M.length + 1)) (fun c => Smap.findIt c m k none) cmp :=
    Smap.findLoop_settled _ _ _ _ (smap_low hc h)
  refine ⟨hf, ?_, ?_, ?_⟩
  · exact hf.map fun r => r.bind fun it => match it.ref with
      | none => some none
      | some i => (Smap.load m.nodes i).bind fun e => some (some e)
  · exact hf.map fun r => r.bind fun it => some it.ref.isSome
  · exact hf.map fun r => r.bind fun it => match it.ref, it.st with
      | none, tn :: st => (m.nodes.rd tn).bind fun n => some ⟨some tn, some n.r, st⟩
      | _, _ => some it

/-- C139: so are inserting and erasing. -/
theorem smap_change_comparisons {cmp : κ → κ → Int} (hc : Smap.Lawful cmp) {m : Smap.Map κ ν} {M : Smap.Spec.FMap κ ν} (h : Smap.Spec.Reach cmp m M)
    (k : κ) (v : ν) (ok : Bool) :
    let n := 2 * Nat.log2 (M.length + 1)
    Settled n (fun c => Smap.insert c ok m k v) cmp ∧ Settled n (fun c => Smap.insertOrAssign c ok m k v) cmp ∧
      Settled n (fun c => Smap.erase c m k) cmp := by
  have hd : Settled (2 * Nat.log2 (M.length + 1)) (fun c => Smap.descend c m.nodes k 65 m.root [] false) cmp :=
    Smap.descend_settled _ _ _ _ _ (smap_low hc h)
  have hi : Settled (2 * Nat.log2 (M.length + 1)) (fun c => Smap.insertEntry c ok m k) cmp := hd.map fun r => r.bind fun r => match r with
      | .found tx => some (m, some tx, false)
      | .bottom up dir => (Smap.newNode ok 1 m).bind fun p =>
        if p.2 = 0 then some ({ p.1 with root := 0 }, none, false)
        else (Smap.linkNew p.1.nodes p.2 up dir).bind fun q =>
          some ({ p.1 with nodes := q.2, root := q.1, size := p.1.size + 1 }, some p.2, true)
  obtain ⟨qs, h1, h2⟩ := hi
  have h3 : ∀ c, (∀ q ∈ qs, c q.1 q.2 = cmp q.1 q.2) → Smap.insertEntry c ok m k = Smap.insertEntry cmp ok m k := h2
  refine ⟨⟨qs, h1, fun c hq => ?_⟩, ⟨qs, h1, fun c hq => ?_⟩, ?_⟩
  · simp only [Smap.insert, h3 c hq]
  · simp only [Smap.insertOrAssign, h3 c hq]
  · have := Smap.eraseR_settled (cmp := cmp) (m.nodes.length + 1) _ m.nodes m.disp m.root k 0 (smap_low hc h)
    exact this.map fun r => r.bind fun r =>
      if r.erased = 0 then some ({ m with nodes := r.d, disp := r.disp }, 0, r.dropped)
      else some ({ m with nodes := r.d, disp := r.disp, root := r.tn, size := m.size - 1 }, 1, r.dropped)

/-- Three entries: four comparisons at most, and at least one. -/
example : Settled 4 (fun c => Smap.get c Smap.sample 8) Smap.natCmp ∧ ¬ Settled 0 (fun c => Smap.get c Smap.sample 8) Smap.natCmp := by
  refine ⟨(smap_search_comparisons Smap.natCmp_lawful Smap.sample_reach 8).2.1, ?_⟩
  rintro ⟨qs, h1, h2⟩
  have h3 : qs = [] := by simpa using h1
  subst h3
  have := h2 (fun _ _ => 0) (by simp)
  revert this
  decide +kernel

end Verif.Cost
