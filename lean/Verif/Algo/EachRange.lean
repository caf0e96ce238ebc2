import Verif.Algo.Props
import Verif.Instances
import Verif.Vec.FindIn
/-
Loops over a part of a container: `c_each(it, C, start, end)`, `c_each_reverse(it, C, start, end)` and
`c_each_kv(key, val, C, start, end)` (common.h:166-167, 177-191).

The body of the loop is one that reads the element. The iterators of the range are those reached from the first one by
`next`.
-/
namespace Verif.Algo
open Spec
open scoped List
variable {ι α : Type}

/-- common.h:180-182 `_c_each` (and 190-195 `_c_each_kv`) for at most `fuel` rounds: goes on until the reference is the
one of the second iterator. The elements are collected in the order of the visits; reading through NULL is undefined. -/
def eachRange (W : Walker ι α) (stop : Option Nat) : Nat → ι → Option (List α)
  | 0, _ => none
  | fuel + 1, it =>
    if W.ref it = stop then some []
    else (W.load it).bind fun x => (W.next it).bind fun it' => (eachRange W stop fuel it').map (x :: ·)

/-- The iterator `k` steps further. -/
def steps (W : Walker ι α) : Nat → ι → Option ι
  | 0, it => some it
  | k + 1, it => (W.next it).bind (steps W k)

/-- The iterators on the way over `n` elements have different references. -/
def Apart (W : Walker ι α) (it : ι) (n : Nat) : Prop :=
  ∀ i j a b, i ≤ n → j ≤ n → steps W i it = some a → steps W j it = some b → W.ref a = W.ref b → i = j

theorem steps_yields {W : Walker ι α} {it : ι} {xs : List α} (h : Yields W it xs) : ∀ k, k ≤ xs.length →
    ∃ a, steps W k it = some a ∧ Yields W a (xs.drop k) := by
  induction h with
  | nil it h0 => intro k hk; exact ⟨it, by cases k with | zero => rfl | succ k => simp at hk, by simpa using .nil it h0⟩
  | cons it it' r x xs h1 h2 h3 hy ih =>
    intro k hk
    cases k with
    | zero => exact ⟨it, rfl, .cons it it' r x xs h1 h2 h3 hy⟩
    | succ k =>
      obtain ⟨a, e1, e2⟩ := ih k (by simpa using hk)
      exact ⟨a, by rw [steps, h3, Option.bind_some, e1], by simpa using e2⟩

theorem steps_succ {W : Walker ι α} : ∀ {k : Nat} {it a : ι}, steps W k it = some a → steps W (k + 1) it = W.next a := by
  intro k
  induction k with
  | zero =>
    intro it a h
    simp only [steps, Option.some.injEq] at h
    subst h
    cases hn : W.next it <;> simp [steps, hn]
  | succ k ih =>
    intro it a h
    rw [steps] at h
    cases hn : W.next it with
    | none => rw [hn] at h; simp at h
    | some it' =>
      rw [hn, Option.bind_some] at h
      rw [steps, hn, Option.bind_some, ih h]

theorem eachRange_spec {W : Walker ι α} {it : ι} {xs : List α} (h : Yields W it xs) (ha : Apart W it xs.length) {j : Nat} {b : ι}
    (hb : steps W j it = some b) (hj : j ≤ xs.length) : ∀ (d i fuel : Nat) (a : ι), steps W i it = some a → i + d = j → d < fuel →
    eachRange W (W.ref b) fuel a = some ((xs.take j).drop i) := by
  intro d
  induction d with
  | zero =>
    intro i fuel a e hi hf
    obtain ⟨f, rfl⟩ : ∃ f, fuel = f + 1 := ⟨fuel - 1, by omega⟩
    have : i = j := by omega
    subst this
    rw [e, Option.some.injEq] at hb
    subst hb
    rw [eachRange, if_pos rfl, List.drop_of_length_le (by simp)]
  | succ d ih =>
    intro i fuel a e hi hf
    obtain ⟨f, rfl⟩ : ∃ f, fuel = f + 1 := ⟨fuel - 1, by omega⟩
    have hil : i < xs.length := by omega
    obtain ⟨a', e1, e2⟩ := steps_yields h i (by omega)
    rw [e, Option.some.injEq] at e1
    subst e1
    have hs : xs.drop i = xs[i] :: xs.drop (i + 1) := List.drop_eq_getElem_cons hil
    rw [hs] at e2
    have hsplit : (xs.take j).drop i = xs[i] :: (xs.take j).drop (i + 1) := by
      rw [List.drop_eq_getElem_cons (by simp; omega)]; simp
    cases e2 with
    | cons _ it' r _ _ h1 h2 h3 hy =>
      rw [eachRange, if_neg (fun hh => absurd (ha i j a b (by omega) hj e hb hh) (by omega)), h2, Option.bind_some, h3, Option.bind_some,
        ih (i + 1) f it' (by rw [steps_succ e, h3]) (by omega) (by omega), hsplit]
      rfl

theorem eachRange_past {W : Walker ι α} (hl : ∀ it, W.ref it = none → W.load it = none) {it : ι} {xs : List α} (h : Yields W it xs)
    (ha : Apart W it xs.length) {j : Nat} {b : ι} (hb : steps W j it = some b) (hj : j ≤ xs.length) :
    ∀ (fuel i : Nat) (a : ι), steps W i it = some a → j < i → i ≤ xs.length → eachRange W (W.ref b) fuel a = none := by
  intro fuel
  induction fuel with
  | zero => intros; rfl
  | succ f ih =>
    intro i a e hji hi
    obtain ⟨a', e1, e2⟩ := steps_yields h i hi
    rw [e, Option.some.injEq] at e1
    subst e1
    rw [eachRange, if_neg (fun hh => absurd (ha i j a b hi hj e hb hh) (by omega))]
    by_cases hil : i < xs.length
    · rw [List.drop_eq_getElem_cons hil] at e2
      cases e2 with
      | cons _ it' r _ _ h1 h2 h3 hy =>
        rw [h2, Option.bind_some, h3, Option.bind_some, ih (i + 1) it' (by rw [steps_succ e, h3]) (by omega) (by omega)]
        rfl
    · rw [List.drop_of_length_le (by omega)] at e2
      cases e2 with
      | nil _ h0 => rw [hl a h0]; rfl

/-! ### the references of the iterators are different -/

/-- If `next` looks at the reference only, iterators with the same reference have as far to go. -/
theorem same_length {W : Walker ι α} {J : ι → Prop} (hJ : ∀ a a', J a → W.next a = some a' → J a')
    (hd : ∀ a b a' b', J a → J b → W.ref a = W.ref b → W.next a = some a' → W.next b = some b' → W.ref a' = W.ref b')
    {a : ι} {xs : List α} (h : Yields W a xs) : ∀ {b : ι} {ys : List α}, Yields W b ys → J a → J b → W.ref a = W.ref b → xs.length = ys.length := by
  induction h with
  | nil a h0 =>
    intro b ys hb _ _ hr
    cases hb with
    | nil _ _ => rfl
    | cons _ _ _ _ _ g1 => rw [h0, g1] at hr; cases hr
  | cons a a' r x xs h1 h2 h3 _ ih =>
    intro b ys hb ja jb hr
    cases hb with
    | nil _ g0 => rw [h1, g0] at hr; cases hr
    | cons _ b' _ _ _ g1 g2 g3 g4 =>
      rw [List.length_cons, List.length_cons, ih g4 (hJ _ _ ja h3) (hJ _ _ jb g3) (hd _ _ _ _ ja jb hr h3 g3)]

theorem steps_inv {W : Walker ι α} {J : ι → Prop} (hJ : ∀ a a', J a → W.next a = some a' → J a') : ∀ {k : Nat} {it a : ι}, J it →
    steps W k it = some a → J a := by
  intro k
  induction k with
  | zero => intro it a j h; simp only [steps, Option.some.injEq] at h; exact h ▸ j
  | succ k ih =>
    intro it a j h
    rw [steps] at h
    cases hn : W.next it with
    | none => rw [hn] at h; simp at h
    | some it' => rw [hn, Option.bind_some] at h; exact ih (hJ _ _ j hn) h

theorem apart_of_next {W : Walker ι α} {J : ι → Prop} (hJ : ∀ a a', J a → W.next a = some a' → J a')
    (hd : ∀ a b a' b', J a → J b → W.ref a = W.ref b → W.next a = some a' → W.next b = some b' → W.ref a' = W.ref b')
    {it : ι} {xs : List α} (h : Yields W it xs) (h0 : J it) : Apart W it xs.length := by
  intro i j a b hi hj ea eb hr
  obtain ⟨a', e1, e2⟩ := steps_yields h i hi
  obtain ⟨b', g1, g2⟩ := steps_yields h j hj
  rw [ea, Option.some.injEq] at e1
  rw [eb, Option.some.injEq] at g1
  subst e1; subst g1
  have := same_length hJ hd e2 g2 (steps_inv hJ h0 ea) (steps_inv hJ h0 eb) hr
  simp only [List.length_drop] at this
  omega

theorem apart_of_values {W : Walker ι α} (hl : ∀ a b, W.ref a = W.ref b → W.load a = W.load b) {it : ι} {xs : List α} (h : Yields W it xs)
    (hn : xs.Nodup) : Apart W it xs.length := by
  intro i j a b hi hj ea eb hr
  obtain ⟨a', e1, e2⟩ := steps_yields h i hi
  obtain ⟨b', g1, g2⟩ := steps_yields h j hj
  rw [ea, Option.some.injEq] at e1
  rw [eb, Option.some.injEq] at g1
  subst e1; subst g1
  rcases Nat.lt_or_ge i xs.length with h1 | h1 <;> rcases Nat.lt_or_ge j xs.length with h2 | h2
  · rw [List.drop_eq_getElem_cons h1] at e2
    rw [List.drop_eq_getElem_cons h2] at g2
    cases e2 with
    | cons _ _ _ _ _ _ p2 =>
      cases g2 with
      | cons _ _ _ _ _ _ q2 =>
        have := hl a b hr
        rw [p2, q2, Option.some.injEq] at this
        exact (List.Nodup.getElem_inj_iff hn).1 this
  · rw [List.drop_eq_getElem_cons h1] at e2
    rw [List.drop_of_length_le h2] at g2
    cases e2 with
    | cons _ _ _ _ _ p1 _ => cases g2 with | nil _ q0 => rw [p1, q0] at hr; cases hr
  · rw [List.drop_of_length_le h1] at e2
    rw [List.drop_eq_getElem_cons h2] at g2
    cases e2 with
    | nil _ p0 => cases g2 with | cons _ _ _ _ _ q1 _ => rw [p0, q1] at hr; cases hr
  · omega

/-- What a loop over a range has to do: visit the elements from the place of the first iterator up to, not including,
the place of the second one. A range given the wrong way round runs off the end. -/
def RangeLoops (W : Walker ι α) (it : ι) (xs : List α) : Prop :=
  ∀ i j, i ≤ xs.length → j ≤ xs.length → ∃ a b, steps W i it = some a ∧ steps W j it = some b ∧
    (i ≤ j → ∀ f, xs.length < f → eachRange W (W.ref b) f a = some ((xs.take j).drop i)) ∧
    (j < i → ∀ f, eachRange W (W.ref b) f a = none)

theorem rangeLoops {W : Walker ι α} (hl : ∀ it, W.ref it = none → W.load it = none) {it : ι} {xs : List α} (h : Yields W it xs)
    (ha : Apart W it xs.length) : RangeLoops W it xs := by
  intro i j hi hj
  obtain ⟨a, e1, _⟩ := steps_yields h i hi
  obtain ⟨b, g1, _⟩ := steps_yields h j hj
  exact ⟨a, b, e1, g1, fun hij f hf => eachRange_spec h ha g1 hj (j - i) i f a e1 (by omega) (by omega),
    fun hji f => eachRange_past hl h ha g1 hj f i a e1 hji hi⟩

/-! ### the containers -/

theorem rangeLoops_vec {v : Vec.Vec α} {l : List α} (h : Vec.Rep v l) (hne : l ≠ [] ∨ v.data = none) : RangeLoops (vecWalker v) (Vec.begin v) l := by
  have hy := vec_yields_begin h hne
  refine rangeLoops ?_ hy (apart_of_next (J := fun it => it.fin = (Vec.begin v).fin) ?_ ?_ hy rfl)
  · intro it hr
    simp only [vecWalker] at hr ⊢
    cases v.blk <;> simp [hr]
  · intro a a' ja hn
    simp only [vecWalker, Option.some.injEq] at hn
    subst hn
    unfold Vec.next
    split
    · exact ja
    · split <;> exact ja
  · intro a b a' b' ja jb hr hn hm
    simp only [vecWalker, Option.some.injEq] at hn hm hr
    have : a = b := by
      cases a; cases b
      simp only at ja jb hr
      rw [hr, ja, jb]
    subst this
    rw [← hn, ← hm]

/-- The iterators of vec and stack, backwards (vec.h:221-225 and 236-237, stack.h:219-223 and 234-235); `ref` never
holds the pointer before the buffer, `end` does. -/
def vecRWalker (v : Vec.Vec α) : Walker Vec.PIter α where
  ref it := it.ref.map Int.toNat
  load it := Vec.pderef v it
  next it := Vec.prnext it

theorem vec_ryields {v : Vec.Vec α} {l : List α} (h : Vec.Rep v l) : ∀ k, k < l.length → Yields (vecRWalker v) ⟨some (k : Int), -1⟩ (l.take (k + 1)).reverse := by
  intro k
  induction k with
  | zero =>
    intro hk
    have hne : l ≠ [] := by rintro rfl; simp at hk
    have hd := Vec.rep_deref h hne 0
    rw [Vec.place, if_pos hk, List.getElem?_eq_getElem hk] at hd
    have : (l.take (0 + 1)).reverse = [l[0]] := by rw [List.take_succ_eq_append_getElem hk]; simp
    rw [this]
    exact .cons _ ⟨none, -1⟩ 0 _ _ rfl hd rfl (.nil _ rfl)
  | succ k ih =>
    intro hk
    have hne : l ≠ [] := by rintro rfl; simp at hk
    have hd := Vec.rep_deref h hne (k + 1)
    rw [Vec.place, if_pos hk, List.getElem?_eq_getElem hk] at hd
    rw [List.take_succ_eq_append_getElem hk, List.reverse_append, List.reverse_singleton, List.singleton_append]
    refine .cons _ ⟨some (k : Int), -1⟩ (k + 1) _ _ (by simp [vecRWalker]) hd ?_ (ih (by omega))
    simp only [vecRWalker, Vec.prnext, Option.map_some]
    rw [if_neg (by omega)]
    congr 3; omega

theorem rangeLoops_vec_reverse {v : Vec.Vec α} {l : List α} (h : Vec.Rep v l) (hne : l ≠ [] ∨ v.data = none) :
    RangeLoops (vecRWalker v) (Vec.prbegin v) l.reverse := by
  have hy : Yields (vecRWalker v) (Vec.prbegin v) l.reverse := by
    cases hd : v.data with
    | none =>
      obtain ⟨_, rfl⟩ := h.null hd
      exact .nil _ (by simp [vecRWalker, Vec.prbegin, hd])
    | some b =>
      have hl : l ≠ [] := by
        rcases hne with hh | hh
        · exact hh
        · simp [hd] at hh
      have hpos := List.length_pos_iff.2 hl
      have := vec_ryields h (l.length - 1) (by omega)
      rw [List.take_of_length_le (by omega)] at this
      rw [Vec.prbegin, if_pos (by simp [hd]), h.size, show ((l.length : Int) - 1) = ((l.length - 1 : Nat) : Int) by omega]
      exact this
  refine rangeLoops ?_ hy (apart_of_next (J := fun it => (∀ r, it.ref = some r → 0 ≤ r) ∧ (it.ref ≠ none → it.fin = -1)) ?_ ?_ hy ?_)
  · intro it hr
    simp only [vecRWalker, Option.map_eq_none_iff] at hr ⊢
    rw [Vec.pderef, hr]; rfl
  · rintro ⟨r, e⟩ a' ⟨j1, j2⟩ hn
    cases r with
    | none => simp [vecRWalker, Vec.prnext] at hn
    | some r =>
      have h1 := j1 r rfl
      have h2 := j2 (by simp)
      simp only at h2
      subst h2
      simp only [vecRWalker, Vec.prnext, Option.map_some, Option.some.injEq] at hn
      subst hn
      split
      · exact ⟨by simp, by simp⟩
      · rename_i hx
        exact ⟨fun q hq => by simp only [Option.some.injEq] at hq; omega, fun _ => rfl⟩
  · rintro ⟨r, e⟩ ⟨q, e'⟩ a' b' ⟨j1, j2⟩ ⟨g1, g2⟩ hr hn hm
    cases r with
    | none => simp [vecRWalker, Vec.prnext] at hn
    | some r =>
      cases q with
      | none => simp [vecRWalker, Vec.prnext] at hm
      | some q =>
        have h1 := j1 r rfl
        have h2 := j2 (by simp)
        have h3 := g1 q rfl
        have h4 := g2 (by simp)
        simp only at h2 h4
        subst h2; subst h4
        simp only [vecRWalker, Option.map_some, Option.some.injEq] at hr
        have : r = q := by omega
        subst this
        rw [hn, Option.some.injEq] at hm
        rw [hm]
  · unfold Vec.prbegin
    split
    · rename_i hd
      refine ⟨?_, fun _ => rfl⟩
      intro r hr
      have hl : l ≠ [] := by
        rcases hne with hh | hh
        · exact hh
        · simp [hh] at hd
      have hpos := List.length_pos_iff.2 hl
      simp only [Option.some.injEq, h.size] at hr
      omega
    · exact ⟨by simp, by simp⟩

/-- C176 (partial: the vec is not empty, or was never allocated; see `each_range_vec_undefined`): the loops over a range
of a vec, in both directions. -/
theorem each_range_vec_partial {v : Vec.Vec α} {l ent outs : List α} (h : Vec.Spec.Reach v l ent outs) (hne : l ≠ [] ∨ v.data = none) :
    RangeLoops (vecWalker v) (Vec.begin v) l ∧ RangeLoops (vecRWalker v) (Vec.prbegin v) l.reverse :=
  ⟨rangeLoops_vec (Vec.reach_rep h) hne, rangeLoops_vec_reverse (Vec.reach_rep h) hne⟩

/-- C176 for a stack, growing or of fixed capacity (partial as before). -/
theorem each_range_stack_partial {fixed : Option Nat} (hx : fixed ≠ some 0) {s : Stack.Stack α} {l : List α} (h : Stack.Spec.Reach fixed s l)
    (hne : l ≠ [] ∨ s.data = none) : RangeLoops (vecWalker s) (Vec.begin s) l ∧ RangeLoops (vecRWalker s) (Vec.prbegin s) l.reverse :=
  ⟨rangeLoops_vec (Stack.reach_inv hx h).rep hne, rangeLoops_vec_reverse (Stack.reach_inv hx h).rep hne⟩

/-- C176, refutation of the unrestricted claim: on a vec emptied by `pop` the loop from `begin` to `end` reads a dead
slot. -/
theorem each_range_vec_undefined : ∃ v : Vec.Vec Nat, Vec.Spec.Reach v [] [5] [] ∧ ∀ f, eachRange (vecWalker v) none f (Vec.begin v) = none := by
  refine ⟨⟨some [none, none, none, none], 0, 4, [5]⟩, ?_, ?_⟩
  · exact .call (o := .pop) (.call (o := .push true 5) .init trivial rfl) (by simp [Vec.Spec.valid, Vec.Spec.after]) rfl
  · intro f
    cases f <;> rfl

/-- An iterator of a deque points at its position. -/
def Steady (it : Deque.Iter) : Prop := ∀ r, it.ref = some r → it.pos = r

theorem steady_next {d : Deque.Deque α} {a a' : Deque.Iter} (ja : Steady a) (hn : Deque.next d a = some a') : Steady a' := by
  unfold Deque.next at hn
  cases hr : a.ref with
  | none => rw [hr] at hn; simp at hn
  | some r =>
    have hp := ja r hr
    rw [hr] at hn
    simp only [Option.bind_eq_bind, Option.bind_some, Option.some.injEq] at hn
    subst hn
    intro q hq
    simp only at hq
    split at hq <;> split at hq <;> simp_all

theorem steady_rnext {d : Deque.Deque α} {a a' : Deque.Iter} (ja : Steady a) (hn : Deque.rnext d a = some a') : Steady a' := by
  unfold Deque.rnext at hn
  cases hr : a.ref with
  | none => rw [hr] at hn; simp at hn
  | some r =>
    have hp := ja r hr
    rw [hr] at hn
    simp only [Option.bind_eq_bind, Option.bind_some, Option.some.injEq] at hn
    subst hn
    intro q hq
    split at hq
    · simp at hq
    · split at hq <;> simp_all

theorem steady_eq {a b : Deque.Iter} (ja : Steady a) (jb : Steady b) (hr : a.ref = b.ref) (hs : a.ref ≠ none) : a = b := by
  obtain ⟨r, h1⟩ := Option.ne_none_iff_exists'.1 hs
  have h2 := jb r (hr ▸ h1)
  have h3 := ja r h1
  cases a; cases b
  simp only at h2 h3 hr
  rw [hr, h2, h3]

/-- C176: the loop over a range of a deque or queue. -/
theorem each_range_deque {d : Deque.Deque α} {l : List α} (h : Deque.Spec.Reach d l) : RangeLoops (dequeWalker d) (Deque.begin d) l := by
  have hy := iterate_deque h
  refine rangeLoops ?_ hy (apart_of_next (J := Steady) (fun a a' => steady_next) ?_ hy ?_)
  · intro it hr
    simp only [dequeWalker] at hr ⊢
    cases d.cbuf <;> simp [hr]
  · intro a b a' b' ja jb hr hn hm
    have hs : a.ref ≠ none := by
      intro h0; simp [dequeWalker, Deque.next, h0] at hn
    have := steady_eq ja jb hr hs
    subst this
    rw [hn, Option.some.injEq] at hm
    rw [hm]
  · intro r hr
    simp only [Deque.begin] at hr ⊢
    split at hr <;> simp_all

/-- C176: the loop over a range of a deque or queue, backwards. -/
theorem each_range_deque_reverse {d : Deque.Deque α} {l : List α} (h : Deque.Spec.Reach d l) :
    RangeLoops (dequeRWalker d) (Deque.rbegin d) l.reverse := by
  have hy := iterate_deque_reverse h
  refine rangeLoops ?_ hy (apart_of_next (J := Steady) (fun a a' => steady_rnext) ?_ hy ?_)
  · intro it hr
    simp only [dequeRWalker] at hr ⊢
    cases d.cbuf <;> simp [hr]
  · intro a b a' b' ja jb hr hn hm
    have hs : a.ref ≠ none := by
      intro h0; simp [dequeRWalker, Deque.rnext, h0] at hn
    have := steady_eq ja jb hr hs
    subst this
    rw [hn, Option.some.injEq] at hm
    rw [hm]
  · intro r hr
    simp only [Deque.rbegin] at hr ⊢
    split at hr <;> simp_all

/-- C176: the loop over a range of a hash map, in the order of the iteration. -/
theorem each_range_hmap {κ ν : Type} {H : Hmap.Hasher κ} (LH : Hmap.Spec.Lawful H) {m : Hmap.Map κ ν} {M : Hmap.Spec.FMap κ ν} (h : Hmap.Spec.Reach H m M) :
    ∃ it es, Hmap.begin' m = some it ∧ es ~ M ∧ RangeLoops (hmapWalker m) it es := by
  obtain ⟨it, es, h1, h2, hy⟩ := iterate_hmap LH h
  refine ⟨it, es, h1, h2, rangeLoops ?_ hy (apart_of_next (J := fun _ => True) (fun _ _ _ _ => trivial) ?_ hy trivial)⟩
  · intro it hr
    simp only [hmapWalker] at hr ⊢
    rw [hr]; rfl
  · intro a b a' b' _ _ hr hn hm
    simp only [hmapWalker] at hr
    subst hr
    rw [hn, Option.some.injEq] at hm
    rw [hm]

/-- C176: the loop over a range of a sorted map, in key order. -/
theorem each_range_smap {κ ν : Type} [DecidableEq κ] {cmp : κ → κ → Int} (hc : Smap.Lawful cmp) {m : Smap.Map κ ν} {M : Smap.Spec.FMap κ ν}
    (h : Smap.Spec.Reach cmp m M) : ∃ it, Smap.begin' m = some it ∧ RangeLoops (smapWalker m) it M := by
  obtain ⟨it, h1, hy⟩ := iterate_smap hc h
  have hn : M.Nodup := by
    refine List.Pairwise.imp ?_ (Smap.reach_holds hc h).asc
    intro a b hab he
    subst he
    rw [hc.refl] at hab
    omega
  refine ⟨it, h1, rangeLoops ?_ hy (apart_of_values ?_ hy hn)⟩
  · intro it hr
    simp only [smapWalker] at hr ⊢
    rw [hr]; rfl
  · intro a b hr
    simp only [smapWalker] at hr ⊢
    rw [hr]

/-- C176: the loop over a range of a list. -/
theorem each_range_list {F : Clist.Fns α} (hw : StrictWeak F.less) {m : Clist.Mem α} (h : Clist.Spec.Reach F m) (s : Nat) :
    ∃ it, Clist.begin s (m.lst s) = some it ∧ RangeLoops (listWalker m) it (Clist.Spec.contents m s) := by
  obtain ⟨it, h1, hy⟩ := iterate_list hw h s
  refine ⟨it, h1, rangeLoops ?_ hy (apart_of_next (J := fun a => a.home = it.home) ?_ ?_ hy rfl)⟩
  · intro it hr
    simp only [listWalker] at hr ⊢
    rw [hr]; rfl
  · intro a a' ja hn
    simp only [listWalker, Clist.next] at hn
    rw [← ja]
    cases h1 : a.ref with
    | none => simp [h1] at hn
    | some node =>
      cases h2 : a.home with
      | none => simp [h1, h2] at hn
      | some o =>
        cases h3 : Clist.nextAt m.heap (m.last o) node with
        | none => simp [h1, h2, h3] at hn
        | some r =>
          simp only [h1, h2, h3, Option.bind_eq_bind, Option.bind_some, Option.some.injEq] at hn
          rw [← hn]
  · intro a b a' b' ja jb hr hn hm
    simp only [listWalker] at hr
    simp only [listWalker, Clist.next] at hn hm
    rw [← hr, jb, ← ja, hn, Option.some.injEq] at hm
    rw [hm]

/-- The vec 1, 2, 5, 4, 7, 1, 9: the loop from the third element up to the sixth. -/
example : (steps (vecWalker sampleVec) 2 (Vec.begin sampleVec)).bind (fun a => (steps (vecWalker sampleVec) 5 (Vec.begin sampleVec)).bind fun b =>
    eachRange (vecWalker sampleVec) b.ref 8 a) = some [5, 4, 7] := rfl

example : RangeLoops (vecWalker sampleVec) (Vec.begin sampleVec) [1, 2, 5, 4, 7, 1, 9] := (each_range_vec_partial sampleVec_reach (.inl (by simp))).1

/-- Backwards from the second last element up to the last but four. -/
example : (steps (vecRWalker sampleVec) 1 (Vec.prbegin sampleVec)).bind (fun a => (steps (vecRWalker sampleVec) 4 (Vec.prbegin sampleVec)).bind fun b =>
    eachRange (vecRWalker sampleVec) ((vecRWalker sampleVec).ref b) 8 a) = some [1, 7, 4] := rfl

example : ∃ d : Deque.Deque Nat, RangeLoops (dequeWalker d) (Deque.begin d) [9, 8, 1, 2, 3] ∧ RangeLoops (dequeRWalker d) (Deque.rbegin d) [3, 2, 1, 8, 9] := by
  obtain ⟨d, h, -⟩ := sampleDeque_reach
  exact ⟨d, each_range_deque h, each_range_deque_reverse h⟩

example := each_range_smap Smap.natCmp_lawful Smap.sample_reach
example := each_range_hmap Hmap.natHasher_lawful Hmap.sample_reach

example : ∃ (m : Clist.Mem Nat) (it : Clist.Iter), Clist.begin 0 (m.lst 0) = some it ∧ RangeLoops (listWalker m) it [5, 8] := by
  obtain ⟨m, h, h0, -⟩ := Clist.two_lists
  obtain ⟨it, e1, e2⟩ := each_range_list Clist.exF_weak h 0
  exact ⟨m, it, e1, by rwa [h0] at e2⟩

end Verif.Algo
