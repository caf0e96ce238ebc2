import Verif.Vec.Cap
import Verif.Stack.Cap
import Verif.Deque.Cap
import Verif.PQueue.Cap
import Verif.Hmap.Cap
import Verif.Smap.Cap
import Verif.Cstr.Cap
/-
C134: what a successful `reserve` promises. C135: what growing costs altogether.

`Within n v l w k` (in the `Cap` file of each container) are the histories of ordinary calls, with an
allocator doing anything, from `v` to `w` in which every call fits in room for `n` elements; `starved`
and `given false` are the same call with an allocator that has nothing to give. A call whose outcome is the
same when starved has not moved the elements.
-/
namespace Verif.Cost
variable {α κ ν : Type}

/-! ### C134 -/

/-- C134 for `vec`, with the full statement weakened for `insert_n` (`fits`): an insertion has to leave one
place free. After `reserve(n)` reported success, as long as calls fit in `n` elements the capacity stays,
and every call succeeds and does the same when there is no memory. -/
theorem vec_reserved_partial {v v' w : Vec.Vec α} {l k ent outs : List α} {n : Nat} {ok : Bool} {r : Vec.Reply α}
    (h : Vec.Spec.Reach v l ent outs) (hs : Vec.step v (.reserve ok n) = some (v', r)) (hok : r.ok = true)
    (hw : Vec.Spec.Within n v' l w k) :
    n ≤ v'.cap ∧ w.cap = v'.cap ∧
    ∀ o, Vec.Spec.valid k o → Vec.Spec.ordinary o → Vec.Spec.fits n k o →
      ∃ w' r', Vec.step w o = some (w', r') ∧ Vec.step w (Vec.Spec.starved o) = some (w', r') ∧ r'.ok = true ∧ w'.cap = v'.cap := by
  have hr := Vec.reach_rep h
  obtain ⟨s1, -, -, s4, -⟩ := Vec.reserve_spec hr ok n
  simp only [Vec.step] at hs
  cases hs
  have hn := (s4 hok).1
  obtain ⟨h1, h2⟩ := Vec.within_rep s1 hn hw
  refine ⟨hn, h2, fun o hv ho hf => ?_⟩
  have hf' : Vec.Spec.fits w.cap k o := by
    rw [h2]
    cases o with
    | push => exact Nat.lt_of_lt_of_le hf hn
    | insertN => exact Nat.lt_of_lt_of_le hf hn
    | _ => trivial
  obtain ⟨w', r', e1, e2, e3, e4⟩ := Vec.room h1 hv ho hf'
  exact ⟨w', r', e1, e2, e3, e4.trans h2⟩

/-- After `reserve(3)` on an empty vec and two pushes without memory, a third push without memory succeeds. -/
example : ∃ w' r', Vec.step (⟨some [some 1, some 2, none], 2, 3, []⟩ : Vec.Vec Nat) (.push false 9) = some (w', r') ∧ r'.ok = true ∧ w'.cap = 3 := by
  have hw : Vec.Spec.Within 3 (⟨some [none, none, none], 0, 3, []⟩ : Vec.Vec Nat) [] ⟨some [some 1, some 2, none], 2, 3, []⟩ [1, 2] :=
    .call (o := .push false 2) (r := ⟨true, none⟩)
      (.call (o := .push false 1) (r := ⟨true, none⟩) .start (by decide) trivial (by decide) rfl) (by decide) trivial (by decide) rfl
  obtain ⟨-, -, h⟩ := vec_reserved_partial (ok := true) (r := ⟨true, none⟩) Vec.Spec.Reach.init rfl rfl hw
  obtain ⟨w', r', h1, -, h3, h4⟩ := h (.push false 9) (by decide) trivial (by decide)
  exact ⟨w', r', h1, h3, h4⟩

/-- C134 is false of `vec.insert_n` that fills the capacity exactly: after `reserve(4)` and two pushes, two
elements inserted at once need the allocator again. -/
theorem vec_reserved_insert_asks :
    ∃ v w : Vec.Vec Nat, ∃ r, Vec.step Vec.init (.reserve true 4) = some (v, r) ∧ r.ok = true ∧ v.cap = 4 ∧
      Vec.Spec.Within 4 v [] w [1, 2] ∧ Vec.step w (.insertN false 2 [3, 4]) = some (w, ⟨false, none⟩) :=
  ⟨⟨some [none, none, none, none], 0, 4, []⟩, ⟨some [some 1, some 2, none, none], 2, 4, []⟩, ⟨true, none⟩, rfl, rfl, rfl,
    .call (o := .push false 2) (r := ⟨true, none⟩)
      (.call (o := .push false 1) (r := ⟨true, none⟩) .start (by decide) trivial (by decide) rfl) (by decide) trivial (by decide) rfl, rfl⟩

/-- C134 is false of `vec.resize` to the present size: it gives back the reserved memory. -/
theorem vec_reserved_resize_shrinks :
    ∃ v v' : Vec.Vec Nat, ∃ r r', Vec.step (⟨some [some 1, some 2], 2, 2, []⟩ : Vec.Vec Nat) (.reserve true 10) = some (v, r) ∧ r.ok = true ∧
      v.cap = 10 ∧ Vec.step v (.resize true 2 0) = some (v', r') ∧ v'.cap = 2 := by
  refine ⟨_, _, _, _, rfl, rfl, rfl, rfl, rfl⟩

/-- The same for `stack` (`append` has to leave one place free). -/
theorem stack_reserved_partial {s s' t : Stack.Stack α} {l k : List α} {n : Nat} {ok : Bool} {x : Option α}
    (h : Stack.Spec.Reach none s l) (hs : Stack.step none s (.reserve ok n) = some (s', true, x)) (hw : Stack.Spec.Within n s' l t k) :
    n ≤ s'.cap ∧ t.cap = s'.cap ∧
    ∀ o, Stack.Spec.valid k o → Stack.Spec.ordinary o → Stack.Spec.fits n k o →
      ∃ t' y, Stack.step none t o = some (t', true, y) ∧ Stack.step none t (Stack.Spec.starved o) = some (t', true, y) ∧ t'.cap = s'.cap := by
  have hr := Stack.reach_inv (by simp) h
  obtain ⟨s1, -, s3, -⟩ := Stack.reserve_spec hr ok n
  simp only [Stack.step, Option.some.injEq, Prod.mk.injEq] at hs
  obtain ⟨rfl, hok, -⟩ := hs
  have hn := (s3 hok).1
  obtain ⟨h1, h2⟩ := Stack.within_inv s1 hn hw
  refine ⟨hn, h2, fun o hv ho hf => ?_⟩
  have hf' : Stack.Spec.fits t.cap k o := by
    rw [h2]
    cases o with
    | push => exact Nat.lt_of_lt_of_le hf hn
    | append => exact Nat.lt_of_lt_of_le hf hn
    | _ => trivial
  obtain ⟨t', y, e1, e2, e3⟩ := Stack.room h1 hv ho hf'
  exact ⟨t', y, e1, e2, e3.trans h2⟩

example : ∃ t' y, Stack.step none (⟨some [some 1, none], 1, 2, []⟩ : Stack.Stack Nat) (.push false 9) = some (t', true, y) ∧ t'.cap = 2 := by
  have hw : Stack.Spec.Within 2 (⟨some [none, none], 0, 2, []⟩ : Stack.Stack Nat) [] ⟨some [some 1, none], 1, 2, []⟩ [1] :=
    .call (o := .push false 1) (ok := true) (x := none) .start (by decide) trivial (by decide) rfl
  obtain ⟨-, -, h⟩ := stack_reserved_partial (ok := true) (x := none) Stack.Spec.Reach.init rfl hw
  obtain ⟨t', y, h1, -, h3⟩ := h (.push false 9) (by decide) trivial (by decide)
  exact ⟨t', y, h1, h3⟩

/-- C134 is false of an `append` to a stack that fills the capacity exactly. -/
theorem stack_reserved_append_asks :
    ∃ s t : Stack.Stack Nat, Stack.step none (Stack.init none) (.reserve true 4) = some (s, true, none) ∧ s.cap = 4 ∧
      Stack.Spec.Within 4 s [] t [1, 2] ∧ Stack.step none t (.append false [3, 4]) = some (t, false, none) :=
  ⟨⟨some [none, none, none, none], 0, 4, []⟩, ⟨some [some 1, some 2, none, none], 2, 4, []⟩, rfl, rfl,
    .call (o := .push false 2) (ok := true) (x := none)
      (.call (o := .push false 1) (ok := true) (x := none) .start (by decide) trivial (by decide) rfl) (by decide) trivial (by decide) rfl,
    rfl⟩

/-- C134 for `deque` and `queue`: here insertions may fill the room exactly. -/
theorem deque_reserved {d d' e : Deque.Deque α} {l k : List α} {n : Nat} {ok : Bool} {r : Deque.Reply α} (h0 : 0 < n)
    (h : Deque.Spec.Reach d l) (hv : Deque.Spec.valid l (.reserve ok n)) (hs : Deque.step d (.reserve ok n) = some (d', r)) (hok : r.ok = true)
    (hw : Deque.Spec.Within n d' l e k) :
    n ≤ d'.capmask ∧ e.capmask = d'.capmask ∧
    ∀ o, Deque.Spec.valid k (Deque.Spec.given true o) → Deque.Spec.ordinary o → k.length + Deque.Spec.credit o ≤ n →
      ∃ e' r', Deque.step e o = some (e', r') ∧ Deque.step e (Deque.Spec.given false o) = some (e', r') ∧ r'.ok = true ∧
        e'.capmask = d'.capmask := by
  have hr := Deque.reach_rep h
  have hv' : n < 2 ^ 61 := hv
  obtain ⟨d1, b, e1, e2, -, e4, -⟩ := Deque.reserve_spec hr ok n (by unfold Deque.fits; omega)
  simp only [Deque.step, e1, Option.bind_eq_bind, Option.bind_some] at hs
  cases hs
  have hn := (e4 hok).1
  obtain ⟨h1, h2⟩ := Deque.within_rep e2 hn hw
  refine ⟨hn, h2, fun o hv ho hf => ?_⟩
  have hf' : k.length + Deque.Spec.credit o ≤ e.capmask := by omega
  obtain ⟨e', r', g1, -⟩ := Deque.step_spec h1 _ hv
  rw [Deque.room_same h1 ho hv hf' true] at g1
  have hc := (Deque.step_cap h1 ho hv g1).1 hf'
  exact ⟨e', r', g1, by rw [Deque.room_same h1 ho hv hf' false, g1], hc.2 (by omega), hc.1.trans h2⟩

example : ∃ e' r', Deque.step (⟨some [some 1, none, none, none], 0, 1, 3, []⟩ : Deque.Deque Nat) (.insertN false 0 [8, 9]) = some (e', r') ∧
    r'.ok = true ∧ e'.capmask = 3 := by
  have hw : Deque.Spec.Within 3 (⟨some [none, none, none, none], 0, 0, 3, []⟩ : Deque.Deque Nat) [] ⟨some [some 1, none, none, none], 0, 1, 3, []⟩ [1] :=
    .call (o := .push false 1) (r := ⟨true, none⟩) .start (by decide) trivial (by decide) rfl
  obtain ⟨-, -, h⟩ := deque_reserved (ok := true) (r := ⟨true, none⟩) (by decide) Deque.Spec.Reach.init (by decide) rfl rfl hw
  obtain ⟨e', r', h1, -, h3, h4⟩ := h (.insertN false 0 [8, 9]) (by decide) trivial (by decide)
  exact ⟨e', r', h1, h3, h4⟩

/-- C134 for `pqueue`. -/
theorem pqueue_reserved {less : α → α → Bool} (hl : StrictWeak less) {q q' p : PQueue.PQ α} {ent outs : List α} {hp : Bool} {n : Nat} {ok : Bool}
    (h : PQueue.Spec.Reach less q ent outs hp) (hs : PQueue.reserve ok q n = some (q', true)) (hw : PQueue.Spec.Within less n q' p) :
    n ≤ q'.cap ∧ p.cap = q'.cap ∧
    ∀ o, PQueue.Spec.valid p.elems.length (PQueue.Spec.given true o) → PQueue.Spec.ordinary o → p.elems.length + PQueue.Spec.credit o ≤ n →
      ∃ p' r, PQueue.step less p o = some (p', r) ∧ PQueue.step less p (PQueue.Spec.given false o) = some (p', r) ∧ p'.cap = q'.cap := by
  have hc := (PQueue.reach_inv hl h).1
  have hn : n ≤ q'.cap ∧ q'.elems.length ≤ q'.cap := by
    unfold PQueue.reserve at hs
    split at hs
    · cases hs; omega
    · split at hs
      · split at hs <;> cases hs
      · split at hs
        · cases hs; simp only; omega
        · cases hs
  obtain ⟨h1, h2⟩ := PQueue.within_cap hl hn.2 hn.1 hw
  refine ⟨hn.1, h2, fun o hv ho hf => ?_⟩
  have hf' : p.elems.length + PQueue.Spec.credit o ≤ p.cap := by omega
  obtain ⟨p', r, g1⟩ := PQueue.step_defined hl h1 _ hv
  have g2 := g1
  rw [PQueue.room_same ho hf' true] at g1
  refine ⟨p', r, g1, by rw [PQueue.room_same ho hf' false, g1], ?_⟩
  have := (PQueue.step_len hl h1 hv (PQueue.given_ordinary ho) g2).2.2.1 (by rw [PQueue.given_credit]; exact hf')
  exact this.trans h2

example : ∃ p' r, PQueue.step PQueue.natLess (⟨true, [5], 2, []⟩ : PQueue.PQ Nat) (.push false 9) = some (p', r) ∧ p'.cap = 2 := by
  have hw : PQueue.Spec.Within PQueue.natLess 2 (⟨true, [], 2, []⟩ : PQueue.PQ Nat) ⟨true, [5], 2, []⟩ :=
    .call (o := .push false 5) (r := none) .start rfl trivial (by decide) rfl
  obtain ⟨-, -, h⟩ := pqueue_reserved PQueue.natLess_sw (ok := true) PQueue.Spec.Reach.init rfl hw
  obtain ⟨p', r, h1, -, h3⟩ := h (.push false 9) rfl trivial (by decide)
  exact ⟨p', r, h1, h3⟩

/-- C134 for `hmap` and `hset`. -/
theorem hmap_reserved {H : Hmap.Hasher κ} (LH : Hmap.Spec.Lawful H) {m m' w : Hmap.Map κ ν} {M W : Hmap.Spec.FMap κ ν} {n : Nat}
    (h : Hmap.Spec.Reach H m M) (hv : Hmap.Spec.valid H m M (.reserve n)) (hs : Hmap.Spec.run H m (.reserve n) = some m')
    (hw : Hmap.Spec.Within H n m' M w W) :
    n ≤ Hmap.capacity m'.bc ∧ Hmap.capacity w.bc = Hmap.capacity m'.bc ∧
    ∀ op, Hmap.Spec.valid H w W op → Hmap.Spec.ordinary op → (Hmap.Spec.adds op = true → W.length < n) →
      ∃ w', ∀ b, Hmap.Spec.runA b H w op = some (w', true) ∧ Hmap.capacity w'.bc = Hmap.capacity m'.bc := by
  have hr := Hmap.reach_rep LH h
  obtain ⟨m1, e1, e2, e3, -⟩ := Hmap.reserve_spec LH hr (c := n) hv.1 hv.2
  simp only [Hmap.Spec.run, e1, Option.map_some] at hs
  cases hs
  obtain ⟨h1, h2⟩ := Hmap.within_rep LH e2 e3 hw
  refine ⟨e3, by rw [h2], fun op hv ho hf => ?_⟩
  obtain ⟨w', g1, -, -⟩ := Hmap.runA_true LH h1 hv
  refine ⟨w', fun b => ?_⟩
  have hroom : Hmap.Spec.adds op = true → w.size < Hmap.capacity w.bc := by
    intro ha
    have := hf ha
    rw [h1.size, h2]; omega
  have := (Hmap.within_rep LH e2 e3 (.call (ok := true) hw hv ho hf g1)).2
  exact ⟨by rw [Hmap.room_same hroom b, g1], by rw [this]⟩

/-- Three entries, `reserve(9)`: a new entry can be inserted without memory. -/
example : ∃ m' w', Hmap.Spec.run Hmap.natHasher Hmap.sample (.reserve 9) = some m' ∧ 9 ≤ Hmap.capacity m'.bc ∧
    ∀ b, Hmap.Spec.runA b Hmap.natHasher m' (.insert 5 50) = some (w', true) ∧ Hmap.capacity w'.bc = Hmap.capacity m'.bc := by
  have hv : Hmap.Spec.valid Hmap.natHasher Hmap.sample [(1, 10), (15, 151), (7, 70)] (.reserve 9) :=
    ((Hmap.map_any_hash_partial Hmap.natHasher_lawful Hmap.sample_reach 0 0).2 (by decide)).2 9 (by decide)
  obtain ⟨m', e1, e2⟩ := Hmap.run_rep Hmap.natHasher_lawful (Hmap.reach_rep Hmap.natHasher_lawful Hmap.sample_reach) _ hv
  obtain ⟨h1, -, h3⟩ := hmap_reserved Hmap.natHasher_lawful Hmap.sample_reach hv e1 .start
  have hr := Hmap.Spec.Reach.call _ _ _ _ Hmap.sample_reach hv e1
  obtain ⟨w', hw⟩ := h3 (.insert 5 50) ((Hmap.map_any_hash_partial Hmap.natHasher_lawful hr 5 50).1 (by decide)).1 trivial (by decide)
  exact ⟨m', w', e1, h1, hw⟩

/-- C134 for `smap` and `sset`, once the capacity is at least `n` (`reserve` reports `false` when nothing had to
be done). -/
theorem smap_reserved [DecidableEq κ] {cmp : κ → κ → Int} (hc : Smap.Lawful cmp) {m m' w : Smap.Map κ ν} {M W : Smap.Spec.FMap κ ν} {n : Nat}
    {ok b : Bool} (h : Smap.Spec.Reach cmp m M) (hv : n < 2 ^ 31) (hs : Smap.reserve ok n m = some (m', b)) (hb : b = true ∨ n ≤ m.cap)
    (hw : Smap.Spec.Within cmp n m' M w W) :
    n ≤ m'.cap ∧ w.cap = m'.cap ∧
    ∀ op, Smap.Spec.valid cmp w W op → Smap.Spec.ordinary op → (Smap.Spec.adds op = true → W.length < n) →
      ∃ w', ∀ b, Smap.Spec.runA b cmp w op = some (w', true) ∧ w'.cap = m'.cap := by
  have hr := Smap.reach_holds hc h
  obtain ⟨m1, b1, e1, e2, e3, e4⟩ := Smap.reserve_holds hr ok (cap := n) hv
  rw [hs] at e1
  cases e1
  have hn : n ≤ m'.cap := by
    cases b with
    | true => rw [e3 rfl]
    | false => rw [e4 rfl]; rcases hb with hb | hb; cases hb; exact hb
  obtain ⟨h1, h2⟩ := Smap.within_holds hc e2 hn hw
  refine ⟨hn, h2, fun op hv ho hf => ?_⟩
  obtain ⟨w', g1, g2, -⟩ := Smap.runA_true hc h1 hv
  have hcap := (Smap.within_holds hc e2 hn (.call (ok := true) hw hv ho hf g1)).2
  refine ⟨w', fun b => ⟨?_, hcap⟩⟩
  obtain ⟨k1, k2, k3⟩ := h1.head
  cases ha : Smap.Spec.adds op with
  | true =>
    have hW := hf ha
    rcases Smap.run_adds ha k1 g2 with ⟨-, c2⟩ | ⟨c1, c2, -⟩
    · rw [c2 b, g1]
    · have := k3 c1
      omega
  | false =>
    have : Smap.Spec.runA b cmp w op = Smap.Spec.runA true cmp w op := by cases op <;> first | rfl | simp [Smap.Spec.adds] at ha
    rw [this, g1]

/-- `n` insertions into a fresh tree. -/
def smapOf : Nat → Smap.Map Nat Nat
  | 0 => Smap.init
  | n + 1 => (Smap.Spec.run Smap.natCmp (smapOf n) (.insert n (10 * n))).getD Smap.init

/-- The entries of `smapOf n`. -/
def listOf : Nat → List (Nat × Nat)
  | 0 => []
  | n + 1 => listOf n ++ [(n, 10 * n)]

theorem smapOf_next {n moved added : Nat} (a : Bool) (ha : Smap.Spec.asks Smap.natCmp (smapOf n) (.insert n (10 * n)) = a)
    (hf : Smap.Spec.add Smap.natCmp n (10 * n) (listOf n) = listOf (n + 1)) (hn : (listOf n).length < 1023)
    (h : Smap.Spec.Grown Smap.natCmp (smapOf n) (listOf n) moved added ∧ Smap.Spec.Reach Smap.natCmp (smapOf n) (listOf n)) :
    Smap.Spec.Grown Smap.natCmp (smapOf (n + 1)) (listOf (n + 1)) (moved + if a then (listOf n).length else 0) (added + 1) ∧
      Smap.Spec.Reach Smap.natCmp (smapOf (n + 1)) (listOf (n + 1)) := by
  obtain ⟨h, hr⟩ := h
  have hv : Smap.Spec.valid Smap.natCmp (smapOf n) (listOf n) (.insert n (10 * n)) := by simp only [Smap.Spec.valid]; omega
  obtain ⟨m', e1, h2⟩ := Smap.map_defined Smap.natCmp_lawful hr _ hv
  have e2 : smapOf (n + 1) = m' := by rw [smapOf, e1]; rfl
  have h1 := h.call hv trivial e1
  simp only [Smap.Spec.after, hf, ha] at h1 h2
  rw [e2]
  exact ⟨by convert h1 using 1; simp only [listOf, List.length_append, List.length_singleton]; omega, h2⟩

theorem smapOf_five : Smap.Spec.Grown Smap.natCmp (smapOf 5) (listOf 5) 4 5 ∧ Smap.Spec.Reach Smap.natCmp (smapOf 5) (listOf 5) :=
  ((((⟨.init, .init⟩ : Smap.Spec.Grown Smap.natCmp (smapOf 0) (listOf 0) 0 0 ∧ Smap.Spec.Reach Smap.natCmp (smapOf 0) (listOf 0))
    |> smapOf_next true (by decide +kernel) (by decide +kernel) (by decide))
    |> smapOf_next false (by decide +kernel) (by decide +kernel) (by decide))
    |> smapOf_next false (by decide +kernel) (by decide +kernel) (by decide))
    |> smapOf_next false (by decide +kernel) (by decide +kernel) (by decide)
    |> smapOf_next true (by decide +kernel) (by decide +kernel) (by decide)

/-- Five entries, `reserve(20)`: a new entry can be inserted without memory. -/
example : ∃ m' w', Smap.reserve true 20 (smapOf 5) = some (m', true) ∧ m'.cap = 20 ∧
    ∀ b, Smap.Spec.runA b Smap.natCmp m' (.insert 7 70) = some (w', true) ∧ w'.cap = 20 := by
  have e : (Smap.reserve true 20 (smapOf 5)).map (fun p => (p.1.cap, p.2)) = some (20, true) := by decide +kernel
  rw [Option.map_eq_some_iff] at e
  obtain ⟨⟨m', b⟩, e1, e2⟩ := e
  simp only [Prod.mk.injEq] at e2
  obtain ⟨e2, rfl⟩ := e2
  obtain ⟨-, -, h3⟩ := smap_reserved Smap.natCmp_lawful smapOf_five.2 (by decide) e1 (.inl rfl) .start
  obtain ⟨w', hw⟩ := h3 (.insert 7 70) (by simp only [Smap.Spec.valid]; decide) trivial (by decide)
  exact ⟨m', w', e1, e2, by rw [e2] at hw; exact hw⟩

/-- C134 for `cstr`: after `reserve(n)` the capacity stays while the string is not longer than `n`; appending
and assigning do not depend on the allocator. -/
theorem cstr_reserved {s s' t : Cstr.Str} {bs cs : List Utf8.Byte} {n : Nat} {mv : Bool} (h : Cstr.Spec.Reach s bs)
    (hs : Cstr.reserve true n s = some (s', mv)) (hw : Cstr.Spec.Within n s' bs t cs) :
    ∃ c, Cstr.capacity s' = some c ∧ n ≤ c ∧ Cstr.capacity t = some c ∧
      (∀ src k b, cs.length + k ≤ n → Cstr.appendN b src k t = Cstr.appendN true src k t) ∧
      (∀ src k b, k ≤ n → Cstr.assignN b src k t = Cstr.assignN true src k t) := by
  obtain ⟨d, c, hr⟩ := Cstr.rep_of_reach h
  obtain ⟨s1, m1, d1, e1, e2, -⟩ := Cstr.reserve_rep hr n
  rw [hs] at e1
  cases e1
  have hk := e2.kap
  have hr' : Cstr.Rep bs s' := ⟨_, _, e2⟩
  have hn : n ≤ Cstr.kap s' := by omega
  obtain ⟨h1, h2⟩ := Cstr.within_rep hr' hn hw
  exact ⟨Cstr.kap s', hr'.kap.1, hn, by rw [h1.kap.1, h2], fun src k b hk => Cstr.room_append h1 src (by omega) b,
    fun src k b hk => Cstr.room_assign h1 src (by omega) b⟩

/-- An empty string with `reserve(30)`: appending 25 bytes leaves the capacity as it is, whatever the allocator. -/
example : ∃ s', Cstr.reserve true 30 Cstr.empty = some (s', true) ∧ Cstr.capacity s' = some 30 ∧
    ∀ src b, Cstr.appendN b src 25 s' = Cstr.appendN true src 25 s' := by
  have e : (Cstr.reserve true 30 Cstr.empty).map (fun p => (Cstr.capacity p.1, p.2)) = some (some 30, true) := by decide +kernel
  rw [Option.map_eq_some_iff] at e
  obtain ⟨⟨s', b⟩, e1, e2⟩ := e
  simp only [Prod.mk.injEq] at e2
  obtain ⟨e2, rfl⟩ := e2
  obtain ⟨c, -, -, -, h4, -⟩ := cstr_reserved Cstr.Spec.Reach.init e1 .start
  exact ⟨s', e1, e2, fun src b => h4 src 25 b (by decide)⟩

/-! ### C135 -/

/-- C135 for `vec`: in any history of ordinary calls from the start, the elements moved by growing are at most
three for every element added and every insertion made. -/
theorem vec_growth {v : Vec.Vec α} {l : List α} {moved added : Nat} (h : Vec.Spec.Grown v l moved added) : moved ≤ 3 * added := by
  have := (Vec.grown_bound h).2
  omega

example : ∃ v, Vec.Spec.Grown (α := Nat) v [1, 2, 3, 4, 5, 6, 7] 4 7 := by
  have h1 := Vec.Spec.Grown.init (α := Nat)
  have h2 := h1.call (o := .push true 1) (by decide) trivial rfl
  have h3 := h2.call (o := .push true 2) (by decide) trivial rfl
  have h4 := h3.call (o := .push true 3) (by decide) trivial rfl
  have h5 := h4.call (o := .push true 4) (by decide) trivial rfl
  have h6 := h5.call (o := .push true 5) (by decide) trivial rfl
  have h7 := h6.call (o := .push true 6) (by decide) trivial rfl
  have h8 := h7.call (o := .push true 7) (by decide) trivial rfl
  exact ⟨_, h8⟩

/-- C135 for `stack`. -/
theorem stack_growth {s : Stack.Stack α} {l : List α} {moved added : Nat} (h : Stack.Spec.Grown s l moved added) : moved ≤ 3 * added := by
  have := (Stack.grown_bound h).2
  omega

example : ∃ v, Stack.Spec.Grown (α := Nat) v [1, 2, 3, 4, 5, 6, 7] 4 7 := by
  have h1 := Stack.Spec.Grown.init (α := Nat)
  have h2 := h1.call (o := .push true 1) (by decide) trivial rfl
  have h3 := h2.call (o := .push true 2) (by decide) trivial rfl
  have h4 := h3.call (o := .push true 3) (by decide) trivial rfl
  have h5 := h4.call (o := .push true 4) (by decide) trivial rfl
  have h6 := h5.call (o := .push true 5) (by decide) trivial rfl
  have h7 := h6.call (o := .push true 6) (by decide) trivial rfl
  have h8 := h7.call (o := .push true 7) (by decide) trivial rfl
  exact ⟨_, h8⟩

/-- C135 for `deque` and `queue`: at most two. -/
theorem deque_growth {d : Deque.Deque α} {l : List α} {moved added : Nat} (h : Deque.Spec.Grown d l moved added) : moved ≤ 2 * added := by
  have := (Deque.grown_bound h).2
  omega

example : ∃ v, Deque.Spec.Grown (α := Nat) v [1, 2, 3, 4, 5] 3 5 := by
  have h1 := Deque.Spec.Grown.init (α := Nat)
  have h2 := h1.call (o := .push true 1) (by decide) trivial rfl
  have h3 := h2.call (o := .push true 2) (by decide) trivial rfl
  have h4 := h3.call (o := .push true 3) (by decide) trivial rfl
  have h5 := h4.call (o := .push true 4) (by decide) trivial rfl
  have h6 := h5.call (o := .push true 5) (by decide) trivial rfl
  exact ⟨_, h6⟩

/-- C135 for `pqueue`. -/
theorem pqueue_growth {less : α → α → Bool} (hl : StrictWeak less) {q : PQueue.PQ α} {moved added : Nat} (h : PQueue.Spec.Grown less q moved added) :
    moved ≤ 3 * added := by
  have := (PQueue.grown_bound hl h).2
  omega

example : ∃ v, PQueue.Spec.Grown PQueue.natLess v 4 5 := by
  have h1 := PQueue.Spec.Grown.init (less := PQueue.natLess)
  have h2 := h1.call (o := .push true 1) rfl trivial rfl
  have h3 := h2.call (o := .push true 2) rfl trivial rfl
  have h4 := h3.call (o := .push true 3) rfl trivial rfl
  have h5 := h4.call (o := .push true 4) rfl trivial rfl
  have h6 := h5.call (o := .push true 5) rfl trivial rfl
  exact ⟨_, h6⟩

/-- C135 for `hmap` and `hset`. -/
theorem hmap_growth {H : Hmap.Hasher κ} (LH : Hmap.Spec.Lawful H) {m : Hmap.Map κ ν} {M : Hmap.Spec.FMap κ ν} {moved added : Nat}
    (h : Hmap.Spec.Grown H m M moved added) : moved ≤ 3 * added := by
  have := (Hmap.grown_bound LH h).2
  omega

/-- `n` insertions into a fresh map. -/
def hmapOf : Nat → Hmap.Map Nat Nat
  | 0 => Hmap.init
  | n + 1 => (Hmap.Spec.run Hmap.natHasher (hmapOf n) (.insert n (10 * n))).getD Hmap.init

/-- The entries of `hmapOf n`. -/
def pairsOf : Nat → List (Nat × Nat)
  | 0 => []
  | n + 1 => (n, 10 * n) :: pairsOf n

theorem hmapOf_next {n moved added : Nat} (a : Bool) (ha : Hmap.Spec.asks Hmap.natHasher (hmapOf n) (.insert n (10 * n)) = a)
    (hf : Hmap.Spec.insertNew Hmap.natHasher (pairsOf n) n (10 * n) = pairsOf (n + 1)) (hn : (pairsOf n).length < 1023)
    (h : Hmap.Spec.Grown Hmap.natHasher (hmapOf n) (pairsOf n) moved added ∧ Hmap.Spec.Reach Hmap.natHasher (hmapOf n) (pairsOf n)) :
    Hmap.Spec.Grown Hmap.natHasher (hmapOf (n + 1)) (pairsOf (n + 1)) (moved + if a then (pairsOf n).length else 0) (added + 1) ∧
      Hmap.Spec.Reach Hmap.natHasher (hmapOf (n + 1)) (pairsOf (n + 1)) := by
  obtain ⟨h, hr⟩ := h
  have hv := ((Hmap.map_any_hash_partial Hmap.natHasher_lawful hr n (10 * n)).1 hn).1
  obtain ⟨m', e1, -⟩ := Hmap.map_defined Hmap.natHasher_lawful hr _ hv
  have e2 : hmapOf (n + 1) = m' := by rw [hmapOf, e1]; rfl
  have h1 := h.call hv trivial e1
  have h2 := Hmap.Spec.Reach.call _ _ _ _ hr hv e1
  simp only [Hmap.Spec.after, hf, ha] at h1 h2
  rw [e2]
  exact ⟨by convert h1 using 1; simp only [pairsOf, List.length_cons]; omega, h2⟩

example : Hmap.Spec.Grown Hmap.natHasher (hmapOf 8) (pairsOf 8) 6 8 :=
  ((((((((⟨.init, .init⟩ : Hmap.Spec.Grown Hmap.natHasher (hmapOf 0) (pairsOf 0) 0 0 ∧ Hmap.Spec.Reach Hmap.natHasher (hmapOf 0) (pairsOf 0))
    |> hmapOf_next true (by decide +kernel) rfl (by decide))
    |> hmapOf_next false (by decide +kernel) rfl (by decide))
    |> hmapOf_next false (by decide +kernel) rfl (by decide))
    |> hmapOf_next false (by decide +kernel) rfl (by decide))
    |> hmapOf_next false (by decide +kernel) rfl (by decide))
    |> hmapOf_next false (by decide +kernel) rfl (by decide))
    |> hmapOf_next true (by decide +kernel) rfl (by decide))
    |> hmapOf_next false (by decide +kernel) rfl (by decide) |>.1

/-- C135 for `smap` and `sset`. -/
theorem smap_growth [DecidableEq κ] {cmp : κ → κ → Int} (hc : Smap.Lawful cmp) {m : Smap.Map κ ν} {M : Smap.Spec.FMap κ ν} {moved added : Nat}
    (h : Smap.Spec.Grown cmp m M moved added) : moved ≤ 3 * added := by
  have := (Smap.grown_bound hc h).2
  omega

example : Smap.Spec.Grown Smap.natCmp (smapOf 5) (listOf 5) 4 5 := smapOf_five.1

/-- C135 for `cstr`: bytes moved against bytes given. -/
theorem cstr_growth {s : Cstr.Str} {bs : List Utf8.Byte} {moved added : Nat} (h : Cstr.Spec.Grown s bs moved added) : moved ≤ 3 * added := by
  have := (Cstr.grown_bound h).2
  omega

/-- 22 bytes, then one more: the 22 are moved. -/
example : ∃ s, Cstr.Spec.Grown s (List.replicate 23 65#8) 22 23 := by
  obtain ⟨s1, o1, e1, a1, -, r1⟩ := Cstr.string_calls _ _ Cstr.Spec.Reach.init (.append (.ext (List.replicate 22 65#8)) 22) (by decide)
  have g1 := Cstr.Spec.Grown.init.call (by decide) (by trivial) e1 a1
  have b1 : o1 = List.replicate 22 65#8 := a1
  subst b1
  obtain ⟨s2, o2, e2, a2, -, r2⟩ := Cstr.string_calls _ _ r1 (.append (.ext [65#8]) 1) (by decide)
  have g2 := g1.call (by decide) (by trivial) e2 a2
  have b2 : o2 = List.replicate 23 65#8 := a2
  subst b2
  have k0 := Cstr.run_kap Cstr.rep_empty (by decide) (by trivial) e1 a1
  have k1 := Cstr.run_kap (Cstr.rep_of_reach r1) (by decide) (by trivial) e2 a2
  have c1 := (Cstr.rep_of_reach r1).kap.1
  have c2 := (Cstr.rep_of_reach r2).kap.1
  have h0 : Cstr.kap s1 = 22 := k0.2.1 (by decide)
  have h1 : Cstr.kap s1 < Cstr.kap s2 := (k1.2.2 (by rw [h0]; decide)).1
  rw [if_pos (by rw [c1, h0]; rfl), if_neg (by rw [c1, c2, Option.some_inj]; omega)] at g2
  exact ⟨s2, g2⟩

end Verif.Cost
