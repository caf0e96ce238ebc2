import Verif.Random.Props
import Mathlib.Data.Fintype.BigOperators
import Mathlib.Data.Int.CardIntervalMod
import Mathlib.Algebra.Order.BigOperators.GroupWithZero.Finset
/- C165: how evenly the shuffle spreads over the orders of the elements. -/
namespace Verif.Random
open Spec
open scoped List
variable {β : Type}

namespace Spec

/-- The sequences of `m` 64-bit words (as numbers) for which `p` holds. -/
noncomputable def streams (m : Nat) (p : List (BitVec 64) → Prop) : Finset (Fin m → Nat) :=
  open Classical in
  (Fintype.piFinset fun _ : Fin m => Finset.range (2 ^ 64)).filter fun f => p (List.ofFn fun i => BitVec.ofNat 64 (f i))

end Spec

theorem mem_streams {m : Nat} {p : List (BitVec 64) → Prop} {f : Fin m → Nat} : f ∈ streams m p ↔
    (∀ k, f k < 2 ^ 64) ∧ p (List.ofFn fun i => BitVec.ofNat 64 (f i)) := by
  classical
  rw [streams, Finset.mem_filter, Fintype.mem_piFinset]
  simp only [Finset.mem_range]

theorem shuffleLoop_keeps (i : Nat) : ∀ (l l' : List β) (ts rest : List (BitVec 64)), i < l.length ∨ i = 0 → l.length < 2 ^ 63 →
    shuffleLoop (tape 0#64) i l ts = some (l', rest) → ∀ k, i < k → l'[k]? = l[k]? := by
  induction i with
  | zero => intro l l' ts rest _ _ h k _; cases h; rfl
  | succ i ih =>
    intro l l' ts rest hi hl h k hk
    have hi' : i + 1 < l.length := by omega
    have hm := modIdx (r := (tape 0#64 ts).1) (i := i) (by omega)
    have hlt : (tape 0#64 ts).1.toNat % (i + 2) < i + 2 := Nat.mod_lt _ (by omega)
    obtain ⟨l1, e1, p1, n1, k1, _⟩ := swapAt_perm (l := l) (i := i + 1) (j := (tape 0#64 ts).1.toNat % (i + 2)) hi' (by omega)
    simp only [shuffleLoop, hm, e1, Option.bind_eq_bind, Option.bind_some] at h
    rw [ih l1 l' _ rest (by omega) (by omega) h k (by omega), k1 k (by omega) (by omega)]

/-- The draws that give an order: one remainder each. -/
theorem shuffle_draws (i : Nat) : ∀ (l l' : List β), i < l.length ∨ i = 0 → l.length < 2 ^ 63 → l.Nodup → l' ~ l →
    l'.drop (i + 1) = l.drop (i + 1) → ∃ rs : List Nat, rs.length = i ∧ (∀ k < i, rs.getD k 0 < i + 1 - k) ∧
      ∀ ts : List (BitVec 64), ts.length = i → (shuffleLoop (tape 0#64) i l ts = some (l', []) ↔
        ∀ k < i, (ts.getD k 0#64).toNat % (i + 1 - k) = rs.getD k 0) := by
  induction i with
  | zero =>
    intro l l' hi hl _ hp hd
    obtain ⟨ts, h⟩ := shuffleLoop_reach 0 l l' hi hl hp hd
    have e : l = l' := by simp only [shuffleLoop, Option.some.injEq, Prod.mk.injEq] at h; exact h.1
    refine ⟨[], rfl, fun k hk => absurd hk (Nat.not_lt_zero _), fun ts ht => ?_⟩
    rw [List.length_eq_zero_iff] at ht
    subst ht; subst e
    exact ⟨fun _ k hk => absurd hk (Nat.not_lt_zero _), fun _ => rfl⟩
  | succ i ih =>
    intro l l' hi hl hnd hp hd
    have hi' : i + 1 < l.length := by omega
    have hlen : l'.length = l.length := hp.length_eq
    have ht := take_perm hp hd
    have hmem : l'[i + 1]'(by omega) ∈ l.take (i + 2) := by
      refine ht.subset ?_
      rw [List.mem_take_iff_getElem]
      exact ⟨i + 1, by omega, rfl⟩
    obtain ⟨j, hj, hje⟩ := List.mem_take_iff_getElem.1 hmem
    obtain ⟨l1, e1, p1, n1, k1, v1⟩ := swapAt_perm (l := l) (i := i + 1) (j := j) hi' (by omega)
    have hd1 : l'.drop (i + 1) = l1.drop (i + 1) := by
      apply List.ext_getElem?
      intro k
      rw [List.getElem?_drop, List.getElem?_drop]
      cases k with
      | zero => rw [Nat.add_zero, v1, List.getElem?_eq_getElem (by omega), List.getElem?_eq_getElem (by omega), hje]
      | succ k =>
        rw [k1 _ (by omega) (by omega)]
        have := congrArg (fun L => L[k]?) hd
        simp only [List.getElem?_drop] at this
        rw [show i + 1 + (k + 1) = i + 1 + 1 + k by omega]
        exact this
    obtain ⟨rs, hr1, hr2, hr3⟩ := ih l1 l' (by omega) (by omega) (p1.nodup_iff.2 hnd) (hp.trans p1.symm) hd1
    refine ⟨j :: rs, by simp [hr1], ?_, ?_⟩
    · intro k hk
      cases k with
      | zero => simp only [List.getD_cons_zero]; omega
      | succ k =>
        have := hr2 k (by omega)
        rw [List.getD_cons_succ]; omega
    · intro ts hts
      cases ts with
      | nil => simp at hts
      | cons t ts =>
        simp only [List.length_cons] at hts
        have hm := modIdx (r := t) (i := i) (by omega)
        have hlt : t.toNat % (i + 2) < i + 2 := Nat.mod_lt _ (by omega)
        have hih := hr3 ts (by omega)
        constructor
        · intro h
          obtain ⟨l2, f1, q1, m1, c1, w1⟩ := swapAt_perm (l := l) (i := i + 1) (j := t.toNat % (i + 2)) hi' (by omega)
          simp only [shuffleLoop, tape, hm, f1, Option.bind_eq_bind, Option.bind_some] at h
          have hk := shuffleLoop_keeps i l2 l' ts [] (by omega) (by omega) h (i + 1) (by omega)
          have htj : t.toNat % (i + 2) = j := by
            rw [w1, List.getElem?_eq_getElem (by omega), List.getElem?_eq_getElem (by omega), Option.some.injEq, ← hje] at hk
            exact ((List.Nodup.getElem_inj_iff hnd).1 hk).symm
          rw [htj, e1, Option.some.injEq] at f1
          subst f1
          have := hih.1 h
          intro k hk
          cases k with
          | zero => simpa using htj
          | succ k =>
            rw [List.getD_cons_succ, List.getD_cons_succ, ← this k (by omega), show i + 1 + 1 - (k + 1) = i + 1 - k by omega]
        · intro h
          have h0 := h 0 (by omega)
          simp only [List.getD_cons_zero, Nat.sub_zero] at h0
          simp only [shuffleLoop, tape, hm, show t.toNat % (i + 2) = j from h0, e1, Option.bind_eq_bind, Option.bind_some]
          refine hih.2 fun k hk => ?_
          have := h (k + 1) (by omega)
          rw [List.getD_cons_succ, List.getD_cons_succ, show i + 1 + 1 - (k + 1) = i + 1 - k by omega] at this
          exact this

theorem residues_aux (N : Nat) {k r : Nat} (hr : r < k) :
    ((Finset.range N).filter fun x => x % k = r).card = N / k + if r < N % k then 1 else 0 := by
  have h := Nat.count_modEq_card (b := N) (r := k) (by omega) r
  rw [Nat.count_eq_card_filter_range, Nat.mod_eq_of_lt hr] at h
  rw [← h]
  congr 1
  apply Finset.filter_congr
  intro x _
  unfold Nat.ModEq
  rw [Nat.mod_eq_of_lt hr]

/-- The numbers below `2^64` with a given remainder. -/
theorem residues {k r : Nat} (hr : r < k) :
    ((Finset.range (2 ^ 64)).filter fun x => x % k = r).card = 2 ^ 64 / k + if r < 2 ^ 64 % k then 1 else 0 :=
  residues_aux _ hr

/-- C165: which streams give an order of distinct elements: in the `k`-th draw exactly the words of
one remainder modulo the number of elements left. Their number is the product of the numbers of
words with those remainders. -/
theorem shuffle_streams {l l' : List β} (hl : l.length < 2 ^ 63) (hnd : l.Nodup) (hp : l' ~ l) :
    ∃ r : Fin (l.length - 1) → Nat, (∀ k, r k < l.length - k) ∧
      (streams (l.length - 1) fun ts => shuffle (tape 0#64) l ts = some (l', [])) =
        Fintype.piFinset fun k => (Finset.range (2 ^ 64)).filter fun x => x % (l.length - k) = r k := by
  have hlen := hp.length_eq
  obtain ⟨rs, h1, h2, h3⟩ := shuffle_draws (l.length - 1) l l' (by omega) hl hnd hp (by
    rw [List.drop_eq_nil_of_le (by omega), List.drop_eq_nil_of_le (by omega)])
  refine ⟨fun k => rs.getD k 0, fun k => ?_, ?_⟩
  · have := h2 k k.2
    show rs.getD k 0 < _
    omega
  · ext f
    rw [mem_streams, shuffle, h3 _ (by simp)]
    simp only [Finset.mem_filter, Fintype.mem_piFinset, Finset.mem_range]
    constructor
    · rintro ⟨hf, hk⟩ k
      refine ⟨hf k, ?_⟩
      have := hk k k.2
      rw [List.getD_eq_getElem?_getD, List.getElem?_eq_getElem (by simp), Option.getD_some, List.getElem_ofFn, BitVec.toNat_ofNat, Nat.mod_eq_of_lt (hf _)] at this
      rw [← this, show l.length - 1 + 1 - k = l.length - k by omega]
    · intro hf
      refine ⟨fun k => (hf k).1, fun k hk => ?_⟩
      have := (hf ⟨k, hk⟩).2
      rw [List.getD_eq_getElem?_getD, List.getElem?_eq_getElem (by simpa using hk), Option.getD_some, List.getElem_ofFn, BitVec.toNat_ofNat, Nat.mod_eq_of_lt (hf _).1,
        ← this, show l.length - 1 + 1 - k = l.length - k by omega]

/-- C165: every order of distinct elements is produced by nearly the same number of random streams:
for a factor `2^64 / k` of even sharing, at least that many and at most one more words of each draw
lead to it. -/
theorem shuffle_even {l l' : List β} (hl : l.length < 2 ^ 63) (hnd : l.Nodup) (hp : l' ~ l) :
    (∏ k : Fin (l.length - 1), 2 ^ 64 / (l.length - k)) ≤
      (streams (l.length - 1) fun ts => shuffle (tape 0#64) l ts = some (l', [])).card ∧
    (streams (l.length - 1) fun ts => shuffle (tape 0#64) l ts = some (l', [])).card ≤
      ∏ k : Fin (l.length - 1), (2 ^ 64 / (l.length - k) + 1) := by
  obtain ⟨r, h1, h2⟩ := shuffle_streams hl hnd hp
  rw [h2, Fintype.card_piFinset]
  constructor
  · refine Finset.prod_le_prod (fun _ _ => Nat.zero_le _) fun k _ => ?_
    rw [residues (h1 k)]
    omega
  · refine Finset.prod_le_prod (fun _ _ => Nat.zero_le _) fun k _ => ?_
    rw [residues (h1 k)]
    split <;> omega

theorem streams_card {l l' : List β} (hl : l.length < 2 ^ 63) (hnd : l.Nodup) (hp : l' ~ l) {f : Fin (l.length - 1) → Nat}
    (hf : ∀ k, f k < 2 ^ 64) (he : shuffle (tape 0#64) l (List.ofFn fun i => BitVec.ofNat 64 (f i)) = some (l', [])) :
    (streams (l.length - 1) fun ts => shuffle (tape 0#64) l ts = some (l', [])).card =
      ∏ k : Fin (l.length - 1), (2 ^ 64 / (l.length - k) + if f k % (l.length - k) < 2 ^ 64 % (l.length - k) then 1 else 0) := by
  obtain ⟨r, h1, h2⟩ := shuffle_streams hl hnd hp
  have hm : f ∈ streams (l.length - 1) fun ts => shuffle (tape 0#64) l ts = some (l', []) := by
    exact mem_streams.2 ⟨hf, he⟩
  rw [h2, Fintype.mem_piFinset] at hm
  rw [h2, Fintype.card_piFinset]
  refine Finset.prod_congr rfl fun k _ => ?_
  rw [residues (h1 k), (Finset.mem_filter.1 (hm k)).2]

/-- C165: the shares are not exactly equal: of three elements the first draw takes remainders of
`2^64` words modulo 3. -/
theorem shuffle_uneven : ∃ l l' l'' : List Nat, l.Nodup ∧ l' ~ l ∧ l'' ~ l ∧
    (streams (l.length - 1) fun ts => shuffle (tape 0#64) l ts = some (l', [])).card ≠
    (streams (l.length - 1) fun ts => shuffle (tape 0#64) l ts = some (l'', [])).card := by
  refine ⟨[0, 1, 2], [1, 2, 0], [0, 2, 1], by decide, by decide, by decide, ?_⟩
  rw [streams_card (f := fun _ => 0) (by decide) (by decide) (by decide) (by decide) (by decide),
    streams_card (f := fun _ => 1) (by decide) (by decide) (by decide) (by decide) (by decide)]
  decide

example : (∏ k : Fin 2, 2 ^ 64 / (3 - k.val)) ≤
    (streams 2 fun ts => shuffle (tape 0#64) ["a", "b", "c"] ts = some (["c", "a", "b"], [])).card :=
  (shuffle_even (l := ["a", "b", "c"]) (by decide) (by decide) (by decide)).1

end Verif.Random
