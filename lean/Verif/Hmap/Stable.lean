import Verif.Hmap.Props
/-
Which pointers and iterators of a hash map stay valid over an insertion. A pointer to an entry is
the address of a bucket; iterators are such pointers too.
-/
namespace Verif.Hmap
open scoped List
open Verif.Common Spec
variable {κ ν : Type}

namespace Spec

/-- Bucket `x` is among the `len` buckets from `i` on, counting cyclically in `n` buckets. -/
def Between (n i len x : Nat) : Prop := ∃ j < len, x = (i + j) % n

/-- The occupied buckets from `i` on: `len` of them, up to an empty bucket. -/
def Cluster (m : Map κ ν) (i len : Nat) : Prop :=
  (∀ j < len, (entryAt m ((i + j) % m.bc)).isSome) ∧ entryAt m ((i + len) % m.bc) = none

/-- The key an insertion is for. -/
def Op.inserts : Op κ ν → Option κ
  | .insert k _ | .emplace k _ | .insertOrAssign k _ | .emplaceOrAssign k _ => some k
  | _ => none

end Spec

/-! ### what `_bucket_insert_` touches -/

theorem reorder_frame {n p : Nat} (hp : n = 2 ^ p) : ∀ {f idx : Nat} {mcur : Meta} {dcur : Option (κ × ν)} {metas ms : List Meta}
    {table ts : List (Option (κ × ν))}, reorder (n - 1) f idx mcur dcur metas table = some (ms, ts) →
    ∃ len, (∀ j < len, D metas ((idx + 1 + j) % n) ≠ 0) ∧ D metas ((idx + 1 + len) % n) = 0 ∧
      ms.length = metas.length ∧ ts.length = table.length ∧
      ∀ x, ¬ Between n (idx + 1) (len + 1) x → ms[x]? = metas[x]? ∧ ts[x]? = table[x]?
  | 0, _, _, _, _, _, _, _, h => by simp [reorder] at h
  | f + 1, idx, mcur, dcur, metas, ms, table, ts, h => by
    have hn : 0 < n := by rw [hp]; exact Nat.two_pow_pos p
    simp only [reorder, Option.bind_eq_bind, mask_eq hp] at h
    cases hm : metas[(idx + 1) % n]? with
    | none => simp [hm] at h
    | some mt =>
      simp only [hm, Option.bind_some] at h
      have hlt : (idx + 1) % n < metas.length := by
        rw [List.getElem?_eq_some_iff] at hm
        exact hm.1
      have hD := D_eq hm
      by_cases h0 : mt.dist = 0
      · rw [if_pos h0] at h
        simp only [Option.some.injEq, Prod.mk.injEq] at h
        obtain ⟨rfl, rfl⟩ := h
        refine ⟨0, by simp, by simpa [hD] using h0, by simp, by simp, fun x hx => ?_⟩
        have hx' : x ≠ (idx + 1) % n := fun e => hx ⟨0, by omega, by simpa using e⟩
        exact ⟨List.getElem?_set_ne (Ne.symm hx'), List.getElem?_set_ne (Ne.symm hx')⟩
      · rw [if_neg h0] at h
        have hmod : ∀ j, ((idx + 1) % n + 1 + j) % n = (idx + 1 + (j + 1)) % n := fun j => by
          rw [show (idx + 1) % n + 1 + j = (idx + 1) % n + (j + 1) by omega, Nat.mod_add_mod]
        have hwith : ∀ {len x}, ¬ Between n (idx + 1) (len + 1 + 1) x → ¬ Between n ((idx + 1) % n + 1) (len + 1) x := by
          rintro len x hx ⟨j, hj, e⟩
          exact hx ⟨j + 1, by omega, by rw [e, hmod]⟩
        by_cases hlt' : mt.dist < (mcur.dist + 1) % 1024
        · rw [if_pos hlt'] at h
          cases ht : table[(idx + 1) % n]? with
          | none => simp [ht] at h
          | some d =>
            simp only [ht, Option.bind_some] at h
            obtain ⟨len, a1, a2, a3, a4, a5⟩ := reorder_frame hp h
            refine ⟨len + 1, ?_, ?_, by simpa using a3, by simpa using a4, fun x hx => ?_⟩
            · intro j hj
              cases j with
              | zero => simpa [hD] using h0
              | succ j =>
                have := a1 j (by omega)
                rw [hmod, D_set _ hlt] at this
                by_cases e : (idx + 1 + (j + 1)) % n = (idx + 1) % n
                · rw [e, hD]; exact h0
                · rwa [if_neg e] at this
            · rw [hmod, D_set _ hlt] at a2
              by_cases e : (idx + 1 + (len + 1)) % n = (idx + 1) % n
              · rw [if_pos e] at a2
                simp only at a2
                omega
              · rwa [if_neg e] at a2
            · have hx' : x ≠ (idx + 1) % n := fun e => hx ⟨0, by omega, by simpa using e⟩
              obtain ⟨b1, b2⟩ := a5 x (hwith hx)
              rw [List.getElem?_set_ne (Ne.symm hx')] at b1 b2
              exact ⟨b1, b2⟩
        · rw [if_neg hlt'] at h
          obtain ⟨len, a1, a2, a3, a4, a5⟩ := reorder_frame hp h
          refine ⟨len + 1, ?_, ?_, a3, a4, fun x hx => a5 x (hwith hx)⟩
          · intro j hj
            cases j with
            | zero => simpa [hD] using h0
            | succ j =>
              have := a1 j (by omega)
              rwa [hmod] at this
          · rwa [hmod] at a2

theorem slot_congr {ms ms' : List Meta} {ts ts' : List (Option (κ × ν))} {x : Nat} (h : ms'[x]? = ms[x]? ∧ ts'[x]? = ts[x]?) :
    slot ms' ts' x = slot ms ts x := by
  have hD : D ms' x = D ms x := by simp only [D, h.1]
  rw [slot, slot, hD, h.2]

theorem slot_isSome {H : Hasher κ} {n : Nat} {metas : List Meta} {table : List (Option (κ × ν))} (h : Inv H n metas table) {x : Nat}
    (hx : x < n) : (D metas x ≠ 0 → (slot metas table x).isSome) ∧ (D metas x = 0 → slot metas table x = none) := by
  refine ⟨fun hd => ?_, fun hd => by simp [slot, hd]⟩
  obtain ⟨e, he, -⟩ := h.slot_eq hx hd
  rw [he]; rfl

theorem place_frame {H : Hasher κ} {m m' : Map κ ν} {n p : Nat} (h : Arr H m n p) {i d hx : Nat} (hi : i < n)
    (hp : place m i d hx = some m') (hd : d % 1024 ≠ 0) :
    ∃ len, Cluster m i len ∧ m'.table.length = m.table.length ∧ m'.bc = m.bc ∧
      ∀ x, ¬ Between n i (len + 1) x → m'.metas[x]? = m.metas[x]? ∧ m'.table[x]? = m.table[x]? := by
  have hn : 0 < n := by omega
  obtain ⟨mc, hmc, hdc⟩ := meta_some h.inv hi
  have hlt : i < m.metas.length := by rw [h.inv.lenm]; omega
  simp only [place, hmc, Option.bind_eq_bind, Option.bind_some] at hp
  by_cases h0 : mc.dist = 0
  · rw [if_neg (by simpa using h0)] at hp
    simp only [Option.some.injEq] at hp
    subst hp
    refine ⟨0, ⟨by simp, ?_⟩, rfl, rfl, fun x hx => ⟨?_, rfl⟩⟩
    · rw [entryAt_eq, Nat.add_zero, h.bc, Nat.mod_eq_of_lt hi]
      exact (slot_isSome h.inv hi).2 (by omega)
    · exact List.getElem?_set_ne fun e => hx ⟨0, by omega, by rw [Nat.add_zero, Nat.mod_eq_of_lt hi, e]⟩
  · rw [if_pos h0] at hp
    cases ht : m.table[i]? with
    | none => simp [ht] at hp
    | some dc =>
      simp only [ht, Option.bind_some] at hp
      cases hr : reorder (m.bc - 1) m.bc i mc dc (m.metas.set i ⟨hx, d % 1024⟩) m.table with
      | none => simp [hr] at hp
      | some q =>
        obtain ⟨ms, ts⟩ := q
        simp only [hr, Option.bind_some, Option.some.injEq] at hp
        subst hp
        have hbc := h.bc
        rw [hbc] at hr
        obtain ⟨len, a1, a2, a3, a4, a5⟩ := reorder_frame h.pow hr
        have hset : ∀ x, D (m.metas.set i ⟨hx, d % 1024⟩) x ≠ 0 ↔ D m.metas x ≠ 0 := fun x => by
          rw [D_set _ hlt]
          by_cases e : x = i
          · rw [if_pos e, e, ← hdc]; simp only; omega
          · rw [if_neg e]
        refine ⟨len + 1, ⟨?_, ?_⟩, a4, rfl, fun x hx => ?_⟩
        · intro j hj
          rw [entryAt_eq, hbc]
          refine (slot_isSome h.inv (Nat.mod_lt _ hn)).1 ?_
          cases j with
          | zero => rw [Nat.add_zero, Nat.mod_eq_of_lt hi]; omega
          | succ j => rw [show i + (j + 1) = i + 1 + j by omega]; exact (hset _).1 (a1 j (by omega))
        · rw [entryAt_eq, hbc, show i + (len + 1) = i + 1 + len by omega]
          refine (slot_isSome h.inv (Nat.mod_lt _ hn)).2 ?_
          have := mt (hset ((i + 1 + len) % n)).2
          simpa using this (by simpa using a2)
        · have hx' : x ≠ i := fun e => hx ⟨0, by omega, by rw [Nat.add_zero, Nat.mod_eq_of_lt hi, e]⟩
          obtain ⟨b1, b2⟩ := a5 x (fun ⟨j, hj, e⟩ => hx ⟨j + 1, by omega, by rw [e]; congr 1; omega⟩)
          rw [List.getElem?_set_ne (Ne.symm hx')] at b1
          exact ⟨b1, b2⟩

theorem lookup_dist {H : Hasher κ} {m : Map κ ν} {n p : Nat} (h : Arr H m n p) (hgap : ∃ g < n, D m.metas g = 0)
    {k : κ} {c : Nat} (hj : ∀ j < c, j + 1 ≤ D m.metas ((home H n k + j) % n)) {hs : List Nat} (hsp : Spread n hs)
    (hsub : (home H n k :: (entries n m.metas m.table).map fun e => home H n e.1) <+~ hs) : c + 1 ≤ 1023 := by
  have hn : 0 < n := by have := h.two; omega
  by_cases h0 : c = 0
  · omega
  · have := hj (c - 1) (by omega)
    exact spread_bound h.inv hgap (idx := (home H n k + (c - 1)) % n) (Nat.mod_lt _ hn) (k := k) (c := c)
      (by rw [Nat.mod_add_mod]; congr 1; omega) (by omega) hsub hsp

/-- `_insert_entry_` in a map with room. -/
theorem insertEntry_frame {H : Hasher κ} (LH : Lawful H) {m : Map κ ν} {M : FMap κ ν} {n p : Nat} (h : Full H m M n p) {k : κ} (v : ν)
    (hroom : m.size < capacity m.bc) (hsp : Spread n ((insertNew H M k v).map fun e => home H n e.1)) :
    (∃ i, insertEntry true H m k = some (m, some i, false) ∧ i < n ∧ ∃ e, slot m.metas m.table i = some e ∧ H.eq e.1 k = true) ∨
    ∃ m1 i len, insertEntry true H m k = some (m1, some i, true) ∧ i < n ∧ find H M k = none ∧ Cluster m i len ∧
      m1.table.length = m.table.length ∧ m1.bc = m.bc ∧ D m1.metas i ≠ 0 ∧
      ∀ x, ¬ Between n i (len + 1) x → m1.metas[x]? = m.metas[x]? ∧ m1.table[x]? = m.table[x]? := by
  have hg : grow true H m = some (m, true) := by rw [grow, if_neg (by omega)]
  obtain ⟨r, er, hr⟩ := lookup_spec LH h.arr k
  have hn : 0 < n := by have := h.arr.two; omega
  rcases hr with ⟨h1, h2, e, h3, h4⟩ | ⟨h1, ⟨c, h2, h3, h4, h5⟩, h6⟩
  · left
    refine ⟨r.idx, ?_, h2, e, h3, h4⟩
    simp only [insertEntry, hg, bucketInsert, er, Option.bind_eq_bind, Option.bind_some, h1, if_true, Bool.false_eq_true, if_false, Nat.add_zero]
  · right
    have hf : find H M k = none := find_none_iff.2 fun e he => h6 e (h.perm.symm.subset he)
    have hsub : (home H n k :: (entries n m.metas m.table).map fun e => home H n e.1) <+~ (insertNew H M k v).map fun e => home H n e.1 := by
      rw [insertNew, hf]
      simp only [Option.isSome_none, Bool.false_eq_true, if_false, List.map_cons]
      exact ((h.perm.map _).cons _).subperm
    obtain ⟨m', e1, ⟨-, hD⟩, hsz, -, -⟩ := place_spec h.arr h.gap (e := (k, v)) h2 h4 h5 hsp hsub
    have hi : r.idx < n := by rw [h2]; exact Nat.mod_lt _ hn
    have hb := lookup_dist h.arr h.gap h5 hsp hsub
    obtain ⟨len, a1, a2, a3, a4⟩ := place_frame h.arr hi e1 (by omega)
    refine ⟨{ m' with size := m'.size + 1 }, r.idx, len, ?_, hi, hf, a1, a2, a3, by simp only; omega, a4⟩
    simp only [insertEntry, hg, bucketInsert, er, Option.bind_eq_bind, Option.bind_some, h1, if_true, Bool.false_eq_true, if_false, h3, e1]

/-- The arrays except for what bucket `i` of the table holds. -/
structure Beside (i : Nat) (m m' : Map κ ν) : Prop where
  bc : m'.bc = m.bc
  metas : m'.metas = m.metas
  len : m'.table.length = m.table.length
  rest : ∀ x, x ≠ i → m'.table[x]? = m.table[x]?

theorem store_frame {m m' : Map κ ν} {i : Nat} {e : κ × ν} (h : store m i e = some m') :
    Beside i m m' ∧ m'.table[i]? = some (some e) := by
  rw [store] at h
  by_cases hi : i < m.table.length
  · rw [if_pos hi] at h
    cases h
    exact ⟨⟨rfl, rfl, by simp, fun x hx => List.getElem?_set_ne (Ne.symm hx)⟩, List.getElem?_set_self hi⟩
  · rw [if_neg hi] at h; cases h

/-- What follows `_insert_entry_`. -/
theorem run_frame {H : Hasher κ} {m m1 m' : Map κ ν} {op : Op κ ν} {k : κ} {i : Nat} {ins : Bool} (hk : op.inserts = some k)
    (he : insertEntry true H m k = some (m1, some i, ins)) (hr : run H m op = some m') :
    Beside i m1 m' ∧ (ins = true → ∃ v, m'.table[i]? = some (some (k, v))) ∧
      (ins = false → ∀ e, m1.table[i]? = some (some e) → ∃ v, m'.table[i]? = some (some (e.1, v))) := by
  have new : ∀ {v : ν}, ins = true → store m1 i (k, v) = some m' → Beside i m1 m' ∧ (ins = true → ∃ v, m'.table[i]? = some (some (k, v))) ∧
      (ins = false → ∀ e, m1.table[i]? = some (some e) → ∃ v, m'.table[i]? = some (some (e.1, v))) := fun h1 hs =>
    ⟨(store_frame hs).1, fun _ => ⟨_, (store_frame hs).2⟩, fun h2 => by rw [h1] at h2; cases h2⟩
  have same : ins = false → m1 = m' → Beside i m1 m' ∧ (ins = true → ∃ v, m'.table[i]? = some (some (k, v))) ∧
      (ins = false → ∀ e, m1.table[i]? = some (some e) → ∃ v, m'.table[i]? = some (some (e.1, v))) := by
    rintro h1 rfl
    exact ⟨⟨rfl, rfl, rfl, fun _ _ => rfl⟩, fun h2 => (by rw [h1] at h2; cases h2), fun _ e h => ⟨e.2, h⟩⟩
  have upd : ∀ {v : ν} {e : κ × ν}, ins = false → m1.table[i]? = some (some e) → store m1 i (e.1, v) = some m' →
      Beside i m1 m' ∧ (ins = true → ∃ v, m'.table[i]? = some (some (k, v))) ∧
      (ins = false → ∀ e, m1.table[i]? = some (some e) → ∃ v, m'.table[i]? = some (some (e.1, v))) := by
    intro v e h1 ht hs
    refine ⟨(store_frame hs).1, fun h2 => (by rw [h1] at h2; cases h2), fun _ e' h => ⟨v, ?_⟩⟩
    rw [ht] at h
    cases h
    exact (store_frame hs).2
  cases op with
  | insert k' v =>
    simp only [Op.inserts, Option.some.injEq] at hk
    subst hk
    cases ins with
    | true =>
      cases hs : store m1 i (k', v) with
      | none => simp [run, insert, he, hs] at hr
      | some a => simp [run, insert, he, hs] at hr; subst hr; exact new rfl hs
    | false => simp [run, insert, he] at hr; exact same rfl hr
  | emplace k' v =>
    simp only [Op.inserts, Option.some.injEq] at hk
    subst hk
    cases ins with
    | true =>
      cases hs : store m1 i (k', v) with
      | none => simp [run, emplace, he, hs] at hr
      | some a => simp [run, emplace, he, hs] at hr; subst hr; exact new rfl hs
    | false => simp [run, emplace, he] at hr; exact same rfl hr
  | insertOrAssign k' v =>
    simp only [Op.inserts, Option.some.injEq] at hk
    subst hk
    cases ins with
    | true =>
      cases hs : store m1 i (k', v) with
      | none => simp [run, insertOrAssign, he, hs] at hr
      | some a => simp [run, insertOrAssign, he, hs] at hr; subst hr; exact new rfl hs
    | false =>
      simp only [run, insertOrAssign, he, Option.bind_eq_bind, Option.bind_some, Bool.false_eq_true, if_false, Option.map_eq_some_iff,
        Option.bind_eq_some_iff, Option.some.injEq] at hr
      obtain ⟨r, ⟨c, hc, e, rfl, a, hs, rfl⟩, rfl⟩ := hr
      exact upd rfl hc hs
  | emplaceOrAssign k' v =>
    simp only [Op.inserts, Option.some.injEq] at hk
    subst hk
    cases ins with
    | true =>
      cases hs : store m1 i (k', v) with
      | none => simp [run, emplaceOrAssign, he, hs] at hr
      | some a => simp [run, emplaceOrAssign, he, hs] at hr; subst hr; exact new rfl hs
    | false =>
      simp only [run, emplaceOrAssign, he, Option.bind_eq_bind, Option.bind_some, Bool.false_eq_true, if_false, Option.map_eq_some_iff,
        Option.bind_eq_some_iff, Option.some.injEq] at hr
      obtain ⟨r, ⟨c, hc, e, rfl, a, hs, rfl⟩, rfl⟩ := hr
      exact upd rfl hc hs
  | _ => simp [Op.inserts] at hk

theorem getRef_at {H : Hasher κ} (LH : Lawful H) {m : Map κ ν} {M : FMap κ ν} (h : Rep H m M) {i n : Nat} {e : κ × ν} {k : κ} (hn : m.bc = n) (hi : i < n)
    (hs : slot m.metas m.table i = some e) (he : H.eq e.1 k = true) : getRef H m k = some (some i) := by
  rcases h with ⟨rfl, rfl⟩ | ⟨n', p, hf⟩
  · subst hn; simp [init] at hi
  · have hn' : n' = n := by rw [← hf.arr.bc, hn]
    subst hn'
    have hfind : find H M k = some e := (find_some_iff LH hf.dist).2 ⟨hf.perm.subset (mem_entries.2 ⟨i, hi, hs⟩), he⟩
    rcases getRef_spec LH hf.reps k with ⟨-, h2⟩ | ⟨j, e', n2, p2, h1, hj, h3, -, h5, -, hf2⟩
    · rw [hfind] at h2; cases h2
    · have : n2 = n' := by rw [← hf.arr.bc, ← hf2.arr.bc]
      subst this
      rw [h1, hf.unique LH hj hi h3 hs (LH.trans _ _ _ h5 (LH.symm _ _ he))]

/-! ### C155 -/

/-- C155, hash maps. An insertion into a map with room keeps the arrays where they are. If the key is
there already, every other entry stays in its bucket, and so does the entry of that key. If the key is
new, entries move only inside the cluster of occupied buckets that begins where the new entry is put,
up to the next empty bucket; every other bucket keeps its entry. In particular nothing moves if the
new entry is put into an empty bucket (`len = 0`). -/
theorem hmap_insert_moves_partial {H : Hasher κ} (LH : Lawful H) {m m' : Map κ ν} {M : FMap κ ν} (h : Reach H m M) {op : Op κ ν} {k : κ}
    (hk : op.inserts = some k) (hv : valid H m M op) (hroom : m.size < capacity m.bc) (hr : run H m op = some m') :
    m'.bc = m.bc ∧ m'.table.length = m.table.length ∧
    (∀ i, getRef H m k = some (some i) → getRef H m' k = some (some i) ∧ ∀ x, x ≠ i → entryAt m' x = entryAt m x) ∧
    (getRef H m k = some none → ∃ i len, getRef H m' k = some (some i) ∧ Cluster m i len ∧
      ∀ x, ¬ Between m.bc i (len + 1) x → entryAt m' x = entryAt m x) := by
  have hrep := reach_rep LH h
  have hrep' : Rep H m' (after H m M op) := reach_rep LH (Reach.call _ _ _ _ h hv hr)
  rcases hrep with ⟨rfl, rfl⟩ | ⟨n, p, hf⟩
  · simp [init, capacity] at hroom
  · have hbk : buckets m = n := by rw [buckets, if_neg (by omega), hf.arr.bc]
    have hsp : ∃ v, Spread n ((insertNew H M k v).map fun e => home H n e.1) := by
      cases op with
      | insert k' v =>
        simp only [Op.inserts, Option.some.injEq] at hk; subst hk
        exact ⟨v, by have := hv.2; rwa [hbk] at this⟩
      | emplace k' v =>
        simp only [Op.inserts, Option.some.injEq] at hk; subst hk
        exact ⟨v, by have := hv.2; rwa [hbk] at this⟩
      | insertOrAssign k' v =>
        simp only [Op.inserts, Option.some.injEq] at hk; subst hk
        exact ⟨v, by have := hv.2; rwa [hbk, assign_homes] at this⟩
      | emplaceOrAssign k' v =>
        simp only [Op.inserts, Option.some.injEq] at hk; subst hk
        exact ⟨v, by have := hv.2; rwa [hbk, assign_homes] at this⟩
      | _ => simp [Op.inserts] at hk
    obtain ⟨v, hsp⟩ := hsp
    have hbc := hf.arr.bc
    rcases insertEntry_frame LH hf v hroom hsp with ⟨i, h1, h2, e, h3, h4⟩ | ⟨m1, i, len, h1, h2, h3, h4, h5, h6, h7, h8⟩
    · obtain ⟨B, -, b2⟩ := run_frame hk h1 hr
      obtain ⟨e', g1, g2, g3, -⟩ := hf.arr.inv.slot_eq h2 (slot_some h3)
      rw [h3] at g1
      cases g1
      obtain ⟨w, hw⟩ := b2 rfl e g2
      have hg := getRef_at LH hf.reps hbc h2 h3 h4
      have hs' : slot m'.metas m'.table i = some (e.1, w) := by
        rw [slot, B.metas, if_pos (slot_some h3), hw]; rfl
      have hg' := getRef_at LH hrep' (B.bc.trans hbc) h2 hs' h4
      refine ⟨B.bc, B.len, fun j hj => ?_, fun hn => by rw [hg] at hn; cases hn⟩
      rw [hg] at hj
      cases hj
      refine ⟨hg', fun x hx => ?_⟩
      rw [entryAt_eq, entryAt_eq]
      exact slot_congr ⟨by rw [B.metas], B.rest x hx⟩
    · obtain ⟨B, b1, -⟩ := run_frame hk h1 hr
      obtain ⟨w, hw⟩ := b1 rfl
      have hs' : slot m'.metas m'.table i = some (k, w) := by
        rw [slot, B.metas, if_pos h7, hw]; rfl
      have hg' := getRef_at LH hrep' (B.bc.trans (h6.trans hbc)) h2 hs' (LH.refl k)
      refine ⟨B.bc.trans h6, B.len.trans h5, fun j hj => ?_, fun _ => ⟨i, len, hg', h4, fun x hx => ?_⟩⟩
      · rcases getRef_spec LH hf.reps k with ⟨g1, -⟩ | ⟨_, _, _, _, -, -, -, -, -, g2, -⟩
        · rw [g1] at hj; cases hj
        · rw [h3] at g2; cases g2
      · rw [hbc] at hx
        have hxi : x ≠ i := fun e => hx ⟨0, by omega, by rw [Nat.add_zero, Nat.mod_eq_of_lt h2, e]⟩
        rw [entryAt_eq, entryAt_eq]
        exact slot_congr ⟨by rw [B.metas]; exact (h8 x hx).1, (B.rest x hxi).trans (h8 x hx).2⟩

/-- Two keys in their home buckets 7 and 0 of eight. -/
def neighbours : Map Nat Nat :=
  ((run natHasher init (.insert 7 70)).bind fun m => run natHasher m (.insert 0 5)).getD init

theorem neighbours_reach : Reach natHasher neighbours [(0, 5), (7, 70)] := by
  have h1 := Reach.call (κ := Nat) (ν := Nat) (H := natHasher) _ ((run natHasher init (.insert 7 70)).getD init) _ (.insert 7 70) .init
    (by simp only [valid]; decide +kernel) (by decide +kernel)
  exact Reach.call _ neighbours _ (.insert 0 5) h1 (by simp only [valid]; decide +kernel) (by decide +kernel)

/-- C155 is false of hash maps as documented ("No iterators are invalidated after insert, unless the
hash-table need to be extended"): inserting 15 into a map of eight buckets with room puts it into
bucket 0 and moves the entry there, of key 0, to bucket 1; a pointer or iterator to the entry of key 0
now gives the entry of key 15. -/
theorem hmap_insert_moves_others : ∃ (m m' : Map Nat Nat) (M : FMap Nat Nat) (i : Nat), Reach natHasher m M ∧
    m.size < capacity m.bc ∧ run natHasher m (.insert 15 150) = some m' ∧ m'.table.length = m.table.length ∧
    getRef natHasher m 0 = some (some i) ∧ entryAt m i = some (0, 5) ∧
    getRef natHasher m' 0 ≠ some (some i) ∧ entryAt m' i = some (15, 150) :=
  ⟨neighbours, (run natHasher neighbours (.insert 15 150)).getD init, _, 0, neighbours_reach, by decide +kernel, by decide +kernel,
    by decide +kernel, by decide +kernel, by decide +kernel, by decide +kernel, by decide +kernel⟩

example : ∃ m', run natHasher neighbours (.insert 3 30) = some m' ∧ entryAt m' 0 = some (0, 5) ∧ entryAt m' 7 = some (7, 70) := by
  obtain ⟨m', h1, -⟩ := map_defined natHasher_lawful neighbours_reach (.insert 3 30) (by simp only [valid]; decide +kernel)
  refine ⟨m', h1, ?_⟩
  have hm : m' = (run natHasher neighbours (.insert 3 30)).getD init := by rw [h1]; rfl
  obtain ⟨-, -, -, h2⟩ := hmap_insert_moves_partial natHasher_lawful neighbours_reach (k := 3) rfl
    (by simp only [valid]; decide +kernel) (by decide +kernel) h1
  obtain ⟨i, len, a1, a2, a3⟩ := h2 (by decide +kernel)
  have hi : i = 3 := by
    have : getRef natHasher m' 3 = some (some 3) := by rw [hm]; decide +kernel
    rw [a1] at this
    simpa using this
  subst hi
  have hl : len = 0 := by
    cases len with
    | zero => rfl
    | succ l =>
      have := a2.1 0 (by omega)
      have h0 : entryAt neighbours ((3 + 0) % neighbours.bc) = none := by decide +kernel
      rw [h0] at this
      cases this
  subst hl
  have hb : neighbours.bc = 8 := by decide +kernel
  constructor
  · rw [a3 0 (by rintro ⟨j, hj, e⟩; rw [hb] at e; omega)]; decide +kernel
  · rw [a3 7 (by rintro ⟨j, hj, e⟩; rw [hb] at e; omega)]; decide +kernel

end Verif.Hmap
