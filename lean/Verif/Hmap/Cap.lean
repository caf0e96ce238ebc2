import Verif.Hmap.Props
import Mathlib.Tactic.Common
/- What `hmap` and `hset` ask of the allocator: specification and lemmas for C134 and C135. -/
namespace Verif.Hmap
variable {κ ν : Type}

namespace Spec

/-- A call that may add an entry, with an allocator that succeeds (`ok`) or fails: the map, and
whether the call reports an entry. -/
def runA (ok : Bool) (H : Hasher κ) (m : Map κ ν) : Op κ ν → Option (Map κ ν × Bool)
  | .insert k v => (Hmap.insert ok H m k v).map fun r => (r.map, r.ref.isSome)
  | .emplace k v => (Hmap.emplace ok H m k v).map fun r => (r.map, r.ref.isSome)
  | .insertOrAssign k v => (Hmap.insertOrAssign ok H m k v).map fun r => (r.map, r.ref.isSome)
  | .emplaceOrAssign k v => (Hmap.emplaceOrAssign ok H m k v).map fun r => (r.map, r.ref.isSome)
  | op => (run H m op).map fun m => (m, true)

/-- Does the call need the allocator? It does when it fails without. -/
def asks (H : Hasher κ) (m : Map κ ν) (op : Op κ ν) : Bool :=
  match runA false H m op with
  | some (_, ok) => !ok
  | none => true

/-- The calls that are not about the capacity. -/
def ordinary : Op κ ν → Prop
  | .reserve _ | .shrink | .clone => False
  | _ => True

/-- The calls that may add an entry. -/
def adds : Op κ ν → Bool
  | .insert _ _ | .emplace _ _ | .insertOrAssign _ _ | .emplaceOrAssign _ _ => true
  | _ => false

/-- Histories of ordinary calls from `m`, `M` on in which no entry is added when there are `n`. -/
inductive Within (H : Hasher κ) (n : Nat) (m : Map κ ν) (M : FMap κ ν) : Map κ ν → FMap κ ν → Prop
  | start : Within H n m M m M
  | call {w w' : Map κ ν} {W : FMap κ ν} {op : Op κ ν} {ok r : Bool} : Within H n m M w W → valid H w W op → ordinary op →
      (adds op = true → W.length < n) → runA ok H w op = some (w', r) → Within H n m M w' (after H w W op)

/-- Histories of ordinary calls on a fresh map: `moved` counts the entries in the map each time a call
went to the allocator, `added` the entries added. -/
inductive Grown (H : Hasher κ) : Map κ ν → FMap κ ν → Nat → Nat → Prop
  | init : Grown H Hmap.init [] 0 0
  | call {m m' : Map κ ν} {M : FMap κ ν} {moved added : Nat} {op : Op κ ν} : Grown H m M moved added → valid H m M op →
      ordinary op → run H m op = some m' →
      Grown H m' (after H m M op) (moved + if asks H m op then M.length else 0)
        (added + ((after H m M op).length - M.length))

end Spec
open Spec

theorem place_bc {m m' : Map κ ν} {i d h : Nat} (hp : place m i d h = some m') : m'.bc = m.bc := by
  simp only [place, Option.bind_eq_bind, Option.bind_eq_some_iff] at hp
  obtain ⟨mc, -, hp⟩ := hp
  split at hp
  · simp only [Option.bind_eq_some_iff] at hp
    obtain ⟨d, -, ⟨a, b⟩, -, hh⟩ := hp
    cases hh; rfl
  · cases hp; rfl

theorem bucketInsert_bc {H : Hasher κ} {m m' : Map κ ν} {k : κ} {r} (hp : bucketInsert H m k = some (m', r)) : m'.bc = m.bc := by
  simp only [bucketInsert, Option.bind_eq_bind, Option.bind_eq_some_iff] at hp
  obtain ⟨r', -, hp⟩ := hp
  split at hp
  · cases hp; rfl
  · simp only [Option.bind_eq_some_iff] at hp
    obtain ⟨m1, h1, hh⟩ := hp
    cases hh; exact place_bc h1

theorem store_bc {m m' : Map κ ν} {i : Nat} {e : κ × ν} (h : store m i e = some m') : m'.bc = m.bc := by
  unfold store at h
  split at h
  · cases h; rfl
  · cases h

theorem rehash_bc {H : Hasher κ} {old : Map κ ν} : ∀ (f i : Nat) {m m' : Map κ ν}, rehash H old f i m = some m' → m'.bc = m.bc := by
  intro f
  induction f with
  | zero => intro i m m' h; cases h; rfl
  | succ f ih =>
    intro i m m' h
    simp only [rehash, Option.bind_eq_bind, Option.bind_eq_some_iff] at h
    obtain ⟨mt, -, h⟩ := h
    split at h
    · simp only [Option.bind_eq_some_iff] at h
      obtain ⟨c, -, e, -, ⟨m1, r, b⟩, h1, m2, h2, h3⟩ := h
      rw [ih _ h3, store_bc h2, bucketInsert_bc h1]
    · exact ih _ h

theorem grow_bc {H : Hasher κ} {m m' : Map κ ν} (h : grow true H m = some (m', true)) : m'.bc = buckets m := by
  unfold grow at h
  unfold buckets
  split at h
  · rename_i hg
    rw [if_pos hg]
    unfold reserve at h
    split at h
    · rename_i hc
      cases h
      rcases hc with hc | hc
      · omega
      · exact hc.symm
    · simp only [if_true, Option.bind_eq_bind, Option.bind_eq_some_iff] at h
      obtain ⟨m1, h1, hh⟩ := h
      cases hh
      rw [rehash_bc _ _ h1]; rfl
  · rename_i hg
    rw [if_neg hg]; cases h; rfl

theorem insertEntry_bc {H : Hasher κ} {m m' : Map κ ν} {k : κ} {r : Option Nat} {b : Bool} (h : insertEntry true H m k = some (m', r, b)) :
    m'.bc = buckets m := by
  simp only [insertEntry, Option.bind_eq_bind, Option.bind_eq_some_iff] at h
  obtain ⟨⟨m1, fine⟩, h1, h2⟩ := h
  have hf : fine = true := by
    unfold grow reserve at h1
    split at h1
    · split at h1
      · cases h1; rfl
      · simp only [if_true, Option.bind_eq_bind, Option.bind_eq_some_iff] at h1
        obtain ⟨_, _, hh⟩ := h1; cases hh; rfl
    · cases h1; rfl
  subst hf
  simp only [if_true, Option.bind_eq_some_iff] at h2
  obtain ⟨⟨m2, ref, ins⟩, h2, hh⟩ := h2
  cases hh
  simp only
  rw [bucketInsert_bc h2, grow_bc h1]

theorem eraseEntry_bc {m m' : Map κ ν} {i : Nat} {ds} (h : eraseEntry m i = some (m', ds)) : m'.bc = m.bc := by
  simp only [eraseEntry, Option.bind_eq_bind, Option.bind_eq_some_iff] at h
  obtain ⟨c, -, e, -, ⟨i, a, b⟩, -, mt, -, hh⟩ := h
  cases hh; rfl

theorem run_bc {H : Hasher κ} {m m' : Map κ ν} {op : Op κ ν} (ho : ordinary op) (h : run H m op = some m') :
    m'.bc = if adds op then buckets m else m.bc := by
  cases op with
  | insert k v =>
    simp only [run, insert, Option.bind_eq_bind, Option.map_eq_some_iff, Option.bind_eq_some_iff] at h
    obtain ⟨r, ⟨⟨m1, rf, ins⟩, h1, h2⟩, rfl⟩ := h
    simp only [adds, if_true]
    rw [← insertEntry_bc h1]
    split at h2
    · simp only [Option.bind_eq_some_iff] at h2
      obtain ⟨i, -, m2, h3, hh⟩ := h2
      cases hh; exact store_bc h3
    · cases h2; rfl
  | emplace k v =>
    simp only [run, emplace, Option.bind_eq_bind, Option.map_eq_some_iff, Option.bind_eq_some_iff] at h
    obtain ⟨r, ⟨⟨m1, rf, ins⟩, h1, h2⟩, rfl⟩ := h
    simp only [adds, if_true]
    rw [← insertEntry_bc h1]
    split at h2
    · simp only [Option.bind_eq_some_iff] at h2
      obtain ⟨i, -, m2, h3, hh⟩ := h2
      cases hh; exact store_bc h3
    · cases h2; rfl
  | insertOrAssign k v =>
    simp only [run, insertOrAssign, Option.bind_eq_bind, Option.map_eq_some_iff, Option.bind_eq_some_iff] at h
    obtain ⟨r, ⟨⟨m1, rf, ins⟩, h1, h2⟩, rfl⟩ := h
    simp only [adds, if_true]
    rw [← insertEntry_bc h1]
    cases rf with
    | none => cases h2; rfl
    | some i =>
      simp only at h2
      split at h2
      · simp only [Option.bind_eq_some_iff] at h2
        obtain ⟨m2, h3, hh⟩ := h2
        cases hh; exact store_bc h3
      · simp only [Option.bind_eq_some_iff] at h2
        obtain ⟨c, -, e, -, m2, h3, hh⟩ := h2
        cases hh; exact store_bc h3
  | emplaceOrAssign k v =>
    simp only [run, emplaceOrAssign, Option.bind_eq_bind, Option.map_eq_some_iff, Option.bind_eq_some_iff] at h
    obtain ⟨r, ⟨⟨m1, rf, ins⟩, h1, h2⟩, rfl⟩ := h
    simp only [adds, if_true]
    rw [← insertEntry_bc h1]
    cases rf with
    | none => cases h2; rfl
    | some i =>
      simp only at h2
      split at h2
      · simp only [Option.bind_eq_some_iff] at h2
        obtain ⟨m2, h3, hh⟩ := h2
        cases hh; exact store_bc h3
      · simp only [Option.bind_eq_some_iff] at h2
        obtain ⟨c, -, e, -, m2, h3, hh⟩ := h2
        cases hh; exact store_bc h3
  | setAt k v =>
    simp only [run, setAt, Option.bind_eq_bind, Option.bind_eq_some_iff] at h
    obtain ⟨r, -, h⟩ := h
    split at h
    · simp only [Option.bind_eq_some_iff] at h
      obtain ⟨c, -, e, -, h⟩ := h
      exact store_bc h
    · cases h
  | erase k =>
    simp only [run, erase, Option.bind_eq_bind, Option.map_eq_some_iff, Option.bind_eq_some_iff] at h
    obtain ⟨⟨m1, x, ds⟩, ⟨r, -, h⟩, rfl⟩ := h
    cases r with
    | none => cases h; rfl
    | some i =>
      simp only [Option.bind_eq_some_iff] at h
      obtain ⟨⟨m2, ds'⟩, h1, hh⟩ := h
      cases hh; exact eraseEntry_bc h1
  | eraseAt pos =>
    simp only [run, eraseAt, Option.bind_eq_bind, Option.map_eq_some_iff, Option.bind_eq_some_iff] at h
    obtain ⟨⟨it, m1, ds⟩, ⟨⟨m2, ds'⟩, h1, mt, -, h⟩, rfl⟩ := h
    split at h
    · simp only [Option.bind_eq_some_iff] at h
      obtain ⟨it', -, hh⟩ := h
      cases hh; exact eraseEntry_bc h1
    · cases h; exact eraseEntry_bc h1
  | clear =>
    simp only [run, clear, Option.bind_eq_bind, Option.map_eq_some_iff, Option.bind_eq_some_iff] at h
    obtain ⟨⟨m1, ds⟩, ⟨ds', -, hh⟩, rfl⟩ := h
    cases hh; rfl
  | reserve => exact ho.elim
  | shrink => exact ho.elim
  | clone => exact ho.elim

/-- While there is room no call depends on the allocator. -/
theorem room_same {H : Hasher κ} {m : Map κ ν} {op : Op κ ν} (hf : adds op = true → m.size < capacity m.bc) (b : Bool) :
    runA b H m op = runA true H m op := by
  have key : adds op = true → ∀ k, insertEntry b H m k = insertEntry true H m k := by
    intro ha k
    have := hf ha
    simp only [insertEntry, grow, if_neg (show ¬ m.size ≥ capacity m.bc by omega)]
  cases op with
  | insert k v => simp only [runA, insert, key rfl]
  | emplace k v => simp only [runA, emplace, key rfl]
  | insertOrAssign k v => simp only [runA, insertOrAssign, key rfl]
  | emplaceOrAssign k v => simp only [runA, emplaceOrAssign, key rfl]
  | _ => rfl

/-- With an allocator that succeeds the calls are those of `run`, and report an entry. -/
theorem runA_true {H : Hasher κ} (LH : Lawful H) {m : Map κ ν} {M : FMap κ ν} (h : Rep H m M) {op : Op κ ν} (hv : valid H m M op) :
    ∃ m', runA true H m op = some (m', true) ∧ run H m op = some m' ∧ Rep H m' (after H m M op) := by
  obtain ⟨m', e1, e2⟩ := run_rep LH h op hv
  refine ⟨m', ?_, e1, e2⟩
  cases op with
  | insert k v =>
    obtain ⟨r, i, h1, h3, _⟩ := insert_spec LH h k v hv.1 hv.2
    simp only [run, h1, Option.map_some, Option.some.injEq] at e1
    simp only [runA, h1, Option.map_some, e1, h3, Option.isSome_some]
  | emplace k v =>
    obtain ⟨r, i, h1, h3, _⟩ := emplace_spec LH h k v hv.1 hv.2
    simp only [run, h1, Option.map_some, Option.some.injEq] at e1
    simp only [runA, h1, Option.map_some, e1, h3, Option.isSome_some]
  | insertOrAssign k v =>
    obtain ⟨r, h1, h3, _⟩ := insertOrAssign_spec LH h k v hv.1 hv.2
    simp only [run, h1, Option.map_some, Option.some.injEq] at e1
    simp only [runA, h1, Option.map_some, e1, h3]
  | emplaceOrAssign k v =>
    obtain ⟨r, h1, h3, _⟩ := emplaceOrAssign_spec LH h k v hv.1 hv.2
    simp only [run, h1, Option.map_some, Option.some.injEq] at e1
    simp only [runA, h1, Option.map_some, e1, h3]
  | _ => simp only [runA, e1, Option.map_some]

theorem Rep.le_cap {H : Hasher κ} {m : Map κ ν} {M : FMap κ ν} (h : Rep H m M) : M.length ≤ capacity m.bc := by
  rcases h with ⟨rfl, rfl⟩ | ⟨n, p, h⟩
  · simp
  · rw [h.arr.bc]; exact h.cap

theorem within_rep {H : Hasher κ} (LH : Lawful H) {n : Nat} {m w : Map κ ν} {M W : FMap κ ν} (h : Rep H m M)
    (hn : n ≤ capacity m.bc) (hw : Within H n m M w W) : Rep H w W ∧ w.bc = m.bc := by
  induction hw with
  | start => exact ⟨h, rfl⟩
  | @call w w' W op ok r _ hv ho hf hs ih =>
    obtain ⟨i1, i2⟩ := ih
    have hroom : adds op = true → w.size < capacity w.bc := by
      intro ha
      have := hf ha
      rw [i1.size, i2]; omega
    obtain ⟨u, e1, e2, e3⟩ := runA_true LH i1 hv
    rw [room_same hroom ok, e1] at hs
    cases hs
    refine ⟨e3, ?_⟩
    rw [run_bc ho e2, ← i2]
    split
    · rename_i ha
      have := hroom ha
      rw [buckets, if_neg (by omega)]
    · rfl

theorem after_len {H : Hasher κ} {m : Map κ ν} {M : FMap κ ν} {op : Op κ ν} (hv : valid H m M op) :
    (adds op = false → (after H m M op).length ≤ M.length) ∧ (after H m M op).length ≤ M.length + 1 := by
  have h1 : ∀ k v, (insertNew H M k v).length ≤ M.length + 1 := by
    intro k v; rw [insertNew]; split <;> simp
  have h2 : ∀ k v, (assign H M k v).length ≤ M.length + 1 := by
    intro k v; rw [assign]; split <;> simp
  have h3 : ∀ k, (remove H M k).length ≤ M.length := by
    intro k; rw [remove]; exact List.length_filter_le _ _
  cases op with
  | insert k v => exact ⟨by simp [adds], h1 k v⟩
  | emplace k v => exact ⟨by simp [adds], h1 k v⟩
  | insertOrAssign k v => exact ⟨by simp [adds], h2 k v⟩
  | emplaceOrAssign k v => exact ⟨by simp [adds], h2 k v⟩
  | setAt k v =>
    have : (find H M k).isSome := hv
    simp only [after, assign, this, if_true, List.length_map]
    exact ⟨fun _ => Nat.le_refl _, Nat.le_succ _⟩
  | erase k => exact ⟨fun _ => h3 k, Nat.le_succ_of_le (h3 k)⟩
  | eraseAt pos =>
    simp only [after]
    split
    · exact ⟨fun _ => h3 _, Nat.le_succ_of_le (h3 _)⟩
    · simp
  | _ => simp [after]

theorem grown_bound {H : Hasher κ} (LH : Lawful H) {m : Map κ ν} {M : FMap κ ν} {mv a : Nat} (h : Grown H m M mv a) :
    Rep H m M ∧ mv + (3 * M.length - 2 * capacity m.bc) ≤ 3 * a := by
  induction h with
  | init => exact ⟨.inl ⟨rfl, rfl⟩, by simp⟩
  | @call m m' M mv a op _ hv ho hs ih =>
    obtain ⟨i1, i2⟩ := ih
    obtain ⟨u, e1, e2, e3⟩ := runA_true LH i1 hv
    rw [hs] at e2; cases e2
    refine ⟨e3, ?_⟩
    have hle := i1.le_cap
    have hsz := i1.size
    have hl := after_len hv
    have hbc := run_bc ho hs
    by_cases hroom : adds op = true → m.size < capacity m.bc
    · have hask : asks H m op = false := by
        rw [asks, room_same hroom false, e1]; rfl
      have : m'.bc = m.bc := by
        rw [hbc]
        split
        · rename_i ha
          have := hroom ha
          rw [buckets, if_neg (by omega)]
        · rfl
      rw [hask, this]
      simp only [Bool.false_eq_true, if_false]
      omega
    · rw [Classical.not_imp] at hroom
      obtain ⟨ha, hfull⟩ := hroom
      have hb : m'.bc = bucketsFor (m.size * 3 / 2 + 2) := by
        rw [hbc, if_pos ha, buckets, if_pos (by omega)]
      have h58 : M.length < 2 ^ 58 := by
        cases op <;> first | exact hv.1 | simp [adds] at ha
      obtain ⟨p, hp1, hp2, hp3⟩ := bucketsFor_spec (n := m.size * 3 / 2 + 2) (by omega)
      rw [hb, hp1]
      split <;> omega

end Verif.Hmap
