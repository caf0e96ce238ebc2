import Verif.Smap.Props
import Mathlib.Tactic.Common
/- What `smap` and `sset` ask of the allocator: specification and lemmas for C134 and C135. -/
namespace Verif.Smap
variable {κ ν : Type}

namespace Spec

/-- A call, with an allocator that succeeds (`ok`) or fails: the map, and whether the call reports an
entry. -/
def runA [DecidableEq κ] (ok : Bool) (cmp : κ → κ → Int) (m : Map κ ν) : Op κ ν → Option (Map κ ν × Bool)
  | .insert k v => (Smap.insert cmp ok m k v).map fun r => (r.map, r.ref.isSome)
  | .emplace k v => (Smap.emplace cmp ok m k v).map fun r => (r.map, r.ref.isSome)
  | .insertOrAssign k v => (Smap.insertOrAssign cmp ok m k v).map fun r => (r.map, r.ref.isSome)
  | .emplaceOrAssign k v => (Smap.emplaceOrAssign cmp ok m k v).map fun r => (r.map, r.ref.isSome)
  | op => (run cmp m op).map fun m => (m, true)

/-- Does the call need the allocator? It does when it fails without. -/
def asks [DecidableEq κ] (cmp : κ → κ → Int) (m : Map κ ν) (op : Op κ ν) : Bool :=
  match runA false cmp m op with
  | some (_, ok) => !ok
  | none => true

/-- The calls considered: insertions, assignments and removals of one entry, and of a range. -/
def ordinary : Op κ ν → Prop
  | .putN _ | .reserve _ _ | .shrink | .clone | .clear => False
  | _ => True

/-- The calls that may add an entry. -/
def adds : Op κ ν → Bool
  | .insert _ _ | .emplace _ _ | .insertOrAssign _ _ | .emplaceOrAssign _ _ => true
  | _ => false

/-- Histories of ordinary calls from `m`, `M` on in which no entry is added when there are `n`. -/
inductive Within [DecidableEq κ] (cmp : κ → κ → Int) (n : Nat) (m : Map κ ν) (M : FMap κ ν) : Map κ ν → FMap κ ν → Prop
  | start : Within cmp n m M m M
  | call {w w' : Map κ ν} {W : FMap κ ν} {op : Op κ ν} {ok r : Bool} : Within cmp n m M w W → valid cmp w W op → ordinary op →
      (adds op = true → W.length < n) → runA ok cmp w op = some (w', r) → Within cmp n m M w' (after cmp w W op)

/-- Histories of ordinary calls on a fresh map: `moved` counts the entries in the map each time a call
went to the allocator, `added` the entries added. -/
inductive Grown [DecidableEq κ] (cmp : κ → κ → Int) : Map κ ν → FMap κ ν → Nat → Nat → Prop
  | init : Grown cmp Smap.init [] 0 0
  | call {m m' : Map κ ν} {M : FMap κ ν} {moved added : Nat} {op : Op κ ν} : Grown cmp m M moved added → valid cmp m M op →
      ordinary op → run cmp m op = some m' →
      Grown cmp m' (after cmp m M op) (moved + if asks cmp m op then M.length else 0)
        (added + ((after cmp m M op).length - M.length))

end Spec
open Spec T

theorem newNode_cap {lv i : Nat} {m m' : Map κ ν} (h : newNode true lv m = some (m', i)) (hh : m.head ≤ m.cap) : m'.size = m.size ∧ i ≠ 0 ∧
    ((m'.cap = m.cap ∧ m'.head ≤ m.head + 1 ∧ ∀ b, newNode b lv m = newNode true lv m) ∨
     (m.disp = 0 ∧ m.head = m.cap ∧ m'.cap = m.head * 3 / 2 + 4 ∧ m'.head = m.head + 1)) := by
  simp only [newNode, Option.bind_eq_bind, Option.bind_eq_some_iff] at h
  obtain ⟨⟨m1, j⟩, h1, h⟩ := h
  have key : m1.size = m.size ∧ j ≠ 0 ∧ ((m1.cap = m.cap ∧ m1.head ≤ m.head + 1 ∧ ∀ b, pick b m = pick true m) ∨
     (m.disp = 0 ∧ m.head = m.cap ∧ m1.cap = m.head * 3 / 2 + 4 ∧ m1.head = m.head + 1)) := by
    by_cases hd : m.disp = 0
    · rw [pick, if_neg (by simp [hd]), bump] at h1
      by_cases he : m.head = m.cap
      · rw [if_pos he] at h1
        split at h1
        · rw [reserve, if_neg (by omega)] at h1
          split at h1
          · cases h1
          · simp only [if_true, Option.bind_eq_bind, Option.bind_eq_some_iff] at h1
            obtain ⟨⟨m2, b⟩, ⟨d, -, h2⟩, h1⟩ := h1
            cases h2
            simp only [if_true] at h1
            cases h1
            exact ⟨rfl, Nat.succ_ne_zero _, Or.inr ⟨hd, he, rfl, rfl⟩⟩
        · cases h1
      · rw [if_neg he] at h1
        cases h1
        exact ⟨rfl, Nat.succ_ne_zero _, Or.inl ⟨rfl, Nat.le_refl _, fun b => by simp only [pick, bump, if_neg he]⟩⟩
    · rw [pick, if_pos hd] at h1
      simp only [Option.bind_eq_bind, Option.bind_eq_some_iff] at h1
      obtain ⟨n, -, h1⟩ := h1
      cases h1
      exact ⟨rfl, hd, Or.inl ⟨rfl, Nat.le_succ _, fun b => by simp only [pick, if_pos (show m.disp ≠ 0 from hd)]⟩⟩
  obtain ⟨k1, k2, k3⟩ := key
  simp only [k2, if_false, Option.bind_eq_some_iff] at h
  obtain ⟨d, -, h⟩ := h
  cases h
  refine ⟨k1, k2, k3.imp (fun k => ⟨k.1, k.2.1, fun b => by simp only [newNode, k.2.2 b]⟩) id⟩

/-- What an insertion does to the capacity. -/
def Steady (m m' : Map κ ν) : Prop := m'.cap = m.cap ∧ m'.head + m.size ≤ m.head + m'.size

def Swollen (m m' : Map κ ν) : Prop :=
  m.disp = 0 ∧ m.head = m.cap ∧ m'.cap = m.head * 3 / 2 + 4 ∧ m'.head = m.head + 1 ∧ m'.size = m.size + 1

theorem insertEntry_cap {cmp : κ → κ → Int} {m m' : Map κ ν} {k : κ} {r : Option Nat} {ins : Bool}
    (h : insertEntry cmp true m k = some (m', r, ins)) (hh : m.head ≤ m.cap) :
    (Steady m m' ∧ ∀ b, insertEntry cmp b m k = insertEntry cmp true m k) ∨ Swollen m m' := by
  simp only [insertEntry, Option.bind_eq_bind, Option.bind_eq_some_iff] at h
  obtain ⟨r', h1, h⟩ := h
  cases r' with
  | found tx =>
    cases h
    exact Or.inl ⟨⟨rfl, Nat.le_refl _⟩, fun b => by simp only [insertEntry, h1, Option.bind_eq_bind, Option.bind_some]⟩
  | bottom up dir =>
    simp only [Option.bind_eq_some_iff] at h
    obtain ⟨⟨m1, tx⟩, h2, h⟩ := h
    obtain ⟨c1, c2, c3⟩ := newNode_cap h2 hh
    simp only [c2, if_false, Option.bind_eq_some_iff] at h
    obtain ⟨⟨root, d⟩, -, h⟩ := h
    cases h
    rcases c3 with ⟨c3, c4, c5⟩ | ⟨c3, c4, c5, c6⟩
    · refine Or.inl ⟨⟨c3, by simp only; omega⟩, fun b => ?_⟩
      simp only [insertEntry, c5 b]
    · exact Or.inr ⟨c3, c4, c5, c6, by simp only [c1]⟩

theorem store_cap {m m' : Map κ ν} {i : Nat} {e : κ × ν} (h : store m i e = some m') : m'.cap = m.cap ∧ m'.head = m.head ∧ m'.size = m.size := by
  simp only [store, Option.bind_eq_bind, Option.bind_eq_some_iff] at h
  obtain ⟨n, -, d, -, h⟩ := h
  cases h; exact ⟨rfl, rfl, rfl⟩

theorem erase_cap {cmp : κ → κ → Int} {m m' : Map κ ν} {k : κ} {r} (h : erase cmp m k = some (m', r)) : m'.cap = m.cap ∧ m'.head = m.head := by
  simp only [erase, Option.bind_eq_bind, Option.bind_eq_some_iff] at h
  obtain ⟨e, -, h⟩ := h
  split at h <;> (cases h; exact ⟨rfl, rfl⟩)

theorem eraseAt_cap {cmp : κ → κ → Int} {inl : Bool} {m m' : Map κ ν} {it it' : Iter} {r} (h : eraseAt cmp inl m it = some (it', m', r)) :
    m'.cap = m.cap ∧ m'.head = m.head := by
  simp only [eraseAt, Option.bind_eq_bind, Option.bind_eq_some_iff] at h
  obtain ⟨i, -, e, -, it1, -, h⟩ := h
  split at h
  · simp only [Option.bind_eq_some_iff] at h
    obtain ⟨e', -, ⟨m1, x⟩, h1, e'', -, it2, -, h⟩ := h
    cases h; exact erase_cap h1
  · simp only [Option.bind_eq_some_iff] at h
    obtain ⟨⟨m1, x⟩, h1, h⟩ := h
    cases h; exact erase_cap h1

theorem eraseToEnd_cap {cmp : κ → κ → Int} {inl : Bool} : ∀ (f : Nat) {m m' : Map κ ν} {it it' : Iter} {r},
    eraseToEnd cmp inl f m it = some (it', m', r) → m'.cap = m.cap ∧ m'.head = m.head := by
  intro f
  induction f with
  | zero =>
    intro m m' it it' r h
    unfold eraseToEnd at h
    split at h
    · cases h; exact ⟨rfl, rfl⟩
    · cases h
  | succ f ih =>
    intro m m' it it' r h
    unfold eraseToEnd at h
    split at h
    · cases h; exact ⟨rfl, rfl⟩
    · simp only [Option.bind_eq_bind, Option.bind_eq_some_iff] at h
      obtain ⟨⟨it1, m1, d1⟩, h1, ⟨it2, m2, d2⟩, h2, h⟩ := h
      cases h
      have a := eraseAt_cap h1
      have b := ih h2
      exact ⟨b.1.trans a.1, b.2.trans a.2⟩

theorem eraseRangeLoop_cap [DecidableEq κ] {cmp : κ → κ → Int} {inl : Bool} {k2 : κ} : ∀ (f : Nat) {m m' : Map κ ν} {it it' : Iter} {k1 : κ} {r},
    eraseRangeLoop cmp inl k2 f m it k1 = some (it', m', r) → m'.cap = m.cap ∧ m'.head = m.head := by
  intro f
  induction f with
  | zero => intro m m' it it' k1 r h; cases h
  | succ f ih =>
    intro m m' it it' k1 r h
    unfold eraseRangeLoop at h
    split at h
    · cases h; exact ⟨rfl, rfl⟩
    · simp only [Option.bind_eq_bind, Option.bind_eq_some_iff] at h
      obtain ⟨it1, -, i, -, e, -, ⟨m1, x, d1⟩, h1, it2, -, ⟨it3, m2, d2⟩, h2, h⟩ := h
      cases h
      have a := erase_cap h1
      have b := ih h2
      exact ⟨b.1.trans a.1, b.2.trans a.2⟩

theorem eraseRange_cap [DecidableEq κ] {cmp : κ → κ → Int} {inl : Bool} {m m' : Map κ ν} {it1 it2 it' : Iter} {r}
    (h : eraseRange cmp inl m it1 it2 = some (it', m', r)) : m'.cap = m.cap ∧ m'.head = m.head := by
  unfold eraseRange at h
  split at h
  · exact eraseToEnd_cap _ h
  · simp only [Option.bind_eq_bind, Option.bind_eq_some_iff] at h
    obtain ⟨i, -, e1, -, e2, -, h⟩ := h
    exact eraseRangeLoop_cap _ h

/-- What a call that may add an entry does to the capacity. -/
theorem run_adds [DecidableEq κ] {cmp : κ → κ → Int} {m m' : Map κ ν} {op : Op κ ν} (ha : adds op = true) (hh : m.head ≤ m.cap)
    (h : run cmp m op = some m') :
    (Steady m m' ∧ ∀ b, runA b cmp m op = runA true cmp m op) ∨ Swollen m m' := by
  have st : ∀ {m1 m2 : Map κ ν} {i e}, store m1 i e = some m2 → ∀ {P : Prop}, (Steady m m1 ∧ P) ∨ Swollen m m1 → (Steady m m2 ∧ P) ∨ Swollen m m2 := by
    intro m1 m2 i e hs P hc
    obtain ⟨a1, a2, a3⟩ := store_cap hs
    unfold Steady Swollen at hc ⊢
    rw [a1, a2, a3]; exact hc
  cases op with
  | insert k v =>
    simp only [run, insert, Option.bind_eq_bind, Option.map_eq_some_iff, Option.bind_eq_some_iff] at h
    obtain ⟨r, ⟨⟨m1, rf, ins⟩, h1, h2⟩, rfl⟩ := h
    have c : (Steady m m1 ∧ ∀ b, runA b cmp m (.insert k v) = runA true cmp m (.insert k v)) ∨ Swollen m m1 :=
      (insertEntry_cap h1 hh).imp (fun h => ⟨h.1, fun b => by simp only [runA, insert, h.2 b]⟩) id
    split at h2
    · simp only [Option.bind_eq_some_iff] at h2
      obtain ⟨i, -, m2, h3, e⟩ := h2
      cases e; exact st h3 c
    · cases h2; exact c
  | emplace k v =>
    simp only [run, emplace, Option.bind_eq_bind, Option.map_eq_some_iff, Option.bind_eq_some_iff] at h
    obtain ⟨r, ⟨⟨m1, rf, ins⟩, h1, h2⟩, rfl⟩ := h
    have c : (Steady m m1 ∧ ∀ b, runA b cmp m (.emplace k v) = runA true cmp m (.emplace k v)) ∨ Swollen m m1 :=
      (insertEntry_cap h1 hh).imp (fun h => ⟨h.1, fun b => by simp only [runA, emplace, h.2 b]⟩) id
    split at h2
    · simp only [Option.bind_eq_some_iff] at h2
      obtain ⟨i, -, m2, h3, e⟩ := h2
      cases e; exact st h3 c
    · cases h2; exact c
  | insertOrAssign k v =>
    simp only [run, insertOrAssign, Option.bind_eq_bind, Option.map_eq_some_iff, Option.bind_eq_some_iff] at h
    obtain ⟨r, ⟨⟨m1, rf, ins⟩, h1, h2⟩, rfl⟩ := h
    have c : (Steady m m1 ∧ ∀ b, runA b cmp m (.insertOrAssign k v) = runA true cmp m (.insertOrAssign k v)) ∨ Swollen m m1 :=
      (insertEntry_cap h1 hh).imp (fun h => ⟨h.1, fun b => by simp only [runA, insertOrAssign, h.2 b]⟩) id
    cases rf with
    | none => cases h2; exact c
    | some i =>
      simp only at h2
      split at h2
      · simp only [Option.bind_eq_some_iff] at h2
        obtain ⟨m2, h3, e⟩ := h2
        cases e; exact st h3 c
      · simp only [Option.bind_eq_some_iff] at h2
        obtain ⟨e, -, m2, h3, e⟩ := h2
        cases e; exact st h3 c
  | emplaceOrAssign k v =>
    simp only [run, emplaceOrAssign, Option.bind_eq_bind, Option.map_eq_some_iff, Option.bind_eq_some_iff] at h
    obtain ⟨r, ⟨⟨m1, rf, ins⟩, h1, h2⟩, rfl⟩ := h
    have c : (Steady m m1 ∧ ∀ b, runA b cmp m (.emplaceOrAssign k v) = runA true cmp m (.emplaceOrAssign k v)) ∨ Swollen m m1 :=
      (insertEntry_cap h1 hh).imp (fun h => ⟨h.1, fun b => by simp only [runA, emplaceOrAssign, h.2 b]⟩) id
    cases rf with
    | none => cases h2; exact c
    | some i =>
      simp only at h2
      split at h2
      · simp only [Option.bind_eq_some_iff] at h2
        obtain ⟨m2, h3, e⟩ := h2
        cases e; exact st h3 c
      · simp only [Option.bind_eq_some_iff] at h2
        obtain ⟨e, -, m2, h3, e⟩ := h2
        cases e; exact st h3 c
  | _ => simp [adds] at ha

/-- The other calls leave it alone. -/
theorem run_rest [DecidableEq κ] {cmp : κ → κ → Int} {m m' : Map κ ν} {op : Op κ ν} (ha : adds op = false) (ho : ordinary op)
    (h : run cmp m op = some m') : m'.cap = m.cap ∧ m'.head = m.head := by
  cases op with
  | setAt k v =>
    simp only [run, setAt, Option.bind_eq_bind, Option.bind_eq_some_iff] at h
    obtain ⟨it, -, i, -, e, -, h⟩ := h
    have := store_cap h
    exact ⟨this.1, this.2.1⟩
  | erase k =>
    simp only [run, Option.map_eq_some_iff] at h
    obtain ⟨⟨m1, r⟩, h1, rfl⟩ := h
    exact erase_cap h1
  | eraseAt inl it =>
    simp only [run, Option.map_eq_some_iff] at h
    obtain ⟨⟨it, m1, r⟩, h1, rfl⟩ := h
    exact eraseAt_cap h1
  | eraseRange inl it1 it2 =>
    simp only [run, Option.map_eq_some_iff] at h
    obtain ⟨⟨it, m1, r⟩, h1, rfl⟩ := h
    exact eraseRange_cap h1
  | insert => simp [adds] at ha
  | emplace => simp [adds] at ha
  | insertOrAssign => simp [adds] at ha
  | emplaceOrAssign => simp [adds] at ha
  | putN => exact ho.elim
  | reserve => exact ho.elim
  | shrink => exact ho.elim
  | clone => exact ho.elim
  | clear => exact ho.elim

/-- With an allocator that succeeds the calls are those of `run`, and report an entry. -/
theorem runA_true [DecidableEq κ] {cmp : κ → κ → Int} (hc : Lawful cmp) {m : Map κ ν} {M : FMap κ ν} (h : Holds cmp m M) {op : Op κ ν}
    (hv : valid cmp m M op) : ∃ m', runA true cmp m op = some (m', true) ∧ run cmp m op = some m' ∧ Holds cmp m' (after cmp m M op) := by
  obtain ⟨m', e1, e2⟩ := run_holds hc h op hv
  refine ⟨m', ?_, e1, e2⟩
  cases op with
  | insert k v =>
    obtain ⟨r, i, h1, h3, _⟩ := insert_spec hc h k v (ok := true) (Or.inl ⟨rfl, hv⟩)
    simp only [run, h1, Option.map_some, Option.some.injEq] at e1
    simp only [runA, h1, Option.map_some, e1, h3, Option.isSome_some]
  | emplace k v =>
    obtain ⟨r, i, h1, h3, _⟩ := emplace_spec hc h k v (ok := true) (Or.inl ⟨rfl, hv⟩)
    simp only [run, h1, Option.map_some, Option.some.injEq] at e1
    simp only [runA, h1, Option.map_some, e1, h3, Option.isSome_some]
  | insertOrAssign k v =>
    obtain ⟨r, i, h1, h3, _⟩ := insertOrAssign_spec hc h k v (ok := true) (Or.inl ⟨rfl, hv⟩)
    simp only [run, h1, Option.map_some, Option.some.injEq] at e1
    simp only [runA, h1, Option.map_some, e1, h3, Option.isSome_some]
  | emplaceOrAssign k v =>
    obtain ⟨r, i, h1, h3, _⟩ := emplaceOrAssign_spec hc h k v (ok := true) (Or.inl ⟨rfl, hv⟩)
    simp only [run, h1, Option.map_some, Option.some.injEq] at e1
    simp only [runA, h1, Option.map_some, e1, h3, Option.isSome_some]
  | _ => simp only [runA, e1, Option.map_some]

/-- Nodes in use are entries or on the list of freed nodes. -/
theorem Holds.head {cmp : κ → κ → Int} {m : Map κ ν} {M : FMap κ ν} (h : Holds cmp m M) :
    m.head ≤ m.cap ∧ m.size = M.length ∧ (m.disp = 0 → m.head = M.length) := by
  obtain ⟨t, fs, h⟩ := h
  refine ⟨h.pool.head, h.size, fun hd => ?_⟩
  have hl : (ids t).length = M.length := by rw [length_ids, h.ord.length]
  have : fs = [] := by
    have := h.pool.free
    cases fs with
    | nil => rfl
    | cons f fs => exact absurd (this.1.symm.trans hd) this.2.1
  have he := h.pool.exact'
  rw [this] at he
  simp only [List.length_nil, Nat.add_zero] at he
  omega

theorem within_holds [DecidableEq κ] {cmp : κ → κ → Int} (hc : Lawful cmp) {n : Nat} {m w : Map κ ν} {M W : FMap κ ν} (h : Holds cmp m M)
    (hn : n ≤ m.cap) (hw : Within cmp n m M w W) : Holds cmp w W ∧ w.cap = m.cap := by
  induction hw with
  | start => exact ⟨h, rfl⟩
  | @call w w' W op ok r _ hv ho hf hs ih =>
    obtain ⟨i1, i2⟩ := ih
    obtain ⟨u, e1, e2, e3⟩ := runA_true hc i1 hv
    obtain ⟨g1, g2, g3⟩ := i1.head
    cases ha : adds op with
    | true =>
      have hW := hf ha
      rcases run_adds ha g1 e2 with ⟨c1, c2⟩ | ⟨c1, c2, -⟩
      · rw [c2 ok, e1] at hs
        cases hs
        exact ⟨e3, c1.1.trans i2⟩
      · have := g3 c1
        omega
    | false =>
      have : runA ok cmp w op = runA true cmp w op := by cases op <;> first | rfl | simp [adds] at ha
      rw [this, e1] at hs
      cases hs
      exact ⟨e3, (run_rest ha ho e2).1.trans i2⟩

theorem grown_bound [DecidableEq κ] {cmp : κ → κ → Int} (hc : Lawful cmp) {m : Map κ ν} {M : FMap κ ν} {mv a : Nat} (h : Grown cmp m M mv a) :
    Holds cmp m M ∧ mv + (3 * m.head - 2 * m.cap) ≤ 3 * a := by
  induction h with
  | init => exact ⟨holds_init cmp, by simp [Smap.init]⟩
  | @call m m' M mv a op _ hv ho hs ih =>
    obtain ⟨i1, i2⟩ := ih
    obtain ⟨u, e1, e2, e3⟩ := runA_true hc i1 hv
    rw [hs] at e2; cases e2
    refine ⟨e3, ?_⟩
    obtain ⟨g1, g2, g3⟩ := i1.head
    have g4 := e3.head.2.1
    cases ha : adds op with
    | true =>
      rcases run_adds ha g1 hs with ⟨⟨c1, c3⟩, c2⟩ | ⟨c1, c2, c3, c4, c5⟩
      · have hask : asks cmp m op = false := by
          rw [asks, c2 false, e1]; rfl
        rw [hask, c1]
        simp only [Bool.false_eq_true, if_false]
        omega
      · have := g3 c1
        split <;> omega
    | false =>
      have : runA false cmp m op = runA true cmp m op := by cases op <;> first | rfl | simp [adds] at ha
      have hask : asks cmp m op = false := by
        rw [asks, this, e1]; rfl
      obtain ⟨c1, c2⟩ := run_rest ha ho hs
      rw [hask, c1, c2]
      simp only [Bool.false_eq_true, if_false]
      omega

end Verif.Smap
