import Mathlib.Tactic.Common
import Mathlib.Data.List.Perm.Basic
/-
Objects on the heap: `c_new`, `c_new_n`, `c_delete`, `c_delete_n` (common.h:80-103, the C forms) and `c_safe_memcpy`
(common.h:249-250).

`c_new` calls the `malloc` of the standard library; the other three go through `c_calloc` and `c_free`, which the user
may define (common.h:93-98). A block is known by the allocator it came from, its size and its objects; dropping an
object that is not there, or giving a block back to another allocator or with another size, is undefined.
-/
namespace Verif.Alloc.New
open scoped List
variable {α : Type}

/-- Where a block comes from: the standard library, or the user's `c_malloc`, `c_calloc`. -/
inductive Src where
  | std
  | user
  deriving DecidableEq

/-- A block with its objects; a dropped one is `none`. -/
structure Block (α : Type) where
  src : Src
  bytes : Nat
  cells : List (Option α)

structure Heap (α : Type) where
  blk : Nat → Option (Block α)
  fresh : Nat
  dropped : List α

/-- A type: its size, the object of zero bytes, and whether `T_drop(NULL)` is defined. -/
structure Ty (α : Type) where
  size : Nat
  zero : α
  nullOk : Bool

def Heap.set (h : Heap α) (a : Nat) (b : Option (Block α)) : Heap α := { h with blk := fun q => if q = a then b else h.blk q }

/-- A new block. -/
def Heap.put (h : Heap α) (b : Block α) : Heap α × Option Nat := ({ h.set h.fresh (some b) with fresh := h.fresh + 1 }, some h.fresh)

/-- common.h:81 `c_new`, with `c_safe_memcpy` (249-250) into the block of `malloc`. -/
def cNew (T : Ty α) (ok : Bool) (h : Heap α) (x : α) : Heap α × Option Nat :=
  if ok then h.put ⟨.std, T.size, [some x]⟩ else (h, none)

/-- common.h:99 `c_new_n`. -/
def cNewN (T : Ty α) (cm : Src) (ok : Bool) (h : Heap α) (n : Nat) : Heap α × Option Nat :=
  if ok then h.put ⟨cm, n * T.size, (List.replicate n T.zero).map some⟩ else (h, none)

/-- `T_drop(p + i)`. -/
def dropAt (T : Ty α) (h : Heap α) (p : Option Nat) (i : Nat) : Option (Heap α) :=
  match p with
  | none => if T.nullOk ∧ i = 0 then some h else none
  | some a => (h.blk a).bind fun b => (b.cells[i]?).bind fun c => c.bind fun x =>
    some { h.set a (some { b with cells := b.cells.set i none }) with dropped := h.dropped ++ [x] }

/-- `c_free(p, bytes)`. -/
def cFree (cm : Src) (h : Heap α) (p : Option Nat) (bytes : Nat) : Option (Heap α) :=
  match p with
  | none => some h
  | some a => (h.blk a).bind fun b => if b.src = cm ∧ b.bytes = bytes then some (h.set a none) else none

/-- common.h:100 `c_delete`. -/
def cDelete (T : Ty α) (cm : Src) (h : Heap α) (p : Option Nat) : Option (Heap α) :=
  (dropAt T h p 0).bind fun h => cFree cm h p T.size

/-- The loop of common.h:102. -/
def dropDown (T : Ty α) (p : Option Nat) : Nat → Heap α → Option (Heap α)
  | 0, h => some h
  | n + 1, h => (dropAt T h p n).bind (dropDown T p n)

/-- common.h:101-103 `c_delete_n`; with a negative number the loop does not stop in time. -/
def cDeleteN (T : Ty α) (cm : Src) (h : Heap α) (p : Option Nat) (n : Int) : Option (Heap α) :=
  if n < 0 then none else (dropDown T p n.toNat h).bind fun h => cFree cm h p (n.toNat * T.size)

/-! ### specification -/

/-- Histories of the calls: `L` are the objects not yet deleted, with their addresses, `e` what was put into them.
Single objects are made with `c_new` only if the allocator is the standard one. -/
inductive Reach (T : Ty α) (cm : Src) : Heap α → List (Nat × List α) → List α → Prop
  | init : Reach T cm ⟨fun _ => none, 0, []⟩ [] []
  | new (h h' : Heap α) (L : List (Nat × List α)) (e : List α) (p : Nat) (x : α) : Reach T cm h L e → cm = .std →
      cNew T true h x = (h', some p) → Reach T cm h' ((p, [x]) :: L) (e ++ [x])
  | newN (h h' : Heap α) (L : List (Nat × List α)) (e : List α) (p n : Nat) : Reach T cm h L e →
      cNewN T cm true h n = (h', some p) → Reach T cm h' ((p, List.replicate n T.zero) :: L) (e ++ List.replicate n T.zero)
  | del (h h' : Heap α) (L L' : List (Nat × List α)) (e : List α) (p : Nat) (x : α) : Reach T cm h L e → L ~ (p, [x]) :: L' →
      cDelete T cm h (some p) = some h' → Reach T cm h' L' e
  | delN (h h' : Heap α) (L L' : List (Nat × List α)) (e : List α) (p : Nat) (xs : List α) : Reach T cm h L e → L ~ (p, xs) :: L' →
      cDeleteN T cm h (some p) xs.length = some h' → Reach T cm h' L' e

structure Inv (T : Ty α) (cm : Src) (h : Heap α) (L : List (Nat × List α)) (e : List α) : Prop where
  has : ∀ p xs, (p, xs) ∈ L → h.blk p = some ⟨cm, xs.length * T.size, xs.map some⟩
  nodup : (L.map Prod.fst).Nodup
  only : ∀ p b, h.blk p = some b → p ∈ L.map Prod.fst
  old : ∀ p, p ∈ L.map Prod.fst → p < h.fresh
  all : h.dropped ++ L.flatMap Prod.snd ~ e

theorem Inv.perm {T : Ty α} {cm : Src} {h : Heap α} {L L' : List (Nat × List α)} {e : List α} (i : Inv T cm h L e) (hp : L ~ L') : Inv T cm h L' e where
  has p xs hm := i.has p xs (hp.mem_iff.2 hm)
  nodup := (hp.map _).nodup_iff.1 i.nodup
  only p b hb := (hp.map _).mem_iff.1 (i.only p b hb)
  old p hm := i.old p ((hp.map _).mem_iff.2 hm)
  all := ((hp.flatMap_right _).append_left _).symm.trans i.all

theorem Inv.put {T : Ty α} {cm : Src} {h : Heap α} {L : List (Nat × List α)} {e : List α} (i : Inv T cm h L e) (xs : List α) :
    Inv T cm (h.put ⟨cm, xs.length * T.size, xs.map some⟩).1 ((h.fresh, xs) :: L) (e ++ xs) where
  has p ys hm := by
    rcases List.mem_cons.1 hm with hm | hm
    · cases hm; simp [Heap.put, Heap.set]
    · have := i.old p (List.mem_map.2 ⟨_, hm, rfl⟩)
      simp only [Heap.put, Heap.set, if_neg (show p ≠ h.fresh by omega)]
      exact i.has p ys hm
  nodup := by
    rw [List.map_cons, List.nodup_cons]
    exact ⟨fun hm => absurd (i.old _ hm) (by simp), i.nodup⟩
  only p b hb := by
    simp only [Heap.put, Heap.set] at hb
    rw [List.map_cons, List.mem_cons]
    by_cases hp : p = h.fresh
    · exact .inl hp
    · rw [if_neg hp] at hb; exact .inr (i.only p b hb)
  old p hm := by
    rw [List.map_cons, List.mem_cons] at hm
    simp only [Heap.put]
    rcases hm with hm | hm
    · simp only at hm; omega
    · have := i.old p hm; omega
  all := by
    simp only [Heap.put, Heap.set, List.flatMap_cons]
    refine (List.perm_append_comm_assoc _ _ _).trans ?_
    exact List.perm_append_comm.trans (i.all.append_right _)

/-- The loop drops the first `n` objects, the last one first. -/
theorem dropDown_spec {T : Ty α} {a : Nat} {s : Src} {k : Nat} : ∀ (n : Nat) (h : Heap α) (xs : List α) (R : List (Option α)), xs.length = n →
    h.blk a = some ⟨s, k, xs.map some ++ R⟩ →
    dropDown T (some a) n h = some { h.set a (some ⟨s, k, List.replicate n none ++ R⟩) with dropped := h.dropped ++ xs.reverse } := by
  intro n
  induction n with
  | zero =>
    intro h xs R hn hb
    have : xs = [] := List.length_eq_zero_iff.1 hn
    subst this
    simp only [dropDown, Option.some.injEq, Heap.set, List.replicate_zero, List.nil_append, List.reverse_nil, List.append_nil]
    cases h with
    | mk blk fresh dropped =>
      simp only [Heap.mk.injEq, and_true]
      funext q
      by_cases hq : q = a
      · subst hq; simpa using hb
      · rw [if_neg hq]
  | succ n ih =>
    intro h xs R hn hb
    obtain ⟨ys, y, rfl⟩ : ∃ ys y, xs = ys ++ [y] := by
      rcases List.eq_nil_or_concat xs with rfl | ⟨ys, y, rfl⟩
      · simp at hn
      · exact ⟨ys, y, by simp⟩
    have hy : ys.length = n := by simpa using hn
    have hget : ((ys ++ [y]).map some ++ R)[n]? = some (some y) := by
      rw [List.map_append, List.append_assoc, List.getElem?_append_right (by simp [hy])]
      simp [hy]
    have hset : ((ys ++ [y]).map some ++ R).set n none = ys.map some ++ (none :: R) := by
      rw [List.map_append, List.append_assoc, List.set_append_right _ _ (by simp [hy])]
      simp [hy]
    rw [dropDown, dropAt, hb, Option.bind_some, hget, Option.bind_some, Option.bind_some, Option.bind_some, hset,
      ih _ ys (none :: R) hy (by simp [Heap.set])]
    simp only [Heap.set, Option.some.injEq, Heap.mk.injEq]
    refine ⟨?_, trivial, by simp⟩
    funext q
    by_cases hq : q = a
    · simp only [hq, if_true, Option.some.injEq, Block.mk.injEq, true_and]
      rw [List.replicate_succ', List.append_assoc]; rfl
    · simp [hq]

theorem cDeleteN_spec {T : Ty α} {cm : Src} {h : Heap α} {a : Nat} {xs : List α} (hb : h.blk a = some ⟨cm, xs.length * T.size, xs.map some⟩) :
    cDeleteN T cm h (some a) xs.length = some { h.set a none with dropped := h.dropped ++ xs.reverse } := by
  have := dropDown_spec (T := T) xs.length h xs [] rfl (by simpa using hb)
  rw [cDeleteN, if_neg (by omega), Int.toNat_natCast, this, Option.bind_some, cFree]
  simp only [Heap.set, if_true, Option.bind_some, Option.some.injEq, Heap.mk.injEq, and_true]
  funext q
  by_cases hq : q = a <;> simp [hq]

theorem cDelete_eq {T : Ty α} {cm : Src} {h : Heap α} {a : Nat} : cDelete T cm h (some a) = cDeleteN T cm h (some a) (1 : Nat) := by
  have h1 : ¬ ((1 : Nat) : Int) < 0 := by omega
  rw [cDelete, cDeleteN, if_neg h1, Int.toNat_natCast, Nat.one_mul, dropDown]
  congr 1
  cases dropAt T h (some a) 0 <;> simp [dropDown]

theorem Inv.delete {T : Ty α} {cm : Src} {h : Heap α} {L : List (Nat × List α)} {e : List α} {p : Nat} {xs : List α} (i : Inv T cm h ((p, xs) :: L) e) :
    Inv T cm { h.set p none with dropped := h.dropped ++ xs.reverse } L e := by
  have hn := i.nodup
  rw [List.map_cons, List.nodup_cons] at hn
  refine ⟨?_, hn.2, ?_, fun q hq => i.old q (by simp only [List.map_cons, List.mem_cons]; exact .inr hq), ?_⟩
  · intro q ys hm
    have hq : q ≠ p := by
      rintro rfl
      exact hn.1 (List.mem_map.2 ⟨_, hm, rfl⟩)
    simp only [Heap.set, if_neg hq]
    exact i.has q ys (List.mem_cons_of_mem _ hm)
  · intro q b hb
    simp only [Heap.set] at hb
    by_cases hq : q = p
    · rw [if_pos hq] at hb; cases hb
    · rw [if_neg hq] at hb
      have := i.only q b hb
      rw [List.map_cons, List.mem_cons] at this
      exact this.resolve_left hq
  · refine List.Perm.trans ?_ i.all
    rw [List.flatMap_cons, List.append_assoc]
    exact ((List.reverse_perm xs).append_right _).append_left _

theorem reach_inv {T : Ty α} {cm : Src} {h : Heap α} {L : List (Nat × List α)} {e : List α} (r : Reach T cm h L e) : Inv T cm h L e := by
  induction r with
  | init => exact ⟨by simp, by simp, by simp, by simp, by simp⟩
  | new h h' L e p x _ hc hn ih =>
    subst hc
    have := ih.put [x]
    simp only [cNew, if_true, Heap.put, Prod.mk.injEq, Option.some.injEq] at hn
    obtain ⟨rfl, rfl⟩ := hn
    simpa [Heap.put] using this
  | newN h h' L e p n _ hn ih =>
    have := ih.put (List.replicate n T.zero)
    simp only [cNewN, if_true, Heap.put, Prod.mk.injEq, Option.some.injEq] at hn
    obtain ⟨rfl, rfl⟩ := hn
    simpa [Heap.put] using this
  | del h h' L L' e p x _ hp hd ih =>
    have i := ih.perm hp
    have hb := i.has p [x] (List.mem_cons_self ..)
    rw [cDelete_eq] at hd
    have hs := cDeleteN_spec hb
    rw [List.length_singleton, hd, Option.some.injEq] at hs
    exact hs ▸ i.delete
  | delN h h' L L' e p xs _ hp hd ih =>
    have i := ih.perm hp
    have hs := cDeleteN_spec (i.has p xs (List.mem_cons_self ..))
    rw [hd, Option.some.injEq] at hs
    exact hs ▸ i.delete

/-! ### C177 -/

/-- C177 (partial: with an allocator of the user, objects are made with `c_new_n` only, see `new_user_undefined`; the
pointer is not NULL, see `delete_null_undefined`): after any history, deleting an object or an array is defined, drops
each of its elements once, the last one first, and gives the memory back; the other objects stay as they are. -/
theorem delete_object_partial {T : Ty α} {cm : Src} {h : Heap α} {L L' : List (Nat × List α)} {e : List α} (r : Reach T cm h L e) {p : Nat} {xs : List α}
    (hp : L ~ (p, xs) :: L') :
    ∃ h', cDeleteN T cm h (some p) xs.length = some h' ∧ (xs.length = 1 → cDelete T cm h (some p) = some h') ∧
      h'.dropped = h.dropped ++ xs.reverse ∧ h'.blk p = none ∧ ∀ q, q ≠ p → h'.blk q = h.blk q := by
  have hs := cDeleteN_spec (((reach_inv r).perm hp).has p xs (List.mem_cons_self ..))
  exact ⟨_, hs, fun h1 => by rw [cDelete_eq, ← hs, h1], rfl, by simp [Heap.set], fun q hq => by simp [Heap.set, hq]⟩

/-- C177: at any time the objects dropped and those still there are exactly those made, and no memory is held for
anything else; so when every object has been deleted, each was dropped once and all memory was given back. -/
theorem objects_balance {T : Ty α} {cm : Src} {h : Heap α} {L : List (Nat × List α)} {e : List α} (r : Reach T cm h L e) :
    h.dropped ++ L.flatMap Prod.snd ~ e ∧ (∀ p, h.blk p ≠ none ↔ p ∈ L.map Prod.fst) ∧ (L = [] → h.dropped ~ e ∧ ∀ p, h.blk p = none) := by
  have i := reach_inv r
  refine ⟨i.all, fun p => ⟨fun hb => ?_, fun hm => ?_⟩, ?_⟩
  · obtain ⟨b, hb⟩ := Option.ne_none_iff_exists'.1 hb
    exact i.only p b hb
  · obtain ⟨⟨q, xs⟩, hq, rfl⟩ := List.mem_map.1 hm
    rw [i.has q xs hq]; simp
  · rintro rfl
    refine ⟨by simpa using i.all, fun p => ?_⟩
    cases hb : h.blk p with
    | none => rfl
    | some b => simpa using i.only p b hb

/-- C177: deleting nothing, `c_delete_n(T, NULL, 0)`, does nothing, for every type and allocator. -/
theorem delete_none (T : Ty α) (cm : Src) (h : Heap α) : cDeleteN T cm h none 0 = some h := rfl

/-- C177, refuted: `c_delete(T, NULL)` calls `T_drop(NULL)`. The documentation says that NULL is OK, but it is only for
types whose `T_drop` says so; those of the strings and containers read through the pointer. -/
theorem delete_null_undefined (T : Ty α) (cm : Src) (h : Heap α) : cDelete T cm h none = some h ↔ T.nullOk = true := by
  unfold cDelete dropAt cFree
  by_cases hk : T.nullOk = true <;> simp [hk]

/-- C177, refuted: if the user defines `c_malloc` and its companions, what `c_new` makes cannot be deleted: the block is from the
`malloc` of the standard library, and `c_delete` gives it to the user's `c_free`. -/
theorem new_user_undefined (T : Ty α) (h : Heap α) (x : α) : ∃ h' p, cNew T true h x = (h', some p) ∧ cDelete T .user h' (some p) = none := by
  refine ⟨_, _, rfl, ?_⟩
  simp [cDelete, dropAt, cFree, Heap.set]

/-- C177, refuted: when `malloc` refuses, the value that was to be moved to the heap is lost: the objects dropped and
those still there are one less than those made. -/
theorem new_refused_lost {T : Ty α} {cm : Src} {h : Heap α} {L : List (Nat × List α)} {e : List α} (r : Reach T cm h L e) (x : α) :
    ∃ h', cNew T false h x = (h', none) ∧ ¬ h'.dropped ++ L.flatMap Prod.snd ~ e ++ [x] := by
  refine ⟨h, rfl, fun hp => ?_⟩
  have h1 := hp.length_eq
  have h2 := (reach_inv r).all.length_eq
  rw [h2, List.length_append, List.length_singleton] at h1
  omega

/-- A type of eight bytes, such as a number without resources. -/
def sampleTy : Ty Nat := ⟨8, 0, false⟩

/-- An object 5 and an array of three, the object deleted. -/
example : ∃ h, Reach sampleTy .std h [(1, [0, 0, 0])] [5, 0, 0, 0] ∧ h.dropped = [5] := by
  have h1 := Reach.new _ _ _ _ _ 5 (.init (T := sampleTy) (cm := .std)) rfl rfl
  have h2 := Reach.newN _ _ _ _ _ 3 h1 rfl
  have h3 := Reach.del _ _ _ [(1, [0, 0, 0])] _ 0 5 h2 (List.Perm.swap _ _ _) rfl
  exact ⟨_, h3, rfl⟩

/-- An array of the user's allocator, deleted. -/
example : ∃ h, Reach sampleTy .user h [] [0, 0] ∧ h.dropped ~ [0, 0] ∧ ∀ p, h.blk p = none := by
  have h1 := Reach.newN _ _ _ _ _ 2 (.init (T := sampleTy) (cm := .user)) rfl
  obtain ⟨h', e, -⟩ := delete_object_partial h1 (List.Perm.refl _)
  have h2 := Reach.delN _ _ _ [] _ 0 _ h1 (List.Perm.refl _) e
  exact ⟨h', h2, (objects_balance h2).2.2 rfl⟩

end Verif.Alloc.New
