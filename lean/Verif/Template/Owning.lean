import Mathlib.Tactic.Common
/-
Which clone, drop and conversion functions a container ends up with, and who owns the elements that bulk
construction was given.
Modelled: include/stc/priv/template.h:119-151 (binding to class members), 174-179 (rejected combinations), 208-226
(the defaults), 228-278 (the same for the values of maps); `_put_n` of include/stc/vec.h:113-114, stack.h:170-171,
list.h:142-143, pqueue.h:49-50, priv/queue_prv.h:44-45 (sequences) and of include/stc/hmap.h:219-229, smap.h:247-256
(sets); `_put` of include/stc/hmap.h:211-217, smap.h:238-244 (maps).

An element is represented by the resource it owns.  A user's or class's clone and conversion functions are taken to make
a new resource, a drop function to free one; the default clone copies the bits, so that both copies own the same
resource, and the default drop does nothing.  Allocation of the container itself succeeds.
-/
namespace Verif.Template

/-- What a clone or conversion function does. include/stc/common.h:136 (`c_default_clone` returns its argument). -/
inductive Make | bits | fresh
deriving DecidableEq, Repr

/-- What a drop function does. include/stc/common.h:138 (`c_default_drop` does nothing). -/
inductive Kill | nothing | frees
deriving DecidableEq, Repr

/-- The macros defined for the key (or value): `i_keyclone`, `i_keydrop`, `i_keyfrom`, `i_keytoraw`, `i_keyclass`,
`i_keyraw`; `i_keypro T` is `cls` and `raw`. include/stc/priv/template.h:119-130. -/
structure Elem where
  clone : Bool := false
  drop : Bool := false
  «from» : Bool := false
  toraw : Bool := false
  cls : Bool := false
  raw : Bool := false
deriving DecidableEq, Repr

/-- Class members stand in for what is missing. include/stc/priv/template.h:133-151, 235-250. -/
def Elem.bindClass (noClone : Bool) (e : Elem) : Elem :=
  if e.cls then
    { e with
      clone := e.clone || !noClone
      drop := true
      «from» := e.from || (e.raw || !noClone)
      toraw := e.toraw || e.raw }
  else e

/-- The combination is not rejected by `#error`. include/stc/priv/template.h:176-179, 252-258. -/
def Elem.accepted (noClone : Bool) (e : Elem) : Bool :=
  let b := e.bindClass noClone
  !(b.raw && !b.toraw) && !(!noClone && (b.clone != b.drop))

/-- The functions in use. include/stc/priv/template.h:208-226. -/
structure Fns where
  clone : Make
  drop : Kill
  «from» : Make
  /-- `i_no_emplace` has been undefined -/
  emplace : Bool
deriving DecidableEq, Repr

/-- include/stc/priv/template.h:208-226, 260-278. -/
def Elem.fns (noClone : Bool) (e : Elem) : Fns :=
  let b := e.bindClass noClone
  { clone := if b.clone then .fresh else .bits
    drop := if b.drop then .frees else .nothing
    «from» := if !b.from && b.clone && !b.raw then .fresh
              else if !b.from then .bits else .fresh
    emplace := b.from }

/-- The resources held after making elements from `given` one by one; `next` is the first unused resource.
include/stc/vec.h:113-114. -/
def makeAll (m : Make) (given : List Nat) (next : Nat) : List Nat × Nat :=
  match m with
  | .bits => (given, next)
  | .fresh => (List.range' next given.length, next + given.length)

/-- `_put_n` of the sequences and the priority queue: `i_keyfrom` of each. include/stc/vec.h:113-114. -/
def seqPutN (f : Fns) (given : List Nat) (next : Nat) : List Nat × Nat := makeAll f.from given next

/-- `_put_n` of the sets, for pairwise different elements: `_emplace` if there is one, else `_insert`, which stores
the element it is given. include/stc/hmap.h:219-229, include/stc/smap.h:247-256. -/
def setPutN (f : Fns) (given : List Nat) (next : Nat) : List Nat × Nat :=
  if f.emplace then makeAll f.from given next else (given, next)

/-- The resources freed by dropping elements. include/stc/vec.h (`_drop` calls `i_keydrop` on each element). -/
def killAll (k : Kill) (held : List Nat) : List Nat :=
  match k with
  | .nothing => []
  | .frees => held

/-- What `_put` makes of the value: `_emplace_or_assign` exists if the key *or* the value has a conversion.
include/stc/hmap.h:211-217, 361-372; include/stc/priv/template.h:208-214, 260-266. -/
def putValue (key val : Fns) : Make := if key.emplace || val.emplace then val.from else .bits

/-! Specification. -/

/-- Who drops the elements that were handed over. -/
inductive Caller | keeps | gives

/-- Resources `0 … n-1` belong to an array, a container is made from it and dropped, then the caller drops the array
if it kept it.  All that was freed, and the number of resources that ever existed. -/
def life (put : List Nat → Nat → List Nat × Nat) (k : Kill) (c : Caller) (n : Nat) : List Nat × Nat :=
  let r := put (List.range n) n
  (killAll k r.1 ++ (match c with | .keeps => killAll k (List.range n) | .gives => []), r.2)

/-- Each resource is freed once: no leak, no double free. -/
def Balanced (r : List Nat × Nat) : Prop := r.1.Nodup ∧ ∀ i, i ∈ r.1 ↔ i < r.2

theorem fresh_balanced (n : Nat) :
    Balanced (List.range' n n ++ List.range n, n + n) := by
  refine ⟨?_, ?_⟩
  · refine List.nodup_append.2 ⟨List.nodup_range', List.nodup_range, ?_⟩
    intro a ha b hb
    simp [List.mem_range'] at ha hb
    omega
  · intro i
    simp only [List.mem_append, List.mem_range'_1, List.mem_range]
    omega

theorem fresh_leaks (n : Nat) (h : 0 < n) : ¬ Balanced (List.range' n n, n + n) := by
  intro hb
  have := (hb.2 0).2 (by simp; omega)
  simp [List.mem_range'] at this
  omega

theorem bits_balanced (n : Nat) : Balanced (List.range n, n) :=
  ⟨List.nodup_range, fun i => by simp⟩

theorem bits_double (n : Nat) (h : 0 < n) : ¬ Balanced (List.range n ++ List.range n, n) := by
  intro hb
  have := List.nodup_append.1 hb.1
  exact this.2.2 0 (by simp; omega) 0 (by simp; omega) rfl

/-- Elements are cloned by a clone function exactly if they are dropped by a drop function. -/
theorem clone_drop_paired (e : Elem) (h : e.accepted false = true) :
    (e.fns false).clone = .fresh ↔ (e.fns false).drop = .frees := by
  rcases e with ⟨a, b, c, d, f, g⟩
  revert h
  cases a <;> cases b <;> cases c <;> cases d <;> cases f <;> cases g <;> decide

/-- Elements of a class need nothing else: they are accepted, dropped by the class and, unless cloning is off, cloned and
converted by it. -/
theorem class_complete (noClone : Bool) (e : Elem) (hc : e.cls = true) :
    e.accepted noClone = true ∧ (e.fns noClone).drop = .frees ∧
    (noClone = false → (e.fns noClone).clone = .fresh ∧ (e.fns noClone).emplace = true) := by
  rcases e with ⟨a, b, c, d, f, g⟩
  revert hc
  cases noClone <;> cases a <;> cases b <;> cases c <;> cases d <;> cases f <;> cases g <;> decide

/-- A container that has `emplace` converts: the element it stores is never the one given. -/
theorem emplace_converts (noClone : Bool) (e : Elem) (h : (e.fns noClone).emplace = true) :
    (e.fns noClone).from = .fresh := by
  simp only [Elem.fns] at h ⊢
  simp [h]

/-- Sequences, cloneable elements that own something: `put_n` and `from_n` copy, the caller keeps its elements and must
drop them.  `raw` elements need a conversion or class. -/
theorem seq_put_n_copies (e : Elem) (h : e.accepted false = true) (hd : (e.fns false).drop = .frees)
    (hr : e.raw = true → e.from = true ∨ e.cls = true) (n : Nat) :
    Balanced (life (seqPutN (e.fns false)) (e.fns false).drop .keeps n) ∧
    (0 < n → ¬ Balanced (life (seqPutN (e.fns false)) (e.fns false).drop .gives n)) := by
  have hf : (e.fns false).from = .fresh := by
    rcases e with ⟨a, b, c, d, f, g⟩
    revert h hd hr
    cases a <;> cases b <;> cases c <;> cases d <;> cases f <;> cases g <;> decide
  have hp : seqPutN (e.fns false) (List.range n) n = (List.range' n n, n + n) := by
    simp [seqPutN, hf, makeAll]
  refine ⟨?_, fun h0 => ?_⟩
  · simp only [life, hp, hd, killAll]; exact fresh_balanced n
  · simp only [life, hp, hd, killAll, List.append_nil]; exact fresh_leaks n h0

/-- Sets: they copy if they have `emplace`, otherwise they take over the very elements of the caller. -/
theorem set_put_n (noClone : Bool) (e : Elem) (hd : (e.fns noClone).drop = .frees) (n : Nat) :
    ((e.fns noClone).emplace = true →
      Balanced (life (setPutN (e.fns noClone)) (e.fns noClone).drop .keeps n) ∧
      (0 < n → ¬ Balanced (life (setPutN (e.fns noClone)) (e.fns noClone).drop .gives n))) ∧
    ((e.fns noClone).emplace = false →
      Balanced (life (setPutN (e.fns noClone)) (e.fns noClone).drop .gives n) ∧
      (0 < n → ¬ Balanced (life (setPutN (e.fns noClone)) (e.fns noClone).drop .keeps n))) := by
  refine ⟨fun he => ?_, fun he => ?_⟩
  · have hp : setPutN (e.fns noClone) (List.range n) n = (List.range' n n, n + n) := by
      simp [setPutN, he, emplace_converts noClone e he, makeAll]
    refine ⟨?_, fun h0 => ?_⟩
    · simp only [life, hp, hd, killAll]; exact fresh_balanced n
    · simp only [life, hp, hd, killAll, List.append_nil]; exact fresh_leaks n h0
  · have hp : setPutN (e.fns noClone) (List.range n) n = (List.range n, n) := by
      simp [setPutN, he]
    refine ⟨?_, fun h0 => ?_⟩
    · simp only [life, hp, hd, killAll, List.append_nil]; exact bits_balanced n
    · simp only [life, hp, hd, killAll]; exact bits_double n h0

/-- For elements of a class sequences and sets agree: both copy. -/
theorem class_put_n_agrees (e : Elem) (hc : e.cls = true) (given : List Nat) (next : Nat) :
    seqPutN (e.fns false) given next = setPutN (e.fns false) given next := by
  have he : (e.fns false).emplace = true := by simp [Elem.fns, Elem.bindClass, hc]
  simp [seqPutN, setPutN, he]

/-- Refuted: for elements given by `i_keyclone` and `i_keydrop` the same call copies into a sequence and moves
into a set, for every number of elements: what is right for one leaks or frees twice in the other. -/
theorem put_n_disagrees (n : Nat) (h0 : 0 < n) :
    let e : Elem := { clone := true, drop := true }
    e.accepted false = true ∧
    Balanced (life (seqPutN (e.fns false)) .frees .keeps n) ∧ ¬ Balanced (life (setPutN (e.fns false)) .frees .keeps n) ∧
    Balanced (life (setPutN (e.fns false)) .frees .gives n) ∧ ¬ Balanced (life (seqPutN (e.fns false)) .frees .gives n) := by
  intro e
  have hs := seq_put_n_copies e (by decide) (by decide) (by decide) n
  have ht := (set_put_n false e (by decide) n).2 (by decide)
  exact ⟨by decide, hs.1, ht.2 h0, ht.1, hs.2 h0⟩

/-- The value given to `put` is copied if values are of a class, whatever the key. -/
theorem put_value_class (key val : Elem) (hc : val.cls = true) :
    putValue (key.fns false) (val.fns false) = .fresh := by
  have he : (val.fns false).emplace = true := by simp [Elem.fns, Elem.bindClass, hc]
  simp [putValue, he, emplace_converts false val he]

/-- The value given to `put` is stored as it is if neither key nor value has a conversion. -/
theorem put_value_plain (noClone : Bool) (key val : Elem) (hk : (key.fns noClone).emplace = false)
    (hv : (val.fns noClone).emplace = false) : putValue (key.fns noClone) (val.fns noClone) = .bits := by
  simp [putValue, hk, hv]

/-- Refuted: who owns the value after `put` does not depend on the value's type alone.  With values given by `i_valclone` and
`i_valdrop`, a map with plain keys takes the value over and one with string keys (`i_keypro`) copies it. -/
theorem put_value_depends_on_key :
    let val : Elem := { clone := true, drop := true }
    let plain : Elem := {}
    let str : Elem := { cls := true, raw := true }
    val.accepted false = true ∧ plain.accepted false = true ∧ str.accepted false = true ∧
    putValue (plain.fns false) (val.fns false) = .bits ∧ putValue (str.fns false) (val.fns false) = .fresh := by
  decide

/-! Concrete cases. -/

example : Elem.accepted false { drop := true } = false := by decide
example : Elem.accepted true { drop := true } = true := by decide
example : (Elem.fns false { clone := true, drop := true }).emplace = false := by decide
example : (Elem.fns false { cls := true, raw := true }).emplace = true := by decide

example : (Elem.fns false { clone := true, drop := true, «from» := true }).clone = .fresh :=
  (clone_drop_paired _ (by decide)).2 (by decide)

example : Elem.accepted true { cls := true, raw := true } = true := (class_complete true _ rfl).1

example : (Elem.fns true { drop := true, «from» := true }).from = .fresh := emplace_converts true _ (by decide)

example : life (seqPutN (Elem.fns false { cls := true })) .frees .keeps 2 = ([2, 3, 0, 1], 4) := by decide
example : life (setPutN (Elem.fns false { clone := true, drop := true })) .frees .keeps 2 = ([0, 1, 0, 1], 2) := by decide

example : Balanced (life (seqPutN (Elem.fns false { cls := true, raw := true })) .frees .keeps 7) :=
  (seq_put_n_copies { cls := true, raw := true } (by decide) (by decide) (by decide) 7).1

example : Balanced (life (setPutN (Elem.fns true { drop := true })) .frees .gives 7) :=
  ((set_put_n true { drop := true } (by decide) 7).2 (by decide)).1

example : seqPutN (Elem.fns false { cls := true, raw := true }) [4, 5] 9 = ([9, 10], 11) := by
  rw [class_put_n_agrees _ rfl]; decide

example : ¬ Balanced (life (setPutN (Elem.fns false { clone := true, drop := true })) .frees .keeps 3) :=
  (put_n_disagrees 3 (by decide)).2.2.1

example : putValue (Elem.fns false {}) (Elem.fns false { cls := true }) = .fresh := put_value_class _ _ rfl
example : putValue (Elem.fns true {}) (Elem.fns true { drop := true }) = .bits := put_value_plain _ _ _ (by decide) (by decide)

end Verif.Template
