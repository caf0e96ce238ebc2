import Verif.Cstr.Props
import Mathlib.Tactic.Common
/- What `cstr` asks of the allocator: specification and lemmas for C134 and C135. -/
namespace Verif.Cstr
open Verif.Utf8 (Byte)

namespace Spec

/-- The calls considered. -/
def ordinary : Op → Prop
  | .assign _ _ | .append _ _ | .insert _ _ _ | .replaceAt _ _ _ _ | .erase _ _ | .clear => True
  | _ => False

/-- The number of bytes given to a call. -/
def given : Op → Nat
  | .assign _ n | .append _ n | .insert _ _ n | .replaceAt _ _ _ n => n
  | _ => 0

/-- Histories of such calls from `s`, `bs` on in which the string does not get longer than `n`. -/
inductive Within (n : Nat) (s : Str) (bs : List Byte) : Str → List Byte → Prop
  | start : Within n s bs s bs
  | call {t t' : Str} {cs o : List Byte} {op : Op} : Within n s bs t cs → valid cs op → ordinary op →
      run t op = some t' → After cs op o → o.length ≤ n → Within n s bs t' o

/-- Histories of such calls on a fresh string: `moved` counts the bytes in the string each time a call
changed the capacity (`cstr_reserve` copies the bytes exactly then), `added` the bytes given. -/
inductive Grown : Str → List Byte → Nat → Nat → Prop
  | init : Grown empty [] 0 0
  | call {s s' : Str} {bs o : List Byte} {moved added : Nat} {op : Op} : Grown s bs moved added → valid bs op →
      ordinary op → run s op = some s' → After bs op o →
      Grown s' o (moved + if capacity s' = capacity s then 0 else bs.length) (added + given op)

end Spec
open Spec

/-- The stored capacity. -/
def kap : Str → Nat
  | .short _ => 22
  | .long _ _ c => c
  | .null _ c => c

theorem kap_setBuf (d : List Cell) (s : Str) : kap (setBuf d s) = kap s := by cases s <;> rfl

theorem kap_setSize {n : Nat} {s s' : Str} (h : setSize n s = some s') : kap s' = kap s := by
  cases s <;> simp only [setSize, Option.bind_eq_bind, Option.bind_eq_some_iff] at h
  · obtain ⟨_, -, _, -, h⟩ := h; cases h; rfl
  · obtain ⟨_, -, h⟩ := h; cases h; rfl
  · cases h

theorem kap_reserve {c : Nat} {s s' : Str} {m : Bool} (hs : data s ≠ none) (h : reserve true c s = some (s', m)) : kap s' = max (kap s) c := by
  cases s with
  | short d =>
    simp only [reserve, sCap, if_true] at h
    split at h
    · simp only [Option.bind_eq_bind, Option.bind_eq_some_iff] at h
      obtain ⟨_, -, _, -, _, -, h⟩ := h
      cases h
      simp only [kap]; omega
    · cases h; simp only [kap]; omega
  | long d n k =>
    simp only [reserve, if_true] at h
    split at h
    · cases h; simp only [kap]; omega
    · cases h; simp only [kap]; omega
  | null => exact absurd rfl hs

theorem RepIn.kap {bs : List Byte} {s : Str} {d : List Cell} {c : Nat} (h : RepIn bs s d c) : kap s = c := by
  have := h.shape
  cases s <;> simp only [Shape] at this
  · simp only [Cstr.kap]; omega
  · simp only [Cstr.kap]; omega

theorem Rep.kap {bs : List Byte} {s : Str} (h : Rep bs s) : capacity s = some (kap s) ∧ data s ≠ none ∧ bs.length ≤ kap s ∧
    ∃ d, getbuf s = some (d, bs.length, kap s) := by
  obtain ⟨d, c, h⟩ := h
  have hk := h.kap
  refine ⟨by rw [capacity, getbuf_eq h, hk]; rfl, by rw [h.shape.data_eq]; simp, by rw [hk]; exact h.fits, d, by rw [hk, getbuf_eq h]⟩

theorem kap_replaceAt {bs : List Byte} {s s' : Str} (h : Rep bs s) {pos len n : Nat} {src : Src} (hp : pos + len ≤ bs.length)
    (e : replaceAt pos len src n s = some s') :
    kap s' = if bs.length + n - len > kap s then max (kap s) (bs.length * 3 / 2 + n - len) else kap s := by
  obtain ⟨-, k2, k3, d, k4⟩ := h.kap
  simp only [replaceAt, internalMove, k4, Option.bind_eq_bind, Option.bind_some, Option.bind_eq_some_iff] at e
  obtain ⟨⟨s1, mv⟩, e1, d1, -, d2, -, e⟩ := e
  cases e
  rw [kap_setBuf]
  split at e1
  · simp only [Option.bind_eq_some_iff] at e1
    obtain ⟨-, -, ⟨s2, m2⟩, e2, d3, -, d4, -, s3, e3, e1⟩ := e1
    cases e1
    rw [kap_setSize e3, kap_setBuf]
    simp only [moveRoom] at e2
    split at e2
    · rw [kap_reserve k2 e2, if_pos (by omega)]; congr 1; omega
    · cases e2; rw [if_neg (by omega)]
  · cases e1
    rw [if_neg (by omega)]

/-- What the calls do to the capacity. -/
theorem run_kap {bs o : List Byte} {s s' : Str} {op : Op} (h : Rep bs s) (hv : valid bs op) (ho : ordinary op)
    (e : run s op = some s') (ha : After bs op o) :
    o.length ≤ bs.length + given op ∧ (o.length ≤ kap s → kap s' = kap s) ∧
    (kap s < o.length → kap s < kap s' ∧ 3 * o.length ≤ 2 * kap s' + given op + 1) := by
  obtain ⟨-, k2, k3, d, k4⟩ := h.kap
  cases op with
  | assign m n =>
    cases ha
    have hv : n ≤ m.length := hv
    simp only [run, assignN, Option.bind_eq_bind, Option.map_eq_some_iff, Option.bind_eq_some_iff] at e
    obtain ⟨⟨s0, b⟩, ⟨⟨s1, mv⟩, e1, e⟩, rfl⟩ := e
    have hk : kap s0 = max (kap s) n := by
      rw [← kap_reserve k2 e1]
      simp only at e
      split at e
      · cases e; rfl
      · simp only [Option.bind_eq_some_iff] at e
        obtain ⟨s2, e2, d2, -, d3, -, e⟩ := e
        cases e
        rw [kap_setBuf, kap_setSize e2]
    simp only [hk, given, List.length_take]
    omega
  | append src n =>
    have ho : o.length = bs.length + n := by
      cases src with
      | ext m => cases ha; have hv : n ≤ m.length := hv; simp; omega
      | own off => cases ha; have hv : off + n ≤ bs.length := hv; simp; omega
    simp only [run, appendN, k4, Option.bind_eq_bind, Option.bind_some, Option.map_eq_some_iff, Option.bind_eq_some_iff] at e
    obtain ⟨⟨s0, b⟩, ⟨⟨s1, st, src'⟩, e1, e⟩, rfl⟩ := e
    have hk : kap s0 = kap s1 := by
      simp only at e
      split at e
      · cases e; rfl
      · simp only [Option.bind_eq_some_iff] at e
        obtain ⟨d2, -, s2, e2, e⟩ := e
        cases e
        rw [kap_setSize e2, kap_setBuf]
    have hk1 : kap s1 = if bs.length + n > kap s then max (kap s) (bs.length * 3 / 2 + n) else kap s := by
      simp only [makeRoom] at e1
      split at e1
      · rename_i hc
        rw [if_pos hc]
        simp only [Option.bind_eq_bind, Option.bind_eq_some_iff] at e1
        obtain ⟨⟨s2, mv⟩, e2, e1⟩ := e1
        rw [← kap_reserve k2 e2]
        cases src with
        | ext m => cases e1; rfl
        | own off => simp only at e1; split at e1 <;> (cases e1; rfl)
      · rename_i hc
        rw [if_neg hc]
        cases e1; rfl
    simp only [hk, hk1, given, ho]
    refine ⟨Nat.le_refl _, fun hle => by rw [if_neg (by omega)], fun hlt => ?_⟩
    rw [if_pos (by omega)]
    omega
  | insert pos m n =>
    cases ha
    have hv : pos ≤ bs.length ∧ n ≤ m.length := hv
    have := kap_replaceAt h (by omega) e
    simp only [this, given, List.length_append, List.length_take, List.length_drop]
    refine ⟨by omega, fun hle => by rw [if_neg (by omega)], fun hlt => ?_⟩
    rw [if_pos (by omega)]
    omega
  | replaceAt pos len m n =>
    cases ha
    have hv : pos + len ≤ bs.length ∧ n ≤ m.length := hv
    have := kap_replaceAt h (by omega) e
    simp only [this, given, List.length_append, List.length_take, List.length_drop]
    refine ⟨by omega, fun hle => by rw [if_neg (by omega)], fun hlt => ?_⟩
    rw [if_pos (by omega)]
    omega
  | erase pos len =>
    cases ha
    have hv : pos ≤ bs.length := hv
    simp only [run, erase, k4, Option.bind_eq_bind, Option.bind_some, Option.bind_eq_some_iff] at e
    obtain ⟨-, -, d2, -, e⟩ := e
    have hk : kap s' = kap s := by rw [kap_setSize e, kap_setBuf]
    rw [hk]
    simp only [given, List.length_append, List.length_take, List.length_drop]
    exact ⟨by omega, fun _ => trivial, fun _ => by omega⟩
  | clear =>
    cases ha
    simp only [run, clear] at e
    rw [kap_setSize e]
    simp only [List.length_nil]
    exact ⟨by omega, fun _ => trivial, fun _ => by omega⟩
  | _ => exact ho.elim

/-- Within the capacity, appending and assigning do not depend on the allocator. -/
theorem room_append {bs : List Byte} {s : Str} (h : Rep bs s) (src : Src) {n : Nat} (hn : bs.length + n ≤ kap s) (b : Bool) :
    appendN b src n s = appendN true src n s := by
  obtain ⟨-, -, -, d, k4⟩ := h.kap
  simp only [appendN, k4, Option.bind_eq_bind, Option.bind_some, makeRoom, if_neg (show ¬ bs.length + n > kap s by omega)]

theorem room_assign {bs : List Byte} {s : Str} (h : Rep bs s) (src : Src) {n : Nat} (hn : n ≤ kap s) (b : Bool) :
    assignN b src n s = assignN true src n s := by
  obtain ⟨-, k2, -⟩ := h.kap
  have : reserve b n s = reserve true n s := by
    cases s with
    | short d => simp only [kap] at hn; rw [reserve, reserve, if_neg (show ¬ n > sCap by simp only [sCap]; omega)]; rw [if_neg (show ¬ n > sCap by simp only [sCap]; omega)]
    | long d m c => simp only [kap] at hn; simp only [reserve, if_neg (show ¬ n > c by omega)]
    | null => rfl
  simp only [assignN, this]

theorem run_is {bs o : List Byte} {s s' : Str} {op : Op} (h : Rep bs s) (hv : valid bs op) (e : run s op = some s') (ha : After bs op o) :
    Rep o s' := by
  obtain ⟨s1, o1, e1, h1, h2⟩ := run_rep h op hv
  rw [e] at e1; cases e1
  rw [after_fun ha h2]; exact h1

theorem within_rep {n : Nat} {s t : Str} {bs cs : List Byte} (h : Rep bs s) (hn : n ≤ kap s) (hw : Within n s bs t cs) :
    Rep cs t ∧ kap t = kap s := by
  induction hw with
  | start => exact ⟨h, rfl⟩
  | @call t t' cs o op _ hv ho e ha hle ih =>
    obtain ⟨i1, i2⟩ := ih
    have := (run_kap i1 hv ho e ha).2.1 (by omega)
    exact ⟨run_is i1 hv e ha, this.trans i2⟩

theorem grown_bound {s : Str} {bs : List Byte} {mv a : Nat} (h : Grown s bs mv a) :
    Rep bs s ∧ mv + (3 * bs.length - 2 * kap s) ≤ 3 * a := by
  induction h with
  | init => exact ⟨rep_empty, by simp⟩
  | @call s s' bs o mv a op _ hv ho e ha ih =>
    obtain ⟨i1, i2⟩ := ih
    have hr : Rep o s' := run_is i1 hv e ha
    refine ⟨hr, ?_⟩
    obtain ⟨c1, c2, c3⟩ := run_kap i1 hv ho e ha
    obtain ⟨k1, -, k3, -⟩ := i1.kap
    rw [hr.kap.1, k1]
    by_cases hle : o.length ≤ kap s
    · rw [if_pos (by rw [c2 hle]), c2 hle]
      omega
    · have := c3 (by omega)
      rw [if_neg (by simp; omega)]
      omega

end Verif.Cstr
