import Verif.Cstr.Props
/-
Formatted output into strings: include/stc/priv/cstr_prv.c:194-228 (`cstr_vfmt`, `cstr_from_fmt`, `cstr_append_fmt`,
`cstr_printf`).

`vsnprintf` is the C library's.  What it would print is given: a text that does not depend on the string written to,
an error (`vsnprintf` yields -1, as it may for a wide character that cannot be encoded), or, for the format "%s",
the text of the very string from some position on.
-/
namespace Verif.Cstr.Format
open Verif.Utf8 Verif.Cstr.Spec

/-- What a format with its arguments prints. include/stc/priv/cstr_prv.c:194-197. -/
inductive Printed where
  | text (out : List Byte)
  | error
  | own (off : Nat)
deriving DecidableEq

/-- `vsnprintf(reserve(self, start + n) + start, n + 1, …)` and `_cstr_set_size(self, start + n)`; `src` is where the
text lies in the string itself, if it does: then the buffer must not have moved and the parts not overlap (C17
7.21.6.12). include/stc/priv/cstr_prv.c:198-200. -/
def printAt (ok : Bool) (start : Nat) (out : List Byte) (src : Option Nat) (s : Str) : Option Str :=
  (reserve ok (start + out.length) s).bind fun r =>
  (data r.1).bind fun d =>
  let clash := match src with
    | none => false
    | some off => r.2 || decide (off ≤ start + out.length ∧ start ≤ off + out.length)
  if clash then none
  else (put d start (out.map some ++ [some 0#8])).bind fun d =>
    setSize (start + out.length) (setBuf d r.1)

/-- include/stc/priv/cstr_prv.c:194-203 `cstr_vfmt`: the result and the string. With -1 characters the capacity asked for
is `start - 1`, nothing is printed, and the size is set to `start - 1`; for `start = 0` that writes before the buffer. -/
def vfmt (ok : Bool) (start : Nat) (p : Printed) (s : Str) : Option (Int × Str) :=
  match p with
  | .text out => (printAt ok start out none s).map fun s => ((out.length : Int), s)
  | .error =>
    if start = 0 then none
    else (reserve ok (start - 1) s).bind fun r => (setSize (start - 1) r.1).map fun s => (-1, s)
  | .own off =>
    (mem s).bind fun m =>
    let out := (m.drop off).takeWhile (· ≠ 0#8)
    (printAt ok start out (some off) s).map fun s => ((out.length : Int), s)

/-- include/stc/priv/cstr_prv.c:205-212 `cstr_from_fmt`. -/
def fromFmt (ok : Bool) (p : Printed) : Option Str := (vfmt ok 0 p empty).map (·.2)

/-- include/stc/priv/cstr_prv.c:214-220 `cstr_append_fmt`. -/
def appendFmt (ok : Bool) (p : Printed) (s : Str) : Option (Int × Str) :=
  (size s).bind fun n => vfmt ok n p s

/-- include/stc/priv/cstr_prv.c:222-229 `cstr_printf`. -/
def printf (ok : Bool) (p : Printed) (s : Str) : Option (Int × Str) := vfmt ok 0 p s

/-- For a text and an allocator that never refuses, this is the function of `Model.lean`. -/
theorem vfmt_text (start : Nat) (out : List Byte) (s : Str) :
    vfmt true start (.text out) s = (Cstr.vfmt start out s).map fun s => ((out.length : Int), s) := by
  simp only [vfmt, printAt, Cstr.vfmt, Option.bind_eq_bind]
  cases reserve true (start + out.length) s with
  | none => rfl
  | some r =>
    obtain ⟨s1, m⟩ := r
    simp

/-- `cstr_append_fmt` appends exactly what is printed and returns its length. -/
theorem append_fmt (s : Str) (bs : List Byte) (h : Reach s bs) (out : List Byte) :
    ∃ s', appendFmt true (.text out) s = some ((out.length : Int), s') ∧ mem s' = some (bs ++ out ++ [0#8]) ∧
      size s' = some (bs.length + out.length) := by
  have hr := rep_of_reach h
  obtain ⟨s', e, h'⟩ := (vfmt_rep hr out).2
  simp only [Cstr.appendFmt, size_eq hr, Option.bind_eq_bind, Option.bind_some] at e
  refine ⟨s', by simp [appendFmt, size_eq hr, vfmt_text, e], mem_eq h', by rw [size_eq h']; simp⟩

/-- `cstr_printf` leaves exactly what is printed, whatever the string held, and returns its length. -/
theorem printf_text (s : Str) (bs : List Byte) (h : Reach s bs) (out : List Byte) :
    ∃ s', printf true (.text out) s = some ((out.length : Int), s') ∧ mem s' = some (out ++ [0#8]) := by
  obtain ⟨s', e, h'⟩ := (vfmt_rep (rep_of_reach h) out).1
  simp only [Cstr.printf] at e
  exact ⟨s', by simp [printf, vfmt_text, e], mem_eq h'⟩

/-- `cstr_from_fmt` makes a string of what is printed. -/
theorem from_fmt (out : List Byte) :
    ∃ s', fromFmt true (.text out) = some s' ∧ mem s' = some (out ++ [0#8]) := by
  obtain ⟨s', e, h'⟩ := printf_text empty [] .init out
  refine ⟨s', ?_, h'⟩
  simp only [printf] at e
  simp [fromFmt, e]

/-- Refuted: when printing fails, `cstr_append_fmt` returns -1 but does not leave the string alone: the last
character is lost; on an empty string, and for `cstr_printf` and `cstr_from_fmt` always, memory before the buffer
is written. -/
theorem fmt_error_wrong (ok : Bool) (s : Str) (bs : List Byte) (h : Reach s bs) :
    (∀ xs b, bs = xs ++ [b] → ∃ s', appendFmt ok .error s = some (-1, s') ∧ mem s' = some (xs ++ [0#8])) ∧
    (bs = [] → appendFmt ok .error s = none) ∧ printf ok .error s = none ∧ fromFmt ok .error = none := by
  have hr := rep_of_reach h
  refine ⟨?_, ?_, rfl, rfl⟩
  · rintro xs b rfl
    obtain ⟨d, cap, hi⟩ := id hr
    have hf := hi.fits
    simp at hf
    have hres : ∃ m, reserve ok xs.length s = some (s, m) := by
      have hs := hi.shape
      cases s with
      | null n k => simp [Shape] at hs
      | short d0 =>
        obtain ⟨rfl, hl, rfl⟩ := hs
        exact ⟨false, by simp [reserve, sCap]; omega⟩
      | long d0 n k =>
        obtain ⟨rfl, rfl, hl, hk⟩ := hs
        exact ⟨false, by simp [reserve]; omega⟩
    obtain ⟨m, e⟩ := hres
    have hb := hi.bytes
    have ht : d.take xs.length = xs.map some := by
      have := congrArg (·.take xs.length) hb
      simpa [List.take_take] using this
    obtain ⟨s', e2, d', h2⟩ := setSize_rep xs hi.shape (by omega) ht
    refine ⟨s', ?_, mem_eq ⟨d', cap, h2⟩⟩
    simp [appendFmt, size_eq hr, vfmt, e, e2]
  · rintro rfl
    simp [appendFmt, size_eq hr, vfmt]

theorem mem_own {bs : List Byte} {off : Nat} (hb : 0#8 ∉ bs) (ho : off ≤ bs.length) :
    ((bs ++ [0#8]).drop off).takeWhile (· ≠ 0#8) = bs.drop off := by
  rw [List.drop_append_of_le_length ho]
  have hn : ∀ x ∈ bs.drop off, (decide (x ≠ 0#8)) = true := by
    intro x hx; simp; rintro rfl; exact hb (List.mem_of_mem_drop hx)
  rw [List.takeWhile_append_of_pos hn]
  simp

/-- Refuted: appending the text of the string itself by "%s" is undefined, for every string and position, unlike
`cstr_append`, which handles it (`string_append_self`). -/
theorem append_fmt_self_undefined (ok : Bool) (s : Str) (bs : List Byte) (h : Reach s bs) (hb : 0#8 ∉ bs) (off : Nat)
    (ho : off ≤ bs.length) : appendFmt ok (.own off) s = none := by
  have hr := rep_of_reach h
  simp only [appendFmt, size_eq hr, Option.bind_some, vfmt, mem_eq hr, mem_own hb ho]
  rw [Option.map_eq_none_iff]
  unfold printAt
  cases reserve ok (bs.length + (bs.drop off).length) s with
  | none => rfl
  | some r =>
    simp only [Option.bind_some]
    cases data r.1 with
    | none => rfl
    | some d =>
      simp only [Option.bind_some]
      rw [if_pos]
      simp; right; omega

/-- When the memory for the text is refused, the code goes on with the null pointer. -/
theorem append_fmt_refused_undefined (s : Str) (bs : List Byte) (h : Reach s bs) (out : List Byte) (c : Nat)
    (hc : capacity s = some c) (hg : c < bs.length + out.length) : appendFmt false (.text out) s = none := by
  have hr := rep_of_reach h
  obtain ⟨d, cap, hi⟩ := id hr
  have : cap = c := by have := hc; simp only [capacity, getbuf_eq hi] at this; simpa using this
  subst this
  simp only [appendFmt, size_eq hr, Option.bind_some, vfmt, printAt]
  rw [Option.map_eq_none_iff]
  have hs := hi.shape
  cases s with
  | null n k => simp [Shape] at hs
  | short d0 =>
    obtain ⟨rfl, hl, rfl⟩ := hs
    rw [reserve, if_pos (by simpa [sCap] using hg)]
    rfl
  | long d0 n k =>
    obtain ⟨rfl, rfl, hl, hk⟩ := hs
    rw [reserve, if_pos (by omega)]
    rfl

/-! Concrete cases. -/

/-- "ab" -/
def ab : Str := (fromN [97, 98] 2).getD empty

theorem reach_ab : Reach ab [97, 98] := .fromN [97, 98] 2 ab (by decide) (by decide)

example : ∃ s', appendFmt true (.text (List.replicate 30 49#8)) ab = some (30, s') ∧
    mem s' = some ([97, 98] ++ List.replicate 30 49#8 ++ [0#8]) := by
  obtain ⟨s', e, h, _⟩ := append_fmt ab _ reach_ab (List.replicate 30 49#8)
  exact ⟨s', e, h⟩

example : ∃ s', printf true (.text [120]) ab = some (1, s') ∧ mem s' = some [120, 0] := printf_text ab _ reach_ab [120]

example : ∃ s', fromFmt true (.text [52, 50]) = some s' ∧ mem s' = some [52, 50, 0] := from_fmt [52, 50]

example : ∃ s', appendFmt true .error ab = some (-1, s') ∧ mem s' = some [97, 0] :=
  (fmt_error_wrong true ab _ reach_ab).1 [97] 98 rfl

example : appendFmt true (.own 1) ab = none := append_fmt_self_undefined true ab _ reach_ab (by decide) 1 (by decide)

example : appendFmt false (.text (List.replicate 21 49#8)) ab = none :=
  append_fmt_refused_undefined ab _ reach_ab _ 22 (by decide) (by decide)

end Verif.Cstr.Format
