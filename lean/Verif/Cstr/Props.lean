import Verif.Cstr.Ops
import Verif.Cstr.Spec
import Verif.Cstr.Layout
import Verif.Cstr.Case
import Verif.Utf8.Props
import Verif.Csview.Props
/- C36 (byte sequence), C37 (self-aliasing), C38 (replace), C40 (case conversion), C67 (hash), C82 (UTF-8
editing), C83 (allocation failure), C84 (join), C85 (reading lines). -/
namespace Verif.Cstr
open Verif.Utf8 Verif.Csview Spec

/-! ### C36 -/

/-- The relation `Repl` determines the result. -/
theorem repl_fun {nd r : List Byte} {n : Nat} {s o : List Byte} (h : Repl nd r n s o) :
    ∀ {o' : List Byte}, Repl nd r n s o' → o = o' := by
  have at_self : ∀ p t : List Byte, Csview.Spec.At nd (p ++ nd ++ t) p.length := by
    intro p t
    rw [Csview.Spec.At, List.append_assoc, List.drop_left]; exact List.prefix_append _ _
  induction h with
  | done s =>
    intro o' h'
    cases h' <;> rfl
  | absent n s hn =>
    intro o' h'
    cases h' with
    | done => rfl
    | absent => rfl
    | hit n p t o hl hr => exact absurd ⟨p, t, by simp⟩ hn
  | hit n p t o hl hr ih =>
    intro o' h'
    generalize hs : p ++ nd ++ t = s at h'
    generalize hk : n + 1 = k at h'
    cases h' with
    | done => omega
    | absent _ _ hn => rw [← hs] at hn; exact absurd ⟨p, t, by simp⟩ hn
    | hit n' p' t' o'' hl' hr' =>
      have e1 : p.length ≤ p'.length := by
        by_contra hlt
        exact hl p'.length (by omega) (by rw [hs]; exact at_self p' t')
      have e2 : p'.length ≤ p.length := by
        by_contra hlt
        exact hl' p.length (by omega) (by rw [← hs]; exact at_self p t)
      rw [List.append_assoc, List.append_assoc] at hs
      obtain ⟨rfl, h2⟩ := List.append_inj hs (by omega)
      have h3 := List.append_cancel_left h2
      subst h3
      have : n = n' := by omega
      subst this
      rw [ih hr']

theorem fromReplace_rep (bs search repl j js jr : List Byte) (count : Nat) :
    ∃ s' o, fromReplace (bs ++ j) bs.length (search ++ js) search.length (repl ++ jr) repl.length count = some s' ∧
      Rep o s' ∧ After bs (.replace search repl count) o := by
  by_cases hs : search = []
  · subst hs
    obtain ⟨s', e, h'⟩ := appendN_rep rep_empty (src := .ext (bs ++ j)) (n := bs.length) (by simp [Src.ok])
    simp only [Src.bytes, List.take_left, List.nil_append] at h'
    refine ⟨s', bs, ?_, h', fun _ => rfl, fun h => absurd rfl h⟩
    simp only [fromReplace, replaceAll, List.length_nil, ne_eq, not_true_eq_false, if_false, Option.bind_eq_bind,
      Option.bind_some, e]
  · obtain ⟨s1, rest, x, e, h1, hP⟩ := replaceLoop_rep search repl js jr hs (bs.length + 1)
      (if count = 0 then 2 ^ 31 - 1 else count) bs j empty [] (by omega) rep_empty
    obtain ⟨s', e', h'⟩ := appendN_rep h1 (src := .ext (rest ++ j)) (n := rest.length) (by simp [Src.ok])
    simp only [Src.bytes, List.take_left, List.nil_append] at h'
    refine ⟨s', x ++ rest, ?_, h', fun h => absurd h hs, fun _ => ?_⟩
    · have : search.length ≠ 0 := fun h => hs (List.length_eq_zero_iff.1 h)
      simp only [fromReplace, replaceAll, if_pos this, e, Option.bind_eq_bind, Option.bind_some, e']
    · exact hP (Repl search repl) (fun s => .done s) (fun n s => .absent n s) (fun n p t r h1 h2 => .hit n p t r h1 h2)

theorem replace_rep {bs : List Byte} {s : Str} (h : Rep bs s) (search repl : List Byte) (count : Nat) :
    ∃ s' o, replace search search.length repl repl.length count s = some s' ∧ Rep o s' ∧
      After bs (.replace search repl count) o := by
  obtain ⟨s', o, e, h1, h2⟩ := fromReplace_rep bs search repl [0#8] [] [] count
  simp only [List.append_nil] at e
  exact ⟨s', o, by simp only [replace, mem_eq h, size_eq h, Option.bind_eq_bind, Option.bind_some, e], h1, h2⟩

theorem run_rep {bs : List Byte} {s : Str} (h : Rep bs s) (op : Op) (hv : valid bs op) :
    ∃ s' o, run s op = some s' ∧ Rep o s' ∧ After bs op o := by
  cases op with
  | assign m n =>
    obtain ⟨s', e, h'⟩ := assignN_rep h (src := .ext m) (n := n) hv (by simp)
    exact ⟨s', _, by simp [run, e], h', rfl⟩
  | append src n =>
    cases src with
    | ext m =>
      obtain ⟨s', e, h'⟩ := appendN_rep h (src := .ext m) (n := n) hv
      exact ⟨s', _, by simp [run, e], h', rfl⟩
    | own off =>
      obtain ⟨s', e, h'⟩ := appendN_rep h (src := .own off) (n := n) hv
      exact ⟨s', _, by simp [run, e], h', rfl⟩
  | insert pos m n =>
    obtain ⟨s', e, h'⟩ := replaceAt_rep h (pos := pos) (len := 0) hv.1 hv.2
    exact ⟨s', _, by simp [run, insert, e], h', rfl⟩
  | replaceAt pos len m n =>
    obtain ⟨s', e, h'⟩ := replaceAt_rep h hv.1 hv.2
    exact ⟨s', _, by simp [run, e], h', rfl⟩
  | erase pos len =>
    obtain ⟨s', e, h'⟩ := erase_rep h hv len
    exact ⟨s', _, by simp [run, e], h', rfl⟩
  | resize n v =>
    obtain ⟨s', e, h'⟩ := resize_rep h n v
    exact ⟨s', _, by simp [run, e], h', rfl⟩
  | reserve cap =>
    obtain ⟨d, c, h⟩ := h
    obtain ⟨s', m, d', e, h', _⟩ := reserve_rep h cap
    exact ⟨s', _, by simp [run, e], ⟨d', _, h'⟩, rfl⟩
  | shrink =>
    obtain ⟨s', d', e, h'⟩ := shrink_rep h
    exact ⟨s', _, by simp [run, e], ⟨d', _, h'⟩, rfl⟩
  | clear =>
    obtain ⟨s', e, h'⟩ := clear_rep h
    exact ⟨s', _, by simp [run, e], h', rfl⟩
  | appendUninit xs =>
    obtain ⟨s', e, h'⟩ := appendUninit_rep h xs
    exact ⟨s', _, by simp [run, e], h', rfl⟩
  | printf out =>
    obtain ⟨s', e, h'⟩ := (vfmt_rep h out).1
    exact ⟨s', _, by simp [run, e], h', rfl⟩
  | appendFmt out =>
    obtain ⟨s', e, h'⟩ := (vfmt_rep h out).2
    exact ⟨s', _, by simp [run, e], h', rfl⟩
  | getdelim delim file =>
    cases file with
    | nil => exact ⟨s, bs, by simp [run, getdelim], h, rfl⟩
    | cons c file =>
      obtain ⟨s', e, h'⟩ := getdelim_rep h delim (c :: file) (by simp)
      exact ⟨s', _, by simp [run, e], h', rfl⟩
  | replace search repl count =>
    exact replace_rep h search repl count

theorem after_fun {bs o o' : List Byte} {op : Op} (h : After bs op o) (h' : After bs op o') : o = o' := by
  cases op with
  | append src n => cases src <;> exact h.trans h'.symm
  | getdelim d f => cases f <;> exact h.trans h'.symm
  | replace search repl count =>
    by_cases hs : search = []
    · rw [h.1 hs, h'.1 hs]
    · exact repl_fun (h.2 hs) (h'.2 hs)
  | _ => exact h.trans h'.symm

theorem rep_of_reach {s : Str} {bs : List Byte} (h : Reach s bs) : Rep bs s := by
  induction h with
  | init => exact rep_empty
  | fromN m n s hn e =>
    obtain ⟨s', e', h'⟩ := fromN_rep m n hn
    rw [e] at e'; cases e'; exact h'
  | withSize n v s e =>
    obtain ⟨s', e', h'⟩ := withSize_rep n v
    rw [e] at e'; cases e'; exact h'
  | withCapacity n s e =>
    obtain ⟨s', d, c, e', h', _⟩ := withCapacity_rep n
    rw [e] at e'; cases e'; exact ⟨d, c, h'⟩
  | clone s s' bs _ e ih =>
    obtain ⟨s1, e', h'⟩ := clone_rep ih
    rw [e] at e'; cases e'; exact h'
  | call s s' bs o op _ hv e ha ih =>
    obtain ⟨s1, o1, e1, h1, ha1⟩ := run_rep ih op hv
    rw [e] at e1; cases e1
    rw [after_fun ha ha1]; exact h1

/-- C36. Every string reached by any history of calls holds exactly the specified bytes followed by a
NUL, reports their number as its size, and that does not exceed its capacity. -/
theorem string_bytes (s : Str) (bs : List Byte) (h : Reach s bs) :
    mem s = some (bs ++ [0#8]) ∧ size s = some bs.length ∧ ∃ c, capacity s = some c ∧ bs.length ≤ c := by
  have hr := rep_of_reach h
  refine ⟨mem_eq hr, size_eq hr, ?_⟩
  obtain ⟨d, c, hr⟩ := hr
  exact ⟨c, by rw [capacity, getbuf_eq hr]; rfl, hr.fits⟩

/-- C36. No valid call on a reachable string has undefined behaviour (in particular none accesses
memory outside the object or its block, or uses an indeterminate byte); its result is reachable and
stands for the byte string the specification determines. -/
theorem string_calls (s : Str) (bs : List Byte) (h : Reach s bs) (op : Op) (hv : valid bs op) :
    ∃ s' o, run s op = some s' ∧ After bs op o ∧ (∀ o', After bs op o' → o' = o) ∧ Reach s' o := by
  obtain ⟨s', o, e, _, ha⟩ := run_rep (rep_of_reach h) op hv
  exact ⟨s', o, e, ha, fun o' h' => after_fun h' ha, .call s s' bs o op h hv e ha⟩

example : ∃ s, Reach s (List.replicate 22 65#8 ++ [66#8]) := by
  obtain ⟨s1, e1, _⟩ := withSize_rep 22 65#8
  obtain ⟨s2, o, e2, ha, _, hr⟩ := string_calls s1 _ (.withSize 22 65#8 s1 e1) (.append (.ext [66#8]) 1) (by decide)
  exact ⟨s2, by rw [show List.replicate 22 65#8 ++ [66#8] = o from ha.symm]; exact hr⟩

/-- C36, construction: making a string from any bytes, of any size or capacity, or as a copy, is
defined. -/
theorem string_construct (m : List Byte) (n : Nat) (v : Byte) (s : Str) (bs : List Byte) (h : Reach s bs) :
    (n ≤ m.length → ∃ s', fromN m n = some s') ∧ (∃ s', withSize n v = some s') ∧
    (∃ s' c, withCapacity n = some s' ∧ capacity s' = some c ∧ n ≤ c) ∧ (∃ s', clone s = some s') := by
  refine ⟨fun hn => ?_, ?_, ?_, ?_⟩
  · obtain ⟨s', e, _⟩ := fromN_rep m n hn; exact ⟨s', e⟩
  · obtain ⟨s', e, _⟩ := withSize_rep n v; exact ⟨s', e⟩
  · obtain ⟨s', d, c, e, h', hc⟩ := withCapacity_rep n
    exact ⟨s', c, e, by rw [capacity, getbuf_eq h']; rfl, hc⟩
  · obtain ⟨s', e, _⟩ := clone_rep (rep_of_reach h); exact ⟨s', e⟩

/-- C36, capacity: `reserve` gives at least the requested capacity and never less than before;
`shrink_to_fit` leaves exactly the size, or 22 for short strings. -/
theorem string_capacity (s : Str) (bs : List Byte) (h : Reach s bs) (cap : Nat) :
    (∃ s' m c c', reserve true cap s = some (s', m) ∧ capacity s = some c ∧ capacity s' = some c' ∧ c' = max c cap) ∧
    (∃ s', shrink s = some s' ∧ capacity s' = some (max 22 bs.length)) := by
  have hr := rep_of_reach h
  obtain ⟨s2, d2, e2, h2⟩ := shrink_rep hr
  obtain ⟨d, c, hr⟩ := hr
  obtain ⟨s', m, d', e, h', _⟩ := reserve_rep hr cap
  exact ⟨⟨s', m, c, _, e, by rw [capacity, getbuf_eq hr]; rfl, by rw [capacity, getbuf_eq h']; rfl, rfl⟩,
    s2, e2, by rw [capacity, getbuf_eq h2]; rfl⟩

/-- C36, the encoding: the test for the long form and the capacity read back are right for every
long string with a capacity below 2^63, and every short string is recognised as such, for both byte
orders. -/
theorem string_layout (little : Bool) (data size cap : BitVec 64) (hc : cap.toNat < 2 ^ 63) :
    (lonObj little data size cap).length = 24 ∧ isLong (lonObj little data size cap) = some true ∧
    lCap little (setCap little cap) = cap ∧
    (∀ (obj : List Byte) (n : Nat), obj[23]? = some (BitVec.ofNat 8 n) → n ≤ 22 → isLong obj = some false) := by
  have rot : ∀ (x : BitVec 64) (i : Nat), i < 64 → (byteRotl x 1).getLsbD i = x.getLsbD ((i + 56) % 64) := by
    intro x i hi
    simp only [byteRotl, BitVec.getLsbD_or, BitVec.getLsbD_shiftLeft, BitVec.getLsbD_ushiftRight]
    by_cases h : i < 8
    · simp [h]; rw [show (i + 56) % 64 = 56 + i by omega]
    · have h1 : x.getLsbD (56 + i) = false := BitVec.getLsbD_of_ge _ _ (by omega)
      simp [h, h1, hi]; rw [show (i + 56) % 64 = i - 8 by omega]
  have rot7 : ∀ (x : BitVec 64) (i : Nat), i < 64 → (byteRotl x 7).getLsbD i = x.getLsbD ((i + 8) % 64) := by
    intro x i hi
    simp only [byteRotl, BitVec.getLsbD_or, BitVec.getLsbD_shiftLeft, BitVec.getLsbD_ushiftRight]
    by_cases h : i < 56
    · simp [h]; rw [show (i + 8) % 64 = 8 + i by omega]
    · have h1 : x.getLsbD (8 + i) = false := BitVec.getLsbD_of_ge _ _ (by omega)
      simp [h, h1, hi]; rw [show (i + 8) % 64 = i - 56 by omega]
  have top : cap.getLsbD 63 = false := by
    rw [BitVec.getLsbD, Nat.testBit_lt_two_pow hc]
  have hlen : ∀ w, (wordBytes little w).length = 8 := by
    intro w; cases little <;> simp [wordBytes]
  refine ⟨by simp [lonObj, hlen], ?_, ?_, ?_⟩
  · have hlast : (lonObj little data size cap)[sLast]? = some (if little then (setCap little cap).extractLsb' 56 8
        else (setCap little cap).extractLsb' 0 8) := by
      rw [lonObj, List.getElem?_append_right (by simp [hlen, sLast])]
      simp only [List.length_append, hlen, sLast]
      cases little <;> rfl
    rw [isLong, hlast]
    simp only [Option.map_some, Option.some.injEq, bne_iff_ne, ne_eq]
    intro h0
    have := congrArg (·.getLsbD 7) h0
    have r := rot cap 7 (by omega)
    rw [show (7 + 56) % 64 = 63 from rfl, top, BitVec.getLsbD_eq_getElem (by omega)] at r
    have t := top
    rw [BitVec.getLsbD_eq_getElem (by omega)] at t
    cases little
    · simp [setCap, r] at this
    · simp [setCap, t] at this
  · apply BitVec.eq_of_getLsbD_eq
    intro i hi
    cases little
    · simp only [lCap, setCap, Bool.false_eq_true, if_false, BitVec.getLsbD_not, hi, decide_true, Bool.true_and, rot7 _ _ hi]
      rw [show decide ((i + 8) % 64 < 64) = true by simp; omega, rot _ _ (by omega)]
      rw [show ((i + 8) % 64 + 56) % 64 = i by omega]
      simp
    · simp [lCap, setCap]
  · intro obj n h hn
    have tab : ∀ n ≤ 22, ((BitVec.ofNat 8 n &&& 128#8) != 0#8) = false := by decide
    simp only [isLong, sLast, h, Option.map_some, tab n hn]

/-! ### C37 -/

/-- C37 for appending: appending any part of the string to itself gives the documented result,
whether or not the buffer moves. -/
theorem string_append_self (s : Str) (bs : List Byte) (h : Reach s bs) (off n : Nat) (ho : off + n ≤ bs.length) :
    ∃ s', appendN true (.own off) n s = some (s', true) ∧ mem s' = some (bs ++ (bs.drop off).take n ++ [0#8]) := by
  obtain ⟨s', e, h'⟩ := appendN_rep (rep_of_reach h) (src := .own off) (n := n) ho
  exact ⟨s', e, mem_eq h'⟩

example : ∃ s s', Reach s (List.replicate 22 65#8) ∧ appendN true (.own 1) 21 s = some (s', true) ∧
    mem s' = some (List.replicate 43 65#8 ++ [0#8]) := by
  obtain ⟨s1, e1, _⟩ := withSize_rep 22 65#8
  obtain ⟨s2, e2, h2⟩ := string_append_self s1 _ (.withSize 22 65#8 s1 e1) 1 21 (by decide)
  exact ⟨s1, s2, .withSize 22 65#8 s1 e1, e2, h2.trans (by decide)⟩

/-- C37 for assigning, partial: assigning a part of the string to itself gives the documented result
when the part starts at 0, or begins behind position `n`. Missing: the part contains position `n`,
where the code writes the new terminator first. -/
theorem string_assign_self_partial (s : Str) (bs : List Byte) (h : Reach s bs) (off n : Nat) (ho : off + n ≤ bs.length)
    (hd : off = 0 ∨ n < off ∨ n = 0) :
    ∃ s', assignN true (.own off) n s = some (s', true) ∧ mem s' = some ((bs.drop off).take n ++ [0#8]) := by
  obtain ⟨s', e, h'⟩ := assignN_rep (rep_of_reach h) (src := .own off) (n := n) ho (by
    intro o e; cases e; exact hd)
  exact ⟨s', e, mem_eq h'⟩

/-- C37 for assigning is false in the remaining cases: whenever the part contains position `n`, the
byte there is replaced by NUL in the result. -/
theorem string_assign_self_wrong (s : Str) (bs : List Byte) (h : Reach s bs) (off n : Nat) (ho : off + n ≤ bs.length)
    (h0 : 0 < off) (hn : off ≤ n) (hb : 0#8 ∉ bs) :
    ∃ s' r, assignN true (.own off) n s = some (s', true) ∧ mem s' = some (r ++ [0#8]) ∧
      r = ((bs.drop off).take n).set (n - off) 0#8 ∧ r ≠ (bs.drop off).take n := by
  obtain ⟨s', e, h'⟩ := assignN_own_rep (rep_of_reach h) ho h0 hn
  refine ⟨s', _, e, mem_eq h', rfl, fun he => ?_⟩
  have := congrArg (·[n - off]?) he
  rw [List.getElem?_set_self (by simp; omega)] at this
  have hm := List.mem_of_getElem? this.symm
  exact hb (List.mem_of_mem_drop (List.mem_of_mem_take hm))

example : ∃ s s', Reach s [97, 98, 99, 100] ∧ assignN true (.own 1) 2 s = some (s', true) ∧
    mem s' = some ([98, 0] ++ [0#8]) := by
  obtain ⟨s1, e1, _⟩ := fromN_rep [97, 98, 99, 100] 4 (by decide)
  obtain ⟨s2, r, e2, h2, hr, _⟩ := string_assign_self_wrong s1 _ (.fromN [97, 98, 99, 100] 4 s1 (by decide) e1) 1 2
    (by decide) (by decide) (by decide) (by decide)
  exact ⟨s1, s2, .fromN [97, 98, 99, 100] 4 s1 (by decide) e1, e2, h2.trans (by rw [hr]; decide)⟩

/-! ### C38 -/

/-- C38. `from_replace` on any view: the leftmost non-overlapping occurrences of the search string
are replaced, at most `count` of them, and up to 2^31 - 1 of them when `count` is 0; an empty search
string copies the input. Only the bytes of the three views are read. -/
theorem string_replace (inp search repl j js jr : List Byte) (count : Nat) :
    ∃ s o, fromReplace (inp ++ j) inp.length (search ++ js) search.length (repl ++ jr) repl.length count = some s ∧
      mem s = some (o ++ [0#8]) ∧ (search = [] → o = inp) ∧
      (search ≠ [] → Repl search repl (if count = 0 then 2 ^ 31 - 1 else count) inp o) := by
  obtain ⟨s, o, e, h, h1, h2⟩ := fromReplace_rep inp search repl j js jr count
  exact ⟨s, o, e, mem_eq h, h1, h2⟩

example : ∃ s, fromReplace ([1, 1, 1] ++ []) 3 ([1, 1] ++ []) 2 ([5] ++ []) 1 0 = some s ∧ mem s = some [5, 1, 0#8] := by
  obtain ⟨s, o, e, h, _, h2⟩ := string_replace [1, 1, 1] [1, 1] [5] [] [] [] 0
  have : o = [5, 1] := by
    refine repl_fun (h2 (by decide)) (.hit _ [] [1] [1] (by simp) (.absent _ _ (by decide)))
  exact ⟨s, e, by rw [h, this]; rfl⟩

/-- C38: when the count does not bind (`count` is 0 and the input shorter than 2^31), no occurrence
starting at or after the end of the last replacement remains: all of them were replaced. -/
theorem string_replace_all (inp search repl o : List Byte) (n m : Nat) (hs : search ≠ [])
    (hn : inp.length < n) (hm : inp.length < m) (h : Repl search repl n inp o) : Repl search repl m inp o := by
  have aux : ∀ n s o, Repl search repl n s o → s.length < n → ∀ m, s.length < m → Repl search repl m s o := by
    intro n s o h
    induction h with
    | done s => intro h; omega
    | absent n s h => intro _ m _; exact .absent m s h
    | hit n p t o hl hr ih =>
      intro h1 m h2
      have : 0 < search.length := List.length_pos_iff.2 hs
      simp only [List.length_append] at h1 h2
      obtain ⟨m, rfl⟩ : ∃ k, m = k + 1 := ⟨m - 1, by omega⟩
      exact .hit m p t o hl (ih (by omega) m (by omega))
  exact aux n inp o h hn m hm

/-! ### C40 -/

/-- The bytes case conversion produces for a byte string: those of its code points, invalid bytes
counting as U+FFFD. -/
theorem tocase_rep (k : Case) (sv : List Byte) (cs : List Nat) (hd : decodeAll sv.length sv = some cs) :
    ((cs.flatMap k.bytes).length ≤ max 22 (sv.length * 3 / 2) → ∃ s, tocase k sv = some s ∧ Rep (cs.flatMap k.bytes) s) ∧
    (max 22 (sv.length * 3 / 2) < (cs.flatMap k.bytes).length → tocase k sv = none) := by
  obtain ⟨d0, c0, h0⟩ := rep_empty
  obtain ⟨s1, m, d1, e1, h1, _⟩ := reserve_rep h0 (sv.length * 3 / 2)
  have hc0 : c0 = 22 := by have := h0.shape; simp only [empty, Shape] at this; exact this.2.2
  rw [hc0] at h1
  have hl := h1.shape.len
  obtain ⟨hA, hB⟩ := tocaseLoop_all k sv.length sv cs d1 [] hd (by simp)
  rw [List.length_nil, Nat.zero_add] at hA hB
  simp only [List.nil_append] at hA
  constructor
  · intro hle
    obtain ⟨d2, e2, hl2, ht2⟩ := hA (by omega)
    obtain ⟨s3, e3, d3, h3⟩ := setSize_rep (cs.flatMap k.bytes) (h1.shape.put hl2) hle ht2
    obtain ⟨s4, d4, e4, h4⟩ := shrink_rep ⟨d3, _, h3⟩
    exact ⟨s4, by simp only [tocase, e1, Option.bind_eq_bind, Option.bind_some, h1.shape.data_eq, e2, e3, e4], d4, _, h4⟩
  · intro hgt
    simp only [tocase, e1, Option.bind_eq_bind, Option.bind_some, h1.shape.data_eq]
    cases hlp : tocaseLoop k sv.length sv d1 0 with
    | none => rfl
    | some r =>
      obtain ⟨d2, sz⟩ := r
      obtain ⟨hl2, hsz⟩ := hB _ hlp
      simp only at hl2 hsz
      simp only [Option.bind_some]
      have hsh := h1.shape
      cases s1 with
      | null n c => simp [Shape] at hsh
      | long d n c =>
        obtain ⟨rfl, rfl, hl3, _⟩ := hsh
        simp only [setBuf, setSize, put, List.length_singleton, if_neg (show ¬ sz + 1 ≤ d2.length by omega)]
        rfl
      | short d =>
        obtain ⟨rfl, hl3, hcap⟩ := hsh
        by_cases h23 : sz = 23
        · -- the size byte overwrites the terminator, and the string is taken for a long one
          have e5 := put_ok (d := d2) (cs := [some 0#8]) (i := 23) (by simp; omega)
          generalize d2.take 23 ++ [some 0#8] ++ d2.drop (23 + [some 0#8].length) = d5 at e5
          have l5 := put_length e5
          have e6 := put_ok (d := d5) (cs := [some (BitVec.ofNat 8 23)]) (i := 23) (by simp; omega)
          generalize d5.take 23 ++ [some (BitVec.ofNat 8 23)] ++ d5.drop (23 + [some (BitVec.ofNat 8 23)].length) = d6 at e6
          have hg := put_get_one e6
          simp only [h23, setBuf, setSize, e5, Option.bind_eq_bind, Option.bind_some, sLast, e6, shrink, getbuf, hg]
          rfl
        · simp only [setBuf, setSize, put, List.length_singleton, if_neg (show ¬ sz + 1 ≤ d2.length by omega)]
          rfl

theorem bytes_eq (k : Case) (c : Nat) (h : Scalar c) : k.bytes c = enc (k.utf c) ∧
    2 * (k.bytes c).length ≤ 3 * (enc c).length := by
  have hk : Scalar (k.utf c) ∧ 2 * (enc (k.utf c)).length ≤ 3 * (enc c).length := by
    cases k with
    | fold => exact ⟨(case_mapping c).1.2.2.1 h, casefold_len c⟩
    | lower => exact ⟨(case_mapping c).2.1.2.2.1 h, (case_mapping c).2.1.2.2.2.2.2⟩
    | upper => exact ⟨(case_mapping c).2.2.2.2.1 h, (case_mapping c).2.2.2.2.2.2.2⟩
  have e : k.bytes c = enc (k.utf c) := by
    rw [Case.bytes]
    by_cases hc : c < 0x80
    · rw [if_pos hc]
      have ha := case_mapping_ascii c hc
      have : k.asc c = k.utf c ∧ k.utf c < 0x80 := by
        cases k <;> simp only [Case.asc, Case.utf, ascLower, ascUpper, ha] <;> refine ⟨trivial, ?_⟩ <;> split <;> omega
      rw [this.1, enc, if_pos this.2]
    · rw [if_neg hc, encode_eq hk.1]
  exact ⟨e, by rw [e]; exact hk.2⟩

/-- C40, partial: for every valid UTF-8 text the three conversions stay inside the buffer and give
the text of the converted code points. Missing: byte strings that are not valid UTF-8, see
`tocase_exact` and `tocase_overflow`. -/
theorem tocase_partial (k : Case) (cs : List Nat) (ht : Text cs) :
    ∃ s, tocase k (text cs) = some s ∧ mem s = some (text (cs.map k.utf) ++ [0#8]) := by
  obtain ⟨cs', e, hle, hcs⟩ := utf8_decode_all (text cs).length (text cs) (Nat.le_refl _)
  have := hcs cs ht rfl
  subst this
  have hb : cs'.flatMap k.bytes = text (cs'.map k.utf) ∧ 2 * (cs'.flatMap k.bytes).length ≤ 3 * (text cs').length := by
    clear e hcs hle
    induction cs' with
    | nil => simp [text]
    | cons c cs ih =>
      obtain ⟨h1, h2⟩ := ih ht.tail
      obtain ⟨h3, h4⟩ := bytes_eq k c ht.head.1
      rw [List.flatMap_cons, List.map_cons, text_cons, text_cons, List.length_append, List.length_append]
      exact ⟨by rw [h1, h3], by omega⟩
  obtain ⟨s, e', h⟩ := (tocase_rep k (text cs') cs' e).1 (by omega)
  exact ⟨s, e', by rw [mem_eq h, hb.1]⟩

example : ∃ s, tocase .upper (text [0x250, 0x61]) = some s ∧ mem s = some (text [0x2C6F, 0x41] ++ [0#8]) :=
  tocase_partial .upper [0x250, 0x61] (by decide)

/-- C40, exactly: conversion of any byte string is defined if and only if the encoded result is no
longer than the larger of 22 and 3/2 of the input. -/
theorem tocase_exact (k : Case) (sv : List Byte) :
    ∃ cs, decodeAll sv.length sv = some cs ∧
      (tocase k sv ≠ none ↔ (cs.flatMap k.bytes).length ≤ max 22 (sv.length * 3 / 2)) := by
  obtain ⟨cs, e, _⟩ := utf8_decode_all sv.length sv (Nat.le_refl _)
  obtain ⟨h1, h2⟩ := tocase_rep k sv cs e
  refine ⟨cs, e, fun h => ?_, fun h => ?_⟩
  · by_contra hlt
    exact h (h2 (by omega))
  · obtain ⟨s, es, _⟩ := h1 h
    rw [es]; simp

/-- C40 is false for invalid input: any string of eight or more bytes 0xFF makes every conversion
write past its buffer. -/
theorem tocase_overflow (k : Case) (n : Nat) (hn : 8 ≤ n) : tocase k (List.replicate n 0xFF#8) = none := by
  have hd : ∀ f n, n ≤ f → decodeAll f (List.replicate n 0xFF#8) = some (List.replicate n 0xFFFD) := by
    intro f
    induction f with
    | zero => intro n h; have : n = 0 := by omega
              subst this; rfl
    | succ f ih =>
      intro n h
      cases n with
      | zero => rfl
      | succ n =>
        have e : decodeCp (0xFF#8 :: List.replicate n 0xFF#8) ((List.replicate n 0xFF#8).length + 1) = some (0xFFFD, 1) := by
          have : decode ⟨0, 0⟩ 0xFF#8 = some ⟨12, 0⟩ := by decide +kernel
          simp [decodeCp, dcpLoop, this, recover]
        rw [List.replicate_succ, decodeAll, e]
        simp only [Option.bind_eq_bind, Option.bind_some, List.drop_succ_cons, List.drop_zero, ih n (by omega)]
        rfl
  have hl : ∀ n, ((List.replicate n 0xFFFD).flatMap k.bytes).length = 3 * n := by
    intro n
    have h3 : (k.bytes 0xFFFD).length = 3 := by cases k <;> decide +kernel
    induction n with
    | zero => rfl
    | succ n ih => rw [List.replicate_succ, List.flatMap_cons, List.length_append, ih, h3]; omega
  refine (tocase_rep k _ _ (hd _ n (by simp))).2 ?_
  rw [hl, List.length_replicate]; omega

/-! ### C67 -/

/-- C67 for strings. The hash of a string depends only on its bytes: it is that of a view of the same
bytes, whatever the representation and history of the string, and that of the C string. -/
theorem string_hash (s : Str) (bs : List Byte) (h : Reach s bs) :
    ∃ hv, hash s = some hv ∧ (∀ j, basehash (bs ++ j) bs.length = some hv) ∧
      (0#8 ∉ bs → ∀ j, hashStr (bs ++ 0#8 :: j) = some hv) := by
  obtain ⟨hv, h1, h2⟩ := hash_by_content bs
  refine ⟨hv, ?_, h1, h2⟩
  have hr := rep_of_reach h
  simp only [hash, mem_eq hr, size_eq hr, Option.bind_eq_bind, Option.bind_some, h1]

example : ∃ s, Reach s [] ∧ (∃ d n c, s = .long d n c) ∧ hash s = hash empty := by
  obtain ⟨s, e, h⟩ : ∃ s, withCapacity 30 = some s ∧ (∃ d n c, s = .long d n c) := ⟨_, rfl, _, _, _, rfl⟩
  obtain ⟨h1, e1, b1, _⟩ := string_hash s [] (.withCapacity 30 s e)
  obtain ⟨h2, e2, b2, _⟩ := string_hash empty [] .init
  have : h1 = h2 := by have := b1 []; rw [b2 []] at this; cases this; rfl
  exact ⟨s, .withCapacity 30 s e, h, by rw [e1, e2, this]⟩

/-! ### C82 -/

/-- C82. Editing a string holding UTF-8 text by code point positions has exactly the effect on the
sequence of code points: erasing, replacing and inserting at any positions, and appending one. -/
theorem string_u8_edit (s : Str) (cs ds : List Nat) (h : Reach s (text cs)) (hc : Text cs) (hd : Text ds)
    (pos len : Nat) (j : List Byte) :
    (∃ s', u8Erase pos len s = some s' ∧ mem s' = some (text (cs.take pos ++ cs.drop (pos + len)) ++ [0#8])) ∧
    (∃ s', u8Replace pos len (text ds ++ 0#8 :: j) s = some s' ∧
      mem s' = some (text (cs.take pos ++ ds ++ cs.drop (pos + len)) ++ [0#8])) ∧
    (∃ s', u8Insert pos (text ds ++ 0#8 :: j) s = some s' ∧
      mem s' = some (text (cs.take pos ++ ds ++ cs.drop pos) ++ [0#8])) := by
  have hr := rep_of_reach h
  have happ : ∀ a b, text (a ++ b) = text a ++ text b := by intro a b; simp [text]
  have e1 : text cs = text (cs.take pos) ++ (text ((cs.drop pos).take len) ++ text (cs.drop (pos + len))) := by
    rw [← happ, ← happ, ← List.drop_drop, List.take_append_drop, List.take_append_drop]
  have e2 : text cs = text (cs.take pos) ++ text (cs.drop pos) := by rw [← happ, List.take_append_drop]
  have hdp : Text (cs.drop pos) := fun c hm => hc c (List.mem_of_mem_drop hm)
  have ea : (text cs ++ [0#8]).drop (text (cs.take pos)).length = text (cs.drop pos) ++ [0#8] := by
    rw [e2, List.append_assoc, List.drop_left]
  have hsub : Utf8.subview (text cs ++ [0#8]) pos len =
      some ((text (cs.take pos)).length, (text ((cs.drop pos).take len)).length) := by
    simp only [Utf8.subview, at_text [] cs hc pos, Option.bind_eq_bind, Option.bind_some, ea, at_text [] _ hdp]
  have hle : (text (cs.take pos)).length + (text ((cs.drop pos).take len)).length ≤ (text cs).length := by
    rw [e1]; simp only [List.length_append]; omega
  have t1 : (text cs).take (text (cs.take pos)).length = text (cs.take pos) := by rw [e2, List.take_left]
  have t2 : (text cs).drop ((text (cs.take pos)).length + (text ((cs.drop pos).take len)).length) =
      text (cs.drop (pos + len)) := by
    rw [← List.drop_drop]
    conv_lhs => rw [e1]
    rw [List.drop_left, List.drop_left]
  have t3 : (text cs).drop (text (cs.take pos)).length = text (cs.drop pos) := by rw [e2, List.drop_left]
  have h0 : 0#8 ∉ text ds := text_no_nul hd
  have hl : strlen (text ds ++ 0#8 :: j) = some (text ds).length := strlen_eq _ _ h0
  refine ⟨?_, ?_, ?_⟩
  · obtain ⟨s', e, h'⟩ := u8Erase_rep hr hsub hle
    refine ⟨s', e, ?_⟩
    rw [mem_eq h', t1, t2, happ]
  · obtain ⟨s', e, h'⟩ := replaceAt_rep hr hle (m := text ds ++ 0#8 :: j) (n := (text ds).length) (by simp)
    refine ⟨s', ?_, ?_⟩
    · simp only [u8Replace, mem_eq hr, hsub, hl, Option.bind_eq_bind, Option.bind_some, e]
    · rw [mem_eq h', t1, t2, List.take_left, happ, happ]
  · obtain ⟨s', e, h'⟩ := replaceAt_rep hr (pos := (text (cs.take pos)).length) (len := 0) (by omega)
      (m := text ds ++ 0#8 :: j) (n := (text ds).length) (by simp)
    refine ⟨s', ?_, ?_⟩
    · simp only [u8Insert, mem_eq hr, toIndex, at_text [] cs hc pos, hl, Option.bind_eq_bind, Option.bind_some, insert, e]
    · rw [mem_eq h', t1, Nat.add_zero, t3, List.take_left, happ, happ]

example : ∃ s s', Reach s (text [0x61, 0xE9, 0x20AC]) ∧ u8Replace 1 1 (text [0x62, 0x1F600] ++ 0#8 :: []) s = some s' ∧
    mem s' = some (text [0x61, 0x62, 0x1F600, 0x20AC] ++ [0#8]) := by
  obtain ⟨s1, e1, _⟩ := fromN_rep (text [0x61, 0xE9, 0x20AC]) 6 (by decide)
  have hr : Reach s1 (text [0x61, 0xE9, 0x20AC]) := by
    have := Reach.fromN (text [0x61, 0xE9, 0x20AC]) 6 s1 (by decide) e1
    rwa [show (text [0x61, 0xE9, 0x20AC]).take 6 = text [0x61, 0xE9, 0x20AC] by decide] at this
  obtain ⟨s2, e2, h2⟩ := (string_u8_edit s1 _ [0x62, 0x1F600] hr (by decide) (by decide) 1 1 []).2.1
  exact ⟨s1, s2, hr, e2, h2⟩

/-- C82 at the end of a string. Pushing the encoding of a code point appends that code point to a
string of any bytes; popping removes the last code point of a nonempty text, and is undefined on an
empty string. -/
theorem string_push_pop (s : Str) (bs : List Byte) (c : Nat) (h : Reach s bs) (hc : Scalar c) (h0 : c ≠ 0)
    (j : List Byte) :
    (∃ s' s'', push (enc c ++ j) s = some s' ∧ mem s' = some (bs ++ enc c ++ [0#8]) ∧
      pop s' = some s'' ∧ mem s'' = some (bs ++ [0#8])) ∧
    (bs = [] → pop s = none) := by
  have hr := rep_of_reach h
  refine ⟨?_, ?_⟩
  · obtain ⟨b, tl, e, _, hl, ht, _, hk⟩ := enc_shape hc h0
    have hk' : chrSize (enc c ++ j) = some (enc c).length := by
      rw [e] at hk ⊢; exact hk
    obtain ⟨s', e1, h1⟩ := push_rep hr hk' (by simp)
    rw [List.take_left] at h1
    have h1' := h1
    rw [e] at h1'
    obtain ⟨s'', e2, h2⟩ := pop_rep h1' hl (fun x hx => (ht x hx).2)
    exact ⟨s', s'', e1, mem_eq h1, e2, mem_eq h2⟩
  · intro hb
    subst hb
    simp only [pop, mem_eq hr, size_eq hr, Option.bind_eq_bind, Option.bind_some, List.length_nil, List.take_zero,
      List.reverse_nil, popLoop, Option.bind_none]

example : ∃ s', push (enc 0x20AC ++ [0#8]) empty = some s' ∧ mem s' = some ([0xE2, 0x82, 0xAC] ++ [0#8]) := by
  obtain ⟨⟨s', _, e, h, _⟩, _⟩ := string_push_pop empty [] 0x20AC .init (by decide) (by decide) [0#8]
  exact ⟨s', e, h.trans (by decide)⟩

/-! ### C84 -/

/-- C84. Joining appends the items with the separator between them, and before the first item exactly
when the string is nonempty. -/
theorem string_join (s : Str) (bs sep : List Byte) (arr : List (List Byte)) (h : Reach s bs) (js : List Byte)
    (hs : 0#8 ∉ sep) (ha : ∀ x ∈ arr, 0#8 ∉ x) :
    ∃ s', join (sep ++ 0#8 :: js) (arr.map (· ++ [0#8])) s = some s' ∧
      mem s' = some ((if bs = [] then Csview.Spec.join sep arr else Csview.Spec.join sep (bs :: arr)) ++ [0#8]) := by
  have hr := rep_of_reach h
  have g1 : ∀ (arr : List (List Byte)) (t : List Byte), t ++ glue sep sep arr = Csview.Spec.join sep (t :: arr) := by
    intro arr
    induction arr with
    | nil => intro t; simp [glue, Csview.Spec.join]
    | cons x xs ih =>
      intro t
      rw [glue, Csview.Spec.join, ← ih x]; · simp
      · simp
  by_cases hb : bs = []
  · subst hb
    obtain ⟨s', e, h'⟩ := joinLoop_rep sep js hs arr [] [] [] s hr (by simp) ha
    refine ⟨s', ?_, ?_⟩
    · simp only [join, size_eq hr, Option.bind_eq_bind, Option.bind_some, List.length_nil, if_true]
      exact e
    · rw [mem_eq h', if_pos rfl]
      cases arr with
      | nil => rfl
      | cons x xs => rw [← g1]; rfl
  · obtain ⟨s', e, h'⟩ := joinLoop_rep sep js hs arr sep js bs s hr hs ha
    refine ⟨s', ?_, ?_⟩
    · simp only [join, size_eq hr, Option.bind_eq_bind, Option.bind_some]
      rw [if_neg (by simpa using hb)]
      exact e
    · rw [mem_eq h', if_neg hb, g1]

example : ∃ s', join ([44] ++ 0#8 :: []) ([[97], [98, 99]].map (· ++ [0#8])) empty = some s' ∧
    mem s' = some [97, 44, 98, 99, 0#8] := by
  obtain ⟨s', e, h⟩ := string_join empty [] [44] [[97], [98, 99]] .init [] (by decide) (by decide)
  exact ⟨s', e, h⟩

/-! ### C83 -/

/-- C83, partial: a call that fits in the capacity does not allocate, so allocator failure cannot
affect it. Missing: calls that must grow; see `string_alloc_lost` and `string_alloc_short`. -/
theorem string_alloc_partial (s : Str) (bs : List Byte) (h : Reach s bs) (c : Nat) (hc : capacity s = some c)
    (src : Src) (n : Nat) (v : Byte) :
    (bs.length + n ≤ c → appendN false src n s = appendN true src n s) ∧
    (n ≤ c → assignN false src n s = assignN true src n s) ∧
    (n ≤ c → resize false n v s = resize true n v s) ∧
    (n ≤ c → reserve false n s = reserve true n s) := by
  obtain ⟨d, c', hr⟩ := rep_of_reach h
  have hg := getbuf_eq hr
  have : c' = c := by rw [capacity, hg] at hc; simpa using hc
  subst this
  have hres : n ≤ c' → ∀ ok, reserve ok n s = some (s, false) := by
    intro hn ok
    have hcap := hr.shape
    cases s with
    | short d => rw [reserve, if_neg (by have := hcap.2.2; have hsc : sCap = 22 := rfl; omega)]
    | long d k c => rw [reserve, if_neg (by have := hcap.2.1; omega)]
    | null k c => exact absurd hcap id
  refine ⟨fun hn => ?_, fun hn => ?_, fun hn => ?_, fun hn => ?_⟩
  · simp only [appendN, hg, makeRoom, Option.bind_eq_bind, Option.bind_some]
    rw [if_neg (by omega), if_neg (by omega)]
  · simp only [assignN, hres hn]
  · simp only [resize, grow, hg, Option.bind_eq_bind, Option.bind_some]
    rw [if_neg (show ¬ n > c' by omega), if_neg (show ¬ n > c' by omega)]
  · rw [hres hn, hres hn]

/-- C83 is false for a long string: when the allocator fails to extend the buffer, the call reports
failure, but the string has lost its contents: its pointer is NULL, so reading it is undefined. -/
theorem string_alloc_lost (d : List Cell) (k c : Nat) (bs : List Byte) (h : Reach (.long d k c) bs)
    (src : Src) (n : Nat) (v : Byte) :
    (bs.length + n > c → ∃ s', appendN false src n (.long d k c) = some (s', false) ∧ data s' = none ∧ mem s' = none) ∧
    (n > c → ∃ s', assignN false src n (.long d k c) = some (s', false) ∧ data s' = none ∧ mem s' = none) ∧
    (n > c → ∃ s', resize false n v (.long d k c) = some (s', false) ∧ data s' = none ∧ mem s' = none) := by
  obtain ⟨d', c', hr⟩ := rep_of_reach h
  have hg := getbuf_eq hr
  have hcap : c = c' := hr.shape.2.1
  have hf := hr.fits
  subst hcap
  refine ⟨fun hn => ?_, fun hn => ?_, fun hn => ?_⟩
  · refine ⟨.null k (bs.length * 3 / 2 + n), ?_, rfl, rfl⟩
    simp only [appendN, hg, makeRoom, Option.bind_eq_bind, Option.bind_some]
    rw [if_pos (by omega), reserve, if_pos (by omega)]
    cases src with
    | ext m => rfl
    | own off => by_cases ho : off ≤ bs.length <;> simp [ho, data]
  · refine ⟨.null k n, ?_, rfl, rfl⟩
    simp only [assignN, reserve]
    rw [if_pos (by omega)]; rfl
  · refine ⟨.null k n, ?_, rfl, rfl⟩
    simp only [resize, hg, grow, Option.bind_eq_bind, Option.bind_some]
    rw [if_pos (by omega), if_pos (by omega), reserve, if_pos (by omega)]; rfl

example : ∃ s s', Reach s (List.replicate 30 65#8) ∧ appendN false (.ext [66#8]) 1 s = some (s', false) ∧ mem s' = none := by
  obtain ⟨s, e, d, k, c, hs, hc⟩ : ∃ s, withSize 30 65#8 = some s ∧ (∃ d k c, s = .long d k c ∧ c = 30) :=
    ⟨_, rfl, _, _, _, rfl, rfl⟩
  have hr := Reach.withSize 30 65#8 s e
  subst hs; subst hc
  obtain ⟨s', e', _, h'⟩ := (string_alloc_lost d k 30 _ hr (.ext [66#8]) 1 0).1 (by decide)
  exact ⟨_, s', hr, e', h'⟩

/-- C83 is false for a short string: when the allocator fails, the code copies to address 0. -/
theorem string_alloc_short (d : List Cell) (bs : List Byte) (h : Reach (.short d) bs) (src : Src) (n : Nat) (hn : bs.length + n > 22) :
    appendN false src n (.short d) = none := by
  obtain ⟨d', c', hr⟩ := rep_of_reach h
  have hg := getbuf_eq hr
  have hcap : c' = 22 := hr.shape.2.2
  have hsc : sCap = 22 := rfl
  simp only [appendN, hg, makeRoom, Option.bind_eq_bind, Option.bind_some]
  rw [if_pos (by omega)]
  simp only [reserve]
  rw [if_pos (by omega)]
  rfl

/-! ### C85 -/

/-- C85. Reading up to a delimiter: at the end of the input it returns false and leaves the string
alone; otherwise it returns true, the string holds the bytes before the first delimiter (or all of
them), of any number, and exactly these and the delimiter are consumed. -/
theorem string_getdelim (s : Str) (bs : List Byte) (h : Reach s bs) (delim : Byte) (file : List Byte) :
    (file = [] → getdelim delim file s = some (false, s, [])) ∧
    (file ≠ [] → ∃ s' line rest, getdelim delim file s = some (true, s', rest) ∧ mem s' = some (line ++ [0#8]) ∧
      delim ∉ line ∧ (file = line ++ delim :: rest ∨ (file = line ∧ rest = []))) := by
  refine ⟨fun e => by subst e; rfl, fun hf => ?_⟩
  obtain ⟨s', e, h'⟩ := getdelim_rep (rep_of_reach h) delim file hf
  refine ⟨s', _, _, e, mem_eq h', fun hm => ?_, ?_⟩
  · simpa using List.mem_takeWhile_imp hm
  · have hsplit := List.takeWhile_append_dropWhile (p := fun x => decide (x ≠ delim)) (l := file)
    cases hd : file.dropWhile (fun x => decide (x ≠ delim)) with
    | nil => right; rw [hd] at hsplit; exact ⟨by simpa using hsplit.symm, rfl⟩
    | cons x t =>
      left
      have hx : x = delim := by
        have := List.head?_dropWhile_not (fun x => decide (x ≠ delim)) file
        rw [hd] at this; simpa using this
      rw [hd, hx] at hsplit
      exact hsplit.symm

example : ∃ s', getdelim 10 [97, 98, 10, 99] empty = some (true, s', [99]) ∧ mem s' = some [97, 98, 0#8] :=
  ⟨_, rfl, rfl⟩

/-- C37 does not extend to inserting a part of the string into itself: the copy may overlap the gap
that was opened, or read a block that was freed by growing (both undefined). -/
theorem string_insert_self_wrong :
    (∃ s, Reach s [97, 98, 99] ∧ insert 0 (.own 0) 3 s = none) ∧
    (∃ s, Reach s (List.replicate 22 97#8) ∧ insert 0 (.own 21) 1 s = none) := by
  obtain ⟨s1, e1, n1⟩ : ∃ s, fromN [97, 98, 99] 3 = some s ∧ insert 0 (.own 0) 3 s = none := ⟨_, rfl, by decide⟩
  obtain ⟨s2, e2, n2⟩ : ∃ s, withSize 22 97#8 = some s ∧ insert 0 (.own 21) 1 s = none := ⟨_, rfl, by decide⟩
  exact ⟨⟨s1, .fromN [97, 98, 99] 3 s1 (by decide) e1, n1⟩, s2, .withSize 22 97#8 s2 e2, n2⟩

end Verif.Cstr
