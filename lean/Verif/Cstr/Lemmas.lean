import Verif.Cstr.Model
import Verif.Csview.Lemmas
import Mathlib.Tactic.Common
/- Memory lemmas and the representation invariant of strings. -/
namespace Verif.Cstr
open Verif.Utf8 Verif.Csview

theorem put_ok {d cs : List Cell} {i : Nat} (h : i + cs.length ≤ d.length) :
    put d i cs = some (d.take i ++ cs ++ d.drop (i + cs.length)) := by rw [put, if_pos h]

theorem put_some {d cs d' : List Cell} {i : Nat} (h : put d i cs = some d') :
    i + cs.length ≤ d.length ∧ d' = d.take i ++ cs ++ d.drop (i + cs.length) := by
  unfold put at h
  split at h
  · rename_i hb; simp only [Option.some.injEq] at h; exact ⟨hb, h.symm⟩
  · simp at h

theorem put_length {d cs d' : List Cell} {i : Nat} (h : put d i cs = some d') : d'.length = d.length := by
  obtain ⟨hb, rfl⟩ := put_some h
  simp; omega

theorem put_take_le {d cs d' : List Cell} {i m : Nat} (h : put d i cs = some d') (hm : m ≤ i) :
    d'.take m = d.take m := by
  obtain ⟨hb, rfl⟩ := put_some h
  rw [List.append_assoc, List.take_append_of_le_length (by simp; omega), List.take_take]
  congr 1; omega

theorem put_take_add {d cs d' : List Cell} {i : Nat} (h : put d i cs = some d') :
    d'.take (i + cs.length) = d.take i ++ cs := by
  obtain ⟨hb, rfl⟩ := put_some h
  exact List.take_left' (by simp; omega)

theorem put_get_lt {d cs d' : List Cell} {i m : Nat} (h : put d i cs = some d') (hm : m < i) :
    d'[m]? = d[m]? := by
  have := put_take_le h (m := m + 1) (by omega)
  have h1 : (d'.take (m + 1))[m]? = d'[m]? := by simp
  have h2 : (d.take (m + 1))[m]? = d[m]? := by simp
  rw [← h1, this, h2]

theorem put_get_one {d d' : List Cell} {i : Nat} {c : Cell} (h : put d i [c] = some d') : d'[i]? = some c := by
  obtain ⟨hb, rfl⟩ := put_some h
  simp only [List.length_singleton] at hb
  have hl : (d.take i).length = i := by simp; omega
  rw [List.append_assoc, List.getElem?_append_right (by omega), hl]
  simp

theorem put_drop_ge {d cs d' : List Cell} {i m : Nat} (h : put d i cs = some d') (hm : i + cs.length ≤ m) :
    d'.drop m = d.drop m := by
  obtain ⟨hb, rfl⟩ := put_some h
  have : (d.take i ++ cs).length = i + cs.length := by simp; omega
  rw [List.drop_append, List.drop_of_length_le (by omega), List.nil_append, List.drop_drop, this]
  congr 1; omega

theorem get_of_take {d : List Cell} {bs : List Byte} (h : d.take bs.length = bs.map some) {i k : Nat}
    (hk : i + k ≤ bs.length) : get d i k = some (((bs.drop i).take k).map some) := by
  have hl : bs.length ≤ d.length := by have := congrArg List.length h; simp at this; omega
  rw [get, if_pos (by omega)]
  congr 1
  have : (d.drop i).take k = ((d.take bs.length).drop i).take k := by
    rw [List.drop_take, List.take_take]; congr 1; omega
  rw [this, h, ← List.map_drop, ← List.map_take]

/-- Block and capacity of a string whose size may be out of date. -/
def Shape (d : List Cell) (cap : Nat) : Str → Prop
  | .short d' => d' = d ∧ d.length = 24 ∧ cap = 22
  | .long d' _ c => d' = d ∧ c = cap ∧ d.length = cap + 1 ∧ 22 < cap
  | .null _ _ => False

/-- The stored size. -/
def Sized (n : Nat) : Str → Prop
  | .short d => d[23]? = some (some (BitVec.ofNat 8 n))
  | .long _ m _ => m = n
  | .null _ _ => False

/-- The invariant: `s` holds exactly the bytes `bs`, followed by a NUL, in block `d`. -/
structure RepIn (bs : List Byte) (s : Str) (d : List Cell) (cap : Nat) : Prop where
  shape : Shape d cap s
  sized : Sized bs.length s
  fits : bs.length ≤ cap
  bytes : d.take bs.length = bs.map some
  nul : d[bs.length]? = some (some 0#8)

/-- The invariant. -/
def Rep (bs : List Byte) (s : Str) : Prop := ∃ d cap, RepIn bs s d cap

theorem Shape.len {d : List Cell} {cap : Nat} {s : Str} (h : Shape d cap s) : cap + 1 ≤ d.length := by
  cases s <;> simp only [Shape] at h <;> omega

theorem Shape.cap_ge {d : List Cell} {cap : Nat} {s : Str} (h : Shape d cap s) : 22 ≤ cap := by
  cases s <;> simp only [Shape] at h <;> omega

theorem Shape.data_eq {d : List Cell} {cap : Nat} {s : Str} (h : Shape d cap s) : data s = some d := by
  cases s <;> simp only [Shape] at h
  · rw [data, h.1]
  · rw [data, h.1]

theorem Shape.put {d d' : List Cell} {cap : Nat} {s : Str} (h : Shape d cap s) (hl : d'.length = d.length) :
    Shape d' cap (setBuf d' s) := by
  cases s <;> simp only [Shape, setBuf] at *
  · exact ⟨trivial, by omega, h.2.2⟩
  · exact ⟨trivial, h.2.1, by omega, h.2.2.2⟩

/-- Writing the bytes before the size byte keeps the size. -/
theorem Sized.put {d d' cs : List Cell} {cap n i : Nat} {s : Str} (h : Shape d cap s) (hs : Sized n s)
    (hp : Cstr.put d i cs = some d') (hi : i + cs.length ≤ cap + 1) : Sized n (setBuf d' s) := by
  cases s <;> simp only [Shape, setBuf, Sized] at *
  · obtain ⟨rfl, hl, rfl⟩ := h
    have := put_drop_ge hp (m := 23) (by omega)
    have := congrArg (·[0]?) this
    simp only [List.getElem?_drop] at this
    rw [← hs]; exact this
  · exact hs

theorem setSize_shape {d : List Cell} {cap len : Nat} {s : Str} (h : Shape d cap s) (hb : len ≤ cap) :
    ∃ s' d', setSize len s = some s' ∧ Shape d' cap s' ∧ Sized len s' ∧ d'.take len = d.take len ∧
      d'[len]? = some (some 0#8) ∧ ∀ p ≤ cap, p ≠ len → d'[p]? = d[p]? := by
  have aux : ∀ (d d' : List Cell) (c : Cell) (i p : Nat), Cstr.put d i [c] = some d' → p ≠ i → d'[p]? = d[p]? := by
    intro d d' c i p hp hne
    by_cases h : p < i
    · exact put_get_lt hp h
    · have := congrArg (·[0]?) (put_drop_ge hp (m := p) (by simp; omega))
      simpa [List.getElem?_drop] using this
  cases s with
  | null n c => simp [Shape] at h
  | short d0 =>
    obtain ⟨rfl, hl, hc⟩ := h
    have e1 := put_ok (d := d0) (cs := [some 0#8]) (i := len) (by simp; omega)
    generalize d0.take len ++ [some 0#8] ++ d0.drop (len + [some 0#8].length) = d1 at e1
    have l1 := put_length e1
    have e2 := put_ok (d := d1) (cs := [some (BitVec.ofNat 8 len)]) (i := 23) (by simp; omega)
    generalize d1.take 23 ++ [some (BitVec.ofNat 8 len)] ++ d1.drop (23 + [some (BitVec.ofNat 8 len)].length) = d2 at e2
    have l2 := put_length e2
    refine ⟨.short d2, d2, ?_, ⟨rfl, by omega, hc⟩, put_get_one e2, ?_, ?_, ?_⟩
    · simp only [setSize, Option.bind_eq_bind, e1, sLast, Option.bind_some, e2]
    · rw [put_take_le e2 (by omega), put_take_le e1 (Nat.le_refl _)]
    · rw [put_get_lt e2 (by omega), put_get_one e1]
    · intro p hp hne
      rw [aux _ _ _ _ p e2 (by omega), aux _ _ _ _ p e1 hne]
  | long d0 n c =>
    obtain ⟨rfl, rfl, hl, hc⟩ := h
    have e1 := put_ok (d := d0) (cs := [some 0#8]) (i := len) (by simp; omega)
    generalize d0.take len ++ [some 0#8] ++ d0.drop (len + [some 0#8].length) = d1 at e1
    have l1 := put_length e1
    refine ⟨.long d1 len c, d1, ?_, ⟨rfl, rfl, by omega, hc⟩, rfl, ?_, put_get_one e1, ?_⟩
    · simp only [setSize, Option.bind_eq_bind, e1, Option.bind_some]
    · rw [put_take_le e1 (Nat.le_refl _)]
    · intro p _ hne; exact aux _ _ _ _ p e1 hne

theorem setSize_rep {d : List Cell} {cap : Nat} {s : Str} (bs : List Byte) (h : Shape d cap s)
    (hb : bs.length ≤ cap) (ht : d.take bs.length = bs.map some) :
    ∃ s', setSize bs.length s = some s' ∧ ∃ d', RepIn bs s' d' cap := by
  obtain ⟨s', d', e, h1, h2, h3, h4, _⟩ := setSize_shape h hb
  exact ⟨s', e, d', h1, h2, hb, by rw [h3, ht], h4⟩

theorem getbuf_eq {bs : List Byte} {s : Str} {d : List Cell} {cap : Nat} (h : RepIn bs s d cap) :
    getbuf s = some (d, bs.length, cap) := by
  have h1 := h.shape; have h2 := h.sized; have h3 := h.fits
  cases s with
  | null n c => simp [Shape] at h1
  | short d0 =>
    obtain ⟨rfl, hl, rfl⟩ := h1
    simp only [Sized] at h2
    simp only [getbuf, sLast, h2, Option.bind_eq_bind, Option.bind_some, sCap, BitVec.toNat_ofNat]
    rw [Nat.mod_eq_of_lt (by omega)]
  | long d0 n c =>
    obtain ⟨rfl, rfl, hl, hc⟩ := h1
    simp only [Sized] at h2
    rw [getbuf, h2]

theorem mapM_some (l : List Byte) : (l.map some).mapM id = some l := by
  induction l with
  | nil => rfl
  | cons b l ih =>
    rw [List.map_cons, List.mapM_cons]
    simp only [id, Option.bind_eq_bind, ih, Option.bind_some]
    rfl

theorem take_succ_get {d : List Cell} {n : Nat} {c : Cell} (h : d[n]? = some c) : d.take (n + 1) = d.take n ++ [c] := by
  rw [List.take_add_one, h]; rfl

theorem mem_eq {bs : List Byte} {s : Str} (h : Rep bs s) : mem s = some (bs ++ [0#8]) := by
  obtain ⟨d, cap, h⟩ := h
  have hl := h.shape.len
  have hf := h.fits
  simp only [mem, getbuf_eq h, Option.bind_eq_bind, Option.bind_some]
  rw [get, if_pos (by omega)]
  simp only [Option.bind_some, List.drop_zero]
  rw [take_succ_get h.nul, h.bytes, ← mapM_some (bs ++ [0#8])]
  simp

theorem size_eq {bs : List Byte} {s : Str} (h : Rep bs s) : size s = some bs.length := by
  obtain ⟨d, cap, h⟩ := h; rw [size, getbuf_eq h]; rfl

theorem rep_empty : Rep [] empty :=
  ⟨_, _, ⟨rfl, by decide, rfl⟩, by rw [empty, Sized]; decide, by decide, rfl, by decide⟩

theorem realloc_length (d : List Cell) (n : Nat) : (realloc d n).length = n := by simp [realloc]; omega

theorem realloc_take (d : List Cell) {n m : Nat} (h : m ≤ n) (h' : m ≤ d.length) :
    (realloc d n).take m = d.take m := by
  simp only [realloc, List.take_append, List.take_take, List.take_replicate, List.length_take]
  have h1 : min m n = m := by omega
  have h2 : m - min n d.length = 0 := by omega
  simp [h1, h2]

theorem realloc_get (d : List Cell) {n m : Nat} (h : m < n) (h' : m < d.length) :
    (realloc d n)[m]? = d[m]? := by
  have := realloc_take d (n := n) (m := m + 1) (by omega) (by omega)
  have h1 : ((realloc d n).take (m + 1))[m]? = (realloc d n)[m]? := by simp
  have h2 : (d.take (m + 1))[m]? = d[m]? := by simp
  rw [← h1, this, h2]

theorem reserve_rep {bs : List Byte} {s : Str} {d : List Cell} {c : Nat} (h : RepIn bs s d c) (cap : Nat) :
    ∃ s' m d', reserve true cap s = some (s', m) ∧ RepIn bs s' d' (max c cap) ∧
      (m = false → s' = s ∧ cap ≤ c) ∧ (m = true → c < cap) := by
  have hs := h.shape; have hz := h.sized; have hf := h.fits; have hb := h.bytes; have hn := h.nul
  cases s with
  | null n k => simp [Shape] at hs
  | short d0 =>
    obtain ⟨rfl, hl, rfl⟩ := hs
    simp only [reserve, sCap]
    by_cases hc : cap > 22
    · rw [if_pos hc]
      simp only [if_true]
      simp only [Sized] at hz
      have e := put_ok (d := List.replicate (cap + 1) none) (cs := d0) (i := 0) (by simp; omega)
      generalize List.take 0 (List.replicate (cap + 1) none) ++ d0 ++ List.drop (0 + d0.length) (List.replicate (cap + 1) none) = d1 at e
      have hl1 := put_length e
      have ht := put_take_add e
      rw [Nat.zero_add, List.take_zero, List.nil_append] at ht
      have hpre : ∀ m ≤ 24, d1.take m = d0.take m := by
        intro m hm
        rw [← ht, List.take_take]; congr 1; omega
      have hg : ∀ m < 24, d1[m]? = d0[m]? := by
        intro m hm
        rw [← ht, List.getElem?_take, if_pos (by omega)]
      refine ⟨.long d1 bs.length cap, true, d1, ?_, ⟨⟨rfl, ?_, ?_, ?_⟩, rfl, by omega, ?_, ?_⟩, by simp, fun _ => hc⟩
      · simp only [sLast, hz, Option.bind_eq_bind, Option.bind_some, e, BitVec.toNat_ofNat]
        rw [Nat.mod_eq_of_lt (by omega)]
      · omega
      · simp at hl1; omega
      · omega
      · rw [hpre _ (by omega), hb]
      · rw [hg _ (by omega), hn]
    · rw [if_neg hc]
      have : max 22 cap = 22 := by omega
      rw [this]
      exact ⟨_, _, _, rfl, h, fun _ => ⟨rfl, by omega⟩, by simp⟩
  | long d0 n k =>
    obtain ⟨rfl, rfl, hl, hk⟩ := hs
    simp only [Sized] at hz
    simp only [reserve]
    by_cases hc : cap > k
    · rw [if_pos hc]
      simp only [if_true]
      refine ⟨_, _, realloc d0 (cap + 1), rfl, ⟨⟨rfl, by omega, ?_, by omega⟩, hz, by omega, ?_, ?_⟩, by simp, fun _ => hc⟩
      · rw [realloc_length]; omega
      · rw [realloc_take _ (by omega) (by omega), hb]
      · rw [realloc_get _ (by omega) (by omega), hn]
    · rw [if_neg hc]
      have : max k cap = k := by omega
      rw [this]
      exact ⟨_, _, _, rfl, h, fun _ => ⟨rfl, by omega⟩, by simp⟩

end Verif.Cstr
