import Verif.Cstr.Lemmas
/- Every operation on strings: defined, and its effect on the bytes. -/
namespace Verif.Cstr
open Verif.Utf8 Verif.Csview

/-- The bytes a valid source of `n` bytes stands for, when the string holds `bs`. -/
def Src.bytes (bs : List Byte) (n : Nat) : Src → List Byte
  | .ext m => m.take n
  | .own off => (bs.drop off).take n

/-- A source of `n` bytes is readable. -/
def Src.ok (bs : List Byte) (n : Nat) : Src → Prop
  | .ext m => n ≤ m.length
  | .own off => off + n ≤ bs.length

instance (bs : List Byte) (n : Nat) : (src : Src) → Decidable (src.ok bs n)
  | .ext _ => inferInstanceAs (Decidable (_ ≤ _))
  | .own _ => inferInstanceAs (Decidable (_ ≤ _))

theorem Src.length_bytes {bs : List Byte} {n : Nat} {src : Src} (h : src.ok bs n) : (src.bytes bs n).length = n := by
  cases src <;> simp only [Src.ok, Src.bytes, List.length_take, List.length_drop] at * <;> omega

theorem setBuf_put_rep {bs xs : List Byte} {s : Str} {d d' : List Cell} {cap i : Nat} (h : Shape d cap s)
    (hz : Sized bs.length s) (hf : bs.length ≤ cap) (hn : d[bs.length]? = some (some 0#8))
    (hp : put d i (xs.map some) = some d') (hi : i + xs.length ≤ bs.length)
    (ht : d'.take bs.length = bs.map some) : RepIn bs (setBuf d' s) d' cap := by
  refine ⟨h.put (put_length hp), Sized.put h hz hp (by simp; omega), hf, ht, ?_⟩
  have := congrArg (·[0]?) (put_drop_ge hp (m := bs.length) (by simp; omega))
  simp only [List.getElem?_drop, Nat.add_zero] at this
  rw [this, hn]

theorem clear_rep {bs : List Byte} {s : Str} (h : Rep bs s) : ∃ s', clear s = some s' ∧ Rep [] s' := by
  obtain ⟨d, cap, h⟩ := h
  obtain ⟨s', e, d', h'⟩ := setSize_rep [] h.shape (by simp) (by simp)
  exact ⟨s', e, d', cap, h'⟩

theorem init_shape (len cap : Nat) (h : len ≤ cap) :
    ∃ s d c, init len cap = some s ∧ Shape d c s ∧ Sized len s ∧ cap ≤ c ∧ d[len]? = some (some 0#8) := by
  rw [init]
  by_cases hc : cap > sCap
  · rw [if_pos hc]
    have e1 := put_ok (d := List.replicate (cap + 1) none) (cs := [some 0#8]) (i := len) (by simp; omega)
    generalize (List.replicate (cap + 1) none).take len ++ [some 0#8] ++ (List.replicate (cap + 1) none).drop (len + [some 0#8].length) = d1 at e1
    have l1 := put_length e1
    refine ⟨.long d1 len cap, d1, cap, by simp only [Option.bind_eq_bind, e1, Option.bind_some],
      ⟨rfl, rfl, by simpa using l1, hc⟩, rfl, Nat.le_refl _, put_get_one e1⟩
  · rw [if_neg hc]
    simp only [sCap] at hc
    obtain ⟨s', d', e, h1, h2, h3, h4, _⟩ := setSize_shape (s := .short (List.replicate 24 none))
      (d := List.replicate 24 none) (cap := 22) (len := len) ⟨rfl, by simp, rfl⟩ (by omega)
    exact ⟨s', d', 22, e, h1, h2, by omega, h4⟩

theorem fromN_rep (m : List Byte) (len : Nat) (h : len ≤ m.length) :
    ∃ s, fromN m len = some s ∧ Rep (m.take len) s := by
  obtain ⟨s, d, c, e, h1, h2, h3, h4⟩ := init_shape len len (Nat.le_refl _)
  have hl := h1.len
  have hlen : (m.take len).length = len := by simp; omega
  have ep := put_ok (d := d) (cs := (m.take len).map some) (i := 0) (by simp; omega)
  generalize d.take 0 ++ (m.take len).map some ++ d.drop (0 + ((m.take len).map some).length) = d1 at ep
  refine ⟨setBuf d1 s, ?_, d1, c, setBuf_put_rep (bs := m.take len) h1 (by rw [hlen]; exact h2) (by omega) (by rw [hlen]; exact h4)
    ep (by omega) ?_⟩
  · simp only [fromN, e, Option.bind_eq_bind, Option.bind_some, h1.data_eq, memcpySrc, Src.read, if_pos h, ep]
  · have := put_take_add ep
    simpa using this

theorem withSize_rep (len : Nat) (v : Byte) : ∃ s, withSize len v = some s ∧ Rep (List.replicate len v) s := by
  obtain ⟨s, d, c, e, h1, h2, h3, h4⟩ := init_shape len len (Nat.le_refl _)
  have hl := h1.len
  have hm : (List.replicate len v).map some = List.replicate len (some v) := by simp
  have ep := put_ok (d := d) (cs := (List.replicate len v).map some) (i := 0) (by simp; omega)
  generalize d.take 0 ++ (List.replicate len v).map some ++ d.drop (0 + ((List.replicate len v).map some).length) = d1 at ep
  refine ⟨setBuf d1 s, ?_, d1, c, setBuf_put_rep (bs := List.replicate len v) h1 (by rw [List.length_replicate]; exact h2)
    (by simpa using h3) (by rw [List.length_replicate]; exact h4) ep (by simp) ?_⟩
  · rw [hm] at ep
    simp only [withSize, e, Option.bind_eq_bind, Option.bind_some, h1.data_eq, ep]
  · have := put_take_add ep
    simpa using this

theorem withCapacity_rep (cap : Nat) : ∃ s d c, withCapacity cap = some s ∧ RepIn [] s d c ∧ cap ≤ c := by
  obtain ⟨s, d, c, e, h1, h2, h3, h4⟩ := init_shape 0 cap (Nat.zero_le _)
  exact ⟨s, d, c, e, ⟨h1, h2, Nat.zero_le _, by simp, h4⟩, h3⟩

theorem clone_rep {bs : List Byte} {s : Str} (h : Rep bs s) : ∃ s', clone s = some s' ∧ Rep bs s' := by
  obtain ⟨s', e, h'⟩ := fromN_rep (bs ++ [0#8]) bs.length (by simp)
  rw [List.take_left] at h'
  exact ⟨s', by simp only [clone, mem_eq h, size_eq h, Option.bind_eq_bind, Option.bind_some, e], h'⟩

theorem read_ok {bs : List Byte} {d : List Cell} {src : Src} {n : Nat} (ht : d.take bs.length = bs.map some)
    (h : src.ok bs n) : src.read d false n = some ((src.bytes bs n).map some) := by
  cases src with
  | ext m => simp only [Src.read, Src.bytes, Src.ok] at *; rw [if_pos h]
  | own off =>
    simp only [Src.read, Src.bytes, Src.ok] at *
    exact get_of_take ht h

/-- Appending bytes after the contents. -/
theorem append_core {bs xs : List Byte} {s : Str} {d : List Cell} {cap : Nat} (h : Shape d cap s)
    (ht : d.take bs.length = bs.map some) (hc : bs.length + xs.length ≤ cap) :
    ∃ d1 s' , put d bs.length (xs.map some) = some d1 ∧ setSize (bs.length + xs.length) (setBuf d1 s) = some s' ∧
      Rep (bs ++ xs) s' := by
  have hl := h.len
  have ep := put_ok (d := d) (cs := xs.map some) (i := bs.length) (by simp; omega)
  generalize d.take bs.length ++ xs.map some ++ d.drop (bs.length + (xs.map some).length) = d1 at ep
  have hsh := h.put (put_length ep)
  have htk := put_take_add ep
  rw [List.length_map, ht, ← List.map_append] at htk
  obtain ⟨s', e, d', h'⟩ := setSize_rep (bs ++ xs) hsh (by simpa using hc) (by simpa using htk)
  rw [List.length_append] at e
  exact ⟨d1, s', ep, e, d', cap, h'⟩

theorem appendN_rep {bs : List Byte} {s : Str} (h : Rep bs s) {src : Src} {n : Nat} (hs : src.ok bs n) :
    ∃ s', appendN true src n s = some (s', true) ∧ Rep (bs ++ src.bytes bs n) s' := by
  obtain ⟨d, cap, h⟩ := h
  have hln := Src.length_bytes hs
  -- the state after making room
  have room : ∃ s1 d1 c1 st, makeRoom true src n bs.length cap s = some (s1, st, src) ∧ RepIn bs s1 d1 c1 ∧
      bs.length + n ≤ c1 ∧ (st = false ∨ ∃ m, src = .ext m) := by
    by_cases hc : bs.length + n > cap
    · obtain ⟨s', m, d', e, hr, _, _⟩ := reserve_rep h (bs.length * 3 / 2 + n)
      cases src with
      | ext b =>
        exact ⟨s', d', _, m, by
            simp only [makeRoom, if_pos hc, e, Option.bind_eq_bind, Option.bind_some], hr, by omega, Or.inr ⟨b, rfl⟩⟩
      | own off =>
        have : off ≤ bs.length := by simp only [Src.ok] at hs; omega
        exact ⟨s', d', _, false, by
            simp only [makeRoom, if_pos hc, e, Option.bind_eq_bind, Option.bind_some, if_pos this], hr, by omega, Or.inl rfl⟩
    · exact ⟨s, d, cap, false, by rw [makeRoom, if_neg hc], h, by omega, Or.inl rfl⟩
  obtain ⟨s1, d1, c1, st, e, hr, hc, hst⟩ := room
  obtain ⟨d2, s', ep, es, h'⟩ := append_core (xs := src.bytes bs n) hr.shape hr.bytes (by omega)
  rw [hln] at es
  refine ⟨s', ?_, h'⟩
  cases src with
  | ext m =>
    simp only [Src.ok] at hs
    simp only [Src.bytes] at ep
    simp only [appendN, getbuf_eq h, Option.bind_eq_bind, Option.bind_some, e, hr.shape.data_eq, memcpySrc, Src.read,
      if_pos hs, ep, es]
  | own off =>
    have hst : st = false := by rcases hst with h | ⟨m, h⟩ <;> simp_all
    subst hst
    have hro := read_ok hr.bytes hs
    simp only [Src.ok] at hs
    simp only [appendN, getbuf_eq h, Option.bind_eq_bind, Option.bind_some, e, hr.shape.data_eq, memcpySrc, hro,
      if_pos (show off + n ≤ bs.length ∨ bs.length + n ≤ off by omega), ep, es]

/-- Assigning from outside, or from a part of the string that the new terminator does not hit. -/
theorem assignN_rep {bs : List Byte} {s : Str} (h : Rep bs s) {src : Src} {n : Nat} (hs : src.ok bs n)
    (ho : ∀ off, src = .own off → off = 0 ∨ n < off ∨ n = 0) :
    ∃ s', assignN true src n s = some (s', true) ∧ Rep (src.bytes bs n) s' := by
  obtain ⟨d, cap, h⟩ := h
  have hln := Src.length_bytes hs
  obtain ⟨s1, m, d1, e, hr, hm, hm'⟩ := reserve_rep h n
  obtain ⟨s2, d2, e2, hsh, hz, ht, hnul, hp⟩ := setSize_shape (len := n) hr.shape (by omega)
  have hl := hsh.len
  have hread : src.read d2 m n = some ((src.bytes bs n).map some) := by
    cases src with
    | ext b => simp only [Src.read, Src.bytes, Src.ok] at *; rw [if_pos hs]
    | own off =>
      simp only [Src.ok] at hs
      have hf := h.fits
      have hmf : m = false := by
        by_contra hne
        have := hm' (by simpa using hne); omega
      have ho := ho off rfl
      have hrf := hr.fits
      simp only [Src.read, hmf, Src.bytes, get, if_pos (show off + n ≤ d2.length by omega)]
      have : (d2.drop off).take n = (d1.drop off).take n := by
        apply List.ext_getElem?
        intro i
        simp only [List.getElem?_take, List.getElem?_drop]
        by_cases hi : i < n
        · rw [if_pos hi, if_pos hi, hp _ (by omega) (by omega)]
        · rw [if_neg hi, if_neg hi]
      have hg := get_of_take hr.bytes (i := off) (k := n) hs
      rw [get, if_pos (by have := hr.shape.len; omega)] at hg
      simp only [Bool.false_eq_true, if_false, this]
      exact hg
  have ep := put_ok (d := d2) (cs := (src.bytes bs n).map some) (i := 0) (by simp; omega)
  generalize d2.take 0 ++ (src.bytes bs n).map some ++ d2.drop (0 + ((src.bytes bs n).map some).length) = d3 at ep
  refine ⟨setBuf d3 s2, ?_, d3, _, setBuf_put_rep (bs := src.bytes bs n) hsh (by rw [hln]; exact hz) (by omega) (by rw [hln]; exact hnul)
    ep (by omega) ?_⟩
  · simp only [assignN, e, Option.bind_eq_bind, Option.bind_some, hr.shape.data_eq, e2, hsh.data_eq, memmoveSrc, hread, ep]
  · have := put_take_add ep
    simpa using this

/-- Assigning a part of the string that contains the position of the new terminator: one byte is
lost. -/
theorem assignN_own_rep {bs : List Byte} {s : Str} (h : Rep bs s) {off n : Nat} (hs : off + n ≤ bs.length)
    (h0 : 0 < off) (hn : off ≤ n) :
    ∃ s', assignN true (.own off) n s = some (s', true) ∧ Rep (((bs.drop off).take n).set (n - off) 0#8) s' := by
  obtain ⟨d, cap, h⟩ := h
  obtain ⟨s1, m, d1, e, hr, hm, hm'⟩ := reserve_rep h n
  obtain ⟨s2, d2, e2, hsh, hz, ht, hnul, hp⟩ := setSize_shape (len := n) hr.shape (by omega)
  have hl := hsh.len
  have hf := h.fits
  have hrf := hr.fits
  have hmf : m = false := by
    by_contra hne
    have := hm' (by simpa using hne); omega
  have hln : (((bs.drop off).take n).set (n - off) 0#8).length = n := by simp; omega
  have hread : (Src.own off).read d2 m n = some ((((bs.drop off).take n).set (n - off) 0#8).map some) := by
    simp only [Src.read, hmf, get, if_pos (show off + n ≤ d2.length by omega), Bool.false_eq_true, if_false, Option.some.injEq]
    apply List.ext_getElem?
    intro i
    simp only [List.getElem?_take, List.getElem?_drop, List.getElem?_map, List.getElem?_set, List.length_take, List.length_drop]
    by_cases hi : i < n
    · rw [if_pos hi, if_pos hi]
      by_cases hin : n - off = i
      · subst hin
        rw [show off + (n - off) = n by omega, hnul, if_pos rfl, if_pos (by omega)]; rfl
      · rw [hp _ (by omega) (by omega), if_neg hin]
        have hb := congrArg (·[off + i]?) hr.bytes
        simp only [List.getElem?_take, List.getElem?_map] at hb
        rw [if_pos (by omega)] at hb
        exact hb
    · rw [if_neg hi, if_neg hi, if_neg (by omega)]; rfl
  have ep := put_ok (d := d2) (cs := (((bs.drop off).take n).set (n - off) 0#8).map some) (i := 0) (by rw [List.length_map, hln]; omega)
  generalize ((bs.drop off).take n).set (n - off) 0#8 = xs at ep hread hln ⊢
  generalize d2.take 0 ++ xs.map some ++ d2.drop (0 + (xs.map some).length) = d3 at ep
  refine ⟨setBuf d3 s2, ?_, d3, _, setBuf_put_rep (bs := xs) hsh (by rw [hln]; exact hz) (by omega) (by rw [hln]; exact hnul)
    ep (by omega) ?_⟩
  · simp only [assignN, e, Option.bind_eq_bind, Option.bind_some, hr.shape.data_eq, e2, hsh.data_eq, memmoveSrc, hread, ep]
  · have := put_take_add ep
    simpa using this

theorem resize_rep {bs : List Byte} {s : Str} (h : Rep bs s) (n : Nat) (v : Byte) :
    ∃ s', resize true n v s = some (s', true) ∧ Rep (bs.take n ++ List.replicate (n - bs.length) v) s' := by
  obtain ⟨d, cap, h⟩ := h
  by_cases hg : n > bs.length
  · have hroom : ∃ s1 d1 c1, ((∃ m, (if n > cap then reserve true n s else some (s, false)) = some (s1, m)) ∧
        RepIn bs s1 d1 c1 ∧ n ≤ c1) := by
      by_cases hc : n > cap
      · obtain ⟨s1, m, d1, e, hr, _⟩ := reserve_rep h n
        exact ⟨s1, d1, _, ⟨m, by rw [if_pos hc, e]⟩, hr, by omega⟩
      · exact ⟨s, d, cap, ⟨false, by rw [if_neg hc]⟩, h, by omega⟩
    obtain ⟨s1, d1, c1, ⟨m, e⟩, hr, hc⟩ := hroom
    obtain ⟨d2, s', ep, es, h'⟩ := append_core (xs := List.replicate (n - bs.length) v) hr.shape hr.bytes (by simp; omega)
    rw [List.map_replicate] at ep
    rw [List.length_replicate, show bs.length + (n - bs.length) = n by omega] at es
    refine ⟨s', ?_, by rw [List.take_of_length_le (by omega)]; exact h'⟩
    simp only [resize, getbuf_eq h, Option.bind_eq_bind, Option.bind_some, if_pos hg, grow, e, hr.shape.data_eq, ep, es,
      if_true]
  · have hn : (bs.take n).length = n := by simp; omega
    have ht : d.take (bs.take n).length = (bs.take n).map some := by
      rw [hn, List.map_take, ← h.bytes, List.take_take]; congr 1; omega
    have hf := h.fits
    obtain ⟨s', e, d', h'⟩ := setSize_rep (bs.take n) h.shape (by omega) ht
    rw [hn] at e
    refine ⟨s', ?_, by rw [show n - bs.length = 0 by omega, List.replicate_zero, List.append_nil]; exact ⟨d', cap, h'⟩⟩
    simp only [resize, getbuf_eq h, Option.bind_eq_bind, Option.bind_some, if_neg hg, e]

/-- Moving the tail. -/
theorem move_core {bs : List Byte} {d : List Cell} {cap pos1 pos2 : Nat} {s : Str}
    (h : RepIn bs s d cap) (h1 : pos1 ≤ bs.length) (h2 : bs.length + pos2 - pos1 ≤ cap) :
    ∃ d1, memmove d pos2 pos1 (bs.length - pos1) = some d1 ∧ d1.length = d.length ∧
      d1.take pos2 = d.take pos2 ∧ (d1.drop pos2).take (bs.length - pos1) = (bs.drop pos1).map some := by
  have hl := h.shape.len
  have hg := get_of_take h.bytes (i := pos1) (k := bs.length - pos1) (by omega)
  have htl : (bs.drop pos1).take (bs.length - pos1) = bs.drop pos1 := List.take_of_length_le (by simp)
  rw [htl] at hg
  have ep := put_ok (d := d) (cs := (bs.drop pos1).map some) (i := pos2) (by simp; omega)
  generalize d.take pos2 ++ (bs.drop pos1).map some ++ d.drop (pos2 + ((bs.drop pos1).map some).length) = d1 at ep
  refine ⟨d1, by simp only [memmove, hg, Option.bind_eq_bind, Option.bind_some, ep], put_length ep, put_take_le ep (Nat.le_refl _), ?_⟩
  have := put_take_add ep
  have h3 := congrArg (List.drop pos2) this
  rw [List.drop_take, List.length_map, List.length_drop, Nat.add_sub_cancel_left] at h3
  rw [h3]
  exact List.drop_left' (by simp; omega)

/-- Two consecutive known parts of a block. -/
theorem take_split {d : List Cell} {xs : List Cell} {i k : Nat} (h : (d.drop i).take k = xs) :
    d.take (i + k) = d.take i ++ xs := by
  rw [List.take_add, h]

theorem replaceAt_rep {bs : List Byte} {s : Str} (h : Rep bs s) {pos len : Nat} (hp : pos + len ≤ bs.length)
    {m : List Byte} {n : Nat} (hm : n ≤ m.length) :
    ∃ s', replaceAt pos len (.ext m) n s = some s' ∧ Rep (bs.take pos ++ m.take n ++ bs.drop (pos + len)) s' := by
  obtain ⟨d, cap, h⟩ := h
  have hmn : (m.take n).length = n := by simp; omega
  by_cases hne : pos + len ≠ pos + n
  · -- the tail moves
    have room : ∃ s1 d1 c1, (∃ mv, moveRoom (pos + len) (pos + n) bs.length cap s = some (s1, mv)) ∧ RepIn bs s1 d1 c1 ∧
        bs.length + (pos + n) - (pos + len) ≤ c1 := by
      by_cases hc : bs.length + (pos + n) - (pos + len) > cap
      · obtain ⟨s1, mv, d1, e, hr, _⟩ := reserve_rep h (bs.length * 3 / 2 + (pos + n) - (pos + len))
        exact ⟨s1, d1, _, ⟨mv, by rw [moveRoom, if_pos hc, e]⟩, hr, by omega⟩
      · exact ⟨s, d, cap, ⟨false, by rw [moveRoom, if_neg hc]⟩, h, by omega⟩
    obtain ⟨s1, d1, c1, ⟨mv, e⟩, hr, hc⟩ := room
    obtain ⟨d2, em, hl2, ht2, htl2⟩ := move_core hr (pos1 := pos + len) (pos2 := pos + n) hp hc
    have hsh2 := hr.shape.put hl2
    obtain ⟨s3, d3, e3, hsh3, hz3, ht3, hn3, _⟩ := setSize_shape (len := bs.length + (pos + n) - (pos + len)) hsh2 hc
    have hl3 := hsh3.len
    have ep := put_ok (d := d3) (cs := (m.take n).map some) (i := pos) (by simp; omega)
    generalize d3.take pos ++ (m.take n).map some ++ d3.drop (pos + ((m.take n).map some).length) = d4 at ep
    have hlen : (bs.take pos ++ m.take n ++ bs.drop (pos + len)).length = bs.length + (pos + n) - (pos + len) := by
      simp; omega
    refine ⟨setBuf d4 s3, ?_, d4, c1, setBuf_put_rep (xs := m.take n) hsh3 (by rw [hlen]; exact hz3) (by omega) (by rw [hlen]; exact hn3)
      ep (by omega) ?_⟩
    · simp only [replaceAt, internalMove, getbuf_eq h, Option.bind_eq_bind, Option.bind_some, if_pos hne, guard_pos hp, e,
        hr.shape.data_eq, em, e3, hsh3.data_eq, memcpySrc, Src.read, if_pos hm, ep]
    · -- contents
      have hA := put_take_add ep
      rw [List.length_map, hmn] at hA
      have hB : (d4.drop (pos + n)).take (bs.length - (pos + len)) = (bs.drop (pos + len)).map some := by
        rw [put_drop_ge ep (by simp; omega), ← htl2]
        have e1 : (d3.drop (pos + n)).take (bs.length - (pos + len)) =
            (d3.take (bs.length + (pos + n) - (pos + len))).drop (pos + n) := by
          rw [List.drop_take]; congr 1; omega
        have e2 : (d2.drop (pos + n)).take (bs.length - (pos + len)) =
            (d2.take (bs.length + (pos + n) - (pos + len))).drop (pos + n) := by
          rw [List.drop_take]; congr 1; omega
        rw [e1, e2, ht3]
      rw [hlen, show bs.length + (pos + n) - (pos + len) = (pos + n) + (bs.length - (pos + len)) by omega,
        take_split hB, hA, List.map_append, List.map_append]
      congr 2
      have h3 : d3.take pos = d2.take pos := by
        have := congrArg (List.take pos) ht3
        rw [List.take_take, List.take_take] at this
        rwa [show min pos (bs.length + (pos + n) - (pos + len)) = pos by omega] at this
      have h2 : d2.take pos = d1.take pos := by
        have := congrArg (List.take pos) ht2
        rw [List.take_take, List.take_take] at this
        rwa [show min pos (pos + n) = pos by omega] at this
      rw [h3, h2, List.map_take, ← hr.bytes, List.take_take]
      congr 1; omega
  · -- same length: overwrite in place
    have hn : n = len := by omega
    subst hn
    have hl := h.shape.len
    have hf := h.fits
    have ep := put_ok (d := d) (cs := (m.take n).map some) (i := pos) (by simp; omega)
    generalize d.take pos ++ (m.take n).map some ++ d.drop (pos + ((m.take n).map some).length) = d4 at ep
    have hlen : (bs.take pos ++ m.take n ++ bs.drop (pos + n)).length = bs.length := by simp; omega
    refine ⟨setBuf d4 s, ?_, d4, cap, setBuf_put_rep (xs := m.take n) h.shape (by rw [hlen]; exact h.sized) (by omega)
      (by rw [hlen]; exact h.nul) ep (by omega) ?_⟩
    · simp only [replaceAt, internalMove, getbuf_eq h, Option.bind_eq_bind, Option.bind_some, ne_eq, not_true_eq_false,
        if_false, h.shape.data_eq, memcpySrc, Src.read, if_pos hm, ep]
    · have hA := put_take_add ep
      rw [List.length_map, hmn] at hA
      have hB : (d4.drop (pos + n)).take (bs.length - (pos + n)) = (bs.drop (pos + n)).map some := by
        rw [put_drop_ge ep (by simp; omega)]
        have hg := get_of_take h.bytes (i := pos + n) (k := bs.length - (pos + n)) (by omega)
        rw [get, if_pos (by omega)] at hg
        simp only [Option.some.injEq] at hg
        rw [hg, List.take_of_length_le (by simp)]
      rw [hlen, show bs.length = (pos + n) + (bs.length - (pos + n)) by omega, take_split hB, hA, List.map_append, List.map_append]
      congr 2
      rw [List.map_take, ← h.bytes, List.take_take]
      congr 1; omega

theorem erase_rep {bs : List Byte} {s : Str} (h : Rep bs s) {pos : Nat} (hp : pos ≤ bs.length) (len : Nat) :
    ∃ s', erase pos len s = some s' ∧ Rep (bs.take pos ++ bs.drop (pos + len)) s' := by
  obtain ⟨d, cap, h⟩ := h
  have key : ∀ k, pos + k ≤ bs.length → ∃ d1 s', memmove d pos (pos + k) (bs.length - (pos + k)) = some d1 ∧
      setSize (bs.length - k) (setBuf d1 s) = some s' ∧ Rep (bs.take pos ++ bs.drop (pos + k)) s' := by
    intro k hk
    have hf := h.fits
    obtain ⟨d1, em, hl, ht, htl⟩ := move_core h (pos1 := pos + k) (pos2 := pos) hk (by omega)
    have hlen : (bs.take pos ++ bs.drop (pos + k)).length = bs.length - k := by simp; omega
    obtain ⟨s', e, d', h'⟩ := setSize_rep (bs.take pos ++ bs.drop (pos + k)) (h.shape.put hl) (by omega) (by
      rw [hlen, show bs.length - k = pos + (bs.length - (pos + k)) by omega, take_split htl, ht, List.map_append]
      congr 1
      rw [List.map_take, ← h.bytes, List.take_take]; congr 1; omega)
    rw [hlen] at e
    exact ⟨d1, s', em, e, d', cap, h'⟩
  by_cases hl : len > bs.length - pos
  · obtain ⟨d1, s', em, e, h'⟩ := key (bs.length - pos) (by omega)
    refine ⟨s', ?_, ?_⟩
    · simp only [erase, getbuf_eq h, Option.bind_eq_bind, Option.bind_some, guard_pos hp, if_pos hl, em, e]
    · rw [List.drop_of_length_le (by omega)] at h' ⊢; exact h'
  · obtain ⟨d1, s', em, e, h'⟩ := key len (by omega)
    exact ⟨s', by simp only [erase, getbuf_eq h, Option.bind_eq_bind, Option.bind_some, guard_pos hp, if_neg hl, em, e], h'⟩

theorem shrink_rep {bs : List Byte} {s : Str} (h : Rep bs s) :
    ∃ s' d', shrink s = some s' ∧ RepIn bs s' d' (max 22 bs.length) := by
  obtain ⟨d, cap, h⟩ := h
  have hf := h.fits; have hl := h.shape.len; have hcg := h.shape.cap_ge
  simp only [shrink, getbuf_eq h, Option.bind_eq_bind, Option.bind_some]
  have hsc : sCap = 22 := rfl
  by_cases h1 : bs.length = cap
  · rw [if_pos h1]
    refine ⟨s, d, rfl, ?_⟩
    rw [show max 22 bs.length = cap by omega]; exact h
  · rw [if_neg h1]
    by_cases h2 : bs.length > sCap
    · rw [if_pos h2]
      have hs := h.shape
      have hz := h.sized
      cases s with
      | null n c => simp [Shape] at hs
      | short d0 => simp only [Shape] at hs; omega
      | long d0 n c =>
      obtain ⟨rfl, rfl, _, _⟩ := hs
      simp only [Sized] at hz
      refine ⟨.long (realloc d0 (bs.length + 1)) n bs.length, realloc d0 (bs.length + 1), rfl, ⟨⟨rfl, by omega, ?_, by omega⟩, hz, by omega, ?_, ?_⟩⟩
      · rw [realloc_length]; omega
      · rw [realloc_take _ (by omega) (by omega), h.bytes]
      · rw [realloc_get _ (by omega) (by omega), h.nul]
    · rw [if_neg h2]
      rw [show max 22 bs.length = 22 by omega]
      by_cases h3 : cap > sCap
      · rw [if_pos h3]
        have hg : get d 0 (bs.length + 1) = some (bs.map some ++ [some 0#8]) := by
          rw [get, if_pos (by omega), List.drop_zero, take_succ_get h.nul, h.bytes]
        have ep := put_ok (d := List.replicate 24 none) (cs := bs.map some ++ [some 0#8]) (i := 0) (by simp; omega)
        generalize (List.replicate 24 none).take 0 ++ (bs.map some ++ [some 0#8]) ++ (List.replicate 24 none).drop (0 + (bs.map some ++ [some 0#8]).length) = d1 at ep
        have hpl := put_length ep
        have htk : d1.take bs.length = bs.map some := by
          have := put_take_add ep
          have := congrArg (List.take bs.length) this
          rw [List.take_take, List.take_zero, List.nil_append] at this
          rw [show min bs.length (0 + (bs.map some ++ [some 0#8]).length) = bs.length by simp] at this
          rw [this, List.take_left' (by simp)]
        obtain ⟨s', e, d', h'⟩ := setSize_rep (s := .short d1) (d := d1) (cap := 22) bs ⟨rfl, by simpa using hpl, rfl⟩ (by omega) htk
        exact ⟨s', d', by simp only [hg, Option.bind_some, ep, e], h'⟩
      · rw [if_neg h3]
        refine ⟨s, d, rfl, ?_⟩
        rw [show (22 : Nat) = cap by omega]; exact h

theorem appendUninit_rep {bs : List Byte} {s : Str} (h : Rep bs s) (xs : List Byte) :
    ∃ s', appendUninit xs s = some s' ∧ Rep (bs ++ xs) s' := by
  obtain ⟨d, cap, h⟩ := h
  have room : ∃ s1 d1 c1, (∃ m, (if bs.length + xs.length > cap then reserve true (bs.length * 3 / 2 + xs.length) s
      else some (s, false)) = some (s1, m)) ∧ RepIn bs s1 d1 c1 ∧ bs.length + xs.length ≤ c1 := by
    by_cases hc : bs.length + xs.length > cap
    · obtain ⟨s1, m, d1, e, hr, _⟩ := reserve_rep h (bs.length * 3 / 2 + xs.length)
      exact ⟨s1, d1, _, ⟨m, by rw [if_pos hc, e]⟩, hr, by omega⟩
    · exact ⟨s, d, cap, ⟨false, by rw [if_neg hc]⟩, h, by omega⟩
  obtain ⟨s1, d1, c1, ⟨m, e⟩, hr, hc⟩ := room
  obtain ⟨s2, d2, e2, hsh, hz, ht, hnul, hp⟩ := setSize_shape (len := bs.length + xs.length) hr.shape hc
  have hl := hsh.len
  have ep := put_ok (d := d2) (cs := xs.map some) (i := bs.length) (by simp; omega)
  generalize d2.take bs.length ++ xs.map some ++ d2.drop (bs.length + (xs.map some).length) = d3 at ep
  refine ⟨setBuf d3 s2, by simp only [appendUninit, getbuf_eq h, Option.bind_eq_bind, Option.bind_some, e, e2, hsh.data_eq, ep],
    d3, c1, setBuf_put_rep (xs := xs) hsh (by simpa using hz) (by simpa using hc) (by simpa using hnul) ep (by simp) ?_⟩
  have hA := put_take_add ep
  rw [List.length_append]
  rw [List.length_map] at hA
  rw [hA, List.map_append]
  congr 1
  have := congrArg (List.take bs.length) ht
  rw [List.take_take, List.take_take, show min bs.length (bs.length + xs.length) = bs.length by omega] at this
  rw [this, hr.bytes]

theorem vfmt_rep {bs : List Byte} {s : Str} (h : Rep bs s) (out : List Byte) :
    (∃ s', printf out s = some s' ∧ Rep out s') ∧ (∃ s', appendFmt out s = some s' ∧ Rep (bs ++ out) s') := by
  obtain ⟨d, cap, h⟩ := h
  have key : ∀ pre, d.take pre = (bs.take pre).map some → pre ≤ bs.length →
      ∃ s', vfmt pre out s = some s' ∧ Rep (bs.take pre ++ out) s' := by
    intro pre _ hpre
    have hpl : (bs.take pre).length = pre := by simp; omega
    obtain ⟨s1, m, d1, e, hr, _⟩ := reserve_rep h (pre + out.length)
    have hl := hr.shape.len
    have ep := put_ok (d := d1) (cs := (out ++ [0#8]).map some) (i := pre) (by simp; omega)
    generalize d1.take pre ++ (out ++ [0#8]).map some ++ d1.drop (pre + ((out ++ [0#8]).map some).length) = d2 at ep
    have ht := put_take_add ep
    have htk : d2.take (pre + out.length) = (bs.take pre ++ out).map some := by
      have := congrArg (List.take (pre + out.length)) ht
      rw [List.take_take, List.map_append, ← List.append_assoc, List.length_append, List.length_map, List.length_map, List.length_singleton,
        show min (pre + out.length) (pre + (out.length + 1)) = pre + out.length by omega,
        List.take_left' (by simp; omega)] at this
      rw [this, List.map_append]
      congr 1
      rw [List.map_take, ← hr.bytes, List.take_take]; congr 1; omega
    have hlen : (bs.take pre ++ out).length = pre + out.length := by simp; omega
    obtain ⟨s', e', d', h'⟩ := setSize_rep (bs.take pre ++ out) (hr.shape.put (put_length ep)) (by omega) (by rw [hlen]; exact htk)
    rw [hlen] at e'
    exact ⟨s', by simp only [vfmt, e, Option.bind_eq_bind, Option.bind_some, hr.shape.data_eq, ep, e'], d', _, h'⟩
  constructor
  · obtain ⟨s', e, h'⟩ := key 0 (by simp) (by omega)
    exact ⟨s', e, by simpa using h'⟩
  · obtain ⟨s', e, h'⟩ := key bs.length (by rw [List.take_length]; exact h.bytes) (Nat.le_refl _)
    rw [List.take_length] at h'
    exact ⟨s', by simp only [appendFmt, size_eq ⟨d, cap, h⟩, Option.bind_eq_bind, Option.bind_some, e], h'⟩

theorem delimLoop_rep (delim : Byte) : ∀ (file xs : List Byte) (s : Str) (d : List Cell) (cap : Nat),
    Shape d cap s → d.take xs.length = xs.map some → xs.length ≤ cap →
    ∃ s', delimLoop delim file xs.length cap s = some (s', (file.dropWhile (· ≠ delim)).tail) ∧
      Rep (xs ++ file.takeWhile (· ≠ delim)) s' := by
  intro file
  induction file with
  | nil =>
    intro xs s d cap h ht hc
    obtain ⟨s', e, d', h'⟩ := setSize_rep xs h hc ht
    exact ⟨s', by simp only [delimLoop, e, Option.bind_eq_bind, Option.bind_some]; rfl, by simpa using ⟨d', cap, h'⟩⟩
  | cons c file ih =>
    intro xs s d cap h ht hc
    by_cases hcd : c = delim
    · obtain ⟨s', e, d', h'⟩ := setSize_rep xs h hc ht
      refine ⟨s', ?_, by simpa [hcd] using ⟨d', cap, h'⟩⟩
      rw [delimLoop, if_pos hcd, List.dropWhile_cons_of_neg (by simpa using hcd), List.tail_cons]
      simp only [e, Option.bind_eq_bind, Option.bind_some]
    · have room : ∃ s1 d1 c1, delimRoom xs.length cap s = some (s1, c1) ∧ Shape d1 c1 s1 ∧
          d1.take xs.length = xs.map some ∧ xs.length < c1 := by
        by_cases hp : xs.length = cap
        · obtain ⟨s', e, d', h'⟩ := setSize_rep xs h hc ht
          obtain ⟨s2, m, d2, e2, hr, _⟩ := reserve_rep h' (cap * 3 / 2 + 16)
          rw [show max cap (cap * 3 / 2 + 16) = cap * 3 / 2 + 16 by omega] at hr
          exact ⟨s2, d2, _, by simp only [delimRoom, if_pos hp, e, Option.bind_eq_bind, Option.bind_some, e2], hr.shape, hr.bytes, by omega⟩
        · exact ⟨s, d, cap, by rw [delimRoom, if_neg hp], h, ht, by omega⟩
      obtain ⟨s1, d1, c1, e, hsh, ht1, hlt⟩ := room
      have hl := hsh.len
      have ep := put_ok (d := d1) (cs := [some c]) (i := xs.length) (by simp; omega)
      generalize d1.take xs.length ++ [some c] ++ d1.drop (xs.length + [some c].length) = d2 at ep
      have hA := put_take_add ep
      obtain ⟨s', e', h'⟩ := ih (xs ++ [c]) (setBuf d2 s1) d2 c1 (hsh.put (put_length ep))
        (by rw [List.length_append, List.length_singleton, List.map_append, ← ht1]; exact hA) (by simp; omega)
      rw [List.length_append, List.length_singleton] at e'
      refine ⟨s', ?_, by rw [List.takeWhile_cons_of_pos (by simpa using hcd)]; simpa using h'⟩
      rw [delimLoop, if_neg hcd, List.dropWhile_cons_of_pos (by simpa using hcd)]
      simp only [e, Option.bind_eq_bind, Option.bind_some, hsh.data_eq, ep, e']

theorem getdelim_rep {bs : List Byte} {s : Str} (h : Rep bs s) (delim : Byte) (file : List Byte) (hf : file ≠ []) :
    ∃ s', getdelim delim file s = some (true, s', (file.dropWhile (· ≠ delim)).tail) ∧
      Rep (file.takeWhile (· ≠ delim)) s' := by
  obtain ⟨d, cap, h⟩ := h
  obtain ⟨s', e, h'⟩ := delimLoop_rep delim file [] s d cap h.shape (by simp) (by simp)
  refine ⟨s', ?_, by simpa using h'⟩
  cases file with
  | nil => exact absurd rfl hf
  | cons c file =>
    simp only [getdelim, getbuf_eq h, Option.bind_eq_bind, Option.bind_some]
    rw [List.length_nil] at e
    rw [e]; rfl

/-- Items each preceded by `sep`, except that the first is preceded by `cur`. -/
def glue (sep : List Byte) : List Byte → List (List Byte) → List Byte
  | _, [] => []
  | cur, x :: xs => cur ++ x ++ glue sep sep xs

theorem joinLoop_rep (sep : List Byte) (js : List Byte) (hs0 : 0#8 ∉ sep) :
    ∀ (arr : List (List Byte)) (cur jc : List Byte) (bs : List Byte) (s : Str), Rep bs s → 0#8 ∉ cur →
    (∀ x ∈ arr, 0#8 ∉ x) →
    ∃ s', joinLoop (sep ++ 0#8 :: js) (cur ++ 0#8 :: jc) (arr.map (· ++ [0#8])) s = some s' ∧
      Rep (bs ++ glue sep cur arr) s' := by
  intro arr
  induction arr with
  | nil => intro cur jc bs s h _ _; exact ⟨s, rfl, by simpa [glue] using h⟩
  | cons x xs ih =>
    intro cur jc bs s h hc hx
    obtain ⟨s1, e1, h1⟩ := appendN_rep h (src := .ext (cur ++ 0#8 :: jc)) (n := cur.length) (by simp [Src.ok])
    obtain ⟨s2, e2, h2⟩ := appendN_rep h1 (src := .ext (x ++ [0#8])) (n := x.length) (by simp [Src.ok])
    simp only [Src.bytes, List.take_left] at h1 h2
    obtain ⟨s3, e3, h3⟩ := ih sep js _ s2 h2 hs0 (fun y hy => hx y (List.mem_cons_of_mem _ hy))
    refine ⟨s3, ?_, ?_⟩
    · simp only [List.map_cons, joinLoop, strlen_eq jc cur hc, Option.bind_eq_bind, Option.bind_some, e1,
        strlen_eq [] x (hx x (List.mem_cons_self)), e2, e3]
    · simpa [List.append_assoc, glue] using h3

theorem push_rep {bs : List Byte} {s : Str} (h : Rep bs s) {m : List Byte} {k : Nat} (hk : chrSize m = some k)
    (hl : k ≤ m.length) : ∃ s', push m s = some s' ∧ Rep (bs ++ m.take k) s' := by
  obtain ⟨s', e, h'⟩ := appendN_rep h (src := .ext m) (n := k) hl
  exact ⟨s', by simp only [push, hk, e, Option.bind_eq_bind, Option.bind_some], h'⟩

/-- Shortening a string. -/
theorem cut_rep {bs : List Byte} {s : Str} (h : Rep bs s) {n : Nat} (hn : n ≤ bs.length) :
    ∃ s', setSize n s = some s' ∧ Rep (bs.take n) s' := by
  obtain ⟨d, cap, h⟩ := h
  have hf := h.fits
  have hl : (bs.take n).length = n := by simp; omega
  obtain ⟨s', e, d', h'⟩ := setSize_rep (bs.take n) h.shape (by omega) (by
    rw [hl, List.map_take, ← h.bytes, List.take_take]; congr 1; omega)
  rw [hl] at e
  exact ⟨s', e, d', cap, h'⟩

theorem popLoop_spec (r t : List Byte) (b : Byte) (hb : lead b = true) (hr : ∀ x ∈ r, lead x = false) :
    popLoop (r ++ b :: t) = some (r.length + 1) := by
  induction r with
  | nil => simp [popLoop, hb]
  | cons x r ih =>
    rw [List.cons_append, popLoop, if_neg (by simp [hr x List.mem_cons_self]), ih (fun y hy => hr y (List.mem_cons_of_mem _ hy))]
    rfl

theorem pop_rep {pre tl : List Byte} {b : Byte} {s : Str} (h : Rep (pre ++ b :: tl) s) (hb : lead b = true)
    (ht : ∀ x ∈ tl, lead x = false) : ∃ s', pop s = some s' ∧ Rep pre s' := by
  have hp := popLoop_spec tl.reverse pre.reverse b hb (by simpa using ht)
  have hr : (pre ++ b :: tl).reverse = tl.reverse ++ b :: pre.reverse := by simp
  obtain ⟨s', e, h'⟩ := cut_rep h (n := pre.length) (by simp)
  rw [List.take_left] at h'
  refine ⟨s', ?_, h'⟩
  simp only [pop, mem_eq h, size_eq h, Option.bind_eq_bind, Option.bind_some, List.take_left, hr, hp]
  rw [show (pre ++ b :: tl).length - (tl.reverse.length + 1) = pre.length by simp]
  exact e

theorem u8Erase_rep {bs : List Byte} {s : Str} (h : Rep bs s) {pos len o k : Nat}
    (e : Utf8.subview (bs ++ [0#8]) pos len = some (o, k)) (hk : o + k ≤ bs.length) :
    ∃ s', u8Erase pos len s = some s' ∧ Rep (bs.take o ++ bs.drop (o + k)) s' := by
  have hm := mem_eq h
  obtain ⟨d, cap, h⟩ := h
  have hf := h.fits
  obtain ⟨d1, em, hl, ht, htl⟩ := move_core h (pos1 := o + k) (pos2 := o) hk (by omega)
  have hlen : (bs.take o ++ bs.drop (o + k)).length = bs.length - k := by simp; omega
  obtain ⟨s', e', d', h'⟩ := setSize_rep (bs.take o ++ bs.drop (o + k)) (h.shape.put hl) (by omega) (by
    rw [hlen, show bs.length - k = o + (bs.length - (o + k)) by omega, take_split htl, ht, List.map_append]
    congr 1
    rw [List.map_take, ← h.bytes, List.take_take]; congr 1; omega)
  rw [hlen] at e'
  refine ⟨s', ?_, d', cap, h'⟩
  simp only [u8Erase, hm, getbuf_eq h, Option.bind_eq_bind, Option.bind_some, e, guard_pos hk]
  rw [show bs.length - k - o = bs.length - (o + k) by omega, em]
  simp only [Option.bind_some, e']

theorem replaceLoop_rep (search repl js jr : List Byte) (hs : search ≠ []) (f : Nat) :
    ∀ (count : Nat) (inp j : List Byte) (out : Str) (o : List Byte), inp.length < f → Rep o out →
    ∃ s' rest x, replaceLoop (search ++ js) search.length (repl ++ jr) repl.length f count (inp ++ j) inp.length out =
        some (s', rest ++ j, rest.length) ∧ Rep (o ++ x) s' ∧
      (∀ P : Nat → List Byte → List Byte → Prop, (∀ s, P 0 s s) → (∀ n s, ¬ search <:+: s → P n s s) →
        (∀ n p t r, (∀ i < p.length, ¬ search <+: (p ++ search ++ t).drop i) → P n t r →
          P (n + 1) (p ++ search ++ t) (p ++ repl ++ r)) → P count inp (x ++ rest)) := by
  induction f with
  | zero => intro count inp j out o h _; omega
  | succ f ih =>
    intro count inp j out o hf ho
    rw [replaceLoop]
    by_cases hc : count = 0
    · subst hc
      exact ⟨out, inp, [], by rw [if_pos rfl], by simpa using ho, fun P h0 _ _ => by simpa using h0 inp⟩
    · rw [if_neg hc]
      obtain ⟨r, e, hn, hsm⟩ := strnstrn_spec inp search j js
      cases r with
      | none =>
        refine ⟨out, inp, [], by simp only [e, Option.bind_eq_bind, Option.bind_some], by simpa using ho, fun P _ h1 _ => ?_⟩
        simp only [List.nil_append]
        apply h1
        rintro ⟨a, b, hab⟩
        refine hn rfl a.length (by rw [← hab]; simp) ?_
        rw [← hab]; simp
      | some pos =>
        obtain ⟨h1, h2, h3⟩ := hsm pos rfl
        have hsl : 0 < search.length := List.length_pos_iff.2 hs
        obtain ⟨t, ht⟩ := h2
        have hin : inp = inp.take pos ++ search ++ t := by
          rw [List.append_assoc, ht, List.take_append_drop]
        have htk : (inp.take pos).length = pos := by simp; omega
        obtain ⟨o1, e1, r1⟩ := appendN_rep ho (src := .ext (inp ++ j)) (n := pos) (by simp [Src.ok]; omega)
        obtain ⟨o2, e2, r2⟩ := appendN_rep r1 (src := .ext (repl ++ jr)) (n := repl.length) (by simp [Src.ok])
        simp only [Src.bytes, List.take_left] at r1 r2
        rw [List.take_append_of_le_length (by omega)] at r1 r2
        have hd : (inp ++ j).drop (pos + search.length) = t ++ j := by
          rw [List.drop_append_of_le_length (by omega)]
          congr 1
          rw [← List.drop_drop, ← ht, List.drop_left]
        have htl : inp.length - (pos + search.length) = t.length := by
          have := congrArg List.length ht
          simp at this; omega
        obtain ⟨s', rest, x, e3, r3, hP⟩ := ih (count - 1) t j o2 _ (by omega) r2
        refine ⟨s', rest, inp.take pos ++ repl ++ x, ?_, ?_, ?_⟩
        · simp only [e, Option.bind_eq_bind, Option.bind_some, e1, e2, hd, htl, e3]
        · simpa [List.append_assoc] using r3
        · intro P h0 hab hh
          have := hh (count - 1) (inp.take pos) t (x ++ rest) (by
            intro i hi
            rw [← hin]; exact h3 i (by omega)) (hP P h0 hab hh)
          rw [← hin, Nat.sub_add_cancel (by omega)] at this
          simpa [List.append_assoc] using this

theorem tocaseLoop_all (k : Case) : ∀ (f : Nat) (m : List Byte) (cs : List Nat) (d : List Cell) (xs : List Byte),
    decodeAll f m = some cs → d.take xs.length = xs.map some →
    (xs.length + (cs.flatMap k.bytes).length ≤ d.length →
      ∃ d', tocaseLoop k f m d xs.length = some (d', (xs ++ cs.flatMap k.bytes).length) ∧
        d'.length = d.length ∧ d'.take (xs ++ cs.flatMap k.bytes).length = (xs ++ cs.flatMap k.bytes).map some) ∧
    (∀ r, tocaseLoop k f m d xs.length = some r →
      r.1.length = d.length ∧ r.2 = xs.length + (cs.flatMap k.bytes).length) := by
  intro f
  induction f with
  | zero =>
    intro m cs d xs hd ht
    cases m with
    | cons b m => simp [decodeAll] at hd
    | nil =>
      simp only [decodeAll, Option.some.injEq] at hd
      subst hd
      refine ⟨fun _ => ⟨d, by simp [tocaseLoop], rfl, by simpa using ht⟩, fun r h => ?_⟩
      simp only [tocaseLoop, Option.some.injEq] at h
      subst h; simp
  | succ f ih =>
    intro m cs d xs hd ht
    cases m with
    | nil =>
      simp only [decodeAll, Option.some.injEq] at hd
      subst hd
      refine ⟨fun _ => ⟨d, by simp [tocaseLoop], rfl, by simpa using ht⟩, fun r h => ?_⟩
      simp only [tocaseLoop, Option.some.injEq] at h
      subst h; simp
    | cons b m =>
      simp only [decodeAll, Option.bind_eq_bind, Option.bind_eq_some_iff, Prod.exists, Option.some.injEq] at hd
      obtain ⟨c, n, e, cs', e', rfl⟩ := hd
      rw [List.flatMap_cons]
      constructor
      · intro hl
        have ep := put_ok (d := d) (cs := (k.bytes c).map some) (i := xs.length) (by simp at hl ⊢; omega)
        generalize d.take xs.length ++ (k.bytes c).map some ++ d.drop (xs.length + ((k.bytes c).map some).length) = d1 at ep
        have hA := put_take_add ep
        rw [List.length_map, ht, ← List.map_append] at hA
        have hpl := put_length ep
        obtain ⟨d', er, h1, h2⟩ := (ih _ cs' d1 (xs ++ k.bytes c) e' (by rw [List.length_append]; exact hA)).1
          (by simp only [List.length_append] at hl ⊢; omega)
        refine ⟨d', ?_, by omega, by rw [← List.append_assoc]; exact h2⟩
        rw [← List.append_assoc, ← er]
        simp only [tocaseLoop, e, Option.bind_eq_bind, Option.bind_some, ep, List.length_append]
      · intro r hr
        simp only [tocaseLoop, e, Option.bind_eq_bind, Option.bind_some, Option.bind_eq_some_iff] at hr
        obtain ⟨d1, ep, hr⟩ := hr
        have hA := put_take_add ep
        rw [List.length_map, ht, ← List.map_append] at hA
        have := (ih _ cs' d1 (xs ++ k.bytes c) e' (by rw [List.length_append]; exact hA)).2 r (by
          rw [List.length_append]; exact hr)
        rw [put_length ep, List.length_append] at this
        exact ⟨this.1, by rw [this.2, List.length_append]; omega⟩

end Verif.Cstr
