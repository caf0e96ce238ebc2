import Verif.Fmt.Read
/-
Properties of fmt.h: what formats mean, which are rejected, the buffer, the stream.
-/
namespace Verif.Fmt
open Spec

theorem fc_codes (ts : List CType) : Codes (ts.map fc) := by
  intro a ha
  obtain ⟨t, -, rfl⟩ := List.mem_map.1 ha
  cases t <;> decide

/-- The buffer decides only whether the result exists. -/
theorem parse_exact {s junk : List Char} {ts : List CType} (hz : ∀ c ∈ s, c ≠ nul) (hts : ts.length ≤ 12) :
    ∃ n full, (∀ cap, parse cap (s ++ nul :: junk) (ts.map fc) =
        if full.length ≤ cap then some (n, full) else none) ∧
      full.length ≤ s.length + s.count '%' + 7 * ts.length + 1 ∧
      ((∃ ps : List Piece, (∀ p ∈ ps, p.Ok) ∧ text ps = s ∧ n = uses ps ∧
        (n ≤ ts.length → full = outs ps (ts.map fc) ++ [nul])) ∨
        ts.length < n ∧ ∀ ps : List Piece, (∀ p ∈ ps, p.Ok) → text ps = s → ts.length < uses ps) := by
  set big := s.length + s.count '%' + 7 * ts.length + 1 with hbig
  obtain ⟨st, he, hr⟩ := loop_total (cap := big) (nargs := ts.length) (junk := junk) (by omega)
    ((s ++ nul :: junk).length + 1) s ⟨0, ts.map fc, []⟩ (by simp; omega) hz
    (by intro _; exact ⟨by simp, fc_codes ts⟩) (by simp only [List.length_nil]; omega)
  refine ⟨st.n, st.out, ?_, ?_, ?_⟩
  · intro cap
    unfold parse
    rw [List.length_map]
    by_cases hl : st.out.length ≤ cap
    · rw [if_pos hl, (loop_small (cap := cap) he).2 hl]; rfl
    · rw [if_neg hl]
      cases hc : loop cap ts.length ((s ++ nul :: junk).length + 1) (s ++ nul :: junk) ⟨0, ts.map fc, []⟩ with
      | none => rfl
      | some st' =>
        obtain ⟨h1, h2⟩ := loop_mono (cap' := max cap big) (by omega) hc
        obtain ⟨h3, -⟩ := loop_mono (cap' := max cap big) (by omega) he
        rw [h1] at h3
        cases h3
        exact absurd h2 hl
  · exact (loop_mono (Nat.le_refl _) he).2
  · rcases hr with ⟨ps, h1, h2, h3, h4⟩ | h
    · exact .inl ⟨ps, h1, h2, by simpa using h3, by simpa using h4⟩
    · exact .inr ⟨h.1, by simpa using h.2⟩

theorem elem_piece_ok {e : Elem} (h : e.Ok) : e.piece.Ok := by
  cases e with
  | lit c => exact h
  | field colon m => exact ⟨fun c hc => show_chars h.1 hc, h.2⟩

theorem show_no_nul {p : Piece} (h : p.Ok) : ∀ c ∈ p.show, c ≠ nul := by
  intro c hc
  cases p with
  | lit d =>
    simp only [Piece.show] at hc
    split at hc
    · simp at hc; subst hc; decide
    · split at hc
      · simp at hc; subst hc; decide
      · simp at hc; subst hc; exact h
  | field colon mods =>
    simp only [Piece.show, List.mem_cons, List.mem_append, List.not_mem_nil, or_false] at hc
    rcases hc with rfl | (hc | hc) | rfl
    · decide
    · cases colon <;> simp at hc; subst hc; decide
    · exact (h.1 c hc).1
    · decide

theorem text_no_nul {ps : List Piece} (h : ∀ p ∈ ps, p.Ok) : ∀ c ∈ text ps, c ≠ nul := by
  intro c hc
  obtain ⟨p, hp, hc⟩ := List.mem_flatMap.1 hc
  exact show_no_nul (h p hp) c hc

theorem outs_room : ∀ (es : List Elem) (ts : List CType),
    (outs (es.map Elem.piece) (ts.map fc)).length ≤ room es
  | [], ts => by simp [outs]
  | .lit c :: es, ts => by
    have := outs_room es ts
    simp only [List.map_cons, Elem.piece, outs, List.length_append, room, List.sum_cons, Elem.room] at this ⊢
    split <;> simp <;> omega
  | .field colon m :: es, ts => by
    simp only [List.map_cons, Elem.piece, outs, List.length_append, room, List.sum_cons, Elem.room]
    have ih := outs_room es (ts.drop (Piece.field colon m.show).uses)
    rw [List.map_drop] at ih
    have hcode : (((ts.map fc)[(Piece.field colon m.show).uses - 1]?).getD []).length ≤ 3 := by
      cases h : (ts.map fc)[(Piece.field colon m.show).uses - 1]? with
      | none => simp
      | some a => exact fc_codes ts a (List.mem_of_getElem? h)
    have hf : ∀ a : List Char, a.length ≤ 3 → (fieldOut colon m.show a).length ≤ m.show.length + 8 := by
      intro a ha
      have h1 := modsOut_len m.show
      have h2 := precOut_len (decide (m.show = [])) a
      have h3 := strip_len a
      have h4 : (fieldBody colon m.show a).length ≤ m.show.length + 6 := by
        simp only [fieldBody, List.length_append]
        have h5 : ∀ (p : Prop) [Decidable p], (if p then [] else strip a).length ≤ 3 := by
          intro p _
          split
          · simp
          · omega
        have := h5 ((m.show.getLast?).getD (if colon = true then ':' else '{') ∈ convs)
        omega
      simp only [fieldOut, List.length_cons]
      split
      · simp only [List.length_cons]; omega
      · omega
    have := hf _ hcode
    simp only [room] at ih
    omega

theorem takeWhile_nul {l : List Char} (h : ∀ c ∈ l, c ≠ nul) (r : List Char) :
    (l ++ nul :: r).takeWhile (· ≠ nul) = l := by
  obtain ⟨h1, -⟩ := takeWhile_stop (p := fun c => decide (c ≠ nul)) (l := l) (r := nul :: r)
    (by simpa using h) (by simp)
  exact h1

/-- C122, formats with arguments. For every documented format whose fields take as many arguments as are
given, `printf` is called with a format that it reads exactly as meant: each character for itself, each field
as the conversion for its argument. It is called unless that format is too long for the buffer, in which
case the behaviour is undefined. -/
theorem fmt_conversions_partial {es : List Elem} {ts : List CType} {junk : List Char} (hok : ∀ e ∈ es, e.Ok)
    (hu : uses (es.map Elem.piece) = ts.length) (h1 : 1 ≤ ts.length) (h12 : ts.length ≤ 12) :
    ∃ f, directives f = some (meant es ts) ∧ f.length ≤ room es ∧
      printd (text (es.map Elem.piece) ++ nul :: junk) ts =
        if f.length < FMT_MAX then some (.print f) else none := by
  have hpok : ∀ p ∈ es.map Elem.piece, p.Ok := by
    intro p hp
    obtain ⟨e, he, rfl⟩ := List.mem_map.1 hp
    exact elem_piece_ok (hok e he)
  obtain ⟨n, full, hparse, -, hres⟩ := parse_exact (junk := junk) (text_no_nul hpok) h12
  refine ⟨outs (es.map Elem.piece) (ts.map fc), ?_, outs_room es ts, ?_⟩
  · exact readFmt_outs es ts _ hok (by omega) (by omega)
  · have hn := outs_no_nul es ts hok (by omega)
    have hres' : n = ts.length ∧ full = outs (es.map Elem.piece) (ts.map fc) ++ [nul] := by
      rcases hres with ⟨ps, g1, g2, g3, g4⟩ | hbad
      · have := text_inj g1 hpok g2
        subst this
        have : n = ts.length := by omega
        exact ⟨this, g4 (by omega)⟩
      · have := hbad.2 _ hpok rfl
        omega
    obtain ⟨rfl, rfl⟩ := hres'
    unfold printd
    rw [hparse]
    simp only [List.length_append, List.length_singleton]
    have hne : ts ≠ [] := by rintro rfl; simp at h1
    by_cases hl : (outs (es.map Elem.piece) (ts.map fc)).length < FMT_MAX
    · rw [if_pos hl, if_pos (by omega)]
      simp only [Option.map_some, ne_eq, not_true, if_false, if_neg hne]
      rw [takeWhile_nul hn]
    · rw [if_neg hl, if_neg (by omega)]
      rfl

/-- A field with a width and one without modifiers, for a string and a `double`. -/
def exElems : List Elem :=
  [.lit '{', .field true ⟨some false, [], ['1', '0'], none, none⟩, .lit '%', .field false ⟨none, [], [], none, none⟩]

theorem exElems_ok : ∀ e ∈ exElems, e.Ok := by
  intro e he
  simp only [exElems, List.mem_cons, List.not_mem_nil, or_false] at he
  rcases he with rfl | rfl | rfl | rfl
  · exact (by decide : '{' ≠ nul)
  · exact ⟨⟨by simp, .inr (by decide), by decide, by simp, by simp⟩, by simp⟩
  · exact (by decide : '%' ≠ nul)
  · exact ⟨⟨by simp, .inr (by simp), by decide, by simp, by simp⟩, fun _ => rfl⟩

example : text (exElems.map Elem.piece) = "{{{:>10}%{}".toList := by decide
example : uses (exElems.map Elem.piece) = [CType.str, CType.double].length := by decide
example : printd ("{{{:>10}%{}".toList ++ [nul]) [.str, .double] = some (.print "{%10s%%%.16g".toList) := by
  decide +kernel
example : meant exElems [.str, .double] = [.lit '{', .conv { width := some (.lit 10), conv := 's' }, .lit '%',
    .conv { prec := some (.lit 16), conv := 'g' }] := by decide +kernel

/-- The conversion of a field without a specifier of its own suits the type of its argument, with any
alignment, flags, width and precision. -/
theorem fmt_types_fit {m : Mods} {t : CType} (h : m.conv = none) : Fits (meaning m t) t := by
  have h1 : (meaning m t).len = (natural t).1 := by simp [meaning, h]
  have h2 : (meaning m t).conv = (natural t).2 := by simp [meaning, h]
  unfold Fits
  cases t <;> simp only [h1, h2, natural] <;> decide

/-- With a specifier of its own it suits the argument exactly if the length modifier written before it does:
nothing is added for `long` and larger types. -/
theorem fmt_explicit {m : Mods} {t : CType} {l : List Char} {c : Char} (h : m.conv = some (l, c)) :
    Fits (meaning m t) t ↔ Fits { len := l, conv := c } t := by
  have h1 : (meaning m t).len = l := by simp [meaning, h]
  have h2 : (meaning m t).conv = c := by simp [meaning, h]
  unfold Fits
  cases t <;> simp only [h1, h2]

/-- `{:x}` does not suit any integer wider than `int`. -/
theorem fmt_explicit_wide {m : Mods} {c : Char} (h : m.conv = some ([], c)) :
    ∀ t ∈ [CType.long, .ulong, .llong, .ullong, .ldouble], ¬ Fits (meaning m t) t := by
  intro t ht
  rw [fmt_explicit h]
  simp only [List.mem_cons, List.not_mem_nil, or_false] at ht
  rcases ht with rfl | rfl | rfl | rfl | rfl <;> simp [Fits]

/-- C122, formats without arguments: the text is printed as it is, which is right if it has no brace and
no percent sign. -/
theorem fmt_plain_partial {s junk : List Char} (h : ∀ c ∈ s, c ≠ nul ∧ c ≠ '{' ∧ c ≠ '}' ∧ c ≠ '%')
    (hl : s.length < FMT_MAX) :
    printd (s ++ nul :: junk) [] = some (.print s) ∧ directives s = some (s.map .lit) := by
  have hz : ∀ c ∈ s, c ≠ nul := fun c hc => (h c hc).1
  have htext : text (s.map .lit) = s := by
    clear hl hz
    induction s with
    | nil => rfl
    | cons c cs ih =>
      obtain ⟨-, h1, h2, -⟩ := h c (by simp)
      rw [List.map_cons, text_cons, ih (fun x hx => h x (by simp [hx]))]
      simp [Piece.show, h1, h2]
  have huses : uses (s.map .lit) = 0 := by
    clear htext h hl hz
    induction s with
    | nil => rfl
    | cons c cs ih => simpa [uses, Piece.uses] using ih
  have hok : ∀ p ∈ s.map Piece.lit, p.Ok := by
    intro p hp
    obtain ⟨c, hc, rfl⟩ := List.mem_map.1 hp
    exact hz c hc
  have hcount : s.count '%' = 0 := List.count_eq_zero.2 (fun hm => (h _ hm).2.2.2 rfl)
  obtain ⟨n, full, hparse, hfl, hres⟩ := parse_exact (ts := []) (junk := junk) hz (by simp)
  have hn : n = 0 := by
    rcases hres with ⟨ps, g1, g2, g3, -⟩ | hbad
    · rw [← htext] at g2
      rw [text_inj g1 hok g2, huses] at g3
      exact g3
    · have := hbad.2 _ hok htext
      omega
  refine ⟨?_, ?_⟩
  · unfold printd
    rw [hparse, if_pos (by simp only [List.length_nil] at hfl; omega)]
    simp only [Option.map_some, hn, List.length_nil, ne_eq, not_true, if_false, if_true]
    rw [takeWhile_nul hz]
  · have key : ∀ fuel, s.length < fuel → readFmt fuel s = some (s.map .lit) := by
      clear hparse hfl hres hcount hok huses htext hl hz hn
      induction s with
      | nil => intro fuel hf; cases fuel with
        | zero => simp at hf
        | succ f => rfl
      | cons c cs ih =>
        intro fuel hf
        cases fuel with
        | zero => simp at hf
        | succ f =>
          rw [readFmt_lit (h c (by simp)).2.2.2, ih (fun x hx => h x (by simp [hx])) f (by simp at hf; omega)]
          rfl
    exact key _ (by omega)

example : printd ("Hello\n".toList ++ [nul]) [] = some (.print "Hello\n".toList) := by decide +kernel

/-- C122 is false without arguments: the documented `{{`, `}}` and `%` are not translated. `printf` is called
with the untranslated text: braces are printed twice, and a percent sign starts a conversion without argument. -/
theorem fmt_plain_wrong :
    printd ("{{}}".toList ++ [nul]) [] = some (.print "{{}}".toList) ∧
    directives "{{}}".toList = some [.lit '{', .lit '{', .lit '}', .lit '}'] ∧
    printd ("100%".toList ++ [nul]) [] = some (.print "100%".toList) ∧
    directives "100%".toList = none ∧
    printd ("5%d".toList ++ [nul]) [] = some (.print "5%d".toList) ∧
    directives "5%d".toList = some [.lit '5', .conv { conv := 'd' }] := by
  decide +kernel

/-- C123. A call is stopped by the assertion exactly if its format is malformed or does not take as many
arguments as are given. A text is a format in at most one way. -/
theorem fmt_detects {s junk : List Char} {ts : List CType} (hz : ∀ c ∈ s, c ≠ nul) (h12 : ts.length ≤ 12)
    (hd : printd (s ++ nul :: junk) ts ≠ none) :
    printd (s ++ nul :: junk) ts = some .abort ↔
      ¬ ∃ ps : List Piece, (∀ p ∈ ps, p.Ok) ∧ text ps = s ∧ uses ps = ts.length := by
  obtain ⟨n, full, hparse, -, hres⟩ := parse_exact (junk := junk) hz h12
  have hn : (n ≠ ts.length) ↔ ¬ ∃ ps : List Piece, (∀ p ∈ ps, p.Ok) ∧ text ps = s ∧ uses ps = ts.length := by
    rcases hres with ⟨ps, g1, g2, g3, -⟩ | hbad
    · constructor
      · rintro h ⟨qs, q1, q2, q3⟩
        rw [← g2] at q2
        rw [text_inj q1 g1 q2] at q3
        omega
      · intro h h'
        exact h ⟨ps, g1, g2, by omega⟩
    · constructor
      · rintro - ⟨qs, q1, q2, q3⟩
        have := hbad.2 qs q1 q2
        omega
      · intro _; omega
  unfold printd at hd ⊢
  rw [hparse] at hd ⊢
  by_cases hl : full.length ≤ FMT_MAX
  · rw [if_pos hl, ← hn]
    simp only [Option.map_some, Option.some.injEq]
    by_cases h : n ≠ ts.length
    · simp [h]
    · simp only [if_neg h, reduceCtorEq, false_iff]; exact h
  · rw [if_neg hl] at hd
    exact absurd rfl hd

theorem fmt_unique {ps qs : List Piece} (hp : ∀ p ∈ ps, p.Ok) (hq : ∀ p ∈ qs, p.Ok) (h : text ps = text qs) :
    ps = qs := text_inj hp hq h

example : printd ("{} {}".toList ++ [nul]) [.int] = some .abort := by decide +kernel
example : printd ("{".toList ++ [nul]) [.int] = some .abort := by decide +kernel
example : printd ("{:*}".toList ++ [nul]) [.int, .int] = some (.print "%*d".toList) := by decide +kernel

/-- C124. Whatever the text, a call stays inside the format, its arguments and the buffer if the text,
its percent signs counted twice, leaves seven characters for each argument. -/
theorem fmt_safe_partial {s junk : List Char} {ts : List CType} (hz : ∀ c ∈ s, c ≠ nul) (h12 : ts.length ≤ 12)
    (hl : s.length + s.count '%' + 7 * ts.length < FMT_MAX) : printd (s ++ nul :: junk) ts ≠ none := by
  obtain ⟨n, full, hparse, hfl, -⟩ := parse_exact (junk := junk) hz h12
  unfold printd
  rw [hparse, if_pos (by omega)]
  simp

example : ("{:>10} {:.3f} {}%".toList).length + ("{:>10} {:.3f} {}%".toList).count '%' +
    7 * [CType.str, .double, .int].length < FMT_MAX := by decide

/-- C124 is false for the documented limit of 127 characters: 64 percent signs overflow the buffer, also
without arguments, and so do 103 letters with 12 fields for `double` arguments (127 characters). -/
theorem fmt_overflow :
    printd (List.replicate 64 '%' ++ [nul]) [] = none ∧
    printd (List.replicate 103 'a' ++ (List.replicate 12 ['{', '}']).flatten ++ [nul])
      (List.replicate 12 .double) = none := by
  decide +kernel

/-! ## The stream -/

/-- A stream in use. -/
structure Live (ss : Stream) (t : List Char) : Prop where
  block : ∃ b, ss.data = some b ∧ b.length = ss.cap + 1 ∧ b.take (t.length + 1) = (t ++ [nul]).map some
  len : ss.len = t.length
  fits : ss.len ≤ ss.cap

theorem writeAt_ok {b : Buf Char} {pos : Nat} {t : List Char} (h : pos + t.length + 1 ≤ b.length) :
    ∃ b', writeAt b pos t = some b' ∧ b'.length = b.length ∧
      b'.take (pos + t.length + 1) = b.take pos ++ (t ++ [nul]).map some := by
  refine ⟨b.take pos ++ t.map some ++ some nul :: b.drop (pos + t.length + 1), ?_, ?_, ?_⟩
  · unfold writeAt; rw [if_pos h]
  · simp only [List.length_append, List.length_take, List.length_map, List.length_cons, List.length_drop]
    omega
  · have : b.take pos ++ t.map some ++ some nul :: b.drop (pos + t.length + 1) =
        (b.take pos ++ (t ++ [nul]).map some) ++ b.drop (pos + t.length + 1) := by simp
    rw [this]
    have hl : pos + t.length + 1 = (b.take pos ++ (t ++ [nul]).map some).length := by
      simp only [List.length_append, List.length_take, List.length_map, List.length_singleton]
      omega
    conv_lhs => rw [hl, List.take_left']

/-- Printing to a stream in use. -/
theorem sprint_live {ss : Stream} {old : List Char} (h : Live ss old) (t : List Char) :
    ∃ ss', sprint ss (some t) true = some ss' ∧ ss'.overwrite = ss.overwrite ∧
      Live ss' (if ss.overwrite then t else old ++ t) := by
  obtain ⟨⟨b, hb, hbl, hbt⟩, hlen, hfit⟩ := h
  have hold : b.take old.length = old.map some := by
    have := congrArg (List.take old.length) hbt
    rw [List.take_take, Nat.min_eq_left (by omega)] at this
    rw [this]; simp
  set pos := if ss.overwrite then 0 else ss.len with hpos
  have hpre : ∀ b' : Buf Char, b'.take old.length = old.map some →
      b'.take pos ++ (t ++ [nul]).map some =
        ((if ss.overwrite then t else old ++ t) ++ [nul]).map some := by
    intro b' hb'
    rw [hpos]
    cases ss.overwrite
    · simp only [Bool.false_eq_true, if_false, hlen, hb']; simp
    · simp
  have hnl : pos + t.length = (if ss.overwrite then t else old ++ t).length := by
    rw [hpos]
    cases ss.overwrite
    · simp [hlen]
    · simp
  have hpl : pos ≤ ss.len := by rw [hpos]; split <;> omega
  unfold sprint
  simp only [← hpos]
  by_cases hg : ss.cap < pos + t.length
  · simp only [if_pos hg, if_true, Option.bind_some, hb]
    have hrl : (realloc (some b) (pos + t.length + ss.cap / 2 + 1)).length = pos + t.length + ss.cap / 2 + 1 := by
      simp only [realloc, Option.getD_some, List.length_append, List.length_take, List.length_replicate]
      omega
    have hro : (realloc (some b) (pos + t.length + ss.cap / 2 + 1)).take old.length = old.map some := by
      simp only [realloc, Option.getD_some]
      rw [List.take_append_of_le_length (by simp only [List.length_take]; omega), List.take_take,
        Nat.min_eq_left (by omega), hold]
    obtain ⟨b', h1, h2, h3⟩ := writeAt_ok (t := t) (pos := pos)
      (b := realloc (some b) (pos + t.length + ss.cap / 2 + 1)) (by omega)
    rw [h1]
    refine ⟨_, rfl, rfl, ⟨b', rfl, by simp only; omega, ?_⟩, by simpa using hnl, by simp only; omega⟩
    rw [← hnl, h3, hpre _ hro]
  · simp only [if_neg hg, Option.bind_some, hb]
    obtain ⟨b', h1, h2, h3⟩ := writeAt_ok (t := t) (pos := pos) (b := b) (by omega)
    rw [h1]
    refine ⟨_, rfl, rfl, ⟨b', rfl, by simp only; omega, ?_⟩, by simpa using hnl, by simp only; omega⟩
    rw [← hnl, h3, hpre _ hold]

/-- A stream as it is declared: `fmt_stream ss = {0}`. -/
def Stream.new : Stream := ⟨none, 0, 0, false⟩

/-- A step of a program, memory being available. -/
def step (ss : Stream) : Op → Option Stream
  | .print t => sprint ss t true
  | .mode b => some { ss with overwrite := b }

/-- Printing to a new stream. -/
theorem sprint_new {t : List Char} (ht : t ≠ []) (ow : Bool) :
    ∃ ss', sprint ⟨none, 0, 0, ow⟩ (some t) true = some ss' ∧ ss'.overwrite = ow ∧ Live ss' t := by
  have hp : 0 < t.length := List.length_pos_iff.2 ht
  unfold sprint
  have hpos : (if ow = true then 0 else 0) = 0 := by split <;> rfl
  simp only [hpos, Nat.zero_add, Nat.zero_div, Nat.add_zero]
  rw [if_pos hp]
  simp only [if_true, Option.bind_some]
  have hrl : (realloc none (t.length + 1)).length = t.length + 1 := by simp [realloc]
  obtain ⟨b', h1, h2, h3⟩ := writeAt_ok (t := t) (pos := 0) (b := realloc none (t.length + 1)) (by omega)
  rw [h1]
  refine ⟨_, rfl, rfl, ⟨b', rfl, by simp only; omega, ?_⟩, rfl, Nat.le_refl _⟩
  simpa using h3

/-- The first text that is printed. -/
def firstText : List Op → Option (List Char)
  | [] => none
  | .print (some t) :: _ => some t
  | _ :: ops => firstText ops

theorem run_live : ∀ (ops : List Op) {ss : Stream} {old : List Char}, Live ss old →
    ∃ ss', ops.foldlM step ss = some ss' ∧ Live ss' (ops.foldl after (old, ss.overwrite)).1
  | [], ss, old, h => ⟨ss, rfl, h⟩
  | .print none :: ops, ss, old, h => by
    obtain ⟨ss', h1, h2⟩ := run_live ops h
    exact ⟨ss', by simpa [step, sprint] using h1, by simpa [after] using h2⟩
  | .mode b :: ops, ss, old, h => by
    have h' : Live { ss with overwrite := b } old := ⟨h.block, h.len, h.fits⟩
    obtain ⟨ss', h1, h2⟩ := run_live ops h'
    exact ⟨ss', by simpa [step] using h1, by simpa [after] using h2⟩
  | .print (some t) :: ops, ss, old, h => by
    obtain ⟨s1, g1, g2, g3⟩ := sprint_live h t
    obtain ⟨ss', h1, h2⟩ := run_live ops g3
    refine ⟨ss', ?_, ?_⟩
    · simp only [List.foldlM_cons, step, g1]; exact h1
    · rw [g2] at h2
      simpa [after] using h2

/-- C125. However a program prints to a stream and switches its mode, the stream holds the texts printed since
the last one in overwrite mode, terminated, as long as the first text is not empty and memory is available. -/
theorem stream_contents_partial : ∀ (ops : List Op) (t : List Char) (ow : Bool), firstText ops = some t → t ≠ [] →
    ∃ ss', ops.foldlM step ⟨none, 0, 0, ow⟩ = some ss' ∧ Holds ss' (ops.foldl after ([], ow)).1
  | [], _, _, h, _ => by simp [firstText] at h
  | .print none :: ops, t, ow, h, ht => by
    obtain ⟨ss', h1, h2⟩ := stream_contents_partial ops t ow h ht
    exact ⟨ss', by simpa [step, sprint] using h1, by simpa [after] using h2⟩
  | .mode b :: ops, t, ow, h, ht => by
    obtain ⟨ss', h1, h2⟩ := stream_contents_partial ops t b h ht
    exact ⟨ss', by simpa [step] using h1, by simpa [after] using h2⟩
  | .print (some u) :: ops, t, ow, h, ht => by
    simp only [firstText, Option.some.injEq] at h
    subst h
    obtain ⟨s1, g1, g2, g3⟩ := sprint_new ht ow
    obtain ⟨ss', h1, h2⟩ := run_live ops g3
    refine ⟨ss', ?_, ?_⟩
    · simp only [List.foldlM_cons, step, g1]; exact h1
    · rw [g2] at h2
      obtain ⟨⟨b, hb, -, hbt⟩, hlen, -⟩ := h2
      have : (List.foldl after ([], ow) (.print (some u) :: ops)).1 = (List.foldl after (u, ow) ops).1 := by
        simp [after]
      rw [this]
      exact ⟨b, hb, hlen, hbt⟩

example : firstText [.print none, .print (some ['a']), .mode true, .print (some ['b', 'c'])] = some ['a'] := rfl
example : ([Op.print none, .print (some ['a']), .print (some []), .print (some ['b'])].foldl after ([], false)).1 =
    ['a', 'b'] := by decide

/-- C125 is false if the first text is empty: its terminator is written through NULL. -/
theorem stream_empty_wrong (ow : Bool) : sprint ⟨none, 0, 0, ow⟩ (some []) true = none := by
  cases ow <;> rfl

/-- C125 is false if memory runs out: the text is written through NULL. -/
theorem stream_memory_wrong {ss : Stream} {t : List Char}
    (h : ss.cap < (if ss.overwrite then 0 else ss.len) + t.length) : sprint ss (some t) false = none := by
  unfold sprint
  simp only [if_pos h]
  rfl

example : (Stream.new).cap < (if (Stream.new).overwrite then 0 else (Stream.new).len) + ['a'].length := by decide

end Verif.Fmt
