import Verif.Regex.Main
import Verif.Regex.TextSpec
/- The matcher on encoded text. -/
namespace Verif.Regex
open Verif.Utf8 (Byte casefold decodeCp)
open Verif.Utf8.Spec (Scalar enc text Text)
open Spec (Tok Re G Parse Groups Matches Atom plainOp Char1 Lit InClass)

theorem text_app (a b : List Nat) : text (a ++ b) = text a ++ text b := by simp [text]

theorem off_zero (pre : List Byte) (cs : List Nat) : off pre cs 0 = pre.length := by simp [off, text]

theorem off_len (pre : List Byte) (cs : List Nat) : off pre cs cs.length = pre.length + (text cs).length := by simp [off]

theorem take_succ {cs : List Nat} {i c : Nat} (h : cs[i]? = some c) : cs.take (i + 1) = cs.take i ++ [c] := by
  rw [List.take_add_one, h]; rfl

theorem off_succ {pre : List Byte} {cs : List Nat} {i c : Nat} (h : cs[i]? = some c) : off pre cs (i + 1) = off pre cs i + (enc c).length := by
  unfold off
  rw [take_succ h, text_app]
  simp [text]
  omega

theorem enc_pos (c : Nat) : 0 < (enc c).length := List.length_pos_iff.2 (Verif.Utf8.enc_ne_nil c)

theorem off_lt {pre : List Byte} {cs : List Nat} {i : Nat} : ∀ {j : Nat}, i < j → j ≤ cs.length → off pre cs i < off pre cs j
  | 0, h, _ => by omega
  | j + 1, h, hj => by
    have hc : cs[j]? = some cs[j] := List.getElem?_eq_getElem (by omega)
    have h1 := off_succ (pre := pre) hc
    have := enc_pos cs[j]
    by_cases he : i = j
    · subst he; omega
    · have := off_lt (pre := pre) (i := i) (j := j) (cs := cs) (by omega) (by omega); omega

theorem off_le {pre : List Byte} {cs : List Nat} {i j : Nat} (h : i ≤ j) (hj : j ≤ cs.length) : off pre cs i ≤ off pre cs j := by
  by_cases he : i = j
  · subst he; exact Nat.le_refl _
  · exact Nat.le_of_lt (off_lt (by omega) hj)

theorem off_inj {pre : List Byte} {cs : List Nat} {i j : Nat} (hi : i ≤ cs.length) (hj : j ≤ cs.length) (h : off pre cs i = off pre cs j) : i = j := by
  by_contra hne
  rcases Nat.lt_or_gt_of_ne hne with h1 | h1
  · have := off_lt (pre := pre) h1 hj; omega
  · have := off_lt (pre := pre) h1 hi; omega

theorem off_le_iff {pre : List Byte} {cs : List Nat} {i j : Nat} (hi : i ≤ cs.length) (hj : j ≤ cs.length) : off pre cs i ≤ off pre cs j ↔ i ≤ j := by
  constructor
  · intro h
    by_contra hlt
    have := off_lt (pre := pre) (i := j) (j := i) (cs := cs) (by omega) hi
    omega
  · intro h; exact off_le h hj

theorem enc_head {c : Nat} (h : Scalar c) : ∃ b tl, enc c = b :: tl ∧ (b.toNat < 0x80 ↔ c < 0x80) ∧ (c < 0x80 → b.toNat = c ∧ tl = []) := by
  simp only [Scalar] at h
  unfold enc
  split
  · refine ⟨_, _, rfl, ?_, fun _ => ⟨?_, rfl⟩⟩ <;> simp only [BitVec.toNat_ofNat] <;> omega
  · split
    · refine ⟨_, _, rfl, ?_, fun _ => by omega⟩
      simp only [BitVec.toNat_ofNat]; omega
    · split
      · refine ⟨_, _, rfl, ?_, fun _ => by omega⟩
        simp only [BitVec.toNat_ofNat]; omega
      · refine ⟨_, _, rfl, ?_, fun _ => by omega⟩
        simp only [BitVec.toNat_ofNat]; omega

theorem enc_last {c : Nat} (h : Scalar c) : ∃ ini b, enc c = ini ++ [b] ∧ (b.toNat = 10 ↔ c = 10) ∧ (b = 0#8 ↔ c = 0) := by
  simp only [Scalar] at h
  have z : ∀ n, BitVec.ofNat 8 n = 0#8 ↔ n % 256 = 0 := by
    intro n
    rw [← BitVec.toNat_inj]
    simp
  unfold enc
  split
  · refine ⟨[], _, rfl, ?_, ?_⟩
    · simp only [BitVec.toNat_ofNat]; omega
    · rw [z]; omega
  · split
    · refine ⟨[_], _, rfl, ?_, ?_⟩
      · simp only [BitVec.toNat_ofNat]; omega
      · rw [z]; omega
    · split
      · refine ⟨[_, _], _, rfl, ?_, ?_⟩
        · simp only [BitVec.toNat_ofNat]; omega
        · rw [z]; omega
      · refine ⟨[_, _, _], _, rfl, ?_, ?_⟩
        · simp only [BitVec.toNat_ofNat]; omega
        · rw [z]; omega

section
variable {E : Env} {cs : List Nat} {pre rest : List Byte}

theorem Input.drop (h : Input E cs pre rest) (i : Nat) : E.m.drop (off pre cs i) = text (cs.drop i) ++ rest := by
  have : text cs = text (cs.take i) ++ text (cs.drop i) := by rw [← text_app, List.take_append_drop]
  rw [h.mem, this, off]
  rw [List.append_assoc, List.append_assoc, ← List.append_assoc pre]
  rw [show pre.length + (text (cs.take i)).length = (pre ++ text (cs.take i)).length by simp]
  rw [List.drop_left]

theorem Input.rune (h : Input E cs pre rest) {i c : Nat} (hc : cs[i]? = some c) : rune E.m (off pre cs i) = some (c, (enc c).length) := by
  have hs : Scalar c := (h.txt c (List.mem_of_getElem? hc)).1
  have hd := h.drop i
  have hd' : cs.drop i = c :: cs.drop (i + 1) := by
    obtain ⟨hlt, rfl⟩ := List.getElem?_eq_some_iff.1 hc
    exact List.drop_eq_getElem_cons hlt
  rw [hd', Verif.Utf8.text_cons] at hd
  obtain ⟨b, tl, e1, e2, e3⟩ := enc_head hs
  have hm : E.m[off pre cs i]? = some b := by
    have : (E.m.drop (off pre cs i))[0]? = some b := by rw [hd, e1]; rfl
    rwa [List.getElem?_drop, Nat.add_zero] at this
  unfold Verif.Regex.rune
  rw [hm, Option.bind_some]
  by_cases hlt : b.toNat < 0x80
  · rw [if_pos hlt]
    obtain ⟨q1, q2⟩ := e3 (e2.1 hlt)
    rw [e1, q1, q2]; rfl
  · rw [if_neg hlt, hd, List.append_assoc]
    refine Verif.Utf8.decodeCp_enc hs _ ?_
    have : (E.m.drop (off pre cs i)).length = (enc c ++ text (cs.drop (i + 1)) ++ rest).length := by rw [hd]
    simp only [List.length_drop, List.length_append] at this
    omega

theorem Input.rune_end (h : Input E cs pre rest) : ∃ r n, Verif.Regex.rune E.m (off pre cs cs.length) = some (r, n) ∧ (E.eol = none → r = 0) := by
  rw [off_len]
  rcases h.stop with ⟨h1, junk, rfl⟩ | ⟨h1, r, n, h2⟩
  · refine ⟨0, 1, ?_, fun _ => rfl⟩
    have hm : E.m[pre.length + (text cs).length]? = some 0#8 := by
      rw [h.mem, show pre.length + (text cs).length = (pre ++ text cs).length by simp]
      simp
    unfold Verif.Regex.rune
    rw [hm]
    rfl
  · exact ⟨r, n, h2, fun h => by rw [h] at h1; cases h1⟩

theorem Input.rune_def (h : Input E cs pre rest) {i : Nat} (hi : i ≤ cs.length) : ∃ r n, Verif.Regex.rune E.m (off pre cs i) = some (r, n) := by
  by_cases he : i = cs.length
  · subst he; obtain ⟨r, n, h1, -⟩ := h.rune_end; exact ⟨r, n, h1⟩
  · exact ⟨_, _, h.rune (List.getElem?_eq_getElem (show i < cs.length by omega))⟩

theorem Input.not_eol (h : Input E cs pre rest) {i : Nat} (hi : i < cs.length) : some (off pre cs i) ≠ E.eol := by
  rcases h.stop with ⟨h1, -⟩ | ⟨h1, -⟩
  · rw [h1]; simp
  · rw [h1, ← off_len]
    intro e
    have := off_lt (pre := pre) hi (Nat.le_refl _)
    have := Option.some.inj e
    omega

theorem Input.nz (h : Input E cs pre rest) {i c : Nat} (hc : cs[i]? = some c) : c ≠ 0 := (h.txt c (List.mem_of_getElem? hc)).2

/-- At the end of the text. -/
theorem Input.at_end (h : Input E cs pre rest) {r n : Nat} (hr : Verif.Regex.rune E.m (off pre cs cs.length) = some (r, n)) :
    some (off pre cs cs.length) = E.eol ∨ (E.eol = none ∧ r = 0) := by
  obtain ⟨r', n', h1, h2⟩ := h.rune_end
  rw [hr] at h1
  cases h1
  rcases h.stop with ⟨h3, -⟩ | ⟨h3, -⟩
  · exact .inr ⟨h3, h2 h3⟩
  · left; rw [h3, off_len]

theorem Input.step (h : Input E cs pre rest) {i y : Nat} (hi : i ≤ cs.length) :
    Step E (off pre cs i) y ↔ ∃ c, cs[i]? = some c ∧ y = off pre cs (i + 1) := by
  constructor
  · rintro ⟨r, n, h1, h2, h3, rfl⟩
    by_cases he : i = cs.length
    · subst he
      rcases h.at_end h1 with h4 | ⟨-, h4⟩
      · exact absurd h4 h3
      · exact absurd h4 h2
    · have hc : cs[i]? = some cs[i] := List.getElem?_eq_getElem (by omega)
      rw [h.rune hc] at h1
      cases h1
      exact ⟨_, hc, (off_succ hc).symm⟩
  · rintro ⟨c, hc, rfl⟩
    exact ⟨c, _, h.rune hc, h.nz hc, h.not_eol (List.getElem?_eq_some_iff.1 hc).1, off_succ hc⟩

theorem Input.pos (h : Input E cs pre rest) {k y : Nat} (hk : k ≤ cs.length) : Pos E (off pre cs k) y ↔ ∃ i, k ≤ i ∧ i ≤ cs.length ∧ y = off pre cs i := by
  constructor
  · intro hp
    induction hp with
    | here => exact ⟨k, Nat.le_refl _, hk, rfl⟩
    | step _ hs ih =>
      obtain ⟨i, hi0, hi, rfl⟩ := ih
      obtain ⟨c, hc, rfl⟩ := (h.step hi).1 hs
      have := (List.getElem?_eq_some_iff.1 hc).1
      exact ⟨i + 1, by omega, by omega, rfl⟩
  · rintro ⟨i, hi0, hi, rfl⟩
    induction i with
    | zero => rw [show k = 0 by omega]; exact .here
    | succ i ih =>
      by_cases he : k = i + 1
      · rw [he]; exact .here
      · have hc : cs[i]? = some cs[i] := List.getElem?_eq_getElem (by omega)
        exact .step (ih (by omega) (by omega)) ((h.step (by omega)).2 ⟨_, hc, rfl⟩)

theorem inSpans_iff {r : Nat} : ∀ {sp : List (Nat × Nat)}, inSpans E r sp = true ↔ InClass E.grp sp r
  | [] => by simp [inSpans, InClass]
  | p :: sp => by
    have ih := inSpans_iff (r := r) (sp := sp)
    simp only [inSpans, Bool.or_eq_true, Bool.and_eq_true, decide_eq_true_eq, beq_iff_eq, ih]
    unfold InClass
    simp only [List.mem_cons, exists_eq_or_imp]
    have : ((p.1 ≤ r ∧ r ≤ p.2) ∨ (p.1 = p.2 ∧ runematch E p.1 r = true)) ↔ ((p.1 ≤ r ∧ r ≤ p.2) ∨ (p.1 = p.2 ∧ isCode p.1 = true ∧ E.grp p.1 r = true)) := by
      unfold runematch
      cases hc : isCode p.1 with
      | true => simp
      | false =>
        simp only [Bool.false_eq_true, if_false, beq_iff_eq, false_and, and_false, or_false]
        constructor
        · rintro (h | ⟨h1, rfl⟩)
          · exact h
          · omega
        · exact .inl
    rw [this]

theorem runematch_iff {c r : Nat} : runematch E c r = true ↔ Lit E.grp c r := by
  unfold runematch Lit
  cases isCode c with
  | true => simp
  | false => simp only [Bool.false_eq_true, if_false, beq_iff_eq]; exact eq_comm

/-- What follows a newline, and whether the terminator. -/
theorem Input.after (h : Input E cs pre rest) {i : Nat} (hc : cs[i]? = some 10) : E.m[off pre cs i + 1]? = (text (cs.drop (i + 1)) ++ rest)[0]? := by
  have e : off pre cs (i + 1) = off pre cs i + 1 := off_succ hc
  rw [← e, ← h.drop (i + 1), List.getElem?_drop]; rfl

theorem Input.before (h : Input E cs pre rest) {i c : Nat} (hc : cs[i]? = some c) : ∃ b, E.m[off pre cs (i + 1) - 1]? = some b ∧ (b.toNat = 10 ↔ c = 10) := by
  have hs : Scalar c := (h.txt c (List.mem_of_getElem? hc)).1
  obtain ⟨ini, b, e1, e2, -⟩ := enc_last hs
  refine ⟨b, ?_, e2⟩
  have hd := h.drop i
  have hd' : cs.drop i = c :: cs.drop (i + 1) := by
    obtain ⟨hlt, rfl⟩ := List.getElem?_eq_some_iff.1 hc
    exact List.drop_eq_getElem_cons hlt
  rw [hd', Verif.Utf8.text_cons, e1] at hd
  have : (E.m.drop (off pre cs i))[ini.length]? = some b := by rw [hd]; simp
  rw [List.getElem?_drop] at this
  rw [off_succ hc, e1]
  simpa using this

/-- The bytes of a character behind the first one are continuation bytes. -/
theorem stepBack_cont {m : List Byte} {s : Nat} : ∀ k : Nat, (∀ i < k, ∃ b, m[s + 1 + i]? = some b ∧ Verif.Utf8.lead b = false) →
    (∃ b, m[s]? = some b ∧ Verif.Utf8.lead b = true) → stepBack m (s + 1 + k) = some s
  | 0, _, ⟨b, hb, hl⟩ => by
    show stepBack m (s + 1) = some s
    rw [stepBack, hb]; simp [hl]
  | k + 1, h, hs => by
    obtain ⟨b, hb, hl⟩ := h k (by omega)
    show stepBack m ((s + 1 + k) + 1) = some s
    rw [stepBack, hb, Option.bind_some, if_neg (by simp [hl])]
    exact stepBack_cont k (fun i hi => h i (by omega)) hs

theorem peek_enc {c : Nat} (hs : Scalar c) (b : List Byte) : Verif.Utf8.peek (enc c ++ b) = some c := by
  unfold Verif.Utf8.peek
  rw [Verif.Utf8.peek_chain b (enc c) ⟨0, 0⟩ ((Verif.Utf8.chain_iff _).2 ⟨hs, rfl⟩)]
  rfl

theorem peek_zero (b : List Byte) : Verif.Utf8.peek (0#8 :: b) = some 0 := by
  have : enc 0 = [0#8] := by decide
  have h := peek_enc (c := 0) (by decide) b
  rwa [this] at h

theorem drop_cons {i c : Nat} (hc : cs[i]? = some c) : cs.drop i = c :: cs.drop (i + 1) := by
  obtain ⟨hlt, rfl⟩ := List.getElem?_eq_some_iff.1 hc
  exact List.drop_eq_getElem_cons hlt

/-- `\b` at a position between two characters. -/
theorem Input.boundary_inner (h : Input E cs pre rest) {i a b : Nat} (ha : cs[i]? = some a) (hb : cs[i + 1]? = some b) :
    Verif.Regex.boundary E (off pre cs (i + 1)) = some (E.word a ^^ E.word b) := by
  have hlt : i + 1 < cs.length := (List.getElem?_eq_some_iff.1 hb).1
  have sa := h.txt a (List.mem_of_getElem? ha)
  have sb := h.txt b (List.mem_of_getElem? hb)
  obtain ⟨x, tl, e1, -, e3, e4, -⟩ := Verif.Utf8.enc_shape sa.1 sa.2
  obtain ⟨y, tl', f1, f2, -⟩ := Verif.Utf8.enc_shape sb.1 sb.2
  have da : E.m.drop (off pre cs i) = enc a ++ (text (cs.drop (i + 1)) ++ rest) := by
    rw [h.drop i, drop_cons ha, Verif.Utf8.text_cons, List.append_assoc]
  have db : E.m.drop (off pre cs (i + 1)) = enc b ++ (text (cs.drop (i + 2)) ++ rest) := by
    rw [h.drop (i + 1), drop_cons hb, Verif.Utf8.text_cons, List.append_assoc]
  have hne : ¬ (off pre cs (i + 1) = E.bol ∨ some (off pre cs (i + 1)) = E.eol) := by
    rintro (q | q)
    · rw [h.bol, ← off_zero pre cs] at q
      have := off_inj (by omega) (by omega) q
      omega
    · exact h.not_eol hlt q
  have mb : E.m[off pre cs (i + 1)]? = some y := by
    have : (E.m.drop (off pre cs (i + 1)))[0]? = some y := by rw [db, f1]; rfl
    rwa [List.getElem?_drop] at this
  have get : ∀ k, E.m[off pre cs i + k]? = (enc a ++ (text (cs.drop (i + 1)) ++ rest))[k]? := by
    intro k; rw [← da, List.getElem?_drop]
  have back : stepBack E.m (off pre cs (i + 1)) = some (off pre cs i) := by
    rw [off_succ ha, e1, List.length_cons, show off pre cs i + (tl.length + 1) = off pre cs i + 1 + tl.length by omega]
    refine stepBack_cont _ (fun k hk => ⟨tl[k], ?_, (e4 _ (List.getElem_mem hk)).2⟩) ⟨x, ?_, e3⟩
    · rw [show off pre cs i + 1 + k = off pre cs i + (k + 1) by omega, get, e1, List.cons_append, List.getElem?_cons_succ,
        List.getElem?_append_left hk, List.getElem?_eq_getElem hk]
    · have := get 0
      rw [e1] at this
      exact this
  unfold Verif.Regex.boundary
  rw [if_neg hne]
  unfold peekBack
  rw [mb, Option.bind_some, if_neg f2, back, Option.bind_some, da, db, peek_enc sa.1, peek_enc sb.1]
  rfl

theorem Input.boundary_zero (h : Input E cs pre rest) : Verif.Regex.boundary E (off pre cs 0) = some true := by
  unfold Verif.Regex.boundary
  rw [if_pos (.inl (by rw [h.bol, off_zero]))]

theorem Input.boundary_end (h : Input E cs pre rest) (h0 : 0 < cs.length) : Verif.Regex.boundary E (off pre cs cs.length) = some E.eol.isSome := by
  unfold Verif.Regex.boundary
  rcases h.stop with ⟨h1, junk, rfl⟩ | ⟨h1, -⟩
  · have hne : ¬ (off pre cs cs.length = E.bol ∨ some (off pre cs cs.length) = E.eol) := by
      rintro (q | q)
      · rw [h.bol, ← off_zero pre cs] at q
        have := off_inj (by omega) (by omega) q
        omega
      · rw [h1] at q; cases q
    have hd := h.drop cs.length
    rw [List.drop_length] at hd
    have hd' : E.m.drop (off pre cs cs.length) = 0#8 :: junk := hd
    have mb : E.m[off pre cs cs.length]? = some 0#8 := by
      have : (E.m.drop (off pre cs cs.length))[0]? = some 0#8 := by rw [hd']; rfl
      rwa [List.getElem?_drop] at this
    rw [if_neg hne]
    unfold peekBack
    rw [mb, Option.bind_some, if_pos rfl, hd', peek_zero, h1]
    simp
  · rw [if_pos (.inr (by rw [h1, off_len])), h1]
    rfl

/-- `\b` is defined everywhere. -/
theorem Input.boundary_def (h : Input E cs pre rest) {i : Nat} (hi : i ≤ cs.length) : ∃ b, Verif.Regex.boundary E (off pre cs i) = some b := by
  rcases Nat.eq_zero_or_pos i with rfl | h0
  · exact ⟨_, h.boundary_zero⟩
  · obtain ⟨k, rfl⟩ : ∃ k, i = k + 1 := ⟨i - 1, by omega⟩
    by_cases he : k + 1 = cs.length
    · rw [he]; exact ⟨_, h.boundary_end (by omega)⟩
    · exact ⟨_, h.boundary_inner (List.getElem?_eq_getElem (by omega)) (List.getElem?_eq_getElem (by omega))⟩

theorem Input.boundary (h : Input E cs pre rest) (he : Edges E cs) {i : Nat} (hi : i ≤ cs.length) :
    ∃ b, Verif.Regex.boundary E (off pre cs i) = some b ∧ (b = true ↔ Spec.Bound (E.grp Spec.wordCode) cs i) := by
  rcases Nat.eq_zero_or_pos i with rfl | h0
  · refine ⟨_, h.boundary_zero, ?_⟩
    have hf := he.first
    unfold Spec.Bound Spec.wordAt
    rw [List.head?_eq_getElem?] at hf
    simp [hf]
  · obtain ⟨k, rfl⟩ : ∃ k, i = k + 1 := ⟨i - 1, by omega⟩
    have hk : cs[k]? = some cs[k] := List.getElem?_eq_getElem (by omega)
    unfold Spec.Bound Spec.wordAt
    by_cases hl : k + 1 = cs.length
    · refine ⟨_, by rw [hl]; exact h.boundary_end (by omega), ?_⟩
      have hL := he.last
      rw [List.getLast?_eq_getElem?, show cs.length - 1 = k by omega, hk] at hL
      rw [← hL, List.getElem?_eq_none (show cs.length ≤ k + 1 by omega)]
      simp [hk]
    · have hk' : cs[k + 1]? = some cs[k + 1] := List.getElem?_eq_getElem (by omega)
      refine ⟨_, h.boundary_inner hk hk', ?_⟩
      rw [he.word, he.word]
      simp [hk, hk']

theorem hits_iff {P : Prog} (h : Input E cs pre rest) {o : Op} (ho : plainOp P.icase o = true) (hz : o = .eoz → Soft E) (hw : o = .wbound → Edges E cs) {i y : Nat} (hi : i ≤ cs.length) :
    Hits P E o (off pre cs i) y ↔ ∃ j, j ≤ cs.length ∧ y = off pre cs j ∧ Atom P.icase E.grp cs o i j := by
  -- an operand consuming a character
  have eat : ∀ {p : Nat → Prop} {t : Nat → Bool}, (∀ r, ∃ x, eff E (off pre cs i) r P.icase o = some x ∧ x.2.2 = Eff.test (t r)) → (∀ r, t r = true ↔ p r) →
      (Hits P E o (off pre cs i) y ↔ ∃ j, j ≤ cs.length ∧ y = off pre cs j ∧ Char1 cs p i j) := by
    intro p t he ht
    constructor
    · rintro (⟨⟨r, n, h1, h2⟩, -⟩ | ⟨⟨r, n, h1, h2⟩, hst⟩)
      · obtain ⟨x, h3, h4⟩ := he r
        rw [h3] at h2
        simp only [Option.map_some, Option.some.injEq] at h2
        rw [h4] at h2
        cases htr : t r <;> rw [htr] at h2 <;> cases h2
      · obtain ⟨c, hc, rfl⟩ := (h.step hi).1 hst
        have hlt := (List.getElem?_eq_some_iff.1 hc).1
        rw [h.rune hc] at h1
        obtain ⟨rfl, rfl⟩ := Prod.mk.inj (Option.some.inj h1)
        obtain ⟨x, h3, h4⟩ := he c
        rw [h3] at h2
        simp only [Option.map_some, Option.some.injEq] at h2
        rw [h4] at h2
        refine ⟨i + 1, by omega, rfl, c, hc, (ht c).1 ?_, rfl⟩
        cases htr : t c
        · rw [htr] at h2; cases h2
        · rfl
    · rintro ⟨j, -, rfl, c, hc, hp, rfl⟩
      obtain ⟨x, h3, h4⟩ := he c
      refine .inr ⟨⟨c, _, h.rune hc, ?_⟩, (h.step hi).2 ⟨c, hc, rfl⟩⟩
      rw [h3]
      simp only [Option.map_some, Option.some.injEq]
      rw [h4, (ht c).2 hp]
      rfl
  -- an operand consuming nothing
  have pass : ∀ {q : Prop}, (∀ r n, Verif.Regex.rune E.m (off pre cs i) = some (r, n) → ∃ x b, eff E (off pre cs i) r P.icase o = some x ∧ x.2.2 = Eff.pass b ∧ (b = true ↔ q)) →
      (Hits P E o (off pre cs i) y ↔ ∃ j, j ≤ cs.length ∧ y = off pre cs j ∧ j = i ∧ q) := by
    intro q he
    obtain ⟨r0, n0, hr0⟩ := h.rune_def hi
    obtain ⟨x, b, h3, h4, h5⟩ := he r0 n0 hr0
    constructor
    · rintro (⟨⟨r, n, h1, h2⟩, rfl⟩ | ⟨⟨r, n, h1, h2⟩, hst⟩)
      · rw [hr0] at h1; cases h1
        rw [h3] at h2
        simp only [Option.map_some, Option.some.injEq] at h2
        rw [h4] at h2
        refine ⟨i, hi, rfl, rfl, h5.1 ?_⟩
        cases b
        · cases h2
        · rfl
      · rw [hr0] at h1; cases h1
        rw [h3] at h2
        simp only [Option.map_some, Option.some.injEq] at h2
        rw [h4] at h2
        cases b <;> cases h2
    · rintro ⟨j, -, rfl, rfl, hq⟩
      refine .inl ⟨⟨r0, n0, hr0, ?_⟩, rfl⟩
      rw [h3]
      simp only [Option.map_some, Option.some.injEq]
      rw [h4, h5.2 hq]
      rfl
  have go : Eff.go = Eff.pass true := rfl
  have die : Eff.die = Eff.pass false := rfl
  have hzero : off pre cs i = E.bol ↔ i = 0 := by
    rw [h.bol, ← off_zero pre cs]
    exact ⟨fun e => off_inj hi (by omega) e, fun e => by rw [e]⟩
  have hend : ∀ r n, Verif.Regex.rune E.m (off pre cs i) = some (r, n) → ((some (off pre cs i) = E.eol ∨ (E.eol = none ∧ r = 0)) ↔ i = cs.length) ∧ (i < cs.length → cs[i]? = some r) := by
    intro r n hr
    by_cases he : i = cs.length
    · subst he
      exact ⟨⟨fun _ => rfl, fun _ => h.at_end hr⟩, fun h => by omega⟩
    · have hc : cs[i]? = some cs[i] := List.getElem?_eq_getElem (by omega)
      rw [h.rune hc] at hr
      cases hr
      refine ⟨⟨?_, fun h => absurd h he⟩, fun _ => hc⟩
      rintro (h1 | ⟨-, h1⟩)
      · exact absurd h1 (h.not_eol (by omega))
      · exact absurd h1 (h.nz hc)
  -- a terminator inside a view
  have hend' : ∀ r n, Verif.Regex.rune E.m (off pre cs i) = some (r, n) → ((some (off pre cs i) = E.eol ∨ r = 0) ↔ i = cs.length) := by
    intro r n hr
    obtain ⟨h1, h2⟩ := hend r n hr
    rw [← h1]
    constructor
    · rintro (h3 | h3)
      · exact .inl h3
      · by_cases hlt : i < cs.length
        · exact absurd h3 (h.nz (h2 hlt))
        · exact h1.2 (by omega)
    · rintro (h3 | ⟨-, h3⟩)
      · exact .inl h3
      · exact .inr h3
  cases o with
  | rune c => exact eat (t := fun r => runematch E c r) (fun r => ⟨_, rfl, rfl⟩) (fun r => runematch_iff)
  | irune c => exact eat (t := fun r => runematch E c (casefold r)) (fun r => ⟨_, rfl, rfl⟩) (fun r => runematch_iff)
  | any => exact eat (t := fun r => r != 10) (fun r => ⟨_, rfl, rfl⟩) (fun r => by simp)
  | anynl => exact eat (t := fun r => true) (fun r => ⟨_, rfl, rfl⟩) (fun r => by simp)
  | cls neg sp =>
    refine eat (t := fun r => neg ^^ inSpans E (if P.icase then casefold r else r) sp) (fun r => ⟨_, rfl, rfl⟩) (fun r => ?_)
    rw [← inSpans_iff]
    cases neg <;> cases inSpans E (if P.icase then casefold r else r) sp <;> simp
  | bol =>
    refine pass (fun r n hr => ?_)
    by_cases h0 : i = 0
    · exact ⟨_, true, by simp only [eff]; rw [if_pos (hzero.2 h0)], go, by simp [h0]⟩
    · obtain ⟨k, rfl⟩ := Nat.exists_eq_succ_of_ne_zero h0
      have hc : cs[k]? = some cs[k] := List.getElem?_eq_getElem (by omega)
      obtain ⟨b, q1, q2⟩ := h.before hc
      have hz : off pre cs (k + 1) ≠ 0 := by have := off_succ (pre := pre) hc; have := enc_pos cs[k]; omega
      refine ⟨_, b.toNat == 10, by simp only [eff]; rw [if_neg (fun e => h0 (hzero.1 e)), if_neg hz, q1]; rfl, rfl, ?_⟩
      simp only [beq_iff_eq, q2, h0, false_or, Nat.succ_eq_add_one, Nat.add_sub_cancel, hc, Option.some.injEq]
  | bos =>
    refine pass (fun r n hr => ⟨_, _, rfl, rfl, ?_⟩)
    simp only [beq_iff_eq, hzero]
  | eol =>
    refine pass (fun r n hr => ?_)
    have q := hend' r n hr
    by_cases h10 : r = 10
    · refine ⟨_, true, by simp only [eff]; rw [if_pos h10], go, ?_⟩
      simp only [true_iff]
      by_cases hlt : i < cs.length
      · exact .inr (by rw [(hend r n hr).2 hlt, h10])
      · exact .inl (by omega)
    · refine ⟨_, _, by simp only [eff]; rw [if_neg h10], rfl, ?_⟩
      simp only [Bool.or_eq_true, beq_iff_eq, q]
      constructor
      · exact .inl
      · rintro (h1 | h1)
        · exact h1
        · have := (hend r n hr).2 (List.getElem?_eq_some_iff.1 h1).1
          rw [h1] at this
          exact absurd (Option.some.inj this).symm h10
  | eos =>
    refine pass (fun r n hr => ⟨_, _, rfl, rfl, ?_⟩)
    simp only [Bool.or_eq_true, beq_iff_eq, hend' r n hr]
  | eoz =>
    refine pass (fun r n hr => ?_)
    have q := hend' r n hr
    by_cases he : i = cs.length
    · exact ⟨_, true, by simp only [eff]; rw [if_pos (q.2 he)], go, by simp [he]⟩
    · have hlt : i < cs.length := by omega
      have hc := (hend r n hr).2 hlt
      by_cases h10 : r = 10
      · subst h10
        have ha := h.after hc
        have : ∃ b, E.m[off pre cs i + 1]? = some b ∧ (b.toNat = 0 ↔ i + 1 = cs.length) := by
          rw [ha]
          by_cases hl : i + 1 = cs.length
          · rw [hl, List.drop_length]
            rcases h.stop with ⟨-, junk, rfl⟩ | ⟨h1, -⟩
            · exact ⟨0#8, rfl, by simp⟩
            · have h0 := hz rfl _ h1
              have hd := h.drop cs.length
              rw [List.drop_length, off_len] at hd
              rw [← hd]
              exact ⟨0#8, by rw [List.getElem?_drop]; exact h0, by simp⟩
          · have hd : cs.drop (i + 1) = cs[i + 1] :: cs.drop (i + 2) := List.drop_eq_getElem_cons (by omega)
            have hs : Scalar cs[i + 1] ∧ cs[i + 1] ≠ 0 := h.txt _ (List.getElem_mem _)
            obtain ⟨b, tl, e1, e2, -⟩ := Verif.Utf8.enc_shape hs.1 hs.2
            rw [hd, Verif.Utf8.text_cons, e1]
            refine ⟨b, rfl, ?_⟩
            constructor
            · intro e
              exact absurd (BitVec.eq_of_toNat_eq (by simpa using e)) e2
            · intro e; exact absurd e hl
        obtain ⟨b, q1, q2⟩ := this
        refine ⟨_, b.toNat == 0, by simp only [eff]; rw [if_neg (fun e => he (q.1 e)), if_pos trivial, q1]; rfl, rfl, ?_⟩
        simp only [beq_iff_eq, q2, he, false_or, hc, true_and]
      · refine ⟨_, false, by simp only [eff]; rw [if_neg (fun e => he (q.1 e)), if_neg h10], die, ?_⟩
        simp only [Bool.false_eq_true, false_iff, not_or, not_and]
        refine ⟨he, fun h1 => ?_⟩
        rw [hc] at h1
        exact absurd (Option.some.inj h1) h10
  | wbound =>
    refine pass (fun r n hr => ?_)
    obtain ⟨b, hb, hq⟩ := h.boundary (hw rfl) hi
    exact ⟨_, b, by simp only [eff]; rw [hb]; rfl, rfl, hq⟩
  | cased | icase => exact pass (fun r n hr => ⟨_, true, rfl, rfl, by simp⟩)
  | _ => cases ho

/-- The operands in `e` are described by `Atom`. -/
def Nice (P : Prog) (E : Env) (cs : List Nat) : Re Op → Prop := All (fun o => plainOp P.icase o = true ∧ (o = .eoz → Soft E) ∧ (o = .wbound → Edges E cs))

theorem mapG_set (g : Groups) (k i j : Nat) (h : i ≤ j) : mapG pre cs (g.set k i j) = (mapG pre cs g).set k (off pre cs i) (off pre cs j) := by
  funext x
  unfold mapG Groups.set
  split
  · simp only [Option.map_some]
    rw [show i + (j - i) = j by omega]
  · rfl

theorem atom_le {ic : Bool} {grp : Nat → Nat → Bool} {o : Op} {i j : Nat} (h : Atom ic grp cs o i j) : i ≤ j := by
  cases o with
  | rune | irune | any | anynl | cls => obtain ⟨c, -, -, rfl⟩ := h; omega
  | bol | bos | eol | eos | eoz | wbound | cased | icase => obtain ⟨rfl, -⟩ := h; exact Nat.le_refl _
  | _ => cases h

theorem matches_le {ic : Bool} {grp : Nat → Nat → Bool} {e : Re Op} {i j : Nat} (h : Matches (Atom ic grp cs) e i j) : i ≤ j := by
  induction h with
  | one h => exact atom_le h
  | grp _ ih | altL _ ih | altR _ ih | opt _ ih => exact ih
  | starNil | optNil => exact Nat.le_refl _
  | cat _ _ ih1 ih2 | starCons _ _ ih1 ih2 | plus _ _ ih1 ih2 => omega

theorem parse_text {P : Prog} (h : Input E cs pre rest) {e : Re Op} {y y' : Nat} {g g' : Groups} (hp : Parse (Hits P E) e y g y' g') :
    Nice P E cs e → ∀ i gc, i ≤ cs.length → y = off pre cs i → g = mapG pre cs gc →
      ∃ j gc', j ≤ cs.length ∧ y' = off pre cs j ∧ g' = mapG pre cs gc' ∧ Parse (Atom P.icase E.grp cs) e i gc j gc' := by
  induction hp with
  | one ho =>
    intro hn i gc hi e1 e2
    subst e1
    obtain ⟨j, h1, h2, h3⟩ := (hits_iff h hn.1 hn.2.1 hn.2.2 hi).1 ho
    exact ⟨j, gc, h1, h2, e2, .one h3⟩
  | grp _ ih =>
    intro hn i gc hi e1 e2
    obtain ⟨j, gc', h1, h2, h3, h4⟩ := ih hn i gc hi e1 e2
    refine ⟨j, gc'.set _ i j, h1, h2, ?_, .grp h4⟩
    rw [mapG_set _ _ _ _ (matches_le (parse_matches h4)), h3, e1, h2]
  | cat _ _ ih1 ih2 =>
    intro hn i gc hi e1 e2
    obtain ⟨j, gc', h1, h2, h3, h4⟩ := ih1 hn.1 i gc hi e1 e2
    obtain ⟨l, gc'', h5, h6, h7, h8⟩ := ih2 hn.2 j gc' h1 h2 h3
    exact ⟨l, gc'', h5, h6, h7, .cat h4 h8⟩
  | altL _ ih =>
    intro hn i gc hi e1 e2
    obtain ⟨j, gc', h1, h2, h3, h4⟩ := ih hn.1 i gc hi e1 e2
    exact ⟨j, gc', h1, h2, h3, .altL h4⟩
  | altR _ ih =>
    intro hn i gc hi e1 e2
    obtain ⟨j, gc', h1, h2, h3, h4⟩ := ih hn.2 i gc hi e1 e2
    exact ⟨j, gc', h1, h2, h3, .altR h4⟩
  | starNil => intro hn i gc hi e1 e2; exact ⟨i, gc, hi, e1, e2, .starNil⟩
  | starCons _ _ ih1 ih2 =>
    intro hn i gc hi e1 e2
    obtain ⟨j, gc', h1, h2, h3, h4⟩ := ih1 hn i gc hi e1 e2
    obtain ⟨l, gc'', h5, h6, h7, h8⟩ := ih2 hn j gc' h1 h2 h3
    exact ⟨l, gc'', h5, h6, h7, .starCons h4 h8⟩
  | plus _ _ ih1 ih2 =>
    intro hn i gc hi e1 e2
    obtain ⟨j, gc', h1, h2, h3, h4⟩ := ih1 hn i gc hi e1 e2
    obtain ⟨l, gc'', h5, h6, h7, h8⟩ := ih2 hn j gc' h1 h2 h3
    exact ⟨l, gc'', h5, h6, h7, .plus h4 h8⟩
  | optNil => intro hn i gc hi e1 e2; exact ⟨i, gc, hi, e1, e2, .optNil⟩
  | opt _ ih =>
    intro hn i gc hi e1 e2
    obtain ⟨j, gc', h1, h2, h3, h4⟩ := ih hn i gc hi e1 e2
    exact ⟨j, gc', h1, h2, h3, .opt h4⟩

theorem atom_end {ic : Bool} {grp : Nat → Nat → Bool} {o : Op} {i j : Nat} (h : Atom ic grp cs o i j) (hi : i ≤ cs.length) : j ≤ cs.length := by
  cases o with
  | rune | irune | any | anynl | cls =>
    obtain ⟨c, h1, -, rfl⟩ := h
    have := (List.getElem?_eq_some_iff.1 h1).1
    omega
  | bol | bos | eol | eos | eoz | wbound | cased | icase => obtain ⟨rfl, -⟩ := h; exact hi
  | _ => cases h

theorem matches_text {P : Prog} (h : Input E cs pre rest) {e : Re Op} {i j : Nat} (hm : Matches (Atom P.icase E.grp cs) e i j) :
    Nice P E cs e → i ≤ cs.length → j ≤ cs.length ∧ Matches (Hits P E) e (off pre cs i) (off pre cs j) := by
  induction hm with
  | one ho =>
    intro hn hi
    have hj := atom_end ho hi
    exact ⟨hj, .one ((hits_iff h hn.1 hn.2.1 hn.2.2 hi).2 ⟨_, hj, rfl, ho⟩)⟩
  | grp _ ih => intro hn hi; exact ⟨(ih hn hi).1, .grp (ih hn hi).2⟩
  | cat _ _ ih1 ih2 =>
    intro hn hi
    obtain ⟨h1, h2⟩ := ih1 hn.1 hi
    obtain ⟨h3, h4⟩ := ih2 hn.2 h1
    exact ⟨h3, .cat h2 h4⟩
  | altL _ ih => intro hn hi; exact ⟨(ih hn.1 hi).1, .altL (ih hn.1 hi).2⟩
  | altR _ ih => intro hn hi; exact ⟨(ih hn.2 hi).1, .altR (ih hn.2 hi).2⟩
  | starNil => intro hn hi; exact ⟨hi, .starNil⟩
  | starCons _ _ ih1 ih2 =>
    intro hn hi
    obtain ⟨h1, h2⟩ := ih1 hn hi
    obtain ⟨h3, h4⟩ := ih2 hn h1
    exact ⟨h3, .starCons h2 h4⟩
  | plus _ _ ih1 ih2 =>
    intro hn hi
    obtain ⟨h1, h2⟩ := ih1 hn hi
    obtain ⟨h3, h4⟩ := ih2 hn h1
    exact ⟨h3, .plus h2 h4⟩
  | optNil => intro hn hi; exact ⟨hi, .optNil⟩
  | opt _ ih => intro hn hi; exact ⟨(ih hn hi).1, .opt (ih hn hi).2⟩

end

end Verif.Regex
