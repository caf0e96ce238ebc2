import Verif.Regex.Replace
import Verif.Regex.ReplaceSpec
import Verif.Regex.PatProps
import Verif.Cstr.Ops
/- Building a replacement, and the rounds of replacing. -/
namespace Verif.Regex
open Verif.Utf8 (Byte)
open Verif.Utf8.Spec (text Text)
open Verif.Cstr (Str Shape)
open Spec (Piece Reads digit value)

theorem digit_isDig {d : Nat} (h : d ≤ 9) : isDig (digit d) = true ∧ (digit d).toNat - 48 = d ∧ digit d ≠ 0#8 := by
  unfold digit isDig
  rw [BitVec.toNat_ofNat]
  refine ⟨by simp; omega, by omega, fun h' => ?_⟩
  have := congrArg BitVec.toNat h'
  simp at this
  omega

theorem isDig_digit {b : Byte} (h : isDig b = true) : b = digit (b.toNat - 48) ∧ b.toNat - 48 ≤ 9 ∧ b ≠ 36#8 := by
  unfold isDig at h
  simp only [Bool.and_eq_true, decide_eq_true_eq] at h
  refine ⟨?_, by omega, ?_⟩
  · unfold digit
    apply BitVec.eq_of_toNat_eq
    rw [BitVec.toNat_ofNat]
    have := b.isLt
    omega
  · rintro rfl
    simp at h

/-! ### the string -/

/-- The string holds `xs`, except for its size; the size is that of some other text. -/
def Half (xs : List Byte) (cap : Nat) (s : Str) : Prop := ∃ d n, Shape d cap s ∧ Cstr.Sized n s ∧ d.take xs.length = xs.map some ∧ xs.length ≤ cap

theorem reserve_half {xs : List Byte} {cap c : Nat} {s : Str} (h : Half xs cap s) (hc : cap < c) :
    ∃ s' m, Cstr.reserve true c s = some (s', m) ∧ Half xs c s' := by
  obtain ⟨d, n, h1, h2, h3, h4⟩ := h
  cases s with
  | null _ _ => exact h1.elim
  | short d0 =>
    obtain ⟨rfl, hl, rfl⟩ := h1
    simp only [Cstr.Sized] at h2
    have e := Cstr.put_ok (d := List.replicate (c + 1) none) (cs := d0) (i := 0) (by simp; omega)
    generalize List.take 0 (List.replicate (c + 1) none) ++ d0 ++ List.drop (0 + d0.length) (List.replicate (c + 1) none) = d1 at e
    have hl1 := Cstr.put_length e
    have ht := Cstr.put_take_add e
    rw [Nat.zero_add, List.take_zero, List.nil_append] at ht
    refine ⟨.long d1 (BitVec.ofNat 8 n).toNat c, true, ?_, d1, _, ⟨rfl, rfl, by simp at hl1; omega, hc⟩, rfl, ?_, by omega⟩
    · simp only [Cstr.reserve, Cstr.sCap, if_pos hc, if_true, Cstr.sLast, h2, Option.bind_eq_bind, Option.bind_some, e]
    · rw [← h3]
      conv => rhs; rw [← ht]
      rw [List.take_take]; congr 1; omega
  | long d0 m k =>
    obtain ⟨rfl, rfl, hl, hk⟩ := h1
    refine ⟨.long (Cstr.realloc d0 (c + 1)) m c, true, ?_, Cstr.realloc d0 (c + 1), m, ⟨rfl, rfl, ?_, by omega⟩, rfl, ?_, by omega⟩
    · simp only [Cstr.reserve, if_pos hc, if_true]
    · rw [Cstr.realloc_length]
    · rw [Cstr.realloc_take _ (by omega) (by omega), h3]

theorem put_half {xs bs : List Byte} {cap : Nat} {s : Str} (h : Half xs cap s) (hc : xs.length + bs.length ≤ cap) :
    ∃ d d', Cstr.data s = some d ∧ Cstr.put d xs.length (bs.map some) = some d' ∧ Half (xs ++ bs) cap (Cstr.setBuf d' s) := by
  obtain ⟨d, n, h1, h2, h3, h4⟩ := h
  have hl := h1.len
  have ep := Cstr.put_ok (d := d) (cs := bs.map some) (i := xs.length) (by simp; omega)
  generalize d.take xs.length ++ bs.map some ++ d.drop (xs.length + (bs.map some).length) = d1 at ep
  have ht := Cstr.put_take_add ep
  rw [List.length_map, h3, ← List.map_append] at ht
  exact ⟨d, d1, h1.data_eq, ep, d1, n, h1.put (Cstr.put_length ep), Cstr.Sized.put h1 h2 ep (by simp; omega), by simpa using ht, by simpa using hc⟩

theorem subPut_half {xs bs : List Byte} {cap more : Nat} {room : Bool} {s : Str} (h : Half xs cap s) (hr : room = true → xs.length + bs.length ≤ cap + (cap / 2 + more) ∧ 0 < more)
    (hn : room = false → xs.length + bs.length ≤ cap) : ∃ s' cap', subPut room more bs xs.length cap s = some (s', cap') ∧ Half (xs ++ bs) cap' s' := by
  cases room with
  | false =>
    obtain ⟨d, d', e1, e2, e3⟩ := put_half h (hn rfl)
    exact ⟨_, _, by simp [subPut, e1, e2], e3⟩
  | true =>
    obtain ⟨h1, h2⟩ := hr rfl
    obtain ⟨s', m, e, h'⟩ := reserve_half (c := cap + (cap / 2 + more)) h (by omega)
    obtain ⟨d, d', e1, e2, e3⟩ := put_half h' h1
    exact ⟨_, _, by simp [subPut, e, e1, e2], e3⟩

theorem head_ne {r : List Byte} {a : Byte} {x : List Byte} (h : r = a :: x) : r.head? = some a := by rw [h]; rfl

/-- The loop writes what the pieces stand for. -/
theorem subLoop_reads {n : Nat} {grp : Nat → Option (List Byte)} {gt : Nat → List Byte} (hg : ∀ k < n, grp k = some (gt k)) {junk : List Byte} {r : List Byte} {ps : List Piece} (h : Reads r ps) :
    ∀ (f : Nat) (xs : List Byte) (cap : Nat) (s : Str), r.length < f → Half xs cap s →
      ∃ s' cap', subLoop n grp f (r ++ 0#8 :: junk) xs.length cap s = some (s', (xs ++ value n gt ps).length) ∧ Half (xs ++ value n gt ps) cap' s' := by
  induction h with
  | nil =>
    intro f xs cap s hf hh
    obtain ⟨f, rfl⟩ := Nat.exists_eq_add_of_lt hf
    refine ⟨s, cap, ?_, by simpa [value] using hh⟩
    simp [subLoop, value]
  | @cons p r ps hok hr ih =>
    intro f xs cap s hf hh
    obtain ⟨f, rfl⟩ : ∃ f', f = f' + 1 := ⟨f - 1, by omega⟩
    have hval : ∀ bs, xs ++ bs ++ value n gt ps = xs ++ (bs ++ value n gt ps) := fun bs => List.append_assoc ..
    -- one byte
    have one : ∀ (b : Byte), r.length < f → ∃ s' cap', ((subPut (decide (xs.length = cap)) 4 [b] xs.length cap s).bind fun y => subLoop n grp f (r ++ 0#8 :: junk) (xs.length + 1) y.2 y.1) =
        some (s', (xs ++ ([b] ++ value n gt ps)).length) ∧ Half (xs ++ ([b] ++ value n gt ps)) cap' s' := by
      intro b hf
      have h4 := hh
      obtain ⟨_, _, _, _, _, hc⟩ := h4
      obtain ⟨s1, c1, e1, hh1⟩ := subPut_half (bs := [b]) (more := 4) (room := decide (xs.length = cap)) hh (by intro h; simp at h ⊢; omega) (by intro h; simp at h ⊢; omega)
      obtain ⟨s2, c2, e2, hh2⟩ := ih f (xs ++ [b]) c1 s1 hf hh1
      rw [hval] at e2 hh2
      refine ⟨s2, c2, ?_, hh2⟩
      rw [e1, Option.bind_some]
      simpa using e2
    -- a group
    have ref : ∀ (k : Nat), r.length < f → ∃ s' cap', (if k < n then (grp k).bind fun bs => (subPut (decide (xs.length + bs.length > cap)) bs.length bs xs.length cap s).bind fun y =>
          subLoop n grp f (r ++ 0#8 :: junk) (xs.length + bs.length) y.2 y.1 else subLoop n grp f (r ++ 0#8 :: junk) xs.length cap s) =
        some (s', (xs ++ ((if k < n then gt k else []) ++ value n gt ps)).length) ∧ Half (xs ++ ((if k < n then gt k else []) ++ value n gt ps)) cap' s' := by
      intro k hf
      by_cases hk : k < n
      · simp only [if_pos hk, hg k hk, Option.bind_some]
        have h4 := hh
        obtain ⟨_, _, _, _, _, hc⟩ := h4
        obtain ⟨s1, c1, e1, hh1⟩ := subPut_half (bs := gt k) (more := (gt k).length) (room := decide (xs.length + (gt k).length > cap)) hh (by intro h; simp at h ⊢; omega) (by intro h; simp at h ⊢; omega)
        obtain ⟨s2, c2, e2, hh2⟩ := ih f (xs ++ gt k) c1 s1 hf hh1
        rw [hval] at e2 hh2
        refine ⟨s2, c2, ?_, hh2⟩
        rw [e1, Option.bind_some]
        simpa using e2
      · simp only [if_neg hk]
        obtain ⟨s2, c2, e2, hh2⟩ := ih f xs cap s hf hh
        exact ⟨s2, c2, by simpa using e2, by simpa using hh2⟩
    cases p with
    | chr b =>
      obtain ⟨h0, h36⟩ := hok
      simp only [Piece.show, List.cons_append, List.nil_append, List.length_cons] at hf ⊢
      obtain ⟨s', c', e, hh'⟩ := one b (by omega)
      refine ⟨s', c', ?_, hh'⟩
      rw [subLoop.eq_def]
      simp only
      rw [if_neg h0]
      by_cases hb : b = 36#8
      · rw [if_pos hb]
        obtain ⟨q1, q2⟩ := h36 hb
        cases r with
        | nil =>
          rw [List.nil_append] at e ⊢
          simp only
          rw [if_neg (by decide), if_neg (by decide)]
          exact e
        | cons a r' =>
          simp only [List.cons_append] at e ⊢
          rw [if_neg, if_neg]
          · exact e
          · rintro rfl; exact q1 rfl
          · intro hd
            obtain ⟨d1, d2, -⟩ := isDig_digit hd
            exact q2 _ d2 (by rw [← d1]; rfl)
      · rw [if_neg hb]
        exact e
    | dollar =>
      simp only [Piece.show, List.cons_append, List.nil_append, List.length_cons] at hf ⊢
      obtain ⟨s', c', e, hh'⟩ := one 36#8 (by omega)
      refine ⟨s', c', ?_, hh'⟩
      rw [subLoop, if_neg (by decide), if_pos rfl]
      rw [if_neg (by decide), if_pos rfl]
      exact e
    | ref d =>
      obtain ⟨hd, hnx⟩ := hok
      obtain ⟨g1, g2, g3⟩ := digit_isDig hd
      simp only [Piece.show, List.cons_append, List.nil_append, List.length_cons] at hf ⊢
      obtain ⟨s', c', e, hh'⟩ := ref d (by omega)
      refine ⟨s', c', ?_, hh'⟩
      rw [subLoop, if_neg (by decide), if_pos rfl]
      rw [if_pos g1, g2]
      have : argOf d (r ++ 0#8 :: junk) = some (d, r ++ 0#8 :: junk) := by
        cases r with
        | nil => simp [argOf, isDig]
        | cons a r' =>
          by_cases ha : isDig a = true
          · obtain ⟨a1, a2, -⟩ := isDig_digit ha
            cases r' with
            | nil => simp [argOf, ha]
            | cons b r'' =>
              have hb : b ≠ 59#8 := by
                rintro rfl
                exact hnx _ a2 r'' (by rw [← a1])
              simp [argOf, ha, hb]
          · simp [argOf, ha]
      rw [this, Option.bind_some]
      exact e
    | ref2 a b =>
      obtain ⟨ha, hb⟩ := hok
      obtain ⟨g1, g2, g3⟩ := digit_isDig ha
      obtain ⟨g4, g5, g6⟩ := digit_isDig hb
      simp only [Piece.show, List.cons_append, List.nil_append, List.length_cons] at hf ⊢
      obtain ⟨s', c', e, hh'⟩ := ref (a * 10 + b) (by omega)
      refine ⟨s', c', ?_, hh'⟩
      rw [subLoop, if_neg (by decide), if_pos rfl]
      rw [if_pos g1, g2]
      have : argOf a (digit b :: 59#8 :: (r ++ 0#8 :: junk)) = some (a * 10 + b, r ++ 0#8 :: junk) := by
        simp [argOf, g4, g5]
      rw [this, Option.bind_some]
      exact e

/-- The substitution is what the replacement text says. -/
theorem buildSub_reads {n : Nat} {grp : Nat → Option (List Byte)} {gt : Nat → List Byte} (hg : ∀ k < n, grp k = some (gt k)) {junk r : List Byte} {ps : List Piece} (h : Reads r ps)
    {old : List Byte} {s : Str} (hs : Cstr.Rep old s) : ∃ s', buildSub (r ++ 0#8 :: junk) n grp s = some s' ∧ Cstr.Rep (value n gt ps) s' := by
  obtain ⟨d, cap, hs⟩ := hs
  obtain ⟨s1, c1, e1, d1, n1, h1, -, h3, h4⟩ := subLoop_reads hg (junk := junk) h ((r ++ 0#8 :: junk).length + 1) [] cap s (by simp; omega)
    ⟨d, old.length, hs.shape, hs.sized, by simp, by simp⟩
  rw [List.nil_append] at e1 h3 h4
  rw [List.length_nil] at e1
  obtain ⟨s', e, d', h'⟩ := Cstr.setSize_rep _ h1 h4 h3
  exact ⟨s', by simp only [buildSub, Cstr.getbuf_eq hs, Option.bind_eq_bind, Option.bind_some]; rw [e1]; exact e, d', c1, h'⟩

/-- Every text without a NUL can be read as a replacement. -/
theorem reads_total : ∀ (m : Nat) (r : List Byte), r.length ≤ m → 0#8 ∉ r → ∃ ps, Reads r ps
  | _, [], _, _ => ⟨[], .nil⟩
  | 0, b :: r, h, _ => by simp at h
  | m + 1, b :: r, h, h0 => by
    simp only [List.length_cons, Nat.add_le_add_iff_right] at h
    simp only [List.mem_cons, not_or] at h0
    by_cases hb : b = 36#8
    · subst hb
      cases r with
      | nil => exact ⟨[.chr 36#8], .cons (p := .chr 36#8) ⟨by decide, by simp⟩ .nil⟩
      | cons a r =>
        simp only [List.length_cons] at h
        simp only [List.mem_cons, not_or] at h0
        by_cases ha : a = 36#8
        · subst ha
          obtain ⟨ps, hp⟩ := reads_total m r (by omega) h0.2.2
          exact ⟨.dollar :: ps, .cons (p := .dollar) trivial hp⟩
        · by_cases hd : isDig a = true
          · obtain ⟨a1, a2, -⟩ := isDig_digit hd
            by_cases h2 : ∃ c ≤ 9, ∃ r', r = digit c :: 59#8 :: r'
            · obtain ⟨c, hc, r', rfl⟩ := h2
              obtain ⟨ps, hp⟩ := reads_total m r' (by simp at h; omega) (by simp at h0; exact h0.2.2)
              refine ⟨.ref2 (a.toNat - 48) c :: ps, ?_⟩
              have := Reads.cons (p := .ref2 (a.toNat - 48) c) ⟨a2, hc⟩ hp
              simp only [Piece.show, ← a1] at this
              exact this
            · obtain ⟨ps, hp⟩ := reads_total m r (by omega) h0.2.2
              refine ⟨.ref (a.toNat - 48) :: ps, ?_⟩
              have := Reads.cons (p := .ref (a.toNat - 48)) ⟨a2, fun c hc r' e => h2 ⟨c, hc, r', e⟩⟩ hp
              simp only [Piece.show, ← a1] at this
              exact this
          · obtain ⟨ps, hp⟩ := reads_total m (a :: r) (by simp; omega) (by simp [h0.2])
            refine ⟨.chr 36#8 :: ps, .cons (p := .chr 36#8) ⟨by decide, fun _ => ⟨by simpa using ha, fun d hd' e => ?_⟩⟩ hp⟩
            simp only [List.head?_cons, Option.some.injEq] at e
            exact hd (e ▸ (digit_isDig hd').1)
    · obtain ⟨ps, hp⟩ := reads_total m r h h0.2
      exact ⟨.chr b :: ps, .cons (p := .chr b) ⟨fun e => h0.1 e.symm, fun e => absurd e hb⟩ hp⟩

/-! ### a round -/

open Spec (Tok Re G Parse Groups Matches Sur Spells groupText NoMatch Replaced Walk)
open Verif.Utf8 (casefold)

section
variable {n k bytes : Nat} {ic dot full alloc : Bool} {s : List Nat} {l : List (Tok Sur)} {P : Prog} {E : Env} {U : Test → Nat → Bool} {cs : List Nat} {pre rest : List Byte} {o : Option Match} {ret : Int} {e : Re Sur}

/-- The cases in which the fast check of the first character does no harm: the text ends with a terminator,
and there is no `^` (or nothing that it could match inside) and no character that only without regard to
case is an ASCII character; or the pattern does not begin with `^` or an ASCII character. -/
def Covered (ic : Bool) (l : List (Tok Sur)) (e : Re Sur) (soft : Prop) (cs : List Nat) (k : Nat) : Prop :=
  (soft ∧ (Tok.one Sur.bol ∈ l → k = 0 ∧ 10 ∉ cs) ∧ (ic = true → ∀ c ∈ cs, 128 ≤ c → 128 ≤ casefold c)) ∨
    (FreeHead ic e ∧ (Tok.one Sur.eoz ∈ l → soft))

/-- The result of a call, when there is no error. -/
theorem round (hs : Spells ic s l) (hn : (l.filter isCls).length ≤ 16) (hw : Tok.one Sur.wb ∈ l → Edges E cs) (hc : regcomp ic dot bytes s = .ok (P, n)) (hU : E.grp = grpOf U) (hg : G 0 0 l e n)
    (hin : Input E cs pre rest) (hcov : Covered ic l e (Soft E) cs k) (hk : k ≤ cs.length) (hx : exec P E false (off pre cs k) alloc = some (ret, o)) (hret : ret ≠ -1) :
    (ret = 1 ∧ ∃ x i j g, o = some x ∧ Spec.Best (Sur.has ic dot U cs) e cs.length k i j g ∧ x.start = off pre cs i ∧ x.stop = off pre cs j ∧ ∀ y, x.sub y = subOf (mapG pre cs g y)) ∨
    (ret = 0 ∧ NoMatch (Sur.has ic dot U cs) e cs.length k) := by
  have hcomp := hc
  rw [regcomp_spells hs hn] at hcomp
  have hres : ret = 1 ∨ ret = 0 ∨ ret = -1 := by
    refine regex_match_results (spells_plain hs) hcomp ?_ hx
    rcases hcov with h | h
    · exact .inl h.1
    · exact .inr (head_start hcomp (G_map (opOf ic dot) hg) (free_head h.1 (ones_head (G_ones hg (spells_fine hs)))))
  have hbest : ∀ {i j}, k ≤ i → i ≤ cs.length → Matches (Sur.has ic dot U cs) e i j →
      ret = 1 ∧ ∃ m i' j', o = some m ∧ m.start = off pre cs i' ∧ m.stop = off pre cs j' ∧ i' ≤ i ∧ j' ≤ cs.length ∧ (i' = i → j ≤ j') := by
    intro i j hki hi hm
    rcases hcov with h | h
    · exact pattern_leftmost_longest_partial hs hn hw hc hU hin h.1 hk h.2.1 h.2.2 hx hret hg hki hi hm
    · exact pattern_head_leftmost_longest_partial hs hn hw h.2 hc hU hg h.1 hin hk hx hret hki hi hm
  rcases hres with rfl | rfl | h
  · left
    have : ∃ m i j g, o = some m ∧ k ≤ i ∧ i ≤ j ∧ j ≤ cs.length ∧ m.start = off pre cs i ∧ m.stop = off pre cs j ∧
        Parse (Sur.has ic dot U cs) e i (fun _ => none) j g ∧ ∀ x, m.sub x = subOf (mapG pre cs g x) := by
      rcases hcov with h | h
      · obtain ⟨m, e', i, j, g, h1, h2, h3⟩ := pattern_match_sound_partial hs hn hw (G_ne_nil hg) hc hU hin h.1 hk hx
        obtain ⟨rfl, -⟩ := G_unique hg h2
        exact ⟨m, i, j, g, h1, h3⟩
      · obtain ⟨m, i, j, g, h1, -, -, -, h2⟩ := pattern_view_partial hs hn hw h.2 hc hU hg h.1 hin hk hx
        exact ⟨m, i, j, g, h1, h2⟩
    obtain ⟨m, i, j, g, h1, h2, h3, h4, h5, h6, h7, h8⟩ := this
    refine ⟨rfl, m, i, j, g, h1, ⟨h2, h3, h4, h7, fun i' j' hki hi' hm => ?_⟩, h5, h6, h8⟩
    obtain ⟨-, m', i'', j'', q1, q2, q3, q4, q5, q6⟩ := hbest hki hi' hm
    rw [h1] at q1
    cases q1
    have e1 : i'' = i := off_inj (by omega) (by omega) (q2.symm.trans h5)
    have e2 : j'' = j := off_inj (by omega) (by omega) (q3.symm.trans h6)
    subst e1; subst e2
    exact ⟨q4, fun e => q6 e.symm⟩
  · right
    exact ⟨rfl, fun i j hki hi hm => by have := (hbest hki hi hm).1; omega⟩
  · exact absurd h hret

theorem has_le {a : Sur} {i j : Nat} (h : a.has ic dot U cs i j) : i ≤ j := by
  cases a with
  | chr | lit | esc | ctl | hex | short | uni | dot => obtain ⟨c, -, -, rfl⟩ := h; omega
  | cls neg items dash =>
    cases neg with
    | false => obtain ⟨c, -, -, rfl⟩ := h; omega
    | true => obtain ⟨c, -, -, rfl⟩ := h; omega
  | bol | bos | eol | eos | eoz | wb | mode => obtain ⟨rfl, -⟩ := h; exact Nat.le_refl _

theorem parse_groups {α : Type} {R : α → Nat → Nat → Prop} (hR : ∀ a i j, R a i j → i ≤ j) {e : Re α} {i j : Nat} {g g' : Groups} (h : Parse R e i g j g') :
    i ≤ j ∧ ∀ k a m, g' k = some (a, m) → g k = some (a, m) ∨ a + m ≤ j := by
  induction h with
  | one h => exact ⟨hR _ _ _ h, fun _ _ _ h => .inl h⟩
  | @grp k e i j g g' _ ih =>
    refine ⟨ih.1, fun x a m h => ?_⟩
    unfold Groups.set at h
    split at h
    · cases h; right; omega
    · exact ih.2 x a m h
  | altL _ ih | altR _ ih | opt _ ih => exact ih
  | starNil | optNil => exact ⟨Nat.le_refl _, fun _ _ _ h => .inl h⟩
  | cat _ _ ih1 ih2 | starCons _ _ ih1 ih2 | plus _ _ ih1 ih2 =>
    refine ⟨Nat.le_trans ih1.1 ih2.1, fun x a m h => ?_⟩
    rcases ih2.2 x a m h with h | h
    · rcases ih1.2 x a m h with h | h
      · exact .inl h
      · right; have := ih2.1; omega
    · exact .inr h

/-- The bytes between two characters. -/
theorem slice (hin : Input E cs pre rest) {a b : Nat} (hab : a ≤ b) (hb : b ≤ cs.length) :
    off pre cs b - off pre cs a = (text ((cs.drop a).take (b - a))).length ∧ off pre cs b ≤ E.m.length ∧
      (E.m.drop (off pre cs a)).take (off pre cs b - off pre cs a) = text ((cs.drop a).take (b - a)) := by
  have hs : cs.take b = cs.take a ++ (cs.drop a).take (b - a) := by
    conv => lhs; rw [show b = a + (b - a) by omega]
    rw [List.take_add]
  have hlen : off pre cs b - off pre cs a = (text ((cs.drop a).take (b - a))).length := by
    unfold off
    rw [hs, text_app, List.length_append]
    omega
  refine ⟨hlen, ?_, ?_⟩
  · rw [hin.mem]
    have : off pre cs b ≤ off pre cs cs.length := off_le hb (Nat.le_refl _)
    rw [off_len] at this
    simp only [List.length_append]
    omega
  · rw [hin.drop a, hlen]
    have : text (cs.drop a) = text ((cs.drop a).take (b - a)) ++ text ((cs.drop a).drop (b - a)) := by
      rw [← text_app, List.take_append_drop]
    rw [this, List.append_assoc, List.take_left]

/-- The text of a group. -/
theorem groupBytes_eq (hin : Input E cs pre rest) {tr : Nat → List Byte → Option (List Byte)} {x : Match} {i j : Nat} {g : Groups} (hij : i ≤ j) (hj : j ≤ cs.length)
    (h1 : x.start = off pre cs i) (h2 : x.stop = off pre cs j) (h3 : ∀ y, x.sub y = subOf (mapG pre cs g y)) (hgr : ∀ k a m, g k = some (a, m) → a + m ≤ cs.length) (y : Nat) :
    groupBytes E.m tr x y = some ((tr y (text (groupText cs i j g y))).getD (text (groupText cs i j g y))) := by
  have view : ∀ a b, a ≤ b → b ≤ cs.length → viewBytes E.m ⟨some (off pre cs a), ((off pre cs b - off pre cs a : Nat) : Int)⟩ = some (text ((cs.drop a).take (b - a))) := by
    intro a b hab hb
    obtain ⟨q1, q2, q3⟩ := slice hin hab hb
    have := off_le (pre := pre) hab hb
    unfold viewBytes
    by_cases h0 : off pre cs b - off pre cs a = 0
    · simp only [h0] at q1 ⊢
      rw [if_pos (by simp)]
      rw [List.length_eq_zero_iff.1 q1.symm]
    · simp only
      rw [if_neg (by omega)]
      simp only [Option.bind_some, Int.toNat_natCast]
      rw [if_pos (by omega), q3]
  unfold groupBytes Match.view groupText
  by_cases hy : y = 0
  · rw [if_pos hy, if_pos hy, h1, h2]
    have := off_le (pre := pre) hij hj
    rw [show ((off pre cs j : Nat) : Int) - (off pre cs i : Nat) = ((off pre cs j - off pre cs i : Nat) : Int) by omega, view i j hij hj]
    rfl
  · rw [if_neg hy, if_neg hy, h3]
    unfold mapG
    cases hgy : g y with
    | none => rfl
    | some p =>
      obtain ⟨a, m⟩ := p
      have := hgr y a m hgy
      simp only [Option.map_some, subOf]
      rw [view a (a + m) (by omega) this, show a + m - a = m by omega]
      rfl

theorem Covered.mono {p q : Prop} (hpq : p → q) (h : Covered ic l e p cs k) : Covered ic l e q cs k := by
  rcases h with h | h
  · exact .inl ⟨hpq h.1, h.2⟩
  · exact .inr ⟨h.1, fun x => hpq (h.2 x)⟩

theorem Covered.drop {p : Prop} (h : Covered ic l e p cs 0) (j : Nat) : Covered ic l e p (cs.drop j) 0 := by
  rcases h with h | h
  · exact .inl ⟨h.1, fun x => ⟨rfl, fun h' => (h.2.1 x).2 (List.mem_of_mem_drop h')⟩, fun x c hc => h.2.2 x c (List.mem_of_mem_drop hc)⟩
  · exact .inr h

/-- The view of the text `cs` behind `pre`. -/
def viewEnv (E : Env) (cs : List Nat) (pre : List Byte) : Env := { E with bol := pre.length, eol := some (pre.length + (text cs).length) }

theorem text_drop (pre : List Byte) (cs : List Nat) (j : Nat) : (pre ++ text (cs.take j)) ++ text (cs.drop j) = pre ++ text cs := by
  rw [List.append_assoc, ← text_app, List.take_append_drop]

/-- The loop of replacing. -/
theorem replaceLoop_spec (hs : Spells ic s l) (hn : (l.filter isCls).length ≤ 16) (hw : Tok.one Sur.wb ∉ l) (hc : regcomp ic dot bytes s = .ok (P, n)) (hU : E.grp = grpOf U) (hg : G 0 0 l e n)
    {r junk : List Byte} {ps : List Piece} (hps : Reads r ps) {tr : Nat → List Byte → Option (List Byte)} {copy : Bool} (hend : ∃ x y, rune E.m (pre.length + (text cs).length) = some (x, y)) :
    ∀ (c : Nat) (pre' : List Byte) (cs' : List Nat) (out subst : Str) (xs old : List Byte), E.m = pre' ++ text cs' ++ rest → pre'.length + (text cs').length = pre.length + (text cs).length → Text cs' →
      Covered ic l e (rest.head? = some 0#8) cs' 0 → (∀ j ≤ cs'.length, ∃ ret o, matchSv P E alloc (off pre' cs' j) (text (cs'.drop j)).length = some (ret, o) ∧ ret ≠ -1) →
      Cstr.Rep xs out → Cstr.Rep old subst →
      ∃ s' ys, replaceLoop P E alloc (n + 1) (r ++ 0#8 :: junk) tr copy c pre'.length (text cs').length out subst = some s' ∧ Cstr.Rep (xs ++ ys) s' ∧
        Replaced (Sur.has ic dot U) e (fun gt => value (n + 1) (fun k => (tr k (gt k)).getD (gt k)) ps) (fun b => if copy then b else []) c cs' ys := by
  intro c
  induction c with
  | zero =>
    intro pre' cs' out subst xs old hm hl ht hcov hdef ho hsu
    cases copy with
    | false => exact ⟨out, [], rfl, by simpa using ho, by simpa using Replaced.stop (R := Sur.has ic dot U) (e := e) (keep := fun _ => [])⟩
    | true =>
      obtain ⟨s', e1, h1⟩ := Cstr.appendN_rep ho (src := .ext (E.m.drop pre'.length)) (n := (text cs').length) (by simp [Cstr.Src.ok, hm])
      refine ⟨s', text cs', by simp [replaceLoop, e1], ?_, by simpa using Replaced.stop (R := Sur.has ic dot U) (e := e) (keep := fun b => b)⟩
      simpa [Cstr.Src.bytes, hm] using h1
  | succ c ih =>
    intro pre' cs' out subst xs old hm hl ht hcov hdef ho hsu
    have hin : Input (viewEnv E cs' pre') cs' pre' rest := ⟨ht, hm, rfl, .inr ⟨rfl, by rw [hl]; exact hend⟩⟩
    have hsoft : rest.head? = some 0#8 → Soft (viewEnv E cs' pre') := by
      intro h0 z hz
      obtain rfl := Option.some.inj hz
      cases rest with
      | nil => cases h0
      | cons b rest =>
        cases h0
        show E.m[_]? = _
        rw [hm, show pre'.length + (text cs').length = (pre' ++ text cs').length by simp]
        simp
    obtain ⟨ret, o, hx, hret⟩ := hdef 0 (by omega)
    rw [off_zero, List.drop_zero] at hx
    have hx' : exec P (viewEnv E cs' pre') false (off pre' cs' 0) alloc = some (ret, o) := by rw [off_zero]; exact hx
    rw [replaceLoop, hx, Option.bind_some]
    rcases round (E := viewEnv E cs' pre') hs hn (fun h => absurd h hw) hc hU hg hin (hcov.mono hsoft) (by omega) hx' hret with ⟨rfl, x, i, j, g, rfl, hb, h1, h2, h3⟩ | ⟨rfl, hno⟩
    · simp only
      have hb' := hb
      obtain ⟨-, hij, hj, hpar, -⟩ := hb'
      have hgr : ∀ k a m, g k = some (a, m) → a + m ≤ cs'.length := by
        intro k a m hk
        rcases (parse_groups (fun _ _ _ h => has_le h) hpar).2 k a m hk with h | h
        · cases h
        · omega
      have hgb := fun y => groupBytes_eq hin (tr := tr) hij hj h1 h2 h3 hgr y
      obtain ⟨s1, e1, hs1⟩ := buildSub_reads (fun k (_ : k < n + 1) => hgb k) (junk := junk) hps hsu
      have e1' : buildSub (r ++ 0#8 :: junk) (n + 1) (groupBytes E.m tr x) subst = some s1 := e1
      rw [e1', Option.bind_some]
      have hoi : pre'.length ≤ off pre' cs' i := by unfold off; omega
      have hoj : off pre' cs' i ≤ off pre' cs' j := off_le hij hj
      have hol : off pre' cs' j ≤ pre'.length + (text cs').length := by rw [← off_len]; exact off_le hj (Nat.le_refl _)
      -- the text before the match
      have step1 : ∃ out', (if copy && decide (pre'.length < x.start) then (Cstr.appendN true (.ext (E.m.drop pre'.length)) (x.start - pre'.length) out).map (·.1) else some out) = some out' ∧
          Cstr.Rep (xs ++ (if copy then text (cs'.take i) else [])) out' := by
        obtain ⟨q1, q2, q3⟩ := slice hin (show 0 ≤ i by omega) (by omega)
        rw [off_zero] at q1 q3
        simp only [Nat.sub_zero, List.drop_zero] at q1 q3
        cases copy with
        | false => exact ⟨out, by simp, by simpa using ho⟩
        | true =>
          by_cases hlt : pre'.length < x.start
          · obtain ⟨s2, e2, hs2⟩ := Cstr.appendN_rep ho (src := .ext (E.m.drop pre'.length)) (n := x.start - pre'.length) (by
              simp only [Cstr.Src.ok, List.length_drop, h1]
              have : off pre' cs' i ≤ E.m.length := q2
              omega)
            refine ⟨s2, by simp [hlt, e2], ?_⟩
            simp only [Cstr.Src.bytes, h1] at hs2
            rw [show List.take (off pre' cs' i - pre'.length) (List.drop pre'.length E.m) = _ from q3] at hs2
            simpa using hs2
          · refine ⟨out, by simp [hlt], ?_⟩
            rw [show off pre' cs' i - pre'.length = 0 by omega] at q1
            rw [List.length_eq_zero_iff.1 q1.symm]
            simpa using ho
      obtain ⟨out', e2, ho'⟩ := step1
      rw [e2, Option.bind_some, Cstr.mem_eq hs1, Option.bind_some]
      obtain ⟨s3, e3, ho''⟩ := Cstr.appendN_rep ho' (src := .ext (value (n + 1) (fun y => (tr y (text (groupText cs' i j g y))).getD (text (groupText cs' i j g y))) ps ++ [0#8]))
        (n := (value (n + 1) (fun y => (tr y (text (groupText cs' i j g y))).getD (text (groupText cs' i j g y))) ps).length) (by simp [Cstr.Src.ok])
      have hgb : ∃ d c, Cstr.getbuf s1 = some (d, (value (n + 1) (fun y => (tr y (text (groupText cs' i j g y))).getD (text (groupText cs' i j g y))) ps).length, c) := by
        obtain ⟨d, c, h⟩ := hs1
        exact ⟨d, c, Cstr.getbuf_eq h⟩
      obtain ⟨d, c', hgb⟩ := hgb
      rw [hgb, Option.bind_some, e3, Option.bind_some, if_neg (by omega)]
      simp only [Cstr.Src.bytes, List.take_left] at ho''
      have ht' : Text (cs'.drop j) := fun c hc => ht c (List.mem_of_mem_drop hc)
      have hlen : (text (cs'.take j)).length + (text (cs'.drop j)).length = (text cs').length := by
        rw [← List.length_append, ← text_app, List.take_append_drop]
      have hoff : ∀ m, off (pre' ++ text (cs'.take j)) (cs'.drop j) m = off pre' cs' (j + m) := by
        intro m
        unfold off
        rw [List.take_add, text_app, List.length_append, List.length_append]
        omega
      obtain ⟨s', ys, e4, h4, h5⟩ := ih (pre' ++ text (cs'.take j)) (cs'.drop j) s3 s1 _ _ (by rw [text_drop]; exact hm) (by rw [List.length_append]; omega) ht' (hcov.drop j) (by
        intro m hm'
        rw [List.length_drop] at hm'
        rw [hoff, List.drop_drop]
        exact hdef (j + m) (by omega)) ho'' hs1
      refine ⟨s', (if copy then text (cs'.take i) else []) ++ value (n + 1) (fun y => (tr y (text (groupText cs' i j g y))).getD (text (groupText cs' i j g y))) ps ++ ys, ?_, ?_, ?_⟩
      · rw [← e4]
        congr 1
        · rw [h2, List.length_append]; rfl
        · rw [h2]; unfold off; omega
      · simpa [List.append_assoc] using h4
      · exact Replaced.step hb h5
    · simp only
      cases copy with
      | false => exact ⟨out, [], by simp, by simpa using ho, by simpa using Replaced.none (R := Sur.has ic dot U) (e := e) (keep := fun _ => []) hno⟩
      | true =>
        obtain ⟨s', e1, h1⟩ := Cstr.appendN_rep ho (src := .ext (E.m.drop pre'.length)) (n := (text cs').length) (by simp [Cstr.Src.ok, hm])
        refine ⟨s', text cs', by simp [e1], ?_, by simpa using Replaced.none (R := Sur.has ic dot U) (e := e) (keep := fun b => b) hno⟩
        simpa [Cstr.Src.bytes, hm] using h1

end

end Verif.Regex
