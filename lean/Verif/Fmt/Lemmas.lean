import Verif.Fmt.Spec
import Mathlib.Tactic.Common
/-
Lemmas about the model of fmt.h.
-/
namespace Verif.Fmt
open Spec

/-! ## The buffer -/

theorem put_ok {cap : Nat} {out : List Char} {c : Char} (h : out.length + 1 ≤ cap) :
    put cap out c = some (out ++ [c]) := by
  simp only [put]; rw [if_pos (by omega)]

theorem putAll_ok {cap : Nat} : ∀ {cs out : List Char}, out.length + cs.length ≤ cap →
    putAll cap out cs = some (out ++ cs)
  | [], out, _ => by simp [putAll]
  | c :: cs, out, h => by
    simp only [List.length_cons] at h
    simp only [putAll, put_ok (c := c) (out := out) (cap := cap) (by omega), Option.bind_some]
    rw [putAll_ok (by simp only [List.length_append, List.length_singleton]; omega)]
    simp

/-! ## Modifiers -/

/-- What the modifiers put into the buffer. -/
def modsOut (mods : List Char) : List Char :=
  mods.flatMap fun c => if c = '<' then ['-'] else if c = '>' ∨ c = '-' then [] else [c]

theorem modsOut_len (mods : List Char) : (modsOut mods).length ≤ mods.length := by
  induction mods with
  | nil => simp [modsOut]
  | cons c cs ih =>
    simp only [modsOut, List.flatMap_cons, List.length_append, List.length_cons] at ih ⊢
    have : (if c = '<' then ['-'] else if c = '>' ∨ c = '-' then [] else [c]).length ≤ 1 := by
      split
      · simp
      · split <;> simp
    omega

theorem modsOut_cons (c : Char) (cs : List Char) :
    modsOut (c :: cs) = (if c = '<' then ['-'] else if c = '>' ∨ c = '-' then [] else [c]) ++ modsOut cs := rfl

theorem modsOut_append (a b : List Char) : modsOut (a ++ b) = modsOut a ++ modsOut b := by
  simp [modsOut]

theorem getLast_cons_getD {α : Type} (c : α) (cs : List α) (d : α) :
    ((c :: cs).getLast?).getD d = (cs.getLast?).getD c := by
  cases cs with
  | nil => simp
  | cons a as => simp [List.getLast?_cons_cons, List.getLast?_cons]

/-- How the loop over the modifiers ends. -/
def ModRes (nargs : Nat) (s0 tl : List Char) (last : Char) (s : Fld) (r' : List Char) (last' : Char)
    (f' : Fld) : Prop :=
  (f'.arg ∈ s.arg :: s.args) ∧
  ((∃ mods s1, s0 = mods ++ '}' :: s1 ∧ (∀ c ∈ mods, c ≠ nul ∧ c ≠ '}') ∧ r' = '}' :: (s1 ++ tl) ∧
      last' = (mods.getLast?).getD last ∧ f'.n = s.n + mods.count '*' ∧ f'.out = s.out ++ modsOut mods ∧
      f'.p0 = (if '>' ∈ mods then none else s.p0) ∧
      (f'.n ≤ nargs → f'.arg :: f'.args = (s.arg :: s.args).drop (mods.count '*'))) ∨
    (r' = tl ∧ '}' ∉ s0 ∧ f'.n = 99 ∧ (∃ o, f'.out = s.out ++ o ∧ o.length ≤ s0.length) ∧
      (f'.p0 = none ∨ f'.p0 = s.p0)))

theorem ModRes.cons {nargs : Nat} {s0 tl : List Char} {last : Char} {s t : Fld} {r' : List Char}
    {last' : Char} {f' : Fld} {c : Char} (h : ModRes nargs s0 tl c t r' last' f')
    (hc : c ≠ nul ∧ c ≠ '}') (hout : t.out = s.out ++ modsOut [c])
    (hp0 : t.p0 = if c = '>' then none else s.p0)
    (hn : t.n = s.n + if c = '*' then 1 else 0)
    (harg : t.n ≤ nargs → t.arg :: t.args = (s.arg :: s.args).drop (if c = '*' then 1 else 0))
    (hmem : ∀ a ∈ t.arg :: t.args, a ∈ s.arg :: s.args) :
    ModRes nargs (c :: s0) tl last s r' last' f' := by
  obtain ⟨hin, h⟩ := h
  refine ⟨hmem _ hin, ?_⟩
  rcases h with ⟨mods, s1, h1, h2, h3, h4, h5, h6, h7, h8⟩ | ⟨h1, h0, h2, h3, h4⟩
  · refine .inl ⟨c :: mods, s1, by simp [h1], ?_, h3, ?_, ?_, ?_, ?_, ?_⟩
    · intro x hx
      rcases List.mem_cons.1 hx with rfl | hx
      · exact hc
      · exact h2 x hx
    · rw [h4, getLast_cons_getD]
    · rw [h5, hn, List.count_cons]
      by_cases hs : c = '*'
      · simp [hs]; omega
      · simp [hs]
    · rw [h6, hout, List.append_assoc, ← modsOut_append]; rfl
    · rw [h7, hp0]
      by_cases hg : c = '>'
      · simp [hg]
      · simp [hg, Ne.symm hg]
    · intro hle
      rw [h8 hle, harg (by omega), List.drop_drop, List.count_cons]
      congr 1
      by_cases hs : c = '*'
      · simp [hs]; omega
      · simp [hs]
  · refine .inr ⟨h1, by simp only [List.mem_cons, not_or]; exact ⟨Ne.symm hc.2, h0⟩, h2, ?_, ?_⟩
    · obtain ⟨o, h3, h3'⟩ := h3
      have := modsOut_len [c]
      refine ⟨modsOut [c] ++ o, by rw [h3, hout, List.append_assoc], ?_⟩
      simp only [List.length_append, List.length_cons, List.length_nil] at *
      omega
    · rcases h4 with h4 | h4
      · exact .inl h4
      · rw [h4, hp0]
        split
        · exact .inl rfl
        · exact .inr rfl

theorem modLoop_total {cap nargs : Nat} {junk : List Char} : ∀ (s0 : List Char) (last : Char) (s : Fld),
    (∀ c ∈ s0, c ≠ nul) → (s.n ≤ nargs → nargs - s.n ≤ s.args.length) →
    s.out.length + s0.length ≤ cap →
    ∃ r' last' f', modLoop cap nargs (s0 ++ nul :: junk) last s = some (r', last', f') ∧
      ModRes nargs s0 (nul :: junk) last s r' last' f'
  | [], last, s, _, _, _ => by
    refine ⟨nul :: junk, last, { s with n := 99 }, by simp only [modLoop, List.nil_append, if_pos], by simp,
      .inr ⟨rfl, by simp, rfl, ⟨[], by simp, by simp⟩, .inr rfl⟩⟩
  | c :: s0, last, s, hz, ha, hcap => by
    have hc : c ≠ nul := hz c (by simp)
    have hz' : ∀ c ∈ s0, c ≠ nul := fun x hx => hz x (by simp [hx])
    simp only [List.length_cons] at hcap
    have hput : ∀ d, put cap s.out d = some (s.out ++ [d]) := fun d => put_ok (by omega)
    by_cases hb : c = '}'
    · subst hb
      refine ⟨'}' :: (s0 ++ nul :: junk), last, s, by simp only [modLoop, List.cons_append, if_neg hc, if_pos],
        by simp, .inl ?_⟩
      exact ⟨[], s0, by simp, by simp, by simp, by simp, by simp, by simp [modsOut], by simp, by simp⟩
    · by_cases h1 : c = '<'
      · obtain ⟨r', l', f', he, hr⟩ := modLoop_total (cap := cap) (nargs := nargs) (junk := junk) s0 c
          { s with out := s.out ++ ['-'] } hz' ha (by simp; omega)
        refine ⟨r', l', f', ?_, hr.cons ⟨hc, hb⟩ ?_ ?_ ?_ ?_ ?_⟩
        · simp only [modLoop, List.cons_append, if_neg hc, if_neg hb, if_pos h1, hput, Option.bind_some]
          exact he
        all_goals subst h1; simp [modsOut]
      · by_cases h2 : c = '>'
        · obtain ⟨r', l', f', he, hr⟩ := modLoop_total (cap := cap) (nargs := nargs) (junk := junk) s0 c
            { s with p0 := none } hz' ha (by simp; omega)
          refine ⟨r', l', f', ?_, hr.cons ⟨hc, hb⟩ ?_ ?_ ?_ ?_ ?_⟩
          · simp only [modLoop, List.cons_append, if_neg hc, if_neg hb, if_neg h1, if_pos h2]
            exact he
          all_goals subst h2; simp [modsOut]
        · by_cases h3 : c = '-'
          · obtain ⟨r', l', f', he, hr⟩ := modLoop_total (cap := cap) (nargs := nargs) (junk := junk) s0 c
              s hz' ha (by omega)
            refine ⟨r', l', f', ?_, hr.cons ⟨hc, hb⟩ ?_ ?_ ?_ ?_ ?_⟩
            · simp only [modLoop, List.cons_append, if_neg hc, if_neg hb, if_neg h1, if_neg h2, if_pos h3]
              exact he
            all_goals subst h3; simp [modsOut]
          · by_cases h4 : c = '*'
            · by_cases h5 : s.n + 1 ≤ nargs
              · have := ha (by omega)
                match hargs : s.args with
                | [] => simp [hargs] at this; omega
                | a :: as =>
                  rw [hargs, List.length_cons] at this
                  obtain ⟨r', l', f', he, hr⟩ := modLoop_total (cap := cap) (nargs := nargs) (junk := junk) s0 c
                    { s with n := s.n + 1, arg := a, args := as, out := s.out ++ [c] } hz'
                    (by intro _; simp only; omega) (by simp; omega)
                  refine ⟨r', l', f', ?_, hr.cons ⟨hc, hb⟩ ?_ ?_ ?_ ?_ ?_⟩
                  · simp only [modLoop, List.cons_append, if_neg hc, if_neg hb, if_neg h1, if_neg h2, if_neg h3,
                      if_pos h4, if_pos h5, hargs, vaArg, hput, Option.bind_some]
                    exact he
                  all_goals subst h4; simp [modsOut, hargs]
                  all_goals tauto
              · obtain ⟨r', l', f', he, hr⟩ := modLoop_total (cap := cap) (nargs := nargs) (junk := junk) s0 c
                  { s with n := s.n + 1, out := s.out ++ [c] } hz' (by intro h; simp only at h; omega)
                  (by simp; omega)
                refine ⟨r', l', f', ?_, hr.cons ⟨hc, hb⟩ ?_ ?_ ?_ ?_ ?_⟩
                · simp only [modLoop, List.cons_append, if_neg hc, if_neg hb, if_neg h1, if_neg h2, if_neg h3,
                    if_pos h4, if_neg h5, hput, Option.bind_some]
                  exact he
                all_goals subst h4; simp [modsOut]
                omega
            · obtain ⟨r', l', f', he, hr⟩ := modLoop_total (cap := cap) (nargs := nargs) (junk := junk) s0 c
                { s with out := s.out ++ [c] } hz' ha (by simp; omega)
              refine ⟨r', l', f', ?_, hr.cons ⟨hc, hb⟩ ?_ ?_ ?_ ?_ ?_⟩
              · simp only [modLoop, List.cons_append, if_neg hc, if_neg hb, if_neg h1, if_neg h2, if_neg h3,
                  if_neg h4, hput, Option.bind_some]
                exact he
              all_goals simp [modsOut, h1, h2, h3, h4]

/-! ## Fields -/

/-- The default precision. -/
def precOut (empty : Bool) (arg : List Char) : List Char :=
  match arg with
  | 'g' :: _ => if empty then ".8".toList else []
  | '@' :: _ => if empty then ".16".toList else []
  | _ => []

/-- The type without the mark of `double`. -/
def strip (arg : List Char) : List Char :=
  match arg with
  | '@' :: r => r
  | _ => arg

theorem strip_len (arg : List Char) : (strip arg).length ≤ arg.length := by
  unfold strip; split <;> simp

theorem precOut_len (e : Bool) (arg : List Char) : (precOut e arg).length ≤ 3 := by
  unfold precOut
  split
  · cases e <;> decide
  · cases e <;> decide
  · decide

theorem precision_ok {cap : Nat} {e : Bool} {arg out : List Char} (h : out.length + 3 ≤ cap) :
    precision cap e arg out = some (strip arg, out ++ precOut e arg) := by
  unfold precision precOut strip
  split
  · cases e
    · simp
    · simp only [if_true]; rw [putAll_ok (by have : ".8".toList.length = 2 := by decide
                                             omega)]; simp
  · cases e
    · simp
    · simp only [if_true]; rw [putAll_ok (by have : ".16".toList.length = 3 := by decide
                                             omega)]; simp
  · simp

/-- What a field puts into the buffer behind the percent sign. -/
def fieldBody (colon : Bool) (mods arg : List Char) : List Char :=
  modsOut mods ++ precOut (mods = []) arg ++
    (if (mods.getLast?).getD (if colon then ':' else '{') ∈ convs then [] else strip arg)

/-- What a field puts into the buffer. -/
def fieldOut (colon : Bool) (mods arg : List Char) : List Char :=
  '%' :: (if '>' ∉ mods ∧ ((fieldBody colon mods arg).getLast? = some 's' ∨
      (fieldBody colon mods arg).getLast? = some 'c') then '-' :: fieldBody colon mods arg
    else fieldBody colon mods arg)

theorem leftAlign_total {cap : Nat} {pre body : List Char} {p0 : Option Nat}
    (hp : p0 = none ∨ p0 = some (pre.length + 1))
    (h : pre.length + body.length + 2 ≤ cap) :
    leftAlign cap p0 (pre ++ '%' :: body) = some (pre ++ '%' ::
      (if p0 ≠ none ∧ (body.getLast? = some 's' ∨ body.getLast? = some 'c') then '-' :: body else body)) := by
  rcases hp with rfl | rfl
  · simp [leftAlign]
  · have hl : ∀ x, x ≠ '%' → ((pre ++ '%' :: body).getLast? = some x ↔ body.getLast? = some x) := by
      intro x hx
      rw [List.getLast?_append, List.getLast?_cons]
      cases hb : body.getLast? with
      | none => simp [Ne.symm hx]
      | some y => simp
    simp only [leftAlign, hl 's' (by decide), hl 'c' (by decide)]
    split
    · next hsc =>
      rw [if_pos (by simp; omega), if_pos ⟨by simp, hsc⟩]
      have : pre ++ '%' :: body = (pre ++ ['%']) ++ body := by simp
      have hlen : pre.length + 1 = (pre ++ ['%']).length := by simp
      rw [this, hlen, List.take_left, List.drop_left]
      simp
    · next hsc => rw [if_neg (by tauto)]

theorem mods_unique {m m' t t' : List Char} (hm : '}' ∉ m) (hm' : '}' ∉ m')
    (h : m ++ '}' :: t = m' ++ '}' :: t') : m = m' ∧ t = t' := by
  induction m generalizing m' with
  | nil =>
    cases m' with
    | nil => simpa using h
    | cons c cs =>
      simp only [List.nil_append, List.cons_append, List.cons.injEq] at h
      exact absurd (by rw [h.1]; exact List.mem_cons_self) hm'
  | cons c cs ih =>
    cases m' with
    | nil =>
      simp only [List.nil_append, List.cons_append, List.cons.injEq] at h
      exact absurd (by rw [← h.1]; exact List.mem_cons_self) hm
    | cons c' cs' =>
      simp only [List.cons_append, List.cons.injEq] at h
      obtain ⟨h1, h2⟩ := ih (m' := cs') (by simp at hm; tauto) (by simp at hm'; tauto) h.2
      exact ⟨by rw [h.1, h1], h2⟩

/-! ## Formats are read in one way -/

theorem text_cons (p : Piece) (ps : List Piece) : text (p :: ps) = p.show ++ text ps := rfl

theorem show_ne {p : Piece} : p.show ≠ [] := by
  cases p with
  | lit c => simp only [Piece.show]; split <;> [simp; split <;> simp]
  | field colon mods => simp [Piece.show]

/-- Two readings of the same text have the same first piece. -/
theorem show_inj {p q : Piece} {t t' : List Char} (hp : p.Ok) (hq : q.Ok) (h : p.show ++ t = q.show ++ t') :
    p = q ∧ t = t' := by
  have lf : ∀ (c : Char) (colon : Bool) (mods t t' : List Char), (Piece.field colon mods).Ok →
      (Piece.lit c).show ++ t = (Piece.field colon mods).show ++ t' → False := by
    intro c colon mods t t' hok h
    simp only [Piece.show] at h
    by_cases h1 : c = '{'
    · rw [if_pos h1] at h
      simp only [List.cons_append, List.cons.injEq, true_and] at h
      cases colon
      · have := hok.2 rfl
        subst this
        simp at h
      · simp at h
    · rw [if_neg h1] at h
      by_cases h2 : c = '}'
      · rw [if_pos h2] at h; simp at h
      · rw [if_neg h2] at h; simp at h; exact h1 h.1
  cases p with
  | lit c =>
    cases q with
    | lit d =>
      simp only [Piece.show] at h
      by_cases h1 : c = '{'
      · by_cases h2 : d = '{'
        · subst h1 h2; simpa using h
        · by_cases h3 : d = '}'
          · subst h1 h3; simp at h
          · rw [if_pos h1, if_neg h2, if_neg h3] at h; simp at h; exact absurd h.1.symm h2
      · rw [if_neg h1] at h
        by_cases h2 : c = '}'
        · rw [if_pos h2] at h
          by_cases h3 : d = '{'
          · subst h3; simp at h
          · rw [if_neg h3] at h
            by_cases h4 : d = '}'
            · subst h2 h4; simpa using h
            · rw [if_neg h4] at h; simp at h; exact absurd h.1.symm h4
        · rw [if_neg h2] at h
          by_cases h3 : d = '{'
          · subst h3; simp at h; exact absurd h.1 h1
          · rw [if_neg h3] at h
            by_cases h4 : d = '}'
            · subst h4; simp at h; exact absurd h.1 h2
            · rw [if_neg h4] at h; simpa using h
    | field colon mods => exact absurd h (fun h => lf c colon mods t t' hq h)
  | field colon mods =>
    cases q with
    | lit c => exact absurd h.symm (fun h => lf c colon mods t' t hp h)
    | field colon' mods' =>
      have n1 : '}' ∉ mods := fun h => (hp.1 _ h).2 rfl
      have n2 : '}' ∉ mods' := fun h => (hq.1 _ h).2 rfl
      simp only [Piece.show, List.cons_append, List.cons.injEq, true_and, List.append_assoc,
        List.nil_append] at h
      cases colon with
      | true =>
        cases colon' with
        | true =>
          simp at h
          obtain ⟨h1, h2⟩ := mods_unique n1 n2 h
          exact ⟨by rw [h1], h2⟩
        | false =>
          have := hq.2 rfl
          subst this
          simp at h
      | false =>
        have := hp.2 rfl
        subst this
        cases colon' with
        | true => simp at h
        | false =>
          have := hq.2 rfl
          subst this
          exact ⟨rfl, by simpa using h⟩

theorem text_inj : ∀ {ps qs : List Piece}, (∀ p ∈ ps, p.Ok) → (∀ p ∈ qs, p.Ok) → text ps = text qs → ps = qs
  | [], [], _, _, _ => rfl
  | [], q :: qs, _, _, h => by
    rw [text_cons] at h
    have : q.show = [] := by
      have h : ([] : List Char) = q.show ++ text qs := h
      exact (List.append_eq_nil_iff.1 h.symm).1
    exact absurd this show_ne
  | p :: ps, [], _, _, h => by
    rw [text_cons] at h
    have : p.show = [] := by
      have h : p.show ++ text ps = [] := h
      exact (List.append_eq_nil_iff.1 h).1
    exact absurd this show_ne
  | p :: ps, q :: qs, hp, hq, h => by
    rw [text_cons, text_cons] at h
    obtain ⟨h1, h2⟩ := show_inj (hp p (by simp)) (hq q (by simp)) h
    rw [h1, text_inj (fun x hx => hp x (by simp [hx])) (fun x hx => hq x (by simp [hx])) h2]


/-- A format beginning with a single brace begins with a field. -/
theorem first_field {ps : List Piece} {r : List Char} (h : text ps = '{' :: r) (hr : r.head? ≠ some '{') :
    ∃ colon mods qs, ps = .field colon mods :: qs := by
  cases ps with
  | nil => simp [text] at h
  | cons p qs =>
    cases p with
    | lit c =>
      exfalso
      rw [text_cons] at h
      simp only [Piece.show] at h
      split at h
      · simp at h; rw [← h] at hr; simp at hr
      · next h1 =>
        split at h
        · simp at h
        · simp at h; exact h1 h.1
    | field colon mods => exact ⟨colon, mods, qs, rfl⟩

/-- No format begins with a single closing brace. -/
theorem first_close {ps : List Piece} {r : List Char} (h : text ps = '}' :: r) (hr : r.head? ≠ some '}') : False := by
  cases ps with
  | nil => simp [text] at h
  | cons p qs =>
    cases p with
    | lit c =>
      rw [text_cons] at h
      simp only [Piece.show] at h
      split at h
      · simp at h
      · split at h
        · simp at h; rw [← h] at hr; simp at hr
        · next h2 => simp at h; exact h2 h.1
    | field colon mods => rw [text_cons] at h; simp [Piece.show] at h

/-! ## The effect of a field -/

/-- Types of arguments: at most three characters. -/
def Codes (args : List (List Char)) : Prop := ∀ a ∈ args, a.length ≤ 3

theorem field_total {cap nargs : Nat} {s0 junk : List Char} {s : St} (hz : ∀ c ∈ s0, c ≠ nul)
    (hn : s.n + 1 ≤ nargs) (h99 : nargs < 99) (ha : s.args.length = nargs - s.n) (hcode : Codes s.args)
    (hcap : s.out.length + s0.length + 8 ≤ cap) :
    ∃ s1 st', field cap nargs (s0 ++ nul :: junk) s = some (s1 ++ nul :: junk, st') ∧
      s1.length ≤ s0.length ∧ s1.count '%' ≤ s0.count '%' ∧ (∀ c ∈ s1, c ≠ nul) ∧
      st'.out.length + s1.length ≤ s.out.length + s0.length + 8 ∧
      ((∃ colon mods, (Piece.field colon mods).Ok ∧ '{' :: s0 = (Piece.field colon mods).show ++ s1 ∧
          st'.n = s.n + (Piece.field colon mods).uses ∧
          (st'.n ≤ nargs → ∃ a, s.args[(Piece.field colon mods).uses - 1]? = some a ∧
            st'.out = s.out ++ fieldOut colon mods a ∧
            st'.args = s.args.drop (Piece.field colon mods).uses)) ∨
        nargs < st'.n ∧ ∀ colon mods t, (Piece.field colon mods).Ok →
          '{' :: s0 ≠ (Piece.field colon mods).show ++ t) := by
  match hargs : s.args with
  | [] => rw [hargs] at ha; simp at ha; omega
  | a0 :: as =>
  rw [hargs, List.length_cons] at ha
  rw [hargs] at hcode
  -- the start of the modifiers
  obtain ⟨c, t, hc⟩ : ∃ c t, s0 ++ nul :: junk = c :: t := by
    cases s0 <;> simp
  obtain ⟨colon, s0', hcolon, hs0', hstart⟩ : ∃ (colon : Bool) (s0' : List Char), (colon = true ↔ c = ':') ∧
      s0 = (if colon then [':'] else []) ++ s0' ∧
      (if c = ':' then ((s0 ++ nul :: junk).tail, ':') else (s0 ++ nul :: junk, '{')) =
        (s0' ++ nul :: junk, if colon then ':' else '{') := by
    by_cases h : c = ':'
    · cases s0 with
      | nil =>
        simp only [List.nil_append, List.cons.injEq] at hc
        exact absurd (hc.1.trans h) (by decide)
      | cons d ds =>
        simp only [List.cons_append, List.cons.injEq] at hc
        exact ⟨true, ds, by simp [h], by simp [hc.1, h], by simp [h]⟩
    · exact ⟨false, s0, by simp [h], by simp, by simp [h]⟩
  have hz' : ∀ c ∈ s0', c ≠ nul := fun x hx => hz x (by rw [hs0']; simp [hx])
  have hlen : s0'.length ≤ s0.length := by
    conv_rhs => rw [hs0']
    simp
  obtain ⟨e, t', he⟩ : ∃ e t', s0' ++ nul :: junk = e :: t' := by
    cases s0' <;> simp
  obtain ⟨r', last', f', hm, hin, hres⟩ := modLoop_total (cap := cap) (nargs := nargs) (junk := junk) s0'
    (if colon then ':' else '{') ⟨if c ≠ ':' ∧ c ≠ '}' then 99 else s.n + 1, as, a0, s.out ++ ['%'],
      some (s.out ++ ['%']).length⟩ hz'
    (by
      simp only
      split
      · omega
      · omega)
    (by simp; omega)
  simp only at hin hres
  have hf : ∀ (out : List Char), f'.out = s.out ++ '%' :: out → out.length ≤ s0'.length →
      ∀ r d, r' = d :: r → 
      (f'.p0 = none ∨ f'.p0 = some (s.out.length + 1)) →
      field cap nargs (s0 ++ nul :: junk) s = some (if d = '}' then r else r',
        ⟨f'.n, f'.args, s.out ++ '%' :: 
          (let body := out ++ precOut (e = '}') f'.arg ++ (if last' ∈ convs then [] else strip f'.arg)
           if f'.p0 ≠ none ∧ (body.getLast? = some 's' ∨ body.getLast? = some 'c') then '-' :: body else body)⟩) := by
    intro out hout hlo r d hr hp
    have hal := hcode _ hin
    have h1 := strip_len f'.arg
    have h2 := precOut_len (e = '}') f'.arg
    unfold field
    rw [hc, List.head?_cons, Option.bind_some]
    rw [hc] at hstart
    simp only [hstart]
    rw [he, List.head?_cons, Option.bind_some, hargs]
    rw [he] at hm
    simp only [vaArg, Option.bind_some]
    rw [put_ok (by omega), Option.bind_some, hm, Option.bind_some]
    simp only
    rw [precision_ok (by rw [hout]; simp; omega), Option.bind_some]
    simp only
    have hw : (if last' ∈ convs then some (f'.out ++ precOut (e = '}') f'.arg)
        else putAll cap (f'.out ++ precOut (e = '}') f'.arg) (strip f'.arg)) =
        some (s.out ++ '%' :: (out ++ precOut (e = '}') f'.arg ++
          (if last' ∈ convs then [] else strip f'.arg))) := by
      split
      · simp [hout]
      · rw [putAll_ok (by rw [hout]; simp; omega), hout]; simp
    rw [hw, Option.bind_some, leftAlign_total hp (by
      simp only [List.length_append]
      split
      · simp; omega
      · omega), Option.bind_some, hr, List.head?_cons, Option.bind_some]
    simp
  rcases hres with ⟨mods, s1, h1, h2, h3, h4, h5, h6, h7, h8⟩ | ⟨h1, h0, h2, h3, h4⟩
  · have hnb : '}' ∉ mods := fun h => (h2 _ h).2 rfl
    have hml := modsOut_len mods
    have hs0l : s0'.length = mods.length + 1 + s1.length := by rw [h1]; simp; omega
    have he' : (e = '}') ↔ mods = [] := by
      rw [h1] at he
      cases mods with
      | nil =>
        simp only [List.nil_append, List.cons_append, List.cons.injEq] at he
        simp [he.1.symm]
      | cons d ds =>
        simp only [List.cons_append, List.cons.injEq] at he
        constructor
        · intro h
          exact absurd (by rw [he.1, h]; exact List.mem_cons_self) hnb
        · intro h; cases h
    have hf' := hf (modsOut mods) (by rw [h6]; simp) (by omega) (s1 ++ nul :: junk) '}' h3
      (by
        rw [h7]
        split
        · exact .inl rfl
        · exact .inr (by simp))
    rw [if_pos rfl] at hf'
    have hal := hcode _ hin
    have hl1 := strip_len f'.arg
    have hl2 := precOut_len (e = '}') f'.arg
    refine ⟨s1, _, hf', by omega, by
      rw [hs0', h1]
      simp only [List.count_append, List.count_cons]
      omega, fun x hx => hz' x (by rw [h1]; simp [hx]), ?_, ?_⟩
    · have hb : ∀ (p : Prop) [Decidable p] (l : List Char),
          (if p then '-' :: l else l).length ≤ l.length + 1 := by
        intro p _ l; split <;> simp
      have hl3 : (if last' ∈ convs then [] else strip f'.arg).length ≤ 3 := by
        split
        · simp
        · omega
      simp only [List.length_append, List.length_cons]
      refine Nat.le_trans (Nat.add_le_add_right (Nat.add_le_add_left (Nat.add_le_add_right (hb _ _) 1) _) _) ?_
      simp only [List.length_append]
      omega
    · by_cases hbad : c ≠ ':' ∧ c ≠ '}'
      · right
        simp only [if_pos hbad] at h5
        refine ⟨by simp only; omega, ?_⟩
        intro colon' mods' t' hok' hsh
        simp only [Piece.show, List.cons_append, List.cons.injEq, true_and] at hsh
        rw [hsh] at hc
        cases colon' with
        | true =>
          simp only [if_true, List.cons_append, List.cons.injEq] at hc
          exact hbad.1 hc.1.symm
        | false =>
          have := hok'.2 rfl
          subst this
          simp only [Bool.false_eq_true, if_false, List.nil_append, List.cons_append, List.cons.injEq] at hc
          exact hbad.2 hc.1.symm
      · left
        rw [if_neg hbad] at h5
        have hcol : colon = false → mods = [] := by
          intro hcf
          have hc1 : c ≠ ':' := fun h => by rw [hcolon.2 h] at hcf; cases hcf
          have hc2 : c = '}' := by tauto
          have : s0 = s0' := by rw [hs0', hcf]; simp
          rw [this] at hc
          rw [he, List.cons.injEq] at hc
          exact he'.1 (hc.1.trans hc2)
        refine ⟨colon, mods, ⟨h2, hcol⟩, ?_, ?_, ?_⟩
        · rw [hs0', h1]; simp [Piece.show]
        · simp only [h5, Piece.uses]; omega
        · intro hle
          have hd := h8 hle
          have hu : (Piece.field colon mods).uses = mods.count '*' + 1 := by simp [Piece.uses]; omega
          refine ⟨f'.arg, ?_, ?_, ?_⟩
          · rw [hu, Nat.add_sub_cancel, ← List.head?_drop, ← hd, List.head?_cons]
          · have : (decide (e = '}')) = decide (mods = []) := by simp [he']
            simp only [fieldOut, fieldBody, h4, h7, this]
            by_cases hg : '>' ∈ mods <;> simp [hg]
          · rw [hu, ← List.tail_drop, ← hd, List.tail_cons]
  · obtain ⟨o, h3, h3'⟩ := h3
    have hf' := hf o (by rw [h3]; simp) h3' junk nul h1 (by
      rcases h4 with h4 | h4
      · exact .inl h4
      · exact .inr (by rw [h4]; simp))
    rw [if_neg (by decide), h1] at hf'
    have hal := hcode _ hin
    have hl1 := strip_len f'.arg
    have hl2 := precOut_len (e = '}') f'.arg
    refine ⟨[], _, hf', by simp, by simp, by simp, ?_, .inr ?_⟩
    · have hb : ∀ (p : Prop) [Decidable p] (l : List Char),
          (if p then '-' :: l else l).length ≤ l.length + 1 := by
        intro p _ l; split <;> simp
      have hl3 : (if last' ∈ convs then [] else strip f'.arg).length ≤ 3 := by
        split
        · simp
        · omega
      simp only [List.length_append, List.length_cons, List.length_nil]
      refine Nat.le_trans (Nat.add_le_add_right (Nat.add_le_add_left (Nat.add_le_add_right (hb _ _) 1) _) _) ?_
      simp only [List.length_append]
      omega
    · refine ⟨by simp only [h2]; exact h99, ?_⟩
      intro colon' mods' t' hok' hsh
      simp only [Piece.show, List.cons_append, List.cons.injEq, true_and] at hsh
      have : '}' ∈ s0 := by rw [hsh]; simp
      rw [hs0'] at this
      rcases List.mem_append.1 this with h | h
      · cases colon <;> simp at h
      · exact h0 h

/-! ## The whole format -/

/-- What the pieces put into the buffer. -/
def outs : List Piece → List (List Char) → List Char
  | [], _ => []
  | .lit c :: ps, args => (if c = '%' then ['%', '%'] else [c]) ++ outs ps args
  | .field colon mods :: ps, args =>
    fieldOut colon mods ((args[(Piece.field colon mods).uses - 1]?).getD []) ++
      outs ps (args.drop (Piece.field colon mods).uses)

/-- How the main loop ends. -/
def Res (nargs : Nat) (s0 : List Char) (s st' : St) : Prop :=
  (∃ ps : List Piece, (∀ p ∈ ps, p.Ok) ∧ text ps = s0 ∧ st'.n = s.n + uses ps ∧
    (st'.n ≤ nargs → st'.out = s.out ++ outs ps s.args ++ [nul])) ∨
  nargs < st'.n ∧ ∀ ps : List Piece, (∀ p ∈ ps, p.Ok) → text ps = s0 → nargs < s.n + uses ps

theorem Res.lit {nargs : Nat} {s0 : List Char} {s st' : St} {c : Char} (hc : c ≠ nul)
    (h : Res nargs s0 { s with out := s.out ++ (if c = '%' then ['%', '%'] else [c]) } st') :
    Res nargs ((Piece.lit c).show ++ s0) s st' := by
  rcases h with ⟨ps, h1, h2, h3, h4⟩ | h
  · refine .inl ⟨.lit c :: ps, ?_, ?_, ?_, ?_⟩
    · intro p hp
      rcases List.mem_cons.1 hp with rfl | hp
      · exact hc
      · exact h1 p hp
    · rw [← h2]; simp [text]
    · rw [h3]; simp [uses, Piece.uses]
    · intro hle
      rw [h4 hle]
      simp [outs]
  · refine .inr ⟨h.1, ?_⟩
    intro ps hps ht
    cases ps with
    | nil => exact absurd ((List.append_eq_nil_iff.1 ht.symm).1) show_ne
    | cons p qs =>
      rw [text_cons] at ht
      obtain ⟨rfl, h2⟩ := show_inj (hps p (by simp)) (show (Piece.lit c).Ok from hc) ht
      have := h.2 qs (fun x hx => hps x (by simp [hx])) h2
      simpa [uses, Piece.uses] using this

theorem Res.bad {nargs : Nat} {s0 s0' : List Char} {s s' st' : St} (hb : nargs < s'.n)
    (h : Res nargs s0 s' st')
    (hno : ∀ ps : List Piece, (∀ p ∈ ps, p.Ok) → text ps = s0' → nargs < s.n + uses ps) :
    Res nargs s0' s st' := by
  rcases h with ⟨ps, _, _, h3, _⟩ | h
  · exact .inr ⟨by omega, hno⟩
  · exact .inr ⟨h.1, hno⟩

theorem loop_total {cap nargs : Nat} {junk : List Char} (h99 : nargs < 99) :
    ∀ (fuel : Nat) (s0 : List Char) (s : St), s0.length < fuel → (∀ c ∈ s0, c ≠ nul) →
    (s.n ≤ nargs → s.args.length = nargs - s.n ∧ Codes s.args) →
    s.out.length + s0.length + s0.count '%' + 7 * (nargs - s.n) + 1 ≤ cap →
    ∃ st', loop cap nargs fuel (s0 ++ nul :: junk) s = some st' ∧ Res nargs s0 s st'
  | 0, _, _, h, _, _, _ => by omega
  | fuel + 1, [], s, _, _, _, hcap => by
    refine ⟨{ s with out := s.out ++ [nul] }, ?_, .inl ⟨[], by simp, by simp [text], by simp [uses], by
      simp [outs]⟩⟩
    simp only [List.nil_append, loop]
    rw [if_neg (by decide), if_neg (by decide), if_neg (by decide),
      put_ok (by simp only [List.length_nil, List.count_nil] at hcap; omega)]
    simp
  | fuel + 1, ch :: r, s, hf, hz, ha, hcap => by
    have hch : ch ≠ nul := hz ch (by simp)
    have hz' : ∀ c ∈ r, c ≠ nul := fun x hx => hz x (by simp [hx])
    simp only [List.length_cons, List.count_cons] at hcap hf
    simp only [List.cons_append, loop]
    by_cases h1 : ch = '%'
    · have hcap : s.out.length + (r.length + 1) + (r.count '%' + 1) + 7 * (nargs - s.n) + 1 ≤ cap := by
        simpa [h1] using hcap
      rw [if_pos h1, put_ok (by omega), Option.bind_some, put_ok (by simp; omega), Option.bind_some]
      obtain ⟨st', he, hr⟩ := loop_total h99 (cap := cap) (junk := junk) fuel r
        { s with out := s.out ++ ['%'] ++ [ch] } (by omega) hz' ha (by simp; omega)
      refine ⟨st', he, ?_⟩
      have := Res.lit (nargs := nargs) (s0 := r) (s := s) (st' := st') hch
        (by rw [if_pos h1]; rw [h1] at hr; simpa using hr)
      rw [h1] at this ⊢
      exact this
    · rw [if_neg h1]
      by_cases h2 : ch = '}'
      · rw [if_pos h2]
        obtain ⟨c, t, hct⟩ : ∃ c t, r ++ nul :: junk = c :: t := by cases r <;> simp
        rw [hct, List.head?_cons, Option.bind_some]
        by_cases hc : c = '}'
        · rw [if_pos hc, put_ok (by omega), Option.bind_some]
          cases r with
          | nil =>
            simp only [List.nil_append, List.cons.injEq] at hct
            exact absurd (hct.1.trans hc) (by decide)
          | cons d ds =>
            simp only [List.cons_append, List.cons.injEq] at hct
            simp only [List.length_cons, List.count_cons] at hcap hf
            obtain ⟨st', he, hr⟩ := loop_total h99 (cap := cap) (junk := junk) fuel ds
              { s with out := s.out ++ [c] } (by omega) (fun x hx => hz' x (by simp [hx])) ha
              (by simp; omega)
            refine ⟨st', by rw [List.tail_cons, ← hct.2]; exact he, ?_⟩
            have := Res.lit (nargs := nargs) (s0 := ds) (s := s) (st' := st') (c := '}') (by decide)
              (by rw [if_neg (by decide)]; rw [hc] at hr; exact hr)
            rw [h2, hct.1, hc]
            exact this
        · rw [if_neg hc, ← hct]
          obtain ⟨st', he, hr⟩ := loop_total h99 (cap := cap) (junk := junk) fuel r
            { s with n := 99 } (by omega) hz' (by intro h; simp only at h; omega) (by simp only; omega)
          refine ⟨st', he, hr.bad (by simp only; omega) ?_⟩
          intro ps _ ht
          rw [h2] at ht
          exfalso
          refine first_close ht ?_
          intro hh
          cases r with
          | nil => simp at hh
          | cons d ds =>
            simp only [List.cons_append, List.cons.injEq] at hct
            simp only [List.head?_cons, Option.some.injEq] at hh
            exact hc (hct.1.symm.trans hh)
      · rw [if_neg h2]
        by_cases h3 : ch = '{'
        · rw [if_pos h3]
          obtain ⟨c, t, hct⟩ : ∃ c t, r ++ nul :: junk = c :: t := by cases r <;> simp
          rw [hct, List.head?_cons, Option.bind_some]
          by_cases hc : c = '{'
          · rw [if_pos hc, put_ok (by omega), Option.bind_some]
            cases r with
            | nil =>
              simp only [List.nil_append, List.cons.injEq] at hct
              exact absurd (hct.1.trans hc) (by decide)
            | cons d ds =>
              simp only [List.cons_append, List.cons.injEq] at hct
              simp only [List.length_cons, List.count_cons] at hcap hf
              obtain ⟨st', he, hr⟩ := loop_total h99 (cap := cap) (junk := junk) fuel ds
                { s with out := s.out ++ [c] } (by omega) (fun x hx => hz' x (by simp [hx])) ha
                (by simp; omega)
              refine ⟨st', by rw [List.tail_cons, ← hct.2]; exact he, ?_⟩
              have := Res.lit (nargs := nargs) (s0 := ds) (s := s) (st' := st') (c := '{') (by decide)
                (by rw [if_neg (by decide)]; rw [hc] at hr; exact hr)
              rw [h3, hct.1, hc]
              exact this
          · have hrne : r.head? ≠ some '{' := by
              intro hh
              cases r with
              | nil => simp at hh
              | cons d ds =>
                simp only [List.cons_append, List.cons.injEq] at hct
                simp only [List.head?_cons, Option.some.injEq] at hh
                exact hc (hct.1.symm.trans hh)
            rw [if_neg hc, ← hct]
            by_cases hn : nargs < s.n + 1
            · rw [if_pos hn]
              obtain ⟨st', he, hr⟩ := loop_total h99 (cap := cap) (junk := junk) fuel r
                { s with n := s.n + 1 } (by omega) hz' (by intro h; simp only at h; omega)
                (by simp only; omega)
              refine ⟨st', he, hr.bad (by simp only; omega) ?_⟩
              intro ps _ ht
              rw [h3] at ht
              obtain ⟨colon, mods, qs, rfl⟩ := first_field ht hrne
              simp only [uses, List.map_cons, List.sum_cons, Piece.uses]
              omega
            · rw [if_neg hn]
              obtain ⟨hlen, hcode⟩ := ha (by omega)
              obtain ⟨s1, st1, he1, hl1, hcnt, hz1, hlo, hres⟩ := field_total (cap := cap) (junk := junk) hz'
                (by omega) h99 hlen hcode (by omega)
              rw [he1, Option.bind_some]
              rcases hres with ⟨colon, mods, hok, hshow, hn1, himp⟩ | hbad
              · have hu1 : 1 ≤ (Piece.field colon mods).uses := by simp [Piece.uses]
                by_cases hle : st1.n ≤ nargs
                · obtain ⟨a, hia, hout, hargs⟩ := himp hle
                  obtain ⟨st', he, hr⟩ := loop_total h99 (cap := cap) (junk := junk) fuel s1 st1 (by omega) hz1
                    (by
                      intro _
                      rw [hargs, List.length_drop]
                      exact ⟨by omega, fun x hx => hcode x (List.mem_of_mem_drop hx)⟩)
                    (by omega)
                  refine ⟨st', he, ?_⟩
                  rcases hr with ⟨ps, g1, g2, g3, g4⟩ | hr
                  · refine .inl ⟨.field colon mods :: ps, ?_, ?_, ?_, ?_⟩
                    · intro p hp
                      rcases List.mem_cons.1 hp with rfl | hp
                      · exact hok
                      · exact g1 p hp
                    · rw [h3, hshow, ← g2]; simp [text]
                    · rw [g3, hn1]; simp [uses]; omega
                    · intro hle'
                      rw [g4 hle', hout, hargs]
                      simp [outs, hia]
                  · refine .inr ⟨hr.1, ?_⟩
                    intro ps hps ht
                    rw [h3] at ht
                    cases ps with
                    | nil => simp [text] at ht
                    | cons p qs =>
                      rw [text_cons, hshow] at ht
                      obtain ⟨rfl, g2⟩ := show_inj (hps p (by simp)) hok ht
                      have := hr.2 qs (fun x hx => hps x (by simp [hx])) g2
                      simp only [uses, List.map_cons, List.sum_cons] at this ⊢
                      omega
                · -- too many arguments taken
                  obtain ⟨st', he, hr⟩ := loop_total h99 (cap := cap) (junk := junk) fuel s1 st1 (by omega) hz1
                    (by intro h; omega) (by omega)
                  refine ⟨st', he, hr.bad (by omega) ?_⟩
                  intro ps hps ht
                  rw [h3] at ht
                  cases ps with
                  | nil => simp [text] at ht
                  | cons p qs =>
                    rw [text_cons, hshow] at ht
                    obtain ⟨rfl, -⟩ := show_inj (hps p (by simp)) hok ht
                    simp only [uses, List.map_cons, List.sum_cons]
                    omega
              · obtain ⟨st', he, hr⟩ := loop_total h99 (cap := cap) (junk := junk) fuel s1 st1 (by omega) hz1
                  (by intro h; omega) (by omega)
                refine ⟨st', he, hr.bad hbad.1 ?_⟩
                intro ps hps ht
                rw [h3] at ht
                obtain ⟨colon, mods, qs, rfl⟩ := first_field ht hrne
                exact absurd ht.symm (hbad.2 colon mods (text qs) (hps _ (by simp)))
        · rw [if_neg h3, put_ok (by omega), Option.bind_some, if_neg hch]
          obtain ⟨st', he, hr⟩ := loop_total h99 (cap := cap) (junk := junk) fuel r
            { s with out := s.out ++ [ch] } (by omega) hz' ha (by simp; omega)
          refine ⟨st', he, ?_⟩
          have := Res.lit (nargs := nargs) (s0 := r) (s := s) (st' := st') hch (by rw [if_neg h1]; exact hr)
          simpa [Piece.show, h2, h3] using this

end Verif.Fmt
