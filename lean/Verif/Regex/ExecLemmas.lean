import Verif.Regex.Nfa
/- What the threads of the matcher stand for: soundness and completeness of one position. -/
namespace Verif.Regex
open Verif.Utf8 (Byte casefold decodeCp)

theorem does_of {P : Prog} {E : Env} {s r n pc : Nat} {I : Inst} {q : Mid} {x : Nat × Bool × Eff} (hU : Uniform P)
    (hr : rune E.m s = some (r, n)) (hs : Same P.icase r q.r) (hic : q.icase = P.icase)
    (hI : P.insts[pc]? = some I) (he : eff E s q.r q.icase I.op = some x) :
    Does P E s I.op x.2.2 ∧ Same P.icase r x.1 ∧ x.2.1 = P.icase := by
  rw [hic] at he
  obtain ⟨h1, h2⟩ := eff_same (E := E) (s := s) (hU I (List.mem_of_getElem? hI)) hs
  obtain ⟨h3, h4⟩ := h2 x he
  refine ⟨⟨r, n, hr, ?_⟩, h4, h3⟩
  rw [← h1, he]; rfl

/-- What can be matched from here continues something that can be matched from the start of the program. -/
def Lv (P : Prog) (E : Env) (s0 pc i : Nat) (se : Se) : Prop :=
  Pos E s0 se.start ∧ ∀ k j τ, Fut P E k pc i se j τ → ∃ k', Fut P E k' P.start se.start ⟨se.start, noSub⟩ j τ

/-- A match that the program really has. -/
def Good (P : Prog) (E : Env) (s0 : Nat) (b : Match) : Prop :=
  Pos E s0 b.start ∧ ∃ k, Fut P E k P.start b.start ⟨b.start, noSub⟩ b.stop ⟨b.start, b.sub⟩

/-- A match of whole lines. -/
def FullOk (P : Prog) (E : Env) (s0 : Nat) : Prop :=
  ∃ b, Good P E s0 b ∧ (some b.stop = E.eol ∨ (∃ r n, rune E.m b.stop = some (r, n) ∧ (r = 0 ∨ r = 10))) ∧
    (b.start = E.bol ∨ ∃ c, E.m[b.start - 1]? = some c ∧ c.toNat = 10)

/-- What holds between two threads of the same position. -/
structure Snd (P : Prog) (E : Env) (s0 : Nat) (full : Bool) (s r n : Nat) (q : Mid) : Prop where
  same : Same P.icase r q.r
  ic : q.icase = P.icase
  pend : ∀ t ∈ q.pend, Lv P E s0 t.inst s t.se
  nl : r ≠ 0 → some s ≠ E.eol → ∀ t ∈ q.nl, Lv P E s0 t.inst (s + n) t.se
  mp : ∀ b, q.mp = some b → Good P E s0 b
  has : q.matched = true → q.mp.isSome
  fullOk : full = true → q.matched = true → FullOk P E s0
  stop : ∀ b, q.mp = some b → b.stop ≤ s

theorem renewMatch_good {P : Prog} {E : Env} {s0 s : Nat} {mp : Option Match} {se : Se}
    (hm : ∀ b, mp = some b → Good P E s0 b) (hg : Good P E s0 ⟨se.start, s, se.sub⟩) :
    (∀ b, renewMatch mp se s = some b → Good P E s0 b) ∧ (renewMatch mp se s).isSome := by
  unfold renewMatch
  cases mp with
  | none => exact ⟨by rintro b ⟨⟩; exact hg, rfl⟩
  | some b0 =>
    simp only
    split
    · exact ⟨by rintro b ⟨⟩; exact hg, rfl⟩
    · exact ⟨by rintro b ⟨⟩; exact hm _ rfl, rfl⟩

theorem renewMatch_stop {s : Nat} {mp : Option Match} {se : Se} (h : ∀ b, mp = some b → b.stop ≤ s) :
    ∀ b, renewMatch mp se s = some b → b.stop ≤ s := by
  unfold renewMatch
  cases mp with
  | none => rintro b ⟨⟩; exact Nat.le_refl _
  | some b0 =>
    simp only
    split
    · rintro b ⟨⟩; exact Nat.le_refl _
    · rintro b ⟨⟩; exact h _ rfl

theorem setSize_start {se se' : Se} {k s : Nat} (h : setSize se k s = some se') : se'.start = se.start := by
  unfold setSize at h
  cases hb : (se.sub k).buf with
  | none => rw [hb] at h; cases h
  | some b => rw [hb] at h; simp only [Option.map_some, Option.some.injEq] at h; subst h; rfl

theorem chain_sound {P : Prog} {E : Env} {s0 s r n cap d cur : Nat} {full : Bool} (hU : Uniform P)
    (hr : rune E.m s = some (r, n)) : ∀ (f pc : Nat) (se : Se) (q q' : Mid), Lv P E s0 pc s se →
    Snd P E s0 full s r n q → chain P E full cap d cur s f pc se q = some (.ok q') → Snd P E s0 full s r n q'
  | 0, _, _, _, _, _, _, h => by cases h
  | f + 1, pc, se, q, q', hl, hs, h => by
    rw [chain] at h
    cases hI : P.insts[pc]? with
    | none => rw [hI] at h; cases h
    | some I =>
      rw [hI, Option.bind_some] at h
      cases hx : eff E s q.r q.icase I.op with
      | none => rw [hx] at h; cases h
      | some x =>
        rw [hx, Option.bind_some] at h
        obtain ⟨hd, hs1, hs2⟩ := does_of hU hr hs.same hs.ic hI hx
        obtain ⟨x1, x2, x3⟩ := x
        simp only at h hd hs1 hs2
        have hq : Snd P E s0 full s r n { q with r := x1, icase := x2 } := ⟨hs1, hs2, hs.pend, hs.nl, hs.mp, hs.has, hs.fullOk, hs.stop⟩
        cases x3 with
        | go =>
          cases hn : I.next with
          | none => rw [hn] at h; cases h
          | some k =>
            rw [hn] at h
            exact chain_sound hU hr f k se _ q' ⟨hl.1, fun m j τ hf => hl.2 (m + 1) j τ (.go hI hd hn hf)⟩ hq h
        | die =>
          simp only [Option.some.injEq, Out.ok.injEq] at h
          subst h; exact hq
        | eat =>
          cases hn : I.next with
          | none => rw [hn] at h; cases h
          | some k =>
            rw [hn] at h
            simp only [Option.bind_some, eat] at h
            cases hw : renew cap 0 q.nl k se with
            | none => rw [hw] at h; cases h
            | some y =>
              rw [hw] at h
              obtain ⟨y1, y2⟩ := y
              cases y1 with
              | true => simp at h
              | false =>
                simp only [Option.map_some, Bool.false_eq_true, if_false, Option.some.injEq, Out.ok.injEq] at h
                subst h
                refine ⟨hs1, hs2, hs.pend, ?_, hs.mp, hs.has, hs.fullOk, hs.stop⟩
                intro h0 h1 t ht
                rcases (renew_facts hw).1 t ht with ht | rfl
                · exact hs.nl h0 h1 t ht
                · exact ⟨hl.1, fun m j τ hf => hl.2 (m + 1) j τ (.eat hI hd hn ⟨r, n, hr, h0, h1, rfl⟩ hf)⟩
        | opening g =>
          cases hn : I.next with
          | none => rw [hn] at h; cases h
          | some k =>
            rw [hn] at h
            exact chain_sound hU hr f k (setBuf se g s) _ q' ⟨hl.1, fun m j τ hf => hl.2 (m + 1) j τ (.opening hI hd hn hf)⟩ hq h
        | closing g =>
          simp only at h
          cases hz : setSize se g s with
          | none => rw [hz] at h; cases h
          | some se' =>
            rw [hz] at h
            cases hn : I.next with
            | none => rw [hn] at h; cases h
            | some k =>
              rw [hn] at h
              have e := setSize_start hz
              refine chain_sound hU hr f k se' _ q' ⟨by rw [e]; exact hl.1, fun m j τ hf => ?_⟩ hq h
              rw [e]
              exact hl.2 (m + 1) j τ (.closing hI hd hn hz hf)
        | fork g =>
          simp only [fork] at h
          cases hw : renew cap d (⟨cur, se⟩ :: q.pend) g se with
          | none => rw [hw] at h; cases h
          | some y =>
            rw [hw] at h
            obtain ⟨y1, y2⟩ := y
            cases y1 with
            | true => simp at h
            | false =>
              simp only [Option.map_some, Bool.false_eq_true, if_false, Option.bind_some] at h
              cases hn : I.next with
              | none => rw [hn] at h; cases h
              | some k =>
                rw [hn] at h
                refine chain_sound hU hr f k se _ q' ⟨hl.1, fun m j τ hf => hl.2 (m + 1) j τ (.left hI hd hn hf)⟩ ?_ h
                refine ⟨hs1, hs2, ?_, hs.nl, hs.mp, hs.has, hs.fullOk, hs.stop⟩
                intro t ht
                rcases (renew_head hw).2 t ht with ht | rfl
                · exact hs.pend t ht
                · exact ⟨hl.1, fun m j τ hf => hl.2 (m + 1) j τ (.right hI hd hf)⟩
        | fin =>
          simp only [finish] at h
          cases hw : finMatch E full s x1 se.start with
          | none => rw [hw] at h; cases h
          | some y =>
            rw [hw] at h
            simp only [Option.map_some, Option.some.injEq, Out.ok.injEq] at h
            subst h
            have hg : Good P E s0 ⟨se.start, s, se.sub⟩ := ⟨hl.1, hl.2 0 s se (.fin hI hd)⟩
            have hm := renewMatch_good hs.mp hg
            refine ⟨hs1, hs2, hs.pend, hs.nl, hm.1, fun _ => hm.2, ?_, renewMatch_stop hs.stop⟩
            intro hfull hy
            simp only at hy
            subst hy hfull
            refine ⟨_, hg, ?_⟩
            simp only [finMatch, not_true_eq_false, if_false] at hw
            split at hw
            · rename_i hc
              constructor
              · rcases hc with hc | hc | hc
                · exact .inl hc
                · exact .inr ⟨r, n, hr, .inl ((same_zero hs1).1 hc)⟩
                · exact .inr ⟨r, n, hr, .inr ((same_nl hs1).1 hc)⟩
              · split at hw
                · rename_i hb; exact .inl hb
                · split at hw
                  · cases hw
                  · cases hb : E.m[se.start - 1]? with
                    | none => rw [hb] at hw; cases hw
                    | some c =>
                      rw [hb] at hw
                      simp only [Option.bind_some, Option.some.injEq, beq_iff_eq] at hw
                      exact .inr ⟨c, rfl, hw⟩
            · simp at hw

theorem threads_sound {P : Prog} {E : Env} {s0 s r n cap : Nat} {full : Bool} (hU : Uniform P)
    (hr : rune E.m s = some (r, n)) : ∀ (f d : Nat) (l : List Thread) (q q' : Mid), (∀ t ∈ l, Lv P E s0 t.inst s t.se) →
    Snd P E s0 full s r n q → threads P E full cap s f d l q = some (.ok q') → Snd P E s0 full s r n q'
  | 0, _, _, _, _, _, _, h => by cases h
  | f + 1, d, [], q, q', _, hs, h => by
    simp only [threads, Option.some.injEq, Out.ok.injEq] at h
    subst h; exact hs
  | f + 1, d, t :: ts, q, q', hl, hs, h => by
    rw [threads] at h
    cases hc : chain P E full cap d t.inst s (P.insts.length + 1) t.inst t.se { q with pend := ts } with
    | none => rw [hc] at h; cases h
    | some o =>
      rw [hc] at h
      cases o with
      | full => simp at h
      | ok q1 =>
        have h1 := chain_sound hU hr _ _ _ _ q1 (hl t List.mem_cons_self)
          (⟨hs.same, hs.ic, fun x hx => hl x (List.mem_cons_of_mem _ hx), hs.nl, hs.mp, hs.has, hs.fullOk, hs.stop⟩ : Snd P E s0 full s r n { q with pend := ts }) hc
        exact threads_sound hU hr f (d + 1) q1.pend q1 q' h1.pend h1 h

/-! ### completeness -/

/-- The recorded match begins before `b`, or begins there and does not end before `i`. -/
def Rec (mp : Option Match) (b i : Nat) : Prop := ∃ m, mp = some m ∧ (m.start < b ∨ (m.start = b ∧ i ≤ m.stop))

theorem Rec.mono {mp : Option Match} {b b' i : Nat} (h : Rec mp b i) (hb : b ≤ b') : Rec mp b' i := by
  obtain ⟨m, e, h⟩ := h
  refine ⟨m, e, ?_⟩
  rcases h with h | ⟨h, h2⟩
  · left; omega
  · by_cases h3 : m.start < b'
    · exact .inl h3
    · exact .inr ⟨by omega, h2⟩

/-- The record only improves. -/
def MpLe (mp mp' : Option Match) : Prop := ∀ b i, Rec mp b i → Rec mp' b i

theorem renewMatch_rec (mp : Option Match) (se : Se) (s : Nat) : MpLe mp (renewMatch mp se s) ∧ Rec (renewMatch mp se s) se.start s := by
  unfold renewMatch
  cases mp with
  | none =>
    refine ⟨?_, _, rfl, .inr ⟨rfl, Nat.le_refl _⟩⟩
    rintro b i ⟨m, h, -⟩; cases h
  | some b0 =>
    simp only
    split
    · rename_i hc
      refine ⟨?_, _, rfl, .inr ⟨rfl, Nat.le_refl _⟩⟩
      rintro b i ⟨m, h, h2⟩
      cases h
      refine ⟨_, rfl, ?_⟩
      simp only
      omega
    · rename_i hc
      refine ⟨fun b i h => h, b0, rfl, ?_⟩
      omega

/-- One thread has been executed: everything matched through it is recorded, or left to a thread of
the next position, or to another thread of this position in fewer steps. -/
structure Cmp (P : Prog) (E : Env) (s r n cur : Nat) (b : Nat) (q q' : Mid) : Prop where
  same : Same P.icase r q'.r
  ic : q'.icase = P.icase
  nl : Cover q.nl q'.nl
  pend : Cover (⟨cur, ⟨b, noSub⟩⟩ :: q.pend) (⟨cur, ⟨b, noSub⟩⟩ :: q'.pend)
  mp : MpLe q.mp q'.mp
  has : (q.matched = q.mp.isSome) → (q'.matched = q'.mp.isSome)

theorem Cmp.trans {P : Prog} {E : Env} {s r n cur b : Nat} {q q1 q' : Mid} (h : Cmp P E s r n cur b q q1) (h' : Cmp P E s r n cur b q1 q') :
    Cmp P E s r n cur b q q' :=
  ⟨h'.same, h'.ic, h.nl.trans h'.nl, h.pend.trans h'.pend, fun b i x => h'.mp b i (h.mp b i x), fun x => h'.has (h.has x)⟩

/-- Where the matches through instruction `pc` have gone. -/
def Went (P : Prog) (E : Env) (s n cur : Nat) (b : Nat) (q' : Mid) (m pc j : Nat) : Prop :=
  F P E m pc s j → (j = s ∧ Rec q'.mp b s) ∨ (∃ t ∈ q'.nl, t.se.start ≤ b ∧ ∃ m', F P E m' t.inst (s + n) j) ∨
    (∃ t ∈ (⟨cur, ⟨b, noSub⟩⟩ :: q'.pend : List Thread), t.se.start ≤ b ∧ ∃ m' < m, F P E m' t.inst s j)

theorem does_unique {P : Prog} {E : Env} {s : Nat} {o : Op} {e e' : Eff} (h : Does P E s o e) (h' : Does P E s o e') : e = e' := by
  obtain ⟨r, n, h1, h2⟩ := h
  obtain ⟨r', n', h3, h4⟩ := h'
  rw [h1] at h3; cases h3
  rw [h2] at h4; exact Option.some.inj h4

theorem Cmp.start {P : Prog} {E : Env} {s r n cur b : Nat} {q : Mid} {x1 : Nat} {x2 : Bool} (h1 : Same P.icase r x1) (h2 : x2 = P.icase) :
    Cmp P E s r n cur b q { q with r := x1, icase := x2 } :=
  ⟨h1, h2, Cover.refl _, Cover.refl _, fun _ _ h => h, fun h => h⟩

theorem went_next {P : Prog} {E : Env} {s n cur b : Nat} {q' : Mid} {m k j : Nat} (h : ∀ m j, Went P E s n cur b q' m k j) (hf : F P E m k s j) :
    (j = s ∧ Rec q'.mp b s) ∨ (∃ t ∈ q'.nl, t.se.start ≤ b ∧ ∃ m', F P E m' t.inst (s + n) j) ∨
    (∃ t ∈ (⟨cur, ⟨b, noSub⟩⟩ :: q'.pend : List Thread), t.se.start ≤ b ∧ ∃ m' < m + 1, F P E m' t.inst s j) := by
  rcases h m j hf with h | h | ⟨t, ht, hb, m', hm, hf⟩
  · exact .inl h
  · exact .inr (.inl h)
  · exact .inr (.inr ⟨t, ht, hb, m', by omega, hf⟩)

theorem cover_start {cur b : Nat} {se : Se} {l l' : List Thread} (hb : se.start = b)
    (h : Cover (⟨cur, se⟩ :: l) (⟨cur, se⟩ :: l')) : Cover (⟨cur, ⟨b, noSub⟩⟩ :: l) (⟨cur, ⟨b, noSub⟩⟩ :: l') := by
  subst hb
  intro t ht
  have key : ∀ u : Thread, u ∈ (⟨cur, se⟩ :: l : List Thread) → ∃ t' ∈ (⟨cur, ⟨se.start, noSub⟩⟩ :: l' : List Thread), t'.inst = u.inst ∧ t'.se.start ≤ u.se.start := by
    intro u hu
    obtain ⟨v, hv, e1, e2⟩ := h u hu
    rcases List.mem_cons.1 hv with rfl | hv
    · exact ⟨_, List.mem_cons_self, e1, e2⟩
    · exact ⟨v, List.mem_cons_of_mem _ hv, e1, e2⟩
  rcases List.mem_cons.1 ht with rfl | ht
  · exact key ⟨cur, se⟩ List.mem_cons_self
  · exact key t (List.mem_cons_of_mem _ ht)

theorem chain_complete {P : Prog} {E : Env} {s r n cap d cur b : Nat} (hU : Uniform P)
    (hr : rune E.m s = some (r, n)) : ∀ (f pc : Nat) (se : Se) (q q' : Mid), se.start = b → Same P.icase r q.r → q.icase = P.icase →
    chain P E false cap d cur s f pc se q = some (.ok q') → Cmp P E s r n cur b q q' ∧ ∀ m j, Went P E s n cur b q' m pc j
  | 0, _, _, _, _, _, _, _, h => by cases h
  | f + 1, pc, se, q, q', hb, hsm, hic, h => by
    rw [chain] at h
    cases hI : P.insts[pc]? with
    | none => rw [hI] at h; cases h
    | some I =>
      rw [hI, Option.bind_some] at h
      cases hx : eff E s q.r q.icase I.op with
      | none => rw [hx] at h; cases h
      | some x =>
        rw [hx, Option.bind_some] at h
        obtain ⟨hd, hs1, hs2⟩ := does_of hU hr hsm hic hI hx
        obtain ⟨x1, x2, x3⟩ := x
        simp only at h hd hs1 hs2
        have hq : Cmp P E s r n cur b q { q with r := x1, icase := x2 } := Cmp.start hs1 hs2
        -- the instruction is known
        have inv : ∀ {m j}, F P E m pc s j → 
            (x3 = .fin ∧ m = 0 ∧ j = s) ∨
            (∃ m1 k, m = m1 + 1 ∧ I.next = some k ∧ F P E m1 k s j ∧ (x3 = .go ∨ (∃ g, x3 = .opening g) ∨ (∃ g, x3 = .closing g) ∨ ∃ g, x3 = .fork g)) ∨
            (∃ m1 g, m = m1 + 1 ∧ x3 = .fork g ∧ F P E m1 g s j) ∨
            (∃ m1 k, m = m1 + 1 ∧ x3 = .eat ∧ I.next = some k ∧ F P E m1 k (s + n) j) := by
          intro m j hf
          have one : ∀ {J : Inst} {e : Eff}, P.insts[pc]? = some J → Does P E s J.op e → J = I ∧ x3 = e := by
            intro J e h1 h2
            have : J = I := Option.some.inj (h1.symm.trans hI)
            subst this
            exact ⟨rfl, does_unique hd h2⟩
          cases hf with
          | fin a c => exact .inl ⟨(one a c).2, rfl, rfl⟩
          | go a c e g => obtain ⟨rfl, z⟩ := one a c; exact .inr (.inl ⟨_, _, rfl, e, g, .inl z⟩)
          | opening a c e g => obtain ⟨rfl, z⟩ := one a c; exact .inr (.inl ⟨_, _, rfl, e, g, .inr (.inl ⟨_, z⟩)⟩)
          | closing a c e g => obtain ⟨rfl, z⟩ := one a c; exact .inr (.inl ⟨_, _, rfl, e, g, .inr (.inr (.inl ⟨_, z⟩))⟩)
          | left a c e g => obtain ⟨rfl, z⟩ := one a c; exact .inr (.inl ⟨_, _, rfl, e, g, .inr (.inr (.inr ⟨_, z⟩))⟩)
          | right a c g => obtain ⟨rfl, z⟩ := one a c; exact .inr (.inr (.inl ⟨_, _, rfl, z, g⟩))
          | eat a c e st g =>
            obtain ⟨rfl, z⟩ := one a c
            obtain ⟨r', n', w1, w2, w3, rfl⟩ := st
            rw [hr] at w1; cases w1
            exact .inr (.inr (.inr ⟨_, _, rfl, z, e, g⟩))
        cases x3 with
        | go =>
          cases hn : I.next with
          | none => rw [hn] at h; cases h
          | some k =>
            rw [hn] at h
            obtain ⟨i1, i2⟩ := chain_complete hU hr f k se _ q' hb hs1 hs2 h
            refine ⟨hq.trans i1, ?_⟩
            intro m j hf
            rcases inv hf with ⟨z, -⟩ | ⟨m1, k', rfl, z, hf', -⟩ | ⟨m1, g, -, z, -⟩ | ⟨m1, k', -, z, -⟩
            · cases z
            · rw [hn] at z; cases z; exact went_next i2 hf'
            · cases z
            · cases z
        | die =>
          simp only [Option.some.injEq, Out.ok.injEq] at h
          subst h
          refine ⟨hq, ?_⟩
          intro m j hf
          rcases inv hf with ⟨z, -⟩ | ⟨m1, k', -, -, -, z | ⟨g, z⟩ | ⟨g, z⟩ | ⟨g, z⟩⟩ | ⟨m1, g, -, z, -⟩ | ⟨m1, k', -, z, -⟩ <;> cases z
        | eat =>
          cases hn : I.next with
          | none => rw [hn] at h; cases h
          | some k =>
            rw [hn] at h
            simp only [Option.bind_some, eat] at h
            cases hw : renew cap 0 q.nl k se with
            | none => rw [hw] at h; cases h
            | some y =>
              rw [hw] at h
              obtain ⟨y1, y2⟩ := y
              cases y1 with
              | true => simp at h
              | false =>
                simp only [Option.map_some, Bool.false_eq_true, if_false, Option.some.injEq, Out.ok.injEq] at h
                subst h
                obtain ⟨-, w2, t, ht, e1, e2⟩ := renew_facts hw
                refine ⟨⟨hs1, hs2, w2, Cover.refl _, fun _ _ h => h, fun h => h⟩, ?_⟩
                intro m j hf
                rcases inv hf with ⟨z, -⟩ | ⟨m1, k', -, -, -, z | ⟨g, z⟩ | ⟨g, z⟩ | ⟨g, z⟩⟩ | ⟨m1, g, -, z, -⟩ | ⟨m1, k', -, -, z, hf'⟩
                · cases z
                · cases z
                · cases z
                · cases z
                · cases z
                · cases z
                · rw [hn] at z; cases z
                  exact .inr (.inl ⟨t, ht, by omega, m1, by rw [e1]; exact hf'⟩)
        | opening g =>
          cases hn : I.next with
          | none => rw [hn] at h; cases h
          | some k =>
            rw [hn] at h
            obtain ⟨i1, i2⟩ := chain_complete hU hr f k (setBuf se g s) _ q' hb hs1 hs2 h
            refine ⟨hq.trans i1, ?_⟩
            intro m j hf
            rcases inv hf with ⟨z, -⟩ | ⟨m1, k', rfl, z, hf', -⟩ | ⟨m1, g, -, z, -⟩ | ⟨m1, k', -, z, -⟩
            · cases z
            · rw [hn] at z; cases z; exact went_next i2 hf'
            · cases z
            · cases z
        | closing g =>
          simp only at h
          cases hz : setSize se g s with
          | none => rw [hz] at h; cases h
          | some se' =>
            rw [hz] at h
            cases hn : I.next with
            | none => rw [hn] at h; cases h
            | some k =>
              rw [hn] at h
              obtain ⟨i1, i2⟩ := chain_complete hU hr f k se' _ q' ((setSize_start hz).trans hb) hs1 hs2 h
              refine ⟨hq.trans i1, ?_⟩
              intro m j hf
              rcases inv hf with ⟨z, -⟩ | ⟨m1, k', rfl, z, hf', -⟩ | ⟨m1, g, -, z, -⟩ | ⟨m1, k', -, z, -⟩
              · cases z
              · rw [hn] at z; cases z; exact went_next i2 hf'
              · cases z
              · cases z
        | fork g =>
          simp only [fork] at h
          cases hw : renew cap d (⟨cur, se⟩ :: q.pend) g se with
          | none => rw [hw] at h; cases h
          | some y =>
            rw [hw] at h
            obtain ⟨y1, y2⟩ := y
            cases y1 with
            | true => simp at h
            | false =>
              simp only [Option.map_some, Bool.false_eq_true, if_false, Option.bind_some] at h
              cases hn : I.next with
              | none => rw [hn] at h; cases h
              | some k =>
                rw [hn] at h
                obtain ⟨-, w2, t, ht, e1, e2⟩ := renew_facts hw
                have w3 := (renew_head hw).1
                rw [w3] at w2 ht
                have w4 := cover_start hb w2
                obtain ⟨i1, i2⟩ := chain_complete hU hr f k se _ q' hb hs1 hs2 h
                have hq1 : Cmp P E s r n cur b q { q with r := x1, icase := x2, pend := y2.tail } :=
                  ⟨hs1, hs2, Cover.refl _, w4, fun _ _ h => h, fun h => h⟩
                refine ⟨hq1.trans i1, ?_⟩
                intro m j hf
                rcases inv hf with ⟨z, -⟩ | ⟨m1, k', rfl, z, hf', -⟩ | ⟨m1, g', rfl, z, hf'⟩ | ⟨m1, k', -, z, -⟩
                · cases z
                · rw [hn] at z; cases z; exact went_next i2 hf'
                · cases z
                  have : ∃ u ∈ (⟨cur, ⟨b, noSub⟩⟩ :: y2.tail : List Thread), u.inst = g ∧ u.se.start ≤ b := by
                    rcases List.mem_cons.1 ht with rfl | ht
                    · exact ⟨_, List.mem_cons_self, e1, Nat.le_refl _⟩
                    · exact ⟨t, List.mem_cons_of_mem _ ht, e1, by omega⟩
                  obtain ⟨u, hu, eu, lu⟩ := this
                  obtain ⟨v, hv, ev, lv⟩ := i1.pend u hu
                  exact .inr (.inr ⟨v, hv, by omega, m1, by omega, by rw [ev, eu]; exact hf'⟩)
                · cases z
        | fin =>
          simp only [finish, finMatch] at h
          simp only [Bool.false_eq_true, not_false_eq_true, if_true, Option.map_some, Option.some.injEq, Out.ok.injEq] at h
          subst h
          obtain ⟨w1, w2⟩ := renewMatch_rec q.mp se s
          refine ⟨⟨hs1, hs2, Cover.refl _, Cover.refl _, w1, fun _ => ?_⟩, ?_⟩
          · obtain ⟨m, e, -⟩ := w2
            simp only [e]; rfl
          · intro m j hf
            rcases inv hf with ⟨-, -, rfl⟩ | ⟨m1, k', -, -, -, z | ⟨g, z⟩ | ⟨g, z⟩ | ⟨g, z⟩⟩ | ⟨m1, g, -, z, -⟩ | ⟨m1, k', -, z, -⟩
            · exact .inl ⟨rfl, hb ▸ w2⟩
            all_goals cases z

/-- All threads of a position have been executed. -/
theorem threads_complete {P : Prog} {E : Env} {s r n cap : Nat} (hU : Uniform P) (hr : rune E.m s = some (r, n)) :
    ∀ (f d : Nat) (l : List Thread) (q q' : Mid), Same P.icase r q.r → q.icase = P.icase → threads P E false cap s f d l q = some (.ok q') →
    Same P.icase r q'.r ∧ q'.icase = P.icase ∧ Cover q.nl q'.nl ∧ MpLe q.mp q'.mp ∧ ((q.matched = q.mp.isSome) → (q'.matched = q'.mp.isSome)) ∧
    ∀ t ∈ l, ∀ m j, F P E m t.inst s j → (j = s ∧ Rec q'.mp t.se.start s) ∨ (∃ t' ∈ q'.nl, t'.se.start ≤ t.se.start ∧ ∃ m', F P E m' t'.inst (s + n) j)
  | 0, _, _, _, _, _, _, h => by cases h
  | f + 1, d, [], q, q', h1, h2, h => by
    simp only [threads, Option.some.injEq, Out.ok.injEq] at h
    subst h
    exact ⟨h1, h2, Cover.refl _, fun _ _ h => h, fun h => h, by simp⟩
  | f + 1, d, t :: ts, q, q', h1, h2, h => by
    rw [threads] at h
    cases hc : chain P E false cap d t.inst s (P.insts.length + 1) t.inst t.se { q with pend := ts } with
    | none => rw [hc] at h; cases h
    | some o =>
      rw [hc] at h
      cases o with
      | full => simp at h
      | ok q1 =>
        obtain ⟨c1, c2⟩ := chain_complete hU hr _ _ _ { q with pend := ts } q1 rfl h1 h2 hc
        obtain ⟨i1, i2, i3, i4, i5, i6⟩ := threads_complete hU hr f (d + 1) q1.pend q1 q' c1.same c1.ic h
        have hcur : ∀ m j, F P E m t.inst s j → (j = s ∧ Rec q'.mp t.se.start s) ∨ (∃ t' ∈ q'.nl, t'.se.start ≤ t.se.start ∧ ∃ m', F P E m' t'.inst (s + n) j) := by
          intro m
          induction m using Nat.strongRecOn with
          | _ m ih =>
            intro j hf
            rcases c2 m j hf with ⟨z, hrec⟩ | ⟨u, hu, lu, m', hf'⟩ | ⟨u, hu, lu, m', hm, hf'⟩
            · exact .inl ⟨z, i4 _ _ hrec⟩
            · obtain ⟨v, hv, ev, lv⟩ := i3 u hu
              exact .inr ⟨v, hv, by omega, m', by rw [ev]; exact hf'⟩
            · rcases List.mem_cons.1 hu with rfl | hu
              · exact ih m' hm j hf'
              · rcases i6 u hu m' j hf' with ⟨z, hrec⟩ | ⟨v, hv, lv, x⟩
                · exact .inl ⟨z, hrec.mono lu⟩
                · exact .inr ⟨v, hv, by omega, x⟩
        refine ⟨i1, i2, c1.nl.trans i3, fun b i x => i4 b i (c1.mp b i x), fun x => i5 (c1.has x), ?_⟩
        intro u hu m j hf
        rcases List.mem_cons.1 hu with rfl | hu
        · exact hcur m j hf
        · obtain ⟨v, hv, ev, lv⟩ := c1.pend u (List.mem_cons_of_mem _ hu)
          rw [← ev] at hf
          have : (j = s ∧ Rec q'.mp v.se.start s) ∨ (∃ t' ∈ q'.nl, t'.se.start ≤ v.se.start ∧ ∃ m', F P E m' t'.inst (s + n) j) := by
            rcases List.mem_cons.1 hv with rfl | hv
            · exact hcur m j hf
            · exact i6 v hv m j hf
          rcases this with ⟨z, hrec⟩ | ⟨w, hw, lw, x⟩
          · exact .inl ⟨z, hrec.mono lv⟩
          · exact .inr ⟨w, hw, by omega, x⟩

end Verif.Regex
