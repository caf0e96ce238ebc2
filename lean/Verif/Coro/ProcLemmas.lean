import Verif.Coro.ProcSpec
import Mathlib.Tactic.Common
/- Lemmas for tasks as procedures. -/
namespace Verif.Coro.Proc
open Spec
variable {σ : Type} {P : Nat → Task σ}

/-! ### steps -/

/-- `n` steps. -/
inductive StepsN (P : Nat → Task σ) : Nat → Cfg σ × List (σ → σ) → Cfg σ × List (σ → σ) → Prop
  | refl {x : Cfg σ × List (σ → σ)} : StepsN P 0 x x
  | step {n : Nat} {x y z : Cfg σ × List (σ → σ)} : step P x = some y → StepsN P n y z → StepsN P (n + 1) x z

/-- Some steps. -/
def Steps (P : Nat → Task σ) (x y : Cfg σ × List (σ → σ)) : Prop := ∃ n, StepsN P n x y

/-- At least `f` steps are possible. -/
def Long (P : Nat → Task σ) (f : Nat) (x : Cfg σ × List (σ → σ)) : Prop := ∃ n y, f ≤ n ∧ StepsN P n x y

theorem StepsN.trans {n m : Nat} {x y z : Cfg σ × List (σ → σ)} (h : StepsN P n x y) (h' : StepsN P m y z) : StepsN P (n + m) x z := by
  induction h with
  | refl => simpa using h'
  | step e _ ih => have := StepsN.step e (ih h'); rw [Nat.add_right_comm] at this; exact this

theorem Steps.refl {x : Cfg σ × List (σ → σ)} : Steps P x x := ⟨0, .refl⟩
theorem Steps.trans {x y z : Cfg σ × List (σ → σ)} : Steps P x y → Steps P y z → Steps P x z :=
  fun ⟨n, h⟩ ⟨m, h'⟩ => ⟨n + m, h.trans h'⟩
theorem Steps.head {x y z : Cfg σ × List (σ → σ)} (e : step P x = some y) : Steps P y z → Steps P x z :=
  fun ⟨n, h⟩ => ⟨n + 1, .step e h⟩
theorem Steps.one {x y : Cfg σ × List (σ → σ)} (e : step P x = some y) : Steps P x y := .head e .refl

theorem Long.zero {x : Cfg σ × List (σ → σ)} : Long P 0 x := ⟨0, x, Nat.le_refl _, .refl⟩
theorem Long.head {f : Nat} {x y : Cfg σ × List (σ → σ)} (e : step P x = some y) : Long P f y → Long P (f + 1) x :=
  fun ⟨n, z, hn, h⟩ => ⟨n + 1, z, by omega, .step e h⟩
theorem Long.steps {f : Nat} {x y : Cfg σ × List (σ → σ)} : Steps P x y → Long P f y → Long P f x :=
  fun ⟨n, h⟩ ⟨m, z, hm, h'⟩ => ⟨n + m, z, by omega, h.trans h'⟩
theorem Long.mono {f g : Nat} {x : Cfg σ × List (σ → σ)} (hg : g ≤ f) : Long P f x → Long P g x :=
  fun ⟨n, z, hn, h⟩ => ⟨n, z, by omega, h⟩

/-! ### labels -/

theorem find_lines {n : Nat} : ∀ {s : Stmt σ} {k k' : List (Frame σ)}, find n s k = some k' → n ∈ lines s := by
  intro s
  induction s with
  | seq a b iha ihb =>
    intro k k' h
    rw [find, Option.or_eq_some_iff] at h
    rw [lines, List.mem_append]
    rcases h with h | ⟨-, h⟩
    · exact .inl (iha h)
    · exact .inr (ihb h)
  | ite c a b iha ihb =>
    intro k k' h
    rw [find, Option.or_eq_some_iff] at h
    rw [lines, List.mem_append]
    rcases h with h | ⟨-, h⟩
    · exact .inl (iha h)
    · exact .inr (ihb h)
  | loop c a ih => intro k k' h; exact ih h
  | yield m v =>
    intro k k' h
    simp only [find] at h
    split at h
    · rename_i e; simp [lines, e]
    · cases h
  | await m c =>
    intro k k' h
    simp only [find] at h
    split at h
    · rename_i e; simp [lines, e]
    · cases h
  | _ => intro k k' h; simp [find] at h

/-- The labels of a statement in place are where the `switch` jumps to. -/
def Loc (p : Task σ) (s : Stmt σ) (k : List (Frame σ)) : Prop :=
  (lines s).Nodup ∧ ∀ n k', find n s k = some k' → jump p n = k'

theorem Loc.seq {p : Task σ} {a b : Stmt σ} {k : List (Frame σ)} (h : Loc p (.seq a b) k) : Loc p a (.stmt b :: k) ∧ Loc p b k := by
  obtain ⟨h1, h2⟩ := h
  rw [lines, List.nodup_append] at h1
  refine ⟨⟨h1.1, fun n k' hk => h2 n k' (by rw [find, hk]; rfl)⟩, h1.2.1, fun n k' hk => h2 n k' ?_⟩
  rw [find]
  cases hf : find n a (.stmt b :: k) with
  | none => exact hk
  | some k2 => exact absurd rfl (h1.2.2 n (find_lines hf) n (find_lines hk))

theorem Loc.ite {p : Task σ} {c : Int → σ → Bool} {a b : Stmt σ} {k : List (Frame σ)} (h : Loc p (.ite c a b) k) : Loc p a k ∧ Loc p b k := by
  obtain ⟨h1, h2⟩ := h
  rw [lines, List.nodup_append] at h1
  refine ⟨⟨h1.1, fun n k' hk => h2 n k' (by rw [find, hk]; rfl)⟩, h1.2.1, fun n k' hk => h2 n k' ?_⟩
  rw [find]
  cases hf : find n a k with
  | none => exact hk
  | some k2 => exact absurd rfl (h1.2.2 n (find_lines hf) n (find_lines hk))

theorem Loc.of_nil {p : Task σ} {s : Stmt σ} {k : List (Frame σ)} (h : lines s = []) : Loc p s k := by
  refine ⟨by simp [h], fun n k' hf => ?_⟩
  have := find_lines hf
  simp [h] at this

theorem Loc.body {p : Task σ} (hw : Written p) : Loc p p.body [.final, .stmt p.fin] := by
  refine ⟨hw.lines, fun n k' hf => ?_⟩
  have := hw.pos n (find_lines hf)
  rw [jump, if_neg (by omega), if_neg (by simp [FINALLY]), if_pos (by omega), Int.toNat_natCast, hf]
  rfl

theorem jump_zero (p : Task σ) : jump p 0 = [.stmt p.body, .final, .stmt p.fin] := by rw [jump, if_pos rfl]
theorem jump_finally (p : Task σ) : jump p FINALLY = [.stmt p.fin] := by rw [jump, if_neg (by decide), if_pos rfl]
theorem jump_done (p : Task σ) : jump p DONE = [] := by rw [jump, if_neg (by decide), if_neg (by decide), if_neg (by decide)]
theorem stop_nonneg {s : Int} (h : 0 ≤ s) : stopState s = FINALLY := if_pos h
theorem stop_finally : stopState FINALLY = DONE := by decide

/-! ### the simulation -/

/-- In the body the state stays a label or 0, behind `cco_finally` nothing changes. -/
def Keep (b : Bool) (st rec st' rec' : Int) : Prop := if b then 0 ≤ st' else st' = st ∧ rec' = rec

/-- Where the fiber is when the interpreter says that a statement (in the body if `b`, followed by `k`) ends
this way. -/
def Post (P : Nat → Task σ) (b : Bool) (r : Nat) (k : List (Frame σ)) (st : Int) (ps : List (Nat × Int)) (err rec : Int)
    (x : Cfg σ × List (σ → σ)) (d : σ) (w : List (σ → σ)) : Out → Prop
  | .norm => ∃ st' rec', Steps P x (.run k r st' ps err rec' d, w) ∧ Keep b st rec st' rec'
  | .brk => ∃ st' rec', Steps P x (.run (breakTo k) r st' ps err rec' d, w) ∧ Keep b st rec st' rec'
  | .cont => ∃ st' rec', Steps P x (.run (contTo k) r st' ps err rec' d, w) ∧ Keep b st rec st' rec'
  | .ret e => if b then ∃ rec', Steps P x (.run [.stmt (P r).fin] r FINALLY ps e rec' d, w) else Steps P x (.run [] r DONE ps e rec d, w)
  | .recovers => b = false ∧ Steps P x (.run (jump (P r) rec) r rec ps 0 rec d, w)
  | .over e => b = true ∧ ∃ st' rec', Steps P x (.run [] r st' ps e rec' d, w)
  | .susp => b = true ∧ w = [] ∧ ∃ q qs rec', Steps P x (.pause (q :: qs) rec' d, [])
  | .wild => b = true

/-- The statement belongs to the body or is behind `cco_finally`. -/
def Mode (b : Bool) (s : Stmt σ) (st err : Int) : Prop :=
  if b then 0 ≤ st ∧ err = 0 ∧ tame s = true else st = FINALLY ∧ lines s = []

/-- The interpreter and the fiber agree about statements, up to `f`. -/
def Sim (P : Nat → Task σ) (f : Nat) (ev : Ev σ) : Prop :=
  ∀ b r s k st ps err rec d w, Loc (P r) s k → Mode b s st err →
    (ev r s err d w = none → Long P f (.run (.stmt s :: k) r st ps err rec d, w)) ∧
    ∀ d' w' o, ev r s err d w = some (d', w', o) → Post P b r k st ps err rec (.run (.stmt s :: k) r st ps err rec d, w) d' w' o

theorem Post.head {b : Bool} {r : Nat} {k : List (Frame σ)} {st st1 : Int} {ps : List (Nat × Int)} {err rec rec1 : Int}
    {x y : Cfg σ × List (σ → σ)} {d : σ} {w : List (σ → σ)} {o : Out} (h : Steps P x y) (hk : Keep b st rec st1 rec1)
    (hp : Post P b r k st1 ps err rec1 y d w o) : Post P b r k st ps err rec x d w o := by
  have hk' : ∀ {s2 r2 : Int}, Keep b st1 rec1 s2 r2 → Keep b st rec s2 r2 := by
    intro s2 r2 h2
    unfold Keep at *
    cases b
    · simp only [Bool.false_eq_true, if_false] at *; omega
    · simpa using h2
  cases o with
  | norm => obtain ⟨a, c, h1, h2⟩ := hp; exact ⟨a, c, h.trans h1, hk' h2⟩
  | brk => obtain ⟨a, c, h1, h2⟩ := hp; exact ⟨a, c, h.trans h1, hk' h2⟩
  | cont => obtain ⟨a, c, h1, h2⟩ := hp; exact ⟨a, c, h.trans h1, hk' h2⟩
  | ret e =>
    cases b
    · have := (show _ = _ ∧ _ = _ from hk).2
      subst this
      exact h.trans hp
    · obtain ⟨c, h1⟩ := hp; exact ⟨c, h.trans h1⟩
  | recovers =>
    obtain ⟨hb, h1⟩ := hp
    subst hb
    have := (show _ = _ ∧ _ = _ from hk).2
    subst this
    exact ⟨rfl, h.trans h1⟩
  | over e => obtain ⟨hb, a, c, h1⟩ := hp; exact ⟨hb, a, c, h.trans h1⟩
  | susp => obtain ⟨hb, hw, q, qs, c, h1⟩ := hp; exact ⟨hb, hw, q, qs, c, h.trans h1⟩
  | wild => exact hp

/-- Ends that leave the statements around as well. -/
theorem Post.out {b : Bool} {r : Nat} {k k' : List (Frame σ)} {st : Int} {ps : List (Nat × Int)} {err rec : Int}
    {x : Cfg σ × List (σ → σ)} {d : σ} {w : List (σ → σ)} {o : Out} (hb : breakTo k = breakTo k') (hc : contTo k = contTo k')
    (ho : o ≠ .norm) (hp : Post P b r k st ps err rec x d w o) : Post P b r k' st ps err rec x d w o := by
  cases o with
  | norm => exact absurd rfl ho
  | brk => simpa only [Post, hb] using hp
  | cont => simpa only [Post, hc] using hp
  | _ => exact hp

theorem Keep.mode {b : Bool} {s s' : Stmt σ} {st rec st' rec' err : Int} (hk : Keep b st rec st' rec') (hm : Mode b s st err)
    (ht : tame s = true → tame s' = true) (hl : lines s = [] → lines s' = []) : Mode b s' st' err := by
  cases b
  · exact ⟨(show _ = _ ∧ _ = _ from hk).1.trans hm.1, hl hm.2⟩
  · exact ⟨hk, hm.2.1, ht hm.2.2⟩

theorem Keep.refl {b : Bool} {s : Stmt σ} {st rec err : Int} (hm : Mode b s st err) : Keep b st rec st rec := by
  cases b
  · exact ⟨rfl, rfl⟩
  · exact hm.1

theorem cleanup_sim (hw : ∀ r, Written (P r)) {f : Nat} {ev : Ev σ} (hs : Sim P f ev) (r : Nat) (ps : List (Nat × Int)) (e rec : Int) (d : σ) (w : List (σ → σ)) :
    (cleanup P ev r e d w = none → Long P f (.run [.stmt (P r).fin] r FINALLY ps e rec d, w)) ∧
    ∀ d' w' o, cleanup P ev r e d w = some (d', w', o) →
      (∃ e', o = .over e' ∧ ∃ st', Steps P (.run [.stmt (P r).fin] r FINALLY ps e rec d, w) (.run [] r st' ps e' rec d', w')) ∨
      (o = .recovers ∧ Steps P (.run [.stmt (P r).fin] r FINALLY ps e rec d, w) (.run (jump (P r) rec) r rec ps 0 rec d', w')) := by
  obtain ⟨h1, h2⟩ := hs false r (P r).fin [] FINALLY ps e rec d w (.of_nil (hw r).fin) ⟨rfl, (hw r).fin⟩
  unfold cleanup
  cases hev : ev r (P r).fin e d w with
  | none => exact ⟨fun _ => h1 hev, by simp⟩
  | some x =>
    obtain ⟨d1, w1, o1⟩ := x
    have hp := h2 d1 w1 o1 hev
    simp only [Option.bind_some]
    have key : ∀ {st' rec' : Int}, Steps P (.run [.stmt (P r).fin] r FINALLY ps e rec d, w) (.run [] r st' ps e rec' d1, w1) → Keep false FINALLY rec st' rec' →
        (some (d1, w1, Out.over e) = none → Long P f (.run [.stmt (P r).fin] r FINALLY ps e rec d, w)) ∧
        ∀ d' w' o, some (d1, w1, Out.over e) = some (d', w', o) →
      (∃ e', o = .over e' ∧ ∃ st', Steps P (.run [.stmt (P r).fin] r FINALLY ps e rec d, w) (.run [] r st' ps e' rec d', w')) ∨
      (o = .recovers ∧ Steps P (.run [.stmt (P r).fin] r FINALLY ps e rec d, w) (.run (jump (P r) rec) r rec ps 0 rec d', w')) := by
      intro st' rec' hst hk
      refine ⟨by simp, fun d' w' o h => ?_⟩
      cases h
      have := (show _ = _ ∧ _ = _ from hk).2
      subst this
      exact .inl ⟨e, rfl, st', hst⟩
    cases o1 with
    | norm => obtain ⟨st', rec', h3, h4⟩ := hp; exact key h3 h4
    | brk => obtain ⟨st', rec', h3, h4⟩ := hp; exact key h3 h4
    | cont => obtain ⟨st', rec', h3, h4⟩ := hp; exact key h3 h4
    | ret e' =>
      refine ⟨by simp, fun d' w' o h => ?_⟩
      cases h
      exact .inl ⟨e', rfl, DONE, hp⟩
    | recovers =>
      refine ⟨by simp, fun d' w' o h => ?_⟩
      cases h
      exact .inr ⟨rfl, hp.2⟩
    | over e' => exact absurd hp.1 (by simp)
    | susp => exact absurd hp.1 (by simp)
    | wild => exact absurd (show false = true from hp) (by simp)

/-- Where the fiber is when the interpreter says that a procedure ends this way. -/
def PostP (P : Nat → Task σ) (r : Nat) (ps : List (Nat × Int)) (x : Cfg σ × List (σ → σ)) (d : σ) (w : List (σ → σ)) : Out → Prop
  | .over e => ∃ st' rec', Steps P x (.run [] r st' ps e rec' d, w)
  | .susp => w = [] ∧ ∃ q qs rec', Steps P x (.pause (q :: qs) rec' d, [])
  | .wild => True
  | _ => False

theorem proc_sim (hw : ∀ r, Written (P r)) {f : Nat} {ev : Ev σ} (hs : Sim P f ev) (r : Nat) (ps : List (Nat × Int)) (rec : Int) (d : σ) (w : List (σ → σ)) :
    (proc P ev r d w = none → Long P f (.run (jump (P r) 0) r 0 ps 0 rec d, w)) ∧
    ∀ d' w' o, proc P ev r d w = some (d', w', o) → PostP P r ps (.run (jump (P r) 0) r 0 ps 0 rec d, w) d' w' o := by
  rw [jump_zero]
  obtain ⟨h1, h2⟩ := hs true r (P r).body [.final, .stmt (P r).fin] 0 ps 0 rec d w (Loc.body (hw r)) ⟨Int.le_refl _, rfl, (hw r).tame⟩
  unfold proc
  cases hev : ev r (P r).body 0 d w with
  | none => exact ⟨fun _ => h1 hev, by simp⟩
  | some x =>
    obtain ⟨d1, w1, o1⟩ := x
    have hp := h2 d1 w1 o1 hev
    simp only [Option.bind_some]
    have fin : ∀ (e rec' : Int), Steps P (.run [.stmt (P r).body, .final, .stmt (P r).fin] r 0 ps 0 rec d, w) (.run [.stmt (P r).fin] r FINALLY ps e rec' d1, w1) →
        (((cleanup P ev r e d1 w1).bind fun y => if y.2.2 = .recovers then some (y.1, y.2.1, .wild) else some y) = none →
          Long P f (.run [.stmt (P r).body, .final, .stmt (P r).fin] r 0 ps 0 rec d, w)) ∧
        ∀ d' w' o, ((cleanup P ev r e d1 w1).bind fun y => if y.2.2 = .recovers then some (y.1, y.2.1, .wild) else some y) = some (d', w', o) →
          PostP P r ps (.run [.stmt (P r).body, .final, .stmt (P r).fin] r 0 ps 0 rec d, w) d' w' o := by
      intro e rec' hst
      obtain ⟨c1, c2⟩ := cleanup_sim hw hs r ps e rec' d1 w1
      cases hc : cleanup P ev r e d1 w1 with
      | none => exact ⟨fun _ => .steps hst (c1 hc), by simp⟩
      | some y =>
        obtain ⟨d2, w2, o2⟩ := y
        rcases c2 d2 w2 o2 hc with ⟨e', rfl, st', hst'⟩ | ⟨rfl, -⟩
        · refine ⟨by simp, fun d' w' o h => ?_⟩
          simp at h
          obtain ⟨rfl, rfl, rfl⟩ := h
          exact ⟨st', rec', hst.trans hst'⟩
        · refine ⟨by simp, fun d' w' o h => ?_⟩
          simp at h
          obtain ⟨rfl, rfl, rfl⟩ := h
          trivial
    cases o1 with
    | norm =>
      obtain ⟨st', rec', h3, -⟩ := hp
      exact fin 0 rec' (h3.trans (.one rfl))
    | brk =>
      obtain ⟨st', rec', h3, -⟩ := hp
      refine ⟨by simp, fun d' w' o h => ?_⟩
      cases h
      exact ⟨st', rec', h3⟩
    | cont =>
      obtain ⟨st', rec', h3, -⟩ := hp
      refine ⟨by simp, fun d' w' o h => ?_⟩
      cases h
      exact ⟨st', rec', h3⟩
    | ret e => obtain ⟨rec', h3⟩ := hp; exact fin e rec' h3
    | recovers => exact absurd hp.1 (by simp)
    | over e =>
      refine ⟨by simp, fun d' w' o h => ?_⟩
      cases h
      exact hp.2
    | susp =>
      refine ⟨by simp, fun d' w' o h => ?_⟩
      cases h
      exact hp.2
    | wild =>
      refine ⟨by simp, fun d' w' o h => ?_⟩
      cases h
      trivial

theorem ev_sim (hw : ∀ r, Written (P r)) (f : Nat) : Sim P f (ev P f) := by
  induction f with
  | zero => exact fun b r s k st ps err rec d w _ _ => ⟨fun _ => .zero, by simp [ev]⟩
  | succ f ih =>
    intro b r s k st ps err rec d w hl hm
    have hkeep : Keep b st rec st rec := Keep.refl hm
    cases s with
    | act h =>
      refine ⟨by simp [ev], fun d' w' o h => ?_⟩
      simp only [ev] at h
      cases h
      exact ⟨st, rec, .one rfl, hkeep⟩
    | seq a c =>
      obtain ⟨la, lc⟩ := hl.seq
      have ma : Mode b a st err := hkeep.mode hm (by simp [tame]; tauto) (by simp [lines]; tauto)
      obtain ⟨a1, a2⟩ := ih b r a (.stmt c :: k) st ps err rec d w la ma
      have s1 : step P (.run (.stmt (.seq a c) :: k) r st ps err rec d, w) = some (.run (.stmt a :: .stmt c :: k) r st ps err rec d, w) := rfl
      simp only [ev]
      cases hev : ev P f r a err d w with
      | none => exact ⟨fun _ => .head s1 (a1 hev), by simp⟩
      | some x =>
        obtain ⟨d1, w1, o1⟩ := x
        have hp := a2 d1 w1 o1 hev
        simp only [Option.bind_some]
        by_cases ho : o1 = .norm
        · subst ho
          obtain ⟨st1, rec1, h3, h4⟩ := hp
          have mc : Mode b c st1 err := h4.mode hm (by simp [tame]) (by simp [lines])
          obtain ⟨c1, c2⟩ := ih b r c k st1 ps err rec1 d1 w1 lc mc
          simp only [if_true]
          refine ⟨fun h => .head s1 (.steps h3 (c1 h)), fun d' w' o h => ?_⟩
          exact .head (.head s1 h3) h4 (c2 d' w' o h)
        · rw [if_neg ho]
          refine ⟨by simp, fun d' w' o h => ?_⟩
          cases h
          exact .head (.one s1) hkeep (.out (k := .stmt c :: k) rfl rfl ho hp)
    | ite c a e =>
      obtain ⟨la, le⟩ := hl.ite
      have s1 : step P (.run (.stmt (.ite c a e) :: k) r st ps err rec d, w) = some (.run (.stmt (if c err d then a else e) :: k) r st ps err rec d, w) := rfl
      simp only [ev]
      obtain ⟨a1, a2⟩ := ih b r (if c err d then a else e) k st ps err rec d w (by split; exacts [la, le])
        (hkeep.mode hm (by simp [tame]; intro h1 h2; split <;> assumption) (by simp [lines]; intro h1 h2; split <;> assumption))
      exact ⟨fun h => .head s1 (a1 h), fun d' w' o h => .head (.one s1) hkeep (a2 d' w' o h)⟩
    | loop c a =>
      simp only [ev]
      by_cases hc : c err d = true
      · have s1 : step P (.run (.stmt (.loop c a) :: k) r st ps err rec d, w) = some (.run (.stmt a :: .back c a :: k) r st ps err rec d, w) := by
          simp only [step, kstep, hc, if_true]
        obtain ⟨a1, a2⟩ := ih b r a (.back c a :: k) st ps err rec d w hl (hkeep.mode hm (by simp [tame]) (by simp [lines]))
        rw [if_pos hc]
        cases hev : ev P f r a err d w with
        | none => exact ⟨fun _ => .head s1 (a1 hev), by simp⟩
        | some x =>
          obtain ⟨d1, w1, o1⟩ := x
          have hp := a2 d1 w1 o1 hev
          simp only [Option.bind_some]
          have again : ∀ {st1 rec1 : Int}, Steps P (.run (.stmt a :: .back c a :: k) r st ps err rec d, w) (.run (.back c a :: k) r st1 ps err rec1 d1, w1) →
              Keep b st rec st1 rec1 →
              (ev P f r (.loop c a) err d1 w1 = none → Long P (f + 1) (.run (.stmt (.loop c a) :: k) r st ps err rec d, w)) ∧
              ∀ d' w' o, ev P f r (.loop c a) err d1 w1 = some (d', w', o) →
                Post P b r k st ps err rec (.run (.stmt (.loop c a) :: k) r st ps err rec d, w) d' w' o := by
            intro st1 rec1 h3 h4
            obtain ⟨c1, c2⟩ := ih b r (.loop c a) k st1 ps err rec1 d1 w1 hl (h4.mode hm id id)
            have h5 := h3.trans (.one (P := P) (y := (.run (.stmt (.loop c a) :: k) r st1 ps err rec1 d1, w1)) rfl)
            exact ⟨fun h => .head s1 (.steps h5 (c1 h)), fun d' w' o h => .head (.head s1 h5) h4 (c2 d' w' o h)⟩
          have leave' : ∀ o, o = o1 → o ≠ .norm → o ≠ .brk → o ≠ .cont → Post P b r k st ps err rec (.run (.stmt (.loop c a) :: k) r st ps err rec d, w) d1 w1 o := by
            intro o ho h1 h2 h3
            subst ho
            refine .head (.one s1) hkeep ?_
            cases o with
            | norm => exact absurd rfl h1
            | brk => exact absurd rfl h2
            | cont => exact absurd rfl h3
            | _ => exact hp
          cases o1 with
          | norm => obtain ⟨st1, rec1, h3, h4⟩ := hp; exact again h3 h4
          | cont => obtain ⟨st1, rec1, h3, h4⟩ := hp; exact again h3 h4
          | brk =>
            obtain ⟨st1, rec1, h3, h4⟩ := hp
            refine ⟨by simp, fun d' w' o h => ?_⟩
            cases h
            exact ⟨st1, rec1, .head s1 h3, h4⟩
          | _ =>
            refine ⟨by simp, fun d' w' o h => ?_⟩
            cases h
            exact leave' _ rfl (by simp) (by simp) (by simp)
      · rw [if_neg hc]
        refine ⟨by simp, fun d' w' o h => ?_⟩
        cases h
        exact ⟨st, rec, .one (by simp only [step, kstep, if_neg hc]), hkeep⟩
    | brk =>
      refine ⟨by simp [ev], fun d' w' o h => ?_⟩
      simp only [ev] at h
      cases h
      exact ⟨st, rec, .one rfl, hkeep⟩
    | cont =>
      refine ⟨by simp [ev], fun d' w' o h => ?_⟩
      simp only [ev] at h
      cases h
      exact ⟨st, rec, .one rfl, hkeep⟩
    | ret =>
      refine ⟨by simp [ev], fun d' w' o h => ?_⟩
      simp only [ev] at h
      cases h
      have s1 : step P (.run (.stmt .ret :: k) r st ps err rec d, w) = some (.run (jump (P r) (stopState st)) r (stopState st) ps err rec d, w) := rfl
      cases b
      · have := (show st = _ ∧ _ from hm).1
        subst this
        rw [stop_finally, jump_done] at s1
        exact .one s1
      · rw [stop_nonneg hm.1, jump_finally] at s1
        exact ⟨rec, .one s1⟩
    | throw e =>
      refine ⟨by simp [ev], fun d' w' o h => ?_⟩
      simp only [ev] at h
      cases h
      have s1 : step P (.run (.stmt (.throw e) :: k) r st ps err rec d, w) = some (.run (jump (P r) (stopState st)) r (stopState st) ps e rec d, w) := rfl
      cases b
      · have := (show st = _ ∧ _ from hm).1
        subst this
        rw [stop_finally, jump_done] at s1
        exact .one s1
      · rw [stop_nonneg hm.1, jump_finally] at s1
        exact ⟨rec, .one s1⟩
    | recover =>
      refine ⟨by simp [ev], fun d' w' o h => ?_⟩
      simp only [ev] at h
      cases h
      cases b
      · have := (show st = _ ∧ _ from hm).1
        subst this
        exact ⟨rfl, .one (by simp only [step, kstep, if_true])⟩
      · exact absurd hm.2.2 (by simp [tame])
    | yield n v =>
      cases b
      · exact absurd hm.2 (by simp [lines])
      · obtain ⟨h0, rfl, ht⟩ := hm
        have hv : v ≠ 0 := by simpa [tame] using ht
        have s1 : ∀ w, step P (.run (.stmt (.yield n v) :: k) r st ps 0 rec d, w) = some (.pause ((r, (n : Int)) :: ps) rec d, w) := by
          intro w
          have hn : ¬ ((0 : Int) ≠ 0 ∨ v = 0) := by rintro (h | h); exacts [h rfl, hv h]
          show some (if (0 : Int) ≠ 0 ∨ v = 0 then leave P ps 0 rec d else .pause ((r, (n : Int)) :: ps) rec d, w) = _
          rw [if_neg hn]
        simp only [ev]
        cases w with
        | nil =>
          refine ⟨by simp, fun d' w' o h => ?_⟩
          cases h
          exact ⟨rfl, rfl, _, _, _, .one (s1 _)⟩
        | cons g w =>
          refine ⟨by simp, fun d' w' o h => ?_⟩
          cases h
          have hj := hl.2 n k (by simp [find])
          refine ⟨n, rec, .head (s1 _) (.one ?_), show (0 : Int) ≤ n by omega⟩
          simp only [step, hj]
    | await n c =>
      cases b
      · exact absurd hm.2 (by simp [lines])
      · obtain ⟨h0, rfl, ht⟩ := hm
        have s1 : ∀ w, step P (.run (.stmt (.await n c) :: k) r st ps 0 rec d, w) = some (.pause ((c d, 0) :: (r, (n : Int)) :: ps) rec d, w) := by
          intro w
          simp only [step, kstep, if_neg (show ¬ ((0 : Int) ≠ 0) by simp)]
        have hj := hl.2 n k (by simp [find])
        simp only [ev]
        cases w with
        | nil =>
          refine ⟨by simp, fun d' w' o h => ?_⟩
          cases h
          exact ⟨rfl, rfl, _, _, _, .one (s1 _)⟩
        | cons g w =>
          have s2 : step P (.pause ((c d, 0) :: (r, (n : Int)) :: ps) rec d, g :: w) = some (.run (jump (P (c d)) 0) (c d) 0 ((r, (n : Int)) :: ps) 0 rec (g d), w) := rfl
          have s12 := Steps.head (s1 (g :: w)) (Steps.one s2)
          obtain ⟨p1, p2⟩ := proc_sim hw ih (c d) ((r, (n : Int)) :: ps) rec (g d) w
          cases hp : proc P (ev P f) (c d) (g d) w with
          | none => exact ⟨fun _ => .head (s1 _) (.steps (.one s2) (p1 hp)), by simp [hp]⟩
          | some x =>
            obtain ⟨d1, w1, o1⟩ := x
            have hpp := p2 d1 w1 o1 hp
            simp only [hp, Option.bind_some]
            cases o1 with
            | over e' =>
              obtain ⟨st', rec', h3⟩ := hpp
              by_cases he : e' = 0
              · subst he
                simp only [if_true]
                have h4 : Steps P (.run (.stmt (.await n c) :: k) r st ps 0 rec d, g :: w) (.pause ((r, (n : Int)) :: ps) rec' d1, w1) :=
                  s12.trans (h3.trans (.one (by simp only [step, kstep, leave]; simp)))
                cases w1 with
                | nil =>
                  refine ⟨by simp, fun d' w' o h => ?_⟩
                  cases h
                  exact ⟨rfl, rfl, _, _, _, h4⟩
                | cons g' w2 =>
                  refine ⟨by simp, fun d' w' o h => ?_⟩
                  cases h
                  exact ⟨n, rec', h4.trans (.one (by simp only [step, hj])), show (0 : Int) ≤ n by omega⟩
              · simp only [if_neg he]
                have h4 : Steps P (.run (.stmt (.await n c) :: k) r st ps 0 rec d, g :: w) (.run [.stmt (P r).fin] r FINALLY ps e' n d1, w1) := by
                  refine s12.trans (h3.trans (.one ?_))
                  simp only [step, kstep, leave, if_pos he, stop_nonneg (show (0 : Int) ≤ n by omega), jump_finally]
                obtain ⟨c1, c2⟩ := cleanup_sim hw ih r ps e' n d1 w1
                cases hc : cleanup P (ev P f) r e' d1 w1 with
                | none =>
                  refine ⟨fun _ => ?_, by simp⟩
                  have s3 := Long.steps ((Steps.one s2).trans (h3.trans (.one (y := (.run [.stmt (P r).fin] r FINALLY ps e' n d1, w1)) (by
                    simp only [step, kstep, leave, if_pos he, stop_nonneg (show (0 : Int) ≤ n by omega), jump_finally])))) (c1 hc)
                  exact .head (s1 _) s3
                | some y =>
                  obtain ⟨d2, w2, o2⟩ := y
                  rcases c2 d2 w2 o2 hc with ⟨e2, rfl, st2, h5⟩ | ⟨rfl, h5⟩
                  · refine ⟨by simp, fun d' w' o h => ?_⟩
                    simp at h
                    obtain ⟨rfl, rfl, rfl⟩ := h
                    exact ⟨rfl, st2, n, h4.trans h5⟩
                  · refine ⟨by simp, fun d' w' o h => ?_⟩
                    simp at h
                    obtain ⟨rfl, rfl, rfl⟩ := h
                    rw [hj] at h5
                    exact ⟨n, n, h4.trans h5, show (0 : Int) ≤ n by omega⟩
            | susp =>
              refine ⟨by simp, fun d' w' o h => ?_⟩
              cases h
              obtain ⟨h1, q, qs, rec', h3⟩ := hpp
              exact ⟨rfl, h1, q, qs, rec', s12.trans h3⟩
            | wild =>
              refine ⟨by simp, fun d' w' o h => ?_⟩
              cases h
              exact rfl
            | _ => exact hpp.elim

/-! ### playing -/

theorem play_final {f : Nat} {x : Cfg σ × List (σ → σ)} (h : step P x = none) : play P f x = some x := by
  cases f <;> rw [play, h]

theorem play_steps {n : Nat} {x y : Cfg σ × List (σ → σ)} (h : StepsN P n x y) (hy : step P y = none) : ∀ f, n ≤ f → play P f x = some y := by
  induction h with
  | refl => exact fun f _ => play_final hy
  | step e _ ih =>
    intro f hf
    obtain ⟨f, rfl⟩ : ∃ g, f = g + 1 := ⟨f - 1, by omega⟩
    rw [play, e]
    exact ih hy f (by omega)

theorem play_long {n : Nat} {x y : Cfg σ × List (σ → σ)} (h : StepsN P n x y) : ∀ f, f < n → play P f x = none := by
  induction h with
  | refl => exact fun f hf => absurd hf (by omega)
  | step e _ ih =>
    intro f hf
    cases f with
    | zero => rw [play, e]
    | succ f => rw [play, e]; exact ih f (by omega)

end Verif.Coro.Proc
