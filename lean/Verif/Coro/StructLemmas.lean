import Verif.Coro.StructSpec
import Mathlib.Tactic.Common
/- Lemmas for the coroutine functions as they are written. -/
namespace Verif.Coro
open Spec
variable {σ : Type} {p : Routine σ}

/-- Where a statement that ends with `o` goes on. -/
def after (p : Routine σ) : Out → List (Frame σ) → List (Frame σ)
  | .norm, k => k
  | .brk, k => breakTo k
  | .cont, k => contTo k
  | .ret, _ => [.stmt p.fin]
  | .susp _, _ => []

/-- Behind `cco_finally` nothing is stopped. -/
def Quiet (k : List (Frame σ)) (t : List (Pause σ)) : Prop := .final ∉ k → ∀ q ∈ t, q.stopped = false

theorem Quiet.nil {k : List (Frame σ)} : Quiet k [] := fun _ _ h => by cases h

theorem Quiet.append {k : List (Frame σ)} {t1 t2 : List (Pause σ)} (h1 : Quiet k t1) (h2 : Quiet k t2) : Quiet k (t1 ++ t2) := by
  intro h q hq
  rcases List.mem_append.1 hq with hq | hq
  · exact h1 h q hq
  · exact h2 h q hq

theorem Quiet.cons {k : List (Frame σ)} {t : List (Pause σ)} {v : BitVec 32} {g : σ → σ} (h : Quiet k t) : Quiet k (⟨v, g, false⟩ :: t) := by
  intro hk q hq
  rcases List.mem_cons.1 hq with rfl | hq
  · rfl
  · exact h hk q hq

theorem Quiet.drop {k : List (Frame σ)} {t : List (Pause σ)} {x : Frame σ} (hx : x ≠ .final) (h : Quiet (x :: k) t) : Quiet k t :=
  fun hk => h (by rw [List.mem_cons, not_or]; exact ⟨hx.symm, hk⟩)

/-- Executing what is still to be executed. -/
inductive ExecT (p : Routine σ) : List (Frame σ) → σ → List (Pause σ) → σ → Option (BitVec 32) → Prop
  | nil {d : σ} : ExecT p [] d [] d none
  | final {k : List (Frame σ)} {d d' : σ} {t : List (Pause σ)} {o : Option (BitVec 32)} : ExecT p k d t d' o → ExecT p (.final :: k) d t d' o
  | back {c : σ → σ × Bool} {a : Stmt σ} {k : List (Frame σ)} {d d' : σ} {t : List (Pause σ)} {o : Option (BitVec 32)} :
      ExecT p (.stmt (.loop c a) :: k) d t d' o → ExecT p (.back c a :: k) d t d' o
  | stmt {s : Stmt σ} {k : List (Frame σ)} {d d1 d' : σ} {t1 t2 : List (Pause σ)} {o1 : Out} {o : Option (BitVec 32)} :
      Exec s d t1 d1 o1 → Quiet k t1 → (∀ v, o1 ≠ .susp v) → ExecT p (after p o1 k) d1 t2 d' o → ExecT p (.stmt s :: k) d (t1 ++ t2) d' o
  | susp {s : Stmt σ} {k : List (Frame σ)} {d d' : σ} {t : List (Pause σ)} {v : BitVec 32} : Exec s d t d' (.susp v) → Quiet k t → ExecT p (.stmt s :: k) d t d' (some v)

theorem ExecT.stmt' {s : Stmt σ} {k : List (Frame σ)} {d d1 d' : σ} {t1 t2 t : List (Pause σ)} {o1 : Out} {o : Option (BitVec 32)}
    (h1 : Exec s d t1 d1 o1) (hq : Quiet k t1) (h2 : ∀ v, o1 ≠ .susp v) (h3 : ExecT p (after p o1 k) d1 t2 d' o) (ht : t = t1 ++ t2) : ExecT p (.stmt s :: k) d t d' o := by
  subst ht; exact .stmt h1 hq h2 h3

/-! ### going back one step -/

theorem ExecT.act {f : σ → σ} {k : List (Frame σ)} {d d' : σ} {t : List (Pause σ)} {o : Option (BitVec 32)} (h : ExecT p k (f d) t d' o) :
    ExecT p (.stmt (.act f) :: k) d t d' o := .stmt' .act .nil (by simp) h (by simp)

theorem ExecT.seq {a b : Stmt σ} {k : List (Frame σ)} {d d' : σ} {t : List (Pause σ)} {o : Option (BitVec 32)}
    (h : ExecT p (.stmt a :: .stmt b :: k) d t d' o) : ExecT p (.stmt (.seq a b) :: k) d t d' o := by
  cases h with
  | susp h hq => exact .susp (.seqEnd h (by simp)) (hq.drop (by simp))
  | @stmt _ _ _ d1 _ t1 t2 o1 _ h1 hq h2 h3 =>
    have hq' := hq.drop (by simp)
    cases o1 with
    | norm =>
      cases h3 with
      | susp h hr => exact .susp (.seq h1 h) (hq'.append hr)
      | stmt g1 hr g2 g3 => exact .stmt' (.seq h1 g1) (hq'.append hr) g2 g3 (by simp)
    | susp v => exact absurd rfl (h2 v)
    | _ => exact .stmt (.seqEnd h1 (by simp)) hq' (by simp) h3

theorem ExecT.ite {c : σ → σ × Bool} {a b : Stmt σ} {k : List (Frame σ)} {d d' : σ} {t : List (Pause σ)} {o : Option (BitVec 32)}
    (h : ExecT p (.stmt (if (c d).2 then a else b) :: k) (c d).1 t d' o) : ExecT p (.stmt (.ite c a b) :: k) d t d' o := by
  cases h with
  | susp h hq => exact .susp (.ite h) hq
  | stmt h1 hq h2 h3 => exact .stmt (.ite h1) hq h2 h3

theorem ExecT.loopEnd {c : σ → σ × Bool} {a : Stmt σ} {k : List (Frame σ)} {d d' : σ} {t : List (Pause σ)} {o : Option (BitVec 32)} (hc : (c d).2 = false)
    (h : ExecT p k (c d).1 t d' o) : ExecT p (.stmt (.loop c a) :: k) d t d' o := .stmt' (.loopEnd hc) .nil (by simp) h (by simp)

theorem ExecT.loopGo {c : σ → σ × Bool} {a : Stmt σ} {k : List (Frame σ)} {d d' : σ} {t : List (Pause σ)} {o : Option (BitVec 32)} (hc : (c d).2 = true)
    (h : ExecT p (.stmt a :: .back c a :: k) (c d).1 t d' o) : ExecT p (.stmt (.loop c a) :: k) d t d' o := by
  cases h with
  | susp h hq => exact .susp (.loopSusp hc h) (hq.drop (by simp))
  | @stmt _ _ _ d1 _ t1 t2 o1 _ h1 hq h2 h3 =>
    have hq' := hq.drop (by simp)
    have again : o1 = .norm ∨ o1 = .cont → ExecT p (.back c a :: k) d1 t2 d' o → ExecT p (.stmt (.loop c a) :: k) d (t1 ++ t2) d' o := by
      intro ho h3
      cases h3 with
      | back h3 =>
        cases h3 with
        | susp h hr => exact .susp (.loopGo hc h1 ho h) (hq'.append hr)
        | stmt g1 hr g2 g3 => exact .stmt' (.loopGo hc h1 ho g1) (hq'.append hr) g2 g3 (by simp)
    cases o1 with
    | norm => exact again (.inl rfl) h3
    | cont => exact again (.inr rfl) h3
    | brk => exact .stmt (.loopBrk hc h1) hq' (by simp) h3
    | ret => exact .stmt (.loopRet hc h1) hq' (by simp) h3
    | susp v => exact absurd rfl (h2 v)

theorem ExecT.await {n : Nat} {u : σ → σ × Bool} {k : List (Frame σ)} {d d' : σ} {t : List (Pause σ)} {o : Option (BitVec 32)} {g : σ → σ} (hu : (u d).2 = false)
    (h : ExecT p (.stmt (.await n u) :: k) (g (u d).1) t d' o) : ExecT p (.stmt (.await n u) :: k) d (⟨vAWAIT, g, false⟩ :: t) d' o := by
  cases h with
  | susp h hq => exact .susp (.awaitAgain hu h) hq.cons
  | stmt h1 hq h2 h3 => exact .stmt' (.awaitAgain hu h1) hq.cons h2 h3 rfl

theorem ExecT.call {n : Nat} {f : σ → σ × BitVec 32} {bits : BitVec 32} {k : List (Frame σ)} {d d' : σ} {t : List (Pause σ)} {o : Option (BitVec 32)} {g : σ → σ}
    (hu : (f d).2 &&& ~~~bits ≠ 0)
    (h : ExecT p (.stmt (.call n f bits) :: k) (g (f d).1) t d' o) : ExecT p (.stmt (.call n f bits) :: k) d (⟨(f d).2, g, false⟩ :: t) d' o := by
  cases h with
  | susp h hq => exact .susp (.callAgain hu h) hq.cons
  | stmt h1 hq h2 h3 => exact .stmt' (.callAgain hu h1) hq.cons h2 h3 rfl

/-- Code that does not return early and is not stopped ends by itself. -/
theorem calm_out {s : Stmt σ} {d d1 : σ} {t : List (Pause σ)} {o : Out} (hc : calm s = true) (h : Exec s d t d1 o) : (∀ q ∈ t, q.stopped = false) → o ≠ .ret := by
  induction h with
  | seq _ _ _ ih => intro hq; simp only [calm, Bool.and_eq_true] at hc; exact ih hc.2 fun q h => hq q (List.mem_append.2 (.inr h))
  | seqEnd _ _ ih => intro hq; simp only [calm, Bool.and_eq_true] at hc; exact ih hc.1 hq
  | ite _ ih =>
    intro hq
    simp only [calm, Bool.and_eq_true] at hc
    exact ih (by split; exacts [hc.1, hc.2]) hq
  | loopGo _ _ _ _ _ ih => intro hq; exact ih hc fun q h => hq q (List.mem_append.2 (.inr h))
  | loopRet _ _ ih => intro hq; exact ih hc hq
  | ret => simp [calm] at hc
  | yieldStop => intro hq; simpa using hq _ List.mem_cons_self
  | awaitStop => intro hq; simpa using hq _ List.mem_cons_self
  | callStop => intro hq; simpa using hq _ List.mem_cons_self
  | yieldFinal => simp [calm] at hc
  | awaitAgain _ _ ih => intro hq; exact ih hc fun q h => hq q (List.mem_cons_of_mem _ h)
  | callAgain _ _ ih => intro hq; exact ih hc fun q h => hq q (List.mem_cons_of_mem _ h)
  | _ => intro _; simp

/-! ### where the labels are -/

theorem find_lines {n : Nat} : ∀ {s : Stmt σ} {k k' : List (Frame σ)}, find n s k = some k' → n ∈ lines s := by
  intro s
  induction s with
  | seq a b iha ihb =>
    intro k k' h
    rw [find, Option.or_eq_some_iff] at h
    rw [lines, List.mem_append]
    rcases h with h | ⟨-, h⟩
    · exact .inl (iha h)
    · exact .inr (ihb h)
  | ite c a b iha ihb =>
    intro k k' h
    rw [find, Option.or_eq_some_iff] at h
    rw [lines, List.mem_append]
    rcases h with h | ⟨-, h⟩
    · exact .inl (iha h)
    · exact .inr (ihb h)
  | loop c a ih => intro k k' h; exact ih h
  | yield m v => intro k k' h; rw [find] at h; split at h <;> simp_all [lines]
  | await m v => intro k k' h; rw [find] at h; split at h <;> simp_all [lines]
  | call m f v => intro k k' h; rw [find] at h; split at h <;> simp_all [lines]
  | _ => intro k k' h; simp [find] at h

/-- The labels in what is still to be executed are where the `switch` finds them. -/
def Loc (p : Routine σ) : List (Frame σ) → Prop
  | [] => True
  | .final :: k => Loc p k
  | .stmt s :: k => (lines s).Nodup ∧ (∀ n k', find n s k = some k' → jump p n = k') ∧ Loc p k
  | .back c a :: k => (lines a).Nodup ∧ (∀ n k', find n a (.back c a :: k) = some k' → jump p n = k') ∧ Loc p k

theorem Loc.brk : ∀ {k : List (Frame σ)}, Loc p k → Loc p (breakTo k)
  | [], h => h
  | .final :: k, h => Loc.brk (k := k) h
  | .stmt _ :: k, h => Loc.brk (k := k) h.2.2
  | .back _ _ :: _, h => h.2.2

theorem Loc.cont : ∀ {k : List (Frame σ)}, Loc p k → Loc p (contTo k)
  | [], h => h
  | .final :: k, h => Loc.cont (k := k) h
  | .stmt _ :: k, h => Loc.cont (k := k) h.2.2
  | .back _ _ :: _, h => h

theorem Loc.seq {a b : Stmt σ} {k : List (Frame σ)} (h : Loc p (.stmt (.seq a b) :: k)) : Loc p (.stmt a :: .stmt b :: k) := by
  obtain ⟨h1, h2, h3⟩ := h
  rw [lines, List.nodup_append] at h1
  refine ⟨h1.1, fun n k' hk => h2 n k' (by rw [find, hk]; rfl), h1.2.1, fun n k' hk => h2 n k' ?_, h3⟩
  rw [find]
  cases hf : find n a (.stmt b :: k) with
  | none => exact hk
  | some k2 => exact absurd rfl (h1.2.2 n (find_lines hf) n (find_lines hk))

theorem Loc.ite {c : σ → σ × Bool} {a b : Stmt σ} {k : List (Frame σ)} (h : Loc p (.stmt (.ite c a b) :: k)) : Loc p (.stmt a :: k) ∧ Loc p (.stmt b :: k) := by
  obtain ⟨h1, h2, h3⟩ := h
  rw [lines, List.nodup_append] at h1
  refine ⟨⟨h1.1, fun n k' hk => h2 n k' (by rw [find, hk]; rfl), h3⟩, h1.2.1, fun n k' hk => h2 n k' ?_, h3⟩
  rw [find]
  cases hf : find n a k with
  | none => exact hk
  | some k2 => exact absurd rfl (h1.2.2 n (find_lines hf) n (find_lines hk))

theorem Loc.loop {c : σ → σ × Bool} {a : Stmt σ} {k : List (Frame σ)} (h : Loc p (.stmt (.loop c a) :: k)) : Loc p (.stmt a :: .back c a :: k) :=
  ⟨h.1, h.2.1, h.1, h.2.1, h.2.2⟩

theorem Loc.back {c : σ → σ × Bool} {a : Stmt σ} {k : List (Frame σ)} (h : Loc p (.back c a :: k)) : Loc p (.stmt (.loop c a) :: k) := h

/-- What the `switch` finds is in place. -/
theorem Loc.find {n : Nat} : ∀ {s : Stmt σ} {k k' : List (Frame σ)}, Loc p (.stmt s :: k) → find n s k = some k' → Loc p k' := by
  intro s
  induction s with
  | seq a b iha ihb =>
    intro k k' h hf
    rw [Coro.find, Option.or_eq_some_iff] at hf
    rcases hf with hf | ⟨-, hf⟩
    · exact iha h.seq hf
    · exact ihb h.seq.2.2 hf
  | ite c a b iha ihb =>
    intro k k' h hf
    rw [Coro.find, Option.or_eq_some_iff] at hf
    rcases hf with hf | ⟨-, hf⟩
    · exact iha h.ite.1 hf
    · exact ihb h.ite.2 hf
  | loop c a ih => intro k k' h hf; exact ih h.loop hf
  | yield m v =>
    intro k k' h hf
    rw [Coro.find] at hf
    split at hf <;> cases hf
    exact h.2.2
  | await m v =>
    intro k k' h hf
    rw [Coro.find] at hf
    split at hf <;> cases hf
    exact h
  | call m f v =>
    intro k k' h hf
    rw [Coro.find] at hf
    split at hf <;> cases hf
    exact h
  | _ => intro k k' h hf; simp [Coro.find] at hf

theorem jump_pos {n : Nat} (hn : 0 < n) : jump p n = ((find n p.body [.final, .stmt p.fin]).or (find n p.fin [])).getD [] := by
  have h1 : ¬ (n : Int) = 0 := by omega
  have h2 : ¬ (n : Int) = FINALLY := by unfold FINALLY; omega
  have h3 : (0 : Int) < n := by omega
  rw [jump, if_neg h1, if_neg h2, if_pos h3, Int.toNat_natCast]

theorem Loc.fin (hw : Written p) : Loc p [.stmt p.fin] := by
  have h1 := hw.lines
  rw [List.nodup_append] at h1
  refine ⟨h1.2.1, fun n k' hf => ?_, trivial⟩
  have hl := find_lines hf
  rw [jump_pos (hw.pos n (by simp [hl]))]
  cases hb : Coro.find n p.body [.final, .stmt p.fin] with
  | none => rw [hf]; rfl
  | some k2 => exact absurd rfl (h1.2.2 n (find_lines hb) n hl)

theorem Loc.body (hw : Written p) : Loc p [.stmt p.body, .final, .stmt p.fin] := by
  have h1 := hw.lines
  rw [List.nodup_append] at h1
  refine ⟨h1.1, fun n k' hf => ?_, Loc.fin hw⟩
  rw [jump_pos (hw.pos n (by simp [find_lines hf])), hf]
  rfl

theorem Loc.jump (hw : Written p) (st : Int) : Loc p (jump p st) := by
  unfold Coro.jump
  split
  · exact Loc.body hw
  · split
    · exact Loc.fin hw
    · split
      · cases hb : Coro.find st.toNat p.body [.final, .stmt p.fin] with
        | some k => exact (Loc.body hw).find hb
        | none =>
          cases hf : Coro.find st.toNat p.fin [] with
          | some k => exact (Loc.fin hw).find hf
          | none => exact trivial
      · exact trivial

/-! ### inside of the body and behind `cco_finally` -/

/-- What is still to be executed belongs to the body (and the code behind `cco_finally` follows), or is
behind `cco_finally`. -/
def Where (p : Routine σ) : List (Frame σ) → Bool → Prop
  | [], b => b = false
  | .final :: k, b => b = true ∧ k = [.stmt p.fin]
  | .stmt s :: k, b => (∀ n ∈ lines s, n ∈ lines (if b then p.body else p.fin)) ∧ (b = false → calm s = true) ∧ Where p k b
  | .back _ a :: k, b => (∀ n ∈ lines a, n ∈ lines (if b then p.body else p.fin)) ∧ (b = false → calm a = true) ∧ Where p k b

theorem Where.final : ∀ {k : List (Frame σ)}, Where p k true → .final ∈ k
  | [], h => by cases h
  | .final :: k, _ => by simp
  | .stmt _ :: k, h => List.mem_cons_of_mem _ (Where.final h.2.2)
  | .back _ _ :: k, h => List.mem_cons_of_mem _ (Where.final h.2.2)

theorem Where.brk : ∀ {k : List (Frame σ)} {b : Bool}, Where p k b → ∃ b', Where p (breakTo k) b' ∧ (b' = true → b = true)
  | [], b, h => ⟨b, h, id⟩
  | .final :: k, b, h => by
    obtain ⟨rfl, rfl⟩ := h
    exact ⟨false, rfl, fun _ => rfl⟩
  | .stmt _ :: k, b, h => Where.brk (k := k) h.2.2
  | .back _ _ :: k, b, h => ⟨b, h.2.2, id⟩

theorem Where.cont : ∀ {k : List (Frame σ)} {b : Bool}, Where p k b → ∃ b', Where p (contTo k) b' ∧ (b' = true → b = true)
  | [], b, h => ⟨b, h, id⟩
  | .final :: k, b, h => by
    obtain ⟨rfl, rfl⟩ := h
    exact ⟨false, rfl, fun _ => rfl⟩
  | .stmt _ :: k, b, h => Where.cont (k := k) h.2.2
  | .back _ _ :: k, b, h => ⟨b, h, id⟩

theorem Where.fin (hw : Written p) : Where p [.stmt p.fin] false := ⟨fun _ h => h, fun _ => hw.calm, rfl⟩

theorem Where.body : Where p [.stmt p.body, .final, .stmt p.fin] true := ⟨fun _ h => h, fun h => (by cases h), rfl, rfl⟩

/-- A call that started with `k` still to be executed and returned `st'`, `d'`, `v` is a piece of the
execution, and the next call goes on behind it. -/
def Piece (p : Routine σ) (k : List (Frame σ)) (d : σ) (st' : Int) (d' : σ) (v : BitVec 32) : Prop :=
  (st' = DONE ∧ v = 0 ∧ ExecT p k d [] d' none) ∨
  (st' ≠ DONE ∧ ExecT p k d [] d' (some v) ∧ (∃ b', Where p (jump p st') b' ∧ (b' = true → 0 ≤ st')) ∧
    (∀ g t d2 o, ExecT p (jump p st') (g d') t d2 o → ExecT p k d (⟨v, g, false⟩ :: t) d2 o) ∧
    ∀ n ∈ lines p.body, st' = (n : Int) → ∀ g t d2 o, ExecT p [.stmt p.fin] (g d') t d2 o → ExecT p k d (⟨v, g, true⟩ :: t) d2 o)

theorem runK_sound (hw : Written p) : ∀ (f : Nat) (k : List (Frame σ)) (st : Int) (d : σ) (b : Bool) {st' : Int} {d' : σ} {v : BitVec 32}, Loc p k → Where p k b →
    (b = true → 0 ≤ st) → runK p f (.run k st d) = some (st', d', v) → Piece p k d st' d' v := by
  intro f
  induction f with
  | zero => intro k st d b st' d' v _ _ _ h; simp [runK] at h
  | succ f ih =>
    intro k st d b st' d' v hl hp hs h
    rw [runK] at h
    -- a silent step
    have lift : ∀ (k1 : List (Frame σ)) (st1 : Int) (d1 : σ) (b1 : Bool), kstep p k st d = .run k1 st1 d1 → Loc p k1 → Where p k1 b1 → (b1 = true → 0 ≤ st1) →
        (∀ t d2 o, ExecT p k1 d1 t d2 o → ExecT p k d t d2 o) → Piece p k d st' d' v := by
      intro k1 st1 d1 b1 he hl1 hp1 hs1 hx
      rw [he] at h
      rcases ih k1 st1 d1 b1 hl1 hp1 hs1 h with ⟨h1, h2, h3⟩ | ⟨h1, h2, h3, h4, h5⟩
      · exact Or.inl ⟨h1, h2, hx _ _ _ h3⟩
      · exact Or.inr ⟨h1, hx _ _ _ h2, h3, fun g t d2 o e => hx _ _ _ (h4 g t d2 o e), fun n hn e g t d2 o e' => hx _ _ _ (h5 n hn e g t d2 o e')⟩
    have nodone : ∀ n : Nat, (n : Int) ≠ DONE := by intro n; unfold DONE; omega
    have split := hw.lines
    rw [List.nodup_append] at split
    match k, hl, hp, h, lift with
    | [], hl, hp, h, _ =>
      rw [kstep] at h
      cases f <;> (rw [runK] at h; cases h; exact .inl ⟨rfl, rfl, .nil⟩)
    | .final :: k, hl, hp, h, lift =>
      obtain ⟨rfl, rfl⟩ := hp
      exact lift _ _ _ false rfl hl (Where.fin hw) (by simp) fun _ _ _ e => .final e
    | .back c a :: k, hl, hp, h, lift => exact lift _ _ _ b rfl hl.back hp hs fun _ _ _ e => .back e
    | .stmt s :: k, hl, hp, h, lift =>
      cases s with
      | act g => exact lift _ _ _ b rfl hl.2.2 hp.2.2 hs fun _ _ _ e => .act e
      | seq a c =>
        refine lift _ _ _ b rfl hl.seq ?_ hs fun _ _ _ e => .seq e
        obtain ⟨h1, h2, h3⟩ := hp
        simp only [lines, calm, List.mem_append, Bool.and_eq_true] at h1 h2
        exact ⟨fun n hn => h1 n (.inl hn), fun hb => (h2 hb).1, fun n hn => h1 n (.inr hn), fun hb => (h2 hb).2, h3⟩
      | ite c a e =>
        obtain ⟨h1, h2, h3⟩ := hp
        simp only [lines, calm, List.mem_append, Bool.and_eq_true] at h1 h2
        refine lift _ _ _ b rfl ?_ ?_ hs fun _ _ _ e => .ite e
        · split
          · exact hl.ite.1
          · exact hl.ite.2
        · split
          · exact ⟨fun n hn => h1 n (.inl hn), fun hb => (h2 hb).1, h3⟩
          · exact ⟨fun n hn => h1 n (.inr hn), fun hb => (h2 hb).2, h3⟩
      | loop c a =>
        cases hc : (c d).2 with
        | true =>
          exact lift (.stmt a :: .back c a :: k) st (c d).1 b (by simp [kstep, hc]) hl.loop ⟨hp.1, hp.2.1, hp⟩ hs fun _ _ _ e => .loopGo hc e
        | false => exact lift k st (c d).1 b (by simp [kstep, hc]) hl.2.2 hp.2.2 hs fun _ _ _ e => .loopEnd hc e
      | brk =>
        obtain ⟨b', hb, hbb⟩ := hp.2.2.brk
        exact lift _ _ _ b' rfl hl.2.2.brk hb (fun e => hs (hbb e)) fun _ _ _ e => .stmt' .brk .nil (by simp) e (by simp)
      | cont =>
        obtain ⟨b', hb, hbb⟩ := hp.2.2.cont
        exact lift _ _ _ b' rfl hl.2.2.cont hb (fun e => hs (hbb e)) fun _ _ _ e => .stmt' .cont .nil (by simp) e (by simp)
      | ret =>
        cases b with
        | false => have := hp.2.1 rfl; simp [calm] at this
        | true =>
          have e0 : stopState st = FINALLY := if_pos (hs rfl)
          have e1 : jump p FINALLY = [.stmt p.fin] := by rw [jump, if_neg (by decide), if_pos rfl]
          refine lift [.stmt p.fin] FINALLY d false (by simp only [kstep, e0, e1]) (Loc.fin hw) (Where.fin hw) (by simp) fun _ _ _ e => .stmt' .ret .nil (by simp) e (by simp)
      | yield n w =>
        have e : runK p f (.out (n : Int) d w) = some (st', d', v) := h
        cases f <;>
        · rw [runK] at e
          cases e
          have hj := hl.2.1 n k (by simp [find])
          refine .inr ⟨nodone n, .susp .yieldSusp .nil, ⟨b, by rw [hj]; exact hp.2.2, fun _ => by omega⟩, fun g t d2 o e => ?_, fun m hm he g t d2 o e => ?_⟩
          · rw [hj] at e
            exact .stmt' .yield (Quiet.nil.cons) (by simp) e rfl
          · refine .stmt' .yieldStop ?_ (by simp) e rfl
            intro hk
            cases b with
            | true => exact absurd hp.2.2.final hk
            | false =>
              have := hp.1 n (by simp [lines])
              have : m = n := by omega
              subst this
              exact absurd rfl (split.2.2 m hm m (by assumption))
      | await n u =>
        cases hu : (u d).2 with
        | true => 
          exact lift k n (u d).1 b (by simp [kstep, hu]) hl.2.2 hp.2.2 (fun _ => by omega) fun _ _ _ e => .stmt' (.awaitGo hu) .nil (by simp) e (by simp)
        | false =>
          have e : runK p f (.out (n : Int) (u d).1 vAWAIT) = some (st', d', v) := by simpa [kstep, hu] using h
          cases f <;>
          · rw [runK] at e
            cases e
            have hj := hl.2.1 n (.stmt (.await n u) :: k) (by simp [find])
            refine .inr ⟨nodone n, .susp (.awaitSusp hu) .nil, ⟨b, by rw [hj]; exact hp, fun _ => by omega⟩, fun g t d2 o e => ?_, fun m hm he g t d2 o e => ?_⟩
            · rw [hj] at e
              exact .await hu e
            · refine .stmt' (.awaitStop hu) ?_ (by simp) e rfl
              intro hk
              cases b with
              | true => exact absurd hp.2.2.final hk
              | false =>
                have := hp.1 n (by simp [lines])
                have : m = n := by omega
                subst this
                exact absurd rfl (split.2.2 m hm m (by assumption))
      | call n g bits =>
        by_cases hu : (g d).2 &&& ~~~bits = 0
        · exact lift k n (g d).1 b (by simp [kstep, hu]) hl.2.2 hp.2.2 (fun _ => by omega) fun _ _ _ e => .stmt' (.callGo hu) .nil (by simp) e (by simp)
        · have e0 : kstep p (.stmt (.call n g bits) :: k) st d = .out n (g d).1 (g d).2 := by simp only [kstep]; exact if_pos hu
          have e : runK p f (.out (n : Int) (g d).1 (g d).2) = some (st', d', v) := by rw [e0] at h; exact h
          cases f <;>
          · rw [runK] at e
            cases e
            have hj := hl.2.1 n (.stmt (.call n g bits) :: k) (by simp [find])
            refine .inr ⟨nodone n, .susp (.callSusp hu) .nil, ⟨b, by rw [hj]; exact hp, fun _ => by omega⟩, fun g' t d2 o e => ?_, fun m hm he g' t d2 o e => ?_⟩
            · rw [hj] at e
              exact .call hu e
            · refine .stmt' (.callStop hu) ?_ (by simp) e rfl
              intro hk
              cases b with
              | true => exact absurd hp.2.2.final hk
              | false =>
                have := hp.1 n (by simp [lines])
                have : m = n := by omega
                subst this
                exact absurd rfl (split.2.2 m hm m (by assumption))
      | yieldFinal w =>
        cases b with
        | false => have := hp.2.1 rfl; simp [calm] at this
        | true =>
          have e0 : stopState st = FINALLY := if_pos (hs rfl)
          have e1 : jump p FINALLY = [.stmt p.fin] := by rw [jump, if_neg (by decide), if_pos rfl]
          have e : runK p f (.out FINALLY d w) = some (st', d', v) := by simpa only [kstep, e0] using h
          cases f <;>
          · rw [runK] at e
            cases e
            refine .inr ⟨by decide, .susp .yieldFinalSusp .nil, ⟨false, by rw [e1]; exact Where.fin hw, by simp⟩, fun g t d2 o e => ?_, fun m hm he g t d2 o e => ?_⟩
            · rw [e1] at e
              exact .stmt' .yieldFinal Quiet.nil.cons (by simp) e rfl
            · unfold FINALLY at he; omega

/-! ### and back -/

/-- Calls along given suspensions, from the middle of one call to the middle of another. -/
inductive Drive (p : Routine σ) : List (Frame σ) → Int → σ → List (Pause σ) → List (Frame σ) → Int → σ → Prop
  | refl {k : List (Frame σ)} {st : Int} {d : σ} : Drive p k st d [] k st d
  | step {k k1 k2 : List (Frame σ)} {st st1 st2 : Int} {d d1 d2 : σ} {t : List (Pause σ)} : kstep p k st d = .run k1 st1 d1 → Drive p k1 st1 d1 t k2 st2 d2 →
      Drive p k st d t k2 st2 d2
  | pause {k k2 : List (Frame σ)} {st st1 st2 : Int} {d d1 d2 : σ} {t : List (Pause σ)} {v : BitVec 32} {g : σ → σ} {stopped : Bool} :
      kstep p k st d = .out st1 d1 v → st1 ≠ DONE → (stopped = true → ∃ n ∈ lines p.body, st1 = (n : Int)) →
      Drive p (jump p (if stopped then stopState st1 else st1)) (if stopped then stopState st1 else st1) (g d1) t k2 st2 d2 →
      Drive p k st d (⟨v, g, stopped⟩ :: t) k2 st2 d2

theorem Drive.trans {k k1 k2 : List (Frame σ)} {st st1 st2 : Int} {d d1 d2 : σ} {t t' : List (Pause σ)} (h : Drive p k st d t k1 st1 d1) (h' : Drive p k1 st1 d1 t' k2 st2 d2) :
    Drive p k st d (t ++ t') k2 st2 d2 := by
  induction h with
  | refl => exact h'
  | step e _ ih => exact .step e (ih h')
  | pause e1 e2 e3 _ ih => exact .pause e1 e2 e3 (ih h')

/-- The machine executes statement `s` along `t`, with `k` behind it, to the end `o`. -/
def Goes (p : Routine σ) (b : Bool) (s : Stmt σ) (k : List (Frame σ)) (st : Int) (d : σ) (t : List (Pause σ)) (d1 : σ) (o : Out) : Prop :=
  (∀ v, o = .susp v → ∃ k1 st1 d2 st2, Drive p (.stmt s :: k) st d t k1 st1 d2 ∧ kstep p k1 st1 d2 = .out st2 d1 v ∧ st2 ≠ DONE) ∧
  ((∀ v, o ≠ .susp v) → ∃ st1, Drive p (.stmt s :: k) st d t (after p o k) st1 d1 ∧ (o ≠ .ret → b = true → 0 ≤ st1))

theorem nat_ne_done (n : Nat) : (n : Int) ≠ DONE := by unfold DONE; omega

theorem exec_goes (hw : Written p) {s : Stmt σ} {d d1 : σ} {t : List (Pause σ)} {o : Out} (h : Exec s d t d1 o) : ∀ (k : List (Frame σ)) (b : Bool) (st : Int),
    Loc p (.stmt s :: k) → Where p (.stmt s :: k) b → (b = true → 0 ≤ st) → (b = false → ∀ q ∈ t, q.stopped = false) → Goes p b s k st d t d1 o := by
  have e1 : jump p FINALLY = [.stmt p.fin] := by rw [jump, if_neg (by decide), if_pos rfl]
  have stops : ∀ n : Nat, stopState (n : Int) = FINALLY := fun n => if_pos (by omega)
  induction h with
  | act => intro k b st hl hp hs hq; exact ⟨fun v e => (by cases e), fun _ => ⟨st, .step rfl .refl, fun _ => hs⟩⟩
  | @seq a c d d1 d2 t1 t2 o _ _ iha ihb =>
    intro k b st hl hp hs hq
    obtain ⟨h1, h2, h3⟩ := hp
    simp only [lines, calm, List.mem_append, Bool.and_eq_true] at h1 h2 hq
    have hpb : Where p (.stmt c :: k) b := ⟨fun n hn => h1 n (.inr hn), fun hb => (h2 hb).2, h3⟩
    obtain ⟨st1, g1, g2⟩ := (iha (.stmt c :: k) b st hl.seq ⟨fun n hn => h1 n (.inl hn), fun hb => (h2 hb).1, hpb⟩ hs (fun hb q hq' => hq hb q (.inl hq'))).2 (by simp)
    obtain ⟨g3, g4⟩ := ihb k b st1 hl.seq.2.2 hpb (g2 (by simp)) (fun hb q hq' => hq hb q (.inr hq'))
    refine ⟨fun v e => ?_, fun e => ?_⟩
    · obtain ⟨k1, st2, d3, st3, x1, x2, x3⟩ := g3 v e
      exact ⟨k1, st2, d3, st3, .step rfl (g1.trans x1), x2, x3⟩
    · obtain ⟨st2, x1, x2⟩ := g4 e
      exact ⟨st2, .step rfl (g1.trans x1), x2⟩
  | @seqEnd a c d d1 t o _ ho ih =>
    intro k b st hl hp hs hq
    obtain ⟨h1, h2, h3⟩ := hp
    simp only [lines, calm, List.mem_append, Bool.and_eq_true] at h1 h2 hq
    have hpb : Where p (.stmt c :: k) b := ⟨fun n hn => h1 n (.inr hn), fun hb => (h2 hb).2, h3⟩
    obtain ⟨g3, g4⟩ := ih (.stmt c :: k) b st hl.seq ⟨fun n hn => h1 n (.inl hn), fun hb => (h2 hb).1, hpb⟩ hs hq
    refine ⟨fun v e => ?_, fun e => ?_⟩
    · obtain ⟨k1, st2, d3, st3, x1, x2, x3⟩ := g3 v e
      exact ⟨k1, st2, d3, st3, .step rfl x1, x2, x3⟩
    · obtain ⟨st2, x1, x2⟩ := g4 e
      refine ⟨st2, .step rfl ?_, x2⟩
      cases o with
      | norm => exact absurd rfl ho
      | _ => exact x1
  | @ite c a e d d1 t o _ ih =>
    intro k b st hl hp hs hq
    obtain ⟨h1, h2, h3⟩ := hp
    simp only [lines, calm, List.mem_append, Bool.and_eq_true] at h1 h2
    have := ih k b st (by split; exacts [hl.ite.1, hl.ite.2]) (by
      split
      · exact ⟨fun n hn => h1 n (.inl hn), fun hb => (h2 hb).1, h3⟩
      · exact ⟨fun n hn => h1 n (.inr hn), fun hb => (h2 hb).2, h3⟩) hs hq
    obtain ⟨g3, g4⟩ := this
    refine ⟨fun v e => ?_, fun e => ?_⟩
    · obtain ⟨k1, st2, d3, st3, x1, x2, x3⟩ := g3 v e
      exact ⟨k1, st2, d3, st3, .step rfl x1, x2, x3⟩
    · obtain ⟨st2, x1, x2⟩ := g4 e
      exact ⟨st2, .step rfl x1, x2⟩
  | loopEnd hc =>
    intro k b st hl hp hs hq
    exact ⟨fun v e => (by cases e), fun _ => ⟨st, .step (by simp only [kstep, hc]; rfl) .refl, fun _ => hs⟩⟩
  | @loopGo c a d d1 d2 t1 t2 o1 o hc _ ho _ iha ihb =>
    intro k b st hl hp hs hq
    simp only [List.mem_append] at hq
    have s1 : kstep p (.stmt (.loop c a) :: k) st d = .run (.stmt a :: .back c a :: k) st (c d).1 := by simp only [kstep, hc, if_true]
    have hp' : Where p (.stmt a :: .back c a :: k) b := ⟨hp.1, hp.2.1, hp⟩
    obtain ⟨st1, g1, g2⟩ := (iha (.back c a :: k) b st hl.loop hp' hs (fun hb q hq' => hq hb q (.inl hq'))).2 (by rcases ho with rfl | rfl <;> simp)
    have g1' : Drive p (.stmt a :: .back c a :: k) st (c d).1 t1 (.back c a :: k) st1 d1 := by
      rcases ho with rfl | rfl
      · exact g1
      · exact g1
    obtain ⟨g3, g4⟩ := ihb k b st1 hl hp (g2 (by rcases ho with rfl | rfl <;> simp)) (fun hb q hq' => hq hb q (.inr hq'))
    refine ⟨fun v e => ?_, fun e => ?_⟩
    · obtain ⟨k1, st2, d3, st3, x1, x2, x3⟩ := g3 v e
      exact ⟨k1, st2, d3, st3, .step s1 (g1'.trans (.step rfl x1)), x2, x3⟩
    · obtain ⟨st2, x1, x2⟩ := g4 e
      exact ⟨st2, .step s1 (g1'.trans (.step rfl x1)), x2⟩
  | @loopBrk c a d d1 t hc _ ih =>
    intro k b st hl hp hs hq
    have s1 : kstep p (.stmt (.loop c a) :: k) st d = .run (.stmt a :: .back c a :: k) st (c d).1 := by simp only [kstep, hc, if_true]
    obtain ⟨st1, g1, g2⟩ := (ih (.back c a :: k) b st hl.loop ⟨hp.1, hp.2.1, hp⟩ hs hq).2 (by simp)
    exact ⟨fun v e => (by cases e), fun _ => ⟨st1, .step s1 g1, fun _ => g2 (by simp)⟩⟩
  | @loopRet c a d d1 t hc _ ih =>
    intro k b st hl hp hs hq
    have s1 : kstep p (.stmt (.loop c a) :: k) st d = .run (.stmt a :: .back c a :: k) st (c d).1 := by simp only [kstep, hc, if_true]
    obtain ⟨st1, g1, g2⟩ := (ih (.back c a :: k) b st hl.loop ⟨hp.1, hp.2.1, hp⟩ hs hq).2 (by simp)
    exact ⟨fun v e => (by cases e), fun _ => ⟨st1, .step s1 g1, fun h => absurd rfl h⟩⟩
  | @loopSusp c a d d1 t v hc _ ih =>
    intro k b st hl hp hs hq
    have s1 : kstep p (.stmt (.loop c a) :: k) st d = .run (.stmt a :: .back c a :: k) st (c d).1 := by simp only [kstep, hc, if_true]
    refine ⟨fun w e => ?_, fun e => absurd rfl (e v)⟩
    obtain ⟨k1, st2, d3, st3, x1, x2, x3⟩ := (ih (.back c a :: k) b st hl.loop ⟨hp.1, hp.2.1, hp⟩ hs hq).1 w e
    exact ⟨k1, st2, d3, st3, .step s1 x1, x2, x3⟩
  | brk => intro k b st hl hp hs hq; exact ⟨fun v e => (by cases e), fun _ => ⟨st, .step rfl .refl, fun _ => hs⟩⟩
  | cont => intro k b st hl hp hs hq; exact ⟨fun v e => (by cases e), fun _ => ⟨st, .step rfl .refl, fun _ => hs⟩⟩
  | ret =>
    intro k b st hl hp hs hq
    cases b with
    | false => have := hp.2.1 rfl; simp [calm] at this
    | true =>
      have e0 : stopState st = FINALLY := if_pos (hs rfl)
      exact ⟨fun v e => (by cases e), fun _ => ⟨FINALLY, .step (by simp only [kstep, e0, e1]; rfl) .refl, fun h => absurd rfl h⟩⟩
  | @yieldSusp n v d =>
    intro k b st hl hp hs hq
    exact ⟨fun w e => ⟨_, st, d, n, .refl, by cases e; rfl, nat_ne_done n⟩, fun e => absurd rfl (e v)⟩
  | @yield n v d g =>
    intro k b st hl hp hs hq
    have hj := hl.2.1 n k (by simp [find])
    exact ⟨fun v e => (by cases e), fun _ => ⟨n, .pause rfl (nat_ne_done n) (by simp) (by simp only [Bool.false_eq_true, if_false, hj]; exact .refl), fun _ _ => by omega⟩⟩
  | @yieldStop n v d g =>
    intro k b st hl hp hs hq
    cases b with
    | false => have := hq rfl _ List.mem_cons_self; simp at this
    | true =>
      exact ⟨fun v e => (by cases e), fun _ => ⟨FINALLY, .pause rfl (nat_ne_done n) (fun _ => ⟨n, hp.1 n (by simp [lines]), rfl⟩) (by
        simp only [if_true, stops, e1]; exact .refl), fun h => absurd rfl h⟩⟩
  | @awaitGo n u d hu =>
    intro k b st hl hp hs hq
    exact ⟨fun v e => (by cases e), fun _ => ⟨n, .step (by simp only [kstep, hu, if_true]; rfl) .refl, fun _ _ => by omega⟩⟩
  | @awaitSusp n u d hu =>
    intro k b st hl hp hs hq
    exact ⟨fun w e => ⟨_, st, d, n, .refl, by cases e; simp [kstep, hu], nat_ne_done n⟩, fun e => absurd rfl (e _)⟩
  | @awaitAgain n u d d1 g t o hu _ ih =>
    intro k b st hl hp hs hq
    have hj := hl.2.1 n (.stmt (.await n u) :: k) (by simp [find])
    have s1 : kstep p (.stmt (.await n u) :: k) st d = .out n (u d).1 vAWAIT := by simp [kstep, hu]
    obtain ⟨g3, g4⟩ := ih k b n hl hp (fun _ => by omega) (fun hb q hq' => hq hb q (List.mem_cons_of_mem _ hq'))
    refine ⟨fun v e => ?_, fun e => ?_⟩
    · obtain ⟨k1, st2, d3, st3, x1, x2, x3⟩ := g3 v e
      exact ⟨k1, st2, d3, st3, .pause s1 (nat_ne_done n) (by simp) (by simp only [Bool.false_eq_true, if_false, hj]; exact x1), x2, x3⟩
    · obtain ⟨st2, x1, x2⟩ := g4 e
      exact ⟨st2, .pause s1 (nat_ne_done n) (by simp) (by simp only [Bool.false_eq_true, if_false, hj]; exact x1), x2⟩
  | @awaitStop n u d g hu =>
    intro k b st hl hp hs hq
    cases b with
    | false => have := hq rfl _ List.mem_cons_self; simp at this
    | true =>
      have s1 : kstep p (.stmt (.await n u) :: k) st d = .out n (u d).1 vAWAIT := by simp [kstep, hu]
      exact ⟨fun v e => (by cases e), fun _ => ⟨FINALLY, .pause s1 (nat_ne_done n) (fun _ => ⟨n, hp.1 n (by simp [lines]), rfl⟩) (by
        simp only [if_true, stops, e1]; exact .refl), fun h => absurd rfl h⟩⟩
  | @callGo n u bits d hu =>
    intro k b st hl hp hs hq
    exact ⟨fun v e => (by cases e), fun _ => ⟨n, .step (by simp only [kstep]; exact if_neg (by simpa using hu)) .refl, fun _ _ => by omega⟩⟩
  | @callSusp n u bits d hu =>
    intro k b st hl hp hs hq
    exact ⟨fun w e => ⟨_, st, d, n, .refl, by cases e; simp only [kstep]; exact if_pos hu, nat_ne_done n⟩, fun e => absurd rfl (e _)⟩
  | @callAgain n u bits d d1 g t o hu _ ih =>
    intro k b st hl hp hs hq
    have hj := hl.2.1 n (.stmt (.call n u bits) :: k) (by simp [find])
    have s1 : kstep p (.stmt (.call n u bits) :: k) st d = .out n (u d).1 (u d).2 := by simp only [kstep]; exact if_pos hu
    obtain ⟨g3, g4⟩ := ih k b n hl hp (fun _ => by omega) (fun hb q hq' => hq hb q (List.mem_cons_of_mem _ hq'))
    refine ⟨fun v e => ?_, fun e => ?_⟩
    · obtain ⟨k1, st2, d3, st3, x1, x2, x3⟩ := g3 v e
      exact ⟨k1, st2, d3, st3, .pause s1 (nat_ne_done n) (by simp) (by simp only [Bool.false_eq_true, if_false, hj]; exact x1), x2, x3⟩
    · obtain ⟨st2, x1, x2⟩ := g4 e
      exact ⟨st2, .pause s1 (nat_ne_done n) (by simp) (by simp only [Bool.false_eq_true, if_false, hj]; exact x1), x2⟩
  | @callStop n u bits d g hu =>
    intro k b st hl hp hs hq
    cases b with
    | false => have := hq rfl _ List.mem_cons_self; simp at this
    | true =>
      have s1 : kstep p (.stmt (.call n u bits) :: k) st d = .out n (u d).1 (u d).2 := by simp only [kstep]; exact if_pos hu
      exact ⟨fun v e => (by cases e), fun _ => ⟨FINALLY, .pause s1 (nat_ne_done n) (fun _ => ⟨n, hp.1 n (by simp [lines]), rfl⟩) (by
        simp only [if_true, stops, e1]; exact .refl), fun h => absurd rfl h⟩⟩
  | @yieldFinalSusp v d =>
    intro k b st hl hp hs hq
    cases b with
    | false => have := hp.2.1 rfl; simp [calm] at this
    | true =>
      have e0 : stopState st = FINALLY := if_pos (hs rfl)
      exact ⟨fun w e => ⟨_, st, d, FINALLY, .refl, by cases e; simp only [kstep, e0], by decide⟩, fun e => absurd rfl (e v)⟩
  | @yieldFinal v d g =>
    intro k b st hl hp hs hq
    cases b with
    | false => have := hp.2.1 rfl; simp [calm] at this
    | true =>
      have e0 : stopState st = FINALLY := if_pos (hs rfl)
      exact ⟨fun v e => (by cases e), fun _ => ⟨FINALLY, .pause (st1 := FINALLY) (d1 := d) (by simp only [kstep, e0]) (by decide) (by simp) (by
        simp only [Bool.false_eq_true, if_false, e1]; exact .refl), fun h => absurd rfl h⟩⟩

/-! ### histories -/

/-- All of the coroutine function, as an execution of what is still to be executed. -/
theorem runs_of_execT (hw : Written p) {d d' : σ} {t : List (Pause σ)} {o : Option (BitVec 32)} (h : ExecT p [.stmt p.body, .final, .stmt p.fin] d t d' o) : Runs p d t d' o := by
  -- the code behind cco_finally
  have fin : ∀ {d1 : σ} {t2 : List (Pause σ)} {d' : σ} {o : Option (BitVec 32)}, ExecT p [.stmt p.fin] d1 t2 d' o → ∀ {t1 : List (Pause σ)} {o1 : Out},
      Exec p.body d t1 d1 o1 → (o1 = .norm ∨ o1 = .ret) → Runs p d (t1 ++ t2) d' o := by
    intro d1 t2 d' o h t1 o1 h1 ho
    cases h with
    | susp h hq => exact .finSusp h1 ho h (hq (by simp))
    | @stmt _ _ _ d2 _ t3 t4 o2 _ g1 hq g2 g3 =>
      have hc := calm_out hw.calm g1 (hq (by simp))
      have : after p o2 [] = [] := by
        cases o2 with
        | ret => exact absurd rfl hc
        | _ => rfl
      rw [this] at g3
      cases g3
      rw [List.append_nil]
      exact .fin h1 ho g1 (hq (by simp)) g2
  cases h with
  | susp h hq => exact .susp h
  | @stmt _ _ _ d1 _ t1 t2 o1 _ g1 hq g2 g3 =>
    cases o1 with
    | norm => cases g3 with | final g3 => exact fin g3 g1 (.inl rfl)
    | ret => exact fin g3 g1 (.inr rfl)
    | brk => cases g3; rw [List.append_nil]; exact .left g1 (.inl rfl)
    | cont => cases g3; rw [List.append_nil]; exact .left g1 (.inr rfl)
    | susp v => exact absurd rfl (g2 v)

theorem Where.start (hw : Written p) : ∃ b, Where p (jump p 0) b ∧ (b = true → (0 : Int) ≤ 0) := ⟨true, by rw [jump, if_pos rfl]; exact Where.body, fun _ => Int.le_refl _⟩

/-- What a history leaves to be executed completes it to an execution of the coroutine function. -/
theorem hist_sound (hw : Written p) {d0 d : σ} {t : List (Pause σ)} {st : Int} (h : Hist p d0 t st d) :
    st ≠ DONE ∧ (∃ b, Where p (jump p st) b ∧ (b = true → 0 ≤ st)) ∧
    ∀ t2 d' o, ExecT p (jump p st) d t2 d' o → ExecT p [.stmt p.body, .final, .stmt p.fin] d0 (t ++ t2) d' o := by
  induction h with
  | start => exact ⟨by decide, Where.start hw, fun t2 d' o h => by rwa [jump, if_pos rfl] at h⟩
  | @again t st st' d d' f v g stopped _ hc hd hn ih =>
    obtain ⟨h1, ⟨b, h2, h3⟩, h4⟩ := ih
    rw [callCo, if_neg h1] at hc
    rcases runK_sound hw f _ st d b (Loc.jump hw st) h2 h3 hc with ⟨e, -⟩ | ⟨-, -, h5, h6, h7⟩
    · exact absurd e hd
    · cases stopped with
      | false => exact ⟨hd, h5, fun t2 d2 o h => by rw [List.append_assoc]; exact h4 _ _ _ (h6 g t2 d2 o h)⟩
      | true =>
        obtain ⟨n, hn1, rfl⟩ := hn rfl
        have e0 : stopState (n : Int) = FINALLY := if_pos (by omega)
        have e1 : jump p FINALLY = [.stmt p.fin] := by rw [jump, if_neg (by decide), if_pos rfl]
        simp only [if_true, e0, e1]
        exact ⟨by decide, ⟨false, Where.fin hw, by simp⟩, fun t2 d2 o h => by rw [List.append_assoc]; exact h4 _ _ _ (h7 n hn1 rfl g t2 d2 o h)⟩

/-- Inside a call. -/
def Steps (p : Routine σ) (c : Cfg σ) (c' : Cfg σ) : Prop := ∃ n, ∀ f r, runK p f c' = some r → runK p (n + f) c = some r

theorem Steps.refl (c : Cfg σ) : Steps p c c := ⟨0, fun f r h => by rwa [Nat.zero_add]⟩

theorem Steps.step {c : Cfg σ} {k : List (Frame σ)} {st : Int} {d : σ} (h : Steps p c (.run k st d)) : Steps p c (kstep p k st d) := by
  obtain ⟨n, h⟩ := h
  exact ⟨n + 1, fun f r e => by rw [Nat.add_assoc, Nat.add_comm 1 f]; exact h (f + 1) r e⟩

/-- Driving the machine along suspensions is a history. -/
theorem drive_hist {d0 : σ} {k k' : List (Frame σ)} {st st' : Int} {d d' : σ} {t : List (Pause σ)} (h : Drive p k st d t k' st' d') : ∀ {t0 : List (Pause σ)} {st0 : Int} {da : σ},
    Hist p d0 t0 st0 da → st0 ≠ DONE → Steps p (.run (jump p st0) st0 da) (.run k st d) →
    ∃ st1 d1, Hist p d0 (t0 ++ t) st1 d1 ∧ st1 ≠ DONE ∧ Steps p (.run (jump p st1) st1 d1) (.run k' st' d') := by
  induction h with
  | refl => intro t0 st0 da h1 h2 h3; exact ⟨st0, da, by rwa [List.append_nil], h2, h3⟩
  | step e _ ih => intro t0 st0 da h1 h2 h3; exact ih h1 h2 (by have := h3.step; rwa [e] at this)
  | @pause k k2 st st1 st2 d d1 d2 t v g stopped e1 e2 e3 _ ih =>
    intro t0 st0 da h1 h2 h3
    have h4 := h3.step
    rw [e1] at h4
    obtain ⟨n, h4⟩ := h4
    have h5 : callCo p (n + 0) st0 da = some (st1, d1, v) := by rw [callCo, if_neg h2]; exact h4 0 _ (by rw [runK])
    have h6 := Hist.again g stopped h1 h5 e2 e3
    have h7 : (if stopped then stopState st1 else st1) ≠ DONE := by
      cases stopped with
      | false => exact e2
      | true => obtain ⟨m, -, rfl⟩ := e3 rfl; simp only [if_true, stopState]; rw [if_pos (by omega)]; decide
    obtain ⟨st3, d3, x1, x2, x3⟩ := ih h6 h7 (Steps.refl _)
    exact ⟨st3, d3, by rwa [List.append_assoc] at x1, x2, x3⟩

end Verif.Coro
