import Verif.Regex.CostModel
import Verif.Regex.FitProps
import Mathlib.Tactic.Ring
import Mathlib.Tactic.Linarith
/- The work of the matcher: the counting functions return what the others do, and bounds for the count. -/
namespace Verif.Regex
open Verif.Utf8 (Byte casefold)
open Verif.Utf8.Spec (text Text)
open Spec (Tok Re G)

section
variable {P : Prog} {E : Env} {full : Bool} {cap d cur s : Nat}

theorem tick_some {β : Type} {n c : Nat} {x : Option (β × Nat)} {b : β} (h : tick n x = some (b, c)) : ∃ c', x = some (b, c') ∧ c = c' + n := by
  unfold tick at h
  cases x with
  | none => cases h
  | some y =>
    simp only [Option.map_some, Option.some.injEq, Prod.mk.injEq] at h
    exact ⟨y.2, by rw [← h.1], h.2.symm⟩

theorem tick_fst {β : Type} {n : Nat} {x : Option (β × Nat)} : (tick n x).map Prod.fst = x.map Prod.fst := by
  cases x <;> rfl

theorem chainC_fst : ∀ (f pc : Nat) (se : Se) (q : Mid), (chainC P E full cap d cur s f pc se q).map Prod.fst = chain P E full cap d cur s f pc se q := by
  intro f
  induction f with
  | zero => intros; rfl
  | succ f ih =>
    intro pc se q
    rw [chainC, chain]
    cases P.insts[pc]? with
    | none => rfl
    | some i =>
      simp only [Option.bind_some]
      cases eff E s q.r q.icase i.op with
      | none => rfl
      | some x =>
        simp only [Option.bind_some]
        obtain ⟨x1, x2, x3⟩ := x
        cases x3 with
        | go => cases i.next with
          | none => rfl
          | some k => simp only [Option.bind_some, tick_fst, ih]
        | die => rfl
        | eat => cases i.next with
          | none => rfl
          | some k => simp only [Option.bind_some, Option.map_map]; cases eat cap k se _ <;> rfl
        | opening k => cases i.next with
          | none => rfl
          | some k => simp only [Option.bind_some, tick_fst, ih]
        | closing k =>
          simp only
          cases setSize se k s with
          | none => rfl
          | some se' => cases i.next with
            | none => rfl
            | some k => simp only [Option.bind_some, tick_fst, ih]
        | fork right =>
          simp only
          cases fork cap d cur right se _ with
          | none => rfl
          | some o => cases o with
            | full => rfl
            | ok q' => cases i.next with
              | none => rfl
              | some k => simp only [Option.bind_some, tick_fst, ih]
        | fin => simp only [Option.map_map]; cases finish E full s se _ <;> rfl

theorem chainC_le : ∀ (f pc : Nat) (se : Se) (q : Mid) (o : Out) (c : Nat), chainC P E full cap d cur s f pc se q = some (o, c) → c ≤ f := by
  intro f
  induction f with
  | zero => intro _ _ _ _ _ h; cases h
  | succ f ih =>
    intro pc se q o c h
    rw [chainC] at h
    obtain ⟨i, -, h⟩ := Option.bind_eq_some_iff.1 h
    obtain ⟨⟨x1, x2, x3⟩, -, h⟩ := Option.bind_eq_some_iff.1 h
    cases x3 with
    | go =>
      obtain ⟨k, -, h⟩ := Option.bind_eq_some_iff.1 h
      obtain ⟨c', h', rfl⟩ := tick_some h
      have := ih _ _ _ _ _ h'
      omega
    | die => simp only [Option.some.injEq, Prod.mk.injEq] at h; omega
    | eat =>
      obtain ⟨k, -, h⟩ := Option.bind_eq_some_iff.1 h
      obtain ⟨y, -, h⟩ := Option.map_eq_some_iff.1 h
      simp only [Prod.mk.injEq] at h; omega
    | opening k =>
      obtain ⟨k, -, h⟩ := Option.bind_eq_some_iff.1 h
      obtain ⟨c', h', rfl⟩ := tick_some h
      have := ih _ _ _ _ _ h'
      omega
    | closing k =>
      obtain ⟨se', -, h⟩ := Option.bind_eq_some_iff.1 h
      obtain ⟨k, -, h⟩ := Option.bind_eq_some_iff.1 h
      obtain ⟨c', h', rfl⟩ := tick_some h
      have := ih _ _ _ _ _ h'
      omega
    | fork right =>
      obtain ⟨o', -, h⟩ := Option.bind_eq_some_iff.1 h
      cases o' with
      | full => simp only [Option.some.injEq, Prod.mk.injEq] at h; omega
      | ok q' =>
        obtain ⟨k, -, h⟩ := Option.bind_eq_some_iff.1 h
        obtain ⟨c', h', rfl⟩ := tick_some h
        have := ih _ _ _ _ _ h'
        omega
    | fin =>
      obtain ⟨y, -, h⟩ := Option.map_eq_some_iff.1 h
      simp only [Prod.mk.injEq] at h; omega

theorem threadsC_fst : ∀ (f d : Nat) (ts : List Thread) (q : Mid), (threadsC P E full cap s f d ts q).map Prod.fst = threads P E full cap s f d ts q := by
  intro f
  induction f with
  | zero => intros; rfl
  | succ f ih =>
    intro d ts q
    cases ts with
    | nil => rfl
    | cons t ts =>
      rw [threadsC, threads, ← chainC_fst]
      cases chainC P E full cap d t.inst s (P.insts.length + 1) t.inst t.se { q with pend := ts } with
      | none => rfl
      | some y =>
        obtain ⟨o, c⟩ := y
        cases o with
        | full => rfl
        | ok q' => simp only [Option.bind_some, Option.map_some, tick_fst, ih]

theorem threadsC_le : ∀ (f d : Nat) (ts : List Thread) (q : Mid) (o : Out) (c : Nat), threadsC P E full cap s f d ts q = some (o, c) → c ≤ f * (P.insts.length + 1) := by
  intro f
  induction f with
  | zero => intro _ _ _ _ _ h; cases h
  | succ f ih =>
    intro d ts q o c h
    cases ts with
    | nil => simp only [threadsC, Option.some.injEq, Prod.mk.injEq] at h; omega
    | cons t ts =>
      rw [threadsC] at h
      obtain ⟨⟨o', c'⟩, h1, h⟩ := Option.bind_eq_some_iff.1 h
      have hc := chainC_le _ _ _ _ _ _ h1
      rw [Nat.succ_mul]
      cases o' with
      | full => simp only [Option.some.injEq, Prod.mk.injEq] at h; omega
      | ok q' =>
        obtain ⟨c2, h', rfl⟩ := tick_some h
        have := ih _ _ _ _ _ h'
        simp only
        omega

theorem findC_fst {m : List Byte} {p : Byte → Bool} : ∀ (f s : Nat), (findByteC m p f s).map Prod.fst = findByte m p f s
  | 0, _ => rfl
  | f + 1, s => by
    rw [findByteC, findByte]
    cases m[s]? with
    | none => rfl
    | some b =>
      simp only [Option.bind_some]
      split
      · rfl
      · split
        · rfl
        · rw [tick_fst, findC_fst]

/-- The bytes read: up to the one found, or up to the terminator. -/
theorem findC_count {m : List Byte} {p : Byte → Bool} : ∀ (f s : Nat) (o : Option Nat) (c : Nat), findByteC m p f s = some (o, c) →
    (∀ k, o = some k → k + 1 = s + c) ∧ (o = none → ∃ z, m[z]? = some 0#8 ∧ z + 1 = s + c ∧ ∀ i, s ≤ i → i < z → m[i]? ≠ some 0#8)
  | 0, _, _, _, h => by cases h
  | f + 1, s, o, c, h => by
    rw [findByteC] at h
    obtain ⟨b, hb, h⟩ := Option.bind_eq_some_iff.1 h
    split at h
    · simp only [Option.some.injEq, Prod.mk.injEq] at h
      obtain ⟨rfl, rfl⟩ := h
      exact ⟨fun k hk => by simp only [Option.some.injEq] at hk; omega, fun h => by cases h⟩
    · split at h
      · simp only [Option.some.injEq, Prod.mk.injEq] at h
        obtain ⟨rfl, rfl⟩ := h
        rename_i h0
        subst h0
        exact ⟨(fun k hk => by cases hk), fun _ => ⟨s, hb, rfl, fun i h1 h2 => by omega⟩⟩
      · rename_i h0
        obtain ⟨c', h', rfl⟩ := tick_some h
        obtain ⟨h1, h2⟩ := findC_count f (s + 1) o c' h'
        refine ⟨fun k hk => by have := h1 k hk; omega, fun ho => ?_⟩
        obtain ⟨z, z1, z2, z3⟩ := h2 ho
        refine ⟨z, z1, by omega, fun i i1 i2 => ?_⟩
        by_cases he : i = s
        · subst he
          rw [hb]
          simpa using h0
        · exact z3 i (by omega) i2

theorem seekC_fst {check : Bool} : (seekC P E check s).map Prod.fst = seek P E check s := by
  unfold seekC seek
  split
  · unfold startCheckC startCheck
    cases startType P with
    | none => rfl
    | chr c => simp only [← findC_fst]; cases findByteC E.m _ _ s <;> rfl
    | ichr c => simp only [← findC_fst]; cases findByteC E.m _ _ s <;> rfl
    | bol =>
      simp only
      split
      · rfl
      · simp only [← findC_fst]; cases findByteC E.m _ _ s <;> rfl
  · rfl

theorem mainLoopC_fst : ∀ (f s : Nat) (check : Bool) (tl : List Thread) (ic matched : Bool) (mp : Option Match),
    (mainLoopC P E full cap f s check tl ic matched mp).map Prod.fst = mainLoop P E full cap f s check tl ic matched mp := by
  intro f
  induction f with
  | zero => intros; rfl
  | succ f ih =>
    intro s check tl ic matched mp
    rw [mainLoopC, mainLoop, ← seekC_fst]
    cases seekC P E check s with
    | none => rfl
    | some o =>
      obtain ⟨o, c⟩ := o
      cases o with
      | none => rfl
      | some s =>
        simp only [Option.bind_some, Option.map_some]
        cases rune E.m s with
        | none => rfl
        | some rn =>
          simp only [Option.bind_some]
          cases inject P cap matched tl s with
          | none => rfl
          | some tl =>
            simp only [Option.bind_some, ← threadsC_fst]
            cases threadsC P E full cap s (cap + 1) 0 tl ⟨rn.1, ic, [], [], matched, mp⟩ with
            | none => rfl
            | some y =>
              obtain ⟨o, c'⟩ := y
              cases o with
              | full => rfl
              | ok q =>
                simp only [Option.bind_some, Option.map_some]
                split
                · rfl
                · rw [tick_fst, ih]

theorem exec1C_fst : (exec1C P E full cap s).map Prod.fst = exec1 P E full cap s := mainLoopC_fst _ _ _ _ _ _ _

/-- Counting does not change the result. -/
theorem execC_fst {alloc : Bool} : (execC P E full s alloc).map Prod.fst = exec P E full s alloc := by
  unfold execC exec
  rw [← exec1C_fst, ← exec1C_fst]
  cases exec1C P E full 10 s with
  | none => rfl
  | some x =>
    simp only [Option.bind_some, Option.map_some]
    split
    · rfl
    · split
      · exact tick_fst
      · rfl

theorem iterC_fst {alloc : Bool} : ∀ (f k : Nat), (iterC P E alloc f k).map Prod.fst = iterLoop P E alloc f k
  | 0, _ => rfl
  | f + 1, k => by
    rw [iterC, iterLoop, ← execC_fst]
    cases execC P { E with eol := none } false k alloc with
    | none => rfl
    | some x =>
      obtain ⟨⟨r, o⟩, c⟩ := x
      simp only [Option.bind_some, Option.map_some]
      by_cases hr : r = 1
      · subst hr
        cases o with
        | none => rfl
        | some x =>
          simp only
          split
          · rfl
          · rw [← iterC_fst f, Option.map_map, Option.map_map]; rfl
      · split
        · rename_i h; simp only [Prod.mk.injEq] at h; exact absurd h.1 hr
        · rename_i h; simp only [Prod.mk.injEq] at h; exact absurd h.1 hr
        · split
          · rename_i h; simp only [Prod.mk.injEq] at h; exact absurd h.1 hr
          · rename_i h; simp only [Prod.mk.injEq] at h; exact absurd h.1 hr
          · rfl
end

/-! ### a character 0 stays 0 -/

section
variable {P : Prog} {E : Env} {full : Bool} {cap d cur s : Nat}

theorem eff_zero {ic : Bool} {o : Op} {r : Nat} {x : Nat × Bool × Eff} (h : eff E s r ic o = some x) : x.1 = 0 ↔ r = 0 := by
  have hz := fold_zero r
  cases o with
  | bol =>
    simp only [eff] at h
    split at h
    · cases h; rfl
    · split at h
      · cases h
      · obtain ⟨b, -, h⟩ := Option.bind_eq_some_iff.1 h
        cases h; rfl
  | wbound => obtain ⟨b, -, h⟩ := Option.bind_eq_some_iff.1 h; cases h; rfl
  | nwbound => obtain ⟨b, -, h⟩ := Option.bind_eq_some_iff.1 h; cases h; rfl
  | irune c => cases h; exact hz
  | cls neg sp => cases h; simp only; split <;> simp [hz]
  | eol => simp only [eff] at h; split at h <;> (cases h; rfl)
  | eoz =>
    simp only [eff] at h
    split at h
    · cases h; rfl
    · split at h
      · obtain ⟨b, -, h⟩ := Option.bind_eq_some_iff.1 h
        cases h; rfl
      · cases h; rfl
  | _ => cases h; rfl

theorem chain_zero : ∀ (f pc : Nat) (se : Se) (q q' : Mid), chain P E full cap d cur s f pc se q = some (.ok q') → (q'.r = 0 ↔ q.r = 0) := by
  intro f
  induction f with
  | zero => intro _ _ _ _ h; cases h
  | succ f ih =>
    intro pc se q q' h
    rw [chain] at h
    obtain ⟨i, -, h⟩ := Option.bind_eq_some_iff.1 h
    obtain ⟨⟨x1, x2, x3⟩, hx, h⟩ := Option.bind_eq_some_iff.1 h
    have hq := eff_zero hx
    cases x3 with
    | go =>
      obtain ⟨k, -, h⟩ := Option.bind_eq_some_iff.1 h
      exact (ih _ _ _ _ h).trans hq
    | die => simp only [Option.some.injEq, Out.ok.injEq] at h; rw [← h]; exact hq
    | eat =>
      obtain ⟨k, -, h⟩ := Option.bind_eq_some_iff.1 h
      unfold eat at h
      obtain ⟨y, -, h⟩ := Option.map_eq_some_iff.1 h
      split at h
      · cases h
      · cases h; exact hq
    | opening k =>
      obtain ⟨k, -, h⟩ := Option.bind_eq_some_iff.1 h
      exact (ih _ _ _ _ h).trans hq
    | closing k =>
      obtain ⟨se', -, h⟩ := Option.bind_eq_some_iff.1 h
      obtain ⟨k, -, h⟩ := Option.bind_eq_some_iff.1 h
      exact (ih _ _ _ _ h).trans hq
    | fork right =>
      obtain ⟨o', h1, h⟩ := Option.bind_eq_some_iff.1 h
      cases o' with
      | full => cases h
      | ok q2 =>
        obtain ⟨k, -, h⟩ := Option.bind_eq_some_iff.1 h
        refine (ih _ _ _ _ h).trans ?_
        unfold fork at h1
        obtain ⟨y, -, h1⟩ := Option.map_eq_some_iff.1 h1
        split at h1
        · cases h1
        · cases h1; exact hq
    | fin =>
      simp only [finish] at h
      obtain ⟨y, -, h⟩ := Option.map_eq_some_iff.1 h
      cases h; exact hq

theorem threads_zero : ∀ (f d : Nat) (ts : List Thread) (q q' : Mid), threads P E full cap s f d ts q = some (.ok q') → (q'.r = 0 ↔ q.r = 0) := by
  intro f
  induction f with
  | zero => intro _ _ _ _ h; cases h
  | succ f ih =>
    intro d ts q q' h
    cases ts with
    | nil => simp only [threads, Option.some.injEq, Out.ok.injEq] at h; rw [← h]
    | cons t ts =>
      rw [threads] at h
      obtain ⟨o', h1, h⟩ := Option.bind_eq_some_iff.1 h
      cases o' with
      | full => cases h
      | ok q2 =>
        have := chain_zero _ _ _ _ _ h1
        exact (ih _ _ _ _ h).trans this
end

/-! ### the loop -/

section
variable {P : Prog} {E : Env} {cs : List Nat} {pre rest : List Byte} {full : Bool} {cap i : Nat}

theorem off_ge {j : Nat} : ∀ {i : Nat}, i ≤ j → j ≤ cs.length → off pre cs i + (j - i) ≤ off pre cs j := by
  induction j with
  | zero => intro i h _; obtain rfl : i = 0 := by omega
            simp
  | succ j ih =>
    intro i h hj
    rcases Nat.lt_or_ge i (j + 1) with hlt | hge
    · have := ih (i := i) (by omega) (by omega)
      have := off_lt (pre := pre) (show j < j + 1 by omega) hj
      omega
    · obtain rfl : i = j + 1 := by omega
      simp

theorem Input.zero (hin : Input E cs pre rest) (hs : Soft E) : E.m[off pre cs cs.length]? = some 0#8 := by
  rw [off_len]
  rcases hin.stop with ⟨-, junk, h⟩ | ⟨h, -⟩
  · rw [hin.mem, h, show pre.length + (text cs).length = (pre ++ text cs).length by simp, List.getElem?_append_right (Nat.le_refl _), Nat.sub_self]
    rfl
  · exact hs _ h

theorem findC_bounds (hin : Input E cs pre rest) (hs : Soft E) (hi : i ≤ cs.length) {p : Byte → Bool} {f : Nat} {o : Option Nat} {c : Nat}
    (h : findByteC E.m p f (off pre cs i) = some (o, c)) : c ≤ off pre cs cs.length + 1 - off pre cs i ∧ (o = none → cs.length - i ≤ c) ∧ ∀ k, o = some k → k + 1 = off pre cs i + c := by
  have hz := hin.zero hs
  have hle := off_le (pre := pre) hi (Nat.le_refl _)
  obtain ⟨h1, h2⟩ := findC_count _ _ _ _ h
  have hf : findByte E.m p f (off pre cs i) = some o := by rw [← findC_fst, h]; rfl
  refine ⟨?_, fun ho => ?_, h1⟩
  · cases o with
    | some k =>
      have := h1 k rfl
      obtain ⟨a1, -, a3⟩ := find_some _ _ _ hf
      rcases Nat.lt_or_ge (off pre cs cs.length) k with hlt | hge
      · obtain ⟨b, b1, -, b3⟩ := a3 _ hle hlt
        rw [hz] at b1
        cases b1
        exact absurd rfl b3
      · omega
    | none =>
      obtain ⟨z, z1, z2, z3⟩ := h2 rfl
      rcases Nat.lt_or_ge (off pre cs cs.length) z with hlt | hge
      · exact absurd hz (z3 _ hle hlt)
      · omega
  · subst ho
    obtain ⟨k, k1, k2, k3⟩ := find_none _ _ hf
    obtain ⟨z, z1, z2, z3⟩ := h2 rfl
    have hkz : z = k := by
      rcases Nat.lt_trichotomy z k with hlt | he | hgt
      · obtain ⟨b, b1, -, b3⟩ := k3 z (by
          rcases Nat.lt_or_ge z (off pre cs i) with hl | hl
          · have : c = 0 := by omega
            subst this
            exfalso
            cases f with
            | zero => cases h
            | succ f =>
              rw [findByteC] at h
              obtain ⟨b, -, h⟩ := Option.bind_eq_some_iff.1 h
              split at h
              · cases h
              · split at h
                · cases h
                · obtain ⟨c', -, h'⟩ := tick_some h
                  omega
          · exact hl) (by omega)
        rw [z1] at b1
        cases b1
        exact absurd rfl (b3 hlt)
      · exact he
      · exact absurd k2 (z3 k k1 hgt)
    subst hkz
    have hp := pos_ascii hs k2 (by decide) (z - off pre cs i) (off pre cs i) rfl k1 ((hin.pos hi).2 ⟨i, Nat.le_refl _, hi, rfl⟩) (fun x x1 x2 => by
      obtain ⟨b, b1, -, b3⟩ := k3 x x1 (by omega)
      exact ⟨b, b1, b3 x2⟩)
    obtain ⟨j, j1, j2, rfl⟩ := (hin.pos hi).1 hp
    have hj : j = cs.length := by
      by_contra hne
      have hlt : j < cs.length := by omega
      have hc := List.getElem?_eq_getElem hlt
      obtain ⟨-, -, -, b, b1, b2, -⟩ := rune_facts (hin.rune hc)
      rw [k2] at b1
      cases b1
      exact hin.nz hc (b2.2 rfl)
    subst hj
    have := off_ge (pre := pre) hi (Nat.le_refl cs.length)
    omega

theorem seekC_bounds (hin : Input E cs pre rest) (hpl : Plain P E) (hi : i ≤ cs.length) {check : Bool} {o : Option Nat} {c : Nat} (h : seekC P E check (off pre cs i) = some (o, c)) :
    (o = none → c ≤ off pre cs cs.length + 1 - off pre cs i ∧ cs.length - i ≤ c) ∧
    ∀ s', o = some s' → ∃ j, i ≤ j ∧ j ≤ cs.length ∧ s' = off pre cs j ∧ c ≤ off pre cs j + 1 - off pre cs i ∧ j - i ≤ c := by
  have hs : seek P E check (off pre cs i) = some o := by rw [← seekC_fst, h]; rfl
  have hpos : ∀ s', o = some s' → ∃ j, i ≤ j ∧ j ≤ cs.length ∧ s' = off pre cs j := by
    rintro s' rfl
    obtain ⟨p1, -, -⟩ := seek_pos hpl ((hin.pos hi).2 ⟨i, Nat.le_refl _, hi, rfl⟩) hs
    obtain ⟨j, h1, h2, h3⟩ := (hin.pos hi).1 p1
    exact ⟨j, h1, h2, h3⟩
  have stay : some (off pre cs i) = o → c = 0 → (o = none → c ≤ off pre cs cs.length + 1 - off pre cs i ∧ cs.length - i ≤ c) ∧
      ∀ s', o = some s' → ∃ j, i ≤ j ∧ j ≤ cs.length ∧ s' = off pre cs j ∧ c ≤ off pre cs j + 1 - off pre cs i ∧ j - i ≤ c := by
    rintro rfl rfl
    refine ⟨(fun h => by cases h), fun s' hs' => ⟨i, Nat.le_refl _, hi, ?_, by omega, by omega⟩⟩
    cases hs'; rfl
  have eolEnd : some (off pre cs i) = E.eol → i = cs.length := by
    intro he
    by_contra hne
    exact hin.not_eol (by omega) he
  have hfind : startType P ≠ .none → Soft E := fun hne => hpl.resolve_right hne
  unfold seekC at h
  split at h
  · unfold startCheckC at h
    cases hst : startType P with
    | none =>
      rw [hst] at h
      simp only [Option.some.injEq, Prod.mk.injEq] at h
      exact stay h.1 h.2.symm
    | chr x =>
      rw [hst] at h
      obtain ⟨⟨q, d⟩, h1, h⟩ := Option.bind_eq_some_iff.1 h
      simp only [Option.some.injEq, Prod.mk.injEq] at h
      obtain ⟨h2, rfl⟩ := h
      obtain ⟨b1, b2, b3⟩ := findC_bounds hin (hfind (by rw [hst]; simp)) hi h1
      refine ⟨fun ho => ⟨b1, ?_⟩, fun s' hs' => ?_⟩
      · split at h2
        · rename_i he
          have := eolEnd he
          omega
        · exact b2 (h2.trans ho)
      · obtain ⟨j, j1, j2, rfl⟩ := hpos s' hs'
        refine ⟨j, j1, j2, rfl, ?_⟩
        split at h2
        · rw [hs'] at h2; cases h2
        · have := b3 _ (h2.trans hs')
          have := off_ge (pre := pre) j1 j2
          omega
    | ichr x =>
      rw [hst] at h
      obtain ⟨⟨q, d⟩, h1, h⟩ := Option.bind_eq_some_iff.1 h
      simp only [Option.some.injEq, Prod.mk.injEq] at h
      obtain ⟨h2, rfl⟩ := h
      obtain ⟨b1, b2, b3⟩ := findC_bounds hin (hfind (by rw [hst]; simp)) hi h1
      refine ⟨fun ho => ⟨b1, ?_⟩, fun s' hs' => ?_⟩
      · split at h2
        · rename_i he
          have := eolEnd he
          omega
        · exact b2 (h2.trans ho)
      · obtain ⟨j, j1, j2, rfl⟩ := hpos s' hs'
        refine ⟨j, j1, j2, rfl, ?_⟩
        split at h2
        · rw [hs'] at h2; cases h2
        · have := b3 _ (h2.trans hs')
          have := off_ge (pre := pre) j1 j2
          omega
    | bol =>
      rw [hst] at h
      simp only at h
      split at h
      · simp only [Option.some.injEq, Prod.mk.injEq] at h
        exact stay h.1 h.2.symm
      · obtain ⟨⟨q, d⟩, h1, h⟩ := Option.bind_eq_some_iff.1 h
        simp only [Option.some.injEq, Prod.mk.injEq] at h
        obtain ⟨h2, rfl⟩ := h
        obtain ⟨b1, b2, b3⟩ := findC_bounds hin (hfind (by rw [hst]; simp)) hi h1
        refine ⟨fun ho => ⟨b1, ?_⟩, fun s' hs' => ?_⟩
        · split at h2
          · rename_i he
            have := eolEnd he
            omega
          · rw [ho] at h2
            exact b2 (Option.map_eq_none_iff.1 h2)
        · obtain ⟨j, j1, j2, rfl⟩ := hpos s' hs'
          refine ⟨j, j1, j2, rfl, ?_⟩
          split at h2
          · rw [hs'] at h2; cases h2
          · rw [hs'] at h2
            obtain ⟨k, k1, k2⟩ := Option.map_eq_some_iff.1 h2
            have := b3 _ k1
            have := off_ge (pre := pre) j1 j2
            omega
  · simp only [Option.some.injEq, Prod.mk.injEq] at h
    exact stay h.1 h.2.symm

/-- The work of one run: proportional to the bytes left, and at least the number of characters left. -/
theorem mainLoopC_bounds (hin : Input E cs pre rest) (hpl : Plain P E) :
    ∀ (f i : Nat) (check : Bool) (tl : List Thread) (ic matched : Bool) (mp : Option Match) (x : Int × Option Match) (c : Nat), i ≤ cs.length →
    mainLoopC P E full cap f (off pre cs i) check tl ic matched mp = some (x, c) →
    c ≤ ((cap + 1) * (P.insts.length + 1) + 2) * (off pre cs cs.length + 1 - off pre cs i) ∧ (x.1 ≠ -1 → cs.length - i ≤ c) := by
  intro f
  induction f with
  | zero => intro _ _ _ _ _ _ _ _ _ h; cases h
  | succ f ih =>
    intro i check tl ic matched mp x c hi h
    rw [mainLoopC] at h
    obtain ⟨⟨o, c1⟩, h1, h⟩ := Option.bind_eq_some_iff.1 h
    obtain ⟨s1, s2⟩ := seekC_bounds hin hpl hi h1
    generalize hT : (cap + 1) * (P.insts.length + 1) = T
    cases o with
    | none =>
      simp only [Option.some.injEq, Prod.mk.injEq] at h
      obtain ⟨rfl, rfl⟩ := h
      obtain ⟨u, l⟩ := s1 rfl
      exact ⟨u.trans (Nat.le_mul_of_pos_left _ (by omega)), fun _ => l⟩
    | some s' =>
      obtain ⟨j, j1, j2, rfl, u, l⟩ := s2 _ rfl
      simp only at h
      obtain ⟨rn, hr, h⟩ := Option.bind_eq_some_iff.1 h
      obtain ⟨tl', -, h⟩ := Option.bind_eq_some_iff.1 h
      obtain ⟨⟨o, c2⟩, h2, h⟩ := Option.bind_eq_some_iff.1 h
      have hc2 := threadsC_le _ _ _ _ _ _ h2
      rw [hT] at hc2
      have hij := off_le (pre := pre) j1 j2
      have hjl := off_le (pre := pre) j2 (Nat.le_refl _)
      have key : c1 + 1 + c2 ≤ (T + 2) * (off pre cs j + 1 - off pre cs i) := by
        obtain ⟨y, hy⟩ : ∃ y, off pre cs j + 1 - off pre cs i = y + 1 := ⟨off pre cs j - off pre cs i, by omega⟩
        rw [hy] at u ⊢
        have : (T + 2) * (y + 1) = T * y + 2 * y + T + 2 := by ring
        have h0 : 0 ≤ T * y := Nat.zero_le _
        omega
      have stop : c1 + 1 + c2 ≤ (T + 2) * (off pre cs cs.length + 1 - off pre cs i) := key.trans (Nat.mul_le_mul_left _ (by omega))
      cases o with
      | full =>
        simp only [Option.some.injEq, Prod.mk.injEq] at h
        obtain ⟨rfl, rfl⟩ := h
        exact ⟨stop, fun hne => absurd rfl hne⟩
      | ok q =>
        have hz := threads_zero (P := P) (E := E) (full := full) (cap := cap) (s := off pre cs j) _ _ _ _ q (by rw [← threadsC_fst, h2]; rfl)
        simp only at h hz
        split at h
        · rename_i hq
          simp only [Option.some.injEq, Prod.mk.injEq] at h
          obtain ⟨rfl, rfl⟩ := h
          refine ⟨stop, fun _ => ?_⟩
          have hjl : j = cs.length := by
            by_contra hne
            have hlt : j < cs.length := by omega
            have hc := List.getElem?_eq_getElem hlt
            rcases hq with hq | hq
            · exact hin.not_eol hlt hq
            · have h3 := hin.rune hc
              rw [hr] at h3
              simp only [Option.some.injEq] at h3
              rw [h3] at hz
              exact hin.nz hc (hz.1 hq)
          omega
        · rename_i hq
          have hjlt : j < cs.length := by
            by_contra hge
            obtain rfl : j = cs.length := by omega
            rcases hin.at_end hr with e | ⟨-, e⟩
            · exact hq (.inl e)
            · exact hq (.inr (hz.2 e))
          have hc := List.getElem?_eq_getElem hjlt
          have hn : off pre cs (j + 1) = off pre cs j + rn.2 := by
            have h3 := hin.rune hc
            rw [hr] at h3
            rw [off_succ hc]
            simp only [Option.some.injEq] at h3
            rw [h3]
          obtain ⟨c', h', rfl⟩ := tick_some h
          rw [← hn] at h'
          obtain ⟨u', l'⟩ := ih (j + 1) _ _ _ _ _ _ _ (by omega) h'
          rw [hT] at u'
          have hlt := off_lt (pre := pre) (show j < j + 1 by omega) hjlt
          have hl2 := off_le (pre := pre) (show j + 1 ≤ cs.length by omega) (Nat.le_refl _)
          refine ⟨?_, fun hne => by have := l' hne; omega⟩
          calc c' + (c1 + 1 + c2) ≤ (T + 2) * (off pre cs cs.length + 1 - off pre cs (j + 1)) + (T + 2) * (off pre cs j + 1 - off pre cs i) := Nat.add_le_add u' key
            _ = (T + 2) * ((off pre cs cs.length + 1 - off pre cs (j + 1)) + (off pre cs j + 1 - off pre cs i)) := by ring
            _ ≤ (T + 2) * (off pre cs cs.length + 1 - off pre cs i) := Nat.mul_le_mul_left _ (by omega)
end

end Verif.Regex
