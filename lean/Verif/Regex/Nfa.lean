import Verif.Regex.Exec
import Verif.Utf8.Case
import Mathlib.Tactic.Common
/- The program as an automaton: what can still be matched from an instruction. -/
namespace Verif.Regex
open Verif.Utf8 (Byte casefold decodeCp)

/-- A change of case mode inside the pattern is to the mode of the program; literals are compared as the
flag of the program says. -/
def okOp (ic : Bool) (o : Op) : Prop :=
  (ic = true → o ≠ .cased) ∧ (ic = false → o ≠ .icase) ∧ (ic = true → ∀ c, o ≠ .rune c) ∧ (ic = false → ∀ c, o ≠ .irune c)

def Uniform (P : Prog) : Prop := ∀ I ∈ P.insts, okOp P.icase I.op

/-- One character is consumed: from `i` to `i'`. -/
def Step (E : Env) (i i' : Nat) : Prop := ∃ r n, rune E.m i = some (r, n) ∧ r ≠ 0 ∧ some i ≠ E.eol ∧ i' = i + n

/-- What the instruction does at position `i`. -/
def Does (P : Prog) (E : Env) (i : Nat) (o : Op) (e : Eff) : Prop :=
  ∃ r n, rune E.m i = some (r, n) ∧ (eff E i r P.icase o).map (·.2.2) = some e

/-- From instruction `pc` at position `i` the end of the program can be reached at `j`, in `n` steps. -/
inductive F (P : Prog) (E : Env) : Nat → Nat → Nat → Nat → Prop
  | fin {pc i I} : P.insts[pc]? = some I → Does P E i I.op .fin → F P E 0 pc i i
  | go {pc i j I k n} : P.insts[pc]? = some I → Does P E i I.op .go → I.next = some k → F P E n k i j → F P E (n + 1) pc i j
  | opening {pc i j I k n x} : P.insts[pc]? = some I → Does P E i I.op (.opening x) → I.next = some k → F P E n k i j → F P E (n + 1) pc i j
  | closing {pc i j I k n x} : P.insts[pc]? = some I → Does P E i I.op (.closing x) → I.next = some k → F P E n k i j → F P E (n + 1) pc i j
  | left {pc i j I k n x} : P.insts[pc]? = some I → Does P E i I.op (.fork x) → I.next = some k → F P E n k i j → F P E (n + 1) pc i j
  | right {pc i j I n x} : P.insts[pc]? = some I → Does P E i I.op (.fork x) → F P E n x i j → F P E (n + 1) pc i j
  | eat {pc i i' j I k n} : P.insts[pc]? = some I → Does P E i I.op .eat → I.next = some k → Step E i i' → F P E n k i' j → F P E (n + 1) pc i j

/-- The same with the groups. -/
inductive Fut (P : Prog) (E : Env) : Nat → Nat → Nat → Se → Nat → Se → Prop
  | fin {pc i I σ} : P.insts[pc]? = some I → Does P E i I.op .fin → Fut P E 0 pc i σ i σ
  | go {pc i j I k n σ τ} : P.insts[pc]? = some I → Does P E i I.op .go → I.next = some k → Fut P E n k i σ j τ → Fut P E (n + 1) pc i σ j τ
  | opening {pc i j I k n x σ τ} : P.insts[pc]? = some I → Does P E i I.op (.opening x) → I.next = some k → Fut P E n k i (setBuf σ x i) j τ → Fut P E (n + 1) pc i σ j τ
  | closing {pc i j I k n x σ σ' τ} : P.insts[pc]? = some I → Does P E i I.op (.closing x) → I.next = some k → setSize σ x i = some σ' → Fut P E n k i σ' j τ → Fut P E (n + 1) pc i σ j τ
  | left {pc i j I k n x σ τ} : P.insts[pc]? = some I → Does P E i I.op (.fork x) → I.next = some k → Fut P E n k i σ j τ → Fut P E (n + 1) pc i σ j τ
  | right {pc i j I n x σ τ} : P.insts[pc]? = some I → Does P E i I.op (.fork x) → Fut P E n x i σ j τ → Fut P E (n + 1) pc i σ j τ
  | eat {pc i i' j I k n σ τ} : P.insts[pc]? = some I → Does P E i I.op .eat → I.next = some k → Step E i i' → Fut P E n k i' σ j τ → Fut P E (n + 1) pc i σ j τ

/-- The positions of characters from `s` on. -/
inductive Pos (E : Env) (s : Nat) : Nat → Prop
  | here : Pos E s s
  | step {i i'} : Pos E s i → Step E i i' → Pos E s i'

/-! ### the character and its case-folded form -/

theorem fold_nl_tab : (Verif.Utf8.points Verif.Utf8.foldTab).all (fun c => Nat.blt 10 c && !(Nat.beq (Verif.Utf8.foldLoopB c Verif.Utf8.foldTab) 10) && !(Nat.beq (Verif.Utf8.foldLoopB c Verif.Utf8.foldTab) 0)) = true := by decide +kernel

theorem fold_nl (c : Nat) : casefold c = 10 ↔ c = 10 := by
  rw [Verif.Utf8.casefold_eq]
  by_cases h : c ∈ Verif.Utf8.points Verif.Utf8.foldTab
  · have := List.all_eq_true.1 fold_nl_tab c h
    simp only [Bool.and_eq_true, Verif.Utf8.foldLoopB_eq, Bool.not_eq_true'] at this
    obtain ⟨⟨h1, h2⟩, -⟩ := this
    have h1 : 10 < c := Nat.lt_of_succ_le (Nat.le_of_ble_eq_true h1)
    constructor
    · intro e; rw [e] at h2; exact absurd h2 (by decide)
    · intro e; omega
  · rw [Verif.Utf8.foldLoop_out c _ h]

theorem fold_zero (c : Nat) : casefold c = 0 ↔ c = 0 := by
  rcases Verif.Utf8.casefold_facts c with h | ⟨-, -, h, -⟩
  · rw [h]
  · constructor
    · intro e; exact absurd e h
    · rintro rfl; exfalso; exact h (by decide +kernel)

theorem fold_fold (c : Nat) : casefold (casefold c) = casefold c := by
  rcases Verif.Utf8.casefold_facts c with h | ⟨h, -⟩
  · rw [h, h]
  · exact h

/-- `r'` is the character `r`, or its case-folded form in a case-insensitive program. -/
def Same (ic : Bool) (r r' : Nat) : Prop := r' = r ∨ (ic = true ∧ r' = casefold r)

theorem same_fold {ic : Bool} {r r' : Nat} (h : Same ic r r') : casefold r' = casefold r := by
  rcases h with rfl | ⟨-, rfl⟩
  · rfl
  · exact fold_fold r

theorem same_nl {ic : Bool} {r r' : Nat} (h : Same ic r r') : (r' = 10) ↔ (r = 10) := by
  rcases h with rfl | ⟨-, rfl⟩
  · rfl
  · exact fold_nl r

theorem same_zero {ic : Bool} {r r' : Nat} (h : Same ic r r') : (r' = 0) ↔ (r = 0) := by
  rcases h with rfl | ⟨-, rfl⟩
  · rfl
  · exact fold_zero r

theorem eff_same {E : Env} {s r r' : Nat} {ic : Bool} {o : Op} (ho : okOp ic o) (h : Same ic r r') :
    (eff E s r' ic o).map (·.2.2) = (eff E s r ic o).map (·.2.2) ∧
    ∀ x, eff E s r' ic o = some x → x.2.1 = ic ∧ Same ic r x.1 := by
  obtain ⟨h1, h2, h3, h4⟩ := ho
  have hn := same_nl h
  have hz := same_zero h
  have hf := same_fold h
  have hn' : (r' != 10) = (r != 10) := by rw [Bool.eq_iff_iff]; simp [hn]
  have hz' : (r' == 0) = (r == 0) := by rw [Bool.eq_iff_iff]; simp [hz]
  cases o with
  | irune c =>
    have hic : ic = true := by
      cases ic with
      | true => rfl
      | false => exact absurd rfl (h4 rfl c)
    simp only [eff, hf, Option.map_some, Option.some.injEq]
    refine ⟨trivial, ?_⟩
    rintro x rfl
    exact ⟨rfl, .inr ⟨hic, rfl⟩⟩
  | rune c =>
    have hic : ic = false := by
      cases ic with
      | false => rfl
      | true => exact absurd rfl (h3 rfl c)
    have : r' = r := by
      rcases h with h | ⟨h, -⟩
      · exact h
      · rw [hic] at h; cases h
    subst this
    refine ⟨rfl, ?_⟩
    simp only [eff, Option.some.injEq]
    rintro x rfl
    exact ⟨rfl, h⟩
  | cased =>
    have hic : ic = false := by
      cases ic with
      | false => rfl
      | true => exact absurd rfl (h1 rfl)
    subst hic
    simp only [eff, Option.map_some, Option.some.injEq]; exact ⟨trivial, by rintro x rfl; exact ⟨rfl, h⟩⟩
  | icase =>
    have hic : ic = true := by
      cases ic with
      | true => rfl
      | false => exact absurd rfl (h2 rfl)
    subst hic
    simp only [eff, Option.map_some, Option.some.injEq]; exact ⟨trivial, by rintro x rfl; exact ⟨rfl, h⟩⟩
  | lbra k => simp only [eff, Option.map_some, Option.some.injEq]; exact ⟨trivial, by rintro x rfl; exact ⟨rfl, h⟩⟩
  | rbra k => simp only [eff, Option.map_some, Option.some.injEq]; exact ⟨trivial, by rintro x rfl; exact ⟨rfl, h⟩⟩
  | any =>
    simp only [eff, Option.map_some, Option.some.injEq]
    refine ⟨?_, by rintro x rfl; exact ⟨rfl, h⟩⟩
    rw [hn']
  | anynl => simp only [eff, Option.map_some, Option.some.injEq]; exact ⟨trivial, by rintro x rfl; exact ⟨rfl, h⟩⟩
  | bol =>
    simp only [eff]
    split
    · simp only [Option.map_some, Option.some.injEq]; exact ⟨trivial, by rintro x rfl; exact ⟨rfl, h⟩⟩
    · split
      · simp
      · cases E.m[s - 1]? with
        | none => simp
        | some b => simp only [Option.bind_some, Option.map_some, Option.some.injEq]; exact ⟨trivial, by rintro x rfl; exact ⟨rfl, h⟩⟩
  | bos => simp only [eff, Option.map_some, Option.some.injEq]; exact ⟨trivial, by rintro x rfl; exact ⟨rfl, h⟩⟩
  | eol =>
    simp only [eff]
    by_cases e : r = 10
    · rw [if_pos e, if_pos (hn.2 e)]
      simp only [Option.map_some, Option.some.injEq]
      exact ⟨trivial, by rintro x rfl; exact ⟨rfl, h⟩⟩
    · rw [if_neg e, if_neg (fun x => e (hn.1 x))]
      simp only [Option.map_some, Option.some.injEq]
      refine ⟨?_, by rintro x rfl; exact ⟨rfl, h⟩⟩
      rw [hz']
  | eos =>
    simp only [eff, Option.map_some, Option.some.injEq]
    refine ⟨?_, by rintro x rfl; exact ⟨rfl, h⟩⟩
    rw [hz']
  | eoz =>
    simp only [eff, hz, hn]
    split
    · simp only [Option.map_some, Option.some.injEq]; exact ⟨trivial, by rintro x rfl; exact ⟨rfl, h⟩⟩
    · split
      · cases E.m[s + 1]? with
        | none => simp
        | some b => simp only [Option.bind_some, Option.map_some, Option.some.injEq]; exact ⟨trivial, by rintro x rfl; exact ⟨rfl, h⟩⟩
      · simp only [Option.map_some, Option.some.injEq]; exact ⟨trivial, by rintro x rfl; exact ⟨rfl, h⟩⟩
  | wbound =>
    simp only [eff]
    cases boundary E s with
    | none => simp
    | some b => simp only [Option.bind_some, Option.map_some, Option.some.injEq]; exact ⟨trivial, by rintro x rfl; exact ⟨rfl, h⟩⟩
  | nwbound =>
    simp only [eff]
    cases boundary E s with
    | none => simp
    | some b => simp only [Option.bind_some, Option.map_some, Option.some.injEq]; exact ⟨trivial, by rintro x rfl; exact ⟨rfl, h⟩⟩
  | cls neg spans =>
    cases ic with
    | false =>
      have : r' = r := by
        rcases h with h | ⟨h, -⟩
        · exact h
        · cases h
      subst this
      simp only [eff, Option.some.injEq]
      exact ⟨trivial, by rintro x rfl; exact ⟨rfl, .inl rfl⟩⟩
    | true =>
      simp only [eff, if_true, hf, Option.map_some, Option.some.injEq]
      exact ⟨trivial, by rintro x rfl; exact ⟨rfl, .inr ⟨rfl, rfl⟩⟩⟩
  | or right => simp only [eff, Option.map_some, Option.some.injEq]; exact ⟨trivial, by rintro x rfl; exact ⟨rfl, h⟩⟩
  | nop => simp only [eff, Option.map_some, Option.some.injEq]; exact ⟨trivial, by rintro x rfl; exact ⟨rfl, h⟩⟩
  | fin => simp only [eff, Option.map_some, Option.some.injEq]; exact ⟨trivial, by rintro x rfl; exact ⟨rfl, h⟩⟩

/-! ### lists of threads -/

theorem bump_mem : ∀ {l l' : List Thread} {ip : Nat} {se : Se}, bump l ip se = some l' →
    (∀ t ∈ l', t ∈ l ∨ t = ⟨ip, se⟩) ∧ l'.length = l.length
  | [], l', ip, se, h => by cases h
  | t :: ts, l', ip, se, h => by
    rw [bump] at h
    split at h
    · cases h
      refine ⟨?_, by simp⟩
      intro x hx
      rcases List.mem_cons.1 hx with rfl | hx
      · split
        · exact .inr rfl
        · simp
      · simp [hx]
    · cases hb : bump ts ip se with
      | none => rw [hb] at h; cases h
      | some l'' =>
        rw [hb] at h
        simp only [Option.map_some, Option.some.injEq] at h
        subst h
        obtain ⟨h1, h2⟩ := bump_mem hb
        refine ⟨?_, by simp [h2]⟩
        intro x hx
        rcases List.mem_cons.1 hx with rfl | hx
        · simp
        · rcases h1 x hx with h | h
          · simp [h]
          · exact .inr h

/-- Every thread of `l` has a counterpart in `l'` that began no later. -/
def Cover (l l' : List Thread) : Prop := ∀ t ∈ l, ∃ t' ∈ l', t'.inst = t.inst ∧ t'.se.start ≤ t.se.start

theorem Cover.refl (l : List Thread) : Cover l l := fun t h => ⟨t, h, rfl, Nat.le_refl _⟩

theorem Cover.trans {a b c : List Thread} (h1 : Cover a b) (h2 : Cover b c) : Cover a c := by
  intro t ht
  obtain ⟨t', ht', e1, l1⟩ := h1 t ht
  obtain ⟨t'', ht'', e2, l2⟩ := h2 t' ht'
  exact ⟨t'', ht'', e2.trans e1, Nat.le_trans l2 l1⟩

theorem bump_cover : ∀ {l l' : List Thread} {ip : Nat} {se : Se}, bump l ip se = some l' →
    Cover l l' ∧ ∃ t ∈ l', t.inst = ip ∧ t.se.start ≤ se.start
  | [], l', ip, se, h => by cases h
  | t :: ts, l', ip, se, h => by
    rw [bump] at h
    by_cases hi : t.inst = ip
    · rw [if_pos hi] at h
      cases h
      constructor
      · intro x hx
        rcases List.mem_cons.1 hx with rfl | hx
        · refine ⟨_, List.mem_cons_self, ?_, ?_⟩
          · split
            · exact hi.symm
            · rfl
          · split
            · rename_i hlt; exact Nat.le_of_lt hlt
            · exact Nat.le_refl _
        · exact ⟨x, List.mem_cons_of_mem _ hx, rfl, Nat.le_refl _⟩
      · refine ⟨_, List.mem_cons_self, ?_, ?_⟩
        · split
          · rfl
          · exact hi
        · split
          · exact Nat.le_refl _
          · omega
    · rw [if_neg hi] at h
      cases hb : bump ts ip se with
      | none => rw [hb] at h; cases h
      | some l'' =>
        rw [hb] at h
        simp only [Option.map_some, Option.some.injEq] at h
        subst h
        obtain ⟨h1, t', ht', h2⟩ := bump_cover hb
        refine ⟨?_, t', List.mem_cons_of_mem _ ht', h2⟩
        intro x hx
        rcases List.mem_cons.1 hx with rfl | hx
        · exact ⟨x, List.mem_cons_self, rfl, Nat.le_refl _⟩
        · obtain ⟨y, hy, e⟩ := h1 x hx
          exact ⟨y, List.mem_cons_of_mem _ hy, e⟩

theorem renew_facts {cap d : Nat} {l l' : List Thread} {ip : Nat} {se : Se} {b : Bool} (h : renew cap d l ip se = some (b, l')) :
    (∀ t ∈ l', t ∈ l ∨ t = ⟨ip, se⟩) ∧ Cover l l' ∧ ∃ t ∈ l', t.inst = ip ∧ t.se.start ≤ se.start := by
  unfold renew at h
  cases hb : bump l ip se with
  | some l'' =>
    rw [hb] at h
    simp only [Option.some.injEq, Prod.mk.injEq] at h
    obtain ⟨-, rfl⟩ := h
    exact ⟨(bump_mem hb).1, (bump_cover hb).1, (bump_cover hb).2⟩
  | none =>
    rw [hb] at h
    simp only at h
    split at h
    · simp only [Option.some.injEq, Prod.mk.injEq] at h
      obtain ⟨-, rfl⟩ := h
      refine ⟨?_, ?_, ⟨ip, se⟩, by simp, rfl, Nat.le_refl _⟩
      · intro t ht; simpa using ht
      · intro t ht; exact ⟨t, by simp [ht], rfl, Nat.le_refl _⟩
    · cases h

/-- The head of the searched list, with the same groups as the new thread, stays in front. -/
theorem renew_head {cap d : Nat} {ts l' : List Thread} {cur ip : Nat} {se : Se} {b : Bool} (h : renew cap d (⟨cur, se⟩ :: ts) ip se = some (b, l')) :
    l' = ⟨cur, se⟩ :: l'.tail ∧ ∀ t ∈ l'.tail, t ∈ ts ∨ t = ⟨ip, se⟩ := by
  unfold renew at h
  cases hb : bump (⟨cur, se⟩ :: ts) ip se with
  | some l'' =>
    rw [hb] at h
    simp only [Option.some.injEq, Prod.mk.injEq] at h
    obtain ⟨-, rfl⟩ := h
    rw [bump] at hb
    split at hb
    · simp only [Nat.lt_irrefl, if_false, Option.some.injEq] at hb
      subst hb; exact ⟨rfl, fun t ht => .inl ht⟩
    · cases hb2 : bump ts ip se with
      | none => rw [hb2] at hb; cases hb
      | some l3 =>
        rw [hb2] at hb
        simp only [Option.map_some, Option.some.injEq] at hb
        subst hb; exact ⟨rfl, (bump_mem hb2).1⟩
  | none =>
    rw [hb] at h
    simp only at h
    split at h
    · simp only [Option.some.injEq, Prod.mk.injEq] at h
      obtain ⟨-, rfl⟩ := h
      exact ⟨rfl, fun t ht => by simpa using ht⟩
    · cases h

end Verif.Regex
