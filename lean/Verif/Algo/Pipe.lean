import Verif.Algo.Lemmas
/- Filter pipelines: the state of the stages between elements. -/
namespace Verif.Algo
open Spec
variable {ι α : Type}

/-- What is still to come from the stage with the counter and flag it has now. -/
def stageB (s : Stage α) (k : Nat) (q : Bool) (xs : List α) : List α :=
  match s with
  | .filt p => xs.filter p
  | .map f => xs.map f
  | .skip n => xs.drop (n - k)
  | .take n => if n = 0 then [] else xs.take (max (n - k) 1)
  | .skipWhile p => if q then xs else xs.dropWhile p
  | .takeWhile p => if q then [] else xs.takeWhile p
  | .counted p => ((xs.zipIdx (k + 1)).filter fun e => p e.2 e.1).map Prod.fst
  | .coTake n => xs.take (max (n - k) 1)
  | .coTakeWhile p => if q then xs.take 1 else xs.takeWhile p ++ (xs.dropWhile p).take 1

def usesN : Stage α → Nat
  | .skip _ | .take _ | .counted _ | .coTake _ => 1
  | _ => 0

def usesB : Stage α → Nat
  | .skipWhile _ | .takeWhile _ | .coTakeWhile _ => 1
  | _ => 0

def pipeB : List (Stage α) → Nat → Nat → Base → List α → List α
  | [], _, _, _, xs => xs
  | s :: ss, c, b, B, xs => pipeB ss (c + usesN s) (b + usesB s) B (stageB s ((B.sn[c + 1]?).getD 0) ((B.sb[b]?).getD false) xs)

theorem stageB_nil (s : Stage α) (k : Nat) (q : Bool) : stageB s k q [] = [] := by
  cases s <;> simp [stageB]

theorem pipeB_nil : ∀ (ss : List (Stage α)) (c b : Nat) (B : Base), pipeB ss c b B [] = [] := by
  intro ss
  induction ss with
  | nil => intros; rfl
  | cons s ss ih => intro c b B; rw [pipeB, stageB_nil, ih]

theorem counters_cons (s : Stage α) (ss : List (Stage α)) : counters (s :: ss) = counters ss + usesN s := by
  cases s <;> simp [counters, usesN]

theorem flags_cons (s : Stage α) (ss : List (Stage α)) : flags (s :: ss) = flags ss + usesB s := by
  cases s <;> simp [flags, usesB]

theorem pipeB_ext : ∀ {ss : List (Stage α)} {c b : Nat} {B B' : Base} {xs : List α},
    (∀ i, c < i → i ≤ c + counters ss → B'.sn[i]? = B.sn[i]?) → (∀ i, b ≤ i → i < b + flags ss → B'.sb[i]? = B.sb[i]?) →
    pipeB ss c b B' xs = pipeB ss c b B xs := by
  intro ss
  induction ss with
  | nil => intros; rfl
  | cons s ss ih =>
    intro c b B B' xs h1 h2
    rw [counters_cons] at h1
    rw [flags_cons] at h2
    rw [pipeB, pipeB]
    have e : stageB s ((B'.sn[c + 1]?).getD 0) ((B'.sb[b]?).getD false) xs = stageB s ((B.sn[c + 1]?).getD 0) ((B.sb[b]?).getD false) xs := by
      cases s <;> simp only [usesN, usesB] at h1 h2
      case filt => rfl
      case map => rfl
      case skip n => simp only [stageB]; rw [h1 _ (by omega) (by omega)]
      case take n => simp only [stageB]; rw [h1 _ (by omega) (by omega)]
      case counted n => simp only [stageB]; rw [h1 _ (by omega) (by omega)]
      case skipWhile p => simp only [stageB]; rw [h2 _ (by omega) (by omega)]
      case takeWhile p => simp only [stageB]; rw [h2 _ (by omega) (by omega)]
      case coTake n => simp only [stageB]; rw [h1 _ (by omega) (by omega)]
      case coTakeWhile p => simp only [stageB]; rw [h2 _ (by omega) (by omega)]
    rw [e]
    exact ih (fun i a b => h1 i (by omega) (by omega)) (fun i a b => h2 i (by omega) (by omega))

/-- The parts of the base that evaluating from the given positions leaves alone. -/
structure Frame (c b N : Nat) (B B' : Base) : Prop where
  sn : ∀ i : Nat, i ≤ c → B'.sn[i]? = B.sn[i]?
  sb : ∀ i : Nat, i < b → B'.sb[i]? = B.sb[i]?
  len : B'.sn.length = B.sn.length ∧ B'.sb.length = B.sb.length
  bound : ∀ (i k : Nat), B'.sn[i]? = some k → B.sn[i]? = some k ∨ k ≤ N + 1

theorem Frame.refl (c b N : Nat) (B : Base) : Frame c b N B B :=
  ⟨fun _ _ => rfl, fun _ _ => rfl, ⟨rfl, rfl⟩, fun _ _ h => .inl h⟩

/-- One stage and one element. -/
theorem evalStage_spec (s : Stage α) {B : Base} {N : Nat} (hc : B.snTop + usesN s < 20) (hb : B.sbTop + usesB s ≤ 20) (hl : B.sn.length = 20 ∧ B.sb.length = 20)
    (hN : ∀ k, B.sn[B.snTop + 1]? = some k → k ≤ N) (hN2 : N + 1 < 2 ^ 32) (x : α) (xs : List α) :
    ∃ y B' d, evalStage s B x = some (y, B') ∧ B'.snTop = B.snTop + usesN s ∧ B'.sbTop = B.sbTop + usesB s ∧ B'.done = (B.done || d) ∧
      Frame B.snTop B.sbTop N B B' ∧
      (∀ i, B.snTop + usesN s < i → B'.sn[i]? = B.sn[i]?) ∧ (∀ i, B.sbTop + usesB s ≤ i → B'.sb[i]? = B.sb[i]?) ∧
      stageB s ((B.sn[B.snTop + 1]?).getD 0) ((B.sb[B.sbTop]?).getD false) (x :: xs) =
        y.toList ++ (if d then [] else stageB s ((B'.sn[B.snTop + 1]?).getD 0) ((B'.sb[B.sbTop]?).getD false) xs) := by
  have bumpS : usesN s = 1 → ∃ k, B.sn[B.snTop + 1]? = some k ∧ k ≤ N ∧
      bump B = some (k + 1, { B with snTop := B.snTop + 1, sn := B.sn.set (B.snTop + 1) (k + 1) }) ∧
      (B.sn.set (B.snTop + 1) (k + 1))[B.snTop + 1]? = some (k + 1) ∧
      Frame B.snTop B.sbTop N B { B with snTop := B.snTop + 1, sn := B.sn.set (B.snTop + 1) (k + 1) } ∧
      (∀ i, B.snTop + 1 < i → (B.sn.set (B.snTop + 1) (k + 1))[i]? = B.sn[i]?) := by
    intro hu
    rw [hu] at hc
    have hlt : B.snTop + 1 < B.sn.length := by omega
    obtain ⟨k, hk⟩ : ∃ k, B.sn[B.snTop + 1]? = some k := ⟨_, List.getElem?_eq_getElem hlt⟩
    have hkN := hN k hk
    have hm : (k + 1) % 2 ^ 32 = k + 1 := Nat.mod_eq_of_lt (by omega)
    refine ⟨k, hk, hkN, ?_, ?_, ⟨?_, fun _ _ => rfl, by simp, ?_⟩, ?_⟩
    · simp only [bump, hk, hm, Option.bind_eq_bind, Option.bind_some]
    · rw [List.getElem?_set_self hlt]
    · intro i hi
      simp only
      rw [List.getElem?_set_ne (by omega)]
    · intro i m h
      simp only at h
      by_cases hi : i = B.snTop + 1
      · subst hi
        rw [List.getElem?_set_self hlt] at h
        cases h; right; omega
      · rw [List.getElem?_set_ne (by omega)] at h
        exact .inl h
    · intro i hi
      rw [List.getElem?_set_ne (by omega)]
  have markS : usesB s = 1 → ∀ r, ∃ q, B.sb[B.sbTop]? = some q ∧
      mark B r = some (q || r, { B with sbTop := B.sbTop + 1, sb := B.sb.set B.sbTop (q || r) }) ∧
      (B.sb.set B.sbTop (q || r))[B.sbTop]? = some (q || r) ∧
      Frame B.snTop B.sbTop N B { B with sbTop := B.sbTop + 1, sb := B.sb.set B.sbTop (q || r) } ∧
      (∀ i, B.sbTop + 1 ≤ i → (B.sb.set B.sbTop (q || r))[i]? = B.sb[i]?) := by
    intro hu r
    rw [hu] at hb
    have hlt : B.sbTop < B.sb.length := by omega
    obtain ⟨q, hq⟩ : ∃ k, B.sb[B.sbTop]? = some k := ⟨_, List.getElem?_eq_getElem hlt⟩
    refine ⟨q, hq, ?_, ?_, ⟨fun _ _ => rfl, ?_, by simp, fun _ _ h => .inl h⟩, ?_⟩
    · simp only [mark, hq, Option.bind_eq_bind, Option.bind_some]
    · rw [List.getElem?_set_self hlt]
    · intro i hi
      simp only
      rw [List.getElem?_set_ne (by omega)]
    · intro i hi
      rw [List.getElem?_set_ne (by omega)]
  cases s with
  | filt p =>
    refine ⟨if p x then some x else none, B, false, rfl, rfl, rfl, by simp, .refl .., fun _ _ => rfl, fun _ _ => rfl, ?_⟩
    by_cases hx : p x <;> simp [stageB, hx]
  | map f => exact ⟨some (f x), B, false, rfl, rfl, rfl, by simp, .refl .., fun _ _ => rfl, fun _ _ => rfl, by simp [stageB]⟩
  | skip n =>
    obtain ⟨k, h1, h2, h3, h4, h5, h6⟩ := bumpS rfl
    refine ⟨if k + 1 > n then some x else none, { B with snTop := B.snTop + 1, sn := B.sn.set (B.snTop + 1) (k + 1) }, false, ?_, rfl, rfl, by simp, h5, h6, fun _ _ => rfl, ?_⟩
    · simp only [evalStage, h3, Option.bind_eq_bind, Option.bind_some]
    · simp only [stageB, h1, h4, Option.getD_some, Bool.false_eq_true, if_false]
      by_cases h : k + 1 > n
      · rw [if_pos h, show n - k = 0 by omega, show n - (k + 1) = 0 by omega]; rfl
      · rw [if_neg h, show n - k = (n - (k + 1)) + 1 by omega]; rfl
  | take n =>
    obtain ⟨k, h1, h2, h3, h4, h5, h6⟩ := bumpS rfl
    refine ⟨if n > 0 then some x else none, { B with snTop := B.snTop + 1, sn := B.sn.set (B.snTop + 1) (k + 1), done := B.done || decide (k + 1 ≥ n) },
      decide (k + 1 ≥ n), ?_, rfl, rfl, rfl, ⟨h5.sn, h5.sb, h5.len, h5.bound⟩, h6, fun _ _ => rfl, ?_⟩
    · simp only [evalStage, h3, Option.bind_eq_bind, Option.bind_some]
    · simp only [stageB, h1, h4, Option.getD_some, decide_eq_true_eq]
      by_cases h0 : n = 0
      · simp [h0]
      · rw [if_neg h0, if_pos (by omega), if_neg h0]
        by_cases h : k + 1 ≥ n
        · rw [if_pos h, show max (n - k) 1 = 1 by omega]; rfl
        · rw [if_neg h, show max (n - k) 1 = max (n - (k + 1)) 1 + 1 by omega]; rfl
  | skipWhile p =>
    obtain ⟨q, h1, h2, h3, h4, h5⟩ := markS rfl (!p x)
    refine ⟨if (q || !p x) then some x else none, { B with sbTop := B.sbTop + 1, sb := B.sb.set B.sbTop (q || !p x) }, false, ?_, rfl, rfl, by simp, h4, fun _ _ => rfl, h5, ?_⟩
    · simp only [evalStage, h2, Option.bind_eq_bind, Option.bind_some]
    · simp only [stageB, h1, h3, Option.getD_some, Bool.false_eq_true, if_false]
      cases q <;> cases hx : p x <;> simp [hx]
  | takeWhile p =>
    obtain ⟨q, h1, h2, h3, h4, h5⟩ := markS rfl (!p x)
    refine ⟨if (q || !p x) then none else some x, { B with sbTop := B.sbTop + 1, sb := B.sb.set B.sbTop (q || !p x), done := B.done || (q || !p x) },
      (q || !p x), ?_, rfl, rfl, rfl, ⟨h4.sn, h4.sb, h4.len, h4.bound⟩, fun _ _ => rfl, h5, ?_⟩
    · simp only [evalStage, h2, Option.bind_eq_bind, Option.bind_some]
    · simp only [stageB, h1, h3, Option.getD_some]
      cases q <;> cases hx : p x <;> simp [hx]
  | counted p =>
    obtain ⟨k, h1, h2, h3, h4, h5, h6⟩ := bumpS rfl
    refine ⟨if p (k + 1) x then some x else none, { B with snTop := B.snTop + 1, sn := B.sn.set (B.snTop + 1) (k + 1) }, false, ?_, rfl, rfl, by simp, h5, h6, fun _ _ => rfl, ?_⟩
    · simp only [evalStage, h3, Option.bind_eq_bind, Option.bind_some]
    · simp only [stageB, h1, h4, Option.getD_some, Bool.false_eq_true, if_false, List.zipIdx_cons, List.filter_cons]
      by_cases h : p (k + 1) x <;> simp [h]
  | coTake n =>
    obtain ⟨k, h1, h2, h3, h4, h5, h6⟩ := bumpS rfl
    refine ⟨some x, { B with snTop := B.snTop + 1, sn := B.sn.set (B.snTop + 1) (k + 1), done := B.done || decide (k + 1 ≥ n) },
      decide (k + 1 ≥ n), ?_, rfl, rfl, rfl, ⟨h5.sn, h5.sb, h5.len, h5.bound⟩, h6, fun _ _ => rfl, ?_⟩
    · simp only [evalStage, h3, Option.bind_eq_bind, Option.bind_some]
    · simp only [stageB, h1, h4, Option.getD_some, decide_eq_true_eq]
      by_cases h : k + 1 ≥ n
      · rw [if_pos h, show max (n - k) 1 = 1 by omega]; rfl
      · rw [if_neg h, show max (n - k) 1 = max (n - (k + 1)) 1 + 1 by omega]; rfl
  | coTakeWhile p =>
    obtain ⟨q, h1, h2, h3, h4, h5⟩ := markS rfl (!p x)
    refine ⟨some x, { B with sbTop := B.sbTop + 1, sb := B.sb.set B.sbTop (q || !p x), done := B.done || (q || !p x) },
      (q || !p x), ?_, rfl, rfl, rfl, ⟨h4.sn, h4.sb, h4.len, h4.bound⟩, fun _ _ => rfl, h5, ?_⟩
    · simp only [evalStage, h2, Option.bind_eq_bind, Option.bind_some]
    · simp only [stageB, h1, h3, Option.getD_some]
      cases q <;> cases hx : p x <;> simp [hx]

/-- All stages and one element. -/
theorem evalAll_spec : ∀ (ss : List (Stage α)) {B : Base} {N : Nat}, B.snTop + counters ss < 20 → B.sbTop + flags ss ≤ 20 →
    (B.sn.length = 20 ∧ B.sb.length = 20) → (∀ i k, B.snTop < i → B.sn[i]? = some k → k ≤ N) → N + 1 < 2 ^ 32 → ∀ (x : α) (xs : List α),
    ∃ y B' d, evalAll ss B x = some (y, B') ∧ B'.done = (B.done || d) ∧ Frame B.snTop B.sbTop N B B' ∧
      pipeB ss B.snTop B.sbTop B (x :: xs) = y.toList ++ (if d then [] else pipeB ss B.snTop B.sbTop B' xs) := by
  intro ss
  induction ss with
  | nil => intro B N _ _ _ _ _ x xs; exact ⟨some x, B, false, rfl, by simp, .refl .., by simp [pipeB]⟩
  | cons s ss ih =>
    intro B N hc hb hl hN hN2 x xs
    rw [counters_cons] at hc
    rw [flags_cons] at hb
    obtain ⟨y, B1, d1, e1, t1, t2, dn1, fr1, ab1, ab2, st1⟩ := evalStage_spec s (by omega) (by omega) hl (fun k hk => hN _ k (by omega) hk) hN2 x xs
    cases y with
    | none =>
      refine ⟨none, B1, d1, ?_, dn1, fr1, ?_⟩
      · simp only [evalAll, e1, Option.bind_eq_bind, Option.bind_some]
      · rw [pipeB, st1]
        simp only [Option.toList_none, List.nil_append]
        cases d1 with
        | true => simp only [if_true]; rw [pipeB_nil]
        | false =>
          simp only [Bool.false_eq_true, if_false]
          rw [pipeB]
          exact (pipeB_ext (fun i a b => ab1 i a) (fun i a b => ab2 i a)).symm
    | some y =>
      have hN' : ∀ i k, B1.snTop < i → B1.sn[i]? = some k → k ≤ N := by
        intro i k hi hk
        rw [ab1 i (by omega)] at hk
        exact hN i k (by omega) hk
      obtain ⟨z, B2, d2, e2, dn2, fr2, st2⟩ := ih (B := B1) (N := N) (by omega) (by omega) ⟨by rw [fr1.len.1]; exact hl.1, by rw [fr1.len.2]; exact hl.2⟩ hN' hN2 y
        (if d1 then [] else stageB s ((B1.sn[B.snTop + 1]?).getD 0) ((B1.sb[B.sbTop]?).getD false) xs)
      refine ⟨z, B2, d1 || d2, ?_, ?_, ?_, ?_⟩
      · simp only [evalAll, e1, e2, Option.bind_eq_bind, Option.bind_some]
      · rw [dn2, dn1, Bool.or_assoc]
      · refine ⟨?_, ?_, ⟨by rw [fr2.len.1, fr1.len.1], by rw [fr2.len.2, fr1.len.2]⟩, ?_⟩
        · intro i hi; rw [fr2.sn i (by omega), fr1.sn i hi]
        · intro i hi; rw [fr2.sb i (by omega), fr1.sb i hi]
        · intro i k h
          rcases fr2.bound i k h with h | h
          · exact fr1.bound i k h
          · exact .inr h
      · rw [pipeB, st1]
        simp only [Option.toList_some, List.singleton_append]
        have ex : ∀ zs, pipeB ss (B.snTop + usesN s) (B.sbTop + usesB s) B zs = pipeB ss B1.snTop B1.sbTop B1 zs := by
          intro zs
          rw [t1, t2]
          exact (pipeB_ext (fun i a b => ab1 i a) (fun i a b => ab2 i a)).symm
        rw [ex, st2]
        cases d1 with
        | true => simp only [if_true, Bool.true_or]; rw [pipeB_nil]; simp
        | false =>
          simp only [Bool.false_eq_true, if_false, Bool.false_or]
          cases d2 with
          | true => simp
          | false =>
            simp only [Bool.false_eq_true, if_false]
            rw [pipeB, t1, t2]
            congr 1
            -- the stage itself is not touched by the later ones
            cases s with
            | filt p => rfl
            | map f => rfl
            | skip n => simp only [stageB]; rw [fr2.sn _ (by rw [t1]; simp [usesN])]
            | take n => simp only [stageB]; rw [fr2.sn _ (by rw [t1]; simp [usesN])]
            | counted p => simp only [stageB]; rw [fr2.sn _ (by rw [t1]; simp [usesN])]
            | skipWhile p => simp only [stageB]; rw [fr2.sb _ (by rw [t2]; simp [usesB])]
            | takeWhile p => simp only [stageB]; rw [fr2.sb _ (by rw [t2]; simp [usesB])]
            | coTake n => simp only [stageB]; rw [fr2.sn _ (by rw [t1]; simp [usesN])]
            | coTakeWhile p => simp only [stageB]; rw [fr2.sb _ (by rw [t2]; simp [usesB])]

theorem pipeB_top {ss : List (Stage α)} {c b : Nat} {B : Base} {s t : Nat} {xs : List α} :
    pipeB ss c b { B with snTop := s, sbTop := t } xs = pipeB ss c b B xs := pipeB_ext (fun _ _ _ => rfl) (fun _ _ _ => rfl)

theorem filterLoop_spec {W : Walker ι α} {ss : List (Stage α)} (hc : counters ss < 20) (hb : flags ss ≤ 20) {it : ι} {xs : List α} (h : Yields W it xs) :
    ∀ (f : Nat) (B : Base) (N : Nat), xs.length < f → B.snTop = 0 → B.sbTop = 0 → B.done = false → (B.sn.length = 20 ∧ B.sb.length = 20) →
      (∀ (i k : Nat), B.sn[i]? = some k → k ≤ N) → N + xs.length < 2 ^ 32 → filterLoop W ss f it B = some (pipeB ss 0 0 B xs) := by
  induction h with
  | nil it h =>
    intro f B N hf _ _ hd _ _ _
    obtain ⟨f, rfl⟩ : ∃ g, f = g + 1 := ⟨f - 1, by omega⟩
    rw [filterLoop, hd, h, pipeB_nil]
  | cons it it' r x xs h1 h2 h3 hy ih =>
    intro f B N hf hs hsb hd hl hN hN2
    obtain ⟨f, rfl⟩ : ∃ g, f = g + 1 := ⟨f - 1, by omega⟩
    simp only [List.length_cons] at hf hN2
    obtain ⟨y, B', d, e, dn, fr, st⟩ := evalAll_spec ss (B := B) (N := N) (by omega) (by omega) hl (fun i k _ => hN i k) (by omega) x xs
    rw [hs, hsb] at st
    rw [filterLoop, hd, h1]
    simp only [h2, e, h3, Option.bind_eq_bind, Option.bind_some]
    rw [st]
    rw [hd, Bool.false_or] at dn
    cases d with
    | true =>
      obtain ⟨f, rfl⟩ : ∃ g, f = g + 1 := ⟨f - 1, by omega⟩
      have : filterLoop W ss (f + 1) it' { B' with snTop := 0, sbTop := 0 } = some [] := by
        rw [filterLoop]; simp only [dn]
      rw [this]; simp
    | false =>
      have := ih f { B' with snTop := 0, sbTop := 0 } (N + 1) (by omega) rfl rfl dn ⟨by simp only; rw [fr.len.1, hl.1], by simp only; rw [fr.len.2, hl.2]⟩ (by
        intro i k hk
        rcases fr.bound i k hk with h | h
        · have := hN i k h; omega
        · exact h) (by omega)
      rw [this, pipeB_top]; simp

theorem pipeB_init : ∀ (ss : List (Stage α)) (c b : Nat) (xs : List α), pipeB ss c b .init xs = pipe ss xs := by
  intro ss
  induction ss with
  | nil => intros; rfl
  | cons s ss ih =>
    intro c b xs
    have h1 : (Base.init.sn[c + 1]?).getD 0 = 0 := by
      simp only [Base.init, List.getElem?_replicate]; split <;> rfl
    have h2 : (Base.init.sb[b]?).getD false = false := by
      simp only [Base.init, List.getElem?_replicate]; split <;> rfl
    rw [pipeB, ih, h1, h2, pipe, pipe, List.foldl_cons]
    congr 1
    cases s with
    | take n =>
      simp only [stageB, stage, Nat.sub_zero]
      by_cases h : n = 0
      · simp [h]
      · rw [if_neg h, show max n 1 = n by omega]
    | _ => simp [stageB, stage]

theorem filter_spec {W : Walker ι α} {ss : List (Stage α)} (hc : counters ss < 20) (hb : flags ss ≤ 20) {it : ι} {xs : List α} (h : Yields W it xs)
    (hx : xs.length < 2 ^ 32) (f : Nat) (hf : xs.length < f) : filter W ss f it = some (pipe ss xs) := by
  rw [filter, filterLoop_spec hc hb h f .init 0 hf rfl rfl rfl (by simp [Base.init]) ?_ (by omega), pipeB_init]
  intro i k hk
  simp only [Base.init, List.getElem?_replicate] at hk
  split at hk
  · cases hk; omega
  · cases hk

end Verif.Algo
