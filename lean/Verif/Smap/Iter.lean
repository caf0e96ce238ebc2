import Verif.Smap.Rep
/-
Iterators: what the stack of an iterator stands for, and searching.
-/
set_option linter.unusedSimpArgs false
set_option linter.unusedVariables false
namespace Verif.Smap
open T Spec
variable {κ ν : Type}

/-- The nodes on the stack: each with what follows it. -/
def flat : List (T κ ν) → List (Nat × Option (κ × ν))
  | [] => []
  | .nil :: ss => flat ss
  | .node i _ _ e r :: ss => (i, e) :: lab r ++ flat ss

/-- Levels rise along the stack, up to `L`. -/
def Chain (L : Nat) : Nat → List (T κ ν) → Prop
  | x, [] => x ≤ L
  | x, s :: ss => x < lev s ∧ Chain L (lev s) ss

theorem Chain.mono {L : Nat} : ∀ {ss : List (T κ ν)} {x y : Nat}, x ≤ y → Chain L y ss → Chain L x ss
  | [], _, _, h, hc => Nat.le_trans h hc
  | s :: ss, _, _, h, hc => ⟨Nat.lt_of_le_of_lt h hc.1, hc.2⟩

theorem Chain.length {L : Nat} : ∀ {ss : List (T κ ν)} {x : Nat}, Chain L x ss → x + ss.length ≤ L
  | [], _, h => h
  | s :: ss, x, h => by
    have h1 := h.2.length
    have h2 := h.1
    simp only [List.length_cons]
    omega

/-- The stack of an iterator. -/
structure Stack (d : Buf (Node κ ν)) (ss : List (T κ ν)) : Prop where
  is : ∀ s ∈ ss, Is d s
  ne : ∀ s ∈ ss, s ≠ .nil
  aa : ∀ s ∈ ss, AA s

theorem Stack.cons {d : Buf (Node κ ν)} {ss : List (T κ ν)} {s : T κ ν} (h : Stack d ss) (h1 : Is d s) (h2 : s ≠ .nil) (h3 : AA s) :
    Stack d (s :: ss) :=
  ⟨by simpa using ⟨h1, h.is⟩, by simpa using ⟨h2, h.ne⟩, by simpa using ⟨h3, h.aa⟩⟩

theorem Stack.tail {d : Buf (Node κ ν)} {ss : List (T κ ν)} {s : T κ ν} (h : Stack d (s :: ss)) : Stack d ss :=
  ⟨fun x hx => h.is x (by simp [hx]), fun x hx => h.ne x (by simp [hx]), fun x hx => h.aa x (by simp [hx])⟩

theorem flat_ne_nil {d : Buf (Node κ ν)} {ss : List (T κ ν)} (h : Stack d ss) (hn : ss ≠ []) : flat ss ≠ [] := by
  cases ss with
  | nil => exact absurd rfl hn
  | cons s ss =>
    cases s with
    | nil => exact absurd rfl (h.ne _ (by simp))
    | node => simp [flat]

theorem pushLeft_spec {m : Map κ ν} {L : Nat} (hL : L ≤ 36) : ∀ {u : T κ ν} {ss : List (T κ ν)} {f : Nat}, Is m.nodes u → AA u → Stack m.nodes ss →
    Chain L (lev u) ss → lev u < f →
    ∃ ss', pushLeft m.nodes f (idx u) (ss.map idx) = some (ss'.map idx) ∧ Stack m.nodes ss' ∧ Chain L 0 ss' ∧ flat ss' = lab u ++ flat ss
  | .nil, ss, 0, _, _, _, _, hf => by simp at hf
  | .nil, ss, f + 1, _, _, hs, hc, _ => ⟨ss, by simp [pushLeft], hs, hc, by simp [lab]⟩
  | .node i lv l e r, ss, 0, _, _, _, _, hf => by simp at hf
  | .node i lv l e r, ss, f + 1, h, ha, hs, hc, hf => by
    have hlen := hc.length
    simp only [lev_node] at hlen hf
    have h1 := ha.1
    obtain ⟨ss', a1, a2, a3, a4⟩ := pushLeft_spec hL (ss := .node i lv l e r :: ss) (f := f) h.2.2.1 ha.2.2.1 (hs.cons h (by simp) ha)
      ⟨by simp only [lev_node]; omega, hc⟩ (by omega)
    refine ⟨ss', ?_, a2, a3, ?_⟩
    · simp only [pushLeft, idx_node, h.1, ne_eq, not_false_eq_true, if_true, Option.bind_eq_bind,
        guard_pos (show (ss.map idx).length < 36 by simp; omega), Option.bind_some, h.2.1]
      simpa using a1
    · rw [a4]; simp [flat, lab]

/-- What remains after the current entry: the tree below `_tn`, and the stack. -/
structure Cur (d : Buf (Node κ ν)) (L : Nat) (u : T κ ν) (ss : List (T κ ν)) : Prop where
  is : Is d u
  aa : AA u
  st : Stack d ss
  ch : Chain L (lev u) ss

/-- Popping the stack. -/
theorem Cur.pop {d : Buf (Node κ ν)} {L : Nat} {s : T κ ν} {ss : List (T κ ν)} (h : Stack d (s :: ss)) (hc : Chain L (lev s) ss) :
    ∃ i lv l e r, s = .node i lv l e r ∧ d.rd i = some ⟨idx l, idx r, lv, e⟩ ∧ Cur d L r ss := by
  cases s with
  | nil => exact absurd rfl (h.ne _ (by simp))
  | node i lv l e r =>
    have hI := h.is _ (List.mem_cons_self)
    have ha := h.aa _ (List.mem_cons_self)
    refine ⟨i, lv, l, e, r, rfl, hI.2.1, hI.2.2.2, ha.2.2.2, h.tail, hc.mono ?_⟩
    have := lev_right_le ha
    simpa using this

theorem next_end {m : Map κ ν} {ref : Option Nat} : next m ⟨ref, some 0, []⟩ = some ⟨none, some 0, []⟩ := by
  simp [next]

theorem next_spec {m : Map κ ν} {L : Nat} (hL : L ≤ 36) {ref : Option Nat} {u : T κ ν} {ss : List (T κ ν)} (h : Cur m.nodes L u ss) :
    (lab u ++ flat ss = [] → next m ⟨ref, some (idx u), ss.map idx⟩ = some ⟨none, some 0, []⟩) ∧
    (∀ x rem, lab u ++ flat ss = x :: rem → ∃ u' ss', next m ⟨ref, some (idx u), ss.map idx⟩ = some ⟨some x.1, some (idx u'), ss'.map idx⟩ ∧
      Cur m.nodes L u' ss' ∧ lab u' ++ flat ss' = rem) := by
  constructor
  · intro he
    have h1 : u = .nil := by
      cases u with
      | nil => rfl
      | node => simp [lab] at he
    have h2 : ss = [] := by
      by_contra hn
      simp only [List.append_eq_nil_iff] at he
      exact flat_ne_nil h.st hn he.2
    subst h1 h2
    exact next_end
  · intro x rem he
    have hcond : ss.map idx ≠ [] ∨ idx u ≠ 0 := by
      by_cases hs : ss = []
      · right
        intro hc
        rw [(h.is.idx_eq_zero).mp hc, hs] at he
        simp [lab, flat] at he
      · left; simpa using hs
    have hlev : lev u < 37 := by
      have := h.ch.length
      omega
    obtain ⟨ss', a1, a2, a3, a4⟩ := pushLeft_spec hL (f := 37) h.is h.aa h.st h.ch hlev
    cases ss' with
    | nil => rw [he] at a4; simp [flat] at a4
    | cons s ss' =>
      obtain ⟨i, lv, l, e, r, rfl, hr, hcur⟩ := Cur.pop a2 a3.2
      rw [he] at a4
      simp only [flat, List.cons_append, List.cons.injEq] at a4
      obtain ⟨rfl, rfl⟩ := a4
      refine ⟨r, ss', ?_, hcur, rfl⟩
      simp only [next, Option.bind_eq_bind, Option.bind_some]
      rw [if_pos hcond, a1]
      simp [hr]

/-- The iterator stands at the first of the nodes `suf`. -/
def At (d : Buf (Node κ ν)) (L : Nat) (it : Iter) : List (Nat × Option (κ × ν)) → Prop
  | [] => it.ref = none
  | x :: rem => it.ref = some x.1 ∧ ∃ u ss, it.tn = some (idx u) ∧ it.st = ss.map idx ∧ Cur d L u ss ∧ lab u ++ flat ss = rem

theorem next_at {m : Map κ ν} {L : Nat} (hL : L ≤ 36) {it : Iter} {x : Nat × Option (κ × ν)} {rem : List (Nat × Option (κ × ν))}
    (h : At m.nodes L it (x :: rem)) : ∃ it', next m it = some it' ∧ At m.nodes L it' rem := by
  obtain ⟨h1, u, ss, h2, h3, hc, hr⟩ := h
  obtain ⟨ref, tn, st⟩ := it
  simp only at h1 h2 h3
  subst h1 h2 h3
  have hs := next_spec hL (ref := some x.1) hc
  cases rem with
  | nil => exact ⟨_, hs.1 hr, rfl⟩
  | cons y rem =>
    obtain ⟨u', ss', e1, e2, e3⟩ := hs.2 y rem hr
    exact ⟨_, e1, rfl, u', ss', rfl, rfl, e2, e3⟩

section
variable {cmp : κ → κ → Int} {m : Map κ ν} {t : T κ ν} {fs : List Nat} {M : FMap κ ν}

theorem Rep.lev36 (h : Rep cmp m t fs M) : lev t ≤ 36 := by have := h.lev_le; omega

theorem begin_at (h : Rep cmp m t fs M) : ∃ it, begin' m = some it ∧ At m.nodes (lev t) it (lab t) := by
  simp only [begin', h.root]
  by_cases hn : t = .nil
  · subst hn
    exact ⟨⟨none, some 0, []⟩, by simp, by simp [lab, At]⟩
  · have : idx t ≠ 0 := fun hc => hn ((h.is.idx_eq_zero).mp hc)
    rw [if_pos this]
    have hs := next_spec (ref := none) h.lev36 (show Cur m.nodes (lev t) t [] from ⟨h.is, h.aa, ⟨by simp, by simp, by simp⟩, Nat.le_refl _⟩)
    cases hl : lab t with
    | nil =>
      cases t with
      | nil => exact absurd rfl hn
      | node => simp [lab] at hl
    | cons x rem =>
      obtain ⟨u', ss', e1, e2, e3⟩ := hs.2 x rem (by simp [flat, hl])
      exact ⟨_, e1, rfl, u', ss', rfl, rfl, e2, e3⟩

/-- The loop visits what is left. -/
theorem eachFrom_at {L : Nat} (hL : L ≤ 36) (hI : Is m.nodes t) : ∀ {suf : List (Nat × Option (κ × ν))} {S : FMap κ ν} {it : Iter} {f : Nat},
    At m.nodes L it suf → suf.map Prod.snd = S.map some → (∀ x ∈ suf, x ∈ lab t) → suf.length ≤ f → eachFrom m f it = some S
  | [], S, it, f, h, hS, _, _ => by
    have : S = [] := by cases S with
      | nil => rfl
      | cons => simp at hS
    subst this
    have h' : it.ref = none := h
    unfold eachFrom
    rw [h']
  | x :: suf, S, it, f, h, hS, hm, hf => by
    cases S with
    | nil => simp at hS
    | cons e S =>
      simp only [List.map_cons, List.cons.injEq] at hS
      obtain ⟨f, rfl⟩ : ∃ g, f = g + 1 := ⟨f - 1, by simp at hf; omega⟩
      obtain ⟨it', h1, h2⟩ := next_at hL h
      have hl : load m.nodes x.1 = some e := by
        have : (x.1, some e) ∈ lab t := by
          rw [← hS.1]; exact hm x (by simp)
        exact hI.load this
      have ih := eachFrom_at hL hI (f := f) h2 hS.2 (fun y hy => hm y (by simp [hy])) (by simpa using hf)
      unfold eachFrom
      rw [h.1]
      simp [hl, h1, ih]

theorem each_spec (h : Rep cmp m t fs M) : each m = some M := by
  obtain ⟨it, h1, h2⟩ := begin_at h
  simp only [each, h1, Option.bind_eq_bind, Option.bind_some]
  exact eachFrom_at h.lev36 h.is h2 h.ord.1 (fun _ hx => hx) (by rw [h.ord.length]; exact h.height_lt.2)

/-- The search, from a subtree. -/
theorem findLoop_spec (hc : Lawful cmp) {L : Nat} (hL : L ≤ 36) {k : κ} {tn0 : Option Nat} {d : Buf (Node κ ν)} : ∀ {t : T κ ν} {M : FMap κ ν} {ss : List (T κ ν)} {f : Nat},
    Cur d L t ss → Ord cmp t M → height t < f →
    (∀ e, Spec.find cmp k M = some e → ∃ A i B u ss', findLoop cmp d k tn0 f (idx t) (ss.map idx) = some ⟨some i, some (idx u), ss'.map idx⟩ ∧
      lab t = A ++ (i, some e) :: B ∧ Cur d L u ss' ∧ lab u ++ flat ss' = B ++ flat ss ∧ A.map Prod.snd = (below cmp k M).map some) ∧
    (Spec.find cmp k M = none → ∃ A B ss', findLoop cmp d k tn0 f (idx t) (ss.map idx) = some ⟨none, tn0, ss'.map idx⟩ ∧
      lab t = A ++ B ∧ Stack d ss' ∧ Chain L 0 ss' ∧ flat ss' = B ++ flat ss ∧ A.map Prod.snd = (below cmp k M).map some)
  | .nil, M, ss, 0, _, _, hf => by simp [height] at hf
  | .nil, M, ss, f + 1, h, ho, _ => by
    rw [ho.of_nil]
    constructor
    · intro e he; simp [Spec.find] at he
    · intro _
      exact ⟨[], [], ss, by simp [findLoop], rfl, h.st, h.ch, by simp, rfl⟩
  | .node i lv l eo r, M, ss, 0, _, _, hf => by simp [height] at hf
  | .node i lv l eo r, M, ss, f + 1, h, ho, hf => by
    obtain ⟨Ml, e, Mr, rfl, rfl, ol, or', hl, hr, -⟩ := ho.node
    have hI := h.is
    have ha := h.aa
    simp only [height] at hf
    have hstep : findLoop cmp d k tn0 (f + 1) (idx (T.node i lv l (some e) r)) (ss.map idx) =
        (if cmp e.1 k < 0 then findLoop cmp d k tn0 f (idx r) (ss.map idx)
         else if cmp e.1 k > 0 then (guard ((ss.map idx).length < 36) : Option Unit).bind fun _ => findLoop cmp d k tn0 f (idx l) (i :: ss.map idx)
         else some ⟨some i, some (idx r), ss.map idx⟩) := by
      rw [findLoop]
      simp only [idx_node, hI.1, ne_eq, not_false_eq_true, if_true, hI.2.1, Option.bind_eq_bind, Option.bind_some]
    rw [hstep]
    by_cases hlt : cmp e.1 k < 0
    · rw [if_pos hlt, find_of_lt hc hl hlt, below_of_lt hc hl hlt]
      have hcur : Cur d L r ss := ⟨hI.2.2.2, ha.2.2.2, h.st, h.ch.mono (by have := lev_right_le ha; simpa using this)⟩
      obtain ⟨ih1, ih2⟩ := findLoop_spec hc hL (f := f) hcur or' (by omega)
      constructor
      · intro e' he'
        obtain ⟨A, j, B, u, ss', a1, a2, a3, a4, a5⟩ := ih1 e' he'
        exact ⟨lab l ++ (i, some e) :: A, j, B, u, ss', a1, by simp [lab, a2], a3, a4, by simp [a5, ol.1]⟩
      · intro he'
        obtain ⟨A, B, ss', a1, a2, a3, a4, a5, a6⟩ := ih2 he'
        exact ⟨lab l ++ (i, some e) :: A, B, ss', a1, by simp [lab, a2], a3, a4, a5, by simp [a6, ol.1]⟩
    · rw [if_neg hlt]
      by_cases hgt : 0 < cmp e.1 k
      · have hlen := h.ch.length
        have h1 := ha.1
        simp only [lev_node] at hlen
        rw [if_pos hgt, guard_pos (by simp; omega), Option.bind_some, find_of_gt hc hr hgt, below_of_gt hc hr hgt]
        have hcur : Cur d L l (.node i lv l (some e) r :: ss) :=
          ⟨hI.2.2.1, ha.2.2.1, h.st.cons hI (by simp) ha, ⟨by simp only [lev_node]; omega, h.ch⟩⟩
        obtain ⟨ih1, ih2⟩ := findLoop_spec hc hL (f := f) hcur ol (by omega)
        simp only [List.map_cons, idx_node] at ih1 ih2
        constructor
        · intro e' he'
          obtain ⟨A, j, B, u, ss', a1, a2, a3, a4, a5⟩ := ih1 e' he'
          exact ⟨A, j, B ++ (i, some e) :: lab r, u, ss', a1, by simp [lab, a2], a3, by rw [a4]; simp [flat], a5⟩
        · intro he'
          obtain ⟨A, B, ss', a1, a2, a3, a4, a5, a6⟩ := ih2 he'
          exact ⟨A, B ++ (i, some e) :: lab r, ss', a1, by simp [lab, a2], a3, a4, by rw [a5]; simp [flat], a6⟩
      · have h0 : cmp e.1 k = 0 := by omega
        rw [if_neg (by omega), find_mid hc hl h0]
        have hb : below cmp k (Ml ++ e :: Mr) = Ml := by
          have h1 : ∀ a ∈ Ml, decide (cmp a.1 k < 0) = true := fun a ha => by
            simpa using hc.lt_left (hl a ha) (by omega)
          have h2 : ∀ b ∈ Mr, decide (cmp b.1 k < 0) = false := fun b hb => by
            have := hc.gt_right (hr b hb) (show 0 ≤ cmp e.1 k by omega)
            simp; omega
          simp only [below, List.filter_append, filter_all h1]
          rw [List.filter_cons_of_neg (by simp; omega), filter_none h2, List.append_nil]
        rw [hb]
        constructor
        · intro e' he'
          simp only [Option.some.injEq] at he'
          subst he'
          refine ⟨lab l, i, lab r, r, ss, rfl, by simp [lab], ⟨hI.2.2.2, ha.2.2.2, h.st, h.ch.mono ?_⟩, rfl, ol.1⟩
          have := lev_right_le ha
          simpa using this
        · intro he'; simp at he'

/-- `find`: the iterator at the entry, or the end. -/
theorem findIt_spec (hc : Lawful cmp) (h : Rep cmp m t fs M) (k : κ) (tn0 : Option Nat) :
    (∀ e, Spec.find cmp k M = some e → ∃ it A i B, findIt cmp m k tn0 = some it ∧ lab t = A ++ (i, some e) :: B ∧ At m.nodes (lev t) it ((i, some e) :: B)) ∧
    (Spec.find cmp k M = none → ∃ it, findIt cmp m k tn0 = some it ∧ it.ref = none) := by
  have hcur : Cur m.nodes (lev t) t [] := ⟨h.is, h.aa, ⟨by simp, by simp, by simp⟩, Nat.le_refl _⟩
  obtain ⟨h1, h2⟩ := findLoop_spec hc h.lev36 (k := k) (tn0 := tn0) hcur h.ord (show height t < m.nodes.length + 1 by have := h.height_lt; omega)
  simp only [List.map_nil] at h1 h2
  simp only [findIt, h.root]
  constructor
  · intro e he
    obtain ⟨A, i, B, u, ss', a1, a2, a3, a4, -⟩ := h1 e he
    exact ⟨_, A, i, B, a1, a2, rfl, u, ss', rfl, rfl, a3, by simpa [flat] using a4⟩
  · intro he
    obtain ⟨A, B, ss', a1, -⟩ := h2 he
    exact ⟨_, a1, rfl⟩

/-- `lower_bound`: the iterator at the first entry that is not less. -/
theorem lowerBound_spec (hc : Lawful cmp) (h : Rep cmp m t fs M) (k : κ) :
    ∃ it A B, lowerBound cmp m k = some it ∧ lab t = A ++ B ∧ At m.nodes (lev t) it B ∧ A.map Prod.snd = (below cmp k M).map some := by
  have hcur : Cur m.nodes (lev t) t [] := ⟨h.is, h.aa, ⟨by simp, by simp, by simp⟩, Nat.le_refl _⟩
  obtain ⟨h1, h2⟩ := findLoop_spec hc h.lev36 (k := k) (tn0 := none) hcur h.ord (show height t < m.nodes.length + 1 by have := h.height_lt; omega)
  simp only [List.map_nil] at h1 h2
  simp only [lowerBound, findIt, h.root]
  cases hf : Spec.find cmp k M with
  | some e =>
    obtain ⟨A, i, B, u, ss', a1, a2, a3, a4, a5⟩ := h1 e hf
    exact ⟨_, A, (i, some e) :: B, by rw [a1]; rfl, a2, ⟨rfl, u, ss', rfl, rfl, a3, by simpa [flat] using a4⟩, a5⟩
  | none =>
    obtain ⟨A, B, ss', a1, a2, a3, a4, a5, a6⟩ := h2 hf
    cases ss' with
    | nil =>
      simp only [flat, List.append_nil] at a5
      subst a5
      exact ⟨⟨none, none, []⟩, A, [], by rw [a1]; rfl, a2, by simp [At], a6⟩
    | cons s ss' =>
      obtain ⟨i, lv, l, e, r, rfl, hr, hcur⟩ := Cur.pop a3 a4.2
      simp only [flat, List.append_nil] at a5
      refine ⟨⟨some i, some (idx r), ss'.map idx⟩, A, B, ?_, a2, ?_, a6⟩
      · rw [a1]
        simp [hr]
      · rw [← a5]
        exact ⟨rfl, r, ss', rfl, rfl, hcur, rfl⟩

end
end Verif.Smap
