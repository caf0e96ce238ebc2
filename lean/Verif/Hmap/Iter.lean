import Verif.Hmap.Rep
/- Hash maps: erasing, iterating, and both together. -/
namespace Verif.Hmap
open List (Perm Subperm)
open scoped List
open Verif.Common Spec
variable {κ ν : Type}

/-- What erasing bucket `i` does to the buckets: the `l` buckets behind move up by one. -/
structure Moved (n i l : Nat) (m m' : Map κ ν) : Prop where
  len : l + 1 < n
  ge : ∀ j < l, 2 ≤ D m.metas ((i + 1 + j) % n)
  stop : D m.metas ((i + l + 1) % n) < 2
  moved : ∀ j < l, slot m'.metas m'.table ((i + j) % n) = slot m.metas m.table ((i + j + 1) % n)
  movedD : ∀ j < l, D m'.metas ((i + j) % n) = D m.metas ((i + j + 1) % n) - 1
  last : D m'.metas ((i + l) % n) = 0
  same : ∀ x, (∀ j ≤ l, x ≠ (i + j) % n) → slot m'.metas m'.table x = slot m.metas m.table x
  sameD : ∀ x, (∀ j ≤ l, x ≠ (i + j) % n) → D m'.metas x = D m.metas x

theorem eraseEntry_spec {H : Hasher κ} (LH : Lawful H) {m : Map κ ν} {M : FMap κ ν} {n p : Nat} (h : Full H m M n p)
    {i : Nat} {e : κ × ν} (hi : i < n) (hs : slot m.metas m.table i = some e) :
    ∃ m' l, eraseEntry m i = some (m', valueDrop e) ∧ Full H m' (remove H M e.1) n p ∧ M ~ e :: remove H M e.1 ∧
      Moved n i l m m' ∧ m'.size + 1 = m.size ∧ m'.bc = m.bc := by
  have hn : 0 < n := by omega
  have h2 := h.arr.two
  obtain ⟨g, hg, hg0⟩ := h.gap
  obtain ⟨e', g1, g2, _⟩ := h.arr.inv.slot_eq hi (slot_some hs)
  rw [hs] at g1; cases g1
  have hgi : g ≠ i := by rintro rfl; exact slot_some hs hg0
  obtain ⟨t, ht1, ht2⟩ : ∃ t, t + 1 < n ∧ (i + 1 + t) % n = g := by
    by_cases hle : i < g
    · exact ⟨g - i - 1, by omega, by rw [show i + 1 + (g - i - 1) = g by omega, Nat.mod_eq_of_lt hg]⟩
    · exact ⟨g + n - i - 1, by omega, by
        rw [show i + 1 + (g + n - i - 1) = g + n by omega, Nat.add_mod_right, Nat.mod_eq_of_lt hg]⟩
  have hmem : e ∈ M := h.perm.subset (mem_entries.2 ⟨i, hi, hs⟩)
  obtain ⟨R, hR⟩ : ∃ R, M ~ e :: R := by
    obtain ⟨s, t, rfl⟩ := List.append_of_mem hmem
    exact ⟨s ++ t, List.perm_middle⟩
  have hRd : Distinct H (e :: R) := h.dist.perm LH hR
  have hRr : remove H M e.1 ~ R := by
    have h1 := hR.filter fun e' => !H.eq e'.1 e.1
    have h2 : (e :: R).filter (fun e' => !H.eq e'.1 e.1) = R := by
      rw [List.filter_cons_of_neg (by simp [LH.refl]), List.filter_eq_self]
      intro a ha
      rw [eq_comm' LH, (List.pairwise_cons.1 hRd).1 a ha]; rfl
    rw [h2] at h1; exact h1
  obtain ⟨i', metas', table', mt, l, er, hmt, hI, hP, hi', hl, hge, hstop, hsl, hDl, hso, hDo⟩ :=
    shiftBack_spec h.arr.pow h2 n i t m.metas m.table e R h.arr.inv hi (by omega) ht1 (by rw [ht2]; omega) hs
      (h.perm.trans hR)
  have hlen : M.length = R.length + 1 := by rw [hR.length_eq]; rfl
  refine ⟨⟨table', metas'.set i' ⟨mt.hashx, 0⟩, m.size - 1, m.bc⟩, l, ?_, ?_, ?_, ⟨hl, hge, hstop, hsl, hDl, ?_, hso, hDo⟩, ?_, rfl⟩
  · simp only [eraseEntry, g2, Option.bind_eq_bind, Option.bind_some, h.arr.bc, er, hmt]
  · refine ⟨⟨h.arr.bc, h.arr.pow, h2, hI⟩, hP.trans hRr.symm, ?_, ?_, ?_⟩
    · rw [hRr.length_eq]; simp only; rw [h.size, hlen]; rfl
    · rw [hRr.length_eq]; have := h.cap; omega
    · exact (List.pairwise_cons.1 hRd).2 |>.imp (fun h => h) |> fun hd => Distinct.perm LH hd hRr.symm
  · exact hR.trans (hRr.symm.cons e)
  · rw [← hi']
    have hlt : i' < metas'.length := by
      by_contra hc; rw [List.getElem?_eq_none (by omega)] at hmt; cases hmt
    rw [D_set _ hlt, if_pos rfl]
  · simp only; rw [h.size, hlen]; omega

theorem remove_eq {H : Hasher κ} (LH : Lawful H) {M : FMap κ ν} {k k' : κ} (h : H.eq k k' = true) :
    remove H M k = remove H M k' := by
  apply List.filter_congr
  intro e _
  cases h1 : H.eq e.1 k with
  | true => rw [LH.trans _ _ _ h1 h]
  | false =>
    cases h2 : H.eq e.1 k' with
    | false => rfl
    | true => rw [LH.trans _ _ _ h2 (LH.symm _ _ h)] at h1; cases h1

theorem remove_absent {H : Hasher κ} {M : FMap κ ν} {k : κ} (h : find H M k = none) : remove H M k = M := by
  rw [remove, List.filter_eq_self]
  intro e he
  rw [find_none_iff.1 h e he]; rfl

theorem erase_spec {H : Hasher κ} (LH : Lawful H) {m : Map κ ν} {M : FMap κ ν} (h : Rep H m M) (k : κ) :
    ∃ m', erase H m k = some (m', if (find H M k).isSome then 1 else 0,
        match find H M k with | some e => [.key e.1, .val e.2] | none => []) ∧
      Rep H m' (remove H M k) := by
  rcases getRef_spec LH h k with ⟨h1, h2⟩ | ⟨i, e, n, p, h1, h3, h4, h5, h6, h7, h8⟩
  · refine ⟨m, ?_, by rw [remove_absent h2]; exact h⟩
    simp only [erase, h1, Option.bind_eq_bind, Option.bind_some, h2]; rfl
  · obtain ⟨m', l, g1, g2, _⟩ := eraseEntry_spec LH h8 h3 h4
    refine ⟨m', ?_, by rw [← remove_eq LH h6]; exact g2.reps⟩
    simp only [erase, h1, Option.bind_eq_bind, Option.bind_some, h7, g1]; rfl

/-! ### iterating -/

theorem scan_spec {metas : List Meta} {n : Nat} (hlen : metas.length = n + 1) (hmark : D metas n ≠ 0) :
    ∀ f i, i ≤ n → n - i < f → ∃ j, scan metas f i = some j ∧ i ≤ j ∧ j ≤ n ∧ D metas j ≠ 0 ∧ ∀ x, i ≤ x → x < j → D metas x = 0 := by
  intro f
  induction f with
  | zero => intro i _ h; omega
  | succ f ih =>
    intro i hi hf
    have hlt : i < metas.length := by omega
    have hd : D metas i = metas[i].dist := D_eq (List.getElem?_eq_getElem hlt)
    simp only [scan, List.getElem?_eq_getElem hlt, Option.bind_eq_bind, Option.bind_some]
    by_cases h0 : metas[i].dist = 0
    · rw [if_pos h0]
      have hin : i ≠ n := by rintro rfl; rw [hd] at hmark; exact hmark h0
      obtain ⟨j, h1, h2, h3, h4, h5⟩ := ih (i + 1) (by omega) (by omega)
      refine ⟨j, h1, by omega, h3, h4, fun x hx hxj => ?_⟩
      by_cases hxi : x = i
      · rw [hxi, hd]; exact h0
      · exact h5 x (by omega) hxj
    · rw [if_neg h0]
      exact ⟨i, rfl, Nat.le_refl _, hi, by rw [hd]; exact h0, fun x h1 h2 => by omega⟩

/-- The entries in the buckets from `i` on. -/
def pend (n : Nat) (m : Map κ ν) (i : Nat) : List (κ × ν) := (List.range' i (n - i)).filterMap (slot m.metas m.table)

theorem pend_zero (n : Nat) (m : Map κ ν) : pend n m 0 = entries n m.metas m.table := by
  rw [pend, entries, List.range_eq_range']; rfl

theorem pend_step {n : Nat} {m : Map κ ν} {i : Nat} (hi : i < n) :
    pend n m i = (slot m.metas m.table i).toList ++ pend n m (i + 1) := by
  rw [pend, show n - i = (n - (i + 1)) + 1 by omega, List.range'_succ, List.filterMap_cons, pend]
  cases slot m.metas m.table i <;> rfl

theorem pend_end {n : Nat} {m : Map κ ν} {i : Nat} (hi : n ≤ i) : pend n m i = [] := by
  rw [pend, show n - i = 0 by omega]; rfl

theorem pend_skip {n : Nat} {m : Map κ ν} {i j : Nat} (hij : i ≤ j) (hj : j ≤ n) (h : ∀ x, i ≤ x → x < j → D m.metas x = 0) :
    pend n m i = pend n m j := by
  induction j with
  | zero => rw [show i = 0 by omega]
  | succ j ih =>
    by_cases he : i = j + 1
    · rw [he]
    · rw [ih (by omega) (by omega) fun x h1 h2 => h x h1 (by omega), pend_step (by omega), slot,
        if_neg (by rw [h j (by omega) (by omega)]; simp)]
      rfl

/-- The iterator `it` is at the first entry from bucket `i` on. -/
def At (n : Nat) (m : Map κ ν) (i : Nat) : Option Nat → Prop
  | none => pend n m i = []
  | some j => i ≤ j ∧ j < n ∧ (∃ e, slot m.metas m.table j = some e ∧ m.table[j]? = some (some e)) ∧ pend n m i = pend n m j

theorem scan_at {H : Hasher κ} {m : Map κ ν} {n p : Nat} (h : Arr H m n p) {i f : Nat} (hi : i ≤ n) (hf : n - i < f) :
    ∃ it, (scan m.metas f i).bind (fun j => some (stop n j)) = some it ∧ At n m i it := by
  obtain ⟨j, h1, h2, h3, h4, h5⟩ := scan_spec h.inv.lenm (by rw [h.inv.mark]; omega) f i hi hf
  rw [h1, Option.bind_some]
  refine ⟨_, rfl, ?_⟩
  rw [stop]
  by_cases hj : j = n
  · rw [if_pos hj, At, pend_skip h2 h3 h5, pend_end (by omega)]
  · rw [if_neg hj, At]
    obtain ⟨e, g1, g2, _⟩ := h.inv.slot_eq (show j < n by omega) h4
    exact ⟨h2, by omega, ⟨e, g1, g2⟩, pend_skip h2 h3 h5⟩

theorem next_spec {H : Hasher κ} {m : Map κ ν} {n p : Nat} (h : Arr H m n p) {i : Nat} (hi : i < n) :
    ∃ it, next m i = some it ∧ At n m (i + 1) it := by
  obtain ⟨it, h1, h2⟩ := scan_at h (i := i + 1) (f := n + 1) (by omega) (by omega)
  refine ⟨it, ?_, h2⟩
  rw [next, h.bc]; exact h1

theorem begin_spec {H : Hasher κ} {m : Map κ ν} {n p : Nat} (h : Arr H m n p) : ∃ it, begin' m = some it ∧ At n m 0 it := by
  obtain ⟨it, h1, h2⟩ := scan_at h (i := 0) (f := n + 1) (by omega) (by omega)
  refine ⟨it, ?_, h2⟩
  have := h.two
  rw [begin', h.bc, if_neg (by omega)]; exact h1

theorem eachLoop_spec {H : Hasher κ} {m : Map κ ν} {n p : Nat} (h : Arr H m n p) :
    ∀ f i it, At n m i it → n - i ≤ f → eachLoop m f it = some (pend n m i) := by
  intro f
  induction f with
  | zero =>
    intro i it hat hf
    cases it with
    | none => rw [At] at hat; rw [hat]; rfl
    | some j => obtain ⟨h1, h2, _⟩ := hat; omega
  | succ f ih =>
    intro i it hat hf
    cases it with
    | none => rw [At] at hat; rw [hat]; rfl
    | some j =>
      obtain ⟨h1, h2, ⟨e, h3, h4⟩, h5⟩ := hat
      obtain ⟨it', g1, g2⟩ := next_spec h h2
      simp only [eachLoop, h4, Option.bind_eq_bind, Option.bind_some, g1, ih (j + 1) it' g2 (by omega)]
      rw [h5, pend_step h2, h3]; rfl

theorem each_full {H : Hasher κ} {m : Map κ ν} {n p : Nat} (h : Arr H m n p) : each m = some (entries n m.metas m.table) := by
  obtain ⟨it, h1, h2⟩ := begin_spec h
  simp only [each, h1, Option.bind_eq_bind, Option.bind_some, h.bc]
  rw [eachLoop_spec h n 0 it h2 (by omega), pend_zero]

theorem each_spec {H : Hasher κ} {m : Map κ ν} {M : FMap κ ν} (h : Rep H m M) : ∃ es, each m = some es ∧ es ~ M := by
  rcases h with ⟨rfl, rfl⟩ | ⟨n, p, h⟩
  · exact ⟨[], rfl, List.Perm.refl _⟩
  · exact ⟨_, each_full h.arr, h.perm⟩

/-! ### erasing while iterating -/

theorem filterMap_congr' {α β : Type} {f g : α → Option β} {l : List α} (h : ∀ x ∈ l, f x = g x) :
    l.filterMap f = l.filterMap g := List.filterMap_congr h

theorem pend_shift {n : Nat} {m m' : Map κ ν} : ∀ d i, i + d < n →
    (∀ x, i ≤ x → x < i + d → slot m'.metas m'.table x = slot m.metas m.table (x + 1)) →
    ∀ T, pend n m' (i + d) = T → pend n m' i = ((List.range' (i + 1) d).filterMap (slot m.metas m.table)) ++ T := by
  intro d
  induction d with
  | zero => intro i _ _ T hT; simpa using hT
  | succ d ih =>
    intro i hi h T hT
    rw [pend_step (by omega), h i (by omega) (by omega),
      ih (i + 1) (by omega) (fun x h1 h2 => h x (by omega) (by omega)) T (by rw [← hT]; congr 1; omega),
      List.range'_succ, List.filterMap_cons]
    cases slot m.metas m.table (i + 1) <;> rfl

theorem pend_range {n : Nat} {m : Map κ ν} {i d : Nat} (h : i + d ≤ n) :
    pend n m i = (List.range' i d).filterMap (slot m.metas m.table) ++ pend n m (i + d) := by
  rw [pend, pend, ← List.filterMap_append, show n - i = d + (n - (i + d)) by omega, ← List.range'_append]
  simp

theorem pend_congr {n : Nat} {m m' : Map κ ν} {i : Nat} (h : ∀ x, i ≤ x → x < n → slot m'.metas m'.table x = slot m.metas m.table x) :
    pend n m' i = pend n m i := by
  apply List.filterMap_congr
  intro x hx
  rw [List.mem_range'_1] at hx
  exact h x hx.1 (by omega)

/-- The entries still ahead after erasing bucket `i`: those behind it, and possibly the one that was
in bucket 0. -/
theorem Moved.ahead {n i l : Nat} {m m' : Map κ ν} (h : Moved n i l m m') (hi : i < n) :
    ∃ x, pend n m' i = pend n m (i + 1) ++ x ∧ (D m.metas 0 < 2 → x = []) ∧ ∀ e ∈ x, slot m.metas m.table 0 = some e := by
  have hl := h.len
  have hlast : ∀ y, y = (i + l) % n → slot m'.metas m'.table y = none := by
    rintro y rfl; rw [slot, if_neg (by rw [h.last]; simp)]
  by_cases hw : i + l < n
  · refine ⟨[], ?_, fun _ => rfl, by simp⟩
    rw [List.append_nil]
    have hT : pend n m' (i + l) = pend n m (i + l + 1) := by
      rw [pend_step hw, hlast _ (Nat.mod_eq_of_lt hw).symm, Option.toList_none, List.nil_append]
      apply pend_congr
      intro x h1 h2
      apply h.same
      intro j hj he
      rw [Nat.mod_eq_of_lt (by omega)] at he; omega
    rw [pend_shift l i hw (by
      intro x h1 h2
      have := h.moved (x - i) (by omega)
      rw [show i + (x - i) = x by omega, Nat.mod_eq_of_lt (show x < n by omega)] at this
      rw [this]
      by_cases hx : x + 1 < n
      · rw [Nat.mod_eq_of_lt hx]
      · omega) _ hT]
    rw [pend_range (i := i + 1) (d := l) (by omega)]
    congr 2; omega
  · -- the shift wraps around
    refine ⟨(slot m.metas m.table 0).toList, ?_, ?_, by simp⟩
    · have hT : pend n m' (i + (n - 1 - i)) = (slot m.metas m.table 0).toList := by
        rw [pend_step (by omega), pend_end (by omega), List.append_nil]
        have := h.moved (n - 1 - i) (by omega)
        rw [show i + (n - 1 - i) + 1 = n by omega, Nat.mod_self, show i + (n - 1 - i) = n - 1 by omega,
          Nat.mod_eq_of_lt (show n - 1 < n by omega)] at this
        rw [show i + (n - 1 - i) = n - 1 by omega, this]
      rw [pend_shift (n - 1 - i) i (by omega) (by
        intro x h1 h2
        have := h.moved (x - i) (by omega)
        rw [show i + (x - i) = x by omega, Nat.mod_eq_of_lt (show x < n by omega),
          Nat.mod_eq_of_lt (show x + 1 < n by omega)] at this
        exact this) _ hT]
      rw [pend_range (i := i + 1) (d := n - 1 - i) (by omega), pend_end (n := n) (m := m) (i := i + 1 + (n - 1 - i)) (by omega),
        List.append_nil]
    · intro h0
      have := h.ge (n - 1 - i) (by omega)
      rw [show i + 1 + (n - 1 - i) = n by omega, Nat.mod_self] at this
      omega

theorem Moved.zero {n i l : Nat} {m m' : Map κ ν} (h : Moved n i l m m') (hi : i < n)
    (hstep : D m.metas (1 % n) ≤ D m.metas 0 + 1) (h0 : D m.metas 0 < 2) : D m'.metas 0 < 2 := by
  have hl := h.len
  by_cases hc : ∃ j ≤ l, 0 = (i + j) % n
  · obtain ⟨j, hj, he⟩ := hc
    rcases Nat.lt_or_eq_of_le hj with hlt | rfl
    · have := h.movedD j hlt
      rw [← he] at this
      rw [this]
      have h1 : (i + j + 1) % n = 1 % n := by rw [Nat.add_mod, ← he, Nat.zero_add, Nat.mod_mod]
      rw [h1]; omega
    · have := h.last
      rw [← he] at this; omega
  · have := h.sameD 0 (fun j hj he => hc ⟨j, hj, he⟩)
    omega

theorem eraseAt_full {H : Hasher κ} (LH : Lawful H) {m : Map κ ν} {M : FMap κ ν} {n p : Nat} (h : Full H m M n p)
    {i : Nat} {e : κ × ν} (hi : i < n) (hs : slot m.metas m.table i = some e) :
    ∃ it m', eraseAt m i = some (it, m', valueDrop e) ∧ Full H m' (remove H M e.1) n p ∧ M ~ e :: remove H M e.1 ∧
      m'.size + 1 = m.size ∧ At n m' i it ∧
      (∃ x, pend n m' i = pend n m (i + 1) ++ x ∧ (D m.metas 0 < 2 → x = []) ∧ ∀ e ∈ x, slot m.metas m.table 0 = some e) ∧
      (D m.metas 0 < 2 → D m'.metas 0 < 2) := by
  obtain ⟨m', l, h1, h2, h3, h4, h5, h6⟩ := eraseEntry_spec LH h hi hs
  have hz : D m.metas 0 < 2 → D m'.metas 0 < 2 := fun h0 =>
    h4.zero hi (by have := h.arr.inv.step 0 (by omega); simpa using this) h0
  obtain ⟨mt, g1, g2⟩ := meta_some h2.arr.inv hi
  by_cases hd : mt.dist = 0
  · obtain ⟨it, k1, k2⟩ := next_spec h2.arr hi
    refine ⟨it, m', ?_, h2, h3, h5, ?_, h4.ahead hi, hz⟩
    · simp only [eraseAt, h1, Option.bind_eq_bind, Option.bind_some, g1, hd, if_true, k1]
    · have hp : pend n m' i = pend n m' (i + 1) := pend_skip (by omega) (by omega) (by
        intro x hx1 hx2
        rw [show x = i by omega, ← g2]; exact hd)
      cases it with
      | none => rw [At] at k2 ⊢; rw [hp]; exact k2
      | some j => obtain ⟨q1, q2, q3, q4⟩ := k2; exact ⟨by omega, q2, q3, by rw [hp]; exact q4⟩
  · refine ⟨some i, m', ?_, h2, h3, h5, ?_, h4.ahead hi, hz⟩
    · simp only [eraseAt, h1, Option.bind_eq_bind, Option.bind_some, g1, if_neg hd]
    · obtain ⟨e', q1, q2, _⟩ := h2.arr.inv.slot_eq hi (by rw [← g2]; exact hd)
      exact ⟨Nat.le_refl _, hi, ⟨e', q1, q2⟩, rfl⟩

/-- The visited entries the loop erased. -/
def erased (sel : Nat → κ × ν → Bool) : Nat → List (κ × ν) → List (κ × ν)
  | _, [] => []
  | n, e :: es => if sel n e then e :: erased sel (n + 1) es else erased sel (n + 1) es

theorem sweep_spec {H : Hasher κ} (LH : Lawful H) (sel : Nat → κ × ν → Bool) {n p : Nat} :
    ∀ (f c i : Nat) (it : Option Nat) (m : Map κ ν) (M : FMap κ ν), Full H m M n p → i ≤ n → At n m i it →
      m.size + (n - i) ≤ f →
      ∃ es m' M', sweep sel f c it m = some (es, m') ∧ Full H m' M' n p ∧ M ~ erased sel c es ++ M' ∧
        List.Sublist (pend n m i) es ∧ (∀ e ∈ es, e ∈ M) ∧ (D m.metas 0 < 2 → es = pend n m i) := by
  intro f
  induction f with
  | zero =>
    intro c i it m M hf hi hat hle
    cases it with
    | none => rw [At] at hat; exact ⟨[], m, M, by rw [sweep], hf, List.Perm.refl _, by rw [hat], by simp, fun _ => hat.symm⟩
    | some j => obtain ⟨h1, h2, _⟩ := hat; omega
  | succ f ih =>
    intro c i it m M hf hi hat hle
    cases it with
    | none =>
      rw [At] at hat
      exact ⟨[], m, M, by rw [sweep], hf, List.Perm.refl _, by rw [hat], by simp, fun _ => hat.symm⟩
    | some j =>
      obtain ⟨h1, h2, ⟨e, h3, h4⟩, h5⟩ := hat
      have hpj : pend n m j = e :: pend n m (j + 1) := by rw [pend_step h2, h3]; rfl
      have hmem : e ∈ M := hf.perm.subset (mem_entries.2 ⟨j, h2, h3⟩)
      simp only [sweep, h4, Option.bind_eq_bind, Option.bind_some]
      by_cases hsel : sel c e = true
      · rw [if_pos hsel]
        obtain ⟨it', m', g1, g2, g3, g4, g5, ⟨x, gx1, gx2, gx3⟩, g6⟩ := eraseAt_full LH hf h2 h3
        obtain ⟨es, mf, Mf, k1, k2, k3, k4, k5, k6⟩ := ih (c + 1) j it' m' _ g2 (by omega) g5 (by omega)
        simp only [g1, Option.bind_some, k1]
        refine ⟨e :: es, mf, Mf, rfl, k2, ?_, ?_, ?_, ?_⟩
        · rw [erased, if_pos hsel, List.cons_append]
          exact g3.trans (k3.cons e)
        · rw [h5, hpj]
          refine List.Sublist.cons_cons e ?_
          rw [gx1] at k4
          exact (List.sublist_append_left _ _).trans k4
        · intro a ha
          rcases List.mem_cons.1 ha with rfl | ha
          · exact hmem
          · exact (List.mem_filter.1 (k5 a ha)).1
        · intro h0
          rw [k6 (g6 h0), gx1, gx2 h0, List.append_nil, h5, hpj]
      · rw [if_neg hsel]
        obtain ⟨it', g1, g2⟩ := next_spec hf.arr h2
        obtain ⟨es, mf, Mf, k1, k2, k3, k4, k5, k6⟩ := ih (c + 1) (j + 1) it' m M hf (by omega) g2 (by omega)
        simp only [g1, Option.bind_some, k1]
        refine ⟨e :: es, mf, Mf, rfl, k2, ?_, ?_, ?_, ?_⟩
        · rw [erased, if_neg hsel]; exact k3
        · rw [h5, hpj]
          exact List.Sublist.cons_cons e k4
        · intro a ha
          rcases List.mem_cons.1 ha with rfl | ha
          · exact hmem
          · exact k5 a ha
        · intro h0
          rw [k6 h0, h5, hpj]

/-! ### clearing, copying, comparing -/

theorem wipeLoop_spec {H : Hasher κ} {m : Map κ ν} {n p : Nat} (h : Arr H m n p) :
    ∀ f i, f + i = n → wipeLoop m f i = some ((pend n m i).flatMap valueDrop) := by
  intro f
  induction f with
  | zero => intro i hi; rw [pend_end (by omega)]; rfl
  | succ f ih =>
    intro i hi
    obtain ⟨mt, h1, h2⟩ := meta_some h.inv (show i < n by omega)
    simp only [wipeLoop, h1, Option.bind_eq_bind, Option.bind_some, ih (i + 1) (by omega), h2]
    by_cases h0 : D m.metas i = 0
    · rw [if_neg (by simpa using h0), pend_step (i := i) (by omega), slot, if_neg (by simpa using h0)]; rfl
    · obtain ⟨e, g1, g2, _⟩ := h.inv.slot_eq (show i < n by omega) h0
      rw [if_pos h0]
      simp only [g2, Option.bind_some]
      rw [pend_step (i := i) (by omega), g1]; rfl

theorem wipe_full {H : Hasher κ} {m : Map κ ν} {M : FMap κ ν} {n p : Nat} (h : Full H m M n p) :
    ∃ ds, wipe m = some ds ∧ ds ~ M.flatMap valueDrop := by
  rw [wipe]
  by_cases h0 : m.size = 0
  · rw [if_pos h0]
    have : M = [] := by have := h.size; rw [h0] at this; exact List.length_eq_zero_iff.1 this.symm
    exact ⟨[], rfl, by rw [this]; exact List.Perm.refl _⟩
  · rw [if_neg h0, h.arr.bc, wipeLoop_spec h.arr n 0 (by omega), pend_zero]
    exact ⟨_, rfl, h.perm.flatMap_right _⟩

theorem drop_spec {H : Hasher κ} {m : Map κ ν} {M : FMap κ ν} (h : Rep H m M) :
    ∃ ds, drop m = some ds ∧ ds ~ M.flatMap valueDrop := by
  rcases h with ⟨rfl, rfl⟩ | ⟨n, p, h⟩
  · exact ⟨[], rfl, List.Perm.refl _⟩
  · rw [drop, h.arr.bc, if_pos (by have := h.arr.two; omega)]
    exact wipe_full h

theorem clear_spec {H : Hasher κ} {m : Map κ ν} {M : FMap κ ν} (h : Rep H m M) :
    ∃ m' ds, clear m = some (m', ds) ∧ ds ~ M.flatMap valueDrop ∧ Rep H m' [] := by
  rcases h with ⟨rfl, rfl⟩ | ⟨n, p, h⟩
  · exact ⟨_, [], rfl, List.Perm.refl _, Or.inl ⟨rfl, rfl⟩⟩
  · obtain ⟨ds, h1, h2⟩ := wipe_full h
    refine ⟨⟨m.table, List.replicate m.bc ⟨0, 0⟩ ++ m.metas.drop m.bc, 0, m.bc⟩, ds, ?_, h2, ?_⟩
    · simp only [clear, h1, Option.bind_eq_bind, Option.bind_some]
    · have hD : ∀ x < n, D (List.replicate m.bc ⟨0, 0⟩ ++ m.metas.drop m.bc) x = 0 := by
        intro x hx
        rw [h.arr.bc, D, List.getElem?_append_left (by simpa using hx), List.getElem?_replicate, if_pos hx]
      have h2 := h.arr.two
      refine Full.reps (n := n) (p := p) ⟨⟨h.arr.bc, h.arr.pow, h2, ?_⟩, ?_, rfl, Nat.zero_le _, List.Pairwise.nil⟩
      · refine ⟨?_, h.arr.inv.lent, ?_, ?_, ?_, ?_⟩
        · simp [h.arr.bc, h.arr.inv.lenm]
        · have := h.arr.inv.mark
          rw [h.arr.bc, D, List.getElem?_append_right (by simp), List.getElem?_drop, List.length_replicate,
            Nat.sub_self, Nat.add_zero]
          exact this
        · intro x hx hd; exact absurd (hD x hx) hd
        · intro x hx; simp only; rw [hD x hx]; omega
        · intro x hx; simp only; rw [hD _ (Nat.mod_lt _ (by omega))]; omega
      · rw [entries, List.filterMap_eq_nil_iff.2]
        intro x hx
        rw [slot, if_neg (by simp only; rw [hD x (List.mem_range.1 hx)]; simp)]

theorem clone_spec {H : Hasher κ} {m : Map κ ν} {M : FMap κ ν} (h : Rep H m M) :
    Rep H (clone true m) M ∧ each (clone true m) = each m := by
  rcases h with ⟨rfl, rfl⟩ | ⟨n, p, h⟩
  · exact ⟨Or.inl ⟨rfl, rfl⟩, rfl⟩
  · have h2 := h.arr.two
    have hc : clone true m = { m with table := List.zipWith (fun (mt : Meta) c => if mt.dist ≠ 0 then c else none) (m.metas.take m.bc) m.table } := by
      rw [clone, if_pos (by rw [h.arr.bc]; omega), if_pos rfl]
    have hget : ∀ x < n, D m.metas x ≠ 0 → (List.zipWith (fun (mt : Meta) c => if mt.dist ≠ 0 then c else none)
        (m.metas.take m.bc) m.table)[x]? = m.table[x]? := by
      intro x hx hd
      obtain ⟨e, g1, g2, g3, _⟩ := h.arr.inv.slot_eq hx hd
      rw [List.getElem?_zipWith, List.getElem?_take, if_pos (by rw [h.arr.bc]; exact hx), g3, g2]
      simp only [hd, ne_eq, not_false_eq_true, if_true]
    have hslot : ∀ x < n, slot (clone true m).metas (clone true m).table x = slot m.metas m.table x := by
      intro x hx
      rw [hc, slot, slot]
      simp only
      by_cases hd : D m.metas x = 0
      · rw [if_neg (by simpa using hd), if_neg (by simpa using hd)]
      · rw [if_pos hd, if_pos hd, hget x hx hd]
    have hinv : Inv H n (clone true m).metas (clone true m).table := by
      rw [hc]
      refine ⟨h.arr.inv.lenm, ?_, h.arr.inv.mark, ?_, h.arr.inv.le, h.arr.inv.step⟩
      · simp [h.arr.bc, h.arr.inv.lenm, h.arr.inv.lent]
      · intro x hx hd
        obtain ⟨e, g1, g2, g3⟩ := h.arr.inv.occ x hx hd
        exact ⟨e, by simp only; rw [hget x hx hd]; exact g1, g2, g3⟩
    have hent : entries n (clone true m).metas (clone true m).table = entries n m.metas m.table := by
      apply List.filterMap_congr
      intro x hx; exact hslot x (List.mem_range.1 hx)
    have harr : Arr H (clone true m) n p := ⟨by rw [hc]; exact h.arr.bc, h.arr.pow, h2, hinv⟩
    refine ⟨Full.reps (n := n) (p := p) ⟨harr, by rw [hent]; exact h.perm, by rw [hc]; exact h.size, h.cap, h.dist⟩, ?_⟩
    rw [each_full harr, each_full h.arr, hent]

theorem eqLoop_spec {H : Hasher κ} (LH : Lawful H) {m o : Map κ ν} {O : FMap κ ν} {n p : Nat} (h : Arr H m n p) (ho : Rep H o O) :
    ∀ f i it, At n m i it → n - i ≤ f → eqLoop H m o f it = some ((pend n m i).all fun e => (find H O e.1).isSome) := by
  intro f
  induction f with
  | zero =>
    intro i it hat hf
    cases it with
    | none => rw [At] at hat; rw [hat]; rfl
    | some j => obtain ⟨h1, h2, _⟩ := hat; omega
  | succ f ih =>
    intro i it hat hf
    cases it with
    | none => rw [At] at hat; rw [hat]; rfl
    | some j =>
      obtain ⟨h1, h2, ⟨e, h3, h4⟩, h5⟩ := hat
      obtain ⟨it', g1, g2⟩ := next_spec h h2
      simp only [eqLoop, h4, Option.bind_eq_bind, Option.bind_some, g1, ih (j + 1) it' g2 (by omega), contains_spec LH ho]
      rw [h5, pend_step h2, h3]
      cases hc : (find H O e.1).isSome <;> simp [hc]

theorem eq_spec {H : Hasher κ} (LH : Lawful H) {m o : Map κ ν} {M O : FMap κ ν} (h : Rep H m M) (ho : Rep H o O) :
    eq H m o = some (decide (M.length = O.length) && M.all fun e => (find H O e.1).isSome) := by
  rw [eq, h.size, ho.size]
  by_cases hl : M.length = O.length
  · rw [if_neg (by simpa using hl), decide_eq_true hl, Bool.true_and]
    rcases h with ⟨rfl, rfl⟩ | ⟨n, p, h⟩
    · rfl
    · obtain ⟨it, h1, h2⟩ := begin_spec h.arr
      simp only [h1, Option.bind_eq_bind, Option.bind_some]
      rw [h.arr.bc, eqLoop_spec LH h.arr ho n 0 it h2 (by omega), pend_zero]
      congr 1
      rw [Bool.eq_iff_iff, List.all_eq_true, List.all_eq_true]
      exact ⟨fun hh e he => hh e (h.perm.symm.subset he), fun hh e he => hh e (h.perm.subset he)⟩
  · rw [if_pos hl, decide_eq_false hl, Bool.false_and]

end Verif.Hmap
