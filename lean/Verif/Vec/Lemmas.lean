import Verif.Vec.Spec
/- Representation invariant of `vec` and one lemma per function. -/
namespace Verif.Vec
variable {α : Type _}

/-- `v` represents the list `l`. -/
structure Rep (v : Vec α) (l : List α) : Prop where
  size : v.size = l.length
  null : v.data = none → v.cap = 0 ∧ l = []
  blk : ∀ b, v.data = some b → b.length = v.cap ∧ b.take l.length = l.map some ∧ v.cap ≠ 0

theorem Rep.le_cap {v : Vec α} {l : List α} (h : Rep v l) : l.length ≤ v.cap := by
  cases hd : v.data with
  | none => simp [(h.null hd).2]
  | some b =>
    obtain ⟨h1, h2, _⟩ := h.blk b hd
    have := congrArg List.length h2
    simp at this; omega

theorem rep_init : Rep (init : Vec α) [] := ⟨rfl, fun _ => ⟨rfl, rfl⟩, fun _ h => by simp [init] at h⟩

theorem reserve_spec {v : Vec α} {l : List α} (h : Rep v l) (ok : Bool) (c : Nat) :
    Rep (reserve ok v c).1 l ∧ (reserve ok v c).1.dropped = v.dropped ∧
    (reserve ok v c).1.size = v.size ∧
    ((reserve ok v c).2 = true → c ≤ (reserve ok v c).1.cap ∧ (reserve ok v c).1.data ≠ none) ∧
    ((reserve ok v c).2 = false → (reserve ok v c).1 = v ∧ (ok = true → c = 0)) := by
  unfold reserve
  have hsz := h.size
  split
  · rename_i hcond
    cases ok
    · simp [h]
    · have hlen : l.length ≤ c := by have := h.le_cap; omega
      refine ⟨⟨hsz, by simp, ?_⟩, rfl, rfl, by simp, by simp⟩
      intro b hb
      simp at hb; subst hb
      refine ⟨by simp, ?_, by simp; omega⟩
      cases hd : v.data with
      | none => simp [(h.null hd).2]
      | some b =>
        obtain ⟨h1, h2, _⟩ := h.blk b hd
        simp only [Option.getD_some]
        rw [Buf.take_realloc _ hlen (by have := h.le_cap; omega)]
        exact h2
  · rename_i hcond
    have hh : c ≤ v.cap := by omega
    refine ⟨h, rfl, rfl, ?_, ?_⟩
    · intro hs
      exact ⟨hh, by intro hn; simp only at hn; rw [hn] at hs; simp at hs⟩
    · intro hs
      refine ⟨rfl, fun _ => ?_⟩
      have hn : v.data = none := by simpa using hs
      have := (h.null hn).1; omega

theorem Buf.set_take_append {b : Buf α} {l : List α} (h2 : b.take l.length = l.map some)
    (hlt : l.length < b.length) (x : α) :
    (b.set l.length (some x)).take (l.length + 1) = (l ++ [x]).map some := by
  rw [List.take_add_one, List.take_set_of_le (Nat.le_refl _), h2]
  simp [hlt]

theorem push_spec {v : Vec α} {l : List α} (h : Rep v l) (ok : Bool) (x : α) :
    ∃ v' r, push ok v x = some (v', r) ∧ v'.dropped = v.dropped ∧
      (r = true → Rep v' (l ++ [x])) ∧ (r = false → v' = v ∧ ok = false) := by
  have key : ∀ w : Vec α, Rep w l → w.dropped = v.dropped → l.length < w.cap →
      ∃ v', (do
        let b ← w.blk
        let b ← b.wr w.size x
        some ({ w with data := some b, size := w.size + 1 }, true)) = some (v', true) ∧
        v'.dropped = v.dropped ∧ Rep v' (l ++ [x]) := by
    intro w hw hdr hlt
    cases hd : w.data with
    | none => exfalso; have := (hw.null hd).1; omega
    | some b =>
      obtain ⟨h1, h2, h3⟩ := hw.blk b hd
      have hs := hw.size
      refine ⟨⟨some (b.set l.length (some x)), l.length + 1, w.cap, w.dropped⟩,
        by simp [Vec.blk, hd, Buf.wr, hs, h1, hlt], by simp [hdr], ?_, by simp, ?_⟩
      · simp
      · intro b' hb'
        simp at hb'; subst hb'
        refine ⟨by simp [h1], ?_, h3⟩
        simpa using Buf.set_take_append h2 (by omega) x
  unfold push
  have hsz := h.size
  have hle := h.le_cap
  by_cases hc : v.size = v.cap
  · rw [if_pos hc]
    obtain ⟨r1, r2, r3, r4, r5⟩ := reserve_spec h ok (v.size * 2 + 4)
    rcases hr : reserve ok v (v.size * 2 + 4) with ⟨w, b⟩
    rw [hr] at r1 r2 r3 r4 r5
    simp only at r1 r2 r3 r4 r5
    cases b
    · refine ⟨w, false, rfl, r2, by simp, fun _ => ⟨(r5 rfl).1, ?_⟩⟩
      cases ok
      · rfl
      · have := (r5 rfl).2 rfl; omega
    · obtain ⟨v', e1, e2, e3⟩ := key w r1 r2 (by have := (r4 rfl).1; omega)
      exact ⟨v', true, e1, e2, fun _ => e3, by simp⟩
  · rw [if_neg hc]
    obtain ⟨v', e1, e2, e3⟩ := key v h rfl (by omega)
    exact ⟨v', true, e1, e2, fun _ => e3, by simp⟩

theorem Rep.blk_of_ne {v : Vec α} {l : List α} (h : Rep v l) (hl : l ≠ []) :
    ∃ b, v.data = some b ∧ b.length = v.cap ∧ b.take l.length = l.map some ∧ v.cap ≠ 0 := by
  cases hd : v.data with
  | none => exact absurd (h.null hd).2 hl
  | some b => exact ⟨b, rfl, h.blk b hd⟩

theorem kill_last {b : Buf α} {l : List α} (h2 : b.take l.length = l.map some) (hl : l ≠ []) :
    b.kill (l.length - 1) = some (l.getLast hl, b.set (l.length - 1) none) := by
  have hlt : l.length - 1 < l.length := by
    have := List.length_pos_iff.2 hl; omega
  rw [Buf.kill, Buf.rd_of_take h2 hlt]
  simp [List.getLast_eq_getElem]

theorem killLast_spec {v : Vec α} {l : List α} (h : Rep v l) (hl : l ≠ []) :
    ∃ b b', v.data = some b ∧ b.kill (v.size - 1) = some (l.getLast hl, b') ∧ v.size ≠ 0 ∧
      ∀ d, Rep ⟨some b', v.size - 1, v.cap, d⟩ l.dropLast := by
  obtain ⟨b, hd, h1, h2, h3⟩ := h.blk_of_ne hl
  have hs := h.size
  have hpos := List.length_pos_iff.2 hl
  refine ⟨b, b.set (l.length - 1) none, hd, by rw [hs]; exact kill_last h2 hl, by omega, ?_⟩
  intro d
  refine ⟨by simp [hs], by simp, ?_⟩
  intro b' hb'
  simp at hb'; subst hb'
  refine ⟨by simp [h1], ?_, h3⟩
  simp only [List.length_dropLast]
  rw [List.take_set_of_le (Nat.le_refl _)]
  have : (b.take l.length).take (l.length - 1) = (l.map some).take (l.length - 1) := by rw [h2]
  rw [List.take_take] at this
  have hm : min (l.length - 1) l.length = l.length - 1 := by omega
  rw [hm] at this
  rw [this, ← List.map_take, List.dropLast_eq_take]

theorem pop_spec {v : Vec α} {l : List α} (h : Rep v l) (hl : l ≠ []) :
    ∃ v', pop v = some v' ∧ Rep v' l.dropLast ∧ v'.dropped = v.dropped ++ [l.getLast hl] := by
  obtain ⟨b, b', hd, hk, hne, hr⟩ := killLast_spec h hl
  exact ⟨⟨some b', v.size - 1, v.cap, v.dropped ++ [l.getLast hl]⟩,
    by simp [pop, Vec.blk, hd, hk, hne], hr _, rfl⟩

theorem pull_spec {v : Vec α} {l : List α} (h : Rep v l) (hl : l ≠ []) :
    ∃ v', pull v = some (v', l.getLast hl) ∧ Rep v' l.dropLast ∧ v'.dropped = v.dropped := by
  obtain ⟨b, b', hd, hk, hne, hr⟩ := killLast_spec h hl
  exact ⟨⟨some b', v.size - 1, v.cap, v.dropped⟩,
    by simp [pull, Vec.blk, hd, hk, hne], hr _, rfl⟩

theorem dropDown_spec (b : Buf α) (log : List α) (l : List α)
    (h : b.take l.length = l.map some) :
    ∃ b', dropDown b log l.length = some (b', log ++ l.reverse) ∧ b'.length = b.length := by
  induction hn : l.length generalizing b log l with
  | zero =>
    have : l = [] := List.length_eq_zero_iff.1 hn
    subst this
    exact ⟨b, by simp [dropDown], rfl⟩
  | succ k ih =>
    have hl : l ≠ [] := by intro h0; simp [h0] at hn
    have hk := kill_last h hl
    rw [hn] at hk
    simp only [Nat.add_sub_cancel] at hk
    have hlast : l = l.dropLast ++ [l.getLast hl] := (List.dropLast_concat_getLast hl).symm
    have htk : (b.set k none).take l.dropLast.length = l.dropLast.map some := by
      have hk' : l.dropLast.length = k := by simp [hn]
      rw [hk', List.take_set_of_le (Nat.le_refl _)]
      have : (b.take l.length).take k = (l.map some).take k := by rw [h]
      rw [List.take_take, ← List.map_take, hn, Nat.min_eq_left (Nat.le_succ k)] at this
      rw [this, List.dropLast_eq_take, hn, Nat.add_sub_cancel]
    obtain ⟨b', e1, e2⟩ := ih (b.set k none) (log ++ [l.getLast hl]) l.dropLast htk (by simp [hn])
    refine ⟨b', ?_, by simpa using e2⟩
    simp only [dropDown, hk, Option.bind_eq_bind, Option.bind_some]
    rw [e1]
    have : l.reverse = l.getLast hl :: l.dropLast.reverse := by
      conv => lhs; rw [hlast]
      simp
    rw [this]; simp

theorem dropUp_spec (b : Buf α) (log : List α) (i : Nat) (m : List α)
    (h : (b.drop i).take m.length = m.map some) :
    ∃ b', dropUp b log i m.length = some (b', log ++ m) ∧ b'.length = b.length ∧
      b'.take i = b.take i ∧ b'.drop (i + m.length) = b.drop (i + m.length) := by
  induction m generalizing b log i with
  | nil => exact ⟨b, by simp [dropUp], rfl, rfl, rfl⟩
  | cons x xs ih =>
    have hlen := congrArg List.length h
    simp at hlen
    have hi : i < b.length := by omega
    have hd : b.drop i = b[i] :: b.drop (i + 1) := List.drop_eq_getElem_cons hi
    rw [hd] at h
    simp only [List.length_cons, List.take_succ_cons, List.map_cons, List.cons.injEq] at h
    obtain ⟨hx, hxs⟩ := h
    have hkill : b.kill i = some (x, b.set i none) := by
      simp [Buf.kill, Buf.rd, List.getElem?_eq_getElem hi, hx]
    have hset : ((b.set i none).drop (i + 1)).take xs.length = xs.map some := by
      rw [List.drop_set_of_lt (by omega)]; exact hxs
    obtain ⟨b', e1, e2, e3, e4⟩ := ih (b.set i none) (log ++ [x]) (i + 1) hset
    refine ⟨b', ?_, by simpa using e2, ?_, ?_⟩
    · simp only [List.length_cons, dropUp, hkill, Option.bind_eq_bind, Option.bind_some]
      rw [e1]; simp
    · have := congrArg (List.take i) e3
      rw [List.take_take, List.take_take, Nat.min_eq_left (Nat.le_succ i)] at this
      rw [this, List.take_set_of_le (Nat.le_refl _)]
    · have e4' : b'.drop (i + (x :: xs).length) = (b.set i none).drop (i + 1 + xs.length) := by
        rw [← e4]; congr 1; simp; omega
      rw [e4', List.drop_set_of_lt (by omega)]
      congr 1; simp; omega

theorem fill_spec (b : Buf α) (x : α) (i k : Nat) (h : i + k ≤ b.length) :
    fill b x i k = some (b.take i ++ List.replicate k (some x) ++ b.drop (i + k)) := by
  induction k generalizing b i with
  | zero => simp [fill]
  | succ k ih =>
    have hi : i < b.length := by omega
    simp only [fill, Buf.wr, hi, if_true, Option.bind_eq_bind, Option.bind_some]
    rw [ih _ _ (by simp; omega)]
    congr 1
    rw [List.take_add_one, List.take_set_of_le (Nat.le_refl _), List.drop_set_of_lt (by omega)]
    simp [hi, List.replicate_succ]
    congr 1; omega

theorem clear_spec {v : Vec α} {l : List α} (h : Rep v l) :
    ∃ v', clear v = some v' ∧ Rep v' [] ∧ v'.dropped = v.dropped ++ l.reverse := by
  unfold clear
  have hs := h.size
  by_cases h0 : v.size = 0
  · have hl : l = [] := List.length_eq_zero_iff.1 (by omega)
    subst hl
    simp [h0, h]
  · have hl : l ≠ [] := by intro h1; simp [h1] at hs; omega
    obtain ⟨b, hd, h1, h2, h3⟩ := h.blk_of_ne hl
    obtain ⟨b', e1, e2⟩ := dropDown_spec b v.dropped l h2
    rw [← hs] at e1
    refine ⟨⟨some b', 0, v.cap, v.dropped ++ l.reverse⟩, by simp [h0, Vec.blk, hd, e1], ?_, rfl⟩
    refine ⟨rfl, by simp, ?_⟩
    intro c hc
    simp at hc; subst hc
    simp [e2, h1, h3]

theorem resize_spec {v : Vec α} {l : List α} (h : Rep v l) (ok : Bool) (len : Nat) (x : α) :
    ∃ v' r, resize ok v len x = some (v', r) ∧
      (r = true → Rep v' (l.take len ++ List.replicate (len - l.length) x) ∧
        v'.dropped = v.dropped ++ l.drop len) ∧
      (r = false → v' = v ∧ (ok = true → len = 0)) := by
  unfold resize
  have hsz := h.size
  have hle := h.le_cap
  obtain ⟨r1, r2, r3, r4, r5⟩ := reserve_spec h ok len
  rcases hr : reserve ok v len with ⟨w, b⟩
  rw [hr] at r1 r2 r3 r4 r5
  simp only at r1 r2 r3 r4 r5
  cases b
  · exact ⟨w, false, rfl, by simp, fun _ => r5 rfl⟩
  · obtain ⟨hc, hnn⟩ := r4 rfl
    cases hd : w.data with
    | none => exact absurd hd hnn
    | some b =>
      obtain ⟨h1, h2, h3⟩ := r1.blk b hd
      have hlb : l.length ≤ b.length := by have := r1.le_cap; omega
      have hdrop : (b.drop len).take (l.drop len).length = (l.drop len).map some := by
        simp only [List.length_drop, List.map_drop]
        rw [← h2, List.drop_take]
      obtain ⟨b', e1, e2, e3, e4⟩ := dropUp_spec b w.dropped len (l.drop len) hdrop
      have hlen : (l.drop len).length = w.size - len := by simp [r1.size]
      rw [hlen, r2] at e1
      have hfill := fill_spec b' x w.size (len - w.size) (by omega)
      have hws := r1.size
      refine ⟨⟨some (b'.take w.size ++ List.replicate (len - w.size) (some x) ++
          b'.drop (w.size + (len - w.size))), len, w.cap, v.dropped ++ l.drop len⟩, true, ?_, ?_, by simp⟩
      · simp only [Vec.blk, hd, e1, hfill, r2, Option.bind_eq_bind, Option.bind_some]
      · intro _
        refine ⟨⟨by simp; omega, by simp, ?_⟩, rfl⟩
        intro c hc'
        simp only [Option.some.injEq] at hc'; subst hc'
        refine ⟨?_, ?_, h3⟩
        · simp [e2]; omega
        · have hl' : (l.take len ++ List.replicate (len - l.length) x).length = len := by
            simp; omega
          rw [hl', hws]
          by_cases hcmp : len ≤ l.length
          · have hz : len - l.length = 0 := by omega
            simp only [hz, List.replicate_zero, List.append_nil, Nat.add_zero]
            rw [List.take_append_of_le_length (by simp; omega), List.take_take,
              Nat.min_eq_left hcmp, e3]
            have : (b.take l.length).take len = (l.map some).take len := by rw [h2]
            rw [List.take_take, Nat.min_eq_left hcmp] at this
            rw [this, List.map_take]
          · have hge : l.length ≤ len := by omega
            have hb' : b'.take l.length = l.map some := by
              have := congrArg (List.take l.length) e3
              rw [List.take_take, List.take_take, Nat.min_eq_left hge] at this
              rw [this, h2]
            rw [hb', List.take_append_of_le_length (by simp; omega), List.take_of_length_le (by simp; omega),
              List.take_of_length_le hge]
            simp

theorem move_spec {b : Buf α} {dst src n : Nat} (h1 : dst + n ≤ b.length)
    (h2 : src + n ≤ b.length) :
    ∃ b', b.move dst src n = some b' ∧ b'.length = b.length ∧
      b'.take (min dst src) = b.take (min dst src) ∧
      (b'.drop dst).take n = (b.drop src).take n := by
  refine ⟨_, by rw [Buf.move, if_pos ⟨h1, h2⟩], ?_, ?_, ?_⟩
  · simp; omega
  · rw [List.append_assoc, List.take_append_of_le_length (by simp; omega), List.take_take,
      List.append_assoc, Nat.min_eq_left (by omega), List.take_append_of_le_length (by simp; omega),
      List.take_take, Nat.min_eq_left (by omega)]
  · rw [List.append_assoc, List.drop_append_of_le_length (by simp; omega),
      List.drop_of_length_le (by simp; omega), List.nil_append,
      List.take_append_of_le_length (by simp; omega), List.take_take, Nat.min_self]

theorem move_open {b : Buf α} {l : List α} {idx n : Nat} (h2 : b.take l.length = l.map some)
    (hidx : idx ≤ l.length) (hn : l.length + n ≤ b.length) :
    ∃ b', b.move (idx + n) idx (l.length - idx) = some b' ∧ b'.length = b.length ∧
      b'.take idx = (l.take idx).map some ∧
      (b'.drop (idx + n)).take (l.length - idx) = (l.drop idx).map some := by
  obtain ⟨b', e1, e2, e3, e4⟩ := move_spec (b := b) (dst := idx + n) (src := idx)
    (n := l.length - idx) (by omega) (by omega)
  refine ⟨b', e1, e2, ?_, ?_⟩
  · rw [Nat.min_eq_right (by omega)] at e3
    have : (b.take l.length).take idx = (l.map some).take idx := by rw [h2]
    rw [List.take_take, Nat.min_eq_left hidx] at this
    rw [e3, this, List.map_take]
  · rw [e4, ← List.drop_take, h2, List.map_drop]

theorem insertUninit_spec {v : Vec α} {l : List α} (h : Rep v l) (ok : Bool) (idx n : Nat)
    (hidx : idx ≤ l.length) :
    ∃ v' r, insertUninit ok v idx n = some (v', r) ∧ v'.dropped = v.dropped ∧
      (r = true → ∃ b, v'.data = some b ∧ b.length = v'.cap ∧ v'.cap ≠ 0 ∧
        v'.size = l.length + n ∧ l.length + n ≤ b.length ∧
        b.take idx = (l.take idx).map some ∧
        (b.drop (idx + n)).take (l.length - idx) = (l.drop idx).map some) ∧
      (r = false → v' = v ∧ (ok = true → n = 0)) := by
  have key : ∀ w : Vec α, Rep w l → w.dropped = v.dropped → l.length + n ≤ w.cap →
      w.data ≠ none →
      ∃ v', (do
        guard (idx ≤ w.size)
        let b ← w.blk
        let b ← b.move (idx + n) idx (w.size - idx)
        some ({ w with data := some b, size := w.size + n }, true)) = some (v', true) ∧
        v'.dropped = v.dropped ∧
        ∃ b, v'.data = some b ∧ b.length = v'.cap ∧ v'.cap ≠ 0 ∧
        v'.size = l.length + n ∧ l.length + n ≤ b.length ∧
        b.take idx = (l.take idx).map some ∧
        (b.drop (idx + n)).take (l.length - idx) = (l.drop idx).map some := by
    intro w hw hdr hlt hnn
    cases hd : w.data with
    | none => exact absurd hd hnn
    | some b =>
      obtain ⟨h1, h2, h3⟩ := hw.blk b hd
      have hs := hw.size
      obtain ⟨b', e1, e2, e3, e4⟩ := move_open h2 hidx (n := n) (by omega)
      rw [← hs] at e1
      refine ⟨⟨some b', w.size + n, w.cap, w.dropped⟩, ?_, hdr, b', rfl, by simp; omega, h3,
        by simp [hs], by omega, e3, e4⟩
      have : idx ≤ w.size := by omega
      simp [Vec.blk, hd, e1, this]
  unfold insertUninit
  have hsz := h.size
  have hle := h.le_cap
  by_cases hc : v.size + n ≥ v.cap
  · rw [if_pos hc]
    obtain ⟨r1, r2, r3, r4, r5⟩ := reserve_spec h ok (v.size * 3 / 2 + n)
    rcases hr : reserve ok v (v.size * 3 / 2 + n) with ⟨w, b⟩
    rw [hr] at r1 r2 r3 r4 r5
    simp only at r1 r2 r3 r4 r5
    cases b
    · refine ⟨w, false, rfl, r2, by simp, fun _ => ⟨(r5 rfl).1, fun ho => ?_⟩⟩
      have := (r5 rfl).2 ho; omega
    · obtain ⟨v', e1, e2, e3⟩ := key w r1 r2 (by have := (r4 rfl).1; omega) (r4 rfl).2
      exact ⟨v', true, e1, e2, fun _ => e3, by simp⟩
  · rw [if_neg hc]
    have hnn : v.data ≠ none := by
      intro hn; have := (h.null hn).1; omega
    obtain ⟨v', e1, e2, e3⟩ := key v h rfl (by omega) hnn
    exact ⟨v', true, e1, e2, fun _ => e3, by simp⟩

theorem insertN_spec {v : Vec α} {l : List α} (h : Rep v l) (ok : Bool) (idx : Nat) (arr : List α)
    (hidx : idx ≤ l.length) :
    ∃ v' r, insertN ok v idx arr = some (v', r) ∧ v'.dropped = v.dropped ∧
      (r = true → Rep v' (l.take idx ++ arr ++ l.drop idx)) ∧
      (r = false → v' = v ∧ (ok = true → arr = [])) := by
  obtain ⟨w, r, e1, e2, e3, e4⟩ := insertUninit_spec h ok idx arr.length hidx
  unfold insertN
  cases r
  · refine ⟨w, false, by simp [e1], e2, by simp, fun _ => ⟨(e4 rfl).1, fun ho => ?_⟩⟩
    exact List.length_eq_zero_iff.1 ((e4 rfl).2 ho)
  · obtain ⟨b, hb, h1, h3, h4, h5, h6, h7⟩ := e3 rfl
    refine ⟨⟨some (b.take idx ++ arr.map some ++ b.drop (idx + arr.length)), w.size, w.cap, w.dropped⟩,
      true, ?_, e2, fun _ => ?_, by simp⟩
    · have : idx + arr.length ≤ b.length := by omega
      simp [e1, Vec.blk, hb, Buf.cpy, this]
    · refine ⟨?_, by simp, ?_⟩
      · simp [h4]; omega
      · intro c hc
        simp only [Option.some.injEq] at hc; subst hc
        refine ⟨by simp; omega, ?_, h3⟩
        have hl' : (l.take idx ++ arr ++ l.drop idx).length = idx + arr.length + (l.length - idx) := by
          simp; omega
        rw [hl', List.take_append, List.take_of_length_le (by simp; omega)]
        have : idx + arr.length + (l.length - idx) - (b.take idx ++ arr.map some).length = l.length - idx := by
          simp; omega
        rw [this, h6, h7]
        simp

theorem eraseN_spec {v : Vec α} {l : List α} (h : Rep v l) (idx n : Nat)
    (hidx : idx + n ≤ l.length) (hne : l ≠ []) :
    ∃ v' r, eraseN v idx n = some (v', r) ∧ Rep v' (l.take idx ++ l.drop (idx + n)) ∧
      v'.dropped = v.dropped ++ (l.drop idx).take n ∧
      r = if idx + n = l.length then none else some idx := by
  unfold eraseN
  have hsz := h.size
  obtain ⟨b, hd, h1, h2, h3⟩ := h.blk_of_ne hne
  have hle := h.le_cap
  have hm : (b.drop idx).take ((l.drop idx).take n).length = ((l.drop idx).take n).map some := by
    have hl : ((l.drop idx).take n).length = n := by simp; omega
    rw [hl]
    have : (b.take l.length).drop idx = (l.map some).drop idx := by rw [h2]
    rw [List.drop_take] at this
    rw [List.map_take, List.map_drop, ← this, List.take_take, Nat.min_eq_left (by omega)]
  obtain ⟨b', e1, e2, e3, e4⟩ := dropUp_spec b v.dropped idx ((l.drop idx).take n) hm
  have hl : ((l.drop idx).take n).length = n := by simp; omega
  rw [hl] at e1 e4
  have hg : idx + n ≤ v.size := by omega
  obtain ⟨b2, f1, f2, f3, f4⟩ := move_spec (b := b') (dst := idx) (src := idx + n)
    (n := v.size - (idx + n)) (by omega) (by omega)
  refine ⟨⟨some b2, v.size - n, v.cap, v.dropped ++ (l.drop idx).take n⟩,
      _, ?_, ?_, rfl, rfl⟩
  · rw [guard_pos hg]
    simp only [Vec.blk, hd, e1, f1, Option.bind_eq_bind, Option.bind_some]
    rw [hsz]
  · refine ⟨by simp; omega, by simp, ?_⟩
    intro c hc
    simp only [Option.some.injEq] at hc; subst hc
    refine ⟨by simp; omega, ?_, h3⟩
    have hl' : (l.take idx ++ l.drop (idx + n)).length = idx + (l.length - (idx + n)) := by
      simp; omega
    have h5 : b'.take idx = (l.take idx).map some := by
      have : (b.take l.length).take idx = (l.map some).take idx := by rw [h2]
      rw [List.take_take, Nat.min_eq_left (by omega)] at this
      rw [e3, this, List.map_take]
    have h6 : (b'.drop (idx + n)).take (v.size - (idx + n)) = (l.drop (idx + n)).map some := by
      rw [e4, hsz, ← List.drop_take, h2, List.map_drop]
    rw [Nat.min_eq_left (by omega)] at f3
    rw [hl', List.take_add, f3, h5, ← hsz, f4, h6]
    simp

theorem each_aux {v : Vec α} {b : Buf α} {l : List α} (hd : v.data = some b)
    (h2 : b.take l.length = l.map some) (k i fuel : Nat) (hk : i + k = l.length) (hk0 : 0 < k)
    (hf : k ≤ fuel) : eachFrom v fuel ⟨some i, l.length⟩ = some (l.drop i) := by
  induction k generalizing i fuel with
  | zero => omega
  | succ k ih =>
    obtain ⟨f, rfl⟩ : ∃ f, fuel = f + 1 := ⟨fuel - 1, by omega⟩
    have hi : i < l.length := by omega
    have hdrop : l.drop i = l[i] :: l.drop (i + 1) := List.drop_eq_getElem_cons hi
    simp only [eachFrom, Vec.blk, hd, Buf.rd_of_take h2 hi, Option.bind_eq_bind, Option.bind_some,
      List.getElem?_eq_getElem hi, next]
    by_cases hl : i + 1 = l.length
    · rw [if_pos hl]
      have : eachFrom v f ⟨none, l.length⟩ = some [] := by cases f <;> simp [eachFrom]
      rw [this, hdrop, hl]
      simp
    · rw [if_neg hl, ih (i + 1) f (by omega) (by omega) (by omega), hdrop]
      simp

theorem rev_aux {v : Vec α} {b : Buf α} {l : List α} (hd : v.data = some b)
    (h2 : b.take l.length = l.map some) (k fuel : Nat) (hk : k < l.length)
    (hf : k + 1 ≤ fuel) : revFrom v fuel (some (k : Int)) = some (l.take (k + 1)).reverse := by
  induction k generalizing fuel with
  | zero =>
    obtain ⟨f, rfl⟩ : ∃ f, fuel = f + 1 := ⟨fuel - 1, by omega⟩
    have : revFrom v f none = some [] := by cases f <;> simp [revFrom]
    simp [revFrom, Vec.blk, hd, Buf.rd_of_take h2 hk, List.getElem?_eq_getElem hk, this,
      List.take_add_one]
  | succ k ih =>
    obtain ⟨f, rfl⟩ : ∃ f, fuel = f + 1 := ⟨fuel - 1, by omega⟩
    have h3 : ¬ (((k + 1 : Nat) : Int) < 0) := by omega
    have h4 : ¬ ((k : Int) = -1) := by omega
    have h5 : ((k + 1 : Nat) : Int) - 1 = (k : Int) := by omega
    simp only [revFrom, Vec.blk, hd, Option.bind_eq_bind, Option.bind_some, if_neg h3, if_neg h4,
      Int.toNat_natCast, Buf.rd_of_take h2 hk, List.getElem?_eq_getElem hk, h5]
    rw [ih f (by omega) (by omega)]
    have h6 : l.take (k + 1 + 1) = l.take (k + 1) ++ [l[k + 1]] := by
      rw [List.take_add_one]; simp [List.getElem?_eq_getElem hk]
    rw [h6, List.reverse_append]
    rfl

theorem findFrom_spec {v : Vec α} {b : Buf α} {l : List α} (eq : α → α → Bool) (raw : α)
    (hd : v.data = some b) (h2 : b.take l.length = l.map some) (k i : Nat)
    (hk : i + k = l.length) :
    findFrom v eq raw i k = some (((l.drop i).findIdx? (eq raw)).map (i + ·)) := by
  induction k generalizing i with
  | zero =>
    have : l.drop i = [] := List.drop_of_length_le (by omega)
    simp [findFrom, this]
  | succ k ih =>
    have hi : i < l.length := by omega
    have hdrop : l.drop i = l[i] :: l.drop (i + 1) := List.drop_eq_getElem_cons hi
    simp only [findFrom, Vec.blk, hd, Buf.rd_of_take h2 hi, Option.bind_eq_bind, Option.bind_some,
      List.getElem?_eq_getElem hi]
    rw [hdrop, List.findIdx?_cons, ih (i + 1) (by omega)]
    by_cases he : eq raw l[i] = true
    · simp [he]
    · simp only [he, if_false, Bool.false_eq_true]
      congr 1
      cases List.findIdx? (eq raw) (List.drop (i + 1) l) <;> simp
      omega

theorem eqFrom_spec {v w : Vec α} {b c : Buf α} {l m : List α} (eq : α → α → Bool)
    (hd : v.data = some b) (h2 : b.take l.length = l.map some)
    (hd' : w.data = some c) (h2' : c.take m.length = m.map some) (hlm : l.length = m.length)
    (k i : Nat) (hk : i + k = l.length) :
    ∃ r, eqFrom v w eq i k = some r ∧
      (r = true ↔ ∀ j, i ≤ j → (hj : j < l.length) → eq l[j] (m[j]'(by omega)) = true) := by
  induction k generalizing i with
  | zero => exact ⟨true, rfl, by simp; intros; omega⟩
  | succ k ih =>
    have hi : i < l.length := by omega
    have hi' : i < m.length := by omega
    simp only [eqFrom, Vec.blk, hd, hd', Buf.rd_of_take h2 hi, Buf.rd_of_take h2' hi',
      Option.bind_eq_bind, Option.bind_some,
      List.getElem?_eq_getElem hi, List.getElem?_eq_getElem hi']
    by_cases he : eq l[i] m[i] = true
    · rw [if_pos he]
      obtain ⟨r, e1, e2⟩ := ih (i + 1) (by omega)
      refine ⟨r, e1, e2.trans ⟨fun h j hij hj => ?_, fun h j hij hj => h j (by omega) hj⟩⟩
      rcases Nat.lt_or_ge i j with h' | h'
      · exact h j h' hj
      · have : j = i := by omega
        subst this; exact he
    · rw [if_neg he]
      exact ⟨false, rfl, by simp; exact ⟨i, Nat.le_refl _, hi, by simpa using he⟩⟩

theorem at_spec {v : Vec α} {l : List α} (h : Rep v l) (i : Nat) : at' v i = l[i]? := by
  unfold at'
  have hs := h.size
  by_cases hi : i < l.length
  · obtain ⟨b, hd, h1, h2, h3⟩ := h.blk_of_ne (by intro h0; simp [h0] at hi)
    rw [guard_pos (by omega)]
    simp [Vec.blk, hd, Buf.rd_of_take h2 hi]
  · have : ¬ i < v.size := by omega
    simp [this]; omega

theorem setAt_spec {v : Vec α} {l : List α} (h : Rep v l) {i : Nat} (hi : i < l.length) (x : α) :
    ∃ v', setAt v i x = some v' ∧ Rep v' (l.set i x) ∧ v'.dropped = v.dropped := by
  have hs := h.size
  obtain ⟨b, hd, h1, h2, h3⟩ := h.blk_of_ne (by intro h0; simp [h0] at hi)
  have hle := h.le_cap
  refine ⟨⟨some (b.set i (some x)), v.size, v.cap, v.dropped⟩, ?_, ⟨by simp [hs], by simp, ?_⟩, rfl⟩
  · unfold setAt
    rw [guard_pos (by omega)]
    have : i < b.length := by omega
    simp [Vec.blk, hd, Buf.wr, this]
  · intro c hc
    simp only [Option.some.injEq] at hc; subst hc
    refine ⟨by simpa using h1, ?_, h3⟩
    rw [List.length_set, List.take_set, h2, List.map_set]

theorem readUp_spec {b : Buf α} {l : List α} (h2 : b.take l.length = l.map some) (k i : Nat)
    (hk : i + k = l.length) : readUp b i k = some (l.drop i) := by
  induction k generalizing i with
  | zero => simp [readUp, List.drop_of_length_le (show l.length ≤ i by omega)]
  | succ k ih =>
    have hi : i < l.length := by omega
    simp [readUp, Buf.rd_of_take h2 hi, List.getElem?_eq_getElem hi, ih (i + 1) (by omega)]

/-- One call, every outcome. -/
theorem step_spec {v : Vec α} {l : List α} (h : Rep v l) (o : Op α) (hv : Spec.valid l o) :
    ∃ v' r, step v o = some (v', r) ∧ Rep v' (Spec.after l r.ok o) ∧ r.out = Spec.out l o ∧
      v'.dropped = v.dropped ++ Spec.destroyed l r.ok o ∧
      (r.ok = false → v' = v ∧ (Spec.allocOk o = true → Spec.vacuous o)) := by
  cases o with
  | push ok x =>
    obtain ⟨v', r, e1, e2, e3, e4⟩ := push_spec h ok x
    refine ⟨v', ⟨r, none⟩, by simp [step, e1], ?_, rfl, by simp [Spec.destroyed, e2], ?_⟩
    · cases r
      · simpa [Spec.after, (e4 rfl).1] using h
      · simpa [Spec.after] using e3 rfl
    · intro hr
      obtain ⟨a, b⟩ := e4 hr
      exact ⟨a, by simp [Spec.allocOk, b]⟩
  | pop =>
    obtain ⟨v', e1, e2, e3⟩ := pop_spec h hv
    refine ⟨v', ⟨true, none⟩, by simp [step, e1], by simpa [Spec.after] using e2, rfl, ?_, by simp⟩
    simp [Spec.destroyed, e3, List.getLast?_eq_some_getLast hv]
  | pull =>
    obtain ⟨v', e1, e2, e3⟩ := pull_spec h hv
    refine ⟨v', ⟨true, some _⟩, by simp only [step, e1]; rfl, by simpa [Spec.after] using e2, ?_, ?_, by simp⟩
    · simp [Spec.out, List.getLast?_eq_some_getLast hv]
    · simp [Spec.destroyed, e3]
  | insertN ok idx arr =>
    obtain ⟨v', r, e1, e2, e3, e4⟩ := insertN_spec h ok idx arr hv
    refine ⟨v', ⟨r, none⟩, by simp [step, e1], ?_, rfl, by simp [Spec.destroyed, e2], ?_⟩
    · cases r
      · simpa [Spec.after, (e4 rfl).1] using h
      · simpa [Spec.after] using e3 rfl
    · intro hr
      exact e4 hr
  | eraseN idx n =>
    obtain ⟨v', r, e1, e2, e3, e4⟩ := eraseN_spec h idx n hv.1 hv.2
    exact ⟨v', ⟨true, none⟩, by simp [step, e1], by simpa [Spec.after] using e2, rfl,
      by simp [Spec.destroyed, e3], by simp⟩
  | resize ok len x =>
    obtain ⟨v', r, e1, e3, e4⟩ := resize_spec h ok len x
    refine ⟨v', ⟨r, none⟩, by simp [step, e1], ?_, rfl, ?_, fun hr => e4 hr⟩
    · cases r
      · simpa [Spec.after, (e4 rfl).1] using h
      · simpa [Spec.after] using (e3 rfl).1
    · cases r
      · simp [Spec.destroyed, (e4 rfl).1]
      · simpa [Spec.destroyed] using (e3 rfl).2
  | reserve ok cap =>
    obtain ⟨r1, r2, r3, r4, r5⟩ := reserve_spec h ok cap
    exact ⟨(reserve ok v cap).1, ⟨(reserve ok v cap).2, none⟩, rfl, by simpa [Spec.after] using r1, rfl,
      by simp [Spec.destroyed, r2], fun hr => r5 hr⟩
  | shrinkToFit ok =>
    obtain ⟨r1, r2, r3, r4, r5⟩ := reserve_spec h ok v.size
    exact ⟨(reserve ok v v.size).1, ⟨true, none⟩, rfl, by simpa [Spec.after] using r1, rfl,
      by simp [Spec.destroyed, r2], by simp⟩
  | clear =>
    obtain ⟨v', e1, e2, e3⟩ := clear_spec h
    exact ⟨v', ⟨true, none⟩, by simp [step, e1], by simpa [Spec.after] using e2, rfl,
      by simp [Spec.destroyed, e3], by simp⟩
  | replace i x =>
    obtain ⟨v', e1, e2, e3⟩ := setAt_spec h hv x
    have hv' : i < l.length := hv
    refine ⟨v', ⟨true, l[i]?⟩, ?_, by simpa [Spec.after] using e2, rfl,
      by simp [Spec.destroyed, e3], by simp⟩
    simp [step, at_spec h, e1, List.getElem?_eq_getElem hv']

theorem reach_rep {v : Vec α} {l ent outs : List α} (h : Spec.Reach v l ent outs) : Rep v l := by
  induction h with
  | init => exact rep_init
  | call _ hv hs ih =>
    obtain ⟨v', r, e1, e2, _⟩ := step_spec ih _ hv
    rw [hs] at e1
    simp only [Option.some.injEq, Prod.mk.injEq] at e1
    obtain ⟨rfl, rfl⟩ := e1
    exact e2

/-- Elements are neither lost nor duplicated by one call. -/
theorem balance (l : List α) (ok : Bool) (o : Op α) (hv : Spec.valid l o) :
    (Spec.after l ok o ++ (Spec.out l o).toList ++ Spec.destroyed l ok o).Perm
      (l ++ Spec.entered l ok o) := by
  cases o with
  | push ok' x => cases ok <;> simp [Spec.after, Spec.out, Spec.destroyed, Spec.entered]
  | pop =>
    have := List.dropLast_concat_getLast (l := l) hv
    simp [Spec.after, Spec.out, Spec.destroyed, Spec.entered, List.getLast?_eq_some_getLast hv, this]
  | pull =>
    have := List.dropLast_concat_getLast (l := l) hv
    simp [Spec.after, Spec.out, Spec.destroyed, Spec.entered, List.getLast?_eq_some_getLast hv, this]
  | insertN ok' idx arr =>
    cases ok <;> simp [Spec.after, Spec.out, Spec.destroyed, Spec.entered]
    conv => rhs; rw [← List.take_append_drop idx l]
    rw [List.append_assoc]
    exact List.Perm.append_left _ List.perm_append_comm
  | eraseN idx n =>
    simp [Spec.after, Spec.out, Spec.destroyed, Spec.entered]
    conv => rhs; rw [← List.take_append_drop idx l, ← List.take_append_drop n (l.drop idx)]
    rw [List.drop_drop]
    exact List.Perm.append_left _ List.perm_append_comm
  | resize ok' len x =>
    cases ok <;> simp [Spec.after, Spec.out, Spec.destroyed, Spec.entered]
    conv => rhs; rw [← List.take_append_drop len l]
    rw [List.append_assoc, List.take_append_drop]
    exact List.Perm.append_left _ List.perm_append_comm
  | reserve ok' cap => simp [Spec.after, Spec.out, Spec.destroyed, Spec.entered]
  | shrinkToFit ok' => simp [Spec.after, Spec.out, Spec.destroyed, Spec.entered]
  | clear =>
    simp [Spec.after, Spec.out, Spec.destroyed, Spec.entered, List.reverse_perm]
  | replace i x =>
    have hv' : i < l.length := hv
    simp only [Spec.after, Spec.out, Spec.destroyed, Spec.entered, List.getElem?_eq_getElem hv',
      Option.toList, List.append_nil]
    rw [List.set_eq_take_append_cons_drop, if_pos hv']
    have hl : l = l.take i ++ l[i] :: l.drop (i + 1) := by
      rw [← List.drop_eq_getElem_cons hv', List.take_append_drop]
    conv => rhs; rw [hl]
    rw [List.append_assoc, List.append_assoc]
    refine List.Perm.append_left _ ?_
    simp only [List.cons_append]
    refine (List.Perm.cons x List.perm_append_comm).trans ?_
    simp only [List.cons_append, List.nil_append]
    refine (List.Perm.swap _ _ _).trans (List.Perm.cons _ ?_)
    exact (List.perm_append_singleton x _).symm

end Verif.Vec
