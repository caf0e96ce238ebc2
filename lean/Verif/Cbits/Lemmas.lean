import Verif.Cbits.Spec
import Verif.Base
import Mathlib.Tactic.NormNum
namespace Verif.Cbits
open Spec

theorem getLsbD_bit (i j : Nat) : (bit i).getLsbD j = decide (i % 64 = j) := by
  have : i % 64 < 64 := Nat.mod_lt _ (by omega)
  rw [bit, ← BitVec.twoPow_eq, BitVec.getLsbD_twoPow]
  simp [this]

theorem test_word (w : BitVec 64) (i : Nat) : ((w &&& bit i) != 0#64) = w.getLsbD (i % 64) := by
  have : i % 64 < 64 := Nat.mod_lt _ (by omega)
  rw [bit, ← BitVec.twoPow_eq, BitVec.and_twoPow]
  by_cases h : w.getLsbD (i % 64)
  · rw [if_pos h, h]
    simp only [bne_iff_ne, ne_eq]
    intro h0
    have := congrArg (fun v => v.getLsbD (i % 64)) h0
    simp [BitVec.getLsbD_twoPow, Nat.mod_lt] at this
  · rw [if_neg h]; simp at h; simp [h]

theorem getLsbD_mask (i j : Nat) (hj : j < 64) : (bit i - 1#64).getLsbD j = decide (j < i % 64) := by
  have hi : i % 64 < 64 := Nat.mod_lt _ (by omega)
  have h1 : (bit i - 1#64).toNat = 2 ^ (i % 64) - 1 := by
    rw [bit, ← BitVec.twoPow_eq, BitVec.toNat_sub, BitVec.toNat_twoPow_eq_ite, if_pos hi]
    have h2 : 2 ^ (i % 64) < 2 ^ 64 := Nat.pow_lt_pow_right (by omega) hi
    have h3 : 0 < 2 ^ (i % 64) := Nat.pow_pos (by omega)
    simp only [BitVec.toNat_ofNat]
    omega
  rw [BitVec.getLsbD, h1, Nat.testBit_two_pow_sub_one]

theorem getLsbD_fill (v : Bool) (j : Nat) (hj : j < 64) : (fillWord v).getLsbD j = v := by
  cases v
  · simp [fillWord]
  · rw [fillWord, if_pos rfl, BitVec.getLsbD_allOnes]; simp [hj]

theorem bitOf_eq {s : Bits} {i : Nat} {w : BitVec 64} (h : s.words[i / 64]? = some w) :
    bitOf s i = w.getLsbD (i % 64) := by
  simp [bitOf, h]

theorem word_exists {s : Bits} (h : WF s) {i : Nat} (hi : i < s.size) :
    ∃ w, s.words[i / 64]? = some w := by
  have : i / 64 < s.words.length := by rw [h, nWords]; omega
  exact ⟨_, List.getElem?_eq_getElem this⟩

theorem length_bitsOf (s : Bits) : (bitsOf s).length = s.size := by simp [bitsOf]

theorem getElem?_bitsOf (s : Bits) (i : Nat) (h : i < s.size) : (bitsOf s)[i]? = some (bitOf s i) := by
  simp [bitsOf, h]

theorem bitsOf_eq {s : Bits} {bs : List Bool} (hl : s.size = bs.length)
    (h : ∀ i b, i < s.size → bs[i]? = some b → bitOf s i = b) : bitsOf s = bs := by
  apply List.ext_getElem (by simp [bitsOf, hl])
  intro i h1 h2
  have h3 : i < s.size := by rw [hl]; exact h2
  rw [← h i bs[i] h3 (List.getElem?_eq_getElem h2)]
  simp [bitsOf]

theorem test_spec {s : Bits} (h : WF s) {i : Nat} (hi : i < s.size) : test s i = some (bitOf s i) := by
  obtain ⟨w, hw⟩ := word_exists h hi
  simp only [test, hw, Option.bind_eq_bind, Option.bind_some, test_word, bitOf_eq hw]

theorem upd_spec {s : Bits} (h : WF s) {i : Nat} (hi : i < s.size) (f : BitVec 64 → BitVec 64) (b : Bool)
    (hf : ∀ w j, j < 64 → (f w).getLsbD j = if j = i % 64 then (if b then true else false) else w.getLsbD j) :
    ∃ s', upd s (i / 64) f = some s' ∧ WF s' ∧ s'.size = s.size ∧ bitsOf s' = (bitsOf s).set i b := by
  obtain ⟨w, hw⟩ := word_exists h hi
  have hlen := (List.getElem?_eq_some_iff.1 hw).1
  refine ⟨⟨s.words.set (i / 64) (f w), s.size⟩, by simp [upd, hw], by simpa [WF] using h, rfl, ?_⟩
  apply bitsOf_eq (by simp [bitsOf])
  intro j c hj hc
  have hmod : j % 64 < 64 := Nat.mod_lt _ (by omega)
  rw [List.getElem?_set] at hc
  by_cases hji : j / 64 = i / 64
  · rw [bitOf_eq (w := f w) (by simp [hji, hlen]), hf w _ hmod]
    by_cases hm : j % 64 = i % 64
    · have : i = j := by omega
      rw [if_pos this, if_pos (by simpa [bitsOf] using hi)] at hc
      rw [if_pos hm]; cases hc; simp
    · have : i ≠ j := by rintro rfl; exact hm rfl
      rw [if_neg this, getElem?_bitsOf s j hj] at hc
      rw [if_neg hm]; cases hc
      rw [bitOf_eq (w := w) (by rw [hji]; exact hw)]
  · have : i ≠ j := by rintro rfl; exact hji rfl
    rw [if_neg this, getElem?_bitsOf s j hj] at hc
    cases hc
    simp [bitOf, List.getElem?_set_ne (Ne.symm hji)]

theorem downLoop_spec (f : Nat → BitVec 64 → Option (BitVec 64)) (g : Nat → BitVec 64 → BitVec 64) :
    ∀ (n : Nat) (ws : List (BitVec 64)), n ≤ ws.length → (∀ k w, k < n → f k w = some (g k w)) →
      ∃ ws', downLoop f n ws = some ws' ∧ ws'.length = ws.length ∧
        ∀ k w, ws[k]? = some w → ws'[k]? = some (if k < n then g k w else w) := by
  intro n
  induction n with
  | zero => intro ws _ _; exact ⟨ws, rfl, rfl, fun k w h => by simpa using h⟩
  | succ n ih =>
    intro ws hn hf
    have hw : ws[n]? = some ws[n] := List.getElem?_eq_getElem (by omega)
    generalize ws[n] = w at hw
    obtain ⟨ws', e, hl, hg⟩ := ih (ws.set n (g n w)) (by simp; omega) (fun k w hk => hf k w (by omega))
    refine ⟨ws', ?_, by simpa using hl, ?_⟩
    · simp only [downLoop, hw, Option.bind_eq_bind, Option.bind_some, hf n w (by omega), e]
    · intro k v hv
      by_cases hk : k = n
      · subst hk
        rw [hw] at hv; cases hv
        have := hg k (g k w) (List.getElem?_set_self (by omega))
        rw [this]; simp
      · have := hg k v (by rw [List.getElem?_set_ne (by omega)]; exact hv)
        rw [this]
        by_cases hk2 : k < n
        · rw [if_pos hk2, if_pos (by omega)]
        · rw [if_neg hk2, if_neg (by omega)]

theorem loop_spec {s : Bits} (h : WF s) (f : Nat → BitVec 64 → Option (BitVec 64))
    (g : Nat → BitVec 64 → BitVec 64) (hf : ∀ k w, k < nWords s.size → f k w = some (g k w)) (bs : List Bool)
    (hbs : bs.length = s.size)
    (hg : ∀ i w b, i < s.size → s.words[i / 64]? = some w → bs[i]? = some b →
      (g (i / 64) w).getLsbD (i % 64) = b) :
    ∃ ws, downLoop f (nWords s.size) s.words = some ws ∧ WF ⟨ws, s.size⟩ ∧ bitsOf ⟨ws, s.size⟩ = bs := by
  obtain ⟨ws, e, hl, hw⟩ := downLoop_spec f g (nWords s.size) s.words (by rw [h]) hf
  refine ⟨ws, e, by simp only [WF]; rw [hl]; exact h, ?_⟩
  apply bitsOf_eq (by simp [hbs])
  intro i b hi hb
  obtain ⟨w, hw'⟩ := word_exists h hi
  have := hw _ _ hw'
  rw [if_pos (by dsimp only at hi; rw [nWords]; omega)] at this
  rw [bitOf_eq this]
  exact hg i w b hi hw' hb

theorem wf_fresh (junk : Nat → BitVec 64) (n : Nat) : WF (fresh junk n) := by simp [WF, fresh]

theorem combine_spec {s o : Bits} (h : WF s) (ho : WF o) (hs : o.size = s.size)
    (op : BitVec 64 → BitVec 64 → BitVec 64) (bop : Bool → Bool → Bool)
    (hop : ∀ x y j, j < 64 → (op x y).getLsbD j = bop (x.getLsbD j) (y.getLsbD j)) :
    ∃ s', combine op s o = some s' ∧ WF s' ∧ s'.size = s.size ∧
      bitsOf s' = List.zipWith bop (bitsOf s) (bitsOf o) := by
  have hlen : o.words.length = nWords s.size := by rw [← hs]; exact ho
  obtain ⟨ws, e, h1, h2⟩ := loop_spec h (fun n w => do let v ← o.words[n]?; some (op w v))
    (fun n w => op w (o.words.getD n 0#64)) (by
      intro k w hk
      have : o.words[k]? = some o.words[k] := List.getElem?_eq_getElem (by omega)
      simp [this]) (List.zipWith bop (bitsOf s) (bitsOf o)) (by simp [length_bitsOf, hs]) (by
      intro i w b hi hw hb
      rw [List.getElem?_zipWith, getElem?_bitsOf s i hi, getElem?_bitsOf o i (by omega)] at hb
      cases hb
      rw [hop _ _ _ (Nat.mod_lt _ (by omega)), bitOf_eq hw]
      rfl)
  refine ⟨⟨ws, s.size⟩, ?_, h1, rfl, h2⟩
  unfold combine
  rw [if_pos hs.symm, e]; rfl

theorem setAll_spec {s : Bits} (h : WF s) (v : Bool) :
    ∃ s', setAll s v = some s' ∧ WF s' ∧ s'.size = s.size ∧ bitsOf s' = List.replicate s.size v := by
  obtain ⟨ws, e, h1, h2⟩ := loop_spec h (fun _ _ => some (fillWord v)) (fun _ _ => fillWord v)
    (fun _ _ _ => rfl) (List.replicate s.size v) (by simp) (by
      intro i w b hi _ hb
      rw [List.getElem?_replicate, if_pos hi] at hb; cases hb
      exact getLsbD_fill v _ (Nat.mod_lt _ (by omega)))
  exact ⟨⟨ws, s.size⟩, by simp only [setAll, e, Option.bind_eq_bind, Option.bind_some], h1, rfl, h2⟩

theorem setPattern_spec {s : Bits} (h : WF s) (p : BitVec 64) :
    ∃ s', setPattern s p = some s' ∧ WF s' ∧ s'.size = s.size ∧
      bitsOf s' = (List.range s.size).map fun i => p.getLsbD (i % 64) := by
  obtain ⟨ws, e, h1, h2⟩ := loop_spec h (fun _ _ => some p) (fun _ _ => p)
    (fun _ _ _ => rfl) ((List.range s.size).map fun i => p.getLsbD (i % 64)) (by simp) (by
      intro i w b hi _ hb
      rw [List.getElem?_map, List.getElem?_range hi] at hb
      simpa using hb)
  exact ⟨⟨ws, s.size⟩, by simp only [setPattern, e, Option.bind_eq_bind, Option.bind_some], h1, rfl, h2⟩

theorem flipAll_spec {s : Bits} (h : WF s) :
    ∃ s', flipAll s = some s' ∧ WF s' ∧ s'.size = s.size ∧ bitsOf s' = (bitsOf s).map (!·) := by
  obtain ⟨ws, e, h1, h2⟩ := loop_spec h (fun _ w => some (w ^^^ ~~~ 0#64)) (fun _ w => w ^^^ ~~~ 0#64)
    (fun _ _ _ => rfl) ((bitsOf s).map (!·)) (by simp [length_bitsOf]) (by
      intro i w b hi hw hb
      have hm : i % 64 < 64 := Nat.mod_lt _ (by omega)
      rw [List.getElem?_map, getElem?_bitsOf s i hi] at hb
      simp only [Option.map_some, Option.some.injEq] at hb
      rw [← hb, bitOf_eq hw, BitVec.getLsbD_xor, BitVec.getLsbD_not]
      simp [hm])
  exact ⟨⟨ws, s.size⟩, by simp only [flipAll, e, Option.bind_eq_bind, Option.bind_some], h1, rfl, h2⟩

theorem set_spec {s : Bits} (h : WF s) {i : Nat} (hi : i < s.size) :
    ∃ s', set s i = some s' ∧ WF s' ∧ s'.size = s.size ∧ bitsOf s' = (bitsOf s).set i true :=
  upd_spec h hi _ true (fun w j hj => by
    rw [BitVec.getLsbD_or, getLsbD_bit]
    by_cases hm : j = i % 64
    · subst hm; simp
    · simp [hm, Ne.symm hm])

theorem reset_spec {s : Bits} (h : WF s) {i : Nat} (hi : i < s.size) :
    ∃ s', reset s i = some s' ∧ WF s' ∧ s'.size = s.size ∧ bitsOf s' = (bitsOf s).set i false :=
  upd_spec h hi _ false (fun w j hj => by
    rw [BitVec.getLsbD_and, BitVec.getLsbD_not, getLsbD_bit]
    by_cases hm : j = i % 64
    · subst hm; simp
    · simp [hm, Ne.symm hm, hj])

theorem setValue_spec {s : Bits} (h : WF s) {i : Nat} (hi : i < s.size) (b : Bool) :
    ∃ s', setValue s i b = some s' ∧ WF s' ∧ s'.size = s.size ∧ bitsOf s' = (bitsOf s).set i b :=
  upd_spec h hi _ b (fun w j hj => by
    rw [BitVec.getLsbD_xor, BitVec.getLsbD_and, BitVec.getLsbD_xor, getLsbD_bit, getLsbD_fill b j hj]
    by_cases hm : j = i % 64
    · subst hm; cases b <;> simp
    · simp [hm, Ne.symm hm])

theorem flip_spec {s : Bits} (h : WF s) {i : Nat} (hi : i < s.size) :
    ∃ s', flip s i = some s' ∧ WF s' ∧ s'.size = s.size ∧ bitsOf s' = (bitsOf s).modify i (!·) := by
  obtain ⟨w, hw⟩ := word_exists h hi
  have hlen := (List.getElem?_eq_some_iff.1 hw).1
  refine ⟨⟨s.words.set (i / 64) (w ^^^ bit i), s.size⟩, by simp [flip, upd, hw], by simpa [WF] using h, rfl, ?_⟩
  apply bitsOf_eq (by simp [bitsOf])
  intro j c hj hc
  rw [List.getElem?_modify, getElem?_bitsOf s j hj] at hc
  by_cases hji : j / 64 = i / 64
  · rw [bitOf_eq (w := w ^^^ bit i) (by simp [hji, hlen]), BitVec.getLsbD_xor, getLsbD_bit]
    rw [bitOf_eq (w := w) (by rw [hji]; exact hw)] at hc
    by_cases hm : i % 64 = j % 64
    · have : i = j := by omega
      simp [this] at hc; simp [hm, hc]
    · have : i ≠ j := by rintro rfl; exact hm rfl
      simp [this] at hc; rw [← hc]; simp [hm]
  · have : i ≠ j := by rintro rfl; exact hji rfl
    simp [this] at hc
    rw [← hc]
    simp [bitOf, List.getElem?_set_ne (Ne.symm hji)]

theorem resize_spec {s : Bits} (h : WF s) (ok : Bool) (junk : Nat → BitVec 64) {n : Nat} (hn : 0 < n) (v : Bool) :
    ∃ s', resize ok junk s n v = some (s', ok) ∧ WF s' ∧
      (ok = false → s' = s) ∧
      (ok = true → bitsOf s' = (bitsOf s).take n ++ List.replicate (n - s.size) v) := by
  cases ok with
  | false => exact ⟨s, by simp [resize]; omega, h, fun _ => rfl, by simp⟩
  | true =>
    have h' : s.words.length = nWords s.size := h
    have hl : (s.words.take (nWords n) ++ (List.range (nWords n - s.words.length)).map junk).length = nWords n := by
      simp; omega
    have hget : ∀ i, i < n → i < s.size →
        (s.words.take (nWords n) ++ (List.range (nWords n - s.words.length)).map junk)[i / 64]? = s.words[i / 64]? := by
      intro i h1 h2
      have h3 : i / 64 < nWords n := by rw [nWords]; omega
      have h4 : i / 64 < s.words.length := by rw [h', nWords]; omega
      rw [List.getElem?_append_left (by simp; omega), List.getElem?_take_of_lt h3]
    generalize hws : s.words.take (nWords n) ++ (List.range (nWords n - s.words.length)).map junk = ws at *
    by_cases hgt : n > s.size
    · -- growing
      have hle : nWords s.size ≤ nWords n := by simp only [nWords]; omega
      have hl2 : (ws.take (nWords s.size) ++ List.replicate (nWords n - nWords s.size) (fillWord v)).length = nWords n := by
        simp; omega
      have hlow : ∀ k, k < nWords s.size →
          (ws.take (nWords s.size) ++ List.replicate (nWords n - nWords s.size) (fillWord v))[k]? = s.words[k]? := by
        intro k hk
        rw [List.getElem?_append_left (by simp; omega), List.getElem?_take_of_lt hk]
        have := hget (64 * k) (by simp only [nWords] at hk; omega) (by simp only [nWords] at hk; omega)
        rwa [show 64 * k / 64 = k by omega] at this
      have hhigh : ∀ k, nWords s.size ≤ k → k < nWords n →
          (ws.take (nWords s.size) ++ List.replicate (nWords n - nWords s.size) (fillWord v))[k]? = some (fillWord v) := by
        intro k hk hk2
        rw [List.getElem?_append_right (by simp; omega), List.getElem?_replicate, if_pos (by simp; omega)]
      generalize hws2 : ws.take (nWords s.size) ++ List.replicate (nWords n - nWords s.size) (fillWord v) = ws2 at *
      have final : ∀ ws3, growFill ws s.size n v = some ws3 → WF ⟨ws3, n⟩ →
          (∀ i b, i < n → ((bitsOf s).take n ++ List.replicate (n - s.size) v)[i]? = some b → bitOf ⟨ws3, n⟩ i = b) →
          ∃ s', resize true junk s n v = some (s', true) ∧ WF s' ∧ (true = false → s' = s) ∧
            (true = true → bitsOf s' = (bitsOf s).take n ++ List.replicate (n - s.size) v) := by
        intro ws3 e3 w3 b3
        refine ⟨⟨ws3, n⟩, ?_, w3, by simp, fun _ => ?_⟩
        · unfold resize
          rw [if_neg (by omega), if_pos rfl]
          simp only [hws, if_pos hgt, e3, Option.bind_eq_bind, Option.bind_some]
        · exact bitsOf_eq (by simp [length_bitsOf]; omega) b3
      have hspec : ∀ i b, i < n → ((bitsOf s).take n ++ List.replicate (n - s.size) v)[i]? = some b →
          if i < s.size then b = bitOf s i else b = v := by
        intro i b hi hb
        split
        · rename_i hi2
          rw [List.getElem?_append_left (by simp [length_bitsOf]; omega), List.getElem?_take_of_lt hi,
            getElem?_bitsOf s i hi2] at hb
          cases hb; rfl
        · rw [List.getElem?_append_right (by simp [length_bitsOf]; omega), List.getElem?_replicate] at hb
          split at hb <;> cases hb; rfl
      by_cases hmod : s.size % 64 ≠ 0
      · have hk : nWords s.size - 1 < nWords s.size := by simp only [nWords]; omega
        have hlast := hlow _ hk
        have hwx : s.words[nWords s.size - 1]? = some s.words[nWords s.size - 1] :=
          List.getElem?_eq_getElem (by omega)
        generalize s.words[nWords s.size - 1] = w at hwx
        rw [hwx] at hlast
        have hidx : nWords s.size - 1 = s.size / 64 := by simp only [nWords]; omega
        refine final (ws2.set (nWords s.size - 1)
          (if v then w ||| ~~~ (bit s.size - 1#64) else w &&& (bit s.size - 1#64))) ?_ ?_ ?_
        · simp only [growFill, hws2, if_pos hmod, hlast, Option.bind_eq_bind, Option.bind_some]
        · simp [WF, hl2]
        · intro i b hi hb
          have hb' := hspec i b hi hb
          have hm : i % 64 < 64 := Nat.mod_lt _ (by omega)
          by_cases hiw : i / 64 = nWords s.size - 1
          · rw [bitOf_eq (w := if v then w ||| ~~~ (bit s.size - 1#64) else w &&& (bit s.size - 1#64))
              (by dsimp only; rw [hiw, List.getElem?_set_self (by omega)])]
            split at hb'
            · rename_i his
              subst hb'
              rw [bitOf_eq (w := w) (by rw [hiw]; exact hwx)]
              have hlt : i % 64 < s.size % 64 := by omega
              cases v
              · simp only [Bool.false_eq_true, if_false, BitVec.getLsbD_and, getLsbD_mask _ _ hm]; simp [hlt]
              · simp only [if_true, BitVec.getLsbD_or, BitVec.getLsbD_not, getLsbD_mask _ _ hm]; simp [hlt]
            · rename_i his
              subst hb'
              have hlt : ¬ i % 64 < s.size % 64 := by omega
              cases b
              · simp only [Bool.false_eq_true, if_false, BitVec.getLsbD_and, getLsbD_mask _ _ hm]; simp [hlt]
              · simp only [if_true, BitVec.getLsbD_or, BitVec.getLsbD_not, getLsbD_mask _ _ hm]; simp [hlt, hm]
          · have hne : (ws2.set (nWords s.size - 1)
                (if v then w ||| ~~~ (bit s.size - 1#64) else w &&& (bit s.size - 1#64)))[i / 64]? = ws2[i / 64]? := by
              rw [List.getElem?_set_ne (Ne.symm hiw)]
            split at hb'
            · rename_i his
              subst hb'
              obtain ⟨w', hw'⟩ := word_exists h his
              rw [bitOf_eq hw', bitOf_eq (w := w')]
              dsimp only
              rw [hne, hlow _ (by simp only [nWords]; omega), hw']
            · rename_i his
              subst hb'
              rw [bitOf_eq (w := fillWord b)]
              · exact getLsbD_fill _ _ hm
              · dsimp only
                rw [hne, hhigh _ (by simp only [nWords] at *; omega) (by simp only [nWords]; omega)]
      · refine final ws2 ?_ ?_ ?_
        · simp only [growFill, hws2, if_neg hmod]
        · simp [WF, hl2]
        · intro i b hi hb
          have hb' := hspec i b hi hb
          have hm : i % 64 < 64 := Nat.mod_lt _ (by omega)
          split at hb'
          · rename_i his
            subst hb'
            obtain ⟨w', hw'⟩ := word_exists h his
            rw [bitOf_eq hw', bitOf_eq (w := w')]
            dsimp only
            rw [hlow _ (by simp only [nWords]; omega), hw']
          · rename_i his
            subst hb'
            rw [bitOf_eq (w := fillWord b)]
            · exact getLsbD_fill _ _ hm
            · dsimp only
              rw [hhigh _ (by simp only [nWords] at *; omega) (by simp only [nWords]; omega)]
    · -- shrinking
      refine ⟨⟨ws, n⟩, ?_, by simpa [WF] using hl, by simp, fun _ => ?_⟩
      · unfold resize
        rw [if_neg (by omega), if_pos rfl]
        simp only [hws, if_neg hgt]
      · apply bitsOf_eq (by simp [length_bitsOf]; omega)
        intro i b hi hb
        dsimp only at hi
        rw [List.getElem?_append_left (by simp [length_bitsOf]; omega), List.getElem?_take_of_lt hi,
          getElem?_bitsOf s i (by omega)] at hb
        cases hb
        obtain ⟨w', hw'⟩ := word_exists h (show i < s.size by omega)
        rw [bitOf_eq hw', bitOf_eq (w := w')]
        dsimp only
        rw [hget i hi (by omega), hw']

theorem copy_spec {s o : Bits} (ho : WF o) :
    ∃ s', copy true s o = some s' ∧ WF s' ∧ bitsOf s' = bitsOf o := by
  have ho' : o.words.length = nWords o.size := ho
  have e : o.words.take (nWords o.size) = o.words := List.take_of_length_le (by omega)
  unfold copy
  by_cases h : s.size ≠ o.size
  · rw [if_pos h]; exact ⟨o, by simp [clone, e], ho, rfl⟩
  · rw [if_neg h]
    simp at h
    exact ⟨⟨o.words, s.size⟩, by simp [e], by simp [WF, h, ho'], by simp [bitsOf, h, bitOf]⟩

theorem fromLoop_spec (str : List Char) :
    ∀ (n : Nat) (s : Bits), WF s → str.length ≤ s.size → n ≤ str.length →
      ∃ s', fromLoop str n s = some s' ∧ WF s' ∧ s'.size = s.size ∧
        ∀ i b, (bitsOf s)[i]? = some b →
          (bitsOf s')[i]? = some (if i < n then b || (str[i]? == some '1') else b) := by
  intro n
  induction n with
  | zero => intro s h _ _; exact ⟨s, rfl, h, rfl, fun i b hb => by simpa using hb⟩
  | succ n ih =>
    intro s h hs hn
    have hc : str[n]? = some str[n] := List.getElem?_eq_getElem (by omega)
    generalize str[n] = c at hc
    by_cases h1 : (c == '1') = true
    · obtain ⟨s1, e1, w1, z1, b1⟩ := set_spec h (i := n) (by omega)
      obtain ⟨s2, e2, w2, z2, b2⟩ := ih s1 w1 (by omega) (by omega)
      refine ⟨s2, ?_, w2, by omega, ?_⟩
      · simp only [fromLoop, hc, Option.bind_eq_bind, Option.bind_some, h1, e1, e2]
      · intro i b hb
        have hi := (List.getElem?_eq_some_iff.1 hb).1
        by_cases hin : i = n
        · subst hin
          have := b2 i true (by rw [b1, List.getElem?_set_self (by simpa using hi)])
          rw [this, hc]
          simp at h1 ⊢
          simp [h1]
        · have := b2 i b (by rw [b1, List.getElem?_set_ne (by omega)]; exact hb)
          rw [this]
          by_cases hlt : i < n
          · rw [if_pos hlt, if_pos (by omega)]
          · rw [if_neg hlt, if_neg (by omega)]
    · obtain ⟨s2, e2, w2, z2, b2⟩ := ih s h hs (by omega)
      refine ⟨s2, ?_, w2, z2, ?_⟩
      · simp only [Bool.not_eq_true] at h1
        simp only [fromLoop, hc, Option.bind_eq_bind, Option.bind_some, h1, e2]
      · intro i b hb
        rw [b2 i b hb]
        by_cases hin : i = n
        · subst hin
          rw [hc]
          simp at h1
          simp [h1]
        · by_cases hlt : i < n
          · rw [if_pos hlt, if_pos (by omega)]
          · rw [if_neg hlt, if_neg (by omega)]

theorem fromStr_spec (junk : Nat → BitVec 64) (str : List Char) :
    ∃ s, fromStr true junk str = some s ∧ WF s ∧ bitsOf s = str.map (· == '1') := by
  obtain ⟨s1, e1, w1, z1, b1⟩ := setAll_spec (wf_fresh junk str.length) false
  have z1' : s1.size = str.length := z1
  obtain ⟨s2, e2, w2, z2, b2⟩ := fromLoop_spec str str.length s1 w1 (by omega) (Nat.le_refl _)
  refine ⟨s2, by simp [fromStr, withSize, e1, e2], w2, ?_⟩
  apply List.ext_getElem (by simp [length_bitsOf]; omega)
  intro i h1 h2
  simp at h2
  have := b2 i false (by rw [b1, List.getElem?_replicate, if_pos (by simpa [fresh] using h2)])
  rw [List.getElem?_eq_getElem h1] at this
  simp [h2] at this
  rw [this]; simp

/-! ### counting -/

theorem filter_len_range' (p : Nat → Bool) (a n m : Nat) :
    ((List.range' a (n + m)).filter p).length =
      ((List.range' a n).filter p).length + ((List.range' (a + n) m).filter p).length := by
  rw [← List.range'_append_1, List.filter_append, List.length_append]

theorem popcount_eq (w : BitVec 64) (p : Nat → Bool) (a : Nat)
    (h : ∀ j, j < 64 → w.getLsbD j = p (a + j)) : popcount w = ((List.range' a 64).filter p).length := by
  have : List.range' a 64 = (List.range 64).map (a + ·) := by
    rw [List.range_eq_range', List.map_add_range', Nat.add_zero]
  rw [this, List.filter_map, List.length_map, popcount]
  congr 1
  apply List.filter_congr
  intro j hj
  simp at hj
  exact h j hj

theorem countLoop_spec {s : Bits} :
    ∀ (n i : Nat), i + n ≤ s.words.length →
      countLoop s.words n i = some ((List.range' (64 * i) (64 * n)).filter (bitOf s)).length := by
  intro n
  induction n with
  | zero => intro i _; simp [countLoop]
  | succ n ih =>
    intro i h
    have hw : s.words[i]? = some s.words[i] := List.getElem?_eq_getElem (by omega)
    generalize s.words[i] = w at hw
    simp only [countLoop, hw, Option.bind_eq_bind, Option.bind_some, ih (i + 1) (by omega)]
    rw [popcount_eq w (bitOf s) (64 * i) (fun j hj => by
      rw [bitOf_eq (w := w) (by rw [show (64 * i + j) / 64 = i by omega]; exact hw)]
      rw [show (64 * i + j) % 64 = j by omega])]
    rw [show 64 * (n + 1) = 64 + 64 * n by omega, filter_len_range', show 64 * i + 64 = 64 * (i + 1) by omega]

theorem countTail_spec {s : Bits} (h : WF s) :
    countTail s = some ((List.range' (64 * (s.size / 64)) (s.size % 64)).filter (bitOf s)).length := by
  unfold countTail
  split
  · rename_i hm
    obtain ⟨w, hw⟩ : ∃ w, s.words[s.size / 64]? = some w :=
      ⟨_, List.getElem?_eq_getElem (by rw [h, nWords]; omega)⟩
    simp only [hw, Option.bind_eq_bind, Option.bind_some]
    rw [popcount_eq _ (fun k => decide (k < s.size) && bitOf s k) (64 * (s.size / 64)) (fun j hj => by
      rw [BitVec.getLsbD_and, getLsbD_mask _ _ hj,
        bitOf_eq (w := w) (by rw [show (64 * (s.size / 64) + j) / 64 = s.size / 64 by omega]; exact hw),
        show (64 * (s.size / 64) + j) % 64 = j by omega, Bool.and_comm]
      congr 1
      exact decide_eq_decide.2 (by omega))]
    rw [show 64 = s.size % 64 + (64 - s.size % 64) by omega, filter_len_range']
    rw [show s.size % 64 + (64 - s.size % 64) = 64 by omega]
    have e1 : (List.range' (64 * (s.size / 64)) (s.size % 64)).filter (fun k => decide (k < s.size) && bitOf s k) =
        (List.range' (64 * (s.size / 64)) (s.size % 64)).filter (bitOf s) := by
      apply List.filter_congr
      intro k hk
      rw [List.mem_range'_1] at hk
      have : k < s.size := by omega
      simp [this]
    have e2 : (List.range' (64 * (s.size / 64) + s.size % 64) (64 - s.size % 64)).filter
        (fun k => decide (k < s.size) && bitOf s k) = [] := by
      rw [List.filter_eq_nil_iff]
      intro k hk
      rw [List.mem_range'_1] at hk
      have : ¬ k < s.size := by omega
      simp [this]
    rw [e1, e2]; simp
  · rename_i hm
    simp at hm
    simp [hm]

theorem count_spec {s : Bits} (h : WF s) : count s = some ((bitsOf s).count true) := by
  have h' : s.words.length = nWords s.size := h
  have e1 := countLoop_spec (s := s) (s.size / 64) 0 (by rw [h', nWords]; omega)
  simp only [count, e1, countTail_spec h, Option.bind_eq_bind, Option.bind_some]
  congr 1
  rw [Nat.mul_zero]
  have := filter_len_range' (bitOf s) 0 (64 * (s.size / 64)) (s.size % 64)
  rw [Nat.zero_add] at this
  rw [← this, show 64 * (s.size / 64) + s.size % 64 = s.size by omega, ← List.range_eq_range']
  rw [bitsOf, List.count_eq_countP, List.countP_map, List.countP_eq_length_filter]
  congr 1
  apply List.filter_congr
  intro k _
  simp

/-! ### comparisons -/

theorem oprLoop_spec (chk : BitVec 64 → BitVec 64 → Bool) (a b : List (BitVec 64)) :
    ∀ (n i : Nat), i + n ≤ a.length → i + n ≤ b.length →
      ∃ r, oprLoop chk a b n i = some r ∧
        (r = true ↔ ∀ k x y, i ≤ k → k < i + n → a[k]? = some x → b[k]? = some y → chk x y = true) := by
  intro n
  induction n with
  | zero => intro i _ _; exact ⟨true, rfl, by simp; intros; omega⟩
  | succ n ih =>
    intro i h1 h2
    have hx : a[i]? = some a[i] := List.getElem?_eq_getElem (by omega)
    have hy : b[i]? = some b[i] := List.getElem?_eq_getElem (by omega)
    generalize a[i] = x at hx
    generalize b[i] = y at hy
    obtain ⟨r, e, hr⟩ := ih (i + 1) (by omega) (by omega)
    by_cases hc : chk x y = true
    · refine ⟨r, by simp [oprLoop, hx, hy, hc, e], hr.trans ⟨fun H k u v k1 k2 hu hv => ?_, fun H k u v k1 k2 => H k u v (by omega) (by omega)⟩⟩
      by_cases hk : k = i
      · subst hk; rw [hx] at hu; rw [hy] at hv; cases hu; cases hv; exact hc
      · exact H k u v (by omega) (by omega) hu hv
    · refine ⟨false, by simp [oprLoop, hx, hy, hc], by
        simp only [Bool.false_eq_true, false_iff]
        exact fun H => hc (H i x y (by omega) (by omega) hx hy)⟩

theorem opr_spec {s o : Bits} (h : WF s) (ho : WF o) (hs : s.size = o.size)
    (chk chkM : BitVec 64 → BitVec 64 → Bool) (bchk : Bool → Bool → Bool)
    (h1 : ∀ x y, chk x y = true ↔ ∀ j, j < 64 → bchk (x.getLsbD j) (y.getLsbD j) = true)
    (h2 : ∀ x y, chkM x y = true ↔ ∀ j, j < s.size % 64 → bchk (x.getLsbD j) (y.getLsbD j) = true) :
    ∃ r, opr chk chkM s o = some r ∧ (r = true ↔ ∀ i, i < s.size → bchk (bitOf s i) (bitOf o i) = true) := by
  have l1 : s.words.length = nWords s.size := h
  have l2 : o.words.length = nWords s.size := by rw [hs]; exact ho
  obtain ⟨r, e, hr⟩ := oprLoop_spec chk s.words o.words (s.size / 64) 0 (by rw [l1, nWords]; omega)
    (by rw [l2, nWords]; omega)
  -- the loop result in terms of bits
  have hr' : r = true ↔ ∀ i, i < 64 * (s.size / 64) → bchk (bitOf s i) (bitOf o i) = true := by
    rw [hr]
    constructor
    · intro H i hi
      obtain ⟨x, hx⟩ : ∃ x, s.words[i / 64]? = some x :=
        ⟨_, List.getElem?_eq_getElem (by rw [l1, nWords]; omega)⟩
      obtain ⟨y, hy⟩ : ∃ y, o.words[i / 64]? = some y :=
        ⟨_, List.getElem?_eq_getElem (by rw [l2, nWords]; omega)⟩
      have := (h1 _ _).1 (H (i / 64) _ _ (Nat.zero_le _) (by omega) hx hy) (i % 64) (Nat.mod_lt _ (by omega))
      rwa [bitOf_eq hx, bitOf_eq hy]
    · intro H k x y _ hk hx hy
      rw [h1]
      intro j hj
      have := H (64 * k + j) (by omega)
      rwa [bitOf_eq (w := x) (by rw [show (64 * k + j) / 64 = k by omega]; exact hx),
        bitOf_eq (w := y) (by rw [show (64 * k + j) / 64 = k by omega]; exact hy),
        show (64 * k + j) % 64 = j by omega] at this
  unfold opr
  rw [if_pos hs]
  cases r with
  | false =>
    refine ⟨false, by simp [e], ?_⟩
    simp only [Bool.false_eq_true, false_iff] at hr' ⊢
    exact fun H => hr' fun i hi => H i (by omega)
  | true =>
    simp only [true_iff] at hr'
    simp only [e, Option.bind_eq_bind, Option.bind_some, if_true]
    unfold oprTail
    split
    · rename_i hm
      exact ⟨true, rfl, by simp only [true_iff]; exact fun i hi => hr' i (by omega)⟩
    · rename_i hm
      obtain ⟨x, hx⟩ : ∃ x, s.words[s.size / 64]? = some x :=
        ⟨_, List.getElem?_eq_getElem (by rw [l1, nWords]; omega)⟩
      obtain ⟨y, hy⟩ : ∃ y, o.words[s.size / 64]? = some y :=
        ⟨_, List.getElem?_eq_getElem (by rw [l2, nWords]; omega)⟩
      refine ⟨chkM x y, by simp only [hx, hy]; rfl, ?_⟩
      rw [h2]
      constructor
      · intro H i hi
        by_cases hlt : i < 64 * (s.size / 64)
        · exact hr' i hlt
        · have := H (i % 64) (by omega)
          rwa [bitOf_eq (w := x) (by rw [show i / 64 = s.size / 64 by omega]; exact hx),
            bitOf_eq (w := y) (by rw [show i / 64 = s.size / 64 by omega]; exact hy)]
      · intro H j hj
        have := H (64 * (s.size / 64) + j) (by omega)
        rwa [bitOf_eq (w := x) (by rw [show (64 * (s.size / 64) + j) / 64 = s.size / 64 by omega]; exact hx),
          bitOf_eq (w := y) (by rw [show (64 * (s.size / 64) + j) / 64 = s.size / 64 by omega]; exact hy),
          show (64 * (s.size / 64) + j) % 64 = j by omega] at this

theorem bv_ext (x y : BitVec 64) : (x == y) = true ↔ ∀ j, j < 64 → x.getLsbD j = y.getLsbD j := by
  rw [beq_iff_eq]
  constructor
  · rintro rfl j _; rfl
  · intro h; exact BitVec.eq_of_getLsbD_eq h

theorem subsetOf_spec {s o : Bits} (h : WF s) (ho : WF o) (hs : s.size = o.size) :
    ∃ r, subsetOf s o = some r ∧ (r = true ↔ ∀ i, i < s.size → bitOf o i = true → bitOf s i = true) := by
  obtain ⟨r, e, hr⟩ := opr_spec h ho hs (fun x y => (x ||| y) == x)
    (fun x y => ((x ||| y) &&& (bit s.size - 1#64)) == (x &&& (bit s.size - 1#64)))
    (fun a b => !b || a)
    (fun x y => by
      simp only [bv_ext, BitVec.getLsbD_or]
      refine forall_congr' fun j => forall_congr' fun _ => ?_
      cases x.getLsbD j <;> cases y.getLsbD j <;> simp)
    (fun x y => by
      simp only [bv_ext, BitVec.getLsbD_or, BitVec.getLsbD_and]
      constructor
      · intro H j hj
        have := H j (by omega)
        rw [getLsbD_mask _ _ (by omega)] at this
        simp [hj] at this
        cases hx : x.getLsbD j <;> cases hy : y.getLsbD j <;> simp_all
      · intro H j hj
        rw [getLsbD_mask _ _ hj]
        by_cases hlt : j < s.size % 64
        · have := H j hlt
          cases hx : x.getLsbD j <;> cases hy : y.getLsbD j <;> simp_all
        · simp [hlt])
  refine ⟨r, e, hr.trans (forall_congr' fun i => forall_congr' fun _ => ?_)⟩
  cases bitOf s i <;> cases bitOf o i <;> simp

theorem disjoint_spec {s o : Bits} (h : WF s) (ho : WF o) (hs : s.size = o.size) :
    ∃ r, disjoint s o = some r ∧ (r = true ↔ ∀ i, i < s.size → ¬ (bitOf s i = true ∧ bitOf o i = true)) := by
  obtain ⟨r, e, hr⟩ := opr_spec h ho hs (fun x y => (x &&& y) == 0#64)
    (fun x y => ((x &&& y) &&& (bit s.size - 1#64)) == (0#64 &&& (bit s.size - 1#64)))
    (fun a b => !(a && b))
    (fun x y => by
      simp only [bv_ext, BitVec.getLsbD_and]
      refine forall_congr' fun j => forall_congr' fun _ => ?_
      cases x.getLsbD j <;> cases y.getLsbD j <;> simp)
    (fun x y => by
      simp only [bv_ext, BitVec.getLsbD_and]
      constructor
      · intro H j hj
        have := H j (by omega)
        rw [getLsbD_mask _ _ (by omega)] at this
        simp [hj] at this
        cases hx : x.getLsbD j <;> cases hy : y.getLsbD j <;> simp_all
      · intro H j hj
        rw [getLsbD_mask _ _ hj]
        by_cases hlt : j < s.size % 64
        · have := H j hlt
          cases hx : x.getLsbD j <;> cases hy : y.getLsbD j <;> simp_all
        · simp [hlt])
  refine ⟨r, e, hr.trans (forall_congr' fun i => forall_congr' fun _ => ?_)⟩
  cases bitOf s i <;> cases bitOf o i <;> simp

theorem strLoop_spec {s : Bits} (h : WF s) :
    ∀ (n i : Nat), i + n ≤ s.size →
      strLoop s n i = some ((((bitsOf s).drop i).take n).map fun b => if b then '1' else '0') := by
  intro n
  induction n with
  | zero => intro i _; simp [strLoop]
  | succ n ih =>
    intro i hi
    obtain ⟨w, hw⟩ := word_exists h (show i < s.size by omega)
    simp only [strLoop, hw, Option.bind_eq_bind, Option.bind_some, ih (i + 1) (by omega), test_word]
    have hb := getElem?_bitsOf s i (by omega)
    obtain ⟨hl, hb⟩ := List.getElem?_eq_some_iff.1 hb
    rw [List.drop_eq_getElem_cons hl, List.take_succ_cons, List.map_cons, hb, bitOf_eq hw]

/-! ### the portable population count -/

/-- one bits among the low 8. -/
def pc8 (l : Nat) : Nat := ((List.range 8).filter (fun i => l.testBit i)).length

theorem land_split (a b c d : Nat) (hb : b < 256) (hd : d < 256) :
    (256 * a + b) &&& (256 * c + d) = 256 * (a &&& c) + (b &&& d) := by
  have hbd : b &&& d < 256 := Nat.and_lt_two_pow (n := 8) _ hd
  apply Nat.eq_of_testBit_eq
  intro i
  rw [Nat.testBit_and, show (256 : Nat) = 2 ^ 8 by rfl, Nat.testBit_two_pow_mul_add a hb,
    Nat.testBit_two_pow_mul_add c hd, Nat.testBit_two_pow_mul_add (a &&& c) hbd]
  split <;> rw [Nat.testBit_and]

/-- a byte repeated `n` times. -/
def rep (m : Nat) : Nat → Nat
  | 0 => 0
  | n + 1 => 256 * rep m n + m

/-- steps of the portable count on a number of `n` bytes. -/
def step1 (n x : Nat) : Nat := x - ((x / 2) &&& rep 0x55 n)
def step2 (n x : Nat) : Nat := (x &&& rep 0x33 n) + ((x / 4) &&& rep 0x33 n)
def step3 (n x : Nat) : Nat := (x + x / 16) &&& rep 0x0f n

theorem tab1 : ∀ l < 256, ∀ t < 2, (128 * t + l / 2) &&& 0x55 = (l / 2) &&& 0x55 ∧ (l / 2) &&& 0x55 ≤ l := by
  decide +kernel

theorem tab2 : ∀ l < 256, ∀ t < 4, (64 * t + l / 4) &&& 0x33 = (l / 4) &&& 0x33 := by decide +kernel

/-- the three steps on one byte. -/
def byte2 (l : Nat) : Nat := let a := l - ((l / 2) &&& 0x55); (a &&& 0x33) + ((a / 4) &&& 0x33)

theorem tab3 : ∀ l < 256, l - ((l / 2) &&& 0x55) < 256 ∧ byte2 l ≤ 0x44 ∧ byte2 l % 16 ≤ 4 ∧
    (byte2 l + byte2 l / 16) &&& 0x0f = pc8 l := by decide +kernel

theorem tab4 : ∀ u < 0x45, ∀ t < 5, ((u + u / 16) + 16 * t) &&& 0x0f = (u + u / 16) &&& 0x0f := by
  decide +kernel

theorem step1_split (n h l : Nat) (hl : l < 256) (hh : ((h / 2) &&& rep 0x55 n) ≤ h) :
    step1 (n + 1) (256 * h + l) = 256 * step1 n h + (l - ((l / 2) &&& 0x55)) := by
  have e : (256 * h + l) / 2 = 256 * (h / 2) + (128 * (h % 2) + l / 2) := by omega
  have ht := tab1 l hl (h % 2) (Nat.mod_lt _ (by omega))
  simp only [step1, rep]
  rw [e, land_split _ _ _ _ (by omega) (by omega), ht.1]
  have := ht.2
  omega

theorem step1_le (n h : Nat) : ((h / 2) &&& rep 0x55 n) ≤ h :=
  Nat.le_trans Nat.and_le_left (Nat.div_le_self _ _)

theorem step2_split (n h l : Nat) (hl : l < 256) :
    step2 (n + 1) (256 * h + l) = 256 * step2 n h + ((l &&& 0x33) + ((l / 4) &&& 0x33)) := by
  have e : (256 * h + l) / 4 = 256 * (h / 4) + (64 * (h % 4) + l / 4) := by omega
  have ht := tab2 l hl (h % 4) (Nat.mod_lt _ (by omega))
  simp only [step2, rep]
  rw [e, land_split _ _ _ _ (by omega) (by omega), land_split _ _ _ _ (by omega) (by omega), ht]
  omega

theorem step3_split (n h u : Nat) (hu : u ≤ 0x44) (hh : h % 16 ≤ 4) :
    step3 (n + 1) (256 * h + u) = 256 * step3 n h + ((u + u / 16) &&& 0x0f) := by
  have e : 256 * h + u + (256 * h + u) / 16 = 256 * (h + h / 16) + ((u + u / 16) + 16 * (h % 16)) := by omega
  simp only [step3, rep]
  rw [e, land_split _ _ _ _ (by omega) (by omega), tab4 u (by omega) _ (by omega)]

/-- the byte-wise counts. -/
def counts : Nat → Nat → Nat
  | 0, _ => 0
  | n + 1, x => 256 * counts n (x / 256) + pc8 (x % 256)

theorem steps_spec : ∀ (n x : Nat), x < 256 ^ n →
    step3 n (step2 n (step1 n x)) = counts n x ∧ step2 n (step1 n x) % 16 ≤ 4 := by
  intro n
  induction n with
  | zero => intro x hx; simp at hx; subst hx; decide
  | succ n ih =>
    intro x hx
    have hl : x % 256 < 256 := Nat.mod_lt _ (by omega)
    obtain ⟨i1, i2⟩ := ih (x / 256) (by
      rw [Nat.pow_succ] at hx; exact Nat.div_lt_of_lt_mul (by rwa [Nat.mul_comm] at hx))
    have hx' : x = 256 * (x / 256) + x % 256 := by omega
    obtain ⟨t1, t2, t3, t4⟩ := tab3 _ hl
    have e1 : step1 (n + 1) x = 256 * step1 n (x / 256) + (x % 256 - ((x % 256 / 2) &&& 0x55)) := by
      have := step1_split n (x / 256) (x % 256) hl (step1_le _ _)
      rwa [← hx'] at this
    rw [e1, step2_split _ _ _ t1]
    change step3 (n + 1) (256 * step2 n (step1 n (x / 256)) + byte2 (x % 256)) = _ ∧
      (256 * step2 n (step1 n (x / 256)) + byte2 (x % 256)) % 16 ≤ 4
    rw [step3_split _ _ _ t2 i2, i1, t4]
    exact ⟨rfl, by omega⟩

theorem pc8_le (l : Nat) : pc8 l ≤ 8 := by
  have := List.length_filter_le (fun i => l.testBit i) (List.range 8)
  simpa [pc8] using this

/-- the sum of the byte counts. -/
def total : Nat → Nat → Nat
  | 0, _ => 0
  | n + 1, x => total n (x / 256) + pc8 (x % 256)

theorem counts_mul (x : Nat) : counts 8 x * 0x0101010101010101 % 2 ^ 64 / 2 ^ 56 = total 8 x := by
  simp only [counts, total]
  have h0 := pc8_le (x % 256)
  have h1 := pc8_le (x / 256 % 256)
  have h2 := pc8_le (x / 256 / 256 % 256)
  have h3 := pc8_le (x / 256 / 256 / 256 % 256)
  have h4 := pc8_le (x / 256 / 256 / 256 / 256 % 256)
  have h5 := pc8_le (x / 256 / 256 / 256 / 256 / 256 % 256)
  have h6 := pc8_le (x / 256 / 256 / 256 / 256 / 256 / 256 % 256)
  have h7 := pc8_le (x / 256 / 256 / 256 / 256 / 256 / 256 / 256 % 256)
  generalize pc8 (x % 256) = a0 at *
  generalize pc8 (x / 256 % 256) = a1 at *
  generalize pc8 (x / 256 / 256 % 256) = a2 at *
  generalize pc8 (x / 256 / 256 / 256 % 256) = a3 at *
  generalize pc8 (x / 256 / 256 / 256 / 256 % 256) = a4 at *
  generalize pc8 (x / 256 / 256 / 256 / 256 / 256 % 256) = a5 at *
  generalize pc8 (x / 256 / 256 / 256 / 256 / 256 / 256 % 256) = a6 at *
  generalize pc8 (x / 256 / 256 / 256 / 256 / 256 / 256 / 256 % 256) = a7 at *
  clear x
  have e : (256 * (256 * (256 * (256 * (256 * (256 * (256 * (256 * 0 + a7) + a6) + a5) + a4) + a3) + a2) + a1) + a0)
      * 0x0101010101010101 = 2 ^ 64 * (1 * (a1 + a2 + a3 + a4 + a5 + a6 + a7) + 256 * (a2 + a3 + a4 + a5 + a6 + a7) + 65536 * (a3 + a4 + a5 + a6 + a7) + 16777216 * (a4 + a5 + a6 + a7) + 4294967296 * (a5 + a6 + a7) + 1099511627776 * (a6 + a7) + 281474976710656 * (a7)) + (2 ^ 56 * (a0 + a1 + a2 + a3 + a4 + a5 + a6 + a7) + (1 * (a0) + 256 * (a0 + a1) + 65536 * (a0 + a1 + a2) + 16777216 * (a0 + a1 + a2 + a3) + 4294967296 * (a0 + a1 + a2 + a3 + a4) + 1099511627776 * (a0 + a1 + a2 + a3 + a4 + a5) + 281474976710656 * (a0 + a1 + a2 + a3 + a4 + a5 + a6))) := by
    omega
  rw [e, Nat.mul_add_mod, Nat.mod_eq_of_lt (by omega)]
  omega

theorem testBit_low (x i : Nat) (h : i < 8) : (x % 256).testBit i = x.testBit i := by
  rw [show (256 : Nat) = 2 ^ 8 by rfl, Nat.testBit_mod_two_pow]; simp [h]

theorem total_spec : ∀ (n x : Nat), total n x = ((List.range' 0 (8 * n)).filter (fun i => x.testBit i)).length := by
  intro n
  induction n with
  | zero => intro x; simp [total]
  | succ n ih =>
    intro x
    rw [total, ih, show 8 * (n + 1) = 8 + 8 * n by omega, filter_len_range', Nat.add_comm]
    congr 1
    · rw [pc8, List.range_eq_range']
      congr 1
      apply List.filter_congr
      intro i hi
      rw [List.mem_range'_1] at hi
      exact testBit_low x i (by omega)
    · rw [show List.range' (0 + 8) (8 * n) = (List.range' 0 (8 * n)).map (8 + ·) by
        rw [List.map_add_range']; , List.filter_map, List.length_map]
      congr 1
      apply List.filter_congr
      intro i _
      simp only [Function.comp]
      rw [show (256 : Nat) = 2 ^ 8 by rfl, Nat.testBit_div_two_pow, Nat.add_comm]

theorem popcountPortable_eq (w : BitVec 64) : popcountPortable w = popcount w := by
  have hx : w.toNat < 256 ^ 8 := w.isLt
  have r1 : rep 0x55 8 = 0x5555555555555555 := by decide
  have r2 : rep 0x33 8 = 0x3333333333333333 := by decide
  have r3 : rep 0x0f 8 = 0x0f0f0f0f0f0f0f0f := by decide
  have hle := step1_le 8 w.toNat
  have e1 : (w - ((w >>> 1) &&& 0x5555555555555555#64)).toNat = step1 8 w.toNat := by
    rw [BitVec.toNat_sub, BitVec.toNat_and, BitVec.toNat_ushiftRight, Nat.shiftRight_eq_div_pow]
    simp only [step1, r1, BitVec.toNat_ofNat] at hle ⊢
    have : w.toNat < 2 ^ 64 := w.isLt
    norm_num at hle ⊢
    omega
  generalize hw1 : w - ((w >>> 1) &&& 0x5555555555555555#64) = w1 at e1
  have e2 : ((w1 &&& 0x3333333333333333#64) + ((w1 >>> 2) &&& 0x3333333333333333#64)).toNat = step2 8 w1.toNat := by
    have b1 : w1.toNat &&& 0x3333333333333333 ≤ 0x3333333333333333 := Nat.and_le_right
    have b2 : w1.toNat / 4 &&& 0x3333333333333333 ≤ 0x3333333333333333 := Nat.and_le_right
    rw [BitVec.toNat_add, BitVec.toNat_and, BitVec.toNat_and, BitVec.toNat_ushiftRight, Nat.shiftRight_eq_div_pow]
    simp only [step2, r2, BitVec.toNat_ofNat]
    norm_num
    omega
  generalize hw2 : (w1 &&& 0x3333333333333333#64) + ((w1 >>> 2) &&& 0x3333333333333333#64) = w2 at e2
  have e3 : ((w2 + (w2 >>> 4)) &&& 0x0f0f0f0f0f0f0f0f#64).toNat = step3 8 w2.toNat := by
    have b1 : w1.toNat &&& 0x3333333333333333 ≤ 0x3333333333333333 := Nat.and_le_right
    have b2 : w1.toNat / 4 &&& 0x3333333333333333 ≤ 0x3333333333333333 := Nat.and_le_right
    have hb : w2.toNat ≤ 0x6666666666666666 := by rw [e2, step2, r2]; omega
    rw [BitVec.toNat_and, BitVec.toNat_add, BitVec.toNat_ushiftRight, Nat.shiftRight_eq_div_pow]
    simp only [step3, r3, BitVec.toNat_ofNat]
    rw [Nat.mod_eq_of_lt (by omega)]
  have hs := (steps_spec 8 w.toNat hx).1
  rw [← e1, ← e2, ← e3] at hs
  simp only [popcountPortable]
  rw [hw1, hw2, BitVec.toNat_ushiftRight, BitVec.toNat_mul, hs, Nat.shiftRight_eq_div_pow]
  have := counts_mul w.toNat
  norm_num at this ⊢
  rw [this, total_spec, popcount, List.range_eq_range']
  rfl

end Verif.Cbits
