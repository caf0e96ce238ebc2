import Verif.Regex.Budget
import Verif.Regex.Text
/- The matcher on a program whose threads fit into the lists: no thread is lost and nothing is undefined. -/
namespace Verif.Regex
open Verif.Utf8 (Byte casefold)
open Verif.Utf8.Spec (text Text)
open Spec (Tok Re G)

section
variable {E : Env} {cs : List Nat} {pre rest : List Byte}

theorem rest_head (h : Input E cs pre rest) : ∃ b, rest[0]? = some b := by
  rcases h.stop with ⟨-, junk, rfl⟩ | ⟨-, r, n, h2⟩
  · exact ⟨_, rfl⟩
  · unfold rune at h2
    obtain ⟨b, h3, -⟩ := Option.bind_eq_some_iff.1 h2
    refine ⟨b, ?_⟩
    rw [h.mem, show pre.length + (text cs).length = (pre ++ text cs).length by simp, List.getElem?_append_right (Nat.le_refl _), Nat.sub_self] at h3
    exact h3

theorem eff_eats {s r : Nat} {ic : Bool} {o : Op} (ho : eatOp o = true) : ∃ x, eff E s r ic o = some x ∧ (x.2.2 = .eat ∨ x.2.2 = .die) := by
  have t : ∀ b, Eff.test b = .eat ∨ Eff.test b = .die := fun b => by cases b <;> simp [Eff.test]
  cases o with
  | rune c => exact ⟨_, rfl, t _⟩
  | irune c => exact ⟨_, rfl, t _⟩
  | any => exact ⟨_, rfl, t _⟩
  | anynl => exact ⟨_, rfl, .inl rfl⟩
  | cls neg sp => exact ⟨_, rfl, t _⟩
  | _ => cases ho

/-- Assertions are defined at every position of the text. -/
theorem eff_passes (h : Input E cs pre rest) {i r0 n r : Nat} {ic : Bool} {o : Op} (hi : i ≤ cs.length) (hr : rune E.m (off pre cs i) = some (r0, n)) (hs : Same ic r0 r)
    (ho : passOp o = true) (h1 : ∀ k, o ≠ .lbra k) (h2 : ∀ k, o ≠ .rbra k) : ∃ x, eff E (off pre cs i) r ic o = some x ∧ (x.2.2 = .go ∨ x.2.2 = .die) := by
  have t : ∀ b, Eff.pass b = .go ∨ Eff.pass b = .die := fun b => by cases b <;> simp [Eff.pass]
  cases o with
  | lbra k => exact absurd rfl (h1 k)
  | rbra k => exact absurd rfl (h2 k)
  | bos => exact ⟨_, rfl, t _⟩
  | eos => exact ⟨_, rfl, t _⟩
  | eol =>
    simp only [eff]
    split
    · exact ⟨_, rfl, .inl rfl⟩
    · exact ⟨_, rfl, t _⟩
  | bol =>
    simp only [eff]
    split
    · exact ⟨_, rfl, .inl rfl⟩
    · rename_i hb
      rw [h.bol, ← off_zero pre cs] at hb
      have hi0 : 0 < i := by
        rcases Nat.eq_zero_or_pos i with rfl | h
        · exact absurd rfl hb
        · exact h
      have hlt := off_lt (pre := pre) hi0 hi
      rw [if_neg (by omega)]
      obtain ⟨b, q1, -⟩ := h.before (i := i - 1) (List.getElem?_eq_getElem (by omega))
      rw [show i - 1 + 1 = i by omega] at q1
      rw [q1]
      exact ⟨_, rfl, t _⟩
  | eoz =>
    simp only [eff]
    split
    · exact ⟨_, rfl, .inl rfl⟩
    · rename_i he
      split
      · rename_i h10
        have h10' := (same_nl hs).1 h10
        subst h10'
        have hlt : i < cs.length := by
          by_contra hge
          obtain rfl : i = cs.length := by omega
          rcases h.at_end hr with q | ⟨-, q⟩
          · exact he (.inl q)
          · cases q
        have hc : cs[i]? = some 10 := by
          have := h.rune (List.getElem?_eq_getElem hlt)
          rw [hr] at this
          simp only [Option.some.injEq, Prod.mk.injEq] at this
          rw [List.getElem?_eq_getElem hlt, ← this.1]
        rw [h.after hc]
        obtain ⟨b, hb⟩ := rest_head h
        have : ∃ c, (text (cs.drop (i + 1)) ++ rest)[0]? = some c := by
          cases ht : text (cs.drop (i + 1)) with
          | nil => exact ⟨b, hb⟩
          | cons c tl => exact ⟨c, rfl⟩
        obtain ⟨c, hc⟩ := this
        rw [hc]
        exact ⟨_, rfl, t _⟩
      · exact ⟨_, rfl, .inr rfl⟩
  | wbound =>
    obtain ⟨b, hb⟩ := h.boundary_def hi
    simp only [eff]
    rw [hb]
    exact ⟨_, rfl, t _⟩
  | cased | icase => exact ⟨_, rfl, .inl rfl⟩
  | _ => cases ho

theorem finMatch_def (h : Input E cs pre rest) {full : Bool} {s r j : Nat} (hj : j ≤ cs.length) : ∃ b, finMatch E full s r (off pre cs j) = some b := by
  unfold finMatch
  split
  · exact ⟨_, rfl⟩
  · split
    · split
      · exact ⟨_, rfl⟩
      · rename_i hb
        rw [h.bol, ← off_zero pre cs] at hb
        have hi0 : 0 < j := by
          rcases Nat.eq_zero_or_pos j with rfl | h
          · exact absurd rfl hb
          · exact h
        have hlt := off_lt (pre := pre) hi0 hj
        rw [if_neg (by omega)]
        obtain ⟨b, q1, -⟩ := h.before (i := j - 1) (List.getElem?_eq_getElem (by omega))
        rw [show j - 1 + 1 = j by omega] at q1
        rw [q1]
        exact ⟨_, rfl⟩
    · exact ⟨_, rfl⟩
end

/-! ### the lists -/

theorem bump_insts : ∀ {l l' : List Thread} {ip : Nat} {se : Se}, bump l ip se = some l' → l'.map (·.inst) = l.map (·.inst)
  | [], _, _, _, h => by cases h
  | t :: ts, l', ip, se, h => by
    rw [bump] at h
    split at h
    · rename_i he
      simp only [Option.some.injEq] at h
      subst h
      split
      · simp [he]
      · rfl
    · cases hb : bump ts ip se with
      | none => rw [hb] at h; cases h
      | some l2 =>
        rw [hb] at h
        simp only [Option.map_some, Option.some.injEq] at h
        subst h
        simp [bump_insts hb]

theorem bump_none : ∀ {l : List Thread} {ip : Nat} {se : Se}, bump l ip se = none → ip ∉ l.map (·.inst)
  | [], _, _, _ => by simp
  | t :: ts, ip, se, h => by
    rw [bump] at h
    split at h
    · cases h
    · rename_i he
      cases hb : bump ts ip se with
      | none =>
        have := bump_none hb
        simp only [List.map_cons, List.mem_cons, not_or]
        exact ⟨fun x => he x.symm, this⟩
      | some l2 => rw [hb] at h; cases h

theorem renew_room {cap d : Nat} {l : List Thread} {ip : Nat} {se : Se} (hroom : d + l.length + 1 < cap) :
    ∃ b l', renew cap d l ip se = some (b, l') ∧
      ((b = false ∧ l'.map (·.inst) = l.map (·.inst)) ∨ (ip ∉ l.map (·.inst) ∧ l' = l ++ [⟨ip, se⟩] ∧ (b = true ↔ d + l.length + 1 = cap - 2))) := by
  unfold renew
  cases hb : bump l ip se with
  | some l' => exact ⟨false, l', rfl, .inl ⟨rfl, bump_insts hb⟩⟩
  | none =>
    simp only
    rw [if_pos hroom]
    exact ⟨_, _, rfl, .inr ⟨bump_none hb, rfl, by simp⟩⟩

theorem nodup_sum (w : Nat → Nat) : ∀ {l m : List Nat}, l.Nodup → (∀ x ∈ l, x ∈ m) → l.length ≤ m.length ∧ (l.map w).sum ≤ (m.map w).sum
  | [], m, _, _ => by simp
  | x :: l, m, hn, hm => by
    have hx : x ∈ m := hm x (by simp)
    have hp := List.perm_cons_erase hx
    obtain ⟨hn1, hn2⟩ := List.nodup_cons.1 hn
    have ih := nodup_sum w (m := m.erase x) hn2 (fun y hy => (List.mem_erase_of_ne (by rintro rfl; exact hn1 hy)).2 (hm y (by simp [hy])))
    have h1 := hp.length_eq
    have h2 := (hp.map w).sum_nat
    simp only [List.length_cons, List.map_cons, List.sum_cons] at *
    omega

/-! ### the program -/

/-- A program, the groups open at its instructions, the number of threads added from an instruction on, and
the places reached over a character. -/
structure Room (P : Prog) (A : Nat → List Nat) (w : Nat → Nat) (L : List Nat) : Prop where
  uni : Uniform P
  keep : ∀ pc o, opAt P.insts pc = some o → o ≠ .fin → Keeps P A pc
  cost : ∀ h pc n, Cost P P.insts.length h pc n → w pc = n
  places : ∀ k ∈ L, Cost P P.insts.length P.insts.length k (w k)
  eat : ∀ pc o k, opAt P.insts pc = some o → eatOp o = true → nextAt P.insts pc = some k → k ∈ L
  start : Cost P P.insts.length P.insts.length P.start (w P.start)
  first : A P.start = []

/-- There is room for all threads, or at least the end of the list is not passed unnoticed. -/
def Fits (big : Bool) (cap cnt pot : Nat) : Prop := if big then cnt + pot + 3 ≤ cap else cnt + 3 ≤ cap ∨ cnt + pot + 1 ≤ cap

/-- The groups of a thread at `pc`, and where it began. -/
structure Armed (A : Nat → List Nat) (pre : List Byte) (cs : List Nat) (pc : Nat) (se : Se) : Prop where
  grp : ∀ k ∈ A pc, (se.sub k).buf.isSome
  beg : ∃ j, j ≤ cs.length ∧ se.start = off pre cs j

/-- The state while the thread number `d` is executed, that may still add `n` threads. -/
structure RI (P : Prog) (A : Nat → List Nat) (w : Nat → Nat) (L : List Nat) (pre : List Byte) (cs : List Nat) (big : Bool) (cap r0 cnt n : Nat) (q : Mid) : Prop where
  same : Same P.icase r0 q.r
  ic : q.icase = P.icase
  pend : ∀ t ∈ q.pend, Cost P P.insts.length P.insts.length t.inst (w t.inst) ∧ Armed A pre cs t.inst t.se
  nl : ∀ t ∈ q.nl, t.inst ∈ L ∧ Armed A pre cs t.inst t.se
  nodup : (q.nl.map (·.inst)).Nodup
  len : q.nl.length + 3 ≤ cap
  room : Fits big cap (cnt + q.pend.length) (n + (q.pend.map fun t => w t.inst).sum)

section
variable {P : Prog} {A : Nat → List Nat} {w : Nat → Nat} {L : List Nat} {E : Env} {cs : List Nat} {pre rest : List Byte} {big full : Bool} {cap d cur i r0 rn : Nat}

theorem Fits.less {cnt pot pot' : Nat} (h : Fits big cap cnt pot) (hle : pot' ≤ pot) : Fits big cap cnt pot' := by
  unfold Fits at *
  split at h <;> simp_all <;> omega

def Fine (P : Prog) (A : Nat → List Nat) (w : Nat → Nat) (L : List Nat) (pre : List Byte) (cs : List Nat) (big : Bool) (cap r0 cnt : Nat) : Out → Prop
  | .full => big = false
  | .ok q => RI P A w L pre cs big cap r0 cnt 0 q

theorem chain_room (hR : Room P A w L) (hin : Input E cs pre rest) (hi : i ≤ cs.length) (hr : rune E.m (off pre cs i) = some (r0, rn)) (hL : big = true → L.length + 3 ≤ cap) :
    ∀ (f h pc n : Nat) (se : Se) (q : Mid), h ≤ f → Cost P P.insts.length h pc n → Armed A pre cs pc se → RI P A w L pre cs big cap r0 (d + 1) n q →
    ∃ o, chain P E full cap d cur (off pre cs i) f pc se q = some o ∧ Fine P A w L pre cs big cap r0 (d + 1) o
  | 0, h, pc, n, se, q, hf, hc, _, _ => by
    obtain rfl : h = 0 := by omega
    cases hc
  | f + 1, h, pc, n, se, q, hf, hc, hse, hq => by
    rw [chain]
    cases hc with
    | @eat h _ o h1 h2 =>
      obtain ⟨I, e1, e2, e3⟩ := opAt_inst h1
      obtain ⟨x, q1, q2⟩ := eff_eats (E := E) (s := off pre cs i) (r := q.r) (ic := q.icase) h2
      obtain ⟨q3, q4⟩ := (eff_same (E := E) (s := off pre cs i) (hR.uni I (List.mem_of_getElem? e1)) hq.same).2 x (by rw [e2, ← hq.ic]; exact q1)
      rw [e1, Option.bind_some, e2, q1, Option.bind_some]
      obtain ⟨x1, x2, x3⟩ := x
      simp only at q2 q3 q4 ⊢
      rcases q2 with rfl | rfl
      · obtain ⟨o', k, k1, k2, k3⟩ := hR.keep pc o h1 (by rintro rfl; cases h2)
        rw [h1] at k1
        cases k1
        rw [e3.symm.trans k2, Option.bind_some]
        have hk := hR.eat pc o k h1 h2 k2
        have hk3 : ∀ y ∈ A k, y ∈ A pc := by cases o <;> first | (cases h2; done) | exact k3
        unfold eat
        simp only
        have hlen := hq.len
        obtain ⟨b, l', r1, r2⟩ := renew_room (cap := cap) (d := 0) (l := q.nl) (ip := k) (se := se) (by omega)
        have hmem := (renew_facts r1).1
        simp only [Option.bind_some, r1, Option.map_some]
        refine ⟨_, rfl, ?_⟩
        have hnl : ∀ t ∈ l', t.inst ∈ L ∧ Armed A pre cs t.inst t.se := by
          intro t ht
          rcases hmem t ht with ht | rfl
          · exact hq.nl t ht
          · exact ⟨hk, fun y hy => hse.grp y (hk3 y hy), hse.beg⟩
        rcases r2 with ⟨rfl, r2⟩ | ⟨r2, rfl, r3⟩
        · refine ⟨q4, q3, hq.pend, hnl, by rw [r2]; exact hq.nodup, ?_, hq.room⟩
          have := congrArg List.length r2
          simp only [List.length_map] at this
          simp only
          omega
        · have hnd : ((q.nl ++ [(⟨k, se⟩ : Thread)]).map (·.inst)).Nodup := by
            rw [List.map_append, List.nodup_append]
            refine ⟨hq.nodup, by simp, ?_⟩
            intro a ha b hb
            simp only [List.map_cons, List.map_nil, List.mem_singleton] at hb
            subst hb
            rintro rfl
            exact r2 ha
          have hle := (nodup_sum w hnd (m := L) (by
            intro x hx
            obtain ⟨t, ht, rfl⟩ := List.mem_map.1 hx
            exact (hnl t ht).1)).1
          simp only [List.length_map, List.length_append, List.length_cons, List.length_nil] at hle
          cases hb : b with
          | true =>
            rw [if_pos rfl]
            show big = false
            cases hbig : big with
            | false => rfl
            | true =>
              have := hL hbig
              have := r3.1 hb
              omega
          | false =>
            simp only [Bool.false_eq_true, if_false]
            refine ⟨q4, q3, hq.pend, hnl, hnd, ?_, hq.room⟩
            have : ¬ 0 + q.nl.length + 1 = cap - 2 := fun e => by rw [r3.2 e] at hb; cases hb
            simp only [List.length_append, List.length_cons, List.length_nil]
            omega
      · exact ⟨_, rfl, q4, q3, hq.pend, hq.nl, hq.nodup, hq.len, hq.room⟩
    | @fin h _ h1 =>
      obtain ⟨I, e1, e2, e3⟩ := opAt_inst h1
      obtain ⟨j, hj, hst⟩ := hse.beg
      obtain ⟨b, hb⟩ := finMatch_def hin (full := full) (s := off pre cs i) (r := q.r) hj
      rw [e1, Option.bind_some, e2]
      simp only [eff, Option.bind_some, finish]
      rw [hst, hb]
      exact ⟨_, rfl, hq.same, hq.ic, hq.pend, hq.nl, hq.nodup, hq.len, hq.room⟩
    | @pass h _ o k _ h1 h2 h3 h4 =>
      obtain ⟨I, e1, e2, e3⟩ := opAt_inst h1
      obtain ⟨o', k', k1, k2, k3⟩ := hR.keep pc o h1 (by rintro rfl; cases h2)
      rw [h1] at k1
      cases k1
      rw [h3] at k2
      cases k2
      rw [e1, Option.bind_some, e2]
      by_cases hl : ∃ x, o = .lbra x
      · obtain ⟨x, rfl⟩ := hl
        simp only [eff, Option.bind_some]
        rw [e3.symm.trans h3, Option.bind_some]
        refine chain_room hR hin hi hr hL f h k n _ _ (by omega) h4 ⟨fun y hy => ?_, hse.beg⟩ ⟨hq.same, hq.ic, hq.pend, hq.nl, hq.nodup, hq.len, hq.room⟩
        simp only [setBuf]
        split
        · rfl
        · rename_i hne
          rcases k3 y hy with h5 | h5
          · exact absurd h5 hne
          · exact hse.grp y h5
      by_cases hl' : ∃ x, o = .rbra x
      · obtain ⟨x, rfl⟩ := hl'
        simp only [eff, Option.bind_some]
        obtain ⟨b, hb⟩ := Option.isSome_iff_exists.1 (hse.grp x k3.1)
        unfold setSize
        rw [hb]
        simp only [Option.map_some, Option.bind_some]
        rw [e3.symm.trans h3, Option.bind_some]
        refine chain_room hR hin hi hr hL f h k n _ _ (by omega) h4 ⟨fun y hy => ?_, hse.beg⟩ ⟨hq.same, hq.ic, hq.pend, hq.nl, hq.nodup, hq.len, hq.room⟩
        simp only
        split
        · rw [hb]; rfl
        · exact hse.grp y (k3.2 y hy)
      have hn1 : ∀ x, o ≠ .lbra x := fun x hx => hl ⟨x, hx⟩
      have hn2 : ∀ x, o ≠ .rbra x := fun x hx => hl' ⟨x, hx⟩
      have hk3 : ∀ y ∈ A k, y ∈ A pc := by cases o <;> first | (cases h2; done) | exact k3 | exact absurd rfl (hn1 _) | exact absurd rfl (hn2 _)
      obtain ⟨x, q1, q2⟩ := eff_passes hin (ic := q.icase) hi hr (by rw [hq.ic]; exact hq.same) h2 hn1 hn2
      obtain ⟨q3, q4⟩ := (eff_same (E := E) (s := off pre cs i) (hR.uni I (List.mem_of_getElem? e1)) hq.same).2 x (by rw [e2, ← hq.ic]; exact q1)
      rw [q1, Option.bind_some]
      obtain ⟨x1, x2, x3⟩ := x
      simp only at q2 q3 q4 ⊢
      rcases q2 with rfl | rfl
      · simp only
        rw [e3.symm.trans h3, Option.bind_some]
        exact chain_room hR hin hi hr hL f h k n _ _ (by omega) h4 ⟨fun y hy => hse.grp y (hk3 y hy), hse.beg⟩ ⟨q4, q3, hq.pend, hq.nl, hq.nodup, hq.len, hq.room⟩
      · exact ⟨_, rfl, q4, q3, hq.pend, hq.nl, hq.nodup, hq.len, hq.room.less (Nat.add_le_add_right (Nat.zero_le _) _)⟩
    | @or h _ r k n1 n2 h1 h2 h3 h4 =>
      obtain ⟨I, e1, e2, e3⟩ := opAt_inst h1
      obtain ⟨o', k', k1, k2, k3⟩ := hR.keep pc _ h1 (by simp)
      rw [h1] at k1
      cases k1
      rw [h2] at k2
      cases k2
      obtain ⟨k3, k4⟩ := k3
      rw [e1, Option.bind_some, e2]
      simp only [eff, Option.bind_some]
      have hw := hR.cost _ _ _ h4
      have hroom := hq.room
      have hfit : d + (q.pend.length + 1) + 1 < cap := by
        unfold Fits at hroom
        split at hroom <;> omega
      obtain ⟨b, l', r1, r2⟩ := renew_room (cap := cap) (d := d) (l := ⟨cur, se⟩ :: q.pend) (ip := r) (se := se) (by simpa using hfit)
      obtain ⟨r4, r5⟩ := renew_head r1
      have hpend : ∀ t ∈ l'.tail, Cost P P.insts.length P.insts.length t.inst (w t.inst) ∧ Armed A pre cs t.inst t.se := by
        intro t ht
        rcases r5 t ht with ht | rfl
        · exact hq.pend t ht
        · exact ⟨hw ▸ h4, fun y hy => hse.grp y (k4 y hy), hse.beg⟩
      unfold fork
      simp only
      rw [r1]
      simp only [Option.map_some, Option.bind_some]
      rcases r2 with ⟨rfl, r2⟩ | ⟨r2, hl', r3⟩
      · simp only [Bool.false_eq_true, if_false]
        rw [e3.symm.trans h2, Option.bind_some]
        have hm : l'.tail.map (·.inst) = q.pend.map (·.inst) := by
          rw [r4] at r2
          simpa using r2
        have hlen : l'.tail.length = q.pend.length := by simpa using congrArg List.length hm
        have hsum : (l'.tail.map fun t => w t.inst).sum = (q.pend.map fun t => w t.inst).sum := by
          have := congrArg (fun l => (l.map w).sum) hm
          simpa [List.map_map, Function.comp_def] using this
        refine chain_room hR hin hi hr hL f h k n1 _ _ (by omega) h3 ⟨fun y hy => hse.grp y (k3 y hy), hse.beg⟩ ⟨hq.same, hq.ic, hpend, hq.nl, hq.nodup, hq.len, ?_⟩
        simp only
        rw [hlen, hsum]
        exact hroom.less (by omega)
      · have ht : l'.tail = q.pend ++ [⟨r, se⟩] := by rw [hl']; rfl
        rw [ht] at hpend ⊢
        simp only [List.length_cons] at r3
        cases hb : b with
        | true =>
          simp only [if_true]
          refine ⟨_, rfl, ?_⟩
          show big = false
          cases hbig : big with
          | false => rfl
          | true =>
            rw [hbig] at hroom
            simp only [Fits, if_true] at hroom
            have := r3.1 hb
            omega
        | false =>
          simp only [Bool.false_eq_true, if_false]
          rw [e3.symm.trans h2, Option.bind_some]
          refine chain_room hR hin hi hr hL f h k n1 _ _ (by omega) h3 ⟨fun y hy => hse.grp y (k3 y hy), hse.beg⟩ ⟨hq.same, hq.ic, hpend, hq.nl, hq.nodup, hq.len, ?_⟩
          have hne : ¬ d + (q.pend.length + 1) + 1 = cap - 2 := fun e => by rw [r3.2 e] at hb; cases hb
          simp only [List.length_append, List.length_cons, List.length_nil, List.map_append, List.map_cons, List.map_nil, List.sum_append, List.sum_cons, List.sum_nil, hw]
          unfold Fits at *
          cases big with
          | true => simp only [if_true] at *; omega
          | false => simp only [Bool.false_eq_true, if_false] at *; omega

/-- What is left when all threads are executed. -/
structure NI (P : Prog) (A : Nat → List Nat) (L : List Nat) (pre : List Byte) (cs : List Nat) (cap r0 : Nat) (q : Mid) : Prop where
  same : Same P.icase r0 q.r
  ic : q.icase = P.icase
  nl : ∀ t ∈ q.nl, t.inst ∈ L ∧ Armed A pre cs t.inst t.se
  nodup : (q.nl.map (·.inst)).Nodup
  len : q.nl.length + 3 ≤ cap

def Done (P : Prog) (A : Nat → List Nat) (L : List Nat) (pre : List Byte) (cs : List Nat) (big : Bool) (cap r0 : Nat) : Out → Prop
  | .full => big = false
  | .ok q => NI P A L pre cs cap r0 q

theorem threads_room (hR : Room P A w L) (hin : Input E cs pre rest) (hi : i ≤ cs.length) (hr : rune E.m (off pre cs i) = some (r0, rn)) (hL : big = true → L.length + 3 ≤ cap) :
    ∀ (f d : Nat) (ts : List Thread) (q : Mid), cap < f + d → RI P A w L pre cs big cap r0 d 0 { q with pend := ts } →
    ∃ o, threads P E full cap (off pre cs i) f d ts q = some o ∧ Done P A L pre cs big cap r0 o
  | 0, d, ts, q, hf, hq => by
    have := hq.room
    unfold Fits at this
    simp only at this
    split at this <;> omega
  | f + 1, d, [], q, hf, hq => by
    rw [threads]
    exact ⟨_, rfl, hq.same, hq.ic, hq.nl, hq.nodup, hq.len⟩
  | f + 1, d, t :: ts, q, hf, hq => by
    rw [threads]
    obtain ⟨h1, h2⟩ := hq.pend t (by simp)
    obtain ⟨o, e1, e2⟩ := chain_room (d := d) (cur := t.inst) (full := full) hR hin hi hr hL (P.insts.length + 1) P.insts.length t.inst (w t.inst) t.se { q with pend := ts } (by omega) h1 h2
      ⟨hq.same, hq.ic, fun x hx => hq.pend x (by simp [show x ∈ ts from hx]), hq.nl, hq.nodup, hq.len, by
        have := hq.room
        simp only [List.length_cons, List.map_cons, List.sum_cons, Nat.zero_add] at this ⊢
        rwa [Nat.add_assoc, Nat.add_comm 1]⟩
    rw [e1, Option.bind_some]
    cases o with
    | full => exact ⟨_, rfl, e2⟩
    | ok q' =>
      simp only
      exact threads_room hR hin hi hr hL f (d + 1) q'.pend q' (by omega) e2


/-! ### the loop -/

theorem seek_def (hin : Input E cs pre rest) (hi : i ≤ cs.length) (hpl : Plain P E) (check : Bool) : ∃ o, seek P E check (off pre cs i) = some o := by
  unfold seek
  split
  · rcases hpl with hs | hst
    · have hz : E.m[off pre cs cs.length]? = some 0#8 := by
        rw [off_len]
        rcases hin.stop with ⟨-, junk, h⟩ | ⟨h, -⟩
        · rw [hin.mem, h, show pre.length + (text cs).length = (pre ++ text cs).length by simp, List.getElem?_append_right (Nat.le_refl _), Nat.sub_self]
          rfl
        · exact hs _ h
      have hle := off_le (pre := pre) hi (Nat.le_refl _)
      have hlt : off pre cs cs.length < E.m.length := (List.getElem?_eq_some_iff.1 hz).1
      have hf : ∀ p, ∃ o, findByte E.m p (E.m.length + 1) (off pre cs i) = some o := fun p => find_def hz _ _ hle (by omega)
      unfold startCheck
      split
      · exact ⟨_, rfl⟩
      · obtain ⟨o, h⟩ := hf _
        rw [h]; exact ⟨_, rfl⟩
      · obtain ⟨o, h⟩ := hf _
        rw [h]; exact ⟨_, rfl⟩
      · split
        · exact ⟨_, rfl⟩
        · obtain ⟨o, h⟩ := hf _
          rw [h]; exact ⟨_, rfl⟩
    · rw [hst]; exact ⟨_, rfl⟩
  · exact ⟨_, rfl⟩

theorem inject_room (hR : Room P A w L) (hi : i ≤ cs.length) {matched : Bool} {tl : List Thread}
    (htl : ∀ t ∈ tl, t.inst ∈ L ∧ Armed A pre cs t.inst t.se) (hnd : (tl.map (·.inst)).Nodup) (hlen : tl.length + 3 ≤ cap) :
    ∃ tl', inject P cap matched tl (off pre cs i) = some tl' ∧ (tl'.map (·.inst)).Nodup ∧ tl'.length ≤ tl.length + 1 ∧
      ∀ t ∈ tl', t.inst ∈ P.start :: L ∧ Armed A pre cs t.inst t.se := by
  unfold inject
  cases matched with
  | true => exact ⟨tl, rfl, hnd, by omega, fun t ht => ⟨List.mem_cons_of_mem _ (htl t ht).1, (htl t ht).2⟩⟩
  | false =>
    simp only [Bool.false_eq_true, if_false, renewEmpty]
    obtain ⟨b, l', r1, r2⟩ := renew_room (cap := cap) (d := 0) (l := tl) (ip := P.start) (se := ⟨off pre cs i, noSub⟩) (by omega)
    have hmem := (renew_facts r1).1
    rw [r1]
    refine ⟨l', rfl, ?_, ?_, ?_⟩
    · rcases r2 with ⟨-, r2⟩ | ⟨r2, rfl, -⟩
      · rw [r2]; exact hnd
      · rw [List.map_append, List.nodup_append]
        refine ⟨hnd, by simp, ?_⟩
        intro a ha b hb
        simp only [List.map_cons, List.map_nil, List.mem_singleton] at hb
        subst hb
        rintro rfl
        exact r2 ha
    · rcases r2 with ⟨-, r2⟩ | ⟨r2, rfl, -⟩
      · have := congrArg List.length r2
        simp only [List.length_map] at this
        omega
      · simp
    · intro t ht
      rcases hmem t ht with ht | rfl
      · exact ⟨List.mem_cons_of_mem _ (htl t ht).1, (htl t ht).2⟩
      · exact ⟨List.mem_cons_self, ⟨fun y hy => absurd (hR.first ▸ hy : y ∈ ([] : List Nat)) (by simp), i, hi, rfl⟩⟩

theorem loop_room (hR : Room P A w L) (hin : Input E cs pre rest) (hpl : Plain P E) (hcap : 3 ≤ cap)
    (hbig : big = true → L.length + (L.map w).sum + w P.start + 4 ≤ cap)
    (hsm : big = false → L.length + 4 ≤ cap ∨ (L.map w).sum + w P.start ≤ 1) :
    ∀ (f i : Nat) (check : Bool) (tl : List Thread) (matched : Bool) (mp : Option Match), i ≤ cs.length → E.m.length < f + off pre cs i →
    (∀ t ∈ tl, t.inst ∈ L ∧ Armed A pre cs t.inst t.se) → (tl.map (·.inst)).Nodup → tl.length + 3 ≤ cap →
    ∃ x, mainLoop P E full cap f (off pre cs i) check tl P.icase matched mp = some x ∧ (big = true → x.1 ≠ -1)
  | 0, i, check, tl, matched, mp, hi, hf, _, _, _ => by
    exfalso
    obtain ⟨r, n, hr⟩ := hin.rune_def hi
    obtain ⟨-, -, -, b, h4, -⟩ := rune_facts hr
    have := (List.getElem?_eq_some_iff.1 h4).1
    omega
  | f + 1, i, check, tl, matched, mp, hi, hf, htl, hnd, hlen => by
    rw [mainLoop]
    obtain ⟨o, ho⟩ := seek_def hin hi hpl check
    rw [ho, Option.bind_some]
    cases o with
    | none => exact ⟨_, rfl, fun _ => by cases matched <;> simp⟩
    | some s =>
      simp only
      obtain ⟨p1, p2, -⟩ := seek_pos hpl ((hin.pos hi).2 ⟨i, Nat.le_refl _, hi, rfl⟩) ho
      obtain ⟨j, hij, hj, rfl⟩ := (hin.pos hi).1 p1
      obtain ⟨r, n, hr⟩ := hin.rune_def hj
      rw [hr, Option.bind_some]
      obtain ⟨tl', e1, e2, e3, e4⟩ := inject_room (P := P) (i := j) (matched := matched) hR hj htl hnd hlen
      rw [e1, Option.bind_some]
      have hsum := nodup_sum w e2 (m := P.start :: L) (by
        intro x hx
        obtain ⟨t, ht, rfl⟩ := List.mem_map.1 hx
        exact (e4 t ht).1)
      have hlenL := (nodup_sum w hnd (m := L) (by
        intro x hx
        obtain ⟨t, ht, rfl⟩ := List.mem_map.1 hx
        exact (htl t ht).1)).1
      simp only [List.map_map, List.length_map, List.length_cons, List.map_cons, List.sum_cons, Function.comp_def] at hsum hlenL
      obtain ⟨o, q1, q2⟩ := threads_room (big := big) (cap := cap) (full := full) hR hin hj hr (fun hb => by have := hbig hb; omega) (cap + 1) 0 tl' ⟨r, P.icase, [], [], matched, mp⟩ (by omega)
        ⟨.inl rfl, rfl, fun t ht => ⟨by
            rcases List.mem_cons.1 (e4 t ht).1 with h | h
            · rw [h]; exact hR.start
            · exact hR.places _ h, (e4 t ht).2⟩, by simp, by simp, by simpa using hcap, by
          simp only [Fits]
          cases hb : big with
          | true =>
            have := hbig hb
            simp only [if_true]
            omega
          | false =>
            have := hsm hb
            simp only [Bool.false_eq_true, if_false]
            omega⟩
      rw [q1, Option.bind_some]
      cases o with
      | full =>
        refine ⟨_, rfl, fun hb => ?_⟩
        have : big = false := q2
        rw [hb] at this
        cases this
      | ok q =>
        simp only
        obtain ⟨s1, s2, s3, s4, s5⟩ := q2
        split
        · exact ⟨_, rfl, fun _ => by cases q.matched <;> simp⟩
        · rename_i hne
          have hjl : j < cs.length := by
            by_contra hge
            obtain rfl : j = cs.length := by omega
            rcases hin.at_end hr with h | ⟨-, h⟩
            · exact hne (.inl h)
            · exact hne (.inr ((same_zero s1).2 h))
          have hc := List.getElem?_eq_getElem hjl
          have hn : off pre cs (j + 1) = off pre cs j + n := by
            have h2 := hin.rune hc
            rw [hr] at h2
            rw [off_succ hc]
            simp only [Option.some.injEq, Prod.mk.injEq] at h2
            rw [h2.2]
          rw [← hn, s2]
          have := off_lt (pre := pre) (show j < j + 1 by omega) hjl
          exact loop_room hR hin hpl hcap hbig hsm f (j + 1) _ q.nl q.matched q.mp (by omega) (by omega) s3 s4 s5

/-- With room in the lists the matcher always gives an answer. -/
theorem exec_room (hR : Room P A w L) (hin : Input E cs pre rest) (hpl : Plain P E) (h1 : L.length + (L.map w).sum + w P.start ≤ 96)
    (h2 : L.length ≤ 6 ∨ (L.map w).sum + w P.start ≤ 1) (hi : i ≤ cs.length) :
    ∃ ret o, exec P E full (off pre cs i) true = some (ret, o) ∧ ret ≠ -1 := by
  unfold exec exec1
  obtain ⟨⟨r1, o1⟩, e1, -⟩ := loop_room (full := full) (cap := 10) (big := false) hR hin hpl (by omega) (by simp) (fun _ => by omega) (E.m.length + 2) i true [] false none hi (by omega) (by simp) (by simp) (by simp)
  rw [e1, Option.bind_some]
  split
  · rename_i h
    exact ⟨r1, o1, rfl, by simp only at h; omega⟩
  · obtain ⟨⟨r2, o2⟩, e2, h3⟩ := loop_room (full := full) (cap := 100) (big := true) hR hin hpl (by omega) (fun _ => by omega) (by simp) (E.m.length + 2) i true [] false none hi (by omega) (by simp) (by simp) (by simp)
    exact ⟨r2, o2, e2, h3 rfl⟩
end

/-- The program compiled for an expression. -/
theorem compile_room {cap n : Nat} {ic : Bool} {ts : List (Tok Op)} {P : Prog} {e : Re Op} (h : compile cap ic ts = .ok (P, n)) (hg : G 0 0 ts e n) (hU : Uniform P)
    (hcalm : ∀ o, Tok.one o ∈ ts → calm o) (hs : e.single = true) (hst : e.strict eatOp = true) :
    ∃ A w L, Room P A w L ∧ w P.start = e.forks eatOp 0 ∧ L.map w = e.all eatOp := by
  obtain ⟨hp, e0, l, hf, hopt, hic, hcase⟩ := compile_frag h
  obtain ⟨k', hO, -, hfin⟩ := optimize_inv ⟨rfl, fun _ => rfl, fun _ _ => rfl, fun i hi => by omega⟩ hopt
  rcases hcase with ⟨rfl, -⟩ | ⟨A, e', hg', hq, rfl⟩
  · exact absurd rfl (G_ne_nil hg)
  obtain ⟨rfl, -⟩ := G_unique hg hg'
  obtain rfl := hq.same (.inr hs)
  obtain ⟨m, l1, f2, g1, ⟨rfl, rfl, g3, g4⟩, g5⟩ := hf
  have hall : All calm A := G_all hg hcalm
  have hat : All (fun o => atom o = true) A := all_mono (fun o ho => ho.1) hall
  have hk : l ≤ k' := by
    by_contra hlt
    obtain ⟨o, q1, q2⟩ := frag_ops (p := fun o => o ≠ .fin) (by simp) (by simp) (by simp) (by simp) g1
      (all_mono (fun o ho e => by subst e; cases ho) hat) k' (by omega) (by omega)
    rw [hfin] at q1
    cases q1
    exact q2 rfl
  have hl : Linked hp P l := by
    refine ⟨hO.op, fun i n K hi hn hK => ?_⟩
    obtain ⟨n', K', q1, q2, q3⟩ := hO.done i (by omega)
    rw [hn] at q1
    cases q1
    rw [q3, q2.unique hK]
  have hsk : Sk hp l l := .here g4 (by simp)
  have hlen : P.insts.length = l + 1 := by rw [hO.len]; omega
  have hfc : Cost P P.insts.length 1 l 0 := .fin ((hl.op l).trans g4)
  have c1 := frag_cost (N := P.insts.length) (c := 0) (hK := 1) hl hall hst g1 (Nat.le_refl _) g5 hsk (by omega) (Nat.le_refl _) (.inr hfc)
  obtain ⟨L, c2, c3, c4⟩ := frag_places (N := P.insts.length) (c := 0) (hK := 1) hl hall hst g1 (Nat.le_refl _) g5 hsk (by omega) (Nat.le_refl _) hfc
  classical
  let w : Nat → Nat := fun pc => if h : ∃ n hh, Cost P P.insts.length hh pc n then h.choose else 0
  have hw : ∀ hh pc n, Cost P P.insts.length hh pc n → w pc = n := by
    intro hh pc n hc
    have hex : ∃ n hh, Cost P P.insts.length hh pc n := ⟨n, hh, hc⟩
    show (if h : ∃ n hh, Cost P P.insts.length hh pc n then h.choose else 0) = n
    rw [dif_pos hex]
    obtain ⟨h2, h3⟩ := hex.choose_spec
    exact h3.unique hc
  let O : Nat → List Nat := fun pc => if pc < l then openAt A 0 pc else []
  have hL : ∀ x ∈ L, w x.1 = x.2 := fun x hx => hw _ _ _ (c3 x hx)
  refine ⟨O, w, L.map (·.1) ++ (if A.open eatOp then [l] else []), ⟨hU, ?_, hw, ?_, ?_, ?_, ?_⟩, hw _ _ _ c1, ?_⟩
  · intro pc o ho hne
    have hpc : pc < l := by
      obtain ⟨I, e1, -, -⟩ := opAt_inst ho
      have := (List.getElem?_eq_some_iff.1 e1).1
      by_contra hge
      obtain rfl : pc = l := by omega
      rw [hl.op, g4] at ho
      cases ho
      exact hne rfl
    refine frag_keeps (A := O) (O := []) hl hat g1 (Nat.le_refl _) g5 hsk ?_ ?_ pc (by omega) hpc
    · intro pc _ h2
      show (if pc < l then openAt A 0 pc else []) = _
      rw [if_pos h2]; rfl
    · intro y hy
      have : O l = [] := if_neg (Nat.lt_irrefl _)
      rw [this] at hy
      exact hy
  · intro k hk
    rcases List.mem_append.1 hk with h1 | h1
    · obtain ⟨x, hx, rfl⟩ := List.mem_map.1 h1
      rw [hL x hx]
      exact c3 x hx
    · split at h1
      · obtain rfl := List.mem_singleton.1 h1
        rw [hw _ _ _ hfc]
        exact hfc.mono (by omega)
      · cases h1
  · intro pc o k h1 h2 h3
    have hpc : pc < l := by
      obtain ⟨I, e1, -, -⟩ := opAt_inst h1
      have := (List.getElem?_eq_some_iff.1 e1).1
      by_contra hge
      obtain rfl : pc = l := by omega
      rw [hl.op, g4] at h1
      cases h1
      cases h2
    rw [hl.op] at h1
    obtain ⟨k', q1, q2⟩ := c4 pc o (by omega) hpc h1 h2
    rw [h3] at q1
    cases q1
    rcases q2 with ⟨q2, rfl⟩ | q2
    · rw [q2]; simp
    · exact List.mem_append_left _ q2
  · rw [hw _ _ _ c1]
    exact c1.mono (by omega)
  · show (if P.start < l then openAt A 0 P.start else []) = []
    split
    · exact open_first g1
    · rfl
  · rw [List.map_append, List.map_map]
    unfold Re.all
    congr 1
    · rw [← c2]
      exact List.map_congr_left hL
    · split
      · simp [hw _ _ _ hfc]
      · rfl

end Verif.Regex
