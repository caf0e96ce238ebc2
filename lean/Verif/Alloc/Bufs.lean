import Verif.Alloc.World

/-! vec, stack, pqueue, deque and queue keep the books. -/

namespace Verif.Alloc

theorem obeys_static {K : Kind} {R : Rules K} (acts : List (Act K)) (h : ∀ a ∈ acts, ∀ w, okAct R w a) :
    ∀ w, Obeys R w acts := by
  induction acts with
  | nil => intro w; trivial
  | cons a as ih =>
    intro w
    exact ⟨h a (by simp) w, fun w' _ => ih (fun b hb => h b (by simp [hb])) w'⟩

theorem regrow_ok {es : Nat} {a : Ans} {m : Mem} {v : Buf} {n : Nat} {F : List Blk}
    (h : m.live.Perm (Buf.fp es v ++ F)) (hn : n * es ≠ 0 ∨ v.data = none ∨ a ≠ .fail) :
    ∃ m' v' b, Buf.regrow es a m v n = some (m', v', b) ∧ m'.live.Perm (Buf.fp es v' ++ F) ∧
      v'.aux = v.aux ∧ v'.size = v.size ∧
      (b = true → a ≠ .fail ∧ v'.data.isSome ∧ v'.cap = n) ∧ (b = false → a = .fail ∧ v' = v) := by
  obtain ⟨m', q, e, h1 | h1⟩ := realloc_ok a (n * es) h
  · obtain ⟨rfl, ha, h2, h3⟩ := h1
    refine ⟨m', v, false, by simp [Buf.regrow, e], ?_, rfl, rfl, by simp, fun _ => ⟨ha, rfl⟩⟩
    rcases hn with hn | hn | hn
    · exact h2 (.inl hn)
    · exact h2 (.inr hn)
    · exact absurd ha hn
  · obtain ⟨h2, ha, h3⟩ := h1
    exact ⟨m', { v with data := q, cap := n }, true, by simp [Buf.regrow, e, h2], h3, rfl, rfl,
      fun _ => ⟨ha, h2, rfl⟩, by simp⟩

/-! ## vec -/

/-- A vec has a block iff it has a capacity. -/
def Buf.Ok (v : Buf) : Prop := v.cap = 0 → v.data = none

/-- No condition. -/
def vecRules (es : Nat) : Rules (vec es) :=
  ⟨fun _ => True, fun _ _ => True, fun _ _ _ => True, fun _ _ _ => True, fun _ _ _ _ => True, fun _ _ => True,
   fun _ => True⟩

theorem vec_reserve_ok {es : Nat} (hes : 0 < es) {a : Ans} {m : Mem} {v : Buf} {n : Nat} {F : List Blk}
    (ho : v.Ok) (h : m.live.Perm (Buf.fp es v ++ F)) :
    ∃ m' v' b, Vec.reserve es a m v n = some (m', v', b) ∧ v'.Ok ∧ v'.aux = v.aux ∧
      m'.live.Perm (Buf.fp es v' ++ F) := by
  unfold Vec.reserve
  split
  · rename_i hc
    have hn : n ≠ 0 := by omega
    obtain ⟨m', v', b, e, h1, h2, h3, h4, h5⟩ := regrow_ok (a := a) (n := n) h
      (.inl (Nat.mul_ne_zero hn (by omega)))
    refine ⟨m', v', b, e, ?_, h2, h1⟩
    cases b with
    | true => intro h0; have := (h4 rfl).2.2; omega
    | false => rw [(h5 rfl).2]; exact ho
  · exact ⟨m, v, _, rfl, ho, rfl, h⟩

theorem vec_insert_ok {es : Nat} (hes : 0 < es) {a : Ans} {m : Mem} {v : Buf} {n : Nat} {F : List Blk}
    (ho : v.Ok) (h : m.live.Perm (Buf.fp es v ++ F)) :
    ∃ m' v', Vec.insertUninit es a m v n = some (m', v') ∧ v'.Ok ∧ v'.aux = v.aux ∧
      m'.live.Perm (Buf.fp es v' ++ F) := by
  unfold Vec.insertUninit
  split
  · obtain ⟨m', v', b, e, h1, h2, h3⟩ := vec_reserve_ok hes (a := a) (n := v.size * 3 / 2 + n) ho h
    rw [e]
    cases b
    · exact ⟨m', v', rfl, h1, h2, h3⟩
    · exact ⟨m', _, rfl, h1, h2, h3⟩
  · exact ⟨m, _, rfl, ho, rfl, h⟩

theorem vec_drop_ok {es : Nat} {m : Mem} {v : Buf} {F : List Blk} (ho : v.Ok)
    (h : m.live.Perm (Buf.fp es v ++ F)) : ∃ m', Vec.drop es m v = some m' ∧ m'.live.Perm F := by
  unfold Vec.drop
  split
  · rename_i hc
    refine ⟨m, rfl, ?_⟩
    simpa [Buf.fp, blk, ho hc] using h
  · exact free_ok h

theorem vec_un_ok {es : Nat} (hes : 0 < es) {as : Answers} {m : Mem} {v : Buf} {o : Vec.Op} {F : List Blk}
    (ho : v.Ok) (h : m.live.Perm (Buf.fp es v ++ F)) :
    ∃ m' v', Vec.un es as m v o = some (m', v') ∧ v'.Ok ∧ v'.aux = v.aux ∧ m'.live.Perm (Buf.fp es v' ++ F) := by
  cases o with
  | reserve n =>
    obtain ⟨m', v', b, e, h1, h2, h3⟩ := vec_reserve_ok hes (a := as 0) (n := n) ho h
    exact ⟨m', v', by simp [Vec.un, e], h1, h2, h3⟩
  | push =>
    unfold Vec.un
    simp only
    split
    · obtain ⟨m', v', b, e, h1, h2, h3⟩ := vec_reserve_ok hes (a := as 0) (n := v.size * 2 + 4) ho h
      rw [e]
      cases b
      · exact ⟨m', v', rfl, h1, h2, h3⟩
      · exact ⟨m', _, rfl, h1, h2, h3⟩
    · exact ⟨m, _, rfl, ho, rfl, h⟩
  | insert n => exact vec_insert_ok hes ho h
  | resize n =>
    unfold Vec.un
    simp only
    obtain ⟨m', v', b, e, h1, h2, h3⟩ := vec_reserve_ok hes (a := as 0) (n := n) ho h
    rw [e]
    cases b
    · exact ⟨m', v', rfl, h1, h2, h3⟩
    · exact ⟨m', _, rfl, h1, h2, h3⟩
  | shrink =>
    obtain ⟨m', v', b, e, h1, h2, h3⟩ := vec_reserve_ok hes (a := as 0) (n := v.size) ho h
    exact ⟨m', v', by simp [Vec.un, e], h1, h2, h3⟩
  | erase k => exact ⟨m, _, rfl, ho, rfl, h⟩
  | clear => exact ⟨m, _, rfl, ho, rfl, h⟩

theorem vec_lawful (es : Nat) (hes : 0 < es) : Lawful (vec es) (vecRules es) Buf.Ok Any where
  new a _ := ⟨fun _ => rfl, rfl⟩
  make as m n F _ _ h := by
    obtain ⟨m', v', b, e, h1, _, h2⟩ := vec_reserve_ok hes (a := as 0) (m := m) (v := Buf.zero 0) (n := n) (F := F)
      (fun _ => rfl) h
    exact ⟨m', v', by simp [vec, e], h1, h2⟩
  un as m s o F _ _ ho h := by
    obtain ⟨m', v', e, h1, _, h2⟩ := vec_un_ok hes (as := as) (o := o) ho h
    exact ⟨m', v', e, h1, h2⟩
  out as m s o F _ _ ho h := by
    cases o with
    | clone =>
      obtain ⟨m', v', e, h1, _, h2⟩ := vec_insert_ok hes (a := as 0) (m := m) (n := Buf.size s)
        (v := ({ (s : Buf) with data := none, size := 0, cap := 0 } : Buf)) (F := Buf.fp es s ++ F) (fun _ => rfl) h
      refine ⟨m', s, v', by simp [vec, Vec.out, e], ho, h1, h2.trans ?_⟩
      show (Buf.fp es v' ++ (Buf.fp es s ++ F)).Perm (Buf.fp es s ++ (Buf.fp es v' ++ F))
      rw [← List.append_assoc, ← List.append_assoc]
      exact List.Perm.append_right _ List.perm_append_comm
    | move => exact ⟨m, Buf.zero 0, s, rfl, fun _ => rfl, ho, h⟩
  bin as m s t o F _ _ hs ht h := by
    by_cases hd : Buf.data s = Buf.data t
    · exact ⟨m, s, t, by simp [vec, Vec.copy, hd], hs, ht, h⟩
    · obtain ⟨m', v', e, h1, _, h2⟩ := vec_insert_ok hes (a := as 0) (m := m) (n := Buf.size t)
        (v := { (s : Buf) with size := 0 }) (F := Buf.fp es t ++ F) hs h
      exact ⟨m', v', t, by simp [vec, Vec.copy, hd, e], h1, ht, h2⟩
  take m s t F _ _ hs ht h := by
    obtain ⟨m', e, h1⟩ := vec_drop_ok hs h
    exact ⟨m', t, by simp [vec, e], ht, h1⟩
  drop m s F _ _ hs h := vec_drop_ok hs h

/-! ## stack -/

/-- Without `i_aux` (`plain`) no condition; with it, no `_clone` and `_copy` (README: `i_no_clone`). -/
def stackRules (plain : Prop) (es : Nat) : Rules (stack es) :=
  ⟨fun a => plain → a = 0, fun _ _ => True, fun _ _ _ => True, fun _ _ o => plain ∨ o = .move,
   fun _ _ _ _ => plain, fun _ _ => True, fun _ => True⟩

/-- The `aux` member is not used. -/
def AuxOk (plain : Prop) (v : Buf) : Prop := plain → v.aux = 0

theorem stack_reserve_ok {es : Nat} (hes : 0 < es) {a : Ans} {m : Mem} {v : Buf} {n : Nat} {F : List Blk}
    (h : m.live.Perm (Buf.fp es v ++ F)) :
    ∃ m' v' b, Stack.reserve es a m v n = some (m', v', b) ∧ v'.aux = v.aux ∧ m'.live.Perm (Buf.fp es v' ++ F) := by
  unfold Stack.reserve
  split
  · rename_i hc
    have hn : n ≠ 0 := by omega
    obtain ⟨m', v', b, e, h1, h2, h3, h4, h5⟩ := regrow_ok (a := a) (n := n) h
      (.inl (Nat.mul_ne_zero hn (by omega)))
    exact ⟨m', v', b, e, h2, h1⟩
  · exact ⟨m, v, _, rfl, rfl, h⟩

theorem stack_un_ok {es : Nat} (hes : 0 < es) {as : Answers} {m : Mem} {v : Buf} {o : Stack.Op} {F : List Blk}
    (h : m.live.Perm (Buf.fp es v ++ F)) :
    ∃ m' v', Stack.un es as m v o = some (m', v') ∧ v'.aux = v.aux ∧ m'.live.Perm (Buf.fp es v' ++ F) := by
  cases o with
  | reserve n =>
    obtain ⟨m', v', b, e, h2, h3⟩ := stack_reserve_ok hes (a := as 0) (n := n) h
    exact ⟨m', v', by simp [Stack.un, e], h2, h3⟩
  | push =>
    unfold Stack.un
    simp only
    split
    · obtain ⟨m', v', b, e, h2, h3⟩ := stack_reserve_ok hes (a := as 0) (n := v.size * 3 / 2 + 4) h
      rw [e]
      cases b
      · exact ⟨m', v', rfl, h2, h3⟩
      · exact ⟨m', _, rfl, h2, h3⟩
    · exact ⟨m, _, rfl, rfl, h⟩
  | append n =>
    unfold Stack.un
    simp only
    split
    · obtain ⟨m', v', b, e, h2, h3⟩ := stack_reserve_ok hes (a := as 0) (n := v.size * 3 / 2 + n) h
      rw [e]
      cases b
      · exact ⟨m', v', rfl, h2, h3⟩
      · exact ⟨m', _, rfl, h2, h3⟩
    · exact ⟨m, _, rfl, rfl, h⟩
  | shrink =>
    obtain ⟨m', v', b, e, h2, h3⟩ := stack_reserve_ok hes (a := as 0) (n := v.size) h
    exact ⟨m', v', by simp [Stack.un, e], h2, h3⟩
  | erase k => exact ⟨m, _, rfl, rfl, h⟩
  | clear => exact ⟨m, _, rfl, rfl, h⟩

theorem stack_clone_ok {es : Nat} {a : Ans} {m : Mem} {v : Buf} {F : List Blk} (hv : v.aux = 0)
    (h : m.live.Perm F) : (Stack.clone es a m v).1.live.Perm (Buf.fp es (Stack.clone es a m v).2 ++ F) ∧
      (Stack.clone es a m v).2.aux = 0 := by
  unfold Stack.clone
  rcases malloc_cases a m 0 (v.size * es) with ⟨_, e⟩ | ⟨_, m', i, e, hl⟩
  · rw [e]; exact ⟨by simpa [Buf.fp, blk] using h, hv⟩
  · rw [e]; exact ⟨by simp [Buf.fp, blk, hl, hv, h], hv⟩

theorem stack_lawful (plain : Prop) (es : Nat) (hes : 0 < es) :
    Lawful (stack es) (stackRules plain es) (AuxOk plain) Any where
  new a h := ⟨h, rfl⟩
  make as m n F _ _ h := by
    rcases malloc_cases (as 0) m 0 (n * es) with ⟨_, e⟩ | ⟨_, m', i, e, hl⟩
    · exact ⟨m, ⟨none, 0, n, 0⟩, by simp [stack, Stack.withCapacity, e], fun _ => rfl,
        by simpa [stack, Buf.fp, blk] using h⟩
    · exact ⟨m', ⟨some i, 0, n, 0⟩, by simp [stack, Stack.withCapacity, e], fun _ => rfl,
        by simp [stack, Buf.fp, blk, hl, h]⟩
  un as m s o F _ _ ho h := by
    obtain ⟨m', v', e, h1, h2⟩ := stack_un_ok hes (as := as) (o := o) h
    exact ⟨m', v', e, fun hp => h1.trans (ho hp), h2⟩
  out as m s o F _ hr ho h := by
    cases o with
    | clone =>
      have hp : plain := hr.resolve_right (by simp)
      obtain ⟨h1, h2⟩ := stack_clone_ok (es := es) (a := as 0) (v := s) (ho hp) h
      refine ⟨_, s, _, rfl, ho, fun _ => h2, h1.trans ?_⟩
      show (Buf.fp es (Stack.clone es (as 0) m s).2 ++ (Buf.fp es s ++ F)).Perm
        (Buf.fp es s ++ (Buf.fp es (Stack.clone es (as 0) m s).2 ++ F))
      rw [← List.append_assoc, ← List.append_assoc]
      exact List.Perm.append_right _ List.perm_append_comm
    | move => exact ⟨m, Buf.zero 0, s, rfl, fun _ => rfl, ho, h⟩
  bin as m s t o F _ hr hs ht h := by
    by_cases hd : Buf.data s = Buf.data t
    · exact ⟨m, s, t, by simp [stack, Stack.copy, hd], hs, ht, h⟩
    · obtain ⟨m1, e, h1⟩ := free_ok h
      obtain ⟨h2, h3⟩ := stack_clone_ok (es := es) (a := as 0) (v := t) (ht hr) h1
      exact ⟨_, _, t, by simp [stack, Stack.copy, hd, Buf.free]; exact ⟨m1, e, rfl, rfl⟩, fun _ => h3, ht, h2⟩
  take m s t F _ _ hs ht h := by
    obtain ⟨m', e, h1⟩ := free_ok h
    exact ⟨m', t, by simp [stack, Buf.free]; exact ⟨m', e, rfl⟩, ht, h1⟩
  drop m s F _ _ hs h := free_ok h

/-! ## pqueue -/

/-- The calls that ask for no memory at all while there is a block: `realloc(p, 0)`. -/
def PQ.toZero (v : Buf) : PQ.Op → Prop
  | .reserve n => n = 0 ∧ v.size = 0 ∧ v.data.isSome
  | .shrink => v.size = 0 ∧ v.data.isSome
  | _ => False

/-- No refused `realloc` to zero bytes, no refusal where the code does not check, and with `i_aux` no
`_clone`. -/
def pqRules (plain : Prop) (es : Nat) : Rules (pqueue es) :=
  ⟨fun a => plain → a = 0, fun _ _ => True,
   fun s as o => (PQ.toZero s o ∨ o = .push) → as 0 ≠ .fail,
   fun _ as o => o = .move ∨ (plain ∧ as 0 ≠ .fail),
   fun _ _ as _ => plain ∧ as 0 ≠ .fail, fun _ _ => True, fun _ => True⟩

theorem pq_reserve_ok {es : Nat} (hes : 0 < es) {a : Ans} {m : Mem} {v : Buf} {n : Nat} {F : List Blk}
    (hz : n = 0 → v.size = 0 → v.data = none ∨ a ≠ .fail) (h : m.live.Perm (Buf.fp es v ++ F)) :
    ∃ m' v' b, PQ.reserve es a m v n = some (m', v', b) ∧ v'.aux = v.aux ∧ v'.size = v.size ∧
      m'.live.Perm (Buf.fp es v' ++ F) ∧ (a ≠ .fail → n ≤ v'.cap) := by
  unfold PQ.reserve
  split
  · rename_i hc
    exact ⟨m, v, true, rfl, rfl, rfl, h, fun _ => hc.2⟩
  · rename_i hc
    obtain ⟨m', v', b, e, h1, h2, h3, h4, h5⟩ := regrow_ok (a := a) (n := n) h (by
      by_cases hn : n = 0
      · exact .inr (hz hn (by omega))
      · exact .inl (Nat.mul_ne_zero hn (by omega)))
    refine ⟨m', v', b, e, h2, h3, h1, fun ha => ?_⟩
    cases b with
    | true => exact Nat.le_of_eq (h4 rfl).2.2.symm
    | false => exact absurd (h5 rfl).1 ha

theorem pq_un_ok {es : Nat} (hes : 0 < es) {as : Answers} {m : Mem} {v : Buf} {o : PQ.Op} {F : List Blk}
    (hr : (PQ.toZero v o ∨ o = .push) → as 0 ≠ .fail) (h : m.live.Perm (Buf.fp es v ++ F)) :
    ∃ m' v', PQ.un es as m v o = some (m', v') ∧ v'.aux = v.aux ∧ m'.live.Perm (Buf.fp es v' ++ F) := by
  cases o with
  | reserve n =>
    obtain ⟨m', v', b, e, h2, h3, h4, _⟩ := pq_reserve_ok hes (a := as 0) (n := n) (by
      intro h1 h2
      by_cases h3 : v.data = none
      · exact .inl h3
      · exact .inr (hr (.inl ⟨h1, h2, Option.isSome_iff_ne_none.2 h3⟩))) h
    exact ⟨m', v', by simp [PQ.un, e], h2, h4⟩
  | push =>
    unfold PQ.un
    simp only
    split
    · obtain ⟨m', v', b, e, h2, h3, h4, h5⟩ := pq_reserve_ok hes (a := as 0) (n := v.size * 3 / 2 + 4)
        (by intro h1; omega) h
      have h6 := h5 (hr (.inr rfl))
      rw [e]
      refine ⟨m', { v' with size := v'.size + 1 }, ?_, h2, h4⟩
      simp only [Option.bind_some]
      rw [if_pos (by omega)]
    · exact ⟨m, _, rfl, rfl, h⟩
  | shrink =>
    obtain ⟨m', v', b, e, h2, h3, h4, _⟩ := pq_reserve_ok hes (a := as 0) (n := v.size) (by
      intro h1 h2
      by_cases h3 : v.data = none
      · exact .inl h3
      · exact .inr (hr (.inl ⟨h1, Option.isSome_iff_ne_none.2 h3⟩))) h
    exact ⟨m', v', by simp [PQ.un, e], h2, h4⟩
  | erase k => exact ⟨m, _, rfl, rfl, h⟩
  | clear => exact ⟨m, _, rfl, rfl, h⟩

theorem pq_clone_ok {es : Nat} (hes : 0 < es) {a : Ans} {m : Mem} {v : Buf} {F : List Blk} (hv : v.aux = 0)
    (ha : a ≠ .fail) (h : m.live.Perm F) :
    ∃ m' v', PQ.clone es a m v = some (m', v') ∧ v'.aux = 0 ∧ m'.live.Perm (Buf.fp es v' ++ F) := by
  obtain ⟨m', v', b, e, h2, h3, h4, h5⟩ := pq_reserve_ok hes (a := a) (m := m) (v := Buf.zero 0) (n := v.size) (F := F)
    (fun _ _ => .inl rfl) h
  refine ⟨m', { v with data := v'.data, cap := v'.cap }, ?_, hv, ?_⟩
  · simp only [PQ.clone, e, Option.bind_some]
    rw [if_pos (h5 ha)]
  · simpa [Buf.fp, hv, h2, Buf.zero] using h4

theorem pq_lawful (plain : Prop) (es : Nat) (hes : 0 < es) :
    Lawful (pqueue es) (pqRules plain es) (AuxOk plain) Any where
  new a h := ⟨h, rfl⟩
  make as m n F _ _ h := by
    obtain ⟨m', v', b, e, h2, h3, h4, _⟩ := pq_reserve_ok hes (a := as 0) (m := m) (v := Buf.zero 0) (n := n) (F := F)
      (fun _ _ => .inl rfl) h
    exact ⟨m', v', by simp [pqueue, e], fun _ => h2, h4⟩
  un as m s o F _ hr ho h := by
    obtain ⟨m', v', e, h1, h2⟩ := pq_un_ok hes (as := as) (o := o) hr h
    exact ⟨m', v', e, fun hp => h1.trans (ho hp), h2⟩
  out as m s o F _ hr ho h := by
    cases o with
    | clone =>
      obtain ⟨hp, ha⟩ := hr.resolve_left (by simp)
      obtain ⟨m', v', e, h1, h2⟩ := pq_clone_ok hes (v := s) (ho hp) ha h
      refine ⟨m', s, v', by simp [pqueue, PQ.out, e], ho, fun _ => h1, h2.trans ?_⟩
      show (Buf.fp es v' ++ (Buf.fp es s ++ F)).Perm (Buf.fp es s ++ (Buf.fp es v' ++ F))
      rw [← List.append_assoc, ← List.append_assoc]
      exact List.Perm.append_right _ List.perm_append_comm
    | move => exact ⟨m, Buf.zero 0, s, rfl, fun _ => rfl, ho, h⟩
  bin as m s t o F _ hr hs ht h := by
    by_cases hd : Buf.data s = Buf.data t
    · exact ⟨m, s, t, by simp [pqueue, PQ.copy, hd], hs, ht, h⟩
    · obtain ⟨m1, e, h1⟩ := free_ok h
      obtain ⟨m', v', e2, h2, h3⟩ := pq_clone_ok hes (v := t) (ht hr.1) hr.2 h1
      refine ⟨m', v', t, ?_, fun _ => h2, ht, h3⟩
      simp only [pqueue, PQ.copy, if_neg hd, Buf.free]
      erw [e]
      simp [e2]
  take m s t F _ _ hs ht h := by
    obtain ⟨m', e, h1⟩ := free_ok h
    exact ⟨m', t, by simp [pqueue, Buf.free]; exact ⟨m', e, rfl⟩, ht, h1⟩
  drop m s F _ _ hs h := free_ok h

/-! ## deque -/

/-- Without `i_aux` no condition; with it, no `_clone`, `_copy` and `_shrink_to_fit`. -/
def dequeRules (plain : Prop) (es : Nat) (np2 : Nat → Nat) : Rules (deque es np2) :=
  ⟨fun a => plain → a = 0, fun _ _ => True, fun _ _ o => plain ∨ o ≠ .shrink, fun _ _ o => plain ∨ o = .move,
   fun _ _ _ _ => plain, fun _ _ => True, fun _ => True⟩

theorem deq_reserve_ok {es : Nat} (hes : 0 < es) {np2 : Nat → Nat} {a : Ans} {m : Mem} {q : Deq} {n : Nat}
    {F : List Blk} (h : m.live.Perm (Deq.fp es q ++ F)) :
    ∃ m' q' b, Deq.reserve es np2 a m q n = some (m', q', b) ∧ q'.aux = q.aux ∧ m'.live.Perm (Deq.fp es q' ++ F) := by
  unfold Deq.reserve
  split
  · exact ⟨m, q, _, rfl, rfl, h⟩
  · rename_i hc
    have hn : np2 (n + 1) * es ≠ 0 := Nat.mul_ne_zero (by omega) (by omega)
    obtain ⟨m', p, e, h1 | h1⟩ := realloc_ok a (np2 (n + 1) * es) h
    · obtain ⟨rfl, ha, h2, h3⟩ := h1
      exact ⟨m', q, false, by simp [e], rfl, h2 (.inl hn)⟩
    · obtain ⟨h2, ha, h3⟩ := h1
      refine ⟨m', { q with cbuf := p, capmask := np2 (n + 1) - 1 }, true, by simp [e, h2], rfl, ?_⟩
      simp only [Deq.fp]
      rw [show np2 (n + 1) - 1 + 1 = np2 (n + 1) by omega]
      exact h3

theorem deq_un_ok {es : Nat} (hes : 0 < es) {np2 : Nat → Nat} {as : Answers} {m : Mem} {q : Deq} {o : Deq.Op}
    {F : List Blk} (hr : q.aux = 0 ∨ o ≠ .shrink) (h : m.live.Perm (Deq.fp es q ++ F)) :
    ∃ m' q', Deq.un es np2 as m q o = some (m', q') ∧ q'.aux = q.aux ∧ m'.live.Perm (Deq.fp es q' ++ F) := by
  cases o with
  | reserve n =>
    obtain ⟨m', v', b, e, h2, h3⟩ := deq_reserve_ok hes (np2 := np2) (a := as 0) (n := n) h
    exact ⟨m', v', by simp [Deq.un, e], h2, h3⟩
  | push =>
    unfold Deq.un
    simp only
    split
    · obtain ⟨m', v', b, e, h2, h3⟩ := deq_reserve_ok hes (np2 := np2) (a := as 0) (n := q.capmask + 3) h
      rw [e]
      cases b
      · exact ⟨m', v', rfl, h2, h3⟩
      · exact ⟨m', _, rfl, h2, h3⟩
    · exact ⟨m, _, rfl, rfl, h⟩
  | insert n =>
    unfold Deq.un
    simp only
    split
    · obtain ⟨m', v', b, e, h2, h3⟩ := deq_reserve_ok hes (np2 := np2) (a := as 0) (n := q.size + n) h
      rw [e]
      cases b
      · exact ⟨m', v', rfl, h2, h3⟩
      · exact ⟨m', _, rfl, h2, h3⟩
    · exact ⟨m, _, rfl, rfl, h⟩
  | shrink =>
    have hq : q.aux = 0 := hr.resolve_right (by simp)
    unfold Deq.un
    simp only
    split
    · exact ⟨m, q, rfl, rfl, h⟩
    · obtain ⟨m', v', b, e, h2, h3⟩ := deq_reserve_ok hes (np2 := np2) (a := as 0) (m := m) (q := Deq.zero 0)
        (n := q.size) (F := Deq.fp es q ++ F) h
      rw [e]
      simp only [Option.bind_some]
      split
      · have h4 : m'.live.Perm (Deq.fp es q ++ (Deq.fp es v' ++ F)) := by
          refine h3.trans ?_
          rw [← List.append_assoc, ← List.append_assoc]
          exact List.Perm.append_right _ List.perm_append_comm
        obtain ⟨m2, e2, h5⟩ := free_ok h4
        refine ⟨m2, { v' with size := q.size }, ?_, h2.trans hq.symm, h5⟩
        rw [Deq.free, e2]; rfl
      · rename_i hn
        refine ⟨m', q, rfl, rfl, ?_⟩
        have : v'.cbuf = none := by simpa using hn
        simpa [Deq.fp, this, blk] using h3
  | erase k => exact ⟨m, _, rfl, rfl, h⟩
  | clear => exact ⟨m, _, rfl, rfl, h⟩

theorem deq_clone_ok {es : Nat} (hes : 0 < es) {np2 : Nat → Nat} {a : Ans} {m : Mem} {q : Deq} {F : List Blk}
    (hq : q.aux = 0) (h : m.live.Perm F) :
    ∃ m' q', Deq.clone es np2 a m q = some (m', q') ∧ q'.aux = 0 ∧ m'.live.Perm (Deq.fp es q' ++ F) := by
  obtain ⟨m', v', b, e, h2, h3⟩ := deq_reserve_ok hes (np2 := np2) (a := a) (m := m) (q := Deq.zero 0) (n := q.size)
    (F := F) h
  refine ⟨m', { q with cbuf := v'.cbuf, capmask := v'.capmask }, by simp [Deq.clone, e], hq, ?_⟩
  simpa [Deq.fp, hq, h2, Deq.zero] using h3

/-- The `aux` member is not used. -/
def DeqOk (plain : Prop) (q : Deq) : Prop := plain → q.aux = 0

theorem deque_lawful (plain : Prop) (es : Nat) (np2 : Nat → Nat) (hes : 0 < es) :
    Lawful (deque es np2) (dequeRules plain es np2) (DeqOk plain) Any where
  new a h := ⟨h, rfl⟩
  make as m n F _ _ h := by
    obtain ⟨m', v', b, e, h2, h3⟩ := deq_reserve_ok hes (np2 := np2) (a := as 0) (m := m) (q := Deq.zero 0) (n := n)
      (F := F) h
    exact ⟨m', v', by simp [deque, e], fun _ => h2, h3⟩
  un as m s o F _ hr ho h := by
    obtain ⟨m', v', e, h1, h2⟩ := deq_un_ok hes (np2 := np2) (as := as) (q := s) (o := o) (hr.imp_left ho) h
    exact ⟨m', v', e, fun hp => h1.trans (ho hp), h2⟩
  out as m s o F _ hr ho h := by
    cases o with
    | clone =>
      have hp : plain := hr.resolve_right (by simp)
      obtain ⟨m', v', e, h1, h2⟩ := deq_clone_ok hes (np2 := np2) (a := as 0) (q := s) (ho hp) h
      refine ⟨m', s, v', by simp [deque, Deq.out, e], ho, fun _ => h1, h2.trans ?_⟩
      show (Deq.fp es v' ++ (Deq.fp es s ++ F)).Perm (Deq.fp es s ++ (Deq.fp es v' ++ F))
      rw [← List.append_assoc, ← List.append_assoc]
      exact List.Perm.append_right _ List.perm_append_comm
    | move => exact ⟨m, Deq.zero 0, s, rfl, fun _ => rfl, ho, h⟩
  bin as m s t o F _ hr hs ht h := by
    by_cases hd : Deq.cbuf s = Deq.cbuf t
    · exact ⟨m, s, t, by simp [deque, Deq.copy, hd], hs, ht, h⟩
    · obtain ⟨m1, e, h1⟩ := free_ok h
      obtain ⟨m', v', e2, h2, h3⟩ := deq_clone_ok hes (np2 := np2) (a := as 0) (q := t) (ht hr) h1
      refine ⟨m', v', t, ?_, fun _ => h2, ht, h3⟩
      simp only [deque, Deq.copy, if_neg hd, Deq.free]
      erw [e]
      simp [e2]
  take m s t F _ _ hs ht h := by
    obtain ⟨m', e, h1⟩ := free_ok h
    exact ⟨m', t, by simp [deque, Deq.free]; exact ⟨m', e, rfl⟩, ht, h1⟩
  drop m s F _ _ hs h := free_ok h

end Verif.Alloc
