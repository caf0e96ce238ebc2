import Verif.Alloc.Nodes

/-! cstr, cbits and cregex keep the books. -/

namespace Verif.Alloc

/-! ## Addresses are not used twice -/

/-- Different blocks have different addresses, and the next address is new. -/
def Good (m : Mem) : Prop := (m.live.map (·.id)).Nodup ∧ ∀ b ∈ m.live, b.id < m.next

theorem malloc_good {a : Ans} {m : Mem} {c n : Nat} (h : Good m) : Good (malloc a m c n).1 := by
  unfold malloc
  split
  · exact h
  · refine ⟨?_, ?_⟩
    · simp only [List.map_cons, List.nodup_cons]
      refine ⟨?_, h.1⟩
      intro hm
      obtain ⟨b, hb, e⟩ := List.mem_map.1 hm
      have := h.2 b hb
      omega
    · intro b hb
      rcases List.mem_cons.1 hb with rfl | hb
      · simp
      · have := h.2 b hb
        simp only
        omega

theorem erase_good {m : Mem} {x : Blk} (h : Good m) : Good { m with live := m.live.erase x } :=
  ⟨h.1.sublist (List.Sublist.map _ List.erase_sublist), fun b hb => h.2 b (List.mem_of_mem_erase hb)⟩

theorem free_good {m m' : Mem} {c n : Nat} {p : Option Nat} (h : Good m) (e : free m c p n = some m') : Good m' := by
  cases p with
  | none => cases e; exact h
  | some i =>
    simp only [free] at e
    split at e
    · cases e; exact erase_good h
    · exact absurd e (by simp)

theorem realloc_good {a : Ans} {m : Mem} {c o n : Nat} {p : Option Nat} {r : Mem × Option Nat} (h : Good m)
    (e : realloc a m c p o n = some r) : Good r.1 := by
  cases p with
  | none => cases e; exact malloc_good h
  | some i =>
    simp only [realloc] at e
    split at e
    · rename_i hm
      cases a with
      | fail =>
        simp only at e
        split at e
        · cases e; exact erase_good h
        · cases e; exact h
      | same =>
        cases e
        have hp := List.perm_cons_erase hm
        refine ⟨?_, ?_⟩
        · have := (hp.map (·.id)).nodup_iff.1 h.1
          simpa using this
        · intro b hb
          rcases List.mem_cons.1 hb with rfl | hb
          · exact h.2 ⟨i, o, c⟩ hm
          · exact h.2 b (List.mem_of_mem_erase hb)
      | moved =>
        cases e
        have h2 : Good { m with live := m.live.erase ⟨i, o, c⟩ } := erase_good h
        refine ⟨?_, ?_⟩
        · simp only [List.map_cons, List.nodup_cons]
          refine ⟨?_, h2.1⟩
          intro hm
          obtain ⟨b, hb, e⟩ := List.mem_map.1 hm
          have := h2.2 b hb
          simp only at this
          omega
        · intro b hb
          rcases List.mem_cons.1 hb with rfl | hb
          · simp
          · have := h2.2 b hb
            simp only at this ⊢
            omega
    · exact absurd e (by simp)

/-- Two variables hold different blocks. -/
theorem apart {m : Mem} {A B F : List Blk} (hg : Good m) (h : m.live.Perm (A ++ (B ++ F))) :
    ∀ x ∈ A, ∀ y ∈ B, x.id ≠ y.id := by
  have h3 : (m.live.map (·.id)).Perm (A.map (·.id) ++ (B.map (·.id) ++ F.map (·.id))) := by
    have := h.map (fun x : Blk => x.id)
    simpa only [List.map_append] using this
  have h4 := h3.nodup_iff.1 hg.1
  intro x hx y hy e
  have h5 := (List.nodup_append.1 h4).2.2 x.id (List.mem_map_of_mem hx) y.id
    (List.mem_append_left _ (List.mem_map_of_mem hy))
  exact h5 e

/-! ## cstr -/

/-- The functions of cstr do not check for refusals. -/
def cstrRules : Rules cstr :=
  ⟨fun _ => True, fun as _ => as 0 ≠ .fail, fun _ as _ => as 0 ≠ .fail, fun _ as o => o = .move ∨ as 0 ≠ .fail,
   fun _ _ as _ => as 0 ≠ .fail, fun _ _ => True, fun _ => True⟩

/-- A long string has a buffer that is larger than a short one. -/
def Str.Ok (s : Str) : Prop := ∀ l, s.lon = some l → l.1.isSome ∧ Str.sCap < l.2

theorem str_init_ok {a : Ans} {m : Mem} {len c : Nat} {F : List Blk} (ha : a ≠ .fail) (h : m.live.Perm F) :
    ∃ m' s, Str.init a m len c = some (m', s) ∧ s.Ok ∧ m'.live.Perm (Str.fp s ++ F) := by
  unfold Str.init
  split
  · rename_i hc
    rcases malloc_cases a m 0 (c + 1) with ⟨hf, _⟩ | ⟨_, m', i, e, hl⟩
    · exact absurd hf ha
    · refine ⟨m', ⟨some (some i, c), len⟩, by simp [e], ?_, ?_⟩
      · intro l hl; cases hl; exact ⟨rfl, hc⟩
      · rw [hl]; exact List.Perm.cons _ h
  · exact ⟨m, ⟨none, len⟩, rfl, by intro l hl; simp at hl, h⟩

theorem str_reserve_ok {a : Ans} {m : Mem} {s : Str} {c : Nat} {F : List Blk} (ha : a ≠ .fail) (ho : s.Ok)
    (h : m.live.Perm (Str.fp s ++ F)) :
    ∃ m' s', Str.reserve a m s c = some (m', s', true) ∧ s'.Ok ∧ m'.live.Perm (Str.fp s' ++ F) := by
  obtain ⟨lon, size⟩ := s
  cases lon with
  | none =>
    simp only [Str.reserve]
    split
    · rename_i hc
      rcases malloc_cases a m 0 (c + 1) with ⟨hf, _⟩ | ⟨_, m', i, e, hl⟩
      · exact absurd hf ha
      · refine ⟨m', ⟨some (some i, c), size⟩, by simp [e], ?_, ?_⟩
        · intro l hl; cases hl; exact ⟨rfl, hc⟩
        · rw [hl]; exact List.Perm.cons _ h
    · exact ⟨m, _, rfl, ho, h⟩
  | some l =>
    simp only [Str.reserve]
    obtain ⟨h1, h2⟩ := ho l rfl
    split
    · rename_i hc
      have h' : m.live.Perm (blk l.1 (l.2 + 1) 0 ++ F) := h
      obtain ⟨m', q, e, h3 | h3⟩ := realloc_ok a (c + 1) h'
      · exact absurd h3.2.1 ha
      · obtain ⟨h4, _, h5⟩ := h3
        refine ⟨m', ⟨some (q, c), size⟩, by simp [e, h4], ?_, h5⟩
        intro l hl; cases hl; exact ⟨h4, by simp only; omega⟩
    · exact ⟨m, _, by rw [h1], ho, h⟩

theorem str_ok_size {s : Str} (n : Nat) (ho : s.Ok) : ({ s with size := n } : Str).Ok := ho

theorem str_assign_ok {a : Ans} {m : Mem} {s : Str} {len : Nat} {F : List Blk} (ha : a ≠ .fail) (ho : s.Ok)
    (h : m.live.Perm (Str.fp s ++ F)) :
    ∃ m' s', Str.assign a m s len = some (m', s') ∧ s'.Ok ∧ m'.live.Perm (Str.fp s' ++ F) := by
  obtain ⟨m', s', e, h1, h2⟩ := str_reserve_ok (c := len) ha ho h
  exact ⟨m', { s' with size := len }, by simp [Str.assign, e], str_ok_size _ h1, h2⟩

theorem str_drop_ok {m : Mem} {s : Str} {F : List Blk} (h : m.live.Perm (Str.fp s ++ F)) :
    ∃ m', Str.drop m s = some m' ∧ m'.live.Perm F := by
  obtain ⟨lon, size⟩ := s
  cases lon with
  | none => exact ⟨m, rfl, h⟩
  | some l => exact free_ok h

theorem str_un_ok {as : Answers} {m : Mem} {s : Str} {o : Str.Op} {F : List Blk} (ha : as 0 ≠ .fail) (ho : s.Ok)
    (h : m.live.Perm (Str.fp s ++ F)) :
    ∃ m' s', Str.un as m s o = some (m', s') ∧ s'.Ok ∧ m'.live.Perm (Str.fp s' ++ F) := by
  cases o with
  | reserve n =>
    obtain ⟨m', s', e, h1, h2⟩ := str_reserve_ok (c := n) ha ho h
    exact ⟨m', s', by simp [Str.un, e], h1, h2⟩
  | assign n => exact str_assign_ok ha ho h
  | append len =>
    simp only [Str.un]
    split
    · obtain ⟨m', s', e, h1, h2⟩ := str_reserve_ok (c := s.size * 3 / 2 + len) ha ho h
      exact ⟨m', { s' with size := s.size + len }, by simp [e], str_ok_size _ h1, h2⟩
    · exact ⟨m, _, rfl, str_ok_size _ ho, h⟩
  | resize n =>
    simp only [Str.un]
    split
    · obtain ⟨m', s', e, h1, h2⟩ := str_reserve_ok (c := n) ha ho h
      exact ⟨m', { s' with size := n }, by simp [e], str_ok_size _ h1, h2⟩
    · exact ⟨m, _, rfl, str_ok_size _ ho, h⟩
  | erase k => exact ⟨m, _, rfl, str_ok_size _ ho, h⟩
  | shrink =>
    obtain ⟨lon, size⟩ := s
    cases lon with
    | none => exact ⟨m, _, rfl, ho, h⟩
    | some l =>
      obtain ⟨h1, h2⟩ := ho l rfl
      have h' : m.live.Perm (blk l.1 (l.2 + 1) 0 ++ F) := h
      simp only [Str.un]
      split
      · exact ⟨m, _, rfl, ho, h⟩
      · split
        · rename_i hc
          obtain ⟨m', q, e, h3 | h3⟩ := realloc_ok (as 0) (size + 1) h'
          · exact absurd h3.2.1 ha
          · obtain ⟨h4, _, h5⟩ := h3
            refine ⟨m', ⟨some (q, size), size⟩, by simp [e], ?_, h5⟩
            intro l hl; cases hl; exact ⟨h4, hc⟩
        · obtain ⟨m', e, h3⟩ := free_ok h'
          exact ⟨m', ⟨none, size⟩, by simp [h2, e], by intro l hl; simp at hl, h3⟩

theorem str_take_ok {m : Mem} {s t : Str} {F : List Blk} (hg : Good m) (hs : s.Ok) (ht : t.Ok)
    (h : m.live.Perm (Str.fp s ++ (Str.fp t ++ F))) :
    ∃ m', Str.take m s t = some (m', t) ∧ m'.live.Perm (Str.fp t ++ F) := by
  have hr := apart hg h
  obtain ⟨lon, size⟩ := s
  cases lon with
  | none => exact ⟨m, rfl, h⟩
  | some l =>
    have h' : m.live.Perm (blk l.1 (l.2 + 1) 0 ++ (Str.fp t ++ F)) := h
    obtain ⟨m', e, h3⟩ := free_ok h'
    refine ⟨m', ?_, h3⟩
    simp only [Str.take]
    rw [if_neg, e]
    · rfl
    · obtain ⟨i, hi⟩ := Option.isSome_iff_exists.1 (hs l rfl).1
      obtain ⟨tl, ts⟩ := t
      cases tl with
      | none => simp [hi]
      | some k =>
        obtain ⟨j, hj⟩ := Option.isSome_iff_exists.1 (ht k rfl).1
        have := hr ⟨i, l.2 + 1, 0⟩ (by simp [Str.fp, hi, blk]) ⟨j, k.2 + 1, 0⟩ (by simp [Str.fp, hj, blk])
        simp only [Option.bind_some, hi, hj]
        intro e
        cases e
        exact this rfl

theorem cstr_lawful : Lawful cstr cstrRules Str.Ok Good where
  new a _ := ⟨by intro l hl; simp [cstr] at hl, rfl⟩
  make as m n F _ hr h := str_init_ok hr h
  un as m s o F _ hr ho h := str_un_ok hr ho h
  out as m s o F _ hr ho h := by
    cases o with
    | clone =>
      obtain ⟨m', s', e, h1, h2⟩ := str_init_ok (len := Str.size s) (c := Str.size s) (hr.resolve_left (by simp)) h
      exact ⟨m', s, s', by simp [cstr, Str.out, e], ho, h1, h2.trans perm_swap⟩
    | move => exact ⟨m, ⟨none, 0⟩, s, rfl, by intro l hl; simp at hl, ho, h⟩
  bin as m s t o F _ hr hs ht h := by
    obtain ⟨m', s', e, h1, h2⟩ := str_assign_ok (len := Str.size t) hr hs h
    exact ⟨m', s', t, by simp [cstr, e], h1, ht, h2⟩
  take m s t F hg _ hs ht h := by
    obtain ⟨m', e, h1⟩ := str_take_ok hg hs ht h
    exact ⟨m', t, e, ht, h1⟩
  drop m s F _ _ _ h := str_drop_ok h

theorem str_init_good {a : Ans} {m : Mem} {len c : Nat} {r : Mem × Str} (h : Good m)
    (e : Str.init a m len c = some r) : Good r.1 := by
  unfold Str.init at e
  split at e
  · split at e
    · cases e; exact malloc_good h
    · cases e
  · cases e; exact h

theorem str_reserve_good {a : Ans} {m : Mem} {s : Str} {c : Nat} {r : Mem × Str × Bool} (h : Good m)
    (e : Str.reserve a m s c = some r) : Good r.1 := by
  unfold Str.reserve at e
  split at e
  · split at e
    · simp only [Option.map_eq_some_iff] at e
      obtain ⟨q, e, rfl⟩ := e
      exact realloc_good h e
    · cases e; exact h
  · split at e
    · split at e
      · cases e; exact malloc_good h
      · cases e
    · cases e; exact h

theorem str_assign_good {a : Ans} {m : Mem} {s : Str} {len : Nat} {r : Mem × Str} (h : Good m)
    (e : Str.assign a m s len = some r) : Good r.1 := by
  simp only [Str.assign, Option.map_eq_some_iff] at e
  obtain ⟨q, e, rfl⟩ := e
  have := str_reserve_good h e
  split <;> exact this

theorem str_un_good {as : Answers} {m : Mem} {s : Str} {o : Str.Op} {r : Mem × Str} (h : Good m)
    (e : Str.un as m s o = some r) : Good r.1 := by
  cases o with
  | reserve n =>
    simp only [Str.un, Option.map_eq_some_iff] at e
    obtain ⟨q, e, rfl⟩ := e
    exact str_reserve_good h e
  | assign n => exact str_assign_good h e
  | append len =>
    simp only [Str.un] at e
    split at e
    · simp only [Option.map_eq_some_iff] at e
      obtain ⟨q, e, rfl⟩ := e
      have := str_reserve_good h e
      split <;> exact this
    · cases e; exact h
  | resize n =>
    simp only [Str.un] at e
    split at e
    · simp only [Option.map_eq_some_iff] at e
      obtain ⟨q, e, rfl⟩ := e
      have := str_reserve_good h e
      split <;> exact this
    · cases e; exact h
  | erase k => cases e; exact h
  | shrink =>
    simp only [Str.un] at e
    split at e
    · cases e; exact h
    · split at e
      · cases e; exact h
      · split at e
        · simp only [Option.map_eq_some_iff] at e
          obtain ⟨q, e, rfl⟩ := e
          exact realloc_good h e
        · split at e
          · simp only [Option.map_eq_some_iff] at e
            obtain ⟨q, e, rfl⟩ := e
            exact free_good h e
          · cases e; exact h

theorem str_out_good {as : Answers} {m : Mem} {s : Str} {o : Vec.Op1} {r : Mem × Str × Str} (h : Good m)
    (e : Str.out as m s o = some r) : Good r.1 := by
  cases o with
  | clone =>
    simp only [Str.out, Option.map_eq_some_iff] at e
    obtain ⟨q, e, rfl⟩ := e
    exact str_init_good h e
  | move => cases e; exact h

theorem str_take_good {m : Mem} {s t : Str} {r : Mem × Str} (h : Good m) (e : Str.take m s t = some r) :
    Good r.1 := by
  simp only [Str.take] at e
  split at e
  · cases e; exact h
  · split at e
    · cases e; exact h
    · simp only [Option.map_eq_some_iff] at e
      obtain ⟨q, e, rfl⟩ := e
      exact free_good h e

theorem str_drop_good {m r : Mem} {s : Str} (h : Good m) (e : Str.drop m s = some r) : Good r := by
  simp only [Str.drop] at e
  split at e
  · cases e; exact h
  · exact free_good h e

theorem str_copy_good {as : Answers} {m : Mem} {s t : Str} {r : Mem × Str × Str} (h : Good m)
    (e : ((Str.assign (as 0) m s t.size).map fun r => (r.1, r.2, t)) = some r) : Good r.1 := by
  simp only [Option.map_eq_some_iff] at e
  obtain ⟨q, e, rfl⟩ := e
  exact str_assign_good h e

theorem cstr_keeps : Keeps cstr Good where
  make _ _ _ _ h e := str_init_good h e
  un _ _ _ _ _ h e := str_un_good h e
  out _ _ _ _ _ h e := str_out_good h e
  bin as _ _ _ _ _ h e := str_copy_good (as := as) h e
  take _ _ _ _ h e := str_take_good h e
  drop _ _ _ h e := str_drop_good h e

/-! ## cbits -/

/-- No `realloc` to zero bytes, and no refusal where the code does not check. -/
def cbitsRules : Rules cbits :=
  ⟨fun _ => True, fun as n => n = 0 ∨ as 0 ≠ .fail,
   fun b as n => as 0 ≠ .fail ∨ n ≠ (0 : Nat) ∨ Bits.buffer b = none,
   fun b as o => o = .move ∨ Bits.size b = 0 ∨ as 0 ≠ .fail,
   fun _ c as _ => Bits.size c = 0 ∨ as 0 ≠ .fail, fun _ _ => True, fun _ => True⟩

theorem bits_with_ok {a : Ans} {m : Mem} {n : Nat} {F : List Blk} (ha : n = 0 ∨ a ≠ .fail) (h : m.live.Perm F) :
    ∃ m' b, Bits.withSize a m n = some (m', b) ∧ m'.live.Perm (Bits.fp b ++ F) := by
  unfold Bits.withSize
  rcases malloc_cases a m 0 (Bits.bytes n) with ⟨hf, e⟩ | ⟨_, m', i, e, hl⟩
  · have hn : n = 0 := ha.resolve_right (by simp [hf])
    exact ⟨m, ⟨none, n⟩, by rw [e]; simp [hn], h⟩
  · exact ⟨m', ⟨some i, n⟩, by simp [e], by rw [hl]; exact List.Perm.cons _ h⟩

theorem bytes_pos {n : Nat} (h : n ≠ 0) : Bits.bytes n ≠ 0 := by unfold Bits.bytes; omega

theorem bits_take_ok {m : Mem} {s t : Bits} {F : List Blk} (hg : Good m)
    (h : m.live.Perm (Bits.fp s ++ (Bits.fp t ++ F))) :
    ∃ m' s', Bits.take m s t = some (m', s') ∧ m'.live.Perm (Bits.fp s' ++ F) := by
  have hr := apart hg h
  by_cases hd : s.buffer = t.buffer
  · refine ⟨m, s, by simp [Bits.take, hd], ?_⟩
    have : t.buffer = none := by
      cases hb : t.buffer with
      | none => rfl
      | some i =>
        exact absurd rfl (hr ⟨i, Bits.bytes s.size, 0⟩ (by simp [Bits.fp, hd, hb, blk])
          ⟨i, Bits.bytes t.size, 0⟩ (by simp [Bits.fp, hb, blk]))
    have h1 : Bits.fp t = [] := by simp [Bits.fp, this, blk]
    simpa [h1] using h
  · obtain ⟨m2, e2, h2⟩ := free_ok h
    refine ⟨m2, t, ?_, h2⟩
    simp only [Bits.take]
    rw [if_pos hd, Bits.drop, e2]
    rfl

theorem bits_with_good {a : Ans} {m : Mem} {n : Nat} {r : Mem × Bits} (h : Good m)
    (e : Bits.withSize a m n = some r) : Good r.1 := by
  unfold Bits.withSize at e
  split at e
  · cases e
  · cases e; exact malloc_good h

theorem bits_copy_ok {as : Answers} {m : Mem} {s t : Bits} {F : List Blk} (hg : Good m)
    (hr : t.size = 0 ∨ as 0 ≠ .fail) (h : m.live.Perm (Bits.fp s ++ (Bits.fp t ++ F))) :
    ∃ m' s', Bits.copy as m s t = some (m', s', t) ∧ m'.live.Perm (Bits.fp s' ++ (Bits.fp t ++ F)) := by
  unfold Bits.copy
  split
  · exact ⟨m, s, rfl, h⟩
  · split
    · obtain ⟨m1, b, e, h1⟩ := bits_with_ok (a := as 0) hr h
      obtain ⟨m2, s', e2, h2⟩ := bits_take_ok (bits_with_good hg e) (h1.trans perm_swap)
      exact ⟨m2, s', by simp [e, e2], h2⟩
    · exact ⟨m, s, rfl, h⟩

theorem bits_resize_ok {as : Answers} {m : Mem} {s : Bits} {n : Nat} {F : List Blk}
    (hr : as 0 ≠ .fail ∨ n ≠ 0 ∨ s.buffer = none) (h : m.live.Perm (Bits.fp s ++ F)) :
    ∃ m' s', Bits.resize as m s n = some (m', s') ∧ m'.live.Perm (Bits.fp s' ++ F) := by
  obtain ⟨m', q, e, h1 | h1⟩ := realloc_ok (as 0) (Bits.bytes n) h
  · obtain ⟨rfl, hf, h2, _⟩ := h1
    refine ⟨m', s, by simp [Bits.resize, e], h2 ?_⟩
    rcases hr with hr | hr | hr
    · exact absurd hf hr
    · exact .inl (bytes_pos hr)
    · exact .inr hr
  · obtain ⟨h2, _, h3⟩ := h1
    exact ⟨m', ⟨q, n⟩, by simp [Bits.resize, e, h2], h3⟩

theorem cbits_lawful : Lawful cbits cbitsRules (fun _ => True) Good where
  new a _ := ⟨trivial, rfl⟩
  make as m n F _ hr h := by
    obtain ⟨m', b, e, h1⟩ := bits_with_ok (a := as 0) (n := n) hr h
    exact ⟨m', b, e, trivial, h1⟩
  un as m s o F _ hr _ h := by
    obtain ⟨m', s', e, h1⟩ := bits_resize_ok (as := as) (s := s) (n := o) hr h
    exact ⟨m', s', e, trivial, h1⟩
  out as m s o F _ hr _ h := by
    cases o with
    | clone =>
      obtain ⟨m', b, e, h1⟩ := bits_with_ok (a := as 0) (n := Bits.size s)
        (Or.resolve_left (a := Vec.Op1.clone = Vec.Op1.move) hr (by simp)) h
      exact ⟨m', s, b, by simp [cbits, e], trivial, trivial, h1.trans perm_swap⟩
    | move => exact ⟨m, ⟨none, 0⟩, s, rfl, trivial, trivial, h⟩
  bin as m s t o F hg hr _ _ h := by
    obtain ⟨m', s', e, h1⟩ := bits_copy_ok (as := as) (s := s) (t := t) hg hr h
    exact ⟨m', s', t, e, trivial, trivial, h1⟩
  take m s t F hg _ _ _ h := by
    obtain ⟨m', s', e, h1⟩ := bits_take_ok (s := s) (t := t) hg h
    exact ⟨m', s', e, trivial, h1⟩
  drop m s F _ _ _ h := free_ok h

theorem bits_resize_good {as : Answers} {m : Mem} {s : Bits} {n : Nat} {r : Mem × Bits} (h : Good m)
    (e : Bits.resize as m s n = some r) : Good r.1 := by
  simp only [Bits.resize, Option.map_eq_some_iff] at e
  obtain ⟨q, e, rfl⟩ := e
  have := realloc_good h e
  split <;> exact this

theorem bits_clone_good {as : Answers} {m : Mem} {s : Bits} {r : Mem × Bits × Bits} (h : Good m)
    (e : ((Bits.withSize (as 0) m s.size).map fun r => (r.1, s, r.2)) = some r) : Good r.1 := by
  simp only [Option.map_eq_some_iff] at e
  obtain ⟨q, e, rfl⟩ := e
  exact bits_with_good h e

theorem bits_take_good {m : Mem} {s t : Bits} {r : Mem × Bits} (h : Good m) (e : Bits.take m s t = some r) :
    Good r.1 := by
  simp only [Bits.take] at e
  split at e
  · simp only [Option.map_eq_some_iff] at e
    obtain ⟨q, e, rfl⟩ := e
    exact free_good h e
  · cases e; exact h

theorem bits_copy_good {as : Answers} {m : Mem} {s t : Bits} {r : Mem × Bits × Bits} (h : Good m)
    (e : Bits.copy as m s t = some r) : Good r.1 := by
  simp only [Bits.copy] at e
  split at e
  · cases e; exact h
  · split at e
    · rw [Option.bind_eq_some_iff] at e
      obtain ⟨q, e1, e⟩ := e
      have h1 := bits_with_good h e1
      simp only [Option.map_eq_some_iff] at e
      obtain ⟨q, e, rfl⟩ := e
      exact bits_take_good h1 e
    · cases e; exact h

theorem cbits_keeps : Keeps cbits Good where
  make _ _ _ _ h e := bits_with_good h e
  un as _ _ _ _ h e := bits_resize_good (as := as) h e
  out as m s o r h e := by
    cases o with
    | clone => exact bits_clone_good (as := as) (s := s) h e
    | move => cases e; exact h
  bin as _ _ _ _ _ h e := bits_copy_good (as := as) h e
  take _ _ _ _ h e := bits_take_good h e
  drop _ _ _ h e := free_good h e

/-! ## cregex -/

/-- `_optimize` gets a smaller block elsewhere or none. -/
def Rx.notInPlace (as : Answers) (o : RxOp) : Prop := o.err = false → o.used * 2 ≤ 5 + 6 * o.len → as 1 ≠ .same

/-- No refusal when an existing program is replaced, no shrinking in place, and `_drop` only after a
successful compilation. -/
def cregexRules (S I : Nat) : Rules (cregex S I) :=
  ⟨fun _ => True, fun _ _ => True,
   fun r as o => (as 0 ≠ .fail ∨ Rx.prog r = none) ∧ Rx.notInPlace as o,
   fun _ _ _ => True, fun _ _ _ _ => True, fun _ _ => False, fun r => (Rx.prog r).isSome⟩

theorem realloc_new {a : Ans} {m m' : Mem} {c o n : Nat} {p q : Option Nat} (hg : Good m) (ha : a ≠ .same)
    (hp : p.isSome) (e : realloc a m c p o n = some (m', q)) : q = none ∨ q ≠ p := by
  obtain ⟨i, rfl⟩ := Option.isSome_iff_exists.1 hp
  simp only [realloc] at e
  split at e
  · rename_i hm
    cases a with
    | fail =>
      simp only at e
      split at e
      · cases e; exact .inl rfl
      · cases e; exact .inl rfl
    | same => exact absurd rfl ha
    | moved =>
      cases e
      refine .inr ?_
      have := hg.2 _ hm
      simp only at this
      intro h
      cases h
      omega
  · cases e

theorem rx_compile_ok {S I : Nat} (hS : 0 < S) {as : Answers} {m : Mem} {r : Rx} {o : RxOp} {F : List Blk}
    (hg : Good m) (h0 : as 0 ≠ .fail ∨ r.prog = none) (h1 : Rx.notInPlace as o)
    (h : m.live.Perm (Rx.fp r ++ F)) :
    ∃ m' r', Rx.compile S I as m r o = some (m', r') ∧ m'.live.Perm (Rx.fp r' ++ F) := by
  have h' : m.live.Perm (blk r.prog (if r.prog.isSome then r.asz else 0) 0 ++ F) := by
    cases hp : r.prog with
    | none => simpa [Rx.fp, hp, blk] using h
    | some i => simpa [Rx.fp, hp] using h
  obtain ⟨m1, q, e, h2 | h2⟩ := realloc_ok (as 0) (S + (5 + 6 * o.len) * I) h'
  · obtain ⟨rfl, hf, h3, _⟩ := h2
    have hn : r.prog = none := h0.resolve_left (fun h => h hf)
    refine ⟨m1, ⟨none, 0⟩, by simp [Rx.compile, e], ?_⟩
    have := h3 (.inr hn)
    simpa [Rx.fp, hn, blk] using this
  · obtain ⟨h3, _, h4⟩ := h2
    have hg1 : Good m1 := realloc_good hg e
    have hq : q ≠ none := by intro h; simp [h] at h3
    by_cases he : o.err
    · obtain ⟨m2, e2, h5⟩ := free_ok h4
      exact ⟨m2, ⟨none, 0⟩, by simp [Rx.compile, e, hq, he, e2], by simpa [Rx.fp, blk] using h5⟩
    · by_cases hu : o.used * 2 > 5 + 6 * o.len
      · refine ⟨m1, ⟨q, S + (5 + 6 * o.len) * I⟩, ?_, h4⟩
        simp [Rx.compile, e, hq, he, hu]
      · have ha := h1 (by simpa using he) (by omega)
        obtain ⟨m2, q2, e2, h5 | h5⟩ := realloc_ok (as 1) (S + o.used * I) h4
        · obtain ⟨rfl, _, h6, _⟩ := h5
          refine ⟨m2, ⟨q, S + (5 + 6 * o.len) * I⟩, ?_, h6 (.inl (by omega))⟩
          simp [Rx.compile, e, hq, he, hu, e2]
        · obtain ⟨h6, _, h7⟩ := h5
          have hq2 : q2 ≠ none := by intro h; simp [h] at h6
          have hne := (realloc_new hg1 ha h3 e2).resolve_left hq2
          refine ⟨m2, ⟨q2, S + o.used * I⟩, ?_, h7⟩
          simp [Rx.compile, e, hq, he, hu, e2, hq2, hne]

theorem cregex_lawful (S I : Nat) (hS : 0 < S) : Lawful (cregex S I) (cregexRules S I) (fun _ => True) Good where
  new a _ := ⟨trivial, rfl⟩
  make as m n F _ _ h := ⟨m, ⟨none, 0⟩, rfl, trivial, h⟩
  un as m s o F hg hr _ h := by
    obtain ⟨m', r', e, h1⟩ := rx_compile_ok (I := I) hS (as := as) (r := s) (o := o) hg hr.1 hr.2 h
    exact ⟨m', r', e, trivial, h1⟩
  out as m s o F _ _ _ _ := nomatch o
  bin as m s t o F _ _ _ _ _ := nomatch o
  take m s t F _ hr _ _ _ := hr.elim
  drop m s F _ hr _ h := by
    obtain ⟨m', e, h1⟩ := free_ok h
    refine ⟨m', ?_, h1⟩
    have hr' : (Rx.prog s).isSome = true := hr
    simp only [cregex, Rx.drop]
    rw [if_pos hr', e]

theorem rx_compile_good {S I : Nat} {as : Answers} {m : Mem} {r : Rx} {o : RxOp} {x : Mem × Rx} (h : Good m)
    (e : Rx.compile S I as m r o = some x) : Good x.1 := by
  unfold Rx.compile at e
  rw [Option.bind_eq_some_iff] at e
  obtain ⟨q, e1, e⟩ := e
  have h1 := realloc_good h e1
  split at e
  · cases e; exact h1
  · split at e
    · simp only [Option.map_eq_some_iff] at e
      obtain ⟨q, e, rfl⟩ := e
      exact free_good h1 e
    · split at e
      · cases e; exact h1
      · rw [Option.bind_eq_some_iff] at e
        obtain ⟨q2, e2, e⟩ := e
        have h2 := realloc_good h1 e2
        split at e
        · cases e; exact h2
        · cases e; exact h2

theorem rx_drop_good {m r : Mem} {s : Rx} (h : Good m) (e : Rx.drop m s = some r) : Good r := by
  unfold Rx.drop at e
  split at e
  · exact free_good h e
  · cases e

theorem rx_take_good {m : Mem} {s t : Rx} {r : Mem × Rx} (h : Good m)
    (e : ((Rx.drop m s).map fun m => (m, t)) = some r) : Good r.1 := by
  simp only [Option.map_eq_some_iff] at e
  obtain ⟨q, e, rfl⟩ := e
  exact rx_drop_good h e

theorem cregex_keeps (S I : Nat) : Keeps (cregex S I) Good where
  make _ _ _ _ h e := by cases e; exact h
  un as _ _ _ _ h e := rx_compile_good (S := S) (I := I) (as := as) h e
  out _ _ _ o _ _ _ := nomatch o
  bin _ _ _ _ o _ _ _ := nomatch o
  take _ _ _ _ h e := rx_take_good h e
  drop _ _ _ h e := rx_drop_good h e

theorem empty_good (K : Kind) : Good (World.empty K).mem := ⟨by simp [World.empty], by simp [World.empty]⟩

end Verif.Alloc
