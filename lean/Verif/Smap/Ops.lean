import Verif.Smap.Clone
/-
The operations on maps that hold a finite map.
-/
set_option linter.unusedSimpArgs false
set_option linter.unusedVariables false
namespace Verif.Smap
open T
open scoped List
variable {κ ν : Type} {cmp : κ → κ → Int} {m : Map κ ν} {M : Spec.FMap κ ν}

theorem Holds.asc (h : Holds cmp m M) : Spec.Ascending cmp M := by
  obtain ⟨t, fs, h⟩ := h; exact h.ord.2

theorem Holds.size (h : Holds cmp m M) : m.size = M.length := by
  obtain ⟨t, fs, h⟩ := h; exact h.size

theorem Holds.len (h : Holds cmp m M) : M.length < 2 ^ 31 := by
  obtain ⟨t, fs, h⟩ := h
  have := h.len
  have := h.pool.cap
  omega

theorem insert_spec (hc : Lawful cmp) (h : Holds cmp m M) (k : κ) (v : ν) {ok : Bool}
    (hg : (ok = true ∧ M.length * 3 < 2 ^ 31) ∨ m.disp ≠ 0 ∨ m.head < m.cap) :
    ∃ r i, insert cmp ok m k v = some r ∧ r.ref = some i ∧ Holds cmp r.map (Spec.add cmp k v M) ∧
      load r.map.nodes i = some ((Spec.find cmp k M).getD (k, v)) ∧ r.inserted = (Spec.find cmp k M).isNone ∧
      r.dropped = (if (Spec.find cmp k M).isSome then [.key k, .val v] else []) := by
  cases hf : Spec.find cmp k M with
  | none =>
    obtain ⟨m1, i, e1, e2⟩ := entry_new hc h hf hg
    obtain ⟨m2, s1, s2, s3⟩ := e2 v
    refine ⟨⟨m2, some i, true, []⟩, i, ?_, rfl, ?_, s3, rfl, rfl⟩
    · simp only [insert, e1, Option.bind_eq_bind, Option.bind_some, if_true, s1]
    · simp only [Spec.add, hf]; exact s2
  | some e =>
    obtain ⟨i, e1, e2, -⟩ := entry_found hc h hf ok
    refine ⟨⟨m, some i, false, [.key k, .val v]⟩, i, ?_, rfl, ?_, e2, rfl, rfl⟩
    · simp only [insert, e1, Option.bind_eq_bind, Option.bind_some, Bool.false_eq_true, if_false]
    · simp only [Spec.add, hf]; exact h

theorem emplace_spec (hc : Lawful cmp) (h : Holds cmp m M) (k : κ) (v : ν) {ok : Bool}
    (hg : (ok = true ∧ M.length * 3 < 2 ^ 31) ∨ m.disp ≠ 0 ∨ m.head < m.cap) :
    ∃ r i, emplace cmp ok m k v = some r ∧ r.ref = some i ∧ Holds cmp r.map (Spec.add cmp k v M) ∧
      load r.map.nodes i = some ((Spec.find cmp k M).getD (k, v)) ∧ r.inserted = (Spec.find cmp k M).isNone ∧ r.dropped = [] := by
  cases hf : Spec.find cmp k M with
  | none =>
    obtain ⟨m1, i, e1, e2⟩ := entry_new hc h hf hg
    obtain ⟨m2, s1, s2, s3⟩ := e2 v
    refine ⟨⟨m2, some i, true, []⟩, i, ?_, rfl, ?_, s3, rfl, rfl⟩
    · simp only [emplace, e1, Option.bind_eq_bind, Option.bind_some, if_true, s1]
    · simp only [Spec.add, hf]; exact s2
  | some e =>
    obtain ⟨i, e1, e2, -⟩ := entry_found hc h hf ok
    refine ⟨⟨m, some i, false, []⟩, i, ?_, rfl, ?_, e2, rfl, rfl⟩
    · simp only [emplace, e1, Option.bind_eq_bind, Option.bind_some, Bool.false_eq_true, if_false]
    · simp only [Spec.add, hf]; exact h

theorem insertOrAssign_spec (hc : Lawful cmp) (h : Holds cmp m M) (k : κ) (v : ν) {ok : Bool}
    (hg : (ok = true ∧ M.length * 3 < 2 ^ 31) ∨ m.disp ≠ 0 ∨ m.head < m.cap) :
    ∃ r i, insertOrAssign cmp ok m k v = some r ∧ r.ref = some i ∧ Holds cmp r.map (Spec.put cmp k v M) ∧
      load r.map.nodes i = some (((Spec.find cmp k M).map Prod.fst).getD k, v) ∧ r.inserted = (Spec.find cmp k M).isNone ∧
      r.dropped = (match Spec.find cmp k M with | some e => [.key k, .val e.2] | none => []) := by
  cases hf : Spec.find cmp k M with
  | none =>
    obtain ⟨m1, i, e1, e2⟩ := entry_new hc h hf hg
    obtain ⟨m2, s1, s2, s3⟩ := e2 v
    refine ⟨⟨m2, some i, true, []⟩, i, ?_, rfl, ?_, s3, rfl, rfl⟩
    · simp only [insertOrAssign, e1, Option.bind_eq_bind, Option.bind_some, if_true, s1]
    · simp only [Spec.put, hf]; exact s2
  | some e =>
    obtain ⟨i, e1, e2, e3⟩ := entry_found hc h hf ok
    obtain ⟨m2, s1, s2, s3⟩ := e3 v
    refine ⟨⟨m2, some i, false, [.key k, .val e.2]⟩, i, ?_, rfl, ?_, s3, rfl, rfl⟩
    · simp only [insertOrAssign, e1, Option.bind_eq_bind, Option.bind_some, Bool.false_eq_true, if_false, e2, s1]
    · simp only [Spec.put, hf]; exact s2

theorem emplaceOrAssign_spec (hc : Lawful cmp) (h : Holds cmp m M) (k : κ) (v : ν) {ok : Bool}
    (hg : (ok = true ∧ M.length * 3 < 2 ^ 31) ∨ m.disp ≠ 0 ∨ m.head < m.cap) :
    ∃ r i, emplaceOrAssign cmp ok m k v = some r ∧ r.ref = some i ∧ Holds cmp r.map (Spec.put cmp k v M) ∧
      load r.map.nodes i = some (((Spec.find cmp k M).map Prod.fst).getD k, v) ∧ r.inserted = (Spec.find cmp k M).isNone ∧
      r.dropped = (match Spec.find cmp k M with | some e => [.val e.2] | none => []) := by
  cases hf : Spec.find cmp k M with
  | none =>
    obtain ⟨m1, i, e1, e2⟩ := entry_new hc h hf hg
    obtain ⟨m2, s1, s2, s3⟩ := e2 v
    refine ⟨⟨m2, some i, true, []⟩, i, ?_, rfl, ?_, s3, rfl, rfl⟩
    · simp only [emplaceOrAssign, e1, Option.bind_eq_bind, Option.bind_some, if_true, s1]
    · simp only [Spec.put, hf]; exact s2
  | some e =>
    obtain ⟨i, e1, e2, e3⟩ := entry_found hc h hf ok
    obtain ⟨m2, s1, s2, s3⟩ := e3 v
    refine ⟨⟨m2, some i, false, [.val e.2]⟩, i, ?_, rfl, ?_, s3, rfl, rfl⟩
    · simp only [emplaceOrAssign, e1, Option.bind_eq_bind, Option.bind_some, Bool.false_eq_true, if_false, e2, s1]
    · simp only [Spec.put, hf]; exact s2

theorem length_put (hc : Lawful cmp) (h : Spec.Ascending cmp M) (k : κ) (v : ν) :
    (Spec.put cmp k v M).length = M.length + (if (Spec.find cmp k M).isSome then 0 else 1) := by
  cases hf : Spec.find cmp k M with
  | some e => simp [Spec.put, hf, Spec.assign]
  | none =>
    have := length_split hf
    simp [Spec.put, hf, Spec.insertNew]
    omega

theorem putN_spec (hc : Lawful cmp) : ∀ {es : List (κ × ν)} {m : Map κ ν} {M : Spec.FMap κ ν}, Holds cmp m M → (M.length + es.length) * 3 < 2 ^ 31 →
    ∃ m' ds, putN cmp es m = some (m', ds) ∧ Holds cmp m' (Spec.putAll cmp es M)
  | [], m, M, h, _ => ⟨m, [], rfl, h⟩
  | e :: es, m, M, h, hl => by
    simp only [List.length_cons] at hl
    obtain ⟨r, i, a1, -, a2, -⟩ := emplaceOrAssign_spec hc h e.1 e.2 (ok := true) (Or.inl ⟨rfl, by omega⟩)
    have hlen := length_put hc h.asc e.1 e.2
    obtain ⟨m', ds, b1, b2⟩ := putN_spec hc (es := es) a2 (by split at hlen <;> omega)
    refine ⟨m', r.dropped ++ ds, ?_, b2⟩
    simp only [putN, a1, b1, Option.bind_eq_bind, Option.bind_some]

/-! ### lookups -/

theorem get_spec (hc : Lawful cmp) (h : Holds cmp m M) (k : κ) : get cmp m k = some (Spec.find cmp k M) := by
  cases hf : Spec.find cmp k M with
  | none =>
    obtain ⟨t, fs, h⟩ := h
    obtain ⟨it, h1, h2⟩ := (findIt_spec hc h k none).2 hf
    simp only [get, h1, h2, Option.bind_eq_bind, Option.bind_some]
  | some e =>
    obtain ⟨t, fs, h⟩ := h
    obtain ⟨it, A, i, B, h1, h2, h3⟩ := (findIt_spec hc h k none).1 e hf
    have hl : load m.nodes i = some e := h.is.load (by rw [h2]; simp)
    simp only [get, h1, h3.1, hl, Option.bind_eq_bind, Option.bind_some]

theorem contains_spec (hc : Lawful cmp) (h : Holds cmp m M) (k : κ) : contains cmp m k = some (Spec.find cmp k M).isSome := by
  obtain ⟨t, fs, h⟩ := h
  cases hf : Spec.find cmp k M with
  | none =>
    obtain ⟨it, h1, h2⟩ := (findIt_spec hc h k none).2 hf
    simp [contains, h1, h2]
  | some e =>
    obtain ⟨it, A, i, B, h1, h2, h3⟩ := (findIt_spec hc h k none).1 e hf
    simp [contains, h1, h3.1]

theorem at_spec (hc : Lawful cmp) (h : Holds cmp m M) (k : κ) : at' cmp m k = (Spec.find cmp k M).map Prod.snd := by
  obtain ⟨t, fs, h⟩ := h
  cases hf : Spec.find cmp k M with
  | none =>
    obtain ⟨it, h1, h2⟩ := (findIt_spec hc h k none).2 hf
    simp [at', h1, h2]
  | some e =>
    obtain ⟨it, A, i, B, h1, h2, h3⟩ := (findIt_spec hc h k none).1 e hf
    have hl : load m.nodes i = some e := h.is.load (by rw [h2]; simp)
    simp [at', h1, h3.1, hl]

theorem setAt_spec (hc : Lawful cmp) (h : Holds cmp m M) (k : κ) (v : ν) (hk : (Spec.find cmp k M).isSome) :
    ∃ m', setAt cmp m k v = some m' ∧ Holds cmp m' (Spec.put cmp k v M) := by
  obtain ⟨e, he⟩ := Option.isSome_iff_exists.mp hk
  obtain ⟨t, fs, h⟩ := h
  obtain ⟨it, A, i, B, h1, h2, h3⟩ := (findIt_spec hc h k none).1 e he
  have hm : (i, some e) ∈ lab t := by rw [h2]; simp
  obtain ⟨m2, s1, s2, -⟩ := store_assign hc h he hm v
  refine ⟨m2, ?_, by rw [Spec.put, if_pos hk]; exact s2⟩
  simp only [setAt, h1, h3.1, h.is.load hm, s1, Option.bind_eq_bind, Option.bind_some]

theorem remove_eq_of_none {k : κ} (hf : Spec.find cmp k M = none) : Spec.remove cmp k M = M :=
  filter_all fun e he => by simpa using find_none.mp hf e he

theorem erase_spec (hc : Lawful cmp) (h : Holds cmp m M) (k : κ) :
    ∃ m', erase cmp m k = some (m', if (Spec.find cmp k M).isSome then 1 else 0, ((Spec.find cmp k M).map valueDrop).getD []) ∧
      Holds cmp m' (Spec.remove cmp k M) := by
  cases hf : Spec.find cmp k M with
  | none =>
    obtain ⟨m', h1, h2⟩ := erase_none hc h hf
    exact ⟨m', h1, by rw [remove_eq_of_none hf]; exact h2⟩
  | some e =>
    obtain ⟨m', h1, h2⟩ := erase_some hc h hf
    exact ⟨m', h1, h2⟩

theorem clear_spec (h : Holds cmp m M) : ∃ m' ds, clear m = some (m', ds) ∧ Holds cmp m' [] ∧ ds ~ Spec.owned M := by
  obtain ⟨ds, h1, h2⟩ := drop_spec h
  exact ⟨init, ds, by simp [clear, h1], holds_init cmp, h2⟩

theorem clone_ok (h : Holds cmp m M) (hv : m.head = m.size) : ∃ c, clone true m = some c ∧ Holds cmp c M := by
  obtain ⟨c, h1, h2, -, -, -, h3⟩ := clone_spec h
  refine ⟨_, h3, ?_⟩
  rw [hv, h.size, ← h2]
  exact h1

/-! ### iterators -/

theorem got_seat (hc : Lawful cmp) (h : Holds cmp m M) {it : Iter} (hi : Spec.Got cmp m it) : ∃ P S, M = P ++ S ∧ Seat cmp m it P S := by
  induction hi with
  | begin' it he =>
    obtain ⟨it', h1, h2⟩ := begin_seat h
    rw [h1] at he; cases he
    exact ⟨[], M, rfl, h2⟩
  | next it it' hg hs he ih =>
    obtain ⟨P, S, e, ih⟩ := ih
    cases S with
    | nil => rw [ih.ref_none] at hs; simp at hs
    | cons x S =>
      obtain ⟨it2, h1, h2⟩ := ih.next
      rw [h1] at he; cases he
      exact ⟨P ++ [x], S, by simp [e], h2⟩
  | find k it he =>
    cases hf : Spec.find cmp k M with
    | none =>
      obtain ⟨t, fs, h⟩ := h
      obtain ⟨it', h1, h2⟩ := (findIt_spec hc h k none).2 hf
      rw [Smap.find, h1] at he; cases he
      exact ⟨M, [], by simp, t, fs, lab t, [], by simpa using h, by simp, h.ord.1, rfl, h2⟩
    | some e =>
      obtain ⟨P, S, eM, h0, -, -⟩ := mem_split hc h.asc hf
      subst eM
      obtain ⟨it', h1, h2⟩ := find_seat hc h h0 none
      rw [Smap.find, h1] at he; cases he
      exact ⟨P, e :: S, rfl, h2⟩
  | lowerBound k it he =>
    obtain ⟨it', h1, h2⟩ := lower_seat hc h k
    rw [h1] at he; cases he
    exact ⟨_, _, (below_append_from hc k h.asc).symm, h2⟩

theorem Seat.entry {it : Iter} {P S : Spec.FMap κ ν} (h : Seat cmp m it P S) : Spec.entryOf m it = S.head? := by
  cases S with
  | nil => simp [Spec.entryOf, h.ref_none]
  | cons e S =>
    obtain ⟨i, h1, h2⟩ := h.ref_some
    simp [Spec.entryOf, h1, h2]

/-- The position of an iterator is given by its key. -/
theorem split_at (hc : Lawful cmp) {P S : Spec.FMap κ ν} {e : κ × ν} (h : Spec.Ascending cmp (P ++ e :: S)) :
    Spec.below cmp e.1 (P ++ e :: S) = P ∧ Spec.from' cmp e.1 (P ++ e :: S) = e :: S := by
  have hb := below_append_from hc e.1 h
  obtain ⟨hl, hr⟩ := ascending_mid h
  have h1 : Spec.below cmp e.1 (P ++ e :: S) = P := by
    simp only [Spec.below, List.filter_append]
    rw [filter_all (fun a ha => by simpa using hl a ha), List.filter_cons_of_neg (by simp [hc.refl]),
      filter_none (fun b hb => by have := (hc.lt_iff _ _).mp (hr b hb); simp; omega), List.append_nil]
  rw [h1] at hb
  exact ⟨h1, List.append_cancel_left hb⟩

theorem eraseAt_spec (hc : Lawful cmp) (h : Holds cmp m M) {it : Iter} (hi : Spec.Got cmp m it) {e : κ × ν} (he : Spec.entryOf m it = some e) (inl : Bool) :
    ∃ P S it' m', M = P ++ e :: S ∧ eraseAt cmp inl m it = some (it', m', valueDrop e) ∧ Seat cmp m' it' P S ∧ Spec.remove cmp e.1 M = P ++ S := by
  obtain ⟨P, S, rfl, hs⟩ := got_seat hc h hi
  rw [hs.entry] at he
  cases S with
  | nil => simp at he
  | cons x S =>
    simp only [List.head?_cons, Option.some.injEq] at he
    subst he
    obtain ⟨it', m', h1, h2⟩ := hs.eraseAt hc inl
    obtain ⟨hl, hr⟩ := ascending_mid h.asc
    exact ⟨P, S, it', m', rfl, h1, h2, remove_mid hc hl hr (hc.refl _)⟩

/-- Two places in a list. -/
theorem split_two (hc : Lawful cmp) {P1 S1 P2 S2 : Spec.FMap κ ν} {e1 e2 : κ × ν} (ha : Spec.Ascending cmp (P1 ++ e1 :: S1))
    (h : P1 ++ e1 :: S1 = P2 ++ e2 :: S2) (hle : cmp e1.1 e2.1 ≤ 0) : ∃ X, P2 = P1 ++ X ∧ e1 :: S1 = X ++ e2 :: S2 := by
  rcases List.append_eq_append_iff.mp h with ⟨X, h1, h2⟩ | ⟨X, h1, h2⟩
  · exact ⟨X, h1, h2⟩
  · cases X with
    | nil => exact ⟨[], by simp [h1], by simpa using h2.symm⟩
    | cons x X =>
      simp only [List.cons_append, List.cons.injEq] at h2
      obtain ⟨rfl, h2⟩ := h2
      rw [h] at ha
      have := (ascending_mid ha).2 e1 (by rw [h2]; simp)
      have := (hc.lt_iff _ _).mp this
      omega

theorem eraseRange_spec [DecidableEq κ] (hc : Lawful cmp) (h : Holds cmp m M) {inl : Bool} {it1 it2 : Iter} (hv : Spec.valid cmp m M (.eraseRange inl it1 it2)) :
    ∃ P X S it' m', M = P ++ X ++ S ∧ Seat cmp m it1 P (X ++ S) ∧ Seat cmp m it2 (P ++ X) S ∧
      eraseRange cmp inl m it1 it2 = some (it', m', X.flatMap valueDrop) ∧ Seat cmp m' it' P S ∧
      Spec.after cmp m M (.eraseRange inl it1 it2) = P ++ S := by
  obtain ⟨g1, g2, hv⟩ := hv
  obtain ⟨P1, S1, e1, s1⟩ := got_seat hc h g1
  obtain ⟨P2, S2, e2, s2⟩ := got_seat hc h g2
  rw [s1.entry, s2.entry] at hv
  cases S2 with
  | nil =>
    simp only [List.append_nil] at e2
    subst e2
    obtain ⟨it', m', a1, a2⟩ := eraseToEnd_seat hc inl (f := m.nodes.length + 1) s1 (by have := s1.len; omega)
    refine ⟨P1, S1, [], it', m', by simp [e1], by simpa using s1, by rw [← e1]; exact s2, ?_, a2, ?_⟩
    · simp only [eraseRange, s2.ref_none]; exact a1
    · simp only [Spec.after, s1.entry, s2.entry]
      cases S1 with
      | nil => simp [e1]
      | cons x S1 =>
        simp only [List.head?_cons, List.head?_nil, List.append_nil]
        rw [e1]
        refine (split_at hc ?_).1
        rw [← e1]; exact h.asc
  | cons y S2 =>
    cases S1 with
    | nil => simp at hv
    | cons x S1 =>
      simp only [List.head?_cons] at hv
      obtain ⟨rfl, hle⟩ := hv
      have ha := h.asc
      rw [e1] at ha
      obtain ⟨X, q1, q2⟩ := split_two hc ha (e1.symm.trans e2) hle
      obtain ⟨i, r1, r2⟩ := s1.ref_some
      obtain ⟨j, k1, k2⟩ := s2.ref_some
      have s1' := s1
      rw [q2] at s1'
      obtain ⟨it', m', a1, a2⟩ := eraseRangeLoop_seat hc (k := x.1) (f := m.nodes.length + 1) s1' (by rw [← q2]; rfl)
        (by have := s1'.len; simp at this; omega)
      refine ⟨P1, X, y :: S2, it', m', by rw [e2, q1], s1', by rw [← q1]; exact s2, ?_, a2, ?_⟩
      · simp only [eraseRange, k1, r1, r2, k2, Option.bind_eq_bind, Option.bind_some]
        exact a1
      · simp only [Spec.after, s1.entry, s2.entry, List.head?_cons]
        have hb : Spec.below cmp x.1 M = P1 := by rw [e1]; exact (split_at hc ha).1
        have hf : Spec.from' cmp y.1 M = y :: S2 := by
          rw [e2]
          refine (split_at hc ?_).2
          rw [← e2]; exact h.asc
        rw [hb, hf]

/-! ### histories -/

theorem run_holds [DecidableEq κ] (hc : Lawful cmp) (h : Holds cmp m M) (op : Spec.Op κ ν) (hv : Spec.valid cmp m M op) :
    ∃ m', Spec.run cmp m op = some m' ∧ Holds cmp m' (Spec.after cmp m M op) := by
  cases op with
  | insert k v =>
    obtain ⟨r, i, h1, -, h2, -⟩ := insert_spec hc h k v (ok := true) (Or.inl ⟨rfl, hv⟩)
    exact ⟨r.map, by simp only [Spec.run, h1, Option.map_some], h2⟩
  | emplace k v =>
    obtain ⟨r, i, h1, -, h2, -⟩ := emplace_spec hc h k v (ok := true) (Or.inl ⟨rfl, hv⟩)
    exact ⟨r.map, by simp only [Spec.run, h1, Option.map_some], h2⟩
  | insertOrAssign k v =>
    obtain ⟨r, i, h1, -, h2, -⟩ := insertOrAssign_spec hc h k v (ok := true) (Or.inl ⟨rfl, hv⟩)
    exact ⟨r.map, by simp only [Spec.run, h1, Option.map_some], h2⟩
  | emplaceOrAssign k v =>
    obtain ⟨r, i, h1, -, h2, -⟩ := emplaceOrAssign_spec hc h k v (ok := true) (Or.inl ⟨rfl, hv⟩)
    exact ⟨r.map, by simp only [Spec.run, h1, Option.map_some], h2⟩
  | setAt k v => exact setAt_spec hc h k v hv
  | putN es =>
    obtain ⟨m', ds, h1, h2⟩ := putN_spec hc (es := es) h hv
    exact ⟨m', by simp only [Spec.run, h1, Option.map_some], h2⟩
  | erase k =>
    obtain ⟨m', h1, h2⟩ := erase_spec hc h k
    exact ⟨m', by simp only [Spec.run, h1, Option.map_some], h2⟩
  | eraseAt inl it =>
    obtain ⟨e, he⟩ := Option.isSome_iff_exists.mp hv.2
    obtain ⟨P, S, it', m', h1, h2, h3, h4⟩ := eraseAt_spec hc h hv.1 he inl
    refine ⟨m', by simp only [Spec.run, h2, Option.map_some], ?_⟩
    simp only [Spec.after, he, h4]
    exact h3.holds
  | eraseRange inl it1 it2 =>
    obtain ⟨P, X, S, it', m', h1, -, -, h2, h3, h4⟩ := eraseRange_spec hc h hv
    refine ⟨m', by simp only [Spec.run, h2, Option.map_some], ?_⟩
    rw [h4]; exact h3.holds
  | reserve ok n =>
    obtain ⟨m', b, h1, h2, -⟩ := reserve_holds h ok (cap := n) hv
    exact ⟨m', by simp only [Spec.run, h1, Option.map_some], h2⟩
  | shrink => exact clone_ok h hv
  | clear =>
    obtain ⟨m', ds, h1, h2, -⟩ := clear_spec h
    exact ⟨m', by simp only [Spec.run, h1, Option.map_some], h2⟩
  | clone => exact clone_ok h hv

theorem reach_holds [DecidableEq κ] (hc : Lawful cmp) (h : Spec.Reach cmp m M) : Holds cmp m M := by
  induction h with
  | init => exact holds_init cmp
  | withCapacity ok n m hn he =>
    obtain ⟨m', b, h1, h2, -⟩ := reserve_holds (κ := κ) (ν := ν) (holds_init cmp) ok (cap := n) hn
    simp only [withCapacity, h1, Option.bind_eq_bind, Option.bind_some, Option.some.injEq] at he
    subst he; exact h2
  | call m m' M op _ hv he ih =>
    obtain ⟨m'', h1, h2⟩ := run_holds hc ih op hv
    rw [h1] at he; cases he; exact h2

end Verif.Smap
