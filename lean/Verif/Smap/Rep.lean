import Verif.Smap.RefineErase
/-
What a sorted map represents, and the effect of the operations on it.
-/
set_option linter.unusedSimpArgs false
set_option linter.unusedVariables false
namespace Verif.Smap
open T Spec
variable {κ ν : Type}

/-- The list of free nodes, linked by `link[1]`. -/
def Free (d : Buf (Node κ ν)) : Nat → List Nat → Prop
  | disp, [] => disp = 0
  | disp, f :: fs => disp = f ∧ f ≠ 0 ∧ ∃ n, d.rd f = some n ∧ Free d n.r fs

theorem Free.congr {d d' : Buf (Node κ ν)} : ∀ {fs : List Nat} {disp : Nat}, Free d disp fs → (∀ j ∈ fs, d'.rd j = d.rd j) → Free d' disp fs
  | [], _, h, _ => h
  | f :: fs, disp, ⟨h1, h0, n, h2, h3⟩, hf =>
    ⟨h1, h0, n, by rw [hf f (by simp)]; exact h2, h3.congr fun j hj => hf j (by simp [hj])⟩

/-- The nodes in use and the free ones. -/
structure Pool (m : Map κ ν) (used fs : List Nat) : Prop where
  mem : (m.nodes = [] ∧ m.cap = 0) ∨ (m.nodes.length = m.cap + 1 ∧ Sent m.nodes)
  cap : m.cap < 2 ^ 31
  free : Free m.nodes m.disp fs
  nodup : (used ++ fs).Nodup
  le : ∀ i ∈ used ++ fs, i ≠ 0 ∧ i ≤ m.head
  exact' : used.length + fs.length = m.head
  head : m.head ≤ m.cap

/-- The map holds the tree `t`, with the entries `M`. -/
structure Rep (cmp : κ → κ → Int) (m : Map κ ν) (t : T κ ν) (fs : List Nat) (M : FMap κ ν) : Prop where
  pool : Pool m (ids t) fs
  is : Is m.nodes t
  root : m.root = idx t
  aa : AA t
  ord : Ord cmp t M
  size : m.size = M.length

/-- The map holds the entries `M`. -/
def Holds (cmp : κ → κ → Int) (m : Map κ ν) (M : FMap κ ν) : Prop := ∃ t fs, Rep cmp m t fs M

theorem holds_init (cmp : κ → κ → Int) : Holds cmp (init : Map κ ν) [] :=
  ⟨.nil, [], ⟨⟨Or.inl ⟨rfl, rfl⟩, by simp [init], rfl, by simp, by simp, rfl, by simp [init]⟩, trivial, rfl, trivial, Ord.nil _, rfl⟩⟩

theorem height_le_length : ∀ t : T κ ν, height t ≤ (lab t).length
  | .nil => by simp [height]
  | .node i lv l e r => by
    have := height_le_length l
    have := height_le_length r
    simp only [height, lab, List.length_append, List.length_cons]
    omega

theorem length_ids (t : T κ ν) : (ids t).length = (lab t).length := by simp [ids]

section
variable {cmp : κ → κ → Int} {m : Map κ ν} {t : T κ ν} {fs : List Nat} {M : FMap κ ν}

theorem Rep.len (h : Rep cmp m t fs M) : M.length ≤ m.cap := by
  have h1 := h.pool.exact'
  have h2 := h.pool.head
  rw [length_ids, h.ord.length] at h1
  omega

theorem Rep.lev_le (h : Rep cmp m t fs M) : lev t ≤ 31 := by
  have h1 := size_ge h.aa
  rw [h.ord.length] at h1
  have h2 := h.len
  have h3 := h.pool.cap
  by_contra hn
  have : 2 ^ 32 ≤ 2 ^ lev t := Nat.pow_le_pow_right (by omega) (by omega)
  omega

theorem Rep.height_le (h : Rep cmp m t fs M) : height t ≤ 62 := by
  have := (T.height_le h.aa).1
  have := h.lev_le
  omega

theorem Rep.height_lt (h : Rep cmp m t fs M) : height t ≤ m.nodes.length ∧ M.length ≤ m.nodes.length := by
  have h1 := height_le_length t
  rw [h.ord.length] at h1
  have h2 := h.len
  rcases h.pool.mem with h3 | h3
  · omega
  · omega

theorem Rep.nodup (h : Rep cmp m t fs M) : (ids t).Nodup := (List.nodup_append.mp h.pool.nodup).1

theorem Rep.sent (h : Rep cmp m t fs M) (hn : t ≠ .nil) : Sent m.nodes := by
  rcases h.pool.mem with h1 | h1
  · cases t with
    | nil => exact absurd rfl hn
    | node =>
      have := h.is.2.1
      rw [h1.1] at this
      simp [Buf.rd] at this
  · exact h1.2

end

/-! ### reserving -/

theorem rd_grow {d : Buf (Node κ ν)} {n j : Nat} : Buf.rd (d ++ List.replicate n none) j = d.rd j := by
  simp only [Buf.rd]
  by_cases h : j < d.length
  · rw [List.getElem?_append_left h]
  · rw [List.getElem?_append_right (by omega), List.getElem?_eq_none (by omega : d.length ≤ j)]
    by_cases h2 : j - d.length < n
    · rw [List.getElem?_replicate_of_lt h2]; rfl
    · rw [List.getElem?_eq_none (by simp; omega)]

theorem reserve_le {ok : Bool} {cap : Nat} {m : Map κ ν} (h : cap ≤ m.cap) : reserve ok cap m = some (m, false) := by
  simp [reserve, h]

theorem reserve_fail {cap : Nat} {m : Map κ ν} (h : m.cap < cap) (h2 : cap < 2 ^ 31) : reserve false cap m = some (m, false) := by
  simp only [reserve]
  rw [if_neg (by omega), if_neg (by omega)]
  simp

theorem reserve_ok {cap : Nat} {m : Map κ ν} {used fs : List Nat} (hp : Pool m used fs) (h : m.cap < cap) (h2 : cap < 2 ^ 31) :
    ∃ d, reserve true cap m = some ({ m with nodes := d, cap := cap }, true) ∧ Pool { m with nodes := d, cap := cap } used fs ∧
      Sent d ∧ d.length = cap + 1 ∧ ∀ j, j ≠ 0 → d.rd j = m.nodes.rd j := by
  have hlen : m.nodes.length ≤ cap + 1 := by
    rcases hp.mem with h1 | h1
    · rw [h1.1]; simp
    · omega
  have hl : (m.nodes ++ List.replicate (cap + 1 - m.nodes.length) none).length = cap + 1 := by
    simp; omega
  have hrd : ∀ j, j ≠ 0 → Buf.rd ((m.nodes ++ List.replicate (cap + 1 - m.nodes.length) none).set 0 (some ⟨0, 0, 0, none⟩)) j = m.nodes.rd j := by
    intro j hj
    rw [rd_set_ne hj, rd_grow]
  refine ⟨(m.nodes ++ List.replicate (cap + 1 - m.nodes.length) none).set 0 (some ⟨0, 0, 0, none⟩), ?_, ?_, ?_, ?_, hrd⟩
  · simp only [reserve]
    rw [if_neg (by omega), if_neg (by omega)]
    simp only [if_true]
    rw [wr_eq (by rw [hl]; omega)]
    rfl
  · refine ⟨Or.inr ⟨?_, rd_set_eq (by rw [hl]; omega)⟩, h2, ?_, hp.nodup, hp.le, hp.exact', ?_⟩
    · rw [List.length_set, hl]
    · exact hp.free.congr fun j hj => hrd j (hp.le j (by simp [hj])).1
    · have := hp.head
      simp only
      omega
  · exact rd_set_eq (by rw [hl]; omega)
  · rw [List.length_set, hl]

theorem reserve_holds {cmp : κ → κ → Int} {m : Map κ ν} {M : FMap κ ν} (h : Holds cmp m M) (ok : Bool) {cap : Nat} (h2 : cap < 2 ^ 31) :
    ∃ m' b, reserve ok cap m = some (m', b) ∧ Holds cmp m' M ∧ (b = true → m'.cap = cap) ∧ (b = false → m' = m) := by
  obtain ⟨t, fs, h⟩ := h
  by_cases hc : cap ≤ m.cap
  · exact ⟨m, false, reserve_le hc, ⟨t, fs, h⟩, by simp, by simp⟩
  · cases ok with
    | false => exact ⟨m, false, reserve_fail (by omega) h2, ⟨t, fs, h⟩, by simp, by simp⟩
    | true =>
      obtain ⟨d, a1, a2, a3, -, a4⟩ := reserve_ok h.pool (by omega) h2
      exact ⟨_, true, a1, ⟨t, fs, ⟨a2, h.is.congr fun j hj => a4 j (h.is.ne_zero j hj), h.root, h.aa, h.ord, h.size⟩⟩, by simp, by simp⟩

/-! ### new nodes -/

theorem newNode_spec {m : Map κ ν} {used fs : List Nat} (hp : Pool m used fs) {ok : Bool}
    (hg : (ok = true ∧ used.length * 3 < 2 ^ 31) ∨ m.disp ≠ 0 ∨ m.head < m.cap) (lv : Nat) :
    ∃ m' i fs', newNode ok lv m = some (m', i) ∧ Pool m' (i :: used) fs' ∧ i ∉ used ∧ i ≠ 0 ∧ Sent m'.nodes ∧
      m'.nodes.rd i = some ⟨0, 0, lv, none⟩ ∧ (∀ j ∈ used, m'.nodes.rd j = m.nodes.rd j) ∧ m'.root = m.root ∧ m'.size = m.size ∧
      (fs = [] → fs' = []) ∧ (m.head < m.cap → m'.cap = m.cap) := by
  have mem' : ∀ {n : Map κ ν}, ((n.nodes = [] ∧ n.cap = 0) ∨ (n.nodes.length = n.cap + 1 ∧ Sent n.nodes)) → n.cap ≠ 0 →
      n.nodes.length = n.cap + 1 ∧ Sent n.nodes := fun h h0 => by
    rcases h with h | h
    · exact absurd h.2 h0
    · exact h
  cases fs with
  | cons f fs =>
    obtain ⟨e1, f0, n, e2, e3⟩ := hp.free
    have hmem := mem' hp.mem (by have := hp.head; have := hp.exact'; simp at this; omega)
    have hnd := hp.nodup
    simp only [List.nodup_append, List.nodup_cons, List.mem_cons] at hnd
    have hfu : f ∉ used := fun hc => hnd.2.2 f hc f (Or.inl rfl) rfl
    have hfl := rd_lt e2
    refine ⟨{ m with nodes := m.nodes.set f (some ⟨0, 0, lv, none⟩), disp := n.r }, f, fs, ?_, ?_, hfu, f0, ?_, rd_set_eq hfl, ?_, rfl, rfl, by simp, fun _ => rfl⟩
    · simp only [newNode, pick, e1, f0, ne_eq, not_false_eq_true, if_true, e2, Option.bind_eq_bind, Option.bind_some, if_false, wr_eq hfl]
    · refine ⟨Or.inr ⟨by simpa using hmem.1, ?_⟩, hp.cap, e3.congr fun j hj => rd_set_ne fun he => hnd.2.1.1 (he ▸ hj), ?_, ?_, ?_, hp.head⟩
      · unfold Sent; rw [rd_set_ne (Ne.symm f0)]; exact hmem.2
      · have := hp.nodup
        exact (List.perm_middle.nodup_iff.mp this)
      · intro i hi
        refine hp.le i ?_
        simp only [List.cons_append, List.mem_cons, List.mem_append] at hi ⊢
        rcases hi with h | h | h
        · exact Or.inr (Or.inl h)
        · exact Or.inl h
        · exact Or.inr (Or.inr h)
      · have := hp.exact'
        simp only [List.length_cons] at this ⊢
        omega
    · unfold Sent; rw [rd_set_ne (Ne.symm f0)]; exact hmem.2
    · exact fun j hj => rd_set_ne fun he => hfu (he ▸ hj)
  | nil =>
    have e1 : m.disp = 0 := hp.free
    have hex := hp.exact'
    simp only [List.length_nil, Nat.add_zero] at hex
    -- the common end: a node above `head`
    have key : ∀ n : Map κ ν, Pool n used [] → n.nodes.length = n.cap + 1 → Sent n.nodes → n.head < n.cap → n.disp = 0 →
        Pool { n with nodes := n.nodes.set (n.head + 1) (some ⟨0, 0, lv, none⟩), head := n.head + 1 } ((n.head + 1) :: used) [] ∧
        (n.head + 1) ∉ used ∧ Sent (n.nodes.set (n.head + 1) (some ⟨0, 0, lv, none⟩)) ∧
        Buf.rd (n.nodes.set (n.head + 1) (some ⟨0, 0, lv, none⟩)) (n.head + 1) = some ⟨0, 0, lv, none⟩ ∧
        ∀ j ∈ used, Buf.rd (n.nodes.set (n.head + 1) (some ⟨0, 0, lv, none⟩)) j = n.nodes.rd j := by
      intro n hn hl hs hh hd
      have hnu : (n.head + 1) ∉ used := fun hc => by
        have := (hn.le _ (by simp; exact hc)).2
        omega
      have hs' : Sent (n.nodes.set (n.head + 1) (some ⟨0, 0, lv, none⟩)) := by
        unfold Sent; rw [rd_set_ne (by omega)]; exact hs
      refine ⟨⟨Or.inr ⟨by simpa using hl, hs'⟩, hn.cap, hd, ?_, ?_, ?_, hh⟩, hnu, hs', rd_set_eq (by omega), fun j hj => rd_set_ne fun he => hnu (he ▸ hj)⟩
      · have := hn.nodup
        simp only [List.append_nil] at this ⊢
        exact List.nodup_cons.mpr ⟨hnu, this⟩
      · intro i hi
        simp only [List.append_nil, List.mem_cons] at hi
        rcases hi with rfl | hi
        · simp
        · have := hn.le i (by simp [hi])
          exact ⟨this.1, by simp only; omega⟩
      · have := hn.exact'
        simp only [List.length_nil, List.length_cons] at this ⊢
        omega
    by_cases hh : m.head = m.cap
    · obtain ⟨rfl, hg⟩ : ok = true ∧ used.length * 3 < 2 ^ 31 := by
        rcases hg with hg | hg | hg
        · exact hg
        · exact absurd e1 hg
        · omega
      obtain ⟨d, a1, a2, a3, a5, a4⟩ := reserve_ok hp (cap := m.head * 3 / 2 + 4) (by omega) (by omega)
      obtain ⟨b1, b2, b3, b4, b5⟩ := key _ a2 (by simpa using a5) a3 (by simp only; omega) e1
      refine ⟨_, m.head + 1, [], ?_, b1, b2, by omega, b3, b4, ?_, rfl, rfl, by simp, fun h => absurd h (by omega)⟩
      · have hb : bump true m = some ({ m with nodes := d, cap := m.head * 3 / 2 + 4, head := m.head + 1 }, m.head + 1) := by
          simp only [bump]
          rw [if_pos hh, if_pos (by omega), a1]
          rfl
        have hp' : pick true m = some ({ m with nodes := d, cap := m.head * 3 / 2 + 4, head := m.head + 1 }, m.head + 1) := by
          simp only [pick]
          rw [if_neg (by simp [e1])]
          exact hb
        simp only [newNode]
        rw [hp']
        simp only [Option.bind_eq_bind, Option.bind_some]
        rw [if_neg (by omega), wr_eq (by omega)]
        rfl
      · intro j hj
        rw [b5 j hj]
        exact a4 j (hp.le j (by simp [hj])).1
    · have hlt : m.head < m.cap := by have := hp.head; omega
      have hmem := mem' hp.mem (by omega)
      obtain ⟨b1, b2, b3, b4, b5⟩ := key m hp hmem.1 hmem.2 hlt e1
      refine ⟨_, m.head + 1, [], ?_, b1, b2, by omega, b3, b4, b5, rfl, rfl, by simp, fun _ => rfl⟩
      have hp' : pick ok m = some ({ m with head := m.head + 1 }, m.head + 1) := by
        simp only [pick, e1, bump]
        rw [if_neg hh]
        rfl
      simp only [newNode]
      rw [hp']
      simp only [Option.bind_eq_bind, Option.bind_some]
      rw [if_neg (by omega), wr_eq (by omega)]
      rfl

/-! ### storing an entry -/

/-- Replace the entry of the node `i`. -/
def setE (i : Nat) (x : κ × ν) : T κ ν → T κ ν
  | .nil => .nil
  | .node j lv l e r => .node j lv (setE i x l) (if j = i then some x else e) (setE i x r)

@[simp] theorem idx_setE (i : Nat) (x : κ × ν) (t : T κ ν) : idx (setE i x t) = idx t := by cases t <;> rfl
@[simp] theorem lev_setE (i : Nat) (x : κ × ν) (t : T κ ν) : lev (setE i x t) = lev t := by cases t <;> rfl

theorem hr_setE (i : Nat) (x : κ × ν) (t : T κ ν) : hr (setE i x t) = hr t := by
  cases t with
  | nil => rfl
  | node => simp only [setE, hr_node, lev_setE]

theorem AA.setE {i : Nat} {x : κ × ν} : ∀ {t : T κ ν}, AA t → AA (setE i x t)
  | .nil, _ => trivial
  | .node j lv l e r, h => by
    refine ⟨?_, ?_, AA.setE h.2.2.1, AA.setE h.2.2.2⟩
    · rw [lev_setE]; exact h.1
    · rw [lev_setE, hr_setE]; exact h.2.1

theorem ids_setE (i : Nat) (x : κ × ν) : ∀ t : T κ ν, ids (setE i x t) = ids t
  | .nil => rfl
  | .node j lv l e r => by simp [setE, ids_setE i x l, ids_setE i x r]

theorem lab_setE_not {i : Nat} {x : κ × ν} : ∀ {t : T κ ν}, i ∉ ids t → lab (setE i x t) = lab t
  | .nil, _ => rfl
  | .node j lv l e r, h => by
    simp only [ids_node, List.mem_append, List.mem_cons, not_or] at h
    simp only [setE, lab, lab_setE_not h.1, lab_setE_not h.2.2, if_neg (Ne.symm h.2.1)]

theorem lab_setE (i : Nat) (x : κ × ν) : ∀ t : T κ ν, lab (setE i x t) = (lab t).map fun p => if p.1 = i then (p.1, some x) else p
  | .nil => rfl
  | .node j lv l e r => by
    simp only [setE, lab, lab_setE i x l, lab_setE i x r, List.map_append, List.map_cons]
    by_cases hj : j = i <;> simp [hj]

theorem lab_setE_mid {i : Nat} {x : κ × ν} {t : T κ ν} {A B : List (Nat × Option (κ × ν))} {y : Option (κ × ν)} (hn : (ids t).Nodup)
    (h : lab t = A ++ (i, y) :: B) : lab (setE i x t) = A ++ (i, some x) :: B := by
  rw [lab_setE, h]
  simp only [ids, h, List.map_append, List.map_cons, List.nodup_append, List.nodup_cons, List.mem_map, List.mem_cons] at hn
  have hA : ∀ p ∈ A, (fun p : Nat × Option (κ × ν) => if p.1 = i then (p.1, some x) else p) p = id p := by
    intro p hp
    simp only [id]
    rw [if_neg]
    exact fun he => hn.2.2 p.1 ⟨p, hp, rfl⟩ i (Or.inl rfl) he
  have hB : ∀ p ∈ B, (fun p : Nat × Option (κ × ν) => if p.1 = i then (p.1, some x) else p) p = id p := by
    intro p hp
    simp only [id]
    rw [if_neg]
    exact fun he => hn.2.1.1 ⟨p, hp, he⟩
  rw [List.map_append, List.map_cons, List.map_congr_left hA, List.map_congr_left hB]
  simp

theorem Is.setE {i : Nat} {x : κ × ν} : ∀ {t : T κ ν} {d : Buf (Node κ ν)} {n : Node κ ν}, Is d t → (ids t).Nodup → d.rd i = some n →
    Is (d.set i (some { n with val := some x })) (setE i x t)
  | .nil, _, _, _, _, _ => trivial
  | .node j lv l e r, d, n, h, hn, hi => by
    simp only [ids_node, List.nodup_append, List.nodup_cons, List.mem_cons] at hn
    refine ⟨h.1, ?_, Is.setE h.2.2.1 hn.1 hi, Is.setE h.2.2.2 hn.2.1.2 hi⟩
    by_cases hj : j = i
    · subst hj
      rw [rd_set_eq (rd_lt hi), idx_setE, idx_setE]
      have := h.2.1
      rw [hi] at this
      simp only [Option.some.injEq] at this
      subst this
      simp
    · rw [rd_set_ne hj, idx_setE, idx_setE, if_neg hj]; exact h.2.1

theorem store_eq {m : Map κ ν} {i : Nat} {n : Node κ ν} (h : m.nodes.rd i = some n) (e : κ × ν) :
    store m i e = some { m with nodes := m.nodes.set i (some { n with val := some e }) } := by
  simp [store, h, wr_eq (rd_lt h)]

/-- Writing an entry of a node of the tree. -/
theorem store_rep {m : Map κ ν} {t : T κ ν} {fs : List Nat} {A B : List (Nat × Option (κ × ν))} {i : Nat} {y : Option (κ × ν)} {x : κ × ν}
    (hp : Pool m (ids t) fs) (hI : Is m.nodes t) (h : lab t = A ++ (i, y) :: B) :
    ∃ m', store m i x = some m' ∧ Pool m' (ids (setE i x t)) fs ∧ Is m'.nodes (setE i x t) ∧ m'.root = m.root ∧ m'.size = m.size ∧
      lab (setE i x t) = A ++ (i, some x) :: B ∧ m'.cap = m.cap := by
  have hnd : (ids t).Nodup := (List.nodup_append.mp hp.nodup).1
  obtain ⟨n, h1, -⟩ := hI.rd_lab (i, y) (by rw [h]; simp)
  simp only at h1
  have hmi : i ∈ ids t := by rw [ids, h]; simp
  have hi0 : i ≠ 0 := hI.ne_zero i hmi
  refine ⟨_, store_eq h1 x, ?_, hI.setE hnd h1, rfl, rfl, lab_setE_mid hnd h, rfl⟩
  rw [ids_setE]
  refine ⟨?_, hp.cap, hp.free.congr fun j hj => rd_set_ne ?_, hp.nodup, hp.le, hp.exact', hp.head⟩
  · rcases hp.mem with hm | hm
    · have := rd_lt h1
      rw [hm.1] at this
      simp at this
    · refine Or.inr ⟨by simpa using hm.1, ?_⟩
      unfold Sent; rw [rd_set_ne (Ne.symm hi0)]; exact hm.2
  · rintro rfl
    exact (List.nodup_append.mp hp.nodup).2.2 j hmi j hj rfl

/-! ### the entry of a key -/

theorem ascending_insertNew {cmp : κ → κ → Int} (hc : Lawful cmp) {k : κ} {v : ν} {M : FMap κ ν} (h : Ascending cmp M) :
    Ascending cmp (insertNew cmp k v M) := by
  simp only [Ascending, insertNew, List.pairwise_append, List.pairwise_cons]
  refine ⟨h.filter _, ⟨?_, h.filter _⟩, ?_⟩
  · intro b hb
    have := (List.mem_filter.mp hb).2
    simp only [decide_eq_true_eq] at this
    exact (hc.lt_iff k b.1).mpr this
  · intro a ha b hb
    have ha' := (List.mem_filter.mp ha).2
    simp only [decide_eq_true_eq] at ha'
    rcases List.mem_cons.mp hb with rfl | hb
    · exact ha'
    · have := (List.mem_filter.mp hb).2
      simp only [decide_eq_true_eq] at this
      exact hc.lt_of_lt_of_le ha' (by have := (hc.lt_iff k b.1).mpr this; omega)

theorem length_split {cmp : κ → κ → Int} {k : κ} {M : FMap κ ν} (h : Spec.find cmp k M = none) :
    (below cmp k M).length + (above cmp k M).length = M.length := by
  have hne := find_none.mp h
  clear h
  induction M with
  | nil => rfl
  | cons e M ih =>
    have h1 := hne e (by simp)
    have ih := ih fun x hx => hne x (by simp [hx])
    simp only [below, above] at ih ⊢
    by_cases hlt : cmp e.1 k < 0
    · rw [List.filter_cons_of_pos (by simpa using hlt), List.filter_cons_of_neg (by simp; omega)]
      simp only [List.length_cons]; omega
    · rw [List.filter_cons_of_neg (by simpa using hlt), List.filter_cons_of_pos (by simp; omega)]
      simp only [List.length_cons]; omega

theorem mem_split {cmp : κ → κ → Int} (hc : Lawful cmp) {k : κ} {e : κ × ν} {M : FMap κ ν} (ha : Ascending cmp M) (h : Spec.find cmp k M = some e) :
    ∃ Ml Mr, M = Ml ++ e :: Mr ∧ cmp e.1 k = 0 ∧ (∀ a ∈ Ml, cmp a.1 e.1 < 0) ∧ (∀ b ∈ Mr, cmp e.1 b.1 < 0) := by
  have hm := List.mem_of_find?_eq_some h
  have hp := List.find?_some h
  obtain ⟨Ml, Mr, rfl⟩ := List.append_of_mem hm
  simp only [Ascending, List.pairwise_append, List.pairwise_cons] at ha
  exact ⟨Ml, Mr, rfl, by simpa using hp, fun a h => ha.2.2 a h e (by simp), ha.2.1.1⟩

theorem entry_new {cmp : κ → κ → Int} (hc : Lawful cmp) {m : Map κ ν} {M : FMap κ ν} {k : κ} (h : Holds cmp m M)
    (hk : Spec.find cmp k M = none) {ok : Bool} (hg : (ok = true ∧ M.length * 3 < 2 ^ 31) ∨ m.disp ≠ 0 ∨ m.head < m.cap) :
    ∃ m1 i, insertEntry cmp ok m k = some (m1, some i, true) ∧
      ∀ v, ∃ m2, store m1 i (k, v) = some m2 ∧ Holds cmp m2 (insertNew cmp k v M) ∧ load m2.nodes i = some (k, v) := by
  obtain ⟨t, fs, h⟩ := h
  have hlen : (ids t).length = M.length := by rw [length_ids, h.ord.length]
  obtain ⟨m1, i, fs', n1, p1, niu, ni0, ns, nr, nsame, nroot, nsize, -, -⟩ := newNode_spec h.pool (by rw [hlen]; exact hg) 1
  have hI1 : Is m1.nodes t := h.is.congr fun j hj => nsame j hj
  obtain ⟨d', l1, l2, l3⟩ := linkNew_spec (cmp := cmp) (k := k) h.ord.isSome hI1 ns h.nodup h.aa.pos ni0 niu nr
  have hperm := lab_insertT_perm (cmp := cmp) (k := k) (i := i) h.ord.isSome
  have hgr := grown_insertT cmp k i h.aa h.ord.isSome
  obtain ⟨A, B, e1, e2, e3, e4⟩ := lab_insertT hc k i h.ord hk
  have hp2 : Pool { m1 with nodes := d', root := idx (insertT cmp k i t), size := m1.size + 1 } (ids (insertT cmp k i t)) fs' := by
    refine ⟨?_, p1.cap, p1.free.congr fun j hj => l3.2 j ?_, ?_, ?_, ?_, p1.head⟩
    · rcases p1.mem with hm | hm
      · have := rd_lt nr
        rw [hm.1] at this
        simp at this
      · refine Or.inr ⟨?_, ns.frame l3 ?_⟩
        · rw [l3.1]; exact hm.1
        · simp only [List.mem_cons, not_or]; exact ⟨Ne.symm ni0, fun hc => h.is.ne_zero 0 hc rfl⟩
    · exact fun hc => (List.nodup_append.mp p1.nodup).2.2 j hc j hj rfl
    · exact ((hperm.append_right fs').nodup_iff).mpr p1.nodup
    · intro j hj
      exact p1.le j ((hperm.append_right fs').mem_iff.mp hj)
    · rw [hperm.length_eq]; exact p1.exact'
  refine ⟨{ m1 with nodes := d', root := idx (insertT cmp k i t), size := m1.size + 1 }, i, ?_, ?_⟩
  · have hd := descend_none hc (f := 65) (up := []) (dir := false) h.is h.ord hk (by have := h.height_le; omega) (by have := h.height_le; simp; omega)
    rw [List.append_nil] at hd
    simp only [insertEntry, h.root, hd, Option.bind_eq_bind, Option.bind_some, n1]
    rw [if_neg ni0, l1]
    rfl
  · intro v
    obtain ⟨m2, s1, s2, s3, s4, s5, s6, -⟩ := store_rep (x := (k, v)) hp2 l2 e2
    refine ⟨m2, s1, ⟨_, _, ⟨s2, s3, ?_, AA.setE hgr.1, ⟨?_, ascending_insertNew hc h.ord.2⟩, ?_⟩⟩, ?_⟩
    · rw [s4, idx_setE]
    · rw [s6]; simp [insertNew, e3, e4]
    · rw [s5]; simp only [insertNew, List.length_append, List.length_cons, nsize, h.size]
      have := length_split hk
      omega
    · exact s3.load (by rw [s6]; simp)

theorem ascending_assign {cmp : κ → κ → Int} {k : κ} {v : ν} {M : FMap κ ν} (h : Ascending cmp M) : Ascending cmp (assign cmp k v M) := by
  simp only [Ascending, assign, List.pairwise_map]
  refine h.imp ?_
  intro a b hab
  have h1 : ∀ x : κ × ν, (if cmp x.1 k = 0 then (x.1, v) else x).1 = x.1 := fun x => by split <;> rfl
  rw [h1, h1]; exact hab

theorem store_assign {cmp : κ → κ → Int} (hc : Lawful cmp) {m : Map κ ν} {t : T κ ν} {fs : List Nat} {M : FMap κ ν} {k : κ} {e : κ × ν} {i : Nat}
    (h : Rep cmp m t fs M) (hk : Spec.find cmp k M = some e) (hi : (i, some e) ∈ lab t) (v : ν) :
    ∃ m2, store m i (e.1, v) = some m2 ∧ Holds cmp m2 (assign cmp k v M) ∧ load m2.nodes i = some (e.1, v) := by
  obtain ⟨A, B, hAB⟩ := List.append_of_mem hi
  obtain ⟨m2, s1, s2, s3, s4, s5, s6, -⟩ := store_rep (x := (e.1, v)) h.pool h.is hAB
  obtain ⟨Ml, Mr, eM, h0, hl, hr⟩ := mem_split hc h.ord.2 hk
  have hMA : A.map Prod.snd = Ml.map some ∧ B.map Prod.snd = Mr.map some := by
    have ho := h.ord.1
    rw [hAB, eM] at ho
    simp only [List.map_append, List.map_cons] at ho
    -- the entry `e` occurs once
    have huniq : ∀ (X Y : List (Option (κ × ν))) (X' Y' : List (κ × ν)), (∀ a ∈ X', cmp a.1 e.1 < 0) → (∀ b ∈ Y', cmp e.1 b.1 < 0) →
        X ++ some e :: Y = X'.map some ++ some e :: Y'.map some → X = X'.map some ∧ Y = Y'.map some := by
      intro X
      induction X with
      | nil =>
        intro Y X' Y' hX hY hE
        cases X' with
        | nil => simp at hE; exact ⟨rfl, hE⟩
        | cons a X' =>
          simp at hE
          have := hX a (by simp)
          rw [← hE.1, hc.refl] at this
          omega
      | cons x X ih =>
        intro Y X' Y' hX hY hE
        cases X' with
        | nil =>
          simp at hE
          have hme : some e ∈ Y'.map some := by rw [← hE.2]; simp
          simp at hme
          have := hY e hme
          rw [hc.refl] at this
          omega
        | cons a X' =>
          simp at hE
          obtain ⟨q1, q2⟩ := ih Y X' Y' (fun b hb => hX b (by simp [hb])) hY (by simpa using hE.2)
          exact ⟨by simp [hE.1, q1], q2⟩
    exact huniq _ _ _ _ hl hr ho
  refine ⟨m2, s1, ⟨_, _, ⟨s2, s3, ?_, AA.setE h.aa, ⟨?_, ascending_assign h.ord.2⟩, ?_⟩⟩, s3.load (by rw [s6]; simp)⟩
  · rw [s4, idx_setE, h.root]
  · rw [s6, eM, assign_mid hc v hl hr h0]; simp [hMA.1, hMA.2]
  · rw [s5, h.size]; simp [assign]

theorem entry_found {cmp : κ → κ → Int} (hc : Lawful cmp) {m : Map κ ν} {M : FMap κ ν} {k : κ} {e : κ × ν} (h : Holds cmp m M)
    (hk : Spec.find cmp k M = some e) (ok : Bool) :
    ∃ i, insertEntry cmp ok m k = some (m, some i, false) ∧ load m.nodes i = some e ∧
      ∀ v, ∃ m2, store m i (e.1, v) = some m2 ∧ Holds cmp m2 (assign cmp k v M) ∧ load m2.nodes i = some (e.1, v) := by
  obtain ⟨t, fs, h⟩ := h
  obtain ⟨i, hd, hi⟩ := descend_found hc (f := 65) (up := []) (dir := false) h.is h.ord hk (by have := h.height_le; omega) (by have := h.height_le; simp; omega)
  refine ⟨i, ?_, h.is.load hi, fun v => store_assign hc h hk hi v⟩
  simp only [insertEntry, h.root, hd, Option.bind_eq_bind, Option.bind_some]

/-! ### removal -/

theorem erase_none {cmp : κ → κ → Int} (hc : Lawful cmp) {m : Map κ ν} {M : FMap κ ν} {k : κ} (h : Holds cmp m M)
    (hk : Spec.find cmp k M = none) : ∃ m', erase cmp m k = some (m', 0, []) ∧ Holds cmp m' M := by
  obtain ⟨t, fs, h⟩ := h
  by_cases hn : t = .nil
  · subst hn
    refine ⟨m, ?_, .nil, fs, h⟩
    have h0 : m.root = 0 := h.root
    have : eraseR cmp (m.nodes.length + 1) m.nodes m.disp m.root k 0 = some ⟨0, m.nodes, m.disp, 0, []⟩ := by
      simp [eraseR, h0]
    simp only [erase, this, Option.bind_eq_bind, Option.bind_some, if_true]
  · obtain ⟨d', a1, a2, a3⟩ := eraseR_none hc (disp := m.disp) (er := 0) h.is (h.sent hn) h.aa h.ord
      (show height t < m.nodes.length + 1 by have := h.height_lt; omega) hk
    refine ⟨{ m with nodes := d', disp := m.disp }, ?_, t, fs, ⟨⟨?_, h.pool.cap, h.pool.free.congr fun j _ => a3 j, h.pool.nodup, h.pool.le, h.pool.exact', h.pool.head⟩,
      h.is.congr fun j _ => a3 j, h.root, h.aa, h.ord, h.size⟩⟩
    · simp only [erase, h.root, a1, Option.bind_eq_bind, Option.bind_some, if_true]
    · rcases h.pool.mem with hm | hm
      · have := h.sent hn
        unfold Sent at this
        rw [hm.1] at this
        simp [Buf.rd] at this
      · refine Or.inr ⟨by rw [a2]; exact hm.1, ?_⟩
        unfold Sent; rw [a3]; exact hm.2

/-- The removal, with the trees. -/
theorem erase_rep {cmp : κ → κ → Int} (hc : Lawful cmp) {m : Map κ ν} {t : T κ ν} {fs : List Nat} {M : FMap κ ν} {k : κ} {e : κ × ν}
    (h : Rep cmp m t fs M) (hk : Spec.find cmp k M = some e) :
    ∃ m' u x fs', erase cmp m k = some (m', 1, valueDrop e) ∧ Rep cmp m' u fs' (remove cmp k M) ∧ Removed k cmp t u x M := by
  have hn : t ≠ .nil := by
    rintro rfl
    rw [h.ord.of_nil] at hk
    simp [Spec.find] at hk
  have hre := lab_eraseT hc k h.ord
  cases he : eraseT cmp t k with
  | none =>
    rw [he] at hre
    rw [hre] at hk
    simp at hk
  | some p =>
    obtain ⟨u, x⟩ := p
    rw [he] at hre
    simp only at hre
    have hperm := hre.perm
    have hsh := shrunk_eraseT cmp h.aa he
    obtain ⟨d', er', n, a1, a2, a3, a4, a5, a6⟩ := eraseR_some hc (disp := m.disp) (er := 0) h.is (h.sent hn) h.nodup h.aa h.ord
      (show height t < m.nodes.length + 1 by have := h.height_lt; omega) (by have := h.height_lt; omega) he hk
    have hp := h.pool
    have h0S : 0 ∉ ids t := fun hc => h.is.ne_zero 0 hc rfl
    have hxt : x ∈ ids t := hperm.mem_iff.mpr (by simp)
    have hperm2 : (ids t ++ fs).Perm (ids u ++ x :: fs) := by
      refine (hperm.append_right fs).trans ?_
      simp only [List.cons_append]
      exact List.perm_middle.symm
    obtain ⟨Ml, Mr, eM, h0, hl, hr⟩ := mem_split hc h.ord.2 hk
    have hrm : remove cmp k M = Ml ++ Mr := by rw [eM, remove_mid hc hl hr h0]
    have hlab : (lab u).map Prod.snd = (Ml ++ Mr).map some := by
      obtain ⟨A, i, e', B, h1, h2, h3, h4⟩ := hre
      rw [hk] at h3
      simp only [Option.some.injEq] at h3
      subst h3
      have ho := h.ord.1
      rw [h1, eM] at ho
      have hAB : A.map Prod.snd ++ B.map Prod.snd = (Ml ++ Mr).map some := by
        have : ∀ (X Y : List (Option (κ × ν))) (X' Y' : List (κ × ν)), (∀ a ∈ X', cmp a.1 e.1 < 0) → (∀ b ∈ Y', cmp e.1 b.1 < 0) →
            X ++ some e :: Y = X'.map some ++ some e :: Y'.map some → X ++ Y = X'.map some ++ Y'.map some := by
          intro X
          induction X with
          | nil =>
            intro Y X' Y' hX hY hE
            cases X' with
            | nil => simp at hE; simp [hE]
            | cons a X' =>
              simp at hE
              have := hX a (by simp)
              rw [← hE.1, hc.refl] at this
              omega
          | cons x X ih =>
            intro Y X' Y' hX hY hE
            cases X' with
            | nil =>
              simp at hE
              have hme : some e ∈ Y'.map some := by rw [← hE.2]; simp
              simp at hme
              have := hY e hme
              rw [hc.refl] at this
              omega
            | cons a X' =>
              simp at hE
              have := ih Y X' Y' (fun b hb => hX b (by simp [hb])) hY (by simpa using hE.2)
              simp [hE.1, this]
        simp only [List.map_append, List.map_cons] at ho
        rw [List.map_append]
        exact this _ _ _ _ hl hr ho
      rcases h4 with ⟨rfl, h4⟩ | ⟨-, A', ex, rfl, h4⟩
      · rw [h4, List.map_append]; exact hAB
      · rw [h4]; simp only [List.map_append, List.map_cons, List.map_nil] at hAB ⊢
        rw [← hAB]; simp
    refine ⟨{ m with nodes := d', disp := x, root := idx u, size := m.size - 1 }, u, x, x :: fs, ?_, ⟨⟨?_, hp.cap, ⟨rfl, h.is.ne_zero x hxt, n, a5, ?_⟩, ?_, ?_, ?_, hp.head⟩, a3, rfl, hsh.1, ⟨?_, ?_⟩, ?_⟩, hre⟩
    · simp only [erase, h.root, a1, Option.bind_eq_bind, Option.bind_some]
      rw [if_neg (by omega)]
      simp
    · rcases hp.mem with hm | hm
      · have := h.sent hn
        unfold Sent at this
        rw [hm.1] at this
        simp [Buf.rd] at this
      · exact Or.inr ⟨by rw [a4.1]; exact hm.1, hm.2.frame a4 h0S⟩
    · rw [a6]
      exact hp.free.congr fun j hj => a4.2 j fun hc => (List.nodup_append.mp hp.nodup).2.2 j hc j hj rfl
    · exact hperm2.nodup_iff.mp hp.nodup
    · intro j hj
      exact hp.le j (hperm2.mem_iff.mpr hj)
    · have := hperm2.length_eq
      simp only [List.length_append, List.length_cons] at this ⊢
      have := hp.exact'
      omega
    · rw [hrm]; exact hlab
    · exact h.ord.2.filter _
    · rw [hrm]
      have := h.size
      rw [eM] at this
      simp only [List.length_append, List.length_cons] at this ⊢
      omega

theorem erase_some {cmp : κ → κ → Int} (hc : Lawful cmp) {m : Map κ ν} {M : FMap κ ν} {k : κ} {e : κ × ν} (h : Holds cmp m M)
    (hk : Spec.find cmp k M = some e) : ∃ m', erase cmp m k = some (m', 1, valueDrop e) ∧ Holds cmp m' (remove cmp k M) := by
  obtain ⟨t, fs, h⟩ := h
  obtain ⟨m', u, x, fs', h1, h2, -⟩ := erase_rep hc h hk
  exact ⟨m', h1, u, fs', h2⟩

end Verif.Smap
