import Verif.Alloc.Bufs

/-! hmap, smap and list keep the books. -/

namespace Verif.Alloc

theorem perm_swap {A B C : List Blk} : (A ++ (B ++ C)).Perm (B ++ (A ++ C)) := by
  rw [← List.append_assoc, ← List.append_assoc]
  exact List.Perm.append_right _ List.perm_append_comm

theorem free_null (m : Mem) (c n : Nat) : free m c none n = some m := rfl

/-! ## hmap -/

/-- Only without `i_aux`. -/
def hmapRules (P : HmPar) : Rules (hmap P) :=
  ⟨fun a => a = 0, fun _ _ => True, fun _ _ _ => True, fun _ _ _ => True,
   fun _ _ _ _ => True, fun _ _ => True, fun _ => True⟩

/-- Without buckets there is no block; `aux` is not used. -/
def Hm.Ok (h : Hm) : Prop := h.aux = 0 ∧ (h.n = 0 → h.table = none ∧ h.meta' = none)

theorem hm_free_both {m : Mem} {p q : Option Nat} {n1 n2 c : Nat} {F : List Blk}
    (h : m.live.Perm (blk p n1 c ++ (blk q n2 c ++ F))) :
    ∃ m1 m2, free m c p n1 = some m1 ∧ free m1 c q n2 = some m2 ∧ m2.live.Perm F := by
  obtain ⟨m1, e1, h1⟩ := free_ok h
  obtain ⟨m2, e2, h2⟩ := free_ok h1
  exact ⟨m1, m2, e1, e2, h2⟩

theorem hm_reserve_ok {P : HmPar} (hb : ∀ c, 0 < P.bucks c) {as : Answers} {m : Mem} {t : Hm} {cap : Nat}
    {F : List Blk} (ho : t.Ok) (h : m.live.Perm (Hm.fp P t ++ F)) :
    ∃ m' t' b, Hm.reserve P as m t cap = some (m', t', b) ∧ t'.Ok ∧ m'.live.Perm (Hm.fp P t' ++ F) := by
  obtain ⟨table, meta', size, n, aux⟩ := t
  obtain ⟨ha, hn⟩ := ho
  simp only at ha hn
  subst ha
  simp only [Hm.fp, List.append_assoc] at h
  unfold Hm.reserve
  split
  · exact ⟨m, _, _, rfl, ⟨rfl, hn⟩, by simpa [Hm.fp] using h⟩
  · simp only
    have hn' : n = 0 → meta' = none := fun h => (hn h).2
    have hsz : ∀ k, blk meta' ((n + (if meta'.isSome then 1 else 0)) * k) 0 = blk meta' ((n + 1) * k) 0 := by
      intro k; cases meta' <;> simp [blk]
    rcases malloc_cases (as 0) m 0 (P.bucks cap * P.vs) with ⟨_, e0⟩ | ⟨_, m0, i, e0, hl0⟩
    · rw [e0]
      simp only
      rcases malloc_cases (as 1) m 0 ((P.bucks cap + 1) * P.ms) with ⟨_, e1⟩ | ⟨_, m1, j, e1, hl1⟩
      · rw [e1]
        exact ⟨m, ⟨table, meta', size, n, 0⟩, false, by simp [free_null], ⟨rfl, hn⟩, by simpa [Hm.fp] using h⟩
      · rw [e1]
        have : m1.live.Perm (blk (some j) ((P.bucks cap + 1) * P.ms) 0 ++ m.live) := by rw [hl1]; rfl
        obtain ⟨m2, e2, h2⟩ := free_ok this
        refine ⟨m2, ⟨table, meta', size, n, 0⟩, false, ?_, ⟨rfl, hn⟩, by simpa [Hm.fp] using h2.trans h⟩
        simp [e2, free_null]
    · rw [e0]
      simp only
      rcases malloc_cases (as 1) m0 0 ((P.bucks cap + 1) * P.ms) with ⟨_, e1⟩ | ⟨_, m1, j, e1, hl1⟩
      · rw [e1]
        have : m0.live.Perm (blk (some i) (P.bucks cap * P.vs) 0 ++ m.live) := by rw [hl0]; rfl
        obtain ⟨m2, e2, h2⟩ := free_ok this
        refine ⟨m2, ⟨table, meta', size, n, 0⟩, false, ?_, ⟨rfl, hn⟩, by simpa [Hm.fp] using h2.trans h⟩
        simp [e2, free_null]
      · rw [e1]
        have hp : m1.live.Perm (blk meta' ((n + (if meta'.isSome then 1 else 0)) * P.ms) 0 ++
            (blk table (n * P.vs) 0 ++ (blk (some i) (P.bucks cap * P.vs) 0 ++
              (blk (some j) ((P.bucks cap + 1) * P.ms) 0 ++ F)))) := by
          rw [hl1, hl0, hsz]
          refine (List.Perm.cons _ (List.Perm.cons _ h)).trans ?_
          show (blk (some j) ((P.bucks cap + 1) * P.ms) 0 ++ (blk (some i) (P.bucks cap * P.vs) 0 ++
            (blk table (n * P.vs) 0 ++ (blk meta' ((n + 1) * P.ms) 0 ++ F)))).Perm _
          refine perm_swap.trans ?_
          refine (List.Perm.append_left _ perm_swap).trans ?_
          refine perm_swap.trans ?_
          refine (List.Perm.append_left _ (List.Perm.append_left _ perm_swap)).trans ?_
          refine (List.Perm.append_left _ perm_swap).trans ?_
          exact perm_swap
        obtain ⟨m2, m3, e2, e3, h3⟩ := hm_free_both hp
        refine ⟨m3, ⟨some i, some j, size, P.bucks cap, 0⟩, true, ?_, ⟨rfl, ?_⟩, ?_⟩
        · simp [e2, e3]
        · intro h0; have := hb cap; simp only at h0; omega
        · simpa [Hm.fp] using h3

theorem hm_drop_ok {P : HmPar} {m : Mem} {t : Hm} {F : List Blk} (ho : t.Ok)
    (h : m.live.Perm (Hm.fp P t ++ F)) : ∃ m', Hm.drop P m t = some m' ∧ m'.live.Perm F := by
  unfold Hm.drop
  split
  · simp only [Hm.fp, List.append_assoc] at h
    obtain ⟨m1, m2, e1, e2, h2⟩ := hm_free_both (h.trans perm_swap)
    exact ⟨m2, by simp [e1, e2], h2⟩
  · rename_i hn
    obtain ⟨h1, h2⟩ := ho.2 (by omega)
    exact ⟨m, rfl, by simpa [Hm.fp, h1, h2, blk] using h⟩

theorem hm_clone_ok {P : HmPar} {as : Answers} {m : Mem} {t : Hm} {F : List Blk} (ho : t.Ok)
    (h : m.live.Perm F) :
    ∃ m' t', Hm.clone P as m t = some (m', t') ∧ t'.Ok ∧ m'.live.Perm (Hm.fp P t' ++ F) := by
  unfold Hm.clone
  split
  · rename_i hn
    obtain ⟨h1, h2⟩ := ho.2 hn
    exact ⟨m, t, rfl, ho, by simpa [Hm.fp, h1, h2, blk] using h⟩
  · rename_i hn
    rcases malloc_cases (as 0) m 0 (t.n * P.vs) with ⟨_, e0⟩ | ⟨_, m0, i, e0, hl0⟩
    · rw [e0]
      simp only
      rcases malloc_cases (as 1) m 0 ((t.n + 1) * P.ms) with ⟨_, e1⟩ | ⟨_, m1, j, e1, hl1⟩
      · rw [e1]
        exact ⟨m, { t with table := none, meta' := none, n := 0 }, by simp [free_null], ⟨ho.1, fun _ => ⟨rfl, rfl⟩⟩,
          by simpa [Hm.fp, blk] using h⟩
      · rw [e1]
        have : m1.live.Perm (blk (some j) ((t.n + 1) * P.ms) 0 ++ m.live) := by rw [hl1]; rfl
        obtain ⟨m2, e2, h2⟩ := free_ok this
        refine ⟨m2, { t with table := none, meta' := none, n := 0 }, ?_, ⟨ho.1, fun _ => ⟨rfl, rfl⟩⟩,
          by simpa [Hm.fp, blk] using h2.trans h⟩
        simp [e2, free_null]
    · rw [e0]
      simp only
      rcases malloc_cases (as 1) m0 0 ((t.n + 1) * P.ms) with ⟨_, e1⟩ | ⟨_, m1, j, e1, hl1⟩
      · rw [e1]
        have : m0.live.Perm (blk (some i) (t.n * P.vs) 0 ++ m.live) := by rw [hl0]; rfl
        obtain ⟨m2, e2, h2⟩ := free_ok this
        refine ⟨m2, { t with table := none, meta' := none, n := 0 }, ?_, ⟨ho.1, fun _ => ⟨rfl, rfl⟩⟩,
          by simpa [Hm.fp, blk] using h2.trans h⟩
        simp [e2, free_null]
      · rw [e1]
        refine ⟨m1, { t with table := some i, meta' := some j }, by simp, ⟨ho.1, fun h0 => absurd h0 hn⟩, ?_⟩
        rw [hl1, hl0]
        simp only [Hm.fp, blk, ho.1, List.cons_append, List.nil_append]
        exact (List.Perm.cons _ (List.Perm.cons _ h)).trans (List.Perm.swap _ _ _)

theorem hm_un_ok {P : HmPar} (hb : ∀ c, 0 < P.bucks c) {as : Answers} {m : Mem} {t : Hm} {o : Hm.Op}
    {F : List Blk} (ho : t.Ok) (h : m.live.Perm (Hm.fp P t ++ F)) :
    ∃ m' t', Hm.un P as m t o = some (m', t') ∧ t'.Ok ∧ m'.live.Perm (Hm.fp P t' ++ F) := by
  cases o with
  | reserve n =>
    obtain ⟨m', v', b, e, h2, h3⟩ := hm_reserve_ok hb (as := as) (cap := n) ho h
    exact ⟨m', v', by simp [Hm.un, e], h2, h3⟩
  | insert =>
    unfold Hm.un
    simp only
    split
    · obtain ⟨m', v', b, e, h2, h3⟩ := hm_reserve_ok hb (as := as) (cap := t.size * 3 / 2 + 2) ho h
      rw [e]
      cases b
      · exact ⟨m', v', rfl, h2, h3⟩
      · exact ⟨m', _, rfl, h2, h3⟩
    · exact ⟨m, _, rfl, ho, h⟩
  | shrink =>
    obtain ⟨m', v', b, e, h2, h3⟩ := hm_reserve_ok hb (as := as) (cap := t.size) ho h
    exact ⟨m', v', by simp [Hm.un, e], h2, h3⟩
  | erase k => exact ⟨m, _, rfl, ho, h⟩
  | clear => exact ⟨m, _, rfl, ho, h⟩

theorem hmap_lawful (P : HmPar) (hb : ∀ c, 0 < P.bucks c) : Lawful (hmap P) (hmapRules P) Hm.Ok Any where
  new a h := ⟨⟨h, fun _ => ⟨rfl, rfl⟩⟩, rfl⟩
  make as m n F _ _ h := by
    obtain ⟨m', v', b, e, h2, h3⟩ := hm_reserve_ok hb (as := as) (cap := n) (m := m) (t := Hm.zero 0) (F := F)
      ⟨rfl, fun _ => ⟨rfl, rfl⟩⟩ h
    exact ⟨m', v', by simp [hmap, e], h2, h3⟩
  un as m s o F _ _ ho h := hm_un_ok hb ho h
  out as m s o F _ _ ho h := by
    cases o with
    | clone =>
      obtain ⟨m', v', e, h1, h2⟩ := hm_clone_ok (P := P) (as := as) (t := s) ho h
      exact ⟨m', s, v', by simp [hmap, Hm.out, e], ho, h1, h2.trans perm_swap⟩
    | move => exact ⟨m, Hm.zero 0, s, rfl, ⟨rfl, fun _ => ⟨rfl, rfl⟩⟩, ho, h⟩
  bin as m s t o F _ _ hs ht h := by
    by_cases hd : Hm.table s = Hm.table t
    · exact ⟨m, s, t, by simp [hmap, Hm.copy, hd], hs, ht, h⟩
    · obtain ⟨m1, e, h1⟩ := hm_drop_ok hs h
      obtain ⟨m', v', e2, h2, h3⟩ := hm_clone_ok (P := P) (as := as) (t := t) ht h1
      exact ⟨m', v', t, by simp [hmap, Hm.copy, hd, e, e2], h2, ht, h3⟩
  take m s t F _ _ hs ht h := by
    obtain ⟨m', e, h1⟩ := hm_drop_ok hs h
    exact ⟨m', t, by simp [hmap, e], ht, h1⟩
  drop m s F _ _ hs h := hm_drop_ok hs h

/-! ## smap -/

/-- `_clone`, `_copy` and `_shrink_to_fit` need an allocator that does not refuse; with `i_aux` they and
`_clear` are not available. -/
def smapRules (plain : Prop) (ns : Nat) : Rules (smap ns) :=
  ⟨fun a => plain → a = 0, fun _ _ => True,
   fun _ as o => match o with
    | .shrink => plain ∧ ∀ k, as k ≠ .fail
    | .clear => plain
    | _ => True,
   fun _ as o => o = .move ∨ (plain ∧ ∀ k, as k ≠ .fail),
   fun _ _ as _ => plain ∧ ∀ k, as k ≠ .fail, fun _ _ => True, fun _ => True⟩

/-- Without capacity there is no block; `aux` is not used. -/
def Sm.Ok (plain : Prop) (t : Sm) : Prop := (plain → t.aux = 0) ∧ (t.cap = 0 → t.nodes = none)

theorem sm_reserve_ok {ns : Nat} (hns : 0 < ns) {a : Ans} {m : Mem} {t : Sm} {n : Nat} {F : List Blk}
    (ho : t.cap = 0 → t.nodes = none) (h : m.live.Perm (Sm.fp ns t ++ F)) :
    ∃ m' t' b, Sm.reserve ns a m t n = some (m', t', b) ∧ t'.aux = t.aux ∧ (t'.cap = 0 → t'.nodes = none) ∧
      m'.live.Perm (Sm.fp ns t' ++ F) ∧ (t.cap < n → a ≠ .fail → b = true) := by
  unfold Sm.reserve
  split
  · exact ⟨m, t, false, rfl, rfl, ho, h, fun h1 => by omega⟩
  · have hn : (n + 1) * ns ≠ 0 := Nat.mul_ne_zero (by omega) (by omega)
    obtain ⟨m', p, e, h1 | h1⟩ := realloc_ok a ((n + 1) * ns) h
    · obtain ⟨rfl, ha, h2, h3⟩ := h1
      exact ⟨m', t, false, by simp [e], rfl, ho, h2 (.inl hn), fun _ h4 => absurd ha h4⟩
    · obtain ⟨h2, ha, h3⟩ := h1
      exact ⟨m', { t with nodes := p, cap := n }, true, by simp [e, h2], rfl,
        by simp only; omega, h3, fun _ _ => rfl⟩

theorem sm_new_ok {ns : Nat} (hns : 0 < ns) {a : Ans} {m : Mem} {t : Sm} {F : List Blk}
    (ho : t.cap = 0 → t.nodes = none) (h : m.live.Perm (Sm.fp ns t ++ F)) :
    ∃ m' t' b, Sm.newNode ns a m t = some (m', t', b) ∧ t'.aux = t.aux ∧ (t'.cap = 0 → t'.nodes = none) ∧
      m'.live.Perm (Sm.fp ns t' ++ F) ∧ (a ≠ .fail → b = true) := by
  unfold Sm.newNode
  split
  · exact ⟨m, _, true, rfl, rfl, ho, h, fun _ => rfl⟩
  · split
    · rename_i hh
      obtain ⟨m', t', b, e, h1, h2, h3, h4⟩ := sm_reserve_ok hns (a := a) (n := t.head * 3 / 2 + 4) ho h
      rw [e]
      cases b
      · exact ⟨m', t', false, rfl, h1, h2, h3, h4 (by omega)⟩
      · exact ⟨m', _, true, rfl, h1, h2, h3, fun _ => rfl⟩
    · exact ⟨m, _, true, rfl, rfl, ho, h, fun _ => rfl⟩

theorem sm_cloneNodes_ok {ns : Nat} (hns : 0 < ns) {as : Answers} (ha : ∀ k, as k ≠ .fail) {F : List Blk} :
    ∀ (n k : Nat) (m : Mem) (t : Sm), (t.cap = 0 → t.nodes = none) → m.live.Perm (Sm.fp ns t ++ F) →
    ∃ m' t', Sm.cloneNodes ns as n k m t = some (m', t') ∧ t'.aux = t.aux ∧ (t'.cap = 0 → t'.nodes = none) ∧
      m'.live.Perm (Sm.fp ns t' ++ F) := by
  intro n
  induction n with
  | zero => intro k m t ho h; exact ⟨m, t, rfl, rfl, ho, h⟩
  | succ n ih =>
    intro k m t ho h
    obtain ⟨m1, t1, b, e, h1, h2, h3, h4⟩ := sm_new_ok hns (a := as k) ho h
    obtain ⟨m2, t2, e2, h5, h6, h7⟩ := ih (k + 1) m1 t1 h2 h3
    exact ⟨m2, t2, by simp [Sm.cloneNodes, e, h4 (ha k), e2], h5.trans h1, h6, h7⟩

theorem sm_clone_ok {ns : Nat} (hns : 0 < ns) {as : Answers} (ha : ∀ k, as k ≠ .fail) {m : Mem} {t : Sm}
    {F : List Blk} (hx : t.aux = 0) (h : m.live.Perm F) :
    ∃ m' t', Sm.clone ns as m t = some (m', t') ∧ t'.aux = 0 ∧ (t'.cap = 0 → t'.nodes = none) ∧
      m'.live.Perm (Sm.fp ns t' ++ F) := by
  obtain ⟨m1, t1, b, e, h1, h2, h3, h4⟩ := sm_reserve_ok hns (a := as 0) (m := m) (t := Sm.zero 0) (n := t.size)
    (F := F) (fun _ => rfl) h
  obtain ⟨m2, t2, e2, h5, h6, h7⟩ := sm_cloneNodes_ok hns ha t.size 1 m1 t1 h2 h3
  refine ⟨m2, { t with nodes := t2.nodes, free := t2.free, cap := t2.cap }, by simp [Sm.clone, e, e2], hx, h6, ?_⟩
  have h8 : t2.aux = 0 := h5.trans h1
  simpa [Sm.fp, hx, h8] using h7

theorem sm_drop_ok {ns : Nat} {m : Mem} {t : Sm} {F : List Blk} (ho : t.cap = 0 → t.nodes = none)
    (h : m.live.Perm (Sm.fp ns t ++ F)) : ∃ m', Sm.drop ns m t = some m' ∧ m'.live.Perm F := by
  unfold Sm.drop
  split
  · exact free_ok h
  · rename_i hc
    exact ⟨m, rfl, by simpa [Sm.fp, blk, ho (by omega)] using h⟩

theorem smap_lawful (plain : Prop) (ns : Nat) (hns : 0 < ns) :
    Lawful (smap ns) (smapRules plain ns) (Sm.Ok plain) Any where
  new a h := ⟨⟨h, fun _ => rfl⟩, rfl⟩
  make as m n F _ _ h := by
    obtain ⟨m', t', b, e, h1, h2, h3, _⟩ := sm_reserve_ok hns (a := as 0) (m := m) (t := Sm.zero 0) (n := n) (F := F)
      (fun _ => rfl) h
    exact ⟨m', t', by simp [smap, e], ⟨fun _ => h1, h2⟩, h3⟩
  un as m s o F _ hr ho h := by
    cases o with
    | reserve n =>
      obtain ⟨m', t', b, e, h1, h2, h3, _⟩ := sm_reserve_ok hns (a := as 0) (n := n) ho.2 h
      exact ⟨m', t', by simp [smap, Sm.un, e], ⟨fun hp => h1.trans (ho.1 hp), h2⟩, h3⟩
    | insert =>
      obtain ⟨m', t', b, e, h1, h2, h3, _⟩ := sm_new_ok hns (a := as 0) ho.2 h
      cases b
      · exact ⟨m', t', by simp [smap, Sm.un, e], ⟨fun hp => h1.trans (ho.1 hp), h2⟩, h3⟩
      · exact ⟨m', { t' with size := t'.size + 1 }, by simp [smap, Sm.un, e], ⟨fun hp => h1.trans (ho.1 hp), h2⟩, h3⟩
    | erase =>
      by_cases hz : Sm.size s = 0
      · exact ⟨m, s, by simp [smap, Sm.un, hz], ho, h⟩
      · exact ⟨m, { (s : Sm) with size := Sm.size s - 1, free := Sm.free s + 1 }, by simp [smap, Sm.un, hz], ho, h⟩
    | shrink =>
      obtain ⟨hp, ha⟩ := hr
      obtain ⟨m1, t1, e1, h1, h2, h3⟩ := sm_clone_ok hns ha (t := s) (ho.1 hp) h
      obtain ⟨m2, e2, h4⟩ := sm_drop_ok ho.2 (h3.trans perm_swap)
      exact ⟨m2, t1, by simp [smap, Sm.un, e1, e2], ⟨fun _ => h1, h2⟩, h4⟩
    | clear =>
      obtain ⟨m2, e2, h4⟩ := sm_drop_ok ho.2 h
      exact ⟨m2, Sm.zero 0, by simp [smap, Sm.un, e2], ⟨fun _ => rfl, fun _ => rfl⟩, h4⟩
  out as m s o F _ hr ho h := by
    cases o with
    | clone =>
      obtain ⟨hp, ha⟩ := hr.resolve_left (by simp)
      obtain ⟨m1, t1, e1, h1, h2, h3⟩ := sm_clone_ok hns ha (t := s) (ho.1 hp) h
      exact ⟨m1, s, t1, by simp [smap, Sm.out, e1], ho, ⟨fun _ => h1, h2⟩, h3.trans perm_swap⟩
    | move => exact ⟨m, Sm.zero 0, s, rfl, ⟨fun _ => rfl, fun _ => rfl⟩, ho, h⟩
  bin as m s t o F _ hr hs ht h := by
    by_cases hd : Sm.nodes s = Sm.nodes t
    · exact ⟨m, s, t, by simp [smap, Sm.copy, hd], hs, ht, h⟩
    · obtain ⟨m1, e, h1⟩ := sm_drop_ok hs.2 h
      obtain ⟨m2, t2, e2, h2, h3, h4⟩ := sm_clone_ok hns hr.2 (t := t) (ht.1 hr.1) h1
      exact ⟨m2, t2, t, by simp [smap, Sm.copy, hd, e, e2], ⟨fun _ => h2, h3⟩, ht, h4⟩
  take m s t F _ _ hs ht h := by
    obtain ⟨m', e, h1⟩ := sm_drop_ok hs.2 h
    exact ⟨m', t, by simp [smap, e], ht, h1⟩
  drop m s F _ _ hs h := sm_drop_ok hs.2 h

/-! ## list -/

/-- Insertion and `_clone` need an allocator that does not refuse; with `i_aux`, `_clone`, `_copy`,
`_reverse` and `_split_off` are not available and only lists with equal `aux` may be spliced. -/
def listRules (plain : Prop) (ns es : Nat) : Rules (list ns es) :=
  ⟨fun a => plain → a = 0, fun _ _ => True,
   fun _ as o => match o with
    | .push => as 0 ≠ .fail
    | .reverse => plain
    | _ => True,
   fun _ as o => match o with
    | .clone => plain ∧ ∀ k, as k ≠ .fail
    | .move => True
    | .splitOff _ _ => plain,
   fun v w as o => match o with
    | .copy => plain ∧ ∀ k, as k ≠ .fail
    | .splice _ => Lst.aux v = Lst.aux w,
   fun _ _ => True, fun _ => True⟩

/-- The `aux` member is not used. -/
def LstOk (plain : Prop) (l : Lst) : Prop := plain → l.aux = 0

theorem lst_push_ok {ns : Nat} {a : Ans} {m : Mem} {l : Lst} {F : List Blk} (ha : a ≠ .fail)
    (h : m.live.Perm (Lst.fp ns l ++ F)) :
    ∃ m' l', Lst.push ns a m l = some (m', l') ∧ l'.aux = l.aux ∧ m'.live.Perm (Lst.fp ns l' ++ F) := by
  rcases malloc_cases a m l.aux ns with ⟨hf, _⟩ | ⟨_, m', i, e, hl⟩
  · exact absurd hf ha
  · refine ⟨m', { l with nodes := l.nodes ++ [i] }, by simp [Lst.push, e], rfl, ?_⟩
    rw [hl]
    simp only [Lst.fp, List.map_append, List.map_cons, List.map_nil, List.append_assoc, List.cons_append,
      List.nil_append]
    exact (List.Perm.cons _ h).trans List.perm_middle.symm

theorem lst_dropNodes_ok {ns aux : Nat} {F : List Blk} : ∀ (l : List Nat) (m : Mem),
    m.live.Perm (Lst.fp ns ⟨l, aux⟩ ++ F) → ∃ m', Lst.dropNodes ns m aux l = some m' ∧ m'.live.Perm F := by
  intro l
  induction l with
  | nil => intro m h; exact ⟨m, rfl, h⟩
  | cons i l ih =>
    intro m h
    have h1 : m.live.Perm (blk (some i) ns aux ++ (Lst.fp ns ⟨l, aux⟩ ++ F)) := h
    obtain ⟨m1, e1, h2⟩ := free_ok h1
    obtain ⟨m2, e2, h3⟩ := ih m1 h2
    exact ⟨m2, by simp [Lst.dropNodes, e1, e2], h3⟩

theorem lst_drop_ok {ns : Nat} {F : List Blk} {m : Mem} {l : Lst} (h : m.live.Perm (Lst.fp ns l ++ F)) :
    ∃ m', Lst.drop ns m l = some m' ∧ m'.live.Perm F := lst_dropNodes_ok l.nodes m h

theorem lst_erase_ok {ns : Nat} {F : List Blk} {m : Mem} {l : Lst} {k : Nat} (hk : k < l.nodes.length)
    (h : m.live.Perm (Lst.fp ns l ++ F)) :
    ∃ m' l', Lst.eraseAt ns m l k = some (m', l') ∧ l'.aux = l.aux ∧ m'.live.Perm (Lst.fp ns l' ++ F) := by
  have h1 : m.live.Perm (blk (some l.nodes[k]) ns l.aux ++
      (Lst.fp ns { l with nodes := l.nodes.eraseIdx k } ++ F)) := by
    refine h.trans ?_
    rw [← List.append_assoc]
    refine List.Perm.append_right _ ?_
    have hp : l.nodes.Perm (l.nodes[k] :: l.nodes.eraseIdx k) := (List.getElem_cons_eraseIdx_perm hk).symm
    exact hp.map _
  obtain ⟨m1, e1, h2⟩ := free_ok h1
  exact ⟨m1, { l with nodes := l.nodes.eraseIdx k },
    by simp [Lst.eraseAt, List.getElem?_eq_getElem hk, e1], rfl, h2⟩

theorem lst_sortCopy_ok {es : Nat} (hes : 0 < es) {as : Answers} {aux : Nat} {F : List Blk} :
    ∀ (n k : Nat) (m : Mem) (arr : Option Nat) (cap len : Nat), m.live.Perm (blk arr (cap * es) aux ++ F) →
    ∃ m' arr' cap' b, Lst.sortCopy es as aux n k m arr cap len = some (m', arr', cap', b) ∧
      m'.live.Perm (blk arr' (cap' * es) aux ++ F) := by
  intro n
  induction n with
  | zero => intro k m arr cap len h; exact ⟨m, arr, cap, true, rfl, h⟩
  | succ n ih =>
    intro k m arr cap len h
    unfold Lst.sortCopy
    split
    · have hn : (cap + cap / 2 + 8) * es ≠ 0 := Nat.mul_ne_zero (by omega) (by omega)
      obtain ⟨m1, q, e, h1 | h1⟩ := realloc_ok (as k) ((cap + cap / 2 + 8) * es) h
      · obtain ⟨rfl, ha, h2, _⟩ := h1
        exact ⟨m1, arr, cap, false, by simp [e], h2 (.inl hn)⟩
      · obtain ⟨h2, ha, h3⟩ := h1
        obtain ⟨m2, a2, c2, b, e2, h4⟩ := ih (k + 1) m1 q (cap + cap / 2 + 8) (len + 1) h3
        exact ⟨m2, a2, c2, b, by simp [e, h2, e2], h4⟩
    · exact ih k m arr cap (len + 1) h

theorem lst_sort_ok {es ns : Nat} (hes : 0 < es) {as : Answers} {F : List Blk} {m : Mem} {l : Lst}
    (h : m.live.Perm (Lst.fp ns l ++ F)) :
    ∃ m', Lst.sort es as m l = some (m', l) ∧ m'.live.Perm (Lst.fp ns l ++ F) := by
  obtain ⟨m1, a1, c1, b, e, h1⟩ := lst_sortCopy_ok hes (as := as) (aux := l.aux) l.nodes.length 0 m none 0 0
    (F := Lst.fp ns l ++ F) h
  obtain ⟨m2, e2, h2⟩ := free_ok h1
  exact ⟨m2, by simp [Lst.sort, e, e2], h2⟩

theorem lst_cloneNodes_ok {ns : Nat} {as : Answers} (ha : ∀ k, as k ≠ .fail) {F : List Blk} :
    ∀ (n k : Nat) (m : Mem) (l : Lst), m.live.Perm (Lst.fp ns l ++ F) →
    ∃ m' l', Lst.cloneNodes ns as n k m l = some (m', l') ∧ l'.aux = l.aux ∧ m'.live.Perm (Lst.fp ns l' ++ F) := by
  intro n
  induction n with
  | zero => intro k m l h; exact ⟨m, l, rfl, rfl, h⟩
  | succ n ih =>
    intro k m l h
    obtain ⟨m1, l1, e1, h1, h2⟩ := lst_push_ok (ha k) h
    obtain ⟨m2, l2, e2, h3, h4⟩ := ih (k + 1) m1 l1 h2
    exact ⟨m2, l2, by simp [Lst.cloneNodes, e1, e2], h3.trans h1, h4⟩

theorem lst_clone_ok {ns : Nat} {as : Answers} (ha : ∀ k, as k ≠ .fail) {F : List Blk} {m : Mem} {l : Lst}
    (hx : l.aux = 0) (h : m.live.Perm F) :
    ∃ m' l', Lst.clone ns as m l = some (m', l') ∧ l'.aux = 0 ∧ m'.live.Perm (Lst.fp ns l' ++ F) := by
  obtain ⟨m1, l1, e, h1, h2⟩ := lst_cloneNodes_ok (ns := ns) ha l.nodes.length 0 m (Lst.zero 0) (F := F) h
  refine ⟨m1, { l with nodes := l1.nodes }, by simp [Lst.clone, e], hx, ?_⟩
  have h3 : l1.aux = 0 := h1
  simpa [Lst.fp, hx, h3] using h2

theorem list_lawful (plain : Prop) (ns es : Nat) (hes : 0 < es) :
    Lawful (list ns es) (listRules plain ns es) (LstOk plain) Any where
  new a h := ⟨h, rfl⟩
  make as m n F _ _ h := ⟨m, Lst.zero 0, rfl, fun _ => rfl, h⟩
  un as m s o F _ hr ho h := by
    cases o with
    | push =>
      obtain ⟨m', l', e, h1, h2⟩ := lst_push_ok (a := as 0) hr h
      exact ⟨m', l', e, fun hp => h1.trans (ho hp), h2⟩
    | erase k =>
      by_cases hk : k < (Lst.nodes s).length
      · obtain ⟨m', l', e, h1, h2⟩ := lst_erase_ok hk h
        exact ⟨m', l', by simp [list, Lst.un, hk, e], fun hp => h1.trans (ho hp), h2⟩
      · exact ⟨m, s, by simp [list, Lst.un, hk], ho, h⟩
    | clear =>
      obtain ⟨m', e, h1⟩ := lst_drop_ok h
      exact ⟨m', { (s : Lst) with nodes := [] }, by simp [list, Lst.un, e], ho, h1⟩
    | reverse =>
      refine ⟨m, ⟨(Lst.nodes s).reverse, 0⟩, rfl, fun _ => rfl, h.trans ?_⟩
      refine List.Perm.append_right _ ?_
      show (Lst.fp ns s).Perm (Lst.fp ns ⟨(Lst.nodes s).reverse, 0⟩)
      have hx : Lst.aux s = 0 := ho hr
      simp only [Lst.fp, hx]
      exact (List.reverse_perm _).symm.map _
    | sort =>
      obtain ⟨m', e, h1⟩ := lst_sort_ok hes (as := as) h
      exact ⟨m', s, e, ho, h1⟩
  out as m s o F _ hr ho h := by
    cases o with
    | clone =>
      obtain ⟨hp, ha⟩ := hr
      obtain ⟨m1, l1, e, h1, h2⟩ := lst_clone_ok (ns := ns) ha (l := s) (ho hp) h
      exact ⟨m1, s, l1, by simp [list, Lst.out, e], ho, fun _ => h1, h2.trans perm_swap⟩
    | move => exact ⟨m, { (s : Lst) with nodes := [] }, s, rfl, ho, ho, h⟩
    | splitOff i n =>
      refine ⟨m, { (s : Lst) with nodes := (Lst.nodes s).take i ++ (Lst.nodes s).drop (i + n) },
        ⟨((Lst.nodes s).drop i).take n, 0⟩, rfl, ho, fun _ => rfl, h.trans ?_⟩
      show (Lst.fp ns s ++ F).Perm _
      rw [← List.append_assoc]
      refine List.Perm.append_right _ ?_
      show (Lst.fp ns s).Perm (Lst.fp ns ⟨_, Lst.aux s⟩ ++ Lst.fp ns ⟨_, 0⟩)
      have hx : Lst.aux s = 0 := ho hr
      simp only [Lst.fp, hx]
      rw [← List.map_append]
      refine List.Perm.map _ ?_
      conv => lhs; rw [← List.take_append_drop i (Lst.nodes s)]
      rw [List.append_assoc]
      refine List.Perm.append_left _ ?_
      conv => lhs; rw [← List.take_append_drop n ((Lst.nodes s).drop i)]
      rw [List.drop_drop]
      exact List.perm_append_comm
  bin as m s t o F _ hr hs ht h := by
    cases o with
    | copy =>
      by_cases hd : (Lst.nodes s).getLast? = (Lst.nodes t).getLast?
      · exact ⟨m, s, t, by simp [list, Lst.bin, hd], hs, ht, h⟩
      · obtain ⟨m1, e, h1⟩ := lst_drop_ok h
        obtain ⟨m2, l2, e2, h2, h3⟩ := lst_clone_ok (ns := ns) hr.2 (l := t) (ht hr.1) h1
        exact ⟨m2, l2, t, by simp [list, Lst.bin, hd, e, e2], fun _ => h2, ht, h3⟩
    | splice i =>
      refine ⟨m, { (s : Lst) with nodes := (Lst.nodes s).take i ++ Lst.nodes t ++ (Lst.nodes s).drop i },
        { (t : Lst) with nodes := [] }, rfl, hs, ht, h.trans ?_⟩
      show (Lst.fp ns s ++ (Lst.fp ns t ++ F)).Perm (Lst.fp ns ⟨_, Lst.aux s⟩ ++ F)
      rw [← List.append_assoc]
      refine List.Perm.append_right _ ?_
      have hx : Lst.aux s = Lst.aux t := hr
      simp only [Lst.fp, ← hx]
      rw [← List.map_append]
      refine List.Perm.map _ ?_
      conv => lhs; rw [← List.take_append_drop i (Lst.nodes s)]
      rw [List.append_assoc, List.append_assoc]
      exact List.Perm.append_left _ List.perm_append_comm
  take m s t F _ _ hs ht h := by
    obtain ⟨m', e, h1⟩ := lst_drop_ok h
    exact ⟨m', t, by simp [list, e], ht, h1⟩
  drop m s F _ _ hs h := lst_drop_ok h

end Verif.Alloc
