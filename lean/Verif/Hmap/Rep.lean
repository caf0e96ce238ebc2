import Verif.Hmap.Ops
/- Hash maps as representations of finite maps: every operation keeps the representation. -/
namespace Verif.Hmap
open List (Perm Subperm)
open scoped List
open Verif.Common Spec
variable {κ ν : Type}

/-- The keys are different. -/
def Distinct (H : Hasher κ) (M : List (κ × ν)) : Prop := M.Pairwise fun a b => H.eq a.1 b.1 = false

theorem eq_comm' {H : Hasher κ} (LH : Lawful H) (a b : κ) : H.eq a b = H.eq b a := by
  cases h : H.eq a b with
  | true => exact (LH.symm _ _ h).symm
  | false =>
    cases h' : H.eq b a with
    | false => rfl
    | true => rw [LH.symm _ _ h'] at h; cases h

theorem Distinct.perm {H : Hasher κ} (LH : Lawful H) {M M' : List (κ × ν)} (h : Distinct H M) (hp : M ~ M') :
    Distinct H M' :=
  hp.pairwise h fun {a b} h => by rw [eq_comm' LH]; exact h

/-- A map with bucket arrays, and the finite map it stands for. -/
structure Full (H : Hasher κ) (m : Map κ ν) (M : FMap κ ν) (n p : Nat) : Prop where
  arr : Arr H m n p
  perm : entries n m.metas m.table ~ M
  size : m.size = M.length
  cap : M.length ≤ capacity n
  dist : Distinct H M

/-- A map and the finite map it stands for. -/
def Rep (H : Hasher κ) (m : Map κ ν) (M : FMap κ ν) : Prop := (m = init ∧ M = []) ∨ ∃ n p, Full H m M n p

theorem Full.reps {H : Hasher κ} {m : Map κ ν} {M : FMap κ ν} {n p : Nat} (h : Full H m M n p) : Rep H m M :=
  Or.inr ⟨n, p, h⟩

theorem Full.permR {H : Hasher κ} (LH : Lawful H) {m : Map κ ν} {M M' : FMap κ ν} {n p : Nat} (h : Full H m M n p)
    (hp : M ~ M') : Full H m M' n p :=
  ⟨h.arr, h.perm.trans hp, by rw [h.size, hp.length_eq], by rw [← hp.length_eq]; exact h.cap, h.dist.perm LH hp⟩

theorem Rep.permR {H : Hasher κ} (LH : Lawful H) {m : Map κ ν} {M M' : FMap κ ν} (h : Rep H m M) (hp : M ~ M') :
    Rep H m M' := by
  rcases h with ⟨h1, h2⟩ | ⟨n, p, h⟩
  · left; refine ⟨h1, ?_⟩; rw [h2] at hp; exact hp.nil_eq.symm
  · exact (h.permR LH hp).reps

theorem Rep.distinct {H : Hasher κ} {m : Map κ ν} {M : FMap κ ν} (h : Rep H m M) : Distinct H M := by
  rcases h with ⟨_, rfl⟩ | ⟨n, p, h⟩
  · exact List.Pairwise.nil
  · exact h.dist

theorem Rep.size {H : Hasher κ} {m : Map κ ν} {M : FMap κ ν} (h : Rep H m M) : m.size = M.length := by
  rcases h with ⟨rfl, rfl⟩ | ⟨n, p, h⟩
  · rfl
  · exact h.size

theorem Full.gap {H : Hasher κ} {m : Map κ ν} {M : FMap κ ν} {n p : Nat} (h : Full H m M n p) :
    ∃ g < n, D m.metas g = 0 := by
  apply gap_of_length h.arr.inv
  rw [h.perm.length_eq]
  have := h.cap
  have h1 := capacity_lt p
  rw [← h.arr.pow] at h1
  omega

theorem Full.unique {H : Hasher κ} (LH : Lawful H) {m : Map κ ν} {M : FMap κ ν} {n p : Nat} (h : Full H m M n p)
    {x y : Nat} {e e' : κ × ν} (hx : x < n) (hy : y < n) (h1 : slot m.metas m.table x = some e)
    (h2 : slot m.metas m.table y = some e') (he : H.eq e.1 e'.1 = true) : x = y := by
  by_contra hne
  have hd : Distinct H (entries n m.metas m.table) := h.dist.perm LH h.perm.symm
  rw [Distinct, entries, List.pairwise_filterMap, List.pairwise_iff_getElem] at hd
  rcases Nat.lt_or_gt_of_ne hne with hlt | hlt
  · have := hd x y (by simpa using hx) (by simpa using hy) hlt e (by simpa using h1) e' (by simpa using h2)
    rw [he] at this; cases this
  · have := hd y x (by simpa using hy) (by simpa using hx) hlt e' (by simpa using h2) e (by simpa using h1)
    rw [eq_comm' LH, he] at this; cases this

/-! ### finding -/

theorem find_some_iff {H : Hasher κ} (LH : Lawful H) {M : FMap κ ν} (hd : Distinct H M) {k : κ} {e : κ × ν} :
    find H M k = some e ↔ e ∈ M ∧ H.eq e.1 k = true := by
  induction M with
  | nil => simp [find]
  | cons a M ih =>
    rw [Distinct, List.pairwise_cons] at hd
    rw [find, List.find?_cons]
    cases ha : H.eq a.1 k with
    | true =>
      constructor
      · rintro h; cases h; exact ⟨by simp, ha⟩
      · rintro ⟨h1, h2⟩
        rcases List.mem_cons.1 h1 with rfl | h1
        · rfl
        · have := hd.1 e h1
          rw [LH.trans _ _ _ ha (LH.symm _ _ h2)] at this; cases this
    | false =>
      refine (ih hd.2).trans ?_
      constructor
      · rintro ⟨h1, h2⟩; exact ⟨by simp [h1], h2⟩
      · rintro ⟨h1, h2⟩
        rcases List.mem_cons.1 h1 with rfl | h1
        · rw [ha] at h2; cases h2
        · exact ⟨h1, h2⟩

theorem find_none_iff {H : Hasher κ} {M : FMap κ ν} {k : κ} :
    find H M k = none ↔ ∀ e ∈ M, H.eq e.1 k = false := by
  rw [find, List.find?_eq_none]
  constructor
  · intro h e he; have := h e he; simpa using this
  · intro h e he; rw [h e he]; simp

theorem lookup_full {H : Hasher κ} (LH : Lawful H) {m : Map κ ν} {M : FMap κ ν} {n p : Nat} (h : Full H m M n p) (k : κ) :
    ∃ r, lookup H m k = some r ∧ ((r.found = true ∧ r.idx < n ∧ ∃ e, slot m.metas m.table r.idx = some e ∧
      m.table[r.idx]? = some (some e) ∧ H.eq e.1 k = true ∧ find H M k = some e) ∨ (r.found = false ∧ find H M k = none)) := by
  obtain ⟨r, er, hr⟩ := lookup_spec LH h.arr k
  refine ⟨r, er, ?_⟩
  rcases hr with ⟨h1, h2, e, h3, h4⟩ | ⟨h1, _, h2⟩
  · left
    obtain ⟨e', h5, h6, _⟩ := h.arr.inv.slot_eq h2 (slot_some h3)
    rw [h3] at h5; cases h5
    exact ⟨h1, h2, e, h3, h6, h4, (find_some_iff LH h.dist).2 ⟨h.perm.subset (mem_entries.2 ⟨_, h2, h3⟩), h4⟩⟩
  · right
    exact ⟨h1, find_none_iff.2 fun e he => h2 e (h.perm.symm.subset he)⟩

theorem getRef_spec {H : Hasher κ} (LH : Lawful H) {m : Map κ ν} {M : FMap κ ν} (h : Rep H m M) (k : κ) :
    (getRef H m k = some none ∧ find H M k = none) ∨
    ∃ i e n p, getRef H m k = some (some i) ∧ i < n ∧ slot m.metas m.table i = some e ∧ m.table[i]? = some (some e) ∧
      H.eq e.1 k = true ∧ find H M k = some e ∧ Full H m M n p := by
  rcases h with ⟨rfl, rfl⟩ | ⟨n, p, h⟩
  · left; exact ⟨rfl, rfl⟩
  · by_cases hs : m.size = 0
    · left
      have : M = [] := by have := h.size; rw [hs] at this; exact List.length_eq_zero_iff.1 this.symm
      rw [this, getRef, if_neg (by simpa using hs)]
      exact ⟨rfl, rfl⟩
    · obtain ⟨r, er, hr⟩ := lookup_full LH h k
      have he : getRef H m k = some (if r.found then some r.idx else none) := by
        rw [getRef, if_pos hs, er]; rfl
      rcases hr with ⟨h1, h2, e, h3, h4, h5, h6⟩ | ⟨h1, h2⟩
      · right
        exact ⟨r.idx, e, n, p, by rw [he, h1]; rfl, h2, h3, h4, h5, h6, h⟩
      · left
        exact ⟨by rw [he, h1]; rfl, h2⟩

theorem get_spec {H : Hasher κ} (LH : Lawful H) {m : Map κ ν} {M : FMap κ ν} (h : Rep H m M) (k : κ) :
    get H m k = some (find H M k) := by
  rcases getRef_spec LH h k with ⟨h1, h2⟩ | ⟨i, e, n, p, h1, _, _, h4, _, h6, _⟩
  · rw [get, h1, h2]; rfl
  · rw [get, h1, h6]; simp only [Option.bind_eq_bind, Option.bind_some, h4]

theorem contains_spec {H : Hasher κ} (LH : Lawful H) {m : Map κ ν} {M : FMap κ ν} (h : Rep H m M) (k : κ) :
    contains H m k = some (find H M k).isSome := by
  rcases getRef_spec LH h k with ⟨h1, h2⟩ | ⟨i, e, n, p, h1, _, _, h4, _, h6, _⟩
  · rw [contains, h1, h2]; rfl
  · rw [contains, h1, h6]; rfl

/-! ### rehashing -/

theorem D_fresh {size n x : Nat} (hx : x < n) : D (fresh (κ := κ) (ν := ν) size n).metas x = 0 := by
  rw [D, fresh, List.getElem?_append_left (by simpa using hx), List.getElem?_replicate, if_pos hx]

theorem fresh_arr {H : Hasher κ} {size n p : Nat} (hp : n = 2 ^ p) (h2 : 2 ≤ n) :
    Arr H (fresh (κ := κ) (ν := ν) size n) n p ∧ entries n (fresh (κ := κ) (ν := ν) size n).metas (fresh (κ := κ) (ν := ν) size n).table = [] := by
  refine ⟨⟨rfl, hp, h2, ?_⟩, ?_⟩
  · refine ⟨by simp [fresh], by simp [fresh], ?_, ?_, ?_, ?_⟩
    · rw [D, fresh, List.getElem?_append_right (by simp)]; simp
    · intro x hx hd; exact absurd (D_fresh hx) hd
    · intro x hx; rw [D_fresh hx]; omega
    · intro x hx; rw [D_fresh (Nat.mod_lt _ (by omega))]; omega
  · rw [entries, List.filterMap_eq_nil_iff]
    intro x hx
    rw [slot, if_neg (by rw [D_fresh (List.mem_range.1 hx)]; simp)]

theorem pre_sub {β : Type} (f : Nat → Option β) {i n : Nat} (hi : i ≤ n) :
    List.Sublist ((List.range i).filterMap f) ((List.range n).filterMap f) := by
  exact (List.range_sublist.2 hi).filterMap f

theorem rehash_spec {H : Hasher κ} (LH : Lawful H) {old : Map κ ν} {n p n' p' : Nat} (ho : Arr H old n p)
    (hd : Distinct H (entries n old.metas old.table)) (hcap : (entries n old.metas old.table).length < n')
    (hsp : Spread n' ((entries n old.metas old.table).map fun e => home H n' e.1)) :
    ∀ (f i : Nat) (m : Map κ ν), f + i = n → Arr H m n' p' →
      entries n' m.metas m.table ~ (List.range i).filterMap (slot old.metas old.table) →
      ∃ m', rehash H old f i m = some m' ∧ m'.size = m.size ∧ Arr H m' n' p' ∧
        entries n' m'.metas m'.table ~ entries n old.metas old.table := by
  intro f
  induction f with
  | zero =>
    intro i m hi hm hp
    refine ⟨m, rfl, rfl, hm, ?_⟩
    rw [Nat.zero_add] at hi; rw [hi] at hp; exact hp
  | succ f ih =>
    intro i m hi hm hp
    have hin : i < n := by omega
    obtain ⟨mt, hmt, hdd⟩ := meta_some ho.inv hin
    simp only [rehash, hmt, Option.bind_eq_bind, Option.bind_some, hdd]
    have hsucc : (List.range (i + 1)).filterMap (slot old.metas old.table) =
        (List.range i).filterMap (slot old.metas old.table) ++ (slot old.metas old.table i).toList := by
      rw [List.range_succ, List.filterMap_append]
      cases h : slot old.metas old.table i <;> simp [h]
    by_cases h0 : D old.metas i = 0
    · rw [if_neg (by simpa using h0)]
      apply ih (i + 1) m (by omega) hm
      rw [hsucc, slot, if_neg (by simpa using h0)]
      simpa using hp
    · rw [if_pos h0]
      obtain ⟨e, he, hte, _, _⟩ := ho.inv.slot_eq hin h0
      simp only [hte, Option.bind_some]
      rw [he, Option.toList_some] at hsucc
      have hsub : List.Sublist ((List.range i).filterMap (slot old.metas old.table) ++ [e]) (entries n old.metas old.table) := by
        rw [← hsucc]; exact pre_sub _ (by omega)
      have hd' := hd.sublist hsub
      have hlen := hsub.length_le
      rw [List.length_append, List.length_singleton] at hlen
      have hgap : ∃ g < n', D m.metas g = 0 := by
        apply gap_of_length hm.inv
        rw [hp.length_eq]; omega
      have hss : (home H n' e.1 :: (entries n' m.metas m.table).map fun e => home H n' e.1) <+~
          (entries n old.metas old.table).map fun e => home H n' e.1 := by
        have h1 : (e :: entries n' m.metas m.table) ~ (List.range i).filterMap (slot old.metas old.table) ++ [e] :=
          (hp.cons e).trans (List.perm_append_singleton _ _).symm
        have h2 := (h1.map fun e : κ × ν => home H n' e.1).subperm.trans
          (hsub.map fun e : κ × ν => home H n' e.1).subperm
        exact h2
      rcases bucketInsert_spec LH hm hgap e.1 e.2 hsp (fun _ => hss) with ⟨j, e', h1, h2, h3, h4⟩ | ⟨_, m', j, m'', h1, h2, h3, h4, h5, h6, _, h7⟩
      · exfalso
        have hmem : e' ∈ (List.range i).filterMap (slot old.metas old.table) := hp.subset (mem_entries.2 ⟨j, h2, h3⟩)
        have := (List.pairwise_append.1 hd').2.2 e' hmem e (by simp)
        rw [h4] at this; cases this
      · simp only [h1, Option.bind_some, h4]
        obtain ⟨mf, hf, hsz, ha, hpf⟩ := ih (i + 1) m'' (by omega) h6 (by
          rw [hsucc]
          exact (h7.trans (hp.cons _)).trans (List.perm_append_singleton _ _).symm)
        refine ⟨mf, hf, ?_, ha, hpf⟩
        rw [hsz, h5, ← h2]

theorem Full.buckets_ge {H : Hasher κ} {m : Map κ ν} {M : FMap κ ν} {n p : Nat} (h : Full H m M n p) : m.bc = n := h.arr.bc

/-- `_reserve` keeps the contents. -/
theorem reserve_spec {H : Hasher κ} (LH : Lawful H) {m : Map κ ν} {M : FMap κ ν} (h : Rep H m M) {c : Nat} (hc : c < 2 ^ 59)
    (hsp : Spread (bucketsFor c) (M.map fun e => home H (bucketsFor c) e.1)) :
    ∃ m', reserve true H c m = some (m', true) ∧ Rep H m' M ∧ c ≤ capacity m'.bc ∧
      (M.length ≤ c → m'.bc = bucketsFor c) ∧ (c < M.length → m' = m) := by
  obtain ⟨p', hb, hp2, hcap⟩ := bucketsFor_spec hc
  have h4 : 4 ≤ bucketsFor c := by rw [hb]; calc 4 = 2 ^ 2 := rfl
                                               _ ≤ 2 ^ p' := Nat.pow_le_pow_right (by omega) hp2
  by_cases hlt : c < m.size
  · refine ⟨m, by rw [reserve, if_pos (Or.inl hlt)], h, ?_, ?_, fun _ => rfl⟩
    · rcases h with ⟨rfl, rfl⟩ | ⟨n, p, h⟩
      · exact absurd hlt (by simp [init])
      · rw [h.arr.bc]
        have := h.cap; rw [h.size] at hlt; omega
    · intro hle; rw [h.size] at hlt; omega
  · by_cases hbe : bucketsFor c = m.bc
    · refine ⟨m, by rw [reserve, if_pos (Or.inr hbe)], h, ?_, fun _ => hbe.symm, fun _ => rfl⟩
      rw [← hbe, hb]; exact hcap
    · have hle : M.length ≤ c := by rw [h.size] at hlt; omega
      have key : ∃ m', rehash H m m.bc 0 (fresh m.size (bucketsFor c)) = some m' ∧ Full H m' M (bucketsFor c) p' := by
        obtain ⟨hfa, hfe⟩ := fresh_arr (κ := κ) (ν := ν) (H := H) (size := m.size) hb (by omega)
        rcases h with ⟨rfl, rfl⟩ | ⟨n, p, h⟩
        · refine ⟨fresh 0 (bucketsFor c), rfl, hfa, ?_, rfl, Nat.zero_le _, List.Pairwise.nil⟩
          have : (init (κ := κ) (ν := ν)).size = 0 := rfl
          rw [this] at hfe
          rw [hfe]
        · have hlt' : M.length < bucketsFor c := by
            have := capacity_lt p'
            rw [← hb] at this hcap
            omega
          obtain ⟨m', e1, e2, e3, e4⟩ := rehash_spec LH h.arr (h.dist.perm LH h.perm.symm)
            (by rw [h.perm.length_eq]; exact hlt')
            (n' := bucketsFor c) (p' := p') (by
              intro s hs len hlen h1
              have := hsp s hs len hlen h1
              rwa [← (h.perm.map fun e : κ × ν => home H (bucketsFor c) e.1).countP_eq] at this)
            n 0 (fresh m.size (bucketsFor c)) (by omega) hfa (by rw [hfe]; rfl)
          refine ⟨m', by rw [h.arr.bc]; exact e1, e3, e4.trans h.perm, by rw [e2]; exact h.size, ?_, h.dist⟩
          rw [hb]; omega
      obtain ⟨m', e1, e2⟩ := key
      refine ⟨m', ?_, e2.reps, ?_, fun _ => e2.arr.bc, fun hlt' => by omega⟩
      · rw [reserve, if_neg (by rintro (hh | hh); exacts [hlt hh, hbe hh]), if_pos rfl, e1]; rfl
      · rw [e2.arr.bc, hb]; exact hcap

theorem Rep.bucket_lt {H : Hasher κ} {m : Map κ ν} {M : FMap κ ν} (h : Rep H m M) : m.size < m.bc ∨ m = init := by
  rcases h with ⟨rfl, rfl⟩ | ⟨n, p, h⟩
  · exact Or.inr rfl
  · left
    have h1 := h.cap
    have h2 := capacity_lt p
    rw [← h.arr.pow] at h2
    rw [h.size, h.arr.bc]; omega

/-! ### insertion -/

theorem insertNew_homes_sub {H : Hasher κ} {M : FMap κ ν} {k : κ} {v : ν} {n : Nat}
    (hsp : Spread n ((insertNew H M k v).map fun e => home H n e.1)) : Spread n (M.map fun e => home H n e.1) := by
  intro s hs len hl h1
  refine Nat.le_trans ?_ (hsp s hs len hl h1)
  apply List.Sublist.countP_le
  rw [insertNew]; split
  · exact List.Sublist.refl _
  · exact (List.sublist_cons_self _ _).map _

theorem assign_homes {H : Hasher κ} {M : FMap κ ν} {k : κ} {v : ν} {n : Nat} :
    (assign H M k v).map (fun e => home H n e.1) = (insertNew H M k v).map fun e => home H n e.1 := by
  rw [assign, insertNew]; split
  · rw [List.map_map]
    apply List.map_congr_left
    intro e _
    simp only [Function.comp]
    split <;> rfl
  · rfl

theorem grow_spec {H : Hasher κ} (LH : Lawful H) {m : Map κ ν} {M : FMap κ ν} (h : Rep H m M) (hl : M.length < 2 ^ 58)
    (hsp : Spread (buckets m) (M.map fun e => home H (buckets m) e.1)) :
    ∃ m' n p, grow true H m = some (m', true) ∧ Full H m' M n p ∧ n = buckets m ∧ M.length < capacity n := by
  by_cases hg : m.size ≥ capacity m.bc
  · have hb : buckets m = bucketsFor (m.size * 3 / 2 + 2) := by rw [buckets, if_pos hg]
    have hsz := h.size
    obtain ⟨m', e1, e2, e3, e4, _⟩ := reserve_spec LH h (c := m.size * 3 / 2 + 2) (by omega) (by rw [← hb]; exact hsp)
    have hbc := e4 (by omega)
    rcases e2 with ⟨rfl, rfl⟩ | ⟨n, p, e2⟩
    · exfalso
      have h0 : (init (κ := κ) (ν := ν)).bc = 0 := rfl
      rw [h0, capacity, if_pos rfl] at e3
      omega
    · refine ⟨m', n, p, by rw [grow, if_pos hg]; exact e1, e2, by rw [hb, ← hbc, e2.arr.bc], ?_⟩
      rw [e2.arr.bc] at e3
      omega
  · have hb : buckets m = m.bc := by rw [buckets, if_neg hg]
    rcases h with ⟨rfl, rfl⟩ | ⟨n, p, h⟩
    · exact absurd (Nat.zero_le _) hg
    · refine ⟨m, n, p, by rw [grow, if_neg hg], h, by rw [hb, h.arr.bc], ?_⟩
      rw [h.size, h.arr.bc] at hg
      omega

theorem insertEntry_spec {H : Hasher κ} (LH : Lawful H) {m : Map κ ν} {M : FMap κ ν} (h : Rep H m M) (k : κ) (v : ν)
    (hl : M.length < 2 ^ 58) (hsp : Spread (buckets m) ((insertNew H M k v).map fun e => home H (buckets m) e.1)) :
    (∃ m' i e n p, insertEntry true H m k = some (m', some i, false) ∧ Full H m' M n p ∧ i < n ∧
      slot m'.metas m'.table i = some e ∧ m'.table[i]? = some (some e) ∧ H.eq e.1 k = true ∧ find H M k = some e) ∨
    (find H M k = none ∧ ∃ m' i m'' n p, insertEntry true H m k = some (m', some i, true) ∧ store m' i (k, v) = some m'' ∧
      Full H m'' ((k, v) :: M) n p ∧ i < n ∧ slot m''.metas m''.table i = some (k, v)) := by
  obtain ⟨m1, n, p, e1, hf, hn, hc⟩ := grow_spec LH h hl (insertNew_homes_sub hsp)
  rw [← hn] at hsp
  have hperm : (entries n m1.metas m1.table).map (fun e => home H n e.1) ~ M.map fun e => home H n e.1 := hf.perm.map _
  rcases bucketInsert_spec LH hf.arr hf.gap k v hsp (by
      intro habs
      have : find H M k = none := find_none_iff.2 fun e he => habs e (hf.perm.symm.subset he)
      rw [insertNew, this]
      simp only [Option.isSome_none, Bool.false_eq_true, if_false, List.map_cons]
      exact (hperm.cons _).subperm) with ⟨i, e, h1, h2, h3, h4⟩ | ⟨habs, m', i, m'', h1, h2, h3, h4, h5, h6, h7, h8⟩
  · left
    obtain ⟨e', g1, g2, _⟩ := hf.arr.inv.slot_eq h2 (slot_some h3)
    rw [h3] at g1; cases g1
    refine ⟨m1, i, e, n, p, ?_, hf, h2, h3, g2, h4, (find_some_iff LH hf.dist).2
      ⟨hf.perm.subset (mem_entries.2 ⟨i, h2, h3⟩), h4⟩⟩
    simp only [insertEntry, e1, Option.bind_eq_bind, Option.bind_some, if_true, h1, Bool.false_eq_true, if_false,
      Nat.add_zero]
  · right
    have habs' : ∀ e ∈ M, H.eq e.1 k = false := fun e he => habs e (hf.perm.symm.subset he)
    refine ⟨find_none_iff.2 habs', { m' with size := m'.size + 1 }, i, { m'' with size := m'.size + 1 }, n, p, ?_, ?_, ?_, h3, h7⟩
    · simp only [insertEntry, e1, Option.bind_eq_bind, Option.bind_some, if_true, h1]
    · rw [store] at h4 ⊢
      by_cases hlt : i < m'.table.length
      · rw [if_pos hlt] at h4 ⊢
        cases h4; rfl
      · rw [if_neg hlt] at h4; cases h4
    · refine ⟨⟨h6.bc, h6.pow, h6.two, h6.inv⟩, h8.trans (hf.perm.cons _), ?_, ?_, ?_⟩
      · simp only [h2, hf.size, List.length_cons]
      · rw [List.length_cons]; omega
      · refine List.pairwise_cons.2 ⟨fun e he => ?_, hf.dist⟩
        rw [eq_comm' LH]; exact habs' e he

theorem Inv.assign {H : Hasher κ} {n : Nat} {metas : List Meta} {table : List (Option (κ × ν))} (h : Inv H n metas table)
    {i : Nat} {e : κ × ν} (hs : table[i]? = some (some e)) (v : ν) : Inv H n metas (table.set i (some (e.1, v))) := by
  have hlt : i < table.length := by
    by_contra hc; rw [List.getElem?_eq_none (by omega)] at hs; cases hs
  refine ⟨h.lenm, by rw [List.length_set]; exact h.lent, h.mark, ?_, h.le, h.step⟩
  intro x hx hd
  obtain ⟨e', h1, h2, h3⟩ := h.occ x hx hd
  by_cases hxi : x = i
  · subst hxi
    rw [h1] at hs; cases hs
    exact ⟨(e.1, v), List.getElem?_set_self hlt, h2, h3⟩
  · exact ⟨e', by rw [List.getElem?_set_ne (Ne.symm hxi)]; exact h1, h2, h3⟩

theorem assignAt_spec {H : Hasher κ} (LH : Lawful H) {m : Map κ ν} {M : FMap κ ν} {n p : Nat} (h : Full H m M n p)
    {i : Nat} {e : κ × ν} (hi : i < n) (hs : slot m.metas m.table i = some e) {k : κ} (hk : H.eq e.1 k = true) (v : ν) :
    ∃ m', store m i (e.1, v) = some m' ∧ Full H m' (assign H M k v) n p := by
  obtain ⟨e', g1, g2, _⟩ := h.arr.inv.slot_eq hi (slot_some hs)
  rw [hs] at g1; cases g1
  have hlt : i < m.table.length := by rw [h.arr.inv.lent]; exact hi
  have hfind : find H M k = some e := (find_some_iff LH h.dist).2 ⟨h.perm.subset (mem_entries.2 ⟨i, hi, hs⟩), hk⟩
  refine ⟨{ m with table := m.table.set i (some (e.1, v)) }, by rw [store, if_pos hlt],
    ⟨h.arr.bc, h.arr.pow, h.arr.two, h.arr.inv.assign g2 v⟩, ?_, ?_, ?_, ?_⟩
  · have : entries n m.metas (m.table.set i (some (e.1, v))) =
        (entries n m.metas m.table).map fun e' => if H.eq e'.1 k then (e'.1, v) else e' := by
      rw [entries, entries, List.map_filterMap]
      apply List.filterMap_congr
      intro x hx
      by_cases hxi : x = i
      · subst hxi
        rw [hs, slot, if_pos (slot_some hs), List.getElem?_set_self hlt]
        simp [hk]
      · have : slot m.metas (m.table.set i (some (e.1, v))) x = slot m.metas m.table x := by
          rw [slot, slot, List.getElem?_set_ne (Ne.symm hxi)]
        rw [this]
        cases hsx : slot m.metas m.table x with
        | none => rfl
        | some e' =>
          have hf : H.eq e'.1 k = false := by
            cases hc : H.eq e'.1 k with
            | false => rfl
            | true =>
              exact absurd (h.unique LH (List.mem_range.1 hx) hi hsx hs (LH.trans _ _ _ hc (LH.symm _ _ hk))) hxi
          simp [hf]
    simp only [this]
    rw [assign, hfind]
    exact h.perm.map _
  · simp only [assign, hfind, h.size]; simp
  · simp only [assign, hfind]; simpa using h.cap
  · rw [assign, hfind]
    simp only [Option.isSome_some, if_true]
    rw [Distinct, List.pairwise_map]
    refine h.dist.imp ?_
    intro a b hab
    split <;> split <;> exact hab

/-- The four insertions keep the representation. -/
theorem insert_spec {H : Hasher κ} (LH : Lawful H) {m : Map κ ν} {M : FMap κ ν} (h : Rep H m M) (k : κ) (v : ν)
    (hl : M.length < 2 ^ 58) (hsp : Spread (buckets m) ((insertNew H M k v).map fun e => home H (buckets m) e.1)) :
    ∃ r i, insert true H m k v = some r ∧ r.ref = some i ∧ Rep H r.map (insertNew H M k v) ∧
      entryAt r.map i = find H (insertNew H M k v) k ∧ r.inserted = (find H M k).isNone ∧
      r.dropped = (match find H M k with | none => [] | some _ => [.key k, .val v]) := by
  rcases insertEntry_spec LH h k v hl hsp with ⟨m', i, e, n, p, h1, h2, h3, h4, h5, h6, h7⟩ | ⟨h0, m', i, m'', n, p, h1, h2, h3, h4, h5⟩
  · refine ⟨⟨m', some i, false, [.key k, .val v]⟩, i, ?_, rfl, ?_, ?_, ?_, ?_⟩
    · simp only [insert, h1, Option.bind_eq_bind, Option.bind_some, Bool.false_eq_true, if_false]
    · rw [insertNew, h7]; exact h2.reps
    · rw [insertNew, h7]
      simp only [Option.isSome_some, if_true, h7]
      obtain ⟨mt, g1, g2⟩ := meta_some h2.arr.inv h3
      simp only [entryAt, g1, Option.bind_eq_bind, Option.bind_some, g2]
      exact h4
    · rw [h7]; rfl
    · rw [h7]
  · refine ⟨⟨m'', some i, true, []⟩, i, ?_, rfl, ?_, ?_, ?_, ?_⟩
    · simp only [insert, h1, Option.bind_eq_bind, Option.bind_some, if_true, h2]
    · rw [insertNew, h0]; exact h3.reps
    · rw [insertNew, h0]
      simp only [Option.isSome_none, Bool.false_eq_true, if_false]
      rw [(find_some_iff LH h3.dist (e := (k, v))).2 ⟨by simp, LH.refl k⟩]
      obtain ⟨mt, g1, g2⟩ := meta_some h3.arr.inv h4
      simp only [entryAt, g1, Option.bind_eq_bind, Option.bind_some, g2]
      exact h5
    · rw [h0]; rfl
    · rw [h0]

theorem emplace_spec {H : Hasher κ} (LH : Lawful H) {m : Map κ ν} {M : FMap κ ν} (h : Rep H m M) (k : κ) (v : ν)
    (hl : M.length < 2 ^ 58) (hsp : Spread (buckets m) ((insertNew H M k v).map fun e => home H (buckets m) e.1)) :
    ∃ r i, emplace true H m k v = some r ∧ r.ref = some i ∧ Rep H r.map (insertNew H M k v) ∧
      entryAt r.map i = find H (insertNew H M k v) k ∧ r.inserted = (find H M k).isNone ∧ r.dropped = [] := by
  rcases insertEntry_spec LH h k v hl hsp with ⟨m', i, e, n, p, h1, h2, h3, h4, h5, h6, h7⟩ | ⟨h0, m', i, m'', n, p, h1, h2, h3, h4, h5⟩
  · refine ⟨⟨m', some i, false, []⟩, i, ?_, rfl, ?_, ?_, ?_, rfl⟩
    · simp only [emplace, h1, Option.bind_eq_bind, Option.bind_some, Bool.false_eq_true, if_false]
    · rw [insertNew, h7]; exact h2.reps
    · rw [insertNew, h7]
      simp only [Option.isSome_some, if_true, h7]
      obtain ⟨mt, g1, g2⟩ := meta_some h2.arr.inv h3
      simp only [entryAt, g1, Option.bind_eq_bind, Option.bind_some, g2]
      exact h4
    · rw [h7]; rfl
  · refine ⟨⟨m'', some i, true, []⟩, i, ?_, rfl, ?_, ?_, ?_, rfl⟩
    · simp only [emplace, h1, Option.bind_eq_bind, Option.bind_some, if_true, h2]
    · rw [insertNew, h0]; exact h3.reps
    · rw [insertNew, h0]
      simp only [Option.isSome_none, Bool.false_eq_true, if_false]
      rw [(find_some_iff LH h3.dist (e := (k, v))).2 ⟨by simp, LH.refl k⟩]
      obtain ⟨mt, g1, g2⟩ := meta_some h3.arr.inv h4
      simp only [entryAt, g1, Option.bind_eq_bind, Option.bind_some, g2]
      exact h5
    · rw [h0]; rfl

theorem insertOrAssign_spec {H : Hasher κ} (LH : Lawful H) {m : Map κ ν} {M : FMap κ ν} (h : Rep H m M) (k : κ) (v : ν)
    (hl : M.length < 2 ^ 58) (hsp : Spread (buckets m) ((assign H M k v).map fun e => home H (buckets m) e.1)) :
    ∃ r, insertOrAssign true H m k v = some r ∧ r.ref.isSome ∧ Rep H r.map (assign H M k v) ∧
      r.inserted = (find H M k).isNone ∧
      r.dropped = (match find H M k with | none => [] | some e => [.key k, .val e.2]) := by
  rw [assign_homes] at hsp
  rcases insertEntry_spec LH h k v hl hsp with ⟨m', i, e, n, p, h1, h2, h3, h4, h5, h6, h7⟩ | ⟨h0, m', i, m'', n, p, h1, h2, h3, h4, h5⟩
  · obtain ⟨m'', g1, g2⟩ := assignAt_spec LH h2 h3 h4 h6 v
    refine ⟨⟨m'', some i, false, [.key k, .val e.2]⟩, ?_, rfl, g2.reps, ?_, ?_⟩
    · simp only [insertOrAssign, h1, Option.bind_eq_bind, Option.bind_some, Bool.false_eq_true, if_false, h5, g1]
    · rw [h7]; rfl
    · rw [h7]
  · refine ⟨⟨m'', some i, true, []⟩, ?_, rfl, ?_, ?_, ?_⟩
    · simp only [insertOrAssign, h1, Option.bind_eq_bind, Option.bind_some, if_true, h2]
    · rw [assign, h0]; exact h3.reps
    · rw [h0]; rfl
    · rw [h0]

theorem emplaceOrAssign_spec {H : Hasher κ} (LH : Lawful H) {m : Map κ ν} {M : FMap κ ν} (h : Rep H m M) (k : κ) (v : ν)
    (hl : M.length < 2 ^ 58) (hsp : Spread (buckets m) ((assign H M k v).map fun e => home H (buckets m) e.1)) :
    ∃ r, emplaceOrAssign true H m k v = some r ∧ r.ref.isSome ∧ Rep H r.map (assign H M k v) ∧
      r.inserted = (find H M k).isNone ∧
      r.dropped = (match find H M k with | none => [] | some e => [.val e.2]) := by
  rw [assign_homes] at hsp
  rcases insertEntry_spec LH h k v hl hsp with ⟨m', i, e, n, p, h1, h2, h3, h4, h5, h6, h7⟩ | ⟨h0, m', i, m'', n, p, h1, h2, h3, h4, h5⟩
  · obtain ⟨m'', g1, g2⟩ := assignAt_spec LH h2 h3 h4 h6 v
    refine ⟨⟨m'', some i, false, [.val e.2]⟩, ?_, rfl, g2.reps, ?_, ?_⟩
    · simp only [emplaceOrAssign, h1, Option.bind_eq_bind, Option.bind_some, Bool.false_eq_true, if_false, h5, g1]
    · rw [h7]; rfl
    · rw [h7]
  · refine ⟨⟨m'', some i, true, []⟩, ?_, rfl, ?_, ?_, ?_⟩
    · simp only [emplaceOrAssign, h1, Option.bind_eq_bind, Option.bind_some, if_true, h2]
    · rw [assign, h0]; exact h3.reps
    · rw [h0]; rfl
    · rw [h0]

theorem setAt_spec {H : Hasher κ} (LH : Lawful H) {m : Map κ ν} {M : FMap κ ν} (h : Rep H m M) (k : κ) (v : ν)
    (hk : (find H M k).isSome) : ∃ m', setAt H m k v = some m' ∧ Rep H m' (assign H M k v) := by
  rcases h with ⟨rfl, rfl⟩ | ⟨n, p, h⟩
  · simp [find] at hk
  · obtain ⟨r, er, hr⟩ := lookup_full LH h k
    rcases hr with ⟨h1, h2, e, h3, h4, h5, h6⟩ | ⟨h1, h2⟩
    · obtain ⟨m', g1, g2⟩ := assignAt_spec LH h h2 h3 h5 v
      exact ⟨m', by simp only [setAt, er, Option.bind_eq_bind, Option.bind_some, h1, if_true, h4, g1], g2.reps⟩
    · rw [h2] at hk; cases hk

theorem at_spec {H : Hasher κ} (LH : Lawful H) {m : Map κ ν} {M : FMap κ ν} (h : Rep H m M) (k : κ) :
    at' H m k = (find H M k).map (·.2) := by
  rcases h with ⟨rfl, rfl⟩ | ⟨n, p, h⟩
  · rfl
  · obtain ⟨r, er, hr⟩ := lookup_full LH h k
    rcases hr with ⟨h1, h2, e, h3, h4, h5, h6⟩ | ⟨h1, h2⟩
    · simp only [at', er, Option.bind_eq_bind, Option.bind_some, h1, if_true, h4, h6, Option.map_some]
    · simp only [at', er, Option.bind_eq_bind, Option.bind_some, h1, Bool.false_eq_true, if_false, h2, Option.map_none]

end Verif.Hmap
