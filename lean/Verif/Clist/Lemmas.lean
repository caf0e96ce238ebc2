import Verif.Clist.Model
import Mathlib.Tactic.Common
import Mathlib.Data.List.Nodup
import Mathlib.Data.List.Perm.Subperm
/- Shape lemmas for circular lists: segments, cycles, rotation and relinking. -/
namespace Verif.Clist
variable {α : Type}

/-! ### heap accesses -/

theorem lt_of_rd {h : Heap α} {a : Nat} {c : Cell α} (e : h.rd a = some c) : a < h.length := by
  rcases Nat.lt_or_ge a h.length with h1 | h1
  · exact h1
  · rw [Buf.rd, List.getElem?_eq_none h1] at e; cases e

theorem rd_set (h : Heap α) (a : Nat) (x : Option (Cell α)) (b : Nat) (ha : a < h.length) :
    Buf.rd (h.set a x) b = if b = a then x else h.rd b := by
  unfold Buf.rd
  rw [List.getElem?_set]
  by_cases hb : a = b
  · subst hb; simp [ha]
  · rw [if_neg hb, if_neg (Ne.symm hb)]

theorem rd_place (h : Heap α) (a : Nat) (c : Cell α) (b : Nat) :
    Buf.rd (place h a c) b = if b = a then some c else h.rd b := by
  unfold place
  rw [rd_set _ _ _ _ (by simp; omega)]
  by_cases hb : b = a
  · simp [hb]
  · rw [if_neg hb, if_neg hb]
    unfold Buf.rd
    rcases Nat.lt_or_ge b h.length with h1 | h1
    · rw [List.getElem?_append_left h1]
    · rw [List.getElem?_append_right h1, List.getElem?_replicate, List.getElem?_eq_none h1]
      split <;> rfl

theorem rd_fresh (h : Heap α) (w : Nat) : h.rd (fresh h w) = none := by
  unfold fresh
  split
  · rename_i h1; simpa using h1
  · simp [Buf.rd]

theorem setNext_eq {h : Heap α} {a : Nat} {c : Cell α} (e : h.rd a = some c) (n : Nat) :
    setNext h a n = some (h.set a (some ⟨c.value, some n⟩)) := by
  simp [setNext, e, Buf.wr, lt_of_rd e]

theorem nxt_eq {h : Heap α} {a : Nat} {v : α} {n : Option Nat} (e : h.rd a = some ⟨v, n⟩) : nxt h a = n := by
  simp [nxt, e]

/-! ### segments -/

/-- Address of the first node, or `q`. -/
def hd (l : List (Nat × α)) (q : Nat) : Nat :=
  match l with
  | [] => q
  | (a, _) :: _ => a

/-- The nodes `l` are linked in order, and the last one points to `q`. -/
def Seg (h : Heap α) : List (Nat × α) → Nat → Prop
  | [], _ => True
  | (a, v) :: r, q => h.rd a = some ⟨v, some (hd r q)⟩ ∧ Seg h r q

/-- The nodes form one cycle. -/
def Cyc (h : Heap α) (l : List (Nat × α)) : Prop := Seg h l (hd l 0)

def addrs (l : List (Nat × α)) : List Nat := l.map Prod.fst

/-- Address of the last node. -/
def lastA (l : List (Nat × α)) : Option Nat := l.getLast?.map Prod.fst

@[simp] theorem hd_nil (q : Nat) : hd ([] : List (Nat × α)) q = q := rfl
@[simp] theorem hd_cons (p : Nat × α) (l : List (Nat × α)) (q : Nat) : hd (p :: l) q = p.1 := rfl
@[simp] theorem addrs_nil : addrs ([] : List (Nat × α)) = [] := rfl
@[simp] theorem addrs_cons (p : Nat × α) (l : List (Nat × α)) : addrs (p :: l) = p.1 :: addrs l := rfl
@[simp] theorem addrs_append (a b : List (Nat × α)) : addrs (a ++ b) = addrs a ++ addrs b := by simp [addrs]
@[simp] theorem lastA_nil : lastA ([] : List (Nat × α)) = none := rfl
@[simp] theorem lastA_snoc (l : List (Nat × α)) (p : Nat × α) : lastA (l ++ [p]) = some p.1 := by simp [lastA]
@[simp] theorem length_addrs (l : List (Nat × α)) : (addrs l).length = l.length := by simp [addrs]

theorem lastA_append_ne {a b : List (Nat × α)} (hb : b ≠ []) : lastA (a ++ b) = lastA b := by
  unfold lastA
  rw [List.getLast?_append]
  obtain ⟨b', y, rfl⟩ := List.eq_nil_or_concat b |>.resolve_left hb
  simp

theorem lastA_cons_ne {p : Nat × α} {b : List (Nat × α)} (hb : b ≠ []) : lastA (p :: b) = lastA b :=
  lastA_append_ne (a := [p]) hb

theorem lastA_eq_none {l : List (Nat × α)} : lastA l = none ↔ l = [] := by simp [lastA]

theorem lastA_mem {l : List (Nat × α)} {z : Nat} (h : lastA l = some z) : z ∈ addrs l := by
  unfold lastA at h
  simp only [Option.map_eq_some_iff] at h
  obtain ⟨p, hp, rfl⟩ := h
  exact List.mem_map.2 ⟨p, List.mem_of_getLast? hp, rfl⟩

theorem exists_snoc {l : List (Nat × α)} (h : l ≠ []) : ∃ l' z v, l = l' ++ [(z, v)] := by
  obtain ⟨l', y, e⟩ := List.eq_nil_or_concat l |>.resolve_left h
  exact ⟨l', y.1, y.2, by simpa using e⟩

theorem hd_append (a b : List (Nat × α)) (q : Nat) : hd (a ++ b) q = hd a (hd b q) := by
  cases a <;> simp

theorem hd_ne {a : List (Nat × α)} (h : a ≠ []) (q q' : Nat) : hd a q = hd a q' := by
  cases a with
  | nil => exact absurd rfl h
  | cons => rfl

theorem hd_mem {a : List (Nat × α)} (h : a ≠ []) (q : Nat) : hd a q ∈ addrs a := by
  cases a with
  | nil => exact absurd rfl h
  | cons => simp

theorem seg_append (h : Heap α) (a b : List (Nat × α)) (q : Nat) :
    Seg h (a ++ b) q ↔ Seg h a (hd b q) ∧ Seg h b q := by
  induction a with
  | nil => simp [Seg]
  | cons p a ih =>
    simp only [List.cons_append, Seg, ih, hd_append, and_assoc]

theorem Seg.frame {h h' : Heap α} {l : List (Nat × α)} {q : Nat} (s : Seg h l q)
    (hf : ∀ a ∈ addrs l, h'.rd a = h.rd a) : Seg h' l q := by
  induction l with
  | nil => trivial
  | cons p l ih =>
    refine ⟨?_, ih s.2 (fun a ha => hf a (by simp [ha]))⟩
    rw [hf p.1 (by simp)]; exact s.1

theorem Seg.live {h : Heap α} {l : List (Nat × α)} {q a : Nat} (s : Seg h l q) (ha : a ∈ addrs l) :
    ∃ c, h.rd a = some c := by
  induction l with
  | nil => simp at ha
  | cons p l ih =>
    rw [addrs_cons, List.mem_cons] at ha
    rcases ha with rfl | ha
    · exact ⟨_, s.1⟩
    · exact ih s.2 ha

/-- Redirecting the last node of a segment. -/
theorem Seg.relink {h h' : Heap α} {l : List (Nat × α)} {z : Nat} {v : α} {q q' : Nat}
    (s : Seg h (l ++ [(z, v)]) q) (hn : (addrs (l ++ [(z, v)])).Nodup)
    (hz : h'.rd z = some ⟨v, some q'⟩) (hf : ∀ a ∈ addrs l, h'.rd a = h.rd a) :
    Seg h' (l ++ [(z, v)]) q' := by
  rw [seg_append] at s ⊢
  exact ⟨s.1.frame hf, by simpa [Seg] using hz⟩

theorem Cyc.rotate {h : Heap α} {a b : List (Nat × α)} (s : Cyc h (a ++ b)) : Cyc h (b ++ a) := by
  by_cases ha : a = []
  · subst ha; simpa using s
  by_cases hb : b = []
  · subst hb; simpa using s
  unfold Cyc at s ⊢
  rw [seg_append, hd_append] at s ⊢
  rw [hd_ne hb _ 0, hd_ne ha _ 0] at s
  rw [hd_ne ha _ 0, hd_ne hb _ 0]
  exact ⟨s.2, s.1⟩

theorem cyc_append {h : Heap α} {a b : List (Nat × α)} (ha : a ≠ []) (hb : b ≠ []) :
    Cyc h (a ++ b) ↔ Seg h a (hd b 0) ∧ Seg h b (hd a 0) := by
  unfold Cyc
  rw [seg_append, hd_append, hd_ne ha _ 0, hd_ne hb _ 0]

theorem lt_of_mem {h : Heap α} {l : List (Nat × α)} {q a : Nat} (s : Seg h l q) (ha : a ∈ addrs l) :
    a < h.length := by
  obtain ⟨c, hc⟩ := s.live ha
  exact lt_of_rd hc

theorem length_le {h : Heap α} {l : List (Nat × α)} {q : Nat} (s : Seg h l q) (hn : (addrs l).Nodup) :
    l.length ≤ h.length := by
  have h1 : (addrs l) ⊆ List.range h.length := fun a ha => List.mem_range.2 (lt_of_mem s ha)
  have := (List.subperm_of_subset hn h1).length_le
  simpa using this

/-! ### lists -/

/-- `last` and the heap represent the list of nodes `l` (address and value). -/
structure IsList (h : Heap α) (last : Option Nat) (l : List (Nat × α)) : Prop where
  last : last = lastA l
  cyc : Cyc h l
  nodup : (addrs l).Nodup

/-- What a heap change may do, when the nodes `A` become the nodes `B`: nothing else changes,
nodes that disappear are freed, and nodes that appear were free. -/
structure Upd (h h' : Heap α) (A B : List Nat) : Prop where
  frame : ∀ a, a ∉ A → a ∉ B → h'.rd a = h.rd a
  freed : ∀ a, a ∈ A → a ∉ B → h'.rd a = none
  fresh : ∀ a, a ∈ B → a ∉ A → h.rd a = none
  live : ∀ a, a ∈ B → (h'.rd a).isSome

theorem IsList.nil (h : Heap α) : IsList h none [] := ⟨rfl, trivial, by simp⟩

theorem IsList.frame {h h' : Heap α} {last : Option Nat} {l : List (Nat × α)} (i : IsList h last l)
    (hf : ∀ a ∈ addrs l, h'.rd a = h.rd a) : IsList h' last l := ⟨i.last, i.cyc.frame hf, i.nodup⟩

theorem IsList.eq_nil {h : Heap α} {l : List (Nat × α)} (i : IsList h none l) : l = [] :=
  lastA_eq_none.1 i.last.symm

theorem IsList.ne_nil {h : Heap α} {z : Nat} {l : List (Nat × α)} (i : IsList h (some z) l) : l ≠ [] := by
  rintro rfl; cases i.last

theorem IsList.live {h : Heap α} {last : Option Nat} {l : List (Nat × α)} (i : IsList h last l) {a : Nat}
    (ha : a ∈ addrs l) : ∃ c, h.rd a = some c := i.cyc.live ha

theorem IsList.length_le {h : Heap α} {last : Option Nat} {l : List (Nat × α)} (i : IsList h last l) :
    l.length ≤ h.length := Clist.length_le i.cyc i.nodup

theorem Upd.refl {h : Heap α} {A : List Nat} (hl : ∀ a, a ∈ A → (h.rd a).isSome) : Upd h h A A :=
  ⟨fun _ _ _ => rfl, fun _ h1 h2 => absurd h1 h2, fun _ h1 h2 => absurd h1 h2, hl⟩

theorem IsList.upd {h : Heap α} {last : Option Nat} {l : List (Nat × α)} (i : IsList h last l) :
    Upd h h (addrs l) (addrs l) :=
  Upd.refl fun a ha => by obtain ⟨c, hc⟩ := i.live ha; simp [hc]

theorem Upd.trans {h h' h'' : Heap α} {A B C : List Nat} (u : Upd h h' A B) (v : Upd h' h'' B C) :
    Upd h h'' A C := by
  refine ⟨fun a h1 h2 => ?_, fun a h1 h2 => ?_, fun a h1 h2 => ?_, v.live⟩
  · by_cases hb : a ∈ B
    · rw [v.freed a hb h2, u.fresh a hb h1]
    · rw [v.frame a hb h2, u.frame a h1 hb]
  · by_cases hb : a ∈ B
    · exact v.freed a hb h2
    · rw [v.frame a hb h2, u.freed a h1 hb]
  · by_cases hb : a ∈ B
    · exact u.fresh a hb h2
    · rw [← u.frame a h2 hb]; exact v.fresh a h1 hb

theorem Upd.congr {h h' : Heap α} {A B A' B' : List Nat} (u : Upd h h' A B) (ha : ∀ a, a ∈ A' ↔ a ∈ A)
    (hb : ∀ a, a ∈ B' ↔ a ∈ B) : Upd h h' A' B' :=
  ⟨fun a h1 h2 => u.frame a (by rwa [← ha]) (by rwa [← hb]),
   fun a h1 h2 => u.freed a (by rwa [← ha]) (by rwa [← hb]),
   fun a h1 h2 => u.fresh a (by rwa [← hb]) (by rwa [← ha]), fun a h1 => u.live a (by rwa [← hb])⟩

/-- Enlarging the footprint by untouched live nodes. -/
theorem Upd.extend {h h' : Heap α} {A B C : List Nat} (u : Upd h h' A B)
    (hd : ∀ a ∈ C, a ∉ A) (hl : ∀ a ∈ C, (h.rd a).isSome) : Upd h h' (A ++ C) (B ++ C) := by
  have hBC : ∀ a ∈ C, a ∉ B := by
    intro a hc hb
    have := u.fresh a hb (hd a hc)
    have h2 := hl a hc
    rw [this] at h2; cases h2
  refine ⟨fun a h1 h2 => ?_, fun a h1 h2 => ?_, fun a h1 h2 => ?_, fun a h1 => ?_⟩
  · simp only [List.mem_append, not_or] at h1 h2
    exact u.frame a h1.1 h2.1
  · simp only [List.mem_append, not_or] at h1 h2
    exact u.freed a (h1.resolve_right h2.2) h2.1
  · simp only [List.mem_append, not_or] at h1 h2
    exact u.fresh a (h1.resolve_right h2.2) h2.1
  · simp only [List.mem_append] at h1
    rcases h1 with h1 | h1
    · exact u.live a h1
    · rw [u.frame a (hd a h1) (hBC a h1)]; exact hl a h1

/-! ### link and unlink on cycles -/

theorem nodup_rot {a b : List (Nat × α)} (h : (addrs (a ++ b)).Nodup) : (addrs (b ++ a)).Nodup := by
  rw [addrs_append] at h ⊢
  exact List.nodup_append_comm.1 h

/-- Linking a node outside a cycle after its last node. -/
theorem linkAfter_spec {h : Heap α} {X : List (Nat × α)} {e : Nat} {v : α} {n : Option Nat}
    (hc : Cyc h X) (hn : (addrs X).Nodup) (he : e ∉ addrs X) (hv : h.rd e = some ⟨v, n⟩) :
    ∃ h', linkAfter h (lastA X) e = some h' ∧ Cyc h' ((e, v) :: X) ∧
      (∀ b, b ∉ addrs X → b ≠ e → h'.rd b = h.rd b) := by
  by_cases hX : X = []
  · subst hX
    refine ⟨h.set e (some ⟨v, some e⟩), by simp [linkAfter, setNext_eq hv], ?_, ?_⟩
    · refine ⟨?_, trivial⟩
      rw [rd_set _ _ _ _ (lt_of_rd hv)]; simp
    · intro b _ hb; rw [rd_set _ _ _ _ (lt_of_rd hv), if_neg hb]
  · obtain ⟨X', z, w, rfl⟩ := exists_snoc hX
    have hz : h.rd z = some ⟨w, some (hd (X' ++ [(z, w)]) 0)⟩ := by
      have := ((seg_append _ _ _ _).1 hc).2
      simpa [Seg] using this.1
    have hez : e ≠ z := by rintro rfl; exact he (by simp)
    set q := hd (X' ++ [(z, w)]) 0 with hq
    have l1 := lt_of_rd hv
    have l2 := lt_of_rd hz
    have e1 : Buf.rd (h.set e (some ⟨v, some q⟩)) z = some ⟨w, some q⟩ := by
      rw [rd_set _ _ _ _ l1, if_neg hez.symm, hz]
    refine ⟨(h.set e (some ⟨v, some q⟩)).set z (some ⟨w, some e⟩), ?_, ?_, ?_⟩
    · simp only [lastA_snoc, linkAfter, nxt_eq hz, setNext_eq hv, setNext_eq e1, Option.bind_eq_bind,
        Option.bind_some]
    · have hrd : ∀ b, Buf.rd ((h.set e (some ⟨v, some q⟩)).set z (some ⟨w, some e⟩)) b =
          if b = z then some ⟨w, some e⟩ else if b = e then some ⟨v, some q⟩ else h.rd b := by
        intro b
        rw [rd_set _ _ _ _ (by simpa using l2), rd_set _ _ _ _ l1]
      refine ⟨?_, ?_⟩
      · rw [hrd, if_neg hez, if_pos rfl]
        rw [hq, hd_ne (by simp) 0]
      · refine Seg.relink (hc : Seg _ _ _) hn ?_ ?_
        · rw [hrd, if_pos rfl]; simp
        · intro a ha
          have h1 : a ≠ z := by
            rintro rfl
            rw [addrs_append, List.nodup_append] at hn
            exact hn.2.2 a ha a (by simp) rfl
          have h2 : a ≠ e := by rintro rfl; exact he (by simp [ha])
          rw [hrd, if_neg h1, if_neg h2]
    · intro b hb hbe
      have h1 : b ≠ z := by rintro rfl; exact hb (by simp)
      rw [rd_set _ _ _ _ (by simpa using l2), rd_set _ _ _ _ l1, if_neg h1, if_neg hbe]

/-- `newEntry` followed by `linkAfter`. -/
theorem newLink_spec {h : Heap α} {X : List (Nat × α)} (hc : Cyc h X) (hn : (addrs X).Nodup) (w : Nat) (v : α) :
    ∃ h1 h', newEntry h (some w) v = some (fresh h w, h1) ∧ linkAfter h1 (lastA X) (fresh h w) = some h' ∧
      Cyc h' ((fresh h w, v) :: X) ∧ (addrs ((fresh h w, v) :: X)).Nodup ∧
      Upd h h' (addrs X) (fresh h w :: addrs X) := by
  have hfr := rd_fresh h w
  set e := fresh h w with he
  have heX : e ∉ addrs X := by
    intro hm
    obtain ⟨c, hc⟩ := hc.live hm
    rw [hc] at hfr; cases hfr
  have hc1 : Cyc (place h e ⟨v, none⟩) X := hc.frame fun a ha => by
    rw [rd_place, if_neg]; rintro rfl; exact heX ha
  obtain ⟨h', e1, e2, e3⟩ := linkAfter_spec hc1 hn heX (v := v) (n := none) (by rw [rd_place, if_pos rfl])
  refine ⟨place h e ⟨v, none⟩, h', by rw [newEntry], e1, e2, ?_, ?_⟩
  · simpa using ⟨heX, hn⟩
  · refine ⟨fun a h1 h2 => ?_, fun a h1 h2 => absurd (List.mem_cons_of_mem _ h1) h2, fun a h1 h2 => ?_, fun a h1 => ?_⟩
    · have hae : a ≠ e := fun hh => h2 (by simp [hh])
      rw [e3 a h1 hae, rd_place, if_neg hae]
    · rcases List.mem_cons.1 h1 with rfl | h1
      · exact hfr
      · exact absurd h1 h2
    · obtain ⟨c, hc⟩ := e2.live (a := a) (by simpa using h1)
      simp [hc]

/-- Unlinking the node after the last node of a cycle. -/
theorem unlink_spec {h : Heap α} {x : Nat × α} {X : List (Nat × α)} {last : Option Nat}
    (hc : Cyc h (x :: X)) (hn : (addrs (x :: X)).Nodup) :
    ∃ h' z, lastA (x :: X) = some z ∧
      unlinkAfter ⟨h, last⟩ (lastA (x :: X)) =
        some (⟨h', if X = [] then none else if last = some x.1 then some z else last⟩, x.1) ∧
      Cyc h' X ∧ (∃ n, h'.rd x.1 = some ⟨x.2, n⟩) ∧
      (∀ b, b ∉ addrs (x :: X) → h'.rd b = h.rd b) := by
  obtain ⟨a, v⟩ := x
  by_cases hX : X = []
  · subst hX
    have h1 : h.rd a = some ⟨v, some a⟩ := hc.1
    refine ⟨h.set a (some ⟨v, some a⟩), a, rfl, ?_, trivial, ?_, ?_⟩
    · have : lastA [(a, v)] = some a := rfl
      simp only [this, unlinkAfter, Option.bind_eq_bind, Option.bind_some, nxt_eq h1, setNext_eq h1, if_true]
    · exact ⟨some a, by rw [rd_set _ _ _ _ (lt_of_rd h1), if_pos rfl]⟩
    · intro b hb
      rw [rd_set _ _ _ _ (lt_of_rd h1), if_neg (by simpa using hb)]
  · obtain ⟨X', z, w, rfl⟩ := exists_snoc hX
    have hl : lastA ((a, v) :: (X' ++ [(z, w)])) = some z := by rw [lastA_cons_ne hX, lastA_snoc]
    have ha : h.rd a = some ⟨v, some (hd (X' ++ [(z, w)]) 0)⟩ := by
      have := hc.1
      rwa [hd_ne hX _ 0] at this
    have hs : Seg h (X' ++ [(z, w)]) a := hc.2
    have hz : h.rd z = some ⟨w, some a⟩ := by
      have := ((seg_append _ _ _ _).1 hs).2
      simpa [Seg] using this.1
    set q := hd (X' ++ [(z, w)]) 0 with hq
    have hqm : q ∈ addrs (X' ++ [(z, w)]) := hd_mem hX 0
    have haq : a ≠ q := by
      intro hh
      rw [addrs_cons, List.nodup_cons] at hn
      exact hn.1 (by simpa [hh] using hqm)
    have haz : a ≠ z := by
      rintro rfl
      rw [addrs_cons, List.nodup_cons] at hn
      exact hn.1 (by simp)
    have l2 := lt_of_rd hz
    refine ⟨h.set z (some ⟨w, some q⟩), z, hl, ?_, ?_, ?_, ?_⟩
    · simp only [hl, unlinkAfter, Option.bind_eq_bind, Option.bind_some, nxt_eq hz, nxt_eq ha, setNext_eq hz,
        if_neg haq, if_neg hX]
    · refine Seg.relink hs ?_ ?_ ?_
      · rw [addrs_cons, List.nodup_cons] at hn; exact hn.2
      · rw [rd_set _ _ _ _ l2, if_pos rfl]
      · intro b hb
        rw [rd_set _ _ _ _ l2, if_neg]
        rintro rfl
        rw [addrs_cons, List.nodup_cons, addrs_append, List.nodup_append] at hn
        exact hn.2.2.2 b hb b (by simp) rfl
    · exact ⟨some q, by rw [rd_set _ _ _ _ l2, if_neg haz, ha]⟩
    · intro b hb
      rw [rd_set _ _ _ _ l2, if_neg]
      rintro rfl
      exact hb (by simp)

/-- Erasing the node after the last node of a cycle. -/
theorem erase_spec {h : Heap α} {x : Nat × α} {X : List (Nat × α)} {last : Option Nat}
    (hc : Cyc h (x :: X)) (hn : (addrs (x :: X)).Nodup) :
    ∃ h' z, lastA (x :: X) = some z ∧
      eraseAfter ⟨h, last⟩ (lastA (x :: X)) =
        some (⟨h', if X = [] then none else if last = some x.1 then some z else last⟩, x.2) ∧
      Cyc h' X ∧ Upd h h' (addrs (x :: X)) (addrs X) := by
  obtain ⟨h1, z, e0, e1, e2, ⟨n, e3⟩, e4⟩ := unlink_spec (last := last) hc hn
  have hx : x.1 ∉ addrs X := by rw [addrs_cons, List.nodup_cons] at hn; exact hn.1
  have hrd := fun b => rd_set h1 x.1 none b (lt_of_rd e3)
  have hc' : Cyc (h1.set x.1 none) X := e2.frame fun a ha => by
    rw [hrd, if_neg]; rintro rfl; exact hx ha
  refine ⟨h1.set x.1 none, z, e0, ?_, hc', ?_⟩
  · simp only [eraseAfter, e1, Option.bind_eq_bind, Option.bind_some, Buf.kill, e3, Option.map_some]
  · refine ⟨fun a h2 h3 => ?_, fun a h2 h3 => ?_, fun a h2 h3 => absurd (by simp [h2]) h3, fun a h2 => ?_⟩
    · rw [hrd, if_neg (fun hh => h2 (by simp [hh])), e4 a h2]
    · rw [addrs_cons, List.mem_cons] at h2
      rw [hrd, if_pos (h2.resolve_right h3)]
    · obtain ⟨c, hc⟩ := hc'.live h2; simp [hc]

/-- Exchanging the successors of the ends of two cycles joins them. -/
theorem join_spec {h : Heap α} {X Y : List (Nat × α)} (hX : X ≠ []) (hY : Y ≠ []) (cX : Cyc h X) (cY : Cyc h Y)
    (hn : (addrs (X ++ Y)).Nodup) :
    ∃ h1 h' z w, lastA X = some z ∧ lastA Y = some w ∧ nxt h z = some (hd X 0) ∧ nxt h w = some (hd Y 0) ∧
      setNext h z (hd Y 0) = some h1 ∧ setNext h1 w (hd X 0) = some h' ∧ Cyc h' (X ++ Y) ∧
      (∀ b, b ∉ addrs (X ++ Y) → h'.rd b = h.rd b) := by
  obtain ⟨X', z, v, rfl⟩ := exists_snoc hX
  obtain ⟨Y', w, u, rfl⟩ := exists_snoc hY
  have hz : h.rd z = some ⟨v, some (hd (X' ++ [(z, v)]) 0)⟩ := by
    have := ((seg_append _ _ _ _).1 cX).2
    simpa [Seg] using this.1
  have hw : h.rd w = some ⟨u, some (hd (Y' ++ [(w, u)]) 0)⟩ := by
    have := ((seg_append _ _ _ _).1 cY).2
    simpa [Seg] using this.1
  have hn' := hn
  rw [addrs_append, List.nodup_append] at hn'
  obtain ⟨n1, n2, n3⟩ := hn'
  have hzw : z ≠ w := n3 z (by simp) w (by simp)
  set q := hd (X' ++ [(z, v)]) 0 with hq
  set r := hd (Y' ++ [(w, u)]) 0 with hr
  have l1 := lt_of_rd hz
  have l2 := lt_of_rd hw
  have e1 : Buf.rd (h.set z (some ⟨v, some r⟩)) w = some ⟨u, some r⟩ := by
    rw [rd_set _ _ _ _ l1, if_neg hzw.symm, hw]
  have hrd : ∀ b, Buf.rd ((h.set z (some ⟨v, some r⟩)).set w (some ⟨u, some q⟩)) b =
      if b = w then some ⟨u, some q⟩ else if b = z then some ⟨v, some r⟩ else h.rd b := by
    intro b
    rw [rd_set _ _ _ _ (by simpa using l2), rd_set _ _ _ _ l1]
  refine ⟨h.set z (some ⟨v, some r⟩), (h.set z (some ⟨v, some r⟩)).set w (some ⟨u, some q⟩), z, w, by simp, by simp,
    nxt_eq hz, nxt_eq hw, setNext_eq hz _, setNext_eq e1 _, ?_, ?_⟩
  · rw [cyc_append hX hY]
    constructor
    · refine Seg.relink cX n1 ?_ ?_
      · rw [hrd, if_neg hzw, if_pos rfl]
      · intro a ha
        have h1 : a ≠ z := by
          rintro rfl
          rw [addrs_append, List.nodup_append] at n1
          exact n1.2.2 a ha a (by simp) rfl
        have h2 : a ≠ w := n3 a (by simp [ha]) w (by simp)
        rw [hrd, if_neg h2, if_neg h1]
    · refine Seg.relink cY n2 ?_ ?_
      · rw [hrd, if_pos rfl]
      · intro a ha
        have h1 : a ≠ w := by
          rintro rfl
          rw [addrs_append, List.nodup_append] at n2
          exact n2.2.2 a ha a (by simp) rfl
        have h2 : a ≠ z := fun hh => n3 z (by simp) a (by simp [ha]) hh.symm
        rw [hrd, if_neg h1, if_neg h2]
  · intro b hb
    simp only [addrs_append, addrs_cons, addrs_nil, List.mem_append, List.mem_cons, List.not_mem_nil, or_false,
      not_or] at hb
    rw [hrd, if_neg hb.2.2, if_neg hb.1.2]

/-- Exchanging the successors of two nodes of one cycle splits it. -/
theorem cut_spec {h : Heap α} {X Y : List (Nat × α)} (hX : X ≠ []) (hY : Y ≠ []) (c : Cyc h (X ++ Y))
    (hn : (addrs (X ++ Y)).Nodup) :
    ∃ h1 h' z w, lastA X = some z ∧ lastA Y = some w ∧ nxt h z = some (hd Y 0) ∧ nxt h w = some (hd X 0) ∧
      setNext h z (hd X 0) = some h1 ∧ setNext h1 w (hd Y 0) = some h' ∧ Cyc h' X ∧ Cyc h' Y ∧
      (∀ b, b ∉ addrs (X ++ Y) → h'.rd b = h.rd b) := by
  rw [cyc_append hX hY] at c
  obtain ⟨cX, cY⟩ := c
  obtain ⟨X', z, v, rfl⟩ := exists_snoc hX
  obtain ⟨Y', w, u, rfl⟩ := exists_snoc hY
  set q := hd (X' ++ [(z, v)]) 0 with hq
  set r := hd (Y' ++ [(w, u)]) 0 with hr
  have hz : h.rd z = some ⟨v, some r⟩ := by
    have := ((seg_append _ _ _ _).1 cX).2
    simpa [Seg] using this.1
  have hw : h.rd w = some ⟨u, some q⟩ := by
    have := ((seg_append _ _ _ _).1 cY).2
    simpa [Seg] using this.1
  have hn' := hn
  rw [addrs_append, List.nodup_append] at hn'
  obtain ⟨n1, n2, n3⟩ := hn'
  have hzw : z ≠ w := n3 z (by simp) w (by simp)
  have l1 := lt_of_rd hz
  have l2 := lt_of_rd hw
  have e1 : Buf.rd (h.set z (some ⟨v, some q⟩)) w = some ⟨u, some q⟩ := by
    rw [rd_set _ _ _ _ l1, if_neg hzw.symm, hw]
  have hrd : ∀ b, Buf.rd ((h.set z (some ⟨v, some q⟩)).set w (some ⟨u, some r⟩)) b =
      if b = w then some ⟨u, some r⟩ else if b = z then some ⟨v, some q⟩ else h.rd b := by
    intro b
    rw [rd_set _ _ _ _ (by simpa using l2), rd_set _ _ _ _ l1]
  refine ⟨h.set z (some ⟨v, some q⟩), (h.set z (some ⟨v, some q⟩)).set w (some ⟨u, some r⟩), z, w, by simp, by simp,
    nxt_eq hz, nxt_eq hw, setNext_eq hz _, setNext_eq e1 _, ?_, ?_, ?_⟩
  · refine Seg.relink cX n1 ?_ ?_
    · rw [hrd, if_neg hzw, if_pos rfl]
    · intro a ha
      have h1 : a ≠ z := by
        rintro rfl
        rw [addrs_append, List.nodup_append] at n1
        exact n1.2.2 a ha a (by simp) rfl
      have h2 : a ≠ w := n3 a (by simp [ha]) w (by simp)
      rw [hrd, if_neg h2, if_neg h1]
  · refine Seg.relink cY n2 ?_ ?_
    · rw [hrd, if_pos rfl]
    · intro a ha
      have h1 : a ≠ w := by
        rintro rfl
        rw [addrs_append, List.nodup_append] at n2
        exact n2.2.2 a ha a (by simp) rfl
      have h2 : a ≠ z := fun hh => n3 z (by simp) a (by simp [ha]) hh.symm
      rw [hrd, if_neg h1, if_neg h2]
  · intro b hb
    simp only [addrs_append, addrs_cons, addrs_nil, List.mem_append, List.mem_cons, List.not_mem_nil, or_false,
      not_or] at hb
    rw [hrd, if_neg hb.2.2, if_neg hb.1.2]

end Verif.Clist
