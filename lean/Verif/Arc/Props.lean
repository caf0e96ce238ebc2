import Verif.Arc.Calls
/- Properties of shared pointers. -/
namespace Verif.Arc
open Spec
open scoped List
variable {α : Type} {L : Layout}

theorem run_reach {n k : Nat} : ∀ (es : List (Event α)) (s s' : State α) (made : List α), Reach L n k s made → run L s es = some s' → ∃ made', Reach L n k s' made' := by
  intro es
  induction es with
  | nil => intro s s' made h e; simp [run] at e; subst e; exact ⟨made, h⟩
  | cons ev es ih =>
    intro s s' made h e
    cases ev with
    | call i op =>
      simp only [run, Option.bind_eq_some_iff] at e
      obtain ⟨s1, h1, h2⟩ := e
      exact ih s1 s' made (.call s s1 i op made h h1) h2
    | step i a =>
      simp only [run] at e
      split at e
      · cases e
      · rename_i c hc
        obtain ⟨t, ht, hc⟩ := Option.bind_eq_some_iff.1 hc
        by_cases hf : freshFor L s.mem a c = true
        · rw [if_pos hf, Option.bind_eq_some_iff] at e
          obtain ⟨s1, h1, h2⟩ := e
          have hcs : t.todo = c :: t.todo.tail := by
            cases htd : t.todo with
            | nil => rw [htd] at hc; simp at hc
            | cons d ds => rw [htd] at hc; simp at hc; simp [hc]
          refine ih s1 s' _ (.step s s1 i a t c t.todo.tail made h ht hcs ?_ h1) h2
          intro z hz
          simpa [freshFor, hz] using hf
        · rw [if_neg hf] at e; cases e

/-! ### counting handles -/

theorem varW_count (a : Nat) (vs : List (Option Arc)) : varW a vs = ((vs.filterMap id).countP (fun h => h.use == a) : Nat) := by
  induction vs with
  | nil => rfl
  | cons v vs ih =>
    simp only [varW, List.map_cons, List.sum_cons] at ih ⊢
    rw [ih]
    cases v with
    | none => simp [optW]
    | some h =>
      simp only [optW, hits, List.filterMap_cons, id, List.countP_cons, beq_iff_eq]
      split <;> omega

theorem chan_count (a : Nat) (l : List Arc) : (l.map (hits a)).sum = (l.countP (fun h => h.use == a) : Nat) := by
  induction l with
  | nil => rfl
  | cons h l ih =>
    rw [List.map_cons, List.sum_cons, ih]
    simp only [hits, List.countP_cons, beq_iff_eq]
    split <;> omega

theorem countP_filter_ne {a : Nat} (ha : a ≠ 0) (l : List Arc) : (l.filter fun h => h.use ≠ 0).countP (fun h => h.use == a) = l.countP (fun h => h.use == a) := by
  rw [List.countP_filter]
  apply List.countP_congr
  intro h _
  simp only [Bool.and_eq_true, beq_iff_eq, decide_eq_true_eq]
  constructor
  · exact fun h => h.1
  · intro e; exact ⟨e, by rw [e]; exact ha⟩

theorem total_idle {s : State α} (hi : Idle s) {a : Nat} (ha : a ≠ 0) : total s a = ((handles s).countP (fun h => h.use == a) : Nat) := by
  unfold handles
  rw [countP_filter_ne ha, List.countP_append, Int.natCast_add]
  unfold total
  rw [chan_count]
  congr 1
  unfold Idle at hi
  generalize s.threads = ths at hi
  induction ths with
  | nil => rfl
  | cons t ths ih =>
    rw [List.map_cons, List.sum_cons, ih fun t ht => hi t (by simp [ht])]
    have : thW a t = varW a t.vars := by simp [thW, hi t (by simp), todoW]
    rw [this, varW_count, List.flatMap_cons, List.countP_append]
    omega

theorem mem_handles {s : State α} {h : Arc} : h ∈ handles s ↔ ((∃ t ∈ s.threads, some h ∈ t.vars) ∨ h ∈ s.chan) ∧ h.use ≠ 0 := by
  simp [handles]
  exact or_and_right.symm

theorem handles_obj {s : State α} {O : List Arc} (i : Inv L s O) {h : Arc} (hh : h ∈ handles s) : h ∈ O := by
  obtain ⟨h1, h0⟩ := mem_handles.1 hh
  rcases h1 with ⟨t, ht, hm⟩ | hc
  · exact (i.ref t ht h (mem_mentions.2 (.inl hm))).resolve_left h0
  · exact (i.chan h hc).resolve_left h0

theorem idle_obj {s : State α} {O : List Arc} (i : Inv L s O) (hi : Idle s) {h : Arc} (hh : h ∈ O) : h ∈ handles s := by
  have h1 := (i.cnt h hh).2
  rw [total_idle hi (i.useNe hh)] at h1
  have : 0 < (handles s).countP (fun k => k.use == h.use) := by omega
  obtain ⟨k, hk, e⟩ := List.countP_pos_iff.1 this
  have e : k.use = h.use := by simpa using e
  rw [← i.same (handles_obj i hk) hh e]
  exact hk

/-! ### C57 -/

/-- A legal call can be made. -/
theorem arc_call_defined (s : State α) (i : Nat) (t : Thread α) (op : Op α) (ht : s.threads[i]? = some t) (hi : t.todo = []) (hl : Legal t s.chan s.raws op) :
    ∃ s', call s i op = some s' := by
  have hvac : ∀ x, t.vars[x]? = some none → (guard (t.vacant x) : Option Unit) = some () := fun x hx => by simp [guard, vacant_eq.2 hx]
  have hraw : ∀ p, (p = 0 ∨ p ∈ s.raws) → ∃ r, takeRaw s.raws p = some r := by
    intro p hp
    unfold takeRaw
    by_cases h0 : p = 0
    · exact ⟨_, if_pos h0⟩
    · exact ⟨_, by rw [if_neg h0, if_pos (hp.resolve_left h0)]⟩
  have : ∃ r, begin op t s.chan s.raws = some r := by
    cases op with
    | init x => simp only [Legal] at hl; simp [begin, hvac x hl]
    | make x v => simp only [Legal] at hl; simp [begin, hvac x hl]
    | raw v => exact ⟨_, rfl⟩
    | fromPtr x p =>
      obtain ⟨h1, h2⟩ := hl
      obtain ⟨r, hr⟩ := hraw p h2
      simp [begin, hvac x h1, hr]
    | drop x => obtain ⟨h, hx⟩ := hl; simp [begin, var_eq.2 hx]
    | send x => obtain ⟨h, hx⟩ := hl; simp [begin, var_eq.2 hx]
    | count x => obtain ⟨h, hx⟩ := hl; simp [begin, var_eq.2 hx]
    | resetTo x p =>
      obtain ⟨⟨h, hx⟩, h2⟩ := hl
      obtain ⟨r, hr⟩ := hraw p h2
      simp [begin, var_eq.2 hx, hr]
    | take x y =>
      obtain ⟨hxy, ⟨h, hx⟩, k, hy⟩ := hl
      simp [begin, var_eq.2 hx, var_eq.2 hy, hxy]
    | assign x y =>
      obtain ⟨⟨h, hx⟩, k, hy⟩ := hl
      simp [begin, var_eq.2 hx, var_eq.2 hy]
    | move x y =>
      obtain ⟨⟨h, hx⟩, hy⟩ := hl
      simp [begin, var_eq.2 hx, hvac y hy]
    | clone x y =>
      obtain ⟨⟨h, hx⟩, hy⟩ := hl
      simp [begin, var_eq.2 hx, hvac y hy]
    | recv x n =>
      obtain ⟨hx, hn⟩ := hl
      simp [begin, hvac x hx, hn]
    | read x =>
      obtain ⟨h, hx, h0⟩ := hl
      simp [begin, var_eq.2 hx, h0]
  obtain ⟨⟨t', c', r'⟩, hb⟩ := this
  exact ⟨{ s with threads := s.threads.set i t', chan := c', raws := r' }, by simp [call, ht, hi, hb]⟩

/-- No undefined behaviour, in any interleaving: whatever the other threads do, the next step of every
call in progress finds the counter, the value and the blocks it needs. -/
theorem arc_step_defined (hp : Proper L) {n k : Nat} {s : State α} {made : List α} (h : Reach L n k s made) {i : Nat} {t : Thread α} {c : Act α} {cs : List (Act α)}
    (ht : s.threads[i]? = some t) (hc : t.todo = c :: cs) (a : Nat) (hf : ∀ z, needs L c = some z → Fresh s.mem (a, z)) :
    ∃ s', step L s i a = some s' ∧ Reach L n k s' (made ++ creates c) := by
  obtain ⟨⟨O, hi⟩, _⟩ := reach_inv hp h
  obtain ⟨s', h1, _⟩ := inv_step hp hi ht hc hf
  exact ⟨s', h1, .step s s' i a t c cs made h ht hc hf h1⟩

/-- The object of a handle is alive as long as the handle is held or in flight, even while other
threads are inside calls. -/
theorem arc_alive (hp : Proper L) {n k : Nat} {s : State α} {made : List α} (h : Reach L n k s made) {x : Arc} (hx : x ∈ handles s) :
    (∃ v, s.mem.value x.get = some v) ∧ ∃ c : Int, 1 ≤ c ∧ s.mem.load x.use = some c := by
  obtain ⟨⟨O, hi⟩, _⟩ := reach_inv hp h
  have hO := handles_obj hi hx
  constructor
  · apply lookup_isSome
    rw [hi.val.mem_iff]
    simp only [List.mem_append, List.mem_map]
    exact .inl (.inl ⟨x, hO, rfl⟩)
  · obtain ⟨h1, h2⟩ := hi.cnt x hO
    refine ⟨s.mem.cnt x.use, by omega, ?_⟩
    simp [Mem.load, hi.useCovers hp hO, guard]

/-- When no call is in progress the counter is the number of handles, and handles are to the same
object exactly if they have the same counter. -/
theorem arc_use_count (hp : Proper L) {n k : Nat} {s : State α} {made : List α} (h : Reach L n k s made) (hid : Idle s) {x : Arc} (hx : x ∈ handles s) :
    s.mem.load x.use = some ((handles s).countP (fun y => y.use == x.use) : Nat) ∧ ∀ y ∈ handles s, (y.use = x.use ↔ y.get = x.get) := by
  obtain ⟨⟨O, hi⟩, _⟩ := reach_inv hp h
  have hO := handles_obj hi hx
  constructor
  · have h1 := (hi.cnt x hO).1
    rw [total_idle hid (hi.useNe hO)] at h1
    simp [Mem.load, hi.useCovers hp hO, guard, h1]
  · intro y hy
    have hyO := handles_obj hi hy
    constructor
    · intro e; rw [hi.same hyO hO e]
    · intro e
      by_contra hne
      have hnd : (O.map Arc.get).Nodup := by
        have := (hi.val.nodup_iff).1 hi.nod
        rw [List.append_assoc] at this
        exact (List.nodup_append.1 this).1
      exact hne (by rw [List.inj_on_of_nodup_map hnd hyO hO e])

/-- The value of an object does not change or move while it is alive. -/
theorem arc_value_stable (hp : Proper L) {n k : Nat} {s s' : State α} {made : List α} (h : Reach L n k s made) {i a : Nat} {t : Thread α} {c : Act α} {cs : List (Act α)}
    (ht : s.threads[i]? = some t) (hc : t.todo = c :: cs) (hf : ∀ z, needs L c = some z → Fresh s.mem (a, z)) (hs : step L s i a = some s')
    {x : Arc} (hx : x ∈ handles s) (hx' : x ∈ handles s') : s'.mem.value x.get = s.mem.value x.get := by
  obtain ⟨⟨O, hi⟩, _⟩ := reach_inv hp h
  obtain ⟨s'', h1, ⟨O', hi'⟩, _, h4⟩ := inv_step hp hi ht hc hf
  rw [h1] at hs
  cases hs
  obtain ⟨⟨v, hv⟩, _⟩ := arc_alive hp h hx
  rw [hv]
  refine h4 _ v hv ?_
  rw [hi'.val.mem_iff]
  simp only [List.mem_append, List.mem_map]
  exact .inl (.inl ⟨x, handles_obj hi' hx', rfl⟩)

/-- Values are neither lost nor destroyed twice: at any point of any interleaving, the values created
are those destroyed and those alive. -/
theorem arc_conserved (hp : Proper L) {n k : Nat} {s : State α} {made : List α} (h : Reach L n k s made) :
    made ~ s.mem.dropped ++ s.mem.vals.map Prod.snd := (reach_inv hp h).2.symm

/-- The value of an object is destroyed only when no handle to it is left anywhere. -/
theorem arc_destroy_last (hp : Proper L) {n k : Nat} {s : State α} {made : List α} (h : Reach L n k s made) {t : Thread α} {g : Nat} {cs : List (Act α)}
    (ht : t ∈ s.threads) (hc : t.todo = .kdrop g :: cs) : ∀ x ∈ handles s, x.get ≠ g := by
  obtain ⟨⟨O, hi⟩, _⟩ := reach_inv hp h
  intro x hx e
  have hnd := (hi.val.nodup_iff).1 hi.nod
  rw [List.append_assoc] at hnd
  refine (List.nodup_append.1 hnd).2.2 g (List.mem_map.2 ⟨x, handles_obj hi hx, e⟩) g ?_ rfl
  simp only [List.mem_append, List.mem_flatMap]
  exact .inl ⟨t, ht, by simp [tvals, hc, actVals]⟩

/-- Memory in use when no call is in progress: what is alive is reachable from a handle or owned by the
user. -/
theorem arc_no_garbage (hp : Proper L) {n k : Nat} {s : State α} {made : List α} (h : Reach L n k s made) (hid : Idle s) {g : Nat} {v : α} (hg : s.mem.value g = some v) :
    g ∈ s.raws ∨ ∃ x ∈ handles s, x.get = g := by
  obtain ⟨⟨O, hi⟩, _⟩ := reach_inv hp h
  have hm := (hi.val.mem_iff (a := g)).1 (lookup_mem hg)
  simp only [List.mem_append, List.mem_map, List.mem_flatMap] at hm
  rcases hm with (⟨x, hx, e⟩ | ⟨t, ht, hm⟩) | hm
  · exact .inr ⟨x, idle_obj hi hid hx, e⟩
  · simp [tvals, hid t ht] at hm
  · exact .inl hm

/-- After the last handle is dropped nothing is left: every value created was destroyed exactly once and
every block is free again. -/
theorem arc_no_leak (hp : Proper L) {n k : Nat} {s : State α} {made : List α} (h : Reach L n k s made) (hid : Idle s) (hh : handles s = []) (hr : s.raws = []) :
    s.mem.blocks = [] ∧ s.mem.vals = [] ∧ s.mem.dropped ~ made := by
  obtain ⟨⟨O, hi⟩, hm⟩ := reach_inv hp h
  have hO : O = [] := by
    rw [List.eq_nil_iff_forall_not_mem]
    intro x hx
    have := idle_obj hi hid hx
    rw [hh] at this
    cases this
  have h1 : s.threads.flatMap (tblocks L) = [] := by
    rw [List.flatMap_eq_nil_iff]
    intro t ht
    simp [tblocks, hid t ht]
  have h2 : s.threads.flatMap tvals = [] := by
    rw [List.flatMap_eq_nil_iff]
    intro t ht
    simp [tvals, hid t ht]
  have hb := hi.blk
  have hv := hi.val
  simp only [hO, h1, h2, hr, List.flatMap_nil, List.map_nil, List.append_nil, List.perm_nil] at hb hv
  have hv : s.mem.vals = [] := by simpa using hv
  refine ⟨hb, hv, ?_⟩
  rw [hv] at hm
  simpa using hm

/-- Steps left in a call at most. -/
def left : List (Act α) → Nat
  | [] => 0
  | .dec _ :: cs => 4 + left cs
  | _ :: cs => 1 + left cs

theorem left_append (cs ds : List (Act α)) : left (cs ++ ds) = left cs + left ds := by
  induction cs with
  | nil => simp [left]
  | cons c cs ih => cases c <;> simp [left, ih] <;> omega

/-- Every call ends after at most six steps of its own thread, whatever the others do. -/
theorem arc_call_finishes {s s' : State α} {i : Nat} {op : Op α} (h : call s i op = some s') : ∃ t, s'.threads[i]? = some t ∧ left t.todo ≤ 6 := by
  obtain ⟨t, ht, h⟩ := bind_split h
  obtain ⟨hi, h⟩ := guard_split h
  obtain ⟨⟨t', chan', raws'⟩, hb, h⟩ := bind_split h
  cases h
  have hlt : i < s.threads.length := (List.getElem?_eq_some_iff.1 ht).1
  refine ⟨t', by simp [hlt], ?_⟩
  have hd : ∀ h : Arc, left (dropActs h : List (Act α)) ≤ 4 := fun h => by unfold dropActs; split <;> simp [left]
  have hinc : ∀ h : Arc, left (incActs h : List (Act α)) ≤ 1 := fun h => by unfold incActs; split <;> simp [left]
  have hemp : t.todo = [] := by simpa using hi
  have set1 : ∀ (x : Nat) (h : Arc), left [(Act.set x h : Act α)] = 1 := fun _ _ => rfl
  have ctl1 : ∀ (x p : Nat), left [(Act.ctl x p : Act α)] = 1 := fun _ _ => rfl
  cases op with
  | init x => obtain ⟨_, hb⟩ := guard_split hb; cases hb; simp [left]
  | make x v => obtain ⟨_, hb⟩ := guard_split hb; cases hb; simp [left]
  | raw v => cases hb; simp [left]
  | fromPtr x p => obtain ⟨_, hb⟩ := guard_split hb; obtain ⟨_, _, hb⟩ := bind_split hb; cases hb; simp [left]
  | drop x => obtain ⟨h0, _, hb⟩ := bind_split hb; cases hb; have := hd h0; simp only; omega
  | move x y => obtain ⟨h0, _, hb⟩ := bind_split hb; obtain ⟨_, hb⟩ := guard_split hb; cases hb; simp [left]
  | resetTo x p =>
    obtain ⟨h0, _, hb⟩ := bind_split hb; obtain ⟨_, _, hb⟩ := bind_split hb; cases hb
    have := hd h0; simp only [left_append, ctl1]; omega
  | take x y =>
    obtain ⟨_, hb⟩ := guard_split hb; obtain ⟨h0, _, hb⟩ := bind_split hb; obtain ⟨_, _, hb⟩ := bind_split hb; cases hb
    have := hd h0; simp only [left_append, set1]; omega
  | assign x y =>
    obtain ⟨h0, _, hb⟩ := bind_split hb; obtain ⟨k, _, hb⟩ := bind_split hb; cases hb
    have := hd h0; have := hinc k; simp only [left_append, set1]; omega
  | clone x y =>
    obtain ⟨h0, _, hb⟩ := bind_split hb; obtain ⟨_, hb⟩ := guard_split hb; cases hb
    have := hinc h0; simp only [left_append, set1]; omega
  | send x => obtain ⟨h0, _, hb⟩ := bind_split hb; cases hb; simp [Thread.clear, hemp, left]
  | recv x n => obtain ⟨_, hb⟩ := guard_split hb; obtain ⟨h0, _, hb⟩ := bind_split hb; cases hb; simp [Thread.put, hemp, left]
  | read x => obtain ⟨h0, _, hb⟩ := bind_split hb; obtain ⟨_, hb⟩ := guard_split hb; cases hb; simp [left]
  | count x => obtain ⟨h0, _, hb⟩ := bind_split hb; cases hb; simp only; split <;> simp [left]

theorem act_left {a : Nat} {c : Act α} {cs : List (Act α)} {m m' : Mem α} {vs : List (Option Arc)} {t' : Thread α} {raws raws' : List Nat}
    (h : act L a c m ⟨vs, cs⟩ raws = some (m', t', raws')) : left t'.todo < left (c :: cs) := by
  cases c with
  | inc h0 => obtain ⟨_, _, h⟩ := bind_split h; obtain ⟨_, _, h⟩ := bind_split h; cases h; simp [left]
  | dec h0 =>
    obtain ⟨k, _, h⟩ := bind_split h; obtain ⟨_, _, h⟩ := bind_split h
    cases h
    have hd : left (destroyActs L h0 : List (Act α)) ≤ 3 := by unfold destroyActs; split <;> simp [left]
    split
    · simp only [left_append, left]; omega
    · simp only [left]; omega
  | kdrop p => obtain ⟨_, _, h⟩ := bind_split h; cases h; simp [left]
  | free p n => obtain ⟨_, _, h⟩ := bind_split h; cases h; simp [left]
  | set x h0 => cases h; simp [left, Thread.put]
  | make x v => obtain ⟨_, _, h⟩ := bind_split h; obtain ⟨_, _, h⟩ := bind_split h; cases h; simp [left, Thread.put]
  | ctl x p =>
    simp only [act] at h
    split at h
    · obtain ⟨_, _, h⟩ := bind_split h; cases h; simp [left, Thread.put]
    · cases h; simp [left, Thread.put]
  | raw v => obtain ⟨_, _, h⟩ := bind_split h; cases h; simp [left]
  | read x => obtain ⟨_, _, h⟩ := bind_split h; obtain ⟨_, _, h⟩ := bind_split h; cases h; simp [left]
  | count x => obtain ⟨_, _, h⟩ := bind_split h; obtain ⟨_, _, h⟩ := bind_split h; cases h; simp [left]

/-- Each step of a thread brings its call closer to the end, and leaves the other threads' calls alone. -/
theorem arc_step_progress {s s' : State α} {i a : Nat} {t : Thread α} (ht : s.threads[i]? = some t) (h : step L s i a = some s') :
    (∃ t', s'.threads[i]? = some t' ∧ left t'.todo < left t.todo) ∧ ∀ j ≠ i, s'.threads[j]? = s.threads[j]? := by
  obtain ⟨t0, ht0, h⟩ := bind_split h
  rw [ht] at ht0
  cases ht0
  obtain ⟨vs, cs⟩ := t
  cases cs with
  | nil => simp at h
  | cons c cs =>
    obtain ⟨⟨m', t', raws'⟩, ha, h⟩ := bind_split h
    cases h
    have hlt : i < s.threads.length := (List.getElem?_eq_some_iff.1 ht).1
    refine ⟨⟨t', by simp [hlt], act_left ha⟩, fun j hj => ?_⟩
    simp only
    rw [List.getElem?_set_ne (Ne.symm hj)]

/-! ### examples -/

theorem idle_of {s : State α} (h : s.threads.all (fun t => t.todo.isEmpty) = true) : Idle s := by
  intro t ht
  simpa using List.all_eq_true.1 h t ht

def exL : Layout := ⟨8, 4, 16⟩
theorem exL_proper : Proper exL := ⟨by decide, by decide, by decide⟩

/-- Thread 0 makes an object, clones it and sends the clone to thread 1; then both drop, thread 1 last
although its drop begins first. -/
def exEvents : List (Event Nat) :=
  [.call 0 (.make 0 42), .step 0 100, .call 0 (.clone 0 1), .step 0 0, .step 0 0, .call 0 (.send 1), .call 1 (.recv 0 0)]

def exDrops : List (Event Nat) := [.call 1 (.drop 0), .call 0 (.drop 0), .step 0 0, .step 1 0, .step 1 0, .step 1 0]

example : ∃ (s : State Nat) (made : List Nat), Reach exL 2 2 s made ∧ Idle s ∧ handles s = [⟨108, 100⟩, ⟨108, 100⟩] ∧ s.mem.load 100 = some 2 := by
  obtain ⟨made, h⟩ := run_reach (L := exL) exEvents (init 2 2) ((run exL (init 2 2) exEvents).get rfl) [] .init rfl
  exact ⟨_, made, h, idle_of rfl, rfl, rfl⟩

example : ∃ (s : State Nat) (made : List Nat), Reach exL 2 2 s made ∧ Idle s ∧ handles s = [] ∧ s.raws = [] ∧ s.mem.dropped = [42] ∧ s.mem.blocks = [] := by
  obtain ⟨made, h⟩ := run_reach (L := exL) (exEvents ++ exDrops) (init 2 2) ((run exL (init 2 2) (exEvents ++ exDrops)).get rfl) [] .init rfl
  exact ⟨_, made, h, idle_of rfl, rfl, rfl, rfl, rfl⟩

/-- A value adopted with `from_ptr`, shared by assignment, and replaced with `reset_to`. -/
example : ∃ (s : State Nat) (made : List Nat), Reach exL 1 2 s made ∧ Idle s ∧ s.mem.dropped = [7, 8] ∧ s.mem.blocks = [] := by
  have es : ∃ es : List (Event Nat), es = [.call 0 (.raw 7), .step 0 100, .call 0 (.fromPtr 0 100), .step 0 200, .call 0 (.init 1), .step 0 0,
    .call 0 (.assign 1 0), .step 0 0, .step 0 0, .call 0 (.raw 8), .step 0 300, .call 0 (.resetTo 0 300), .step 0 0, .step 0 400,
    .call 0 (.take 1 0), .step 0 0, .step 0 0, .step 0 0, .step 0 0, .step 0 0, .call 0 (.drop 1), .step 0 0, .step 0 0, .step 0 0, .step 0 0] := ⟨_, rfl⟩
  obtain ⟨es, he⟩ := es
  obtain ⟨made, h⟩ := run_reach (L := exL) es (init 1 2) ((run exL (init 1 2) es).get (by rw [he]; rfl)) [] .init (by simp)
  subst he
  exact ⟨_, made, h, idle_of rfl, rfl, rfl⟩

/-- A step that allocates needs an address, and there is one. -/
example : ∃ (s : State Nat) (made : List Nat) (t : Thread Nat), Reach exL 1 1 s made ∧ s.threads[0]? = some t ∧ t.todo = [.make 0 5] ∧ Fresh s.mem (100, exL.rep) := by
  obtain ⟨made, h⟩ := run_reach (L := exL) [.call 0 (.make 0 5)] (init 1 1) ((run exL (init 1 1) [.call 0 (.make 0 5)]).get rfl) [] .init rfl
  exact ⟨_, made, _, h, rfl, rfl, by decide⟩

end Verif.Arc
