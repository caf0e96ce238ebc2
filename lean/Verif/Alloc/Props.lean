import Verif.Alloc.Strs

/-! # What a user-supplied allocator sees

Programs that declare, change, clone, move, assign and drop variables of one container type, with an
allocator that may refuse any request, move blocks, and tell contexts apart. `Contract` says that such a
program never breaks the rules of the allocator and that its books balance at the end. -/

namespace Verif.Alloc

/-- The program runs to its end with every block in use owned by exactly one variable, with the size and the
context that variable will pass to the allocator; when all variables are dropped nothing is in use. -/
def Contract (K : Kind) (acts : List (Act K)) : Prop :=
  ∃ w, run (World.empty K) acts = some w ∧ Balanced w ∧ ((∀ i, w.get i = none) → w.mem.live = [])

/-- The container type has no `i_aux`. -/
def Act.NoAux {K : Kind} : Act K → Prop
  | .new a => a = 0
  | _ => True

/-- The allocator does not refuse. -/
def Act.Granted {K : Kind} : Act K → Prop
  | .mk as _ => ∀ k, as k ≠ .fail
  | .un _ as _ => ∀ k, as k ≠ .fail
  | .out _ as _ => ∀ k, as k ≠ .fail
  | .bin _ _ as _ => ∀ k, as k ≠ .fail
  | _ => True

theorem contract_of {K : Kind} {R : Rules K} {ok : K.σ → Prop} {G : Mem → Prop} (L : Lawful K R ok G)
    (T : Keeps K G) (hG : G (World.empty K).mem) {acts : List (Act K)} (h : Obeys R (World.empty K) acts) :
    Contract K acts := by
  obtain ⟨w, e, hb, _⟩ := run_balanced L T acts (World.empty K) hG empty_balanced (empty_ok _) h
  exact ⟨w, e, hb, all_dropped hb⟩

/-! ## vec: no condition -/

/-- Every program over vecs, with any `aux`, any refusals, and all of `_reserve`, `_push`, `_insert_uninit`,
`_resize`, `_shrink_to_fit`, `_clone`, `_move`, `_copy`, `_take`, `_drop`, keeps the allocator's contract. -/
theorem vec_allocator_contract (es : Nat) (hes : 0 < es) (acts : List (Act (vec es))) : Contract (vec es) acts := by
  refine contract_of (vec_lawful es hes) keeps_any trivial (obeys_static acts ?_ _)
  intro a _ w
  cases a <;> simp [okAct, vecRules]

/-- A refused clone, a refusal on growth and a move are survived, contexts 7 and 0 side by side. -/
example : (run (World.empty (vec 8)) [.new 7, .un 0 (fun _ => .same) .push, .out 0 (fun _ => .fail) .clone,
      .un 0 (fun _ => .fail) (.reserve 100), .mk (fun _ => .same) 3, .un 0 (fun _ => .moved) (.reserve 50),
      .bin 2 0 (fun _ => .moved) ()]).map
    (fun w => w.mem.live) = some [⟨2, 400, 7⟩, ⟨1, 24, 0⟩] := by decide +kernel

/-! ## stack -/

/-- Without `i_aux`: no condition. What is missing for the full claim: `_clone` and `_copy` with `i_aux`
(`stack_clone_breaks_contract`). -/
theorem stack_allocator_contract_partial (es : Nat) (hes : 0 < es) (acts : List (Act (stack es)))
    (h : ∀ a ∈ acts, a.NoAux) : Contract (stack es) acts := by
  refine contract_of (stack_lawful True es hes) keeps_any trivial (obeys_static acts ?_ _)
  intro a ha w
  have := h a ha
  cases a <;> simp_all [okAct, stackRules, Act.NoAux]

/-- With `i_aux`: programs without `_clone` and `_copy`, which do not pass `self` to the allocator. -/
theorem stack_allocator_contract_aux_partial (es : Nat) (hes : 0 < es) (acts : List (Act (stack es)))
    (h : Obeys (stackRules False es) (World.empty _) acts) : Contract (stack es) acts :=
  contract_of (stack_lawful False es hes) keeps_any trivial h

/-- `_clone` allocates without a `self` and copies `aux`: the clone cannot be dropped. -/
theorem stack_clone_breaks_contract :
    run (World.empty (stack 8)) [.new 1, .un 0 (fun _ => .same) .push, .out 0 (fun _ => .same) .clone, .drop 1] =
      none := by decide +kernel

example : Contract (stack 4) [.new 0, .un 0 (fun _ => .same) .push, .out 0 (fun _ => .fail) .clone, .drop 0, .drop 1] :=
  stack_allocator_contract_partial 4 (by decide) _ (by simp [Act.NoAux])

/-! ## pqueue -/

/-- Without `i_aux` and if the allocator refuses nothing that the code takes for granted: `_push`, `_clone`
and `_copy` do not check, and `realloc` to zero bytes must not be refused. Missing: the refusals
(`pqueue_shrink_frees_twice`, `pqueue_push_null`) and `_clone` with `i_aux`. -/
theorem pqueue_allocator_contract_partial (es : Nat) (hes : 0 < es) (acts : List (Act (pqueue es)))
    (h : Obeys (pqRules True es) (World.empty _) acts) : Contract (pqueue es) acts :=
  contract_of (pq_lawful True es hes) keeps_any trivial h

/-- With `i_aux`, without `_clone` and `_copy`. -/
theorem pqueue_allocator_contract_aux_partial (es : Nat) (hes : 0 < es) (acts : List (Act (pqueue es)))
    (h : Obeys (pqRules False es) (World.empty _) acts) : Contract (pqueue es) acts :=
  contract_of (pq_lawful False es hes) keeps_any trivial h

/-- A sufficient condition that does not look at the state. -/
theorem pqueue_allocator_contract_granted_partial (es : Nat) (hes : 0 < es) (acts : List (Act (pqueue es)))
    (h : ∀ a ∈ acts, a.NoAux ∧ a.Granted) : Contract (pqueue es) acts := by
  refine pqueue_allocator_contract_partial es hes acts (obeys_static acts ?_ _)
  intro a ha w
  obtain ⟨h1, h2⟩ := h a ha
  cases a <;> simp_all [okAct, pqRules, Act.NoAux, Act.Granted]

/-- `_shrink_to_fit` of an emptied queue calls `realloc(p, 0)`, which frees the block and returns `NULL` in
the usual C libraries; the queue keeps the pointer and frees it again. -/
theorem pqueue_shrink_frees_twice :
    run (World.empty (pqueue 8)) [.new 0, .un 0 (fun _ => .same) .push, .un 0 (fun _ => .same) (.erase 1),
      .un 0 (fun _ => .fail) .shrink, .drop 0] = none := by decide +kernel

/-- A refused `_push` writes through `NULL`. -/
theorem pqueue_push_null : run (World.empty (pqueue 8)) [.new 0, .un 0 (fun _ => .fail) .push] = none := by
  decide +kernel

/-- `_clone` allocates for a fresh queue with a zero `aux`: the clone cannot be dropped. -/
theorem pqueue_clone_breaks_contract :
    run (World.empty (pqueue 8)) [.new 1, .un 0 (fun _ => .same) .push, .out 0 (fun _ => .same) .clone, .drop 1] =
      none := by decide +kernel

example : Contract (pqueue 8) [.new 0, .un 0 (fun _ => .same) .push, .un 0 (fun _ => .moved) (.reserve 40),
    .out 0 (fun _ => .same) .clone, .drop 0, .drop 1] :=
  pqueue_allocator_contract_granted_partial 8 (by decide) _ (by simp [Act.NoAux, Act.Granted])

/-! ## deque and queue -/

/-- Without `i_aux`: no condition. Missing: `_clone`, `_copy` and `_shrink_to_fit` with `i_aux`. -/
theorem deque_allocator_contract_partial (es : Nat) (np2 : Nat → Nat) (hes : 0 < es) (acts : List (Act (deque es np2)))
    (h : ∀ a ∈ acts, a.NoAux) : Contract (deque es np2) acts := by
  refine contract_of (deque_lawful True es np2 hes) keeps_any trivial (obeys_static acts ?_ _)
  intro a ha w
  have := h a ha
  cases a <;> simp_all [okAct, dequeRules, Act.NoAux]

/-- With `i_aux`, without these calls. -/
theorem deque_allocator_contract_aux_partial (es : Nat) (np2 : Nat → Nat) (hes : 0 < es)
    (acts : List (Act (deque es np2))) (h : Obeys (dequeRules False es np2) (World.empty _) acts) :
    Contract (deque es np2) acts :=
  contract_of (deque_lawful False es np2 hes) keeps_any trivial h

/-- `_shrink_to_fit` assigns a fresh queue to `*self`: `aux` is lost and the new block, from context 0, replaces
one of context 1; later growth is from context 0. -/
theorem deque_shrink_loses_aux :
    ((run (World.empty (deque 8 (fun n => n))) [.new 1, .un 0 (fun _ => .same) (.reserve 7),
      .un 0 (fun _ => .same) .push, .un 0 (fun _ => .same) .shrink]).bind fun w => w.get 0) =
      some (⟨some 1, 1, 1, 0⟩ : Deq) := rfl

/-- `_clone` copies `aux` and allocates with a zero one. -/
theorem deque_clone_breaks_contract :
    run (World.empty (deque 8 (fun n => n))) [.new 1, .un 0 (fun _ => .same) .push, .out 0 (fun _ => .same) .clone,
      .drop 1] = none := by decide +kernel

example : Contract (deque 4 (fun n => 2 * n)) [.new 0, .un 0 (fun _ => .same) .push, .un 0 (fun _ => .moved) .shrink,
    .out 0 (fun _ => .fail) .clone, .bin 1 0 (fun _ => .same) (), .take 0 1] :=
  deque_allocator_contract_partial 4 _ (by decide) _ (by simp [Act.NoAux])

/-! ## hmap and hset -/

/-- Without `i_aux`: no condition. With `i_aux` nothing remains: the first allocation breaks the contract
(`hmap_reserve_breaks_contract`). -/
theorem hmap_allocator_contract_partial (P : HmPar) (hb : ∀ c, 0 < P.bucks c) (acts : List (Act (hmap P)))
    (h : ∀ a ∈ acts, a.NoAux) : Contract (hmap P) acts := by
  refine contract_of (hmap_lawful P hb) keeps_any trivial (obeys_static acts ?_ _)
  intro a ha w
  have := h a ha
  cases a <;> simp_all [okAct, hmapRules, Act.NoAux]

theorem hmap_first_reserve (P : HmPar) (cap x : Nat) (hb : 0 < P.bucks cap) :
    Hm.un P (fun _ => .same) ⟨[], 0⟩ (Hm.zero x) (.reserve cap) =
      some (⟨[⟨1, (P.bucks cap + 1) * P.ms, x⟩, ⟨0, P.bucks cap * P.vs, x⟩], 2⟩,
        ⟨some 0, some 1, 0, P.bucks cap, 0⟩) := by
  have h1 : P.bucks cap ≠ 0 := by omega
  simp [Hm.zero, Hm.un, Hm.reserve, h1, malloc, free]

/-- For every instance with an `aux` that is not zero: reserving space for a new map and dropping it
returns both blocks to the wrong context. -/
theorem hmap_reserve_breaks_contract (P : HmPar) (cap x : Nat) (hb : 0 < P.bucks cap) (hx : x ≠ 0) :
    run (World.empty (hmap P)) [.new x, .un 0 (fun _ => .same) (.reserve cap), .drop 0] = none := by
  show ((Option.map (fun r : Mem × Hm => (⟨r.1, [some r.2]⟩ : World (hmap P)))
    (Hm.un P (fun _ => .same) ⟨[], 0⟩ (Hm.zero x) (.reserve cap))).bind fun w => run w [.drop 0]) = none
  rw [hmap_first_reserve P cap x hb]
  show ((Option.map (fun m : Mem => (⟨m, [none]⟩ : World (hmap P))) (Hm.drop P
    ⟨[⟨1, (P.bucks cap + 1) * P.ms, x⟩, ⟨0, P.bucks cap * P.vs, x⟩], 2⟩
    ⟨some 0, some 1, 0, P.bucks cap, 0⟩)).bind fun w => run w []) = none
  simp [Hm.drop, hb, free, Ne.symm hx]

/-- The same happens as soon as a map grows: `aux` is zero after the first growth and the second returns the
old blocks to context 0. -/
theorem hmap_growth_breaks_contract (P : HmPar) (c1 c2 x : Nat) (hb : 0 < P.bucks c1) (hx : x ≠ 0)
    (h2 : P.bucks c2 ≠ P.bucks c1) :
    run (World.empty (hmap P)) [.new x, .un 0 (fun _ => .same) (.reserve c1), .un 0 (fun _ => .same) (.reserve c2)] =
      none := by
  show ((Option.map (fun r : Mem × Hm => (⟨r.1, [some r.2]⟩ : World (hmap P)))
    (Hm.un P (fun _ => .same) ⟨[], 0⟩ (Hm.zero x) (.reserve c1))).bind
      fun w => run w [.un 0 (fun _ => .same) (.reserve c2)]) = none
  rw [hmap_first_reserve P c1 x hb]
  show ((Option.map (fun r : Mem × Hm => (⟨r.1, [some r.2]⟩ : World (hmap P))) (Hm.un P (fun _ => .same)
    ⟨[⟨1, (P.bucks c1 + 1) * P.ms, x⟩, ⟨0, P.bucks c1 * P.vs, x⟩], 2⟩
    ⟨some 0, some 1, 0, P.bucks c1, 0⟩ (.reserve c2))).bind fun w => run w []) = none
  simp [Hm.un, Hm.reserve, h2, malloc, free, Ne.symm hx]

example : Contract (hmap ⟨8, 2, fun c => c + 4, fun n => n * 3 / 4⟩) [.new 0, .un 0 (fun _ => .same) .insert,
    .un 0 (fun k => if k = 0 then .same else .fail) (.reserve 60), .out 0 (fun k => if k = 0 then .fail else .same) .clone,
    .un 0 (fun _ => .same) .shrink, .bin 1 0 (fun _ => .same) (), .drop 0, .drop 1] :=
  hmap_allocator_contract_partial _ (by simp) _ (by simp [Act.NoAux])

/-! ## smap and sset -/

/-- Without `i_aux`, if no node is refused to `_clone`, `_copy` and `_shrink_to_fit`. Missing: such a refusal
(`smap_clone_null`) and, with `i_aux`, these calls and `_clear`. -/
theorem smap_allocator_contract_partial (ns : Nat) (hns : 0 < ns) (acts : List (Act (smap ns)))
    (h : Obeys (smapRules True ns) (World.empty _) acts) : Contract (smap ns) acts :=
  contract_of (smap_lawful True ns hns) keeps_any trivial h

/-- With `i_aux`, without these calls. -/
theorem smap_allocator_contract_aux_partial (ns : Nat) (hns : 0 < ns) (acts : List (Act (smap ns)))
    (h : Obeys (smapRules False ns) (World.empty _) acts) : Contract (smap ns) acts :=
  contract_of (smap_lawful False ns hns) keeps_any trivial h

/-- A sufficient condition that does not look at the state. -/
theorem smap_allocator_contract_granted_partial (ns : Nat) (hns : 0 < ns) (acts : List (Act (smap ns)))
    (h : ∀ a ∈ acts, a.NoAux ∧ a.Granted) : Contract (smap ns) acts := by
  refine smap_allocator_contract_partial ns hns acts (obeys_static acts ?_ _)
  intro a ha w
  obtain ⟨h1, h2⟩ := h a ha
  cases a with
  | un i as o => cases o <;> simp_all [okAct, smapRules, Act.Granted]
  | _ => simp_all [okAct, smapRules, Act.NoAux, Act.Granted]

/-- `_clone` when the allocator refuses writes a node through `NULL`. -/
theorem smap_clone_null :
    run (World.empty (smap 32)) [.new 0, .un 0 (fun _ => .same) .insert, .out 0 (fun _ => .fail) .clone] = none := by
  decide +kernel

/-- `_clear` assigns a fresh map: the next node comes from context 0. -/
theorem smap_clear_loses_aux :
    ((run (World.empty (smap 32)) [.new 1, .un 0 (fun _ => .same) .insert, .un 0 (fun _ => .same) .clear,
      .un 0 (fun _ => .same) .insert]).map fun w => w.mem.live) = some [⟨1, 160, 0⟩] := by decide +kernel

/-- `_shrink_to_fit` gets its nodes from context 0 and keeps `aux`: the map cannot be dropped. -/
theorem smap_shrink_breaks_contract :
    run (World.empty (smap 32)) [.new 1, .un 0 (fun _ => .same) .insert, .un 0 (fun _ => .same) .shrink, .drop 0] =
      none := by decide +kernel

example : Contract (smap 24) [.new 0, .un 0 (fun _ => .same) .insert, .un 0 (fun _ => .moved) (.reserve 9),
    .out 0 (fun _ => .same) .clone, .un 1 (fun _ => .same) .shrink, .un 0 (fun _ => .same) .clear, .drop 1, .drop 0] :=
  smap_allocator_contract_granted_partial 24 (by decide) _ (by simp [Act.NoAux, Act.Granted])

/-! ## list -/

/-- Without `i_aux`, if no node is refused; the array of `_sort` may be. Missing: refusals
(`list_push_null`) and, with `i_aux`, `_clone`, `_copy`, `_reverse`, `_split_off` and splicing between
contexts. -/
theorem list_allocator_contract_partial (ns es : Nat) (hes : 0 < es) (acts : List (Act (list ns es)))
    (h : Obeys (listRules True ns es) (World.empty _) acts) : Contract (list ns es) acts :=
  contract_of (list_lawful True ns es hes) keeps_any trivial h

/-- With `i_aux`, without these calls. -/
theorem list_allocator_contract_aux_partial (ns es : Nat) (hes : 0 < es) (acts : List (Act (list ns es)))
    (h : Obeys (listRules False ns es) (World.empty _) acts) : Contract (list ns es) acts :=
  contract_of (list_lawful False ns es hes) keeps_any trivial h

/-- Without `i_aux` all lists have the same (zero) one. -/
theorem noAux_vars (ns es : Nat) (hes : 0 < es) (acts : List (Act (list ns es))) :
    ∀ w : World (list ns es), Balanced w → AllOk (LstOk True) w.vars → (∀ a ∈ acts, a.NoAux ∧ a.Granted) →
      Obeys (listRules True ns es) w acts := by
  induction acts with
  | nil => intro w _ _ _; trivial
  | cons a as ih =>
    intro w hb ho h
    obtain ⟨h1, h2⟩ := h a (by simp)
    have hk : okAct (listRules True ns es) w a := by
      cases a with
      | un i as o => cases o <;> simp_all [okAct, listRules, Act.Granted]
      | out i as o => cases o <;> simp_all [okAct, listRules, Act.Granted]
      | bin i j as o =>
        cases o with
        | copy => simp_all [okAct, listRules, Act.Granted]
        | splice k =>
          intro s t hs ht
          have e1 : Lst.aux s = 0 := allOk_get ho hs trivial
          have e2 : Lst.aux t = 0 := allOk_get ho ht trivial
          exact e1.trans e2.symm
      | _ => simp_all [okAct, listRules, Act.NoAux]
    refine ⟨hk, fun w' e => ?_⟩
    obtain ⟨w1, e1, hb1, ho1⟩ := step_balanced (list_lawful True ns es hes) w a trivial hb ho hk
    rw [e] at e1
    cases e1
    exact ih w' hb1 ho1 (fun b hb => h b (by simp [hb]))

/-- A sufficient condition that does not look at the state. -/
theorem list_allocator_contract_granted_partial (ns es : Nat) (hes : 0 < es) (acts : List (Act (list ns es)))
    (h : ∀ a ∈ acts, a.NoAux ∧ a.Granted) : Contract (list ns es) acts :=
  list_allocator_contract_partial ns es hes acts (noAux_vars ns es hes acts _ empty_balanced (empty_ok _) h)

/-- A refused node is written through `NULL`. -/
theorem list_push_null : run (World.empty (list 16 8)) [.new 0, .un 0 (fun _ => .fail) .push] = none := by
  decide +kernel

/-- `_reverse` assigns a fresh list to `*self`: its nodes are returned to context 0. -/
theorem list_reverse_breaks_contract :
    run (World.empty (list 16 8)) [.new 1, .un 0 (fun _ => .same) .push, .un 0 (fun _ => .same) .reverse, .drop 0] =
      none := by decide +kernel

/-- The list made by `_split_off` has a zero `aux`. -/
theorem list_splitOff_breaks_contract :
    run (World.empty (list 16 8)) [.new 1, .un 0 (fun _ => .same) .push, .out 0 (fun _ => .same) (.splitOff 0 1),
      .drop 1] = none := by decide +kernel

/-- Nodes spliced from a list with another `aux` are returned to the wrong context. -/
theorem list_splice_breaks_contract :
    run (World.empty (list 16 8)) [.new 1, .new 2, .un 1 (fun _ => .same) .push, .bin 0 1 (fun _ => .same) (.splice 0),
      .drop 0] = none := by decide +kernel

example : Contract (list 16 8) [.new 0, .un 0 (fun _ => .same) .push, .un 0 (fun _ => .same) .push,
    .out 0 (fun _ => .same) (.splitOff 1 1), .un 0 (fun _ => .same) .sort, .un 1 (fun _ => .same) .push,
    .bin 0 1 (fun _ => .same) (.splice 0), .un 0 (fun _ => .same) (.erase 1), .drop 1, .drop 0] :=
  list_allocator_contract_granted_partial 16 8 (by decide) _ (by simp [Act.NoAux, Act.Granted])

/-! ## cstr -/

/-- If the allocator refuses nothing. Missing: refusals, which lose a buffer (`cstr_reserve_leaks`) or are
written through. -/
theorem cstr_allocator_contract_partial (acts : List (Act cstr)) (h : ∀ a ∈ acts, a.Granted) :
    Contract cstr acts := by
  refine contract_of cstr_lawful cstr_keeps (empty_good _) (obeys_static acts ?_ _)
  intro a ha w
  have := h a ha
  cases a <;> simp_all [okAct, cstrRules, Act.Granted]

/-- A refused `cstr_reserve` overwrites the only pointer to the buffer: it is in use for ever. -/
theorem cstr_reserve_leaks :
    ((run (World.empty cstr) [.mk (fun _ => .same) 30, .un 0 (fun _ => .fail) (.reserve 100), .drop 0]).map
      fun w => (w.mem.live, w.vars)) = some ([⟨0, 31, 0⟩], [none]) := rfl

/-- Every operation that creates a long string writes through a refused pointer. -/
theorem cstr_with_null : run (World.empty cstr) [.mk (fun _ => .fail) 30] = none := by decide +kernel

example : Contract cstr [.mk (fun _ => .same) 30, .un 0 (fun _ => .same) (.append 40), .out 0 (fun _ => .same) .clone,
    .un 0 (fun _ => .moved) .shrink, .un 1 (fun _ => .same) (.resize 5), .un 1 (fun _ => .same) .shrink, .take 0 1] :=
  cstr_allocator_contract_partial _ (by simp [Act.Granted])

/-! ## cbits -/

/-- No refusal where the code does not check, and no refused `cbits_resize` to 0. -/
theorem cbits_allocator_contract_partial (acts : List (Act cbits)) (h : Obeys cbitsRules (World.empty _) acts) :
    Contract cbits acts := contract_of cbits_lawful cbits_keeps (empty_good _) h

/-- A sufficient condition that does not look at the state. -/
theorem cbits_allocator_contract_granted_partial (acts : List (Act cbits)) (h : ∀ a ∈ acts, a.Granted) :
    Contract cbits acts := by
  refine cbits_allocator_contract_partial acts (obeys_static acts ?_ _)
  intro a ha w
  have := h a ha
  cases a <;> simp_all [okAct, cbitsRules, Act.Granted]

/-- `cbits_resize(&b, 0)` calls `realloc(p, 0)`, which frees the words and returns `NULL` in the usual C
libraries; the set keeps the pointer, and dropping it frees them again. -/
theorem cbits_resize_zero_frees_twice :
    run (World.empty cbits) [.mk (fun _ => .same) 100, .un 0 (fun _ => .fail) (0 : Nat), .drop 0] = none := by
  decide +kernel

example : Contract cbits [.mk (fun _ => .same) 100, .un 0 (fun _ => .moved) (200 : Nat), .out 0 (fun _ => .same) .clone,
    .mk (fun _ => .same) 7, .bin 2 0 (fun _ => .same) (), .take 0 1, .drop 0] :=
  cbits_allocator_contract_granted_partial _ (by simp [Act.Granted])

/-! ## cregex -/

/-- If the allocator does not refuse to replace a program, shrinks programs by moving them, and only compiled
expressions are dropped. -/
theorem cregex_allocator_contract_partial (S I : Nat) (hS : 0 < S) (acts : List (Act (cregex S I)))
    (h : Obeys (cregexRules S I) (World.empty _) acts) : Contract (cregex S I) acts :=
  contract_of (cregex_lawful S I hS) (cregex_keeps S I) (empty_good _) h

/-- When `realloc` shrinks the program where it is, `allocsize` keeps the old value: the block is freed with
a size that it does not have. -/
theorem cregex_inplace_wrong_size :
    run (World.empty (cregex 48 16)) [.new 0, .un 0 (fun _ => .same) ⟨3, 5, false⟩, .drop 0] = none := by
  decide +kernel

/-- Dropping an expression that failed to compile reads through `NULL`. -/
theorem cregex_drop_after_error :
    run (World.empty (cregex 48 16)) [.new 0, .un 0 (fun _ => .same) ⟨3, 5, true⟩, .drop 0] = none := by
  decide +kernel

/-- A refusal when an expression is compiled anew loses the old program. -/
theorem cregex_recompile_leaks :
    ((run (World.empty (cregex 48 16)) [.new 0, .un 0 (fun _ => .moved) ⟨3, 20, false⟩,
      .un 0 (fun _ => .fail) ⟨9, 20, false⟩]).map fun w => (w.mem.live, w.get 0)) =
      some ([⟨0, 416, 0⟩], some (⟨none, 0⟩ : Rx)) := rfl

example : Contract (cregex 48 16) [.new 0, .un 0 (fun _ => .moved) ⟨3, 5, false⟩, .un 0 (fun _ => .moved) ⟨9, 50, false⟩,
    .drop 0] := by
  refine cregex_allocator_contract_partial 48 16 (by decide) _ ?_
  refine ⟨trivial, fun w e => ?_⟩
  obtain rfl : (⟨⟨[], 0⟩, [some (⟨none, 0⟩ : Rx)]⟩ : World (cregex 48 16)) = w := Option.some.inj e
  refine ⟨fun s _ => ⟨.inl (by simp), fun _ _ => by simp⟩, fun w e => ?_⟩
  obtain rfl : (⟨⟨[⟨1, 128, 0⟩], 2⟩, [some (⟨some 1, 128⟩ : Rx)]⟩ : World (cregex 48 16)) = w := Option.some.inj e
  refine ⟨fun s _ => ⟨.inl (by simp), fun _ _ => by simp⟩, fun w e => ?_⟩
  obtain rfl : (⟨⟨[⟨2, 992, 0⟩], 3⟩, [some (⟨some 2, 992⟩ : Rx)]⟩ : World (cregex 48 16)) = w := Option.some.inj e
  exact ⟨fun s h => by cases h; rfl, fun _ _ => trivial⟩

/-! ## `aux` stays with its container -/

theorem regrow_aux {es : Nat} {a : Ans} {m : Mem} {v : Buf} {n : Nat} {r : Mem × Buf × Bool}
    (h : Buf.regrow es a m v n = some r) : r.2.1.aux = v.aux := by
  unfold Buf.regrow at h
  rw [Option.bind_eq_some_iff] at h
  obtain ⟨q, _, h⟩ := h
  split at h <;> cases h <;> rfl

theorem vec_reserve_aux {es : Nat} {a : Ans} {m : Mem} {v : Buf} {n : Nat} {r : Mem × Buf × Bool}
    (h : Vec.reserve es a m v n = some r) : r.2.1.aux = v.aux := by
  unfold Vec.reserve at h
  split at h
  · exact regrow_aux h
  · cases h; rfl

/-- No call changes the `aux` of a vec. -/
theorem vec_aux_kept (es : Nat) (as : Answers) (m m' : Mem) (v v' : Buf) (o : Vec.Op)
    (h : Vec.un es as m v o = some (m', v')) : v'.aux = v.aux := by
  cases o with
  | reserve n =>
    simp only [Vec.un, Option.map_eq_some_iff] at h
    obtain ⟨r, h1, e⟩ := h
    cases e
    exact vec_reserve_aux h1
  | push =>
    simp only [Vec.un] at h
    split at h
    · rw [Option.bind_eq_some_iff] at h
      obtain ⟨r, h1, h⟩ := h
      have := vec_reserve_aux h1
      split at h <;> cases h <;> exact this
    · cases h; rfl
  | insert n =>
    simp only [Vec.un, Vec.insertUninit] at h
    split at h
    · rw [Option.bind_eq_some_iff] at h
      obtain ⟨r, h1, h⟩ := h
      have := vec_reserve_aux h1
      split at h <;> cases h <;> exact this
    · cases h; rfl
  | resize n =>
    simp only [Vec.un] at h
    rw [Option.bind_eq_some_iff] at h
    obtain ⟨r, h1, h⟩ := h
    have := vec_reserve_aux h1
    split at h <;> cases h <;> exact this
  | shrink =>
    simp only [Vec.un, Option.map_eq_some_iff] at h
    obtain ⟨r, h1, e⟩ := h
    cases e
    exact vec_reserve_aux h1
  | erase k => cases h; rfl
  | clear => cases h; rfl

/-- No call changes the `aux` of a stack whose block is on the books (`F`: the other blocks in use). -/
theorem stack_aux_kept (es : Nat) (hes : 0 < es) (as : Answers) (m m' : Mem) (v v' : Buf) (o : Stack.Op)
    (F : List Blk) (hb : m.live.Perm (Buf.fp es v ++ F)) (h : Stack.un es as m v o = some (m', v')) :
    v'.aux = v.aux := by
  obtain ⟨m1, v1, e, h1, _⟩ := stack_un_ok hes (as := as) (o := o) hb
  rw [h] at e
  cases e
  exact h1

/-- No call changes the `aux` of a queue except `_shrink_to_fit` (`deque_shrink_loses_aux`). -/
theorem deque_aux_kept_partial (es : Nat) (np2 : Nat → Nat) (hes : 0 < es) (as : Answers) (m m' : Mem) (q q' : Deq)
    (o : Deq.Op) (ho : o ≠ .shrink) (F : List Blk) (hb : m.live.Perm (Deq.fp es q ++ F))
    (h : Deq.un es np2 as m q o = some (m', q')) : q'.aux = q.aux := by
  obtain ⟨m1, v1, e, h1, _⟩ := deq_un_ok hes (np2 := np2) (as := as) (o := o) (.inr ho) hb
  rw [h] at e
  cases e
  exact h1

/-- No call changes the `aux` of a priority queue. -/
theorem pqueue_aux_kept (es : Nat) (as : Answers) (m m' : Mem) (v v' : Buf) (o : PQ.Op)
    (h : PQ.un es as m v o = some (m', v')) : v'.aux = v.aux := by
  have hres : ∀ {n : Nat} {r : Mem × Buf × Bool}, PQ.reserve es (as 0) m v n = some r → r.2.1.aux = v.aux := by
    intro n r e
    unfold PQ.reserve at e
    split at e
    · cases e; rfl
    · exact regrow_aux e
  cases o with
  | reserve n =>
    simp only [PQ.un, Option.map_eq_some_iff] at h
    obtain ⟨r, h1, e⟩ := h
    cases e
    exact hres h1
  | push =>
    simp only [PQ.un] at h
    split at h
    · rw [Option.bind_eq_some_iff] at h
      obtain ⟨r, h1, h⟩ := h
      have := hres h1
      split at h <;> cases h
      exact this
    · cases h; rfl
  | shrink =>
    simp only [PQ.un, Option.map_eq_some_iff] at h
    obtain ⟨r, h1, e⟩ := h
    cases e
    exact hres h1
  | erase k => cases h; rfl
  | clear => cases h; rfl

/-- No call changes the `aux` of a sorted map except `_clear` (`smap_clear_loses_aux`). -/
theorem smap_aux_kept_partial (ns : Nat) (as : Answers) (m m' : Mem) (t t' : Sm) (o : Sm.Op) (ho : o ≠ .clear)
    (h : Sm.un ns as m t o = some (m', t')) : t'.aux = t.aux := by
  have hres : ∀ {a : Ans} {n : Nat} {r : Mem × Sm × Bool}, Sm.reserve ns a m t n = some r → r.2.1.aux = t.aux := by
    intro a n r e
    unfold Sm.reserve at e
    split at e
    · cases e; rfl
    · rw [Option.bind_eq_some_iff] at e
      obtain ⟨q, _, e⟩ := e
      split at e <;> cases e <;> rfl
  cases o with
  | reserve n =>
    simp only [Sm.un, Option.map_eq_some_iff] at h
    obtain ⟨r, h1, e⟩ := h
    cases e
    exact hres h1
  | insert =>
    simp only [Sm.un, Option.map_eq_some_iff] at h
    obtain ⟨r, h1, e⟩ := h
    have hr : r.2.1.aux = t.aux := by
      unfold Sm.newNode at h1
      split at h1
      · cases h1; rfl
      · split at h1
        · simp only [Option.map_eq_some_iff] at h1
          obtain ⟨q, h1, rfl⟩ := h1
          have := hres h1
          split <;> exact this
        · cases h1; rfl
    split at e <;> cases e <;> exact hr
  | erase =>
    simp only [Sm.un] at h
    split at h <;> cases h <;> rfl
  | shrink =>
    simp only [Sm.un] at h
    rw [Option.bind_eq_some_iff] at h
    obtain ⟨r, h1, h⟩ := h
    simp only [Option.map_eq_some_iff] at h
    obtain ⟨q, _, h⟩ := h
    cases h
    unfold Sm.clone at h1
    rw [Option.bind_eq_some_iff] at h1
    obtain ⟨x, _, h1⟩ := h1
    simp only [Option.map_eq_some_iff] at h1
    obtain ⟨y, _, h1⟩ := h1
    cases h1
    rfl
  | clear => exact absurd rfl ho

/-- No call changes the `aux` of a list except `_reverse` (`list_reverse_loses_aux`). -/
theorem list_aux_kept_partial (ns es : Nat) (as : Answers) (m m' : Mem) (l l' : Lst) (o : Lst.Op) (ho : o ≠ .reverse)
    (h : Lst.un ns es as m l o = some (m', l')) : l'.aux = l.aux := by
  cases o with
  | push =>
    simp only [Lst.un, Lst.push, Option.map_eq_some_iff] at h
    obtain ⟨i, _, e⟩ := h
    cases e
    rfl
  | erase k =>
    simp only [Lst.un] at h
    split at h
    · unfold Lst.eraseAt at h
      rw [Option.bind_eq_some_iff] at h
      obtain ⟨i, _, h⟩ := h
      simp only [Option.map_eq_some_iff] at h
      obtain ⟨q, _, h⟩ := h
      cases h
      rfl
    · cases h; rfl
  | clear =>
    simp only [Lst.un, Option.map_eq_some_iff] at h
    obtain ⟨q, _, h⟩ := h
    cases h
    rfl
  | reverse => exact absurd rfl ho
  | sort =>
    simp only [Lst.un, Lst.sort] at h
    rw [Option.bind_eq_some_iff] at h
    obtain ⟨i, _, h⟩ := h
    simp only [Option.map_eq_some_iff] at h
    obtain ⟨q, _, h⟩ := h
    cases h
    rfl

/-- `_reverse` sets `aux` to zero, whatever the list. -/
theorem list_reverse_loses_aux (ns es : Nat) (as : Answers) (m : Mem) (l : Lst) :
    ∃ l', Lst.un ns es as m l .reverse = some (m, l') ∧ l'.aux = 0 := ⟨_, rfl, rfl⟩

/-- A map that has grown has a zero `aux`, whatever it was before, whichever blocks it had. -/
theorem hmap_growth_loses_aux (P : HmPar) (as : Answers) (m m' : Mem) (t t' : Hm) (cap : Nat)
    (hc : t.size ≤ cap) (hn : P.bucks cap ≠ t.n) (h : Hm.reserve P as m t cap = some (m', t', true)) :
    t'.aux = 0 := by
  unfold Hm.reserve at h
  rw [if_neg (by omega)] at h
  split at h
  · simp only [Option.map_eq_some_iff] at h
    obtain ⟨q, _, h⟩ := h
    cases h
    rfl
  · simp only [Option.map_eq_some_iff] at h
    obtain ⟨q, _, h⟩ := h
    simp at h

/-- The calls meet the hypotheses on a stack in context 5 that grows, next to another block. -/
example : Stack.un 8 (fun _ => .moved) ⟨[⟨0, 16, 5⟩, ⟨1, 9, 0⟩], 2⟩ ⟨some 0, 2, 2, 5⟩ .push =
    some (⟨[⟨2, 56, 5⟩, ⟨1, 9, 0⟩], 3⟩, ⟨some 2, 3, 7, 5⟩) := by decide +kernel

example : Sm.un 8 (fun _ => .moved) ⟨[⟨0, 24, 5⟩], 1⟩ ⟨some 0, 2, 0, 2, 2, 5⟩ .insert =
    some (⟨[⟨1, 64, 5⟩], 2⟩, ⟨some 1, 3, 0, 3, 7, 5⟩) := by decide +kernel

example : Lst.un 8 4 (fun _ => .same) ⟨[⟨0, 8, 5⟩, ⟨1, 8, 5⟩], 2⟩ ⟨[1, 0], 5⟩ (.erase 0) =
    some (⟨[⟨0, 8, 5⟩], 2⟩, ⟨[0], 5⟩) := by decide +kernel

end Verif.Alloc
