import Verif.Cstr.Format
/-
Joining strings: include/stc/priv/cstr_prv.h:375-392 (`cstr_join`, `cstr_join_items`, `cstr_join_n`, `cstr_join_sn`).

The separator and the items lie outside the string that is appended to.
-/
namespace Verif.Cstr.Join
open Verif.Utf8 Verif.Csview Verif.Cstr.Spec

/-- include/stc/priv/cstr_prv.h:366-367 `cstr_append` of the C string at `m`; the result is ignored. -/
def append (ok : Bool) (m : List Byte) (s : Str) : Option Str :=
  (strlen m).bind fun n => (appendN ok (.ext m) n s).map (·.1)

/-- include/stc/priv/cstr_prv.h:372-373 `cstr_append_s`; the result is ignored. -/
def appendS (ok : Bool) (t s : Str) : Option Str :=
  (mem t).bind fun m => (size t).bind fun n => (appendN ok (.ext m) n s).map (·.1)

/-- The loop of cstr_prv.h:387 and 391: `sp` is `_sep`, `app` appends an item. -/
def loop {ι : Type} (app : ι → Str → Option Str) (ok : Bool) (sep : List Byte) : List Byte → List ι → Str → Option Str
  | _, [], s => some s
  | sp, x :: xs, s => (append ok sp s).bind fun s => (app x s).bind fun s => loop app ok sep sep xs s

/-- include/stc/priv/cstr_prv.h:385-388 `cstr_join_n` (`cstr_join_items` with an array literal). -/
def joinN (ok : Bool) (sep : List Byte) (items : List (List Byte)) (s : Str) : Option Str :=
  (size s).bind fun n => loop (append ok) ok sep (if n = 0 then [0#8] else sep) items s

/-- include/stc/priv/cstr_prv.h:389-392 `cstr_join_sn` (`cstr_join` of the elements of a vec). -/
def joinSn (ok : Bool) (sep : List Byte) (items : List Str) (s : Str) : Option Str :=
  (size s).bind fun n => loop (appendS ok) ok sep (if n = 0 then [0#8] else sep) items s

theorem append_rep {bs : List Byte} {s : Str} (h : Reach s bs) {t j : List Byte} (ht : 0#8 ∉ t) :
    ∃ s', append true (t ++ 0#8 :: j) s = some s' ∧ Reach s' (bs ++ t) := by
  obtain ⟨s', e, _⟩ := appendN_rep (rep_of_reach h) (src := .ext (t ++ 0#8 :: j)) (n := t.length) (by simp [Src.ok])
  refine ⟨s', by rw [append, strlen_eq j t ht, Option.bind_some, e]; rfl, ?_⟩
  refine .call _ _ _ _ (.append (.ext (t ++ 0#8 :: j)) t.length) h (by simp [Spec.valid]) ?_ ?_
  · simp [run, e]
  · simp [After]

theorem appendS_rep {bs ts : List Byte} {s t : Str} (h : Reach s bs) (ht : Reach t ts) :
    ∃ s', appendS true t s = some s' ∧ Reach s' (bs ++ ts) := by
  obtain ⟨s', e, _⟩ := appendN_rep (rep_of_reach h) (src := .ext (ts ++ [0#8])) (n := ts.length) (by simp [Src.ok])
  refine ⟨s', by rw [appendS, mem_eq (rep_of_reach ht), size_eq (rep_of_reach ht), Option.bind_some, Option.bind_some, e]; rfl, ?_⟩
  refine .call _ _ _ _ (.append (.ext (ts ++ [0#8])) ts.length) h (by simp [Spec.valid]) ?_ ?_
  · simp [run, e]
  · simp [After]

/-- What the loop appends. -/
def added (sep sp : List Byte) : List (List Byte) → List Byte
  | [] => []
  | t :: ts => sp ++ t ++ added sep sep ts

theorem added_join (sep : List Byte) : ∀ (a : List Byte) (ts : List (List Byte)),
    a ++ added sep sep ts = Csview.Spec.join sep (a :: ts)
  | a, [] => by simp [added, Csview.Spec.join]
  | a, t :: ts => by
    rw [added, Csview.Spec.join, ← added_join sep t ts]
    · simp
    · simp

theorem loop_rep {ι : Type} {app : ι → Str → Option Str} {txt : ι → List Byte} {sep j : List Byte} (hsep : 0#8 ∉ sep)
    {j' : List Byte} :
    ∀ (items : List ι) (_ : ∀ x ∈ items, ∀ s bs, Reach s bs → ∃ s', app x s = some s' ∧ Reach s' (bs ++ txt x))
      (sp : List Byte) (_ : 0#8 ∉ sp) (s : Str) (bs : List Byte), Reach s bs →
      ∃ s', loop app true (sep ++ 0#8 :: j) (sp ++ 0#8 :: j') items s = some s' ∧
        Reach s' (bs ++ added sep sp (items.map txt)) := by
  intro items
  induction items generalizing j' with
  | nil => intro _ sp _ s bs h; exact ⟨s, rfl, by simpa [added] using h⟩
  | cons x xs ih =>
    intro happ sp hsp s bs h
    obtain ⟨s1, e1, h1⟩ := append_rep h (j := j') hsp
    obtain ⟨s2, e2, h2⟩ := happ x (by simp) s1 _ h1
    obtain ⟨s3, e3, h3⟩ := ih (j' := j) (fun y hy => happ y (by simp [hy])) sep hsep s2 _ h2
    refine ⟨s3, by rw [loop, e1, Option.bind_some, e2, Option.bind_some, e3], ?_⟩
    simpa [added] using h3

theorem join_rep {ι : Type} {app : ι → Str → Option Str} {txt : ι → List Byte} {sep j : List Byte} (hsep : 0#8 ∉ sep) (items : List ι)
    (happ : ∀ x ∈ items, ∀ s bs, Reach s bs → ∃ s', app x s = some s' ∧ Reach s' (bs ++ txt x)) {s : Str} {bs : List Byte}
    (h : Reach s bs) :
    ∃ s', ((size s).bind fun n => loop app true (sep ++ 0#8 :: j) (if n = 0 then [0#8] else sep ++ 0#8 :: j) items s) = some s' ∧
      Reach s' (Csview.Spec.join sep ((if bs = [] then [] else [bs]) ++ items.map txt)) := by
  rw [size_eq (rep_of_reach h), Option.bind_some]
  by_cases hb : bs = []
  · subst hb
    obtain ⟨s', e, h'⟩ := loop_rep (j := j) (j' := []) hsep items happ [] (by simp) s [] h
    refine ⟨s', by simpa using e, ?_⟩
    simp only [if_true, List.nil_append] at h' ⊢
    cases items with
    | nil => simpa [added, Csview.Spec.join] using h'
    | cons x xs =>
      rw [List.map_cons, ← added_join]
      simpa [added] using h'
  · obtain ⟨s', e, h'⟩ := loop_rep (j := j) (j' := j) hsep items happ sep hsep s bs h
    refine ⟨s', by simpa [hb] using e, ?_⟩
    rw [if_neg hb, List.singleton_append, ← added_join]
    exact h'

/-- C175: `cstr_join_n` and `cstr_join_items` make the text of the string, unless it is empty, and the items, with the
separator between any two neighbours. `items` are the texts with what follows their terminators in memory. -/
theorem join_items {s : Str} {bs : List Byte} (h : Reach s bs) {sep j : List Byte} (hsep : 0#8 ∉ sep) (items : List (List Byte × List Byte))
    (hi : ∀ x ∈ items, 0#8 ∉ x.1) :
    ∃ s', joinN true (sep ++ 0#8 :: j) (items.map fun x => x.1 ++ 0#8 :: x.2) s = some s' ∧
      Reach s' (Csview.Spec.join sep ((if bs = [] then [] else [bs]) ++ items.map (·.1))) := by
  obtain ⟨s', e, h'⟩ := join_rep (app := fun x => append true (x.1 ++ 0#8 :: x.2)) (txt := (·.1)) (j := j) hsep items
    (fun x hx s bs hs => append_rep hs (hi x hx)) h
  have key : ∀ (items : List (List Byte × List Byte)) (sp : List Byte) (s : Str),
      loop (append true) true (sep ++ 0#8 :: j) sp (items.map fun x => x.1 ++ 0#8 :: x.2) s =
        loop (fun x : List Byte × List Byte => append true (x.1 ++ 0#8 :: x.2)) true (sep ++ 0#8 :: j) sp items s := by
    intro items
    induction items with
    | nil => intro sp s; rfl
    | cons x xs ih => intro sp s; simp only [List.map_cons, loop, ih]
  refine ⟨s', ?_, h'⟩
  rw [joinN, ← e]
  simp only [key]

/-- C175: `cstr_join` and `cstr_join_sn` do the same with strings, which may contain NUL. -/
theorem join_strings {s : Str} {bs : List Byte} (h : Reach s bs) {sep j : List Byte} (hsep : 0#8 ∉ sep) (items : List (Str × List Byte))
    (hi : ∀ x ∈ items, Reach x.1 x.2) :
    ∃ s', joinSn true (sep ++ 0#8 :: j) (items.map (·.1)) s = some s' ∧
      Reach s' (Csview.Spec.join sep ((if bs = [] then [] else [bs]) ++ items.map (·.2))) := by
  obtain ⟨s', e, h'⟩ := join_rep (app := fun x : Str × List Byte => appendS true x.1) (txt := (·.2)) (j := j) hsep items
    (fun x hx s bs hs => appendS_rep hs (hi x hx)) h
  have key : ∀ (items : List (Str × List Byte)) (sp : List Byte) (s : Str),
      loop (appendS true) true (sep ++ 0#8 :: j) sp (items.map (·.1)) s =
        loop (fun x : Str × List Byte => appendS true x.1) true (sep ++ 0#8 :: j) sp items s := by
    intro items
    induction items with
    | nil => intro sp s; rfl
    | cons x xs ih => intro sp s; simp only [List.map_cons, loop, ih]
  refine ⟨s', ?_, h'⟩
  rw [joinSn, ← e]
  simp only [key]

/-- Items that a separator can tell apart: it does not occur in any of them, nor across the place where it is put
behind one. -/
def Clean (sep : List Byte) (ts : List (List Byte)) : Prop :=
  (∀ t ∈ ts, ¬ sep <:+: t) ∧ ∀ t ∈ ts.dropLast, ∀ i < t.length, ¬ Csview.Spec.At sep (t ++ sep) i

theorem clean_tail {sep t t' : List Byte} {ts : List (List Byte)} (h : Clean sep (t :: t' :: ts)) :
    Clean sep (t' :: ts) ∧ ∀ i < t.length, ¬ Csview.Spec.At sep (t ++ sep) i :=
  ⟨⟨fun x hx => h.1 x (by simp [hx]), fun x hx => h.2 x (by simp [List.dropLast, hx])⟩, h.2 t (by simp [List.dropLast])⟩

theorem head_length {sep t u X Y : List Byte} (hu : ∀ i < u.length, ¬ Csview.Spec.At sep (u ++ sep) i)
    (h : t ++ sep ++ X = u ++ sep ++ Y) : u.length ≤ t.length := by
  apply Nat.le_of_not_lt
  intro hlt
  apply hu t.length hlt
  have h1 : sep <+: (u ++ sep ++ Y).drop t.length := by
    rw [← h, List.append_assoc, List.drop_left]; exact List.prefix_append _ _
  rw [List.drop_append_of_le_length (by simp; omega)] at h1
  exact List.prefix_of_prefix_length_le h1 (List.prefix_append _ _) (by simp; omega)

/-- Two clean lists of items with the same joined text are the same. -/
theorem join_inj {sep : List Byte} : ∀ {ts us : List (List Byte)}, ts ≠ [] → us ≠ [] → Clean sep ts → Clean sep us →
    Csview.Spec.join sep ts = Csview.Spec.join sep us → ts = us
  | [], _, h, _, _, _, _ => absurd rfl h
  | _ :: _, [], _, h, _, _, _ => absurd rfl h
  | [t], [u], _, _, _, _, h => by simpa [Csview.Spec.join] using h
  | [t], u :: u' :: us, _, _, ht, _, h => by
    exfalso
    simp only [Csview.Spec.join] at h
    exact ht.1 t (by simp) ⟨u, _, h.symm⟩
  | t :: t' :: ts, [u], _, _, _, hu, h => by
    exfalso
    simp only [Csview.Spec.join] at h
    exact hu.1 u (by simp) ⟨t, _, h⟩
  | t :: t' :: ts, u :: u' :: us, _, _, ht, hu, h => by
    obtain ⟨ht1, ht2⟩ := clean_tail ht
    obtain ⟨hu1, hu2⟩ := clean_tail hu
    simp only [Csview.Spec.join] at h
    have hl : t.length = u.length := Nat.le_antisymm (head_length ht2 h.symm) (head_length hu2 h)
    rw [List.append_assoc, List.append_assoc] at h
    obtain ⟨rfl, h'⟩ := List.append_inj h hl
    rw [List.append_right_inj] at h'
    rw [join_inj (by simp) (by simp) ht1 hu1 h']

/-- C175: joining into an empty string and then splitting with `c_token` gives the items back. -/
theorem join_then_split {s : Str} (h : Reach s []) {sep j : List Byte} (hsep : 0#8 ∉ sep) (hne : sep ≠ [])
    (items : List (List Byte × List Byte)) (hi : ∀ x ∈ items, 0#8 ∉ x.1) (h0 : items ≠ []) (hc : Clean sep (items.map (·.1)))
    {fuel : Nat} (hf : (Csview.Spec.join sep (items.map (·.1))).length + 1 < fuel) :
    ∃ s' m n ts, joinN true (sep ++ 0#8 :: j) (items.map fun x => x.1 ++ 0#8 :: x.2) s = some s' ∧ mem s' = some m ∧ size s' = some n ∧
      tokens m n (sep ++ 0#8 :: j) fuel 0 = some ts ∧ ts.map (Csview.Spec.part m) = items.map (·.1) := by
  obtain ⟨s', e, h'⟩ := join_items h (j := j) hsep items hi
  simp only [if_true, List.nil_append] at h'
  have hr := rep_of_reach h'
  obtain ⟨ts, e1, e2, e3, e4, e5, e6⟩ :=
    tokens_spec (Csview.Spec.join sep (items.map (·.1))) sep [0#8] j hsep hne fuel 0 (by omega) (by omega)
  have hp : ∀ t ∈ ts, Csview.Spec.part (Csview.Spec.join sep (items.map (·.1)) ++ [0#8]) t =
      Csview.Spec.part (Csview.Spec.join sep (items.map (·.1))) t := by
    intro t ht
    have := e4 t ht
    simp only [Csview.Spec.part]
    rw [List.drop_append_of_le_length (by omega), List.take_append_of_le_length (by simp; omega)]
  refine ⟨s', _, _, ts, e, mem_eq hr, size_eq hr, e1, ?_⟩
  rw [List.map_congr_left hp]
  apply join_inj (by simpa using e2) (by simpa using h0) ?_ hc (by simpa using e3)
  refine ⟨fun t ht => ?_, fun t ht => ?_⟩
  · obtain ⟨v, hv, rfl⟩ := List.mem_map.1 ht
    exact e5 v hv
  · rw [← List.map_dropLast] at ht
    obtain ⟨v, hv, rfl⟩ := List.mem_map.1 ht
    intro i hil
    refine e6 v hv i ?_
    simp only [Csview.Spec.part, List.length_take] at hil
    omega

/-- C175 (partial: the first part must not join to nothing): joining in two calls is joining in one. -/
theorem join_twice_partial {s : Str} {bs : List Byte} (h : Reach s bs) {sep j : List Byte} (hsep : 0#8 ∉ sep)
    (xs ys : List (List Byte × List Byte)) (hx : ∀ x ∈ xs, 0#8 ∉ x.1) (hy : ∀ x ∈ ys, 0#8 ∉ x.1)
    (hne : xs = [] ∨ Csview.Spec.join sep ((if bs = [] then [] else [bs]) ++ xs.map (·.1)) ≠ []) :
    ∃ s1 s2 s3 o, joinN true (sep ++ 0#8 :: j) (xs.map fun x => x.1 ++ 0#8 :: x.2) s = some s1 ∧
      joinN true (sep ++ 0#8 :: j) (ys.map fun x => x.1 ++ 0#8 :: x.2) s1 = some s2 ∧
      joinN true (sep ++ 0#8 :: j) ((xs ++ ys).map fun x => x.1 ++ 0#8 :: x.2) s = some s3 ∧ Reach s2 o ∧ Reach s3 o := by
  obtain ⟨s1, e1, h1⟩ := join_items h (j := j) hsep xs hx
  obtain ⟨s2, e2, h2⟩ := join_items h1 (j := j) hsep ys hy
  obtain ⟨s3, e3, h3⟩ := join_items h (j := j) hsep (xs ++ ys) (fun x hx' => by
    rcases List.mem_append.1 hx' with h | h
    · exact hx x h
    · exact hy x h)
  refine ⟨s1, s2, s3, _, e1, e2, e3, h2, ?_⟩
  rcases hne with rfl | hne
  · have : Csview.Spec.join sep (if bs = [] then [] else [bs]) = bs := by
      by_cases hb : bs = [] <;> simp [hb, Csview.Spec.join]
    simpa [this] using h3
  · rw [if_neg hne]
    convert h3 using 1
    rw [List.map_append, ← List.append_assoc, List.singleton_append]
    generalize hl : (if bs = [] then [] else [bs]) ++ xs.map (·.1) = l at hne
    cases l with
    | nil => exact absurd rfl hne
    | cons a l =>
      rw [List.cons_append, ← added_join, ← added_join, ← added_join, List.append_assoc]
      congr 1
      clear hl hne
      induction l with
      | nil => rfl
      | cons b l ih => simp only [added, List.cons_append, List.append_assoc, ih]

/-- C175, refutation: when the allocator refuses the room for a separator, the join goes on with the string that is left
without a buffer: undefined, for every long string whose capacity the separator exceeds. -/
theorem join_refused_undefined {d : List Cell} {n c : Nat} {bs : List Byte} (h : Reach (.long d n c) bs) (hne : bs ≠ []) {sep j : List Byte}
    (hsep : 0#8 ∉ sep) (hg : c < bs.length + sep.length) (x : List Byte) (xs : List (List Byte)) :
    joinN false (sep ++ 0#8 :: j) (x :: xs) (.long d n c) = none := by
  have hs := size_eq (rep_of_reach h)
  have hn : n = bs.length := by simpa [size, getbuf] using hs
  have h0 : bs.length ≠ 0 := by simpa using hne
  have e1 : append false (sep ++ 0#8 :: j) (.long d n c) = some (.null n (n * 3 / 2 + sep.length)) := by
    rw [append, strlen_eq j sep hsep, Option.bind_some]
    simp only [appendN, getbuf, Option.bind_eq_bind, Option.bind_some, makeRoom, if_pos (show n + sep.length > c by omega), reserve,
      if_pos (show n * 3 / 2 + sep.length > c by omega)]
    rfl
  have e2 : append false x (.null n (n * 3 / 2 + sep.length)) = none := by
    rw [append]
    cases strlen x with
    | none => rfl
    | some k => rfl
  rw [joinN, hs, Option.bind_some, if_neg h0, loop, e1, Option.bind_some, e2]
  rfl

example : ∃ d n c, Reach (.long d n c) (List.replicate 30 65#8) ∧ joinN false ([44] ++ 0#8 :: []) [[120, 0]] (.long d n c) = none := by
  obtain ⟨s1, e1, _⟩ := withSize_rep 30 65#8
  have hr := Reach.withSize 30 65#8 s1 e1
  have e : withSize 30 65#8 = some (.long (List.replicate 30 (some 65#8) ++ [some 0#8]) 30 30) := by decide +kernel
  rw [e, Option.some.injEq] at e1
  subst e1
  exact ⟨_, _, _, hr, join_refused_undefined hr (by decide) (sep := [44]) (j := []) (by decide) (by decide) _ _⟩

/-- C175, refutation: an empty item at the front is forgotten between two calls. -/
theorem join_twice_wrong :
    ∃ s1 s2 s3, joinN true [44, 0] [[0]] empty = some s1 ∧ joinN true [44, 0] [[97, 0]] s1 = some s2 ∧
      joinN true [44, 0] [[0], [97, 0]] empty = some s3 ∧ mem s2 = some [97, 0] ∧ mem s3 = some [44, 97, 0] := by
  refine ⟨_, _, _, rfl, rfl, rfl, by decide +kernel, by decide +kernel⟩

open Verif.Cstr.Format (ab reach_ab)

example : ∃ s', joinN true ([44, 32] ++ 0#8 :: []) [[120, 0], [0, 7], [121, 0]] ab = some s' ∧
    Reach s' [97, 98, 44, 32, 120, 44, 32, 44, 32, 121] :=
  join_items reach_ab (sep := [44, 32]) (j := []) (by decide) [([120], []), ([], [7]), ([121], [])] (by decide)

example : ∃ s', joinSn true ([44] ++ 0#8 :: []) [ab, ab] empty = some s' ∧ Reach s' [97, 98, 44, 97, 98] :=
  join_strings Reach.init (sep := [44]) (j := []) (by decide) [(ab, [97, 98]), (ab, [97, 98])] (by
    intro x hx; simp at hx; subst hx; exact reach_ab)

example : ∃ s' m n ts, joinN true ([44] ++ 0#8 :: []) [[120, 0], [0], [121, 0]] empty = some s' ∧ mem s' = some m ∧ size s' = some n ∧
    tokens m n ([44] ++ 0#8 :: []) 99 0 = some ts ∧ ts.map (Csview.Spec.part m) = [[120], [], [121]] :=
  join_then_split Reach.init (sep := [44]) (j := []) (by decide) (by decide) [([120], []), ([], []), ([121], [])] (by decide) (by decide)
    ⟨by
      intro t ht
      have : ∀ t ∈ [[120#8], [], [121#8]], ¬ [44#8] <:+: t := by decide
      exact this t ht, by
      intro t ht i hi
      simp at ht
      rcases ht with rfl | rfl
      · have : i = 0 := by simp at hi; omega
        subst this
        simp [Csview.Spec.At]
      · simp at hi⟩ (by decide)

example : ∃ s1 s2 s3 o, joinN true ([44] ++ 0#8 :: []) [[120, 0]] empty = some s1 ∧ joinN true ([44] ++ 0#8 :: []) [[121, 0]] s1 = some s2 ∧
    joinN true ([44] ++ 0#8 :: []) [[120, 0], [121, 0]] empty = some s3 ∧ Reach s2 o ∧ Reach s3 o :=
  join_twice_partial Reach.init (sep := [44]) (j := []) (by decide) [([120], [])] [([121], [])] (by decide) (by decide)
    (Or.inr (by decide))

end Verif.Cstr.Join
