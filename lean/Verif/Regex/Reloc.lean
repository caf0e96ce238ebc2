import Verif.Regex.Comp
/-
C152: the program of a regular expression in memory, and its relocation when `_optimize` reallocates it
(/repo/include/stc/priv/cregex_prv.c 557-595).

Elsewhere in this model an instruction pointer is the number of the instruction and a class is part of its
instruction. Here a program is what the code has: a block at some address with pointers into itself. Addresses are
integers, as the code treats them (`intptr_t`, `(char*)p + diff`). Sizes are those of a 64-bit target.
-/
namespace Verif.Regex

/-- Instruction types (cregex_prv.c 112-186) without their operands. `TOK_STAR`, `TOK_PLUS` and `TOK_QUEST` are not
among them: the compiler emits `TOK_OR` for them (503-531). -/
inductive Ty
  | rune | irune | any | anynl | cclass | ncclass | lbra | rbra
  | bol | bos | eol | eos | eoz | wbound | nwbound | cased | icase | or | nop | fin
deriving DecidableEq, Repr

/-- `_Reclass` (cregex_prv.c 44-48): `end` and the memory of `spans`. -/
structure RClass where
  stop : Int
  runes : List Nat
deriving DecidableEq, Repr

/-- `_Reinst` (cregex_prv.c 54-68): the type and the words of the unions `r` and `l`. -/
structure RInst where
  ty : Ty
  r : Int
  l : Int
deriving DecidableEq, Repr

/-- `_Reprog` (cregex_prv.c 78-86). -/
structure RProg where
  start : Int
  icase : Bool
  classes : List RClass
  insts : List RInst
deriving DecidableEq, Repr

/-- `&pp->cclass[k]` for `pp` at `p`. -/
def addrC (p : Int) (k : Nat) : Int := p + 24 + 264 * k
/-- `&pp->firstinst[i]`: behind `_NCLASS` = 16 classes (cregex_prv.c 42, 84-85). -/
def addrI (p : Int) (i : Nat) : Int := p + 24 + 264 * 16 + 24 * i

/-! ### a program laid out at an address -/

def Op.ty : Op → Ty
  | .rune _ => .rune | .irune _ => .irune | .any => .any | .anynl => .anynl
  | .cls true _ => .ncclass | .cls false _ => .cclass
  | .lbra _ => .lbra | .rbra _ => .rbra
  | .bol => .bol | .bos => .bos | .eol => .eol | .eos => .eos | .eoz => .eoz | .wbound => .wbound | .nwbound => .nwbound
  | .cased => .cased | .icase => .icase | .or _ => .or | .nop => .nop | .fin => .fin

/-- Whether the instruction has a class. -/
def Op.hasCls : Op → Bool
  | .cls _ _ => true
  | _ => false

/-- The word in `r` (cregex_prv.c 398-406, 487-531); `k` classes were used by earlier instructions. -/
def Op.word (p : Int) (k : Nat) : Op → Int
  | .rune c | .irune c => c
  | .lbra n | .rbra n => n
  | .or x => addrI p x
  | .cls _ _ => addrC p k
  | _ => 0

/-- The word in `l`. -/
def ptrI (p : Int) : Option Nat → Int
  | none => 0
  | some n => addrI p n

/-- The runes of the spans. -/
def flat : List (Nat × Nat) → List Nat
  | [] => []
  | (a, b) :: r => a :: b :: flat r

/-- The instructions as the compiler writes them into the block. Classes are handed out in order (`_newclass`, 598-604)
and each is stored into the instruction emitted next (`_operand`, 390-410). -/
def layInsts (p : Int) : Nat → List Inst → List RInst
  | _, [] => []
  | k, i :: is => ⟨i.op.ty, i.op.word p k, ptrI p i.next⟩ ::
      layInsts p (if i.op.hasCls then k + 1 else k) is

/-- The classes; `spans` lies 8 bytes into a class and `end` points behind the last span (840-855). What is in the
memory behind it is arbitrary. -/
def layClasses (junk : Nat → List Nat) (p : Int) : Nat → List Inst → List RClass
  | _, [] => []
  | k, i :: is =>
    match i.op with
    | .cls _ sp => ⟨addrC p k + 8 + 4 * (flat sp).length, flat sp ++ junk k⟩ :: layClasses junk p (k + 1) is
    | _ => layClasses junk p k is

/-- The block of a program at `p`. -/
def lay (junk : Nat → List Nat) (p : Int) (P : Prog) : RProg :=
  ⟨addrI p P.start, P.icase, layClasses junk p 0 P.insts, layInsts p 0 P.insts⟩

/-! ### relocation -/

/-- The class an address of the block at `q` points to. -/
def classAt (q a : Int) : Option Nat :=
  if 0 ≤ a - (q + 24) ∧ (a - (q + 24)) % 264 = 0 then some ((a - (q + 24)) / 264).toNat else none

/-- `cl->end = (_Rune *)((char*)cl->end + diff)`, `none` if there is no such class. -/
def moveEnd (diff : Int) (cs : List RClass) (k : Nat) : Option (List RClass) :=
  (cs[k]?).map fun c => cs.set k { c with stop := c.stop + diff }

/-- The switch of the relocation loop (cregex_prv.c 575-588): the word `r` and the classes. -/
def moveR (diff q : Int) (cs : List RClass) (i : RInst) : Option (List RClass × Int) :=
  match i.ty with
  | .or => some (cs, i.r + diff)
  | .cclass | .ncclass => (classAt q (i.r + diff)).bind fun k => (moveEnd diff cs k).map fun cs => (cs, i.r + diff)
  | _ => some (cs, i.r)

/-- The relocation loop (cregex_prv.c 574-592). -/
def relocate (diff q : Int) : List RClass → List RInst → Option (List RClass × List RInst)
  | cs, [] => some (cs, [])
  | cs, i :: is =>
    (moveR diff q cs i).bind fun x =>
      (relocate diff q x.1 is).map fun y => (y.1, { i with r := x.2, l := if i.l ≠ 0 then i.l + diff else i.l } :: y.2)

/-- The second half of `_optimize` (cregex_prv.c 557-595) for a block at `p` that was allocated for `cap` instructions;
`ans` is the result of `i_realloc` with the smaller size, the contents of the block having been copied. The block
that is returned and its address. -/
def reallocProg (cap : Nat) (ans : Option Int) (p : Int) (b : RProg) : Option (Int × RProg) :=
  if b.insts.length * 2 > cap then some (p, b)
  else
    match ans with
    | none => some (p, b)
    | some q =>
      if q - p = 0 then some (p, b)
      else (relocate (q - p) q b.classes b.insts).map fun x => (q, { b with start := b.start + (q - p), classes := x.1, insts := x.2 })

/-! ### what the matcher sees -/

/-- The instruction an address of the block at `q` points to; nothing if it is not the address of an instruction. -/
def instAt (q a : Int) : Option Nat :=
  if 0 ≤ a - (q + 24 + 264 * 16) ∧ (a - (q + 24 + 264 * 16)) % 24 = 0 then some ((a - (q + 24 + 264 * 16)) / 24).toNat else none

/-- Runes two by two. -/
def pairs : List Nat → Option (List (Nat × Nat))
  | [] => some []
  | [_] => none
  | a :: b :: r => (pairs r).map ((a, b) :: ·)

/-- `for (p = inst->r.classp->spans; p < inst->r.classp->end; p += 2)` (cregex_prv.c 1121): the spans visited, `none`
if `end` is not a position in `spans`. -/
def spansAt (q : Int) (cs : List RClass) (a : Int) : Option (List (Nat × Nat)) :=
  (classAt q a).bind fun k => (cs[k]?).bind fun c =>
    let d := c.stop - (a + 8)
    if 0 ≤ d ∧ d % 4 = 0 ∧ (d / 4).toNat ≤ c.runes.length then pairs (c.runes.take (d / 4).toNat) else none

/-- An instruction as the matcher uses it (cregex_prv.c 1062-1160): `r` according to the type. -/
def seenOp (q : Int) (cs : List RClass) (i : RInst) : Option Op :=
  match i.ty with
  | .rune => some (.rune i.r.toNat) | .irune => some (.irune i.r.toNat)
  | .lbra => some (.lbra i.r.toNat) | .rbra => some (.rbra i.r.toNat)
  | .or => (instAt q i.r).map .or
  | .cclass => (spansAt q cs i.r).map (.cls false) | .ncclass => (spansAt q cs i.r).map (.cls true)
  | .any => some .any | .anynl => some .anynl | .bol => some .bol | .bos => some .bos | .eol => some .eol | .eos => some .eos
  | .eoz => some .eoz | .wbound => some .wbound | .nwbound => some .nwbound | .cased => some .cased | .icase => some .icase
  | .nop => some .nop | .fin => some .fin

/-- `l.next`. -/
def seenNext (q a : Int) : Option (Option Nat) := if a = 0 then some none else (instAt q a).map some

def seenInsts (q : Int) (cs : List RClass) : List RInst → Option (List Inst)
  | [] => some []
  | i :: is =>
    (seenOp q cs i).bind fun o => (seenNext q i.l).bind fun n => (seenInsts q cs is).map (⟨o, n⟩ :: ·)

/-- The program that the matcher executes when given the block at `q`. -/
def seen (q : Int) (b : RProg) : Option Prog :=
  (instAt q b.start).bind fun s => (seenInsts q b.classes b.insts).map fun is => ⟨is, s, b.icase⟩

/-! ### proofs -/

theorem classAt_addr (q : Int) (k : Nat) : classAt q (addrC q k) = some k := by
  unfold classAt addrC
  rw [if_pos (by omega)]
  congr 1
  omega

theorem instAt_addr (q : Int) (k : Nat) : instAt q (addrI q k) = some k := by
  unfold instAt addrI
  rw [if_pos (by omega)]
  congr 1
  omega

theorem pairs_flat : ∀ sp, pairs (flat sp) = some sp
  | [] => rfl
  | (a, b) :: r => by simp [flat, pairs, pairs_flat r]

theorem addrI_ne {q : Int} (h : 0 < q) (k : Nat) : addrI q k ≠ 0 := by unfold addrI; omega

theorem addrI_move (p q : Int) (k : Nat) : addrI p k + (q - p) = addrI q k := by unfold addrI; omega
theorem addrC_move (p q : Int) (k : Nat) : addrC p k + (q - p) = addrC q k := by unfold addrC; omega

theorem relocate_lay (junk : Nat → List Nat) {p q : Int} (hp : 0 < p) : ∀ (is : List Inst) (k : Nat) (pre : List RClass), pre.length = k →
    relocate (q - p) q (pre ++ layClasses junk p k is) (layInsts p k is) = some (pre ++ layClasses junk q k is, layInsts q k is)
  | [], k, pre, _ => rfl
  | ⟨o, n⟩ :: is, k, pre, hk => by
    have hl : (if ptrI p n ≠ 0 then ptrI p n + (q - p) else ptrI p n) = ptrI q n := by
      cases n with
      | none => rfl
      | some n => simp only [ptrI, ne_eq, addrI_ne hp, not_false_eq_true, if_true, addrI_move]
    cases o with
    | cls neg sp =>
      have hm : moveR (q - p) q (pre ++ layClasses junk p k (⟨.cls neg sp, n⟩ :: is)) ⟨(Op.cls neg sp).ty, (Op.cls neg sp).word p k, ptrI p n⟩
          = some (pre ++ ⟨addrC q k + 8 + 4 * (flat sp).length, flat sp ++ junk k⟩ :: layClasses junk p (k + 1) is, addrC q k) := by
        have : moveEnd (q - p) (pre ++ layClasses junk p k (⟨.cls neg sp, n⟩ :: is)) k
            = some (pre ++ ⟨addrC q k + 8 + 4 * (flat sp).length, flat sp ++ junk k⟩ :: layClasses junk p (k + 1) is) := by
          subst hk
          simp only [moveEnd, layClasses, List.getElem?_append_right (Nat.le_refl _), Nat.sub_self, List.getElem?_cons_zero, Option.map_some,
            List.set_append_right _ _ (Nat.le_refl _), List.set_cons_zero, Option.some.injEq, List.append_cancel_left_eq, List.cons.injEq, and_true,
            RClass.mk.injEq]
          unfold addrC; omega
        cases neg <;>
          simp only [moveR, Op.ty, Op.word, addrC_move, classAt_addr, Option.bind_some, this, Option.map_some]
      have ih := relocate_lay junk (q := q) hp is (k + 1) (pre ++ [⟨addrC q k + 8 + 4 * (flat sp).length, flat sp ++ junk k⟩]) (by simp [hk])
      simp only [List.append_assoc, List.singleton_append] at ih
      simp only [layInsts, relocate, hm, Option.bind_some, Op.hasCls, if_true, ih, Option.map_some, hl]
      rfl
    | or x =>
      have ih := relocate_lay junk (q := q) hp is k pre hk
      simp only [layInsts, relocate, moveR, Op.ty, Op.word, Option.bind_some, Op.hasCls, Bool.false_eq_true, if_false, ih, Option.map_some, layClasses, hl,
        addrI_move]
    | _ =>
      have ih := relocate_lay junk (q := q) hp is k pre hk
      simp only [layInsts, relocate, moveR, Op.ty, Op.word, Option.bind_some, Op.hasCls, Bool.false_eq_true, if_false, ih, Option.map_some, layClasses, hl]

theorem spansAt_lay {q : Int} {cs : List RClass} {k : Nat} {sp : List (Nat × Nat)} {j : List Nat}
    (h : cs[k]? = some ⟨addrC q k + 8 + 4 * (flat sp).length, flat sp ++ j⟩) : spansAt q cs (addrC q k) = some sp := by
  have e : (addrC q k + 8 + 4 * ((flat sp).length : Int) - (addrC q k + 8)) = 4 * ((flat sp).length : Int) := by omega
  have e2 : (4 * ((flat sp).length : Int) / 4).toNat = (flat sp).length := by omega
  simp only [spansAt, classAt_addr, Option.bind_some, h, e, e2]
  rw [if_pos (by refine ⟨by omega, by omega, by simp⟩)]
  simp [pairs_flat]

theorem seenInsts_lay (junk : Nat → List Nat) {q : Int} (hq : 0 < q) : ∀ (is : List Inst) (k : Nat) (pre : List RClass), pre.length = k →
    seenInsts q (pre ++ layClasses junk q k is) (layInsts q k is) = some is
  | [], _, _, _ => rfl
  | ⟨o, n⟩ :: is, k, pre, hk => by
    have hl : seenNext q (ptrI q n) = some n := by
      cases n with
      | none => rfl
      | some n => simp only [ptrI, seenNext, addrI_ne hq, if_false, instAt_addr, Option.map_some]
    cases o with
    | cls neg sp =>
      have ih := seenInsts_lay junk hq is (k + 1) (pre ++ [⟨addrC q k + 8 + 4 * (flat sp).length, flat sp ++ junk k⟩]) (by simp [hk])
      simp only [List.append_assoc, List.singleton_append] at ih
      have hs : spansAt q (pre ++ ⟨addrC q k + 8 + 4 * (flat sp).length, flat sp ++ junk k⟩ :: layClasses junk q (k + 1) is) (addrC q k) = some sp :=
        spansAt_lay (j := junk k) (by subst hk; simp)
      cases neg <;>
        simp only [layInsts, seenInsts, seenOp, Op.ty, Op.word, layClasses, hs, Option.map_some, Option.bind_some, hl, Op.hasCls, if_true, ih]
    | or x =>
      have ih := seenInsts_lay junk hq is k pre hk
      simp only [layInsts, seenInsts, seenOp, Op.ty, Op.word, layClasses, instAt_addr, Option.map_some, Option.bind_some, hl, Op.hasCls, Bool.false_eq_true,
        if_false, ih]
    | _ =>
      have ih := seenInsts_lay junk hq is k pre hk
      simp only [layInsts, seenInsts, seenOp, Op.ty, Op.word, layClasses, Option.map_some, Option.bind_some, hl, Op.hasCls, Bool.false_eq_true,
        if_false, ih, Int.toNat_natCast]

theorem seen_lay (junk : Nat → List Nat) {q : Int} (hq : 0 < q) (P : Prog) : seen q (lay junk q P) = some P := by
  have := seenInsts_lay junk hq P.insts 0 [] rfl
  simp only [List.nil_append] at this
  simp only [seen, lay, instAt_addr, Option.bind_some, this, Option.map_some]

/-- C152. Wherever the compiler's block lies, and whether the allocator refuses to shrink it, shrinks it in place or
moves it, the block returned has a program with the same meaning: the matcher finds the same instructions, the same
successors and alternatives, the same classes and the same start. No pointer of it refers to the old block. -/
theorem compiled_program_relocates (junk : Nat → List Nat) (cap : Nat) (ans : Option Int) {p : Int} (hp : 0 < p) (ha : ∀ q, ans = some q → 0 < q) (P : Prog) :
    ∃ q b, reallocProg cap ans p (lay junk p P) = some (q, b) ∧ seen q b = some P ∧
      (q = p ∨ ans = some q) ∧ (∀ q', ans = some q' → P.insts.length * 2 ≤ cap → q = q') := by
  have hlen : (layInsts p 0 P.insts).length = P.insts.length := by
    have : ∀ (is : List Inst) k, (layInsts p k is).length = is.length := by
      intro is
      induction is with
      | nil => intro k; rfl
      | cons i is ih => intro k; simp [layInsts, ih]
    exact this _ _
  unfold reallocProg
  simp only [show (lay junk p P).insts = layInsts p 0 P.insts from rfl, hlen]
  split
  · exact ⟨p, _, rfl, seen_lay junk hp P, .inl rfl, fun _ _ _ => by omega⟩
  · cases ans with
    | none => exact ⟨p, _, rfl, seen_lay junk hp P, .inl rfl, fun _ h => by cases h⟩
    | some q =>
      simp only
      split
      · exact ⟨p, _, rfl, seen_lay junk hp P, .inl rfl, fun q' h _ => by cases h; omega⟩
      · have h := relocate_lay junk (p := p) (q := q) hp P.insts 0 [] rfl
        simp only [List.nil_append] at h
        refine ⟨q, lay junk q P, ?_, seen_lay junk (ha q rfl) P, .inr rfl, fun q' h _ => by cases h; rfl⟩
        simp only [lay, h, Option.map_some, addrI_move]

/-- A program with a class, an alternative and a group. -/
def relocDemo : Prog := ⟨[⟨.cls true [(10, 10), (97, 99)], some 3⟩, ⟨.rune 98, some 3⟩, ⟨.cls false [(48, 57)], some 3⟩, ⟨.fin, none⟩, ⟨.or 0, some 5⟩, ⟨.lbra 1, some 2⟩], 4, false⟩

example : ∃ b, reallocProg 29 (some 0x9000) 0x1000 (lay (fun _ => [7]) 0x1000 relocDemo) = some (0x9000, b) ∧ b.start = addrI 0x9000 4 ∧
    b.classes.map (·.stop) = [0x9000 + 24 + 8 + 16, 0x9000 + 24 + 264 + 8 + 8] ∧ seen 0x9000 b = some relocDemo ∧ seen 0x1000 b ≠ some relocDemo :=
  ⟨lay (fun _ => [7]) 0x9000 relocDemo, by decide +kernel⟩

end Verif.Regex
