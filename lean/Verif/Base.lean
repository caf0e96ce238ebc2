/-
Checked memory blocks shared by the container models.

A heap block holding `n` elements is a list of `n` slots.  A slot is `none` while it does
not hold a live element (freshly allocated, already destroyed) and `some x` otherwise.
Every access is checked: an access outside the block or a read of a dead slot gives
`none`, which stands for *undefined behaviour* throughout the development.
-/
namespace Verif

@[simp] theorem guard_true' {inst : Decidable True} : (@guard Option _ True inst) = some () := by
  simp [guard]

@[simp] theorem guard_false' {inst : Decidable False} : (@guard Option _ False inst) = none := by
  simp [guard]; rfl

theorem guard_pos {p : Prop} [Decidable p] (h : p) : (guard p : Option Unit) = some () := by
  simp [guard, h]

/-- A block of slots. -/
abbrev Buf (α : Type _) := List (Option α)

namespace Buf
variable {α : Type _}

/-- `data[i]` as an rvalue: in range and live, else undefined behaviour. -/
def rd (b : Buf α) (i : Nat) : Option α := (b[i]?).join

/-- `data[i] = x`: in range, else undefined behaviour. -/
def wr (b : Buf α) (i : Nat) (x : α) : Option (Buf α) :=
  if i < b.length then some (b.set i (some x)) else none

/-- Take the live element out of slot `i` (destructor call or move-out); the slot is dead
afterwards, so that a second destruction or a later use is undefined behaviour. -/
def kill (b : Buf α) (i : Nat) : Option (α × Buf α) :=
  (rd b i).map fun x => (x, b.set i none)

/-- `memmove(data + dst, data + src, n * sizeof *data)`; both ranges must be inside the
block. The bits left behind in source slots that are not overwritten no longer own an
element, so these slots become dead. -/
def move (b : Buf α) (dst src n : Nat) : Option (Buf α) :=
  if dst + n ≤ b.length ∧ src + n ≤ b.length then
    let hole := b.take src ++ List.replicate n none ++ b.drop (src + n)
    some (hole.take dst ++ (b.drop src).take n ++ hole.drop (dst + n))
  else none

/-- `memcpy` inside one block: like `memmove`, but overlapping ranges are undefined. -/
def copyIn (b : Buf α) (dst src n : Nat) : Option (Buf α) :=
  if dst + n ≤ src ∨ src + n ≤ dst then move b dst src n else none

/-- `memcpy(data + dst, arr, n * sizeof *arr)` from an array of live elements outside the
block. -/
def cpy (b : Buf α) (dst : Nat) (arr : List α) : Option (Buf α) :=
  if dst + arr.length ≤ b.length then
    some (b.take dst ++ arr.map some ++ b.drop (dst + arr.length))
  else none

/-- `realloc` to `n` slots: the common prefix is kept, new slots are dead. -/
def realloc (b : Buf α) (n : Nat) : Buf α :=
  b.take n ++ List.replicate (n - b.length) none

@[simp] theorem length_realloc (b : Buf α) (n : Nat) : (realloc b n).length = n := by
  simp [realloc]; omega

theorem take_realloc (b : Buf α) {n m : Nat} (h : m ≤ n) (h' : m ≤ b.length) :
    (realloc b n).take m = b.take m := by
  simp only [realloc, List.take_append, List.take_take, List.take_replicate,
    List.length_take]
  have h1 : min m n = m := by omega
  have h2 : m - min n b.length = 0 := by omega
  simp [h1, h2]

theorem rd_of_take {b : Buf α} {l : List α} {n : Nat} (h : b.take n = l.map some)
    {i : Nat} (hi : i < l.length) : rd b i = l[i]? := by
  have hn : i < n := by
    have := congrArg List.length h
    simp at this; omega
  have : (b.take n)[i]? = b[i]? := by simp [hn]
  rw [rd, ← this, h]
  simp [hi]

theorem getElem?_move {b b' : Buf α} {dst src n : Nat} (h : b.move dst src n = some b') (p : Nat) :
    b'[p]? = if dst ≤ p ∧ p < dst + n then b[src + (p - dst)]?
      else if src ≤ p ∧ p < src + n then some none else b[p]? := by
  unfold move at h
  split at h
  · rename_i hb
    simp only [Option.some.injEq] at h
    subst h
    have hl : (b.take src ++ List.replicate n none ++ b.drop (src + n)).length = b.length := by
      simp; omega
    have hole : ∀ q, (b.take src ++ List.replicate n none ++ b.drop (src + n))[q]? =
        if src ≤ q ∧ q < src + n then some none else b[q]? := by
      intro q
      have h1 : (b.take src).length = src := by simp; omega
      have h2 : (b.take src ++ List.replicate n (none : Option α)).length = src + n := by simp; omega
      by_cases hq1 : q < src
      · rw [List.append_assoc, List.getElem?_append_left (by omega), List.getElem?_take_of_lt hq1,
          if_neg (by omega)]
      · by_cases hq2 : q < src + n
        · rw [List.getElem?_append_left (by omega), List.getElem?_append_right (by omega), if_pos (by omega),
            List.getElem?_replicate, if_pos (by omega)]
        · rw [List.getElem?_append_right (by omega), if_neg (by omega), List.getElem?_drop]
          congr 1; omega
    generalize (b.take src ++ List.replicate n none ++ b.drop (src + n)) = c at hole hl
    have h1 : (c.take dst).length = dst := by simp; omega
    have h2 : (c.take dst ++ (b.drop src).take n).length = dst + n := by simp; omega
    by_cases hp1 : p < dst
    · rw [List.append_assoc, List.getElem?_append_left (by omega), List.getElem?_take_of_lt hp1, hole,
        if_neg (c := dst ≤ p ∧ p < dst + n) (by omega)]
    · by_cases hp2 : p < dst + n
      · rw [List.getElem?_append_left (by omega), List.getElem?_append_right (by omega),
          if_pos (c := dst ≤ p ∧ p < dst + n) (by omega), List.getElem?_take_of_lt (by omega),
          List.getElem?_drop]
        congr 1; omega
      · rw [List.getElem?_append_right (by omega), List.getElem?_drop,
          if_neg (c := dst ≤ p ∧ p < dst + n) (by omega), h2]
        have : dst + n + (p - (dst + n)) = p := by omega
        rw [this, hole]
  · simp at h

theorem length_move {b b' : Buf α} {dst src n : Nat} (h : b.move dst src n = some b') :
    b'.length = b.length := by
  unfold move at h
  split at h
  · simp only [Option.some.injEq] at h
    subst h
    simp; omega
  · simp at h

theorem move_isSome {b : Buf α} {dst src n : Nat} (h1 : dst + n ≤ b.length) (h2 : src + n ≤ b.length) :
    ∃ b', b.move dst src n = some b' := ⟨_, by rw [move, if_pos ⟨h1, h2⟩]⟩

end Buf
end Verif
