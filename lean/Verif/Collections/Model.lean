import Verif.Go.SM

/-!
# Model of `internal/collections` and `internal/collections/stack`

The stack functions work on Go slices, which share their arrays. So the model has the arrays: a slice is an array, a
length and a capacity (slices here always begin at the start of the array).
-/

namespace Verif.Collections

variable {α β S : Type}

/-- `collections.Select`. The transform may change a state, which is how its calls can be observed.
-- models internal/collections/select.go:3-13 -/
def select (f : α → SM S β) : List α → SM S (List β)
  | [] => pure []
  | x :: xs => do
    let y ← f x
    let ys ← select f xs
    pure (y :: ys)

/-- The arrays: how many there are, and the elements of each. -/
structure Heap (α : Type) where
  count : Nat
  cell : Nat → Nat → α

/-- A slice `array[:len:cap]`; `cap` is 0 for a nil slice. -/
structure Slice where
  array : Nat
  len : Nat
  cap : Nat
  deriving DecidableEq, Repr

/-- The elements a slice shows. -/
def Heap.view (h : Heap α) (s : Slice) : List α := (List.range s.len).map (h.cell s.array)

/-- Go's `append(s, x)`: in place when there is room, else in a new array whose capacity `grow (len + 1)` is up to the
run-time system, but at least what is needed.
-- models the built-in `append` -/
def append (grow : Nat → Nat) (h : Heap α) (s : Slice) (x : α) : Heap α × Slice :=
  if s.len < s.cap then
    ({ h with cell := fun a i => if a = s.array ∧ i = s.len then x else h.cell a i }, { s with len := s.len + 1 })
  else
    (⟨h.count + 1, fun a i => if a = h.count then (if i = s.len then x else h.cell s.array i) else h.cell a i⟩,
     ⟨h.count, s.len + 1, max (grow (s.len + 1)) (s.len + 1)⟩)

/-- `stack.Push`.
-- models internal/collections/stack/stack.go:5-7 -/
def push (grow : Nat → Nat) (h : Heap α) (s : Slice) (x : α) : Heap α × Slice := append grow h s x

/-- `stack.Pop`: the shorter slice and the element, `none` for a false result.
-- models internal/collections/stack/stack.go:12-19 -/
def pop (h : Heap α) (s : Slice) : Slice × Option α :=
  if s.len = 0 then (s, none) else ({ s with len := s.len - 1 }, some (h.cell s.array (s.len - 1)))

end Verif.Collections
