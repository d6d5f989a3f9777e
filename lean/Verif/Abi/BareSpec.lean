import Verif.Abi.HandleSpec

/-!
# Values with handles, and the same values with the indices of the handles instead

In memory, and among core values, a handle is the number of its place in the table of its instance: a `u32` like any
other. What the bytes or core values of a type with handles stand for is said in two steps: as a value of the type with
`u32` instead of the handles, and then by what is found in the table at these numbers.
-/

namespace Verif.Abi.Spec

mutual
/-- The type with `u32` in place of every handle. -/
def bare : Ty → Ty
  | .own _ => .u32
  | .borrow _ => .u32
  | .list t => .list (bare t)
  | .record fs => .record (bareFields fs)
  | .variant cs => .variant (bareCases cs)
  | t => t
/-- In every field. -/
def bareFields : Fields → Fields
  | .nil => .nil
  | .cons l t fs => .cons l (bare t) (bareFields fs)
/-- In every payload. -/
def bareCases : Cases → Cases
  | .nil => .nil
  | .cons l t r cs => .cons l (bare t) r (bareCases cs)
end

/-- Two lists, element by element; what is listed along with the elements is put one after the other. -/
def Each (R : Val → Val → List Held → List U32 → Prop) : List Val → List Val → List Held → List U32 → Prop
  | [], [], hs, is => hs = [] ∧ is = []
  | x :: xs, y :: ys, hs, is => ∃ h1 h2 i1 i2, R x y h1 i1 ∧ Each R xs ys h2 i2 ∧ hs = h1 ++ h2 ∧ is = i1 ++ i2
  | _, _, _, _ => False

mutual
/-- `w` is `v` but for the handles in it, from left to right `hs`: it has the numbers `is` instead. -/
def Swapped : Ty → Val → Val → List Held → List U32 → Prop
  | .own rt, v, w, hs, is => ∃ x i, v = .u32 x ∧ w = .u32 i ∧ hs = [⟨true, rt, x⟩] ∧ is = [i]
  | .borrow rt, v, w, hs, is => ∃ x i, v = .u32 x ∧ w = .u32 i ∧ hs = [⟨false, rt, x⟩] ∧ is = [i]
  | .list t, v, w, hs, is => ∃ xs ys, v = .list xs ∧ w = .list ys ∧ Each (fun a b h i => Swapped t a b h i) xs ys hs is
  | .record fs, v, w, hs, is => ∃ es ds, v = .map es ∧ w = .map ds ∧ SwappedFields fs es ds hs is
  | .variant cs, v, w, hs, is => ∃ key x y i, v = .map [(key, x)] ∧ w = .map [(key, y)] ∧ Selects cs key i ∧
      SwappedPayload cs i x y hs is
  | _, v, w, hs, is => v = w ∧ hs = [] ∧ is = []
/-- Entry by entry, one for each field in order. -/
def SwappedFields : Fields → List (String × Val) → List (String × Val) → List Held → List U32 → Prop
  | .nil, es, ds, hs, is => es = [] ∧ ds = [] ∧ hs = [] ∧ is = []
  | .cons l t fs, es, ds, hs, is => ∃ x y es' ds' h1 h2 i1 i2, es = (l, x) :: es' ∧ ds = (l, y) :: ds' ∧
      Swapped t x y h1 i1 ∧ SwappedFields fs es' ds' h2 i2 ∧ hs = h1 ++ h2 ∧ is = i1 ++ i2
/-- The payload of the `i`-th case. -/
def SwappedPayload : Cases → Nat → Val → Val → List Held → List U32 → Prop
  | .nil, _, _, _, _, _ => False
  | .cons _ t _ _, 0, x, y, hs, is => (t = .nil ∧ x = y ∧ hs = [] ∧ is = []) ∨ (t ≠ .nil ∧ Swapped t x y hs is)
  | .cons _ _ _ cs, i + 1, x, y, hs, is => SwappedPayload cs i x y hs is
end

/-- The values of a parameter list, one for each type in order. -/
def SwappedAll : List Ty → List Val → List Val → List Held → List U32 → Prop
  | [], vs, ws, hs, is => vs = [] ∧ ws = [] ∧ hs = [] ∧ is = []
  | t :: ts, vs, ws, hs, is => ∃ x y vs' ws' h1 h2 i1 i2, vs = x :: vs' ∧ ws = y :: ws' ∧
      Swapped t x y h1 i1 ∧ SwappedAll ts vs' ws' h2 i2 ∧ hs = h1 ++ h2 ∧ is = i1 ++ i2

end Verif.Abi.Spec
