import Verif.Abi.Load

/-!
# How much a value holds, and how much a type lets it hold
-/

namespace Verif.Abi.Spec

mutual
/-- The number of values in a value, itself included, and of the characters of its strings. -/
def weight : Val → Nat
  | .str s => 1 + s.length
  | .list vs => 1 + weightList vs
  | .map es => 1 + weightMap es
  | _ => 1
/-- Over a list. -/
def weightList : List Val → Nat
  | [] => 0
  | v :: vs => weight v + weightList vs
/-- Over the entries of a map. -/
def weightMap : List (String × Val) → Nat
  | [] => 0
  | (_, v) :: es => weight v + weightMap es
end

mutual
/-- The number of types in a type, itself and the labels of flags included; a case without payload counts as one. -/
def parts : Ty → Nat
  | .list t => 1 + parts t
  | .record fs => 1 + partsFields fs
  | .variant cs => 1 + partsCases cs
  | .flags ls => 1 + ls.length
  | _ => 1
/-- Over fields. -/
def partsFields : Fields → Nat
  | .nil => 0
  | .cons _ t fs => parts t + partsFields fs
/-- Over cases. -/
def partsCases : Cases → Nat
  | .nil => 0
  | .cons _ t _ cs => parts t + partsCases cs
end

mutual
/-- How deep lists and strings lie within each other. -/
def nesting : Ty → Nat
  | .string => 1
  | .list t => 1 + nesting t
  | .record fs => nestingFields fs
  | .variant cs => nestingCases cs
  | _ => 0
/-- Over fields. -/
def nestingFields : Fields → Nat
  | .nil => 0
  | .cons _ t fs => max (nesting t) (nestingFields fs)
/-- Over cases. -/
def nestingCases : Cases → Nat
  | .nil => 0
  | .cons _ t _ cs => max (nesting t) (nestingCases cs)
end

mutual
/-- The elements of every list in the type take up at least one byte, and fewer than the addresses beyond the memory's
`cap` bytes. -/
def Sized (cap : Nat) : Ty → Prop
  | .list t => (∃ z, size t = .ok z ∧ 0 < z.toNat ∧ cap + z.toNat ≤ 2 ^ 32) ∧ Sized cap t
  | .record fs => SizedFields cap fs
  | .variant cs => SizedCases cap cs
  | _ => True
/-- Over fields. -/
def SizedFields (cap : Nat) : Fields → Prop
  | .nil => True
  | .cons _ t fs => Sized cap t ∧ SizedFields cap fs
/-- Over cases. -/
def SizedCases (cap : Nat) : Cases → Prop
  | .nil => True
  | .cons _ t _ cs => Sized cap t ∧ SizedCases cap cs
end

/-- At most so much: `parts t` times `cap + 1` for every level of lists and strings. -/
def bound (cap : Nat) (t : Ty) : Nat := parts t * (cap + 1) ^ nesting t

end Verif.Abi.Spec
