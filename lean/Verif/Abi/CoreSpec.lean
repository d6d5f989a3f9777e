import Verif.Abi.LayoutSpec

/-!
# The core types of a component type

The flattening of the Canonical ABI, stated slot by slot, apart from the model of `FlattenType`.
-/

namespace Verif.Abi.Spec

/-- The core type of a slot that values of the given kinds share: theirs if they agree; one of 32 bits if all have 32
bits; one of 64 bits otherwise. -/
def slot (ks : List Kind) : Kind :=
  if ∀ k ∈ ks, ks.head? = some k then ks.headD .u32
  else if ∀ k ∈ ks, k = .u32 ∨ k = .f32 then .u32
  else .u64

/-- What the lists have at position `j`. -/
def column (kss : List (List Kind)) (j : Nat) : List Kind := kss.filterMap (·[j]?)

/-- The slots that several lists of kinds share, as many as the longest has. -/
def slots (kss : List (List Kind)) : List Kind :=
  (List.range ((kss.map List.length).foldr max 0)).map fun j => slot (column kss j)

mutual
/-- The core types by which a value of the type is passed: a number, character or handle by one, a string or list by
address and length, a record by those of its fields, a variant by the number of the case and the slots its payloads
share, flags by words of 32 bits. -/
def coreTypes : Ty → List Kind
  | .bool | .u8 | .u16 | .u32 | .s8 | .s16 | .s32 | .char | .own _ | .borrow _ => [.u32]
  | .u64 | .s64 => [.u64]
  | .f32 => [.f32]
  | .f64 => [.f64]
  | .string | .list _ => [.u32, .u32]
  | .record fs => coreFields fs
  | .variant cs => .u32 :: slots (coreCases cs)
  | .flags ls => List.replicate ((ls.length + 31) / 32) .u32
  | .nil | .other => []
/-- Those of the fields, one after the other. -/
def coreFields : Fields → List Kind
  | .nil => []
  | .cons _ t fs => coreTypes t ++ coreFields fs
/-- Those of each payload; none for a case without payload. -/
def coreCases : Cases → List (List Kind)
  | .nil => []
  | .cons _ t _ cs => coreTypes t :: coreCases cs
end

mutual
/-- Flags have fewer than `2^37` labels. -/
def FewLabels : Ty → Prop
  | .list t => FewLabels t
  | .record fs => FewLabelsFields fs
  | .variant cs => FewLabelsCases cs
  | .flags ls => ls.length < 2 ^ 37 - 31
  | _ => True
def FewLabelsFields : Fields → Prop
  | .nil => True
  | .cons _ t fs => FewLabels t ∧ FewLabelsFields fs
def FewLabelsCases : Cases → Prop
  | .nil => True
  | .cons _ t _ cs => FewLabels t ∧ FewLabelsCases cs
end

end Verif.Abi.Spec
