import Verif.Go.Basic

/-!
# Component value types

`VT` is what a user of `abi/types` can build. `Ty` is the same without the specialised types: the ABI code
expands a specialised type each time it meets one; the model expands all levels at once (`VT.core`) and then
works on `Ty`. `Surface.lean` proves that the functions on `VT` satisfy the equations the code is written
with (expand the outermost level, then switch on the result).
-/

namespace Verif.Abi

/-- Identity of a `types.ResourceType` (a Go pointer). -/
abbrev RT := Nat

mutual
/-- `types.ValType` after expansion of specialised types. `nil` is the nil interface (a case without
payload); `other` is any type the ABI switches do not mention (for instance a stream).
-- models abi/types/*.go constructors -/
inductive Ty where
  | nil
  | bool
  | u8 | u16 | u32 | u64
  | s8 | s16 | s32 | s64
  | f32 | f64
  | char
  | string
  | list (t : Ty)
  | record (fs : Fields)
  | variant (cs : Cases)
  | flags (labels : List String)
  | own (rt : RT)
  | borrow (rt : RT)
  | other
  deriving DecidableEq

/-- `[]types.Field`.
-- models abi/types/record.go:3-6 -/
inductive Fields where
  | nil
  | cons (label : String) (t : Ty) (rest : Fields)
  deriving DecidableEq

/-- `[]types.Case`; `refines` is the optional label of the refined case.
-- models abi/types/variant.go:22-26 -/
inductive Cases where
  | nil
  | cons (label : String) (t : Ty) (refines : Option String) (rest : Cases)
  deriving DecidableEq
end

mutual
/-- `types.ValType` as built by its constructors.
-- models abi/types/*.go constructors -/
inductive VT where
  | nil
  | bool
  | u8 | u16 | u32 | u64
  | s8 | s16 | s32 | s64
  | f32 | f64
  | char
  | string
  | list (t : VT)
  | record (fs : VFields)
  | variant (cs : VCases)
  | flags (labels : List String)
  | own (rt : RT)
  | borrow (rt : RT)
  | tuple (ts : VTys)
  | union (ts : VTys)
  | enum (labels : List String)
  | option (t : VT)
  | result (ok error : VT)
  | other

/-- `[]types.Field`.
-- models abi/types/record.go:3-6 -/
inductive VFields where
  | nil
  | cons (label : String) (t : VT) (rest : VFields)

/-- `[]types.Case`.
-- models abi/types/variant.go:22-26 -/
inductive VCases where
  | nil
  | cons (label : String) (t : VT) (refines : Option String) (rest : VCases)

/-- `[]types.ValType`.
-- models abi/types/tuple.go:9-12, union.go:9-12 -/
inductive VTys where
  | nil
  | cons (t : VT) (rest : VTys)
end

/-- The fields built for a tuple: the position in decimal, then the type. `Nat.repr` is `strconv.Itoa`.
-- models abi/io/despecialize.go:13-18 -/
def tupleFields (i : Nat) : VTys → VFields
  | .nil => .nil
  | .cons t ts => .cons (Nat.repr i) t (tupleFields (i + 1) ts)

/-- The cases built for a union.
-- models abi/io/despecialize.go:22-24 -/
def unionCases (i : Nat) : VTys → VCases
  | .nil => .nil
  | .cons t ts => .cons (Nat.repr i) t none (unionCases (i + 1) ts)

/-- The cases built for an enum.
-- models abi/io/despecialize.go:28-30 -/
def enumCases : List String → VCases
  | [] => .nil
  | l :: ls => .cons l .nil none (enumCases ls)

/-- `io.Despecialize`.
-- models abi/io/despecialize.go:9-55 -/
def despecialize : VT → VT
  | .tuple ts => .record (tupleFields 0 ts)
  | .union ts => .variant (unionCases 0 ts)
  | .enum ls => .variant (enumCases ls)
  | .option t => .variant (.cons "none" .nil none (.cons "some" t none .nil))
  | .result ok error => .variant (.cons "ok" ok none (.cons "error" error none .nil))
  | t => t

/-- Cases of an expanded enum.
-- models abi/io/despecialize.go:26-32 -/
def coreEnum : List String → Cases
  | [] => .nil
  | l :: ls => .cons l .nil none (coreEnum ls)

mutual
/-- Expansion of every specialised type at every level.
-- models abi/io/despecialize.go:9-55, applied at each level by the first line of `Alignment`, `Size`,
`FlattenType`, `Store`, `Load`, `LowerFlat` and `LiftFlat`. -/
def VT.core : VT → Ty
  | .nil => .nil
  | .bool => .bool
  | .u8 => .u8
  | .u16 => .u16
  | .u32 => .u32
  | .u64 => .u64
  | .s8 => .s8
  | .s16 => .s16
  | .s32 => .s32
  | .s64 => .s64
  | .f32 => .f32
  | .f64 => .f64
  | .char => .char
  | .string => .string
  | .list t => .list t.core
  | .record fs => .record fs.core
  | .variant cs => .variant cs.core
  | .flags ls => .flags ls
  | .own rt => .own rt
  | .borrow rt => .borrow rt
  | .tuple ts => .record (VTys.fields 0 ts)
  | .union ts => .variant (VTys.cases 0 ts)
  | .enum ls => .variant (coreEnum ls)
  | .option t => .variant (.cons "none" .nil none (.cons "some" t.core none .nil))
  | .result ok error => .variant (.cons "ok" ok.core none (.cons "error" error.core none .nil))
  | .other => .other
/-- Expansion inside fields.
-- models abi/io/despecialize.go:9-55 -/
def VFields.core : VFields → Fields
  | .nil => .nil
  | .cons l t fs => .cons l t.core fs.core
/-- Expansion inside cases.
-- models abi/io/despecialize.go:9-55 -/
def VCases.core : VCases → Cases
  | .nil => .nil
  | .cons l t r cs => .cons l t.core r cs.core
/-- Expanded fields of a tuple.
-- models abi/io/despecialize.go:13-18 -/
def VTys.fields (i : Nat) : VTys → Fields
  | .nil => .nil
  | .cons t ts => .cons (Nat.repr i) t.core (VTys.fields (i + 1) ts)
/-- Expanded cases of a union.
-- models abi/io/despecialize.go:22-24 -/
def VTys.cases (i : Nat) : VTys → Cases
  | .nil => .nil
  | .cons t ts => .cons (Nat.repr i) t.core none (VTys.cases (i + 1) ts)
end

/-- `len(v.Cases())`.
-- models abi/types/variant.go:15-17 -/
def Cases.length : Cases → Nat
  | .nil => 0
  | .cons _ _ _ cs => cs.length + 1

/-- Labels of the cases, in order. -/
def Cases.labels : Cases → List String
  | .nil => []
  | .cons l _ _ cs => l :: cs.labels

/-- Labels of the fields, in order. -/
def Fields.labels : Fields → List String
  | .nil => []
  | .cons l _ fs => l :: fs.labels

/-- Types of the fields, in order. -/
def Fields.types : Fields → List Ty
  | .nil => []
  | .cons _ t fs => t :: fs.types

/-- Types of the cases, in order; `nil` for a case without payload. -/
def Cases.types : Cases → List Ty
  | .nil => []
  | .cons _ t _ cs => t :: cs.types

end Verif.Abi
