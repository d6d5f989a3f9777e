import Verif.Abi.AnyMemory
import Verif.Abi.CallMeansProps

/-!
# Types extended at their end (C150)

What is put at the end of the fields of a record, the types of a tuple or a union, the labels of flags or an enum, and the
cases of a variant.
-/

namespace Verif.Abi

/-- The fields of one record and then those of another. -/
def Fields.append : Fields → Fields → Fields
  | .nil, gs => gs
  | .cons l t fs, gs => .cons l t (fs.append gs)

/-- The cases of one variant and then those of another. -/
def Cases.append : Cases → Cases → Cases
  | .nil, ds => ds
  | .cons l t r cs, ds => .cons l t r (cs.append ds)

/-- The refinements the cases name. -/
def Cases.refined : Cases → List String
  | .nil => []
  | .cons _ _ r cs => r.toList ++ cs.refined

/-- The fields of one record and then those of another. -/
def VFields.append : VFields → VFields → VFields
  | .nil, gs => gs
  | .cons l t fs, gs => .cons l t (fs.append gs)

/-- The labels of the fields. -/
def VFields.names : VFields → List String
  | .nil => []
  | .cons l _ fs => l :: fs.names

/-- The cases of one variant and then those of another. -/
def VCases.append : VCases → VCases → VCases
  | .nil, ds => ds
  | .cons l t r cs, ds => .cons l t r (cs.append ds)

/-- The labels of the cases. -/
def VCases.names : VCases → List String
  | .nil => []
  | .cons l _ _ cs => l :: cs.names

/-- The refinements the cases name. -/
def VCases.refined : VCases → List String
  | .nil => []
  | .cons _ _ r cs => r.toList ++ cs.refined

/-- The types of one tuple and then those of another. -/
def VTys.append : VTys → VTys → VTys
  | .nil, us => us
  | .cons t ts, us => .cons t (ts.append us)

namespace Spec

/-- The alignment of what follows the discriminant. -/
def VCases.payloadAlign (cs : VCases) : Nat := alignCases cs.core

/-- The cases `ds` at the end leave the cases `cs` in their place: the discriminant has as many bytes as before, the
payloads begin where they began, and no new label is one an old case refines without there being such a case. -/
structure Extends (cs ds : VCases) : Prop where
  width : discBytes (cs.append ds).length = discBytes cs.length
  payload : VCases.payloadAlign (cs.append ds) = VCases.payloadAlign cs
  labels : ∀ r ∈ cs.refined, r ∈ ds.names → r ∈ cs.names

end Spec

end Verif.Abi
