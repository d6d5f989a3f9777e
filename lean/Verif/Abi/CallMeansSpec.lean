import Verif.Abi.FlatMeansSpec

/-!
# What the core values of a parameter list stand for
-/

namespace Verif.Abi.Spec

/-- The core values with the bits `bs` stand for the values, one for each type in order. -/
def FlatMeansAll (R : Reading) (enc : String) (m : Mem) : List Ty → List Nat → List Val → Prop
  | [], _, vs => vs = []
  | t :: ts, bs, vs => ∃ x vs', vs = x :: vs' ∧ FlatMeans R enc m t (bs.take (coreTypes t).length) x ∧
      FlatMeansAll R enc m ts (bs.drop (coreTypes t).length) vs'

/-- See `FlatOrderly`. -/
def FlatOrderlyAll (enc : String) (m : Mem) : List Ty → List Nat → Prop
  | [], _ => True
  | t :: ts, bs => FlatOrderly enc m t (bs.take (coreTypes t).length) ∧
      FlatOrderlyAll enc m ts (bs.drop (coreTypes t).length)

/-- The bytes at `p` stand for the values, one after the other, each aligned. -/
def MeansAll (R : Reading) (enc : String) (m : Mem) : List Ty → Nat → List Val → Prop
  | [], _, vs => vs = []
  | t :: ts, p, vs => ∃ x vs', vs = x :: vs' ∧ Means R enc m t (alignUp p (align t)) x ∧
      MeansAll R enc m ts (alignUp p (align t) + size t) vs'

end Verif.Abi.Spec
