import Verif.Handles.Props

/-!
# Histories of operations on handles
-/

namespace Verif.Handles
open Verif.Abi (RT)

/-- The world after some operations. -/
def World.then (info : RTInfo) (w : World) : List Op → World
  | [] => w
  | op :: ops => World.then info (step info w op).2 ops

/-- A call that has been ended is not used afterwards. -/
def NoneAfterExit (ops : List Op) : Prop := ∀ l c r, ops = l ++ .exit c :: r → ∀ op ∈ r, op.ctx ≠ some c

/-- The instance whose handles an operation is about. -/
def Op.inst : Op → Option InstId
  | .new inst _ _ | .rep inst _ _ | .drop inst _ _ | .liftOwn inst _ _ | .liftBorrow inst _ _ _ | .lowerOwn inst _ _
  | .lowerBorrow inst _ _ _ => some inst
  | _ => none

/-- All is the same but for which instances may be left. -/
def SameHandles (w w' : World) : Prop := ∃ f, w' = { w with mayLeave := f }

/-- The call has lent nothing, holds nothing, and no handle is its own. -/
structure World.Fresh (w : World) (c : CtxId) : Prop where
  empty : w.ctxs c = ⟨[], 0⟩
  scope : ∀ e, (w.elems e).scope ≠ some c

end Verif.Handles
