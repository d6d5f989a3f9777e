import Verif.Abi.ValueSpec
import Verif.Abi.Canon

/-!
# What a call may write
-/

namespace Verif.Abi.Spec

variable {σ : Type}

/-- No memory and no allocator has changed. -/
structure SameMemories (s s' : Sys σ) : Prop where
  mems : s'.mems = s.mems
  heaps : s'.heaps = s.heaps

/-- No memory and no allocator has changed but those behind the options `o`. -/
structure Elsewhere (o : Nat) (s s' : Sys σ) : Prop where
  mems : ∀ k, k ≠ o → s'.mems k = s.mems k
  heaps : ∀ k, k ≠ o → s'.heaps k = s.heaps k

/-- Behind the options `o`, the bytes that were in use are as they were and still in use, and the memory has not
shrunk. -/
structure Kept (used : σ → Nat → Prop) (o : Nat) (s s' : Sys σ) : Prop where
  bytes : ∀ x, used (s.heaps o) x → used (s'.heaps o) x ∧ (s'.mems o).data x = (s.mems o).data x
  grows : (s.mems o).len ≤ (s'.mems o).len

/-- The lists in the values fit in a 32-bit memory. -/
def FitEach (ts : List Ty) (vs : List Val) : Prop :=
  ∀ (i : Nat) (t : Ty) (v : Val), ts[i]? = some t → vs[i]? = some v → ListsFit t v

/-- A function with some effect on the system: `call f` runs it on the argument `a` in the state `u`, if at all, and not
otherwise. -/
def OnlyCalls {α β γ : Type} (call : (α → SM (Sys σ) β) → Res γ × Sys σ) (f : α → SM (Sys σ) β) (a : α) (u : Sys σ) : Prop :=
  ∀ g, g a u = f a u → call g = call f

end Verif.Abi.Spec
