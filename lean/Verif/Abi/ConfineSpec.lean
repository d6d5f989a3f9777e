import Verif.Abi.BlindSpec

/-!
# What a call may depend on
-/

namespace Verif.Abi.Spec

variable {σ : Type}

/-- Two systems that are the same but for the memories and allocators of the instances in `P`. -/
structure AlikeBut (P : Nat → Prop) (s s' : Sys σ) : Prop where
  world : s.world = s'.world
  mems : ∀ k, ¬ P k → s.mems k = s'.mems k
  heaps : ∀ k, ¬ P k → s.heaps k = s'.heaps k

/-- Whatever the memories and allocators of the instances in `P` are, the outcome is the same, and so is the system
afterwards, but for those memories and allocators. -/
def DependsNotOn (P : Nat → Prop) {α : Type} (m : SM (Sys σ) α) : Prop :=
  ∀ s s', AlikeBut P s s' → (m s).1 = (m s').1 ∧ AlikeBut P (m s).2 (m s').2

/-- Two systems that are the same but for the bytes behind the options `o`, of which those in `K` are the same too. -/
structure AlikeButBytes (o : Nat) (K : Nat → Prop) (s s' : Sys σ) : Prop where
  world : s.world = s'.world
  heaps : s.heaps = s'.heaps
  mems : ∀ k, k ≠ o → s.mems k = s'.mems k
  own : Twins K (s.mems o) (s'.mems o)

/-- Whatever function `g` it is given, `call g` calls it once, on `a` in the state `u`, and then does `k` with what it
returned. -/
def CallsOnce {α β γ : Type} (call : (α → SM (Sys σ) β) → Res γ × Sys σ) (a : α) (u : Sys σ) (k : β → SM (Sys σ) γ) : Prop :=
  ∀ g, call g = (g a >>= k) u

/-- A call from one component to another: `CanonLower` on the caller's side around `CanonLift` on the called side around
the core function `f`. -/
structure CompCall (σ : Type) where
  A : Side σ
  B : Side σ
  ord : List (String × Val) → List (String × Val)
  ord' : List (String × Val) → List (String × Val)
  f : List Core → SM (Sys σ) (Option (List Core))
  imp : Bool
  ft : FuncTy
  flat : List Core
  mpA : Nat
  mrA : Nat
  mpB : Nat
  mrB : Nat

/-- Making the call. -/
def CompCall.run (c : CompCall σ) : SM (Sys σ) (List Core) :=
  canonLower c.A c.ord (fun xs => canonLift c.B c.ord' c.f c.ft xs c.mpB c.mrB) c.imp c.ft c.flat c.mpA c.mrA

/-- One call after the other, whatever comes of each: all the outcomes, and the system at the end. -/
def callAll : List (CompCall σ) → Sys σ → List (Res (List Core)) × Sys σ
  | [], s => ([], s)
  | c :: cs, s => ((c.run s).1 :: (callAll cs (c.run s).2).1, (callAll cs (c.run s).2).2)

/-- Neither side of the call is in `P`, and the code it runs depends on nothing in `P`. -/
structure CompCall.Avoids (c : CompCall σ) (P : Nat → Prop) : Prop where
  caller : ¬ P c.A.o
  called : ¬ P c.B.o
  code : ∀ fs, DependsNotOn P (c.f fs)
  post : ∀ p, c.B.post = some p → DependsNotOn P p

end Verif.Abi.Spec
