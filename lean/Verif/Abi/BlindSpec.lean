import Verif.Abi.Canon

/-!
# Lowering does not look at the guest's memory: what that means
-/

namespace Verif.Abi.Spec

/-- Two memories of the same size that agree at the addresses `K`; anything may be different elsewhere. -/
structure Twins (K : Nat → Prop) (m n : Mem) : Prop where
  len : m.len = n.len
  cap : m.cap = n.cap
  agree : ∀ x, K x → m.data x = n.data x

/-- The same was written to both memories: they still have the same size, and a byte is the same in both now, or is
what it was in each. -/
structure SameWrites (m n m' n' : Mem) : Prop where
  len : m'.len = n'.len
  cap : m'.cap = n'.cap
  data : ∀ x, m'.data x = n'.data x ∨ m'.data x = m.data x ∧ n'.data x = n.data x

/-- The allocator looks at no byte of memory outside `K`: it answers alike, ends in the same state and writes the same,
whatever the other bytes are. -/
def LooksAt {σ : Type} (E : Env σ) (K : Nat → Prop) : Prop :=
  ∀ a n m m' h, Twins K m m' → (E.realloc a n (m, h)).1 = (E.realloc a n (m', h)).1 ∧
    (E.realloc a n (m, h)).2.2 = (E.realloc a n (m', h)).2.2 ∧
    SameWrites m m' (E.realloc a n (m, h)).2.1 (E.realloc a n (m', h)).2.1

end Verif.Abi.Spec
