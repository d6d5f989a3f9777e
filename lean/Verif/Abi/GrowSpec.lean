import Verif.Abi.ConfineSpec

/-!
# What it means that a memory has grown (C148)
-/

namespace Verif.Abi.Spec

variable {σ : Type}

/-- The second memory is the first one grown: at least as long, with at least as much room behind, shorter than `2 ^ 32`
bytes, and with the same bytes wherever the first one has room. -/
structure Grown (m m' : Mem) : Prop where
  len : m.len ≤ m'.len
  cap : m.cap ≤ m'.cap
  small : m'.len < 2 ^ 32
  data : ∀ x < m.cap, m'.data x = m.data x

/-- The same state, with a memory that has grown. -/
structure GrownSt (s u : St σ) : Prop where
  mem : Grown s.mem u.mem
  heap : u.heap = s.heap
  world : u.world = s.world

/-- The same state, with a memory that has grown, and the same iterator. -/
structure GrownLSt (s u : LSt σ) : Prop where
  st : GrownSt s.st u.st
  it : u.it = s.it

/-- The same system, with memories that have grown. -/
structure GrownSys (s u : Sys σ) : Prop where
  mems : ∀ k, Grown (s.mems k) (u.mems k)
  heaps : u.heaps = s.heaps
  world : u.world = s.world

/-- What succeeds in one state succeeds with the same result in every related one, and leaves related states. -/
def GoesOn {S α : Type} (R : S → S → Prop) (f : SM S α) : Prop :=
  ∀ s u, R s u → ∀ a s1, f s = (.ok a, s1) → ∃ u1, f u = (.ok a, u1) ∧ R s1 u1

/-- An allocator to which more memory does no harm: what it grants in a memory it grants in the memory grown, at the same
address and with the same idea of what is in use afterwards. -/
def Unharmed (E : Env σ) : Prop :=
  ∀ (a n : U32) (m m' : Mem) (h : σ) (p : U32) (m1 : Mem) (h1 : σ), Grown m m' →
    E.realloc a n (m, h) = (.ok p, (m1, h1)) → ∃ m1', E.realloc a n (m', h) = (.ok p, (m1', h1)) ∧ Grown m1 m1'

end Verif.Abi.Spec
