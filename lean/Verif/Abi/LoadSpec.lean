import Verif.Abi.ValueSpec

/-!
# What `Load` is asked to do

Which bytes a (pointer, length) pair describes, and which types and memories are harmless.
-/

namespace Verif.Abi.Spec

/-- Number of bytes a string's length word describes. For `latin1+utf16` the top bit says that code units are wide. -/
def stringBytes (enc : String) (n : Nat) : Nat :=
  if enc = "latin1+utf16" then (if 2 ^ 31 ≤ n then 2 * (n - 2 ^ 31) else n)
  else if enc = "utf-8" ∨ enc = "latin1" then n
  else 2 * n

/-- Alignment of a string's bytes. -/
def stringAlign (enc : String) : Nat := if enc = "utf-8" then 1 else 2

mutual
/-- Following `refines` ends, from every case of every variant in the type. -/
def Chains : Ty → Prop
  | .list t => Chains t
  | .record fs => ChainsFields fs
  | .variant cs => (∀ i l t r, cs.get? i = some (l, t, r) → ∃ ls, Chain cs l r ls) ∧ ChainsCases cs
  | _ => True
/-- In every field type. -/
def ChainsFields : Fields → Prop
  | .nil => True
  | .cons _ t fs => Chains t ∧ ChainsFields fs
/-- In every payload type. -/
def ChainsCases : Cases → Prop
  | .nil => True
  | .cons _ t _ cs => Chains t ∧ ChainsCases cs
end

mutual
/-- Reading a value of the type at `p`, no (pointer, length) pair describes bytes that reach `2^32`. The elements of a
list count only if the list is where memory is. -/
def NoWrap (enc : String) (m : Mem) : Ty → Nat → Prop
  | .string, p => natAt m p 4 + stringBytes enc (natAt m (p + 4) 4) < 2 ^ 32
  | .list t, p => natAt m p 4 + natAt m (p + 4) 4 * size t < 2 ^ 32 ∧
      (align t ∣ natAt m p 4 → natAt m p 4 + natAt m (p + 4) 4 * size t ≤ m.len →
        ∀ i < natAt m (p + 4) 4, NoWrap enc m t (natAt m p 4 + i * size t))
  | .record fs, p => NoWrapFields enc m fs p
  | .variant cs, p => NoWrapCase enc m cs (natAt m p (discBytes cs.length)) (p + payloadOffset cs)
  | _, _ => True
/-- For every field, the first of which may start at `p`. -/
def NoWrapFields (enc : String) (m : Mem) : Fields → Nat → Prop
  | .nil, _ => True
  | .cons _ t fs, p => NoWrap enc m t (alignUp p (align t)) ∧
      NoWrapFields enc m fs (alignUp p (align t) + size t)
/-- For the payload of the `i`-th case. -/
def NoWrapCase (enc : String) (m : Mem) : Cases → Nat → Nat → Prop
  | .nil, _, _ => True
  | .cons _ t _ _, 0, p => NoWrap enc m t p
  | .cons _ _ _ cs, i + 1, p => NoWrapCase enc m cs i p
end

end Verif.Abi.Spec
