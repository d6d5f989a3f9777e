import Verif.Abi.LoadSpec
import Verif.Abi.StringReadSpec

/-!
# What the bytes of a memory stand for

The values that the Canonical ABI assigns to the bytes at an address, apart from the model of `Load`: which of them
belong to which part of a value, and what they say there.
-/

namespace Verif.Abi.Spec

/-- When bytes are taken for a string, and whether a value that several bytes stand for has to be written one way: true
as 1, NaN as the canonical one, and 0 in the bits after the last flag. -/
structure Reading where
  text : Script → List Byte → String → Prop
  neat : Prop

/-- The bytes write the string. -/
def Exactly : Reading := ⟨fun k bs s => Writes k s.toList bs, False⟩

/-- They write it, or write no string and the string has U+FFFD in it. -/
def Leniently : Reading := ⟨fun k bs s => Writes k s.toList bs ∨ (∀ cs, ¬ Writes k cs bs) ∧ '�' ∈ s.toList, False⟩

/-- They write the string, and there is no other way to write the value. -/
def Neatly : Reading := ⟨fun k bs s => Writes k s.toList bs, True⟩

/-- The `n` bytes at `p`. -/
def bytesAt (m : Mem) (p n : Nat) : List Byte := (List.range n).map fun i => m.data (p + i)

/-- The string whose address is `p` and whose length word is `n`: its bytes are aligned and inside the memory. -/
def StringMeans (R : Reading) (enc : String) (m : Mem) (p n : Nat) (str : String) : Prop :=
  stringAlign enc ∣ p ∧ p + stringBytes enc n ≤ m.len ∧ R.text (script enc n) (bytesAt m p (stringBytes enc n)) str

mutual
/-- The bytes at `p` stand for the value `v` of the type. Types with handles are left out: what a handle stands for is
no matter of bytes. -/
def Means (R : Reading) (enc : String) (m : Mem) : Ty → Nat → Val → Prop
  | .bool, p, v => v = .bool (natAt m p 1 != 0) ∧ (R.neat → natAt m p 1 ≤ 1)
  | .u8, p, v => v = .u8 (BitVec.ofNat 8 (natAt m p 1))
  | .u16, p, v => v = .u16 (BitVec.ofNat 16 (natAt m p 2))
  | .u32, p, v => v = .u32 (BitVec.ofNat 32 (natAt m p 4))
  | .u64, p, v => v = .u64 (BitVec.ofNat 64 (natAt m p 8))
  | .s8, p, v => v = .s8 (BitVec.ofNat 8 (natAt m p 1))
  | .s16, p, v => v = .s16 (BitVec.ofNat 16 (natAt m p 2))
  | .s32, p, v => v = .s32 (BitVec.ofNat 32 (natAt m p 4))
  | .s64, p, v => v = .s64 (BitVec.ofNat 64 (natAt m p 8))
  | .f32, p, v => v = .f32 (canonical32 (BitVec.ofNat 32 (natAt m p 4))) ∧
      (R.neat → canonical32 (BitVec.ofNat 32 (natAt m p 4)) = BitVec.ofNat 32 (natAt m p 4))
  | .f64, p, v => v = .f64 (canonical64 (BitVec.ofNat 64 (natAt m p 8))) ∧
      (R.neat → canonical64 (BitVec.ofNat 64 (natAt m p 8)) = BitVec.ofNat 64 (natAt m p 8))
  | .char, p, v => ∃ c : Char, c.toNat = natAt m p 4 ∧ v = .s32 (BitVec.ofNat 32 c.toNat)
  | .string, p, v => ∃ str, v = .str str ∧ StringMeans R enc m (natAt m p 4) (natAt m (p + 4) 4) str
  | .list t, p, v => ∃ vs, v = .list vs ∧ vs.length = natAt m (p + 4) 4 ∧ align t ∣ natAt m p 4 ∧
      natAt m p 4 + natAt m (p + 4) 4 * size t ≤ m.len ∧
      ∀ (i : Nat) x, vs[i]? = some x → Means R enc m t (natAt m p 4 + i * size t) x
  | .record fs, p, v => ∃ es, v = .map es ∧ MeansFields R enc m fs p es
  | .variant cs, p, v => ∃ l t r ls w, cs.get? (natAt m p (discBytes cs.length)) = some (l, t, r) ∧ Chain cs l r ls ∧
      v = .map [(bars ls, w)] ∧ MeansCase R enc m cs (natAt m p (discBytes cs.length)) (p + payloadOffset cs) w
  | .flags ls, p, v => v = .map (ls.zipIdx.map fun q => (q.1, .bool (bitAt m p q.2))) ∧
      (R.neat → ∀ i, ls.length ≤ i → i < 8 * size (.flags ls) → bitAt m p i = false)
  | .own _, _, _ | .borrow _, _, _ | .nil, _, _ | .other, _, _ => False
/-- The bytes stand for the entries, one for each field in order; the first field may start at `p`. -/
def MeansFields (R : Reading) (enc : String) (m : Mem) : Fields → Nat → List (String × Val) → Prop
  | .nil, _, es => es = []
  | .cons l t fs, p, es => ∃ x es', es = (l, x) :: es' ∧ Means R enc m t (alignUp p (align t)) x ∧
      MeansFields R enc m fs (alignUp p (align t) + size t) es'
/-- The bytes stand for the payload of the `i`-th case, nil if it has none. -/
def MeansCase (R : Reading) (enc : String) (m : Mem) : Cases → Nat → Nat → Val → Prop
  | .nil, _, _, _ => False
  | .cons _ t _ _, 0, p, w => (t = .nil ∧ w = .nil) ∨ (t ≠ .nil ∧ Means R enc m t p w)
  | .cons _ _ _ cs, i + 1, p, w => MeansCase R enc m cs i p w
end

mutual
/-- Reading a value of the type at `p`, every (pointer, length) pair met describes bytes that end below `2^32`, and the
length word of a string has a highest bit only where that is a tag. -/
def Orderly (enc : String) (m : Mem) : Ty → Nat → Prop
  | .string, p => natAt m p 4 + stringBytes enc (natAt m (p + 4) 4) < 2 ^ 32 ∧
      (natAt m (p + 4) 4 < 2 ^ 31 ∨ enc = "latin1+utf16")
  | .list t, p => natAt m p 4 + natAt m (p + 4) 4 * size t < 2 ^ 32 ∧ size t < 2 ^ 32 ∧
      (align t ∣ natAt m p 4 → natAt m p 4 + natAt m (p + 4) 4 * size t ≤ m.len →
        ∀ i < natAt m (p + 4) 4, Orderly enc m t (natAt m p 4 + i * size t))
  | .record fs, p => OrderlyFields enc m fs p
  | .variant cs, p => OrderlyCase enc m cs (natAt m p (discBytes cs.length)) (p + payloadOffset cs)
  | _, _ => True
/-- For every field, the first of which may start at `p`. -/
def OrderlyFields (enc : String) (m : Mem) : Fields → Nat → Prop
  | .nil, _ => True
  | .cons _ t fs, p => Orderly enc m t (alignUp p (align t)) ∧ OrderlyFields enc m fs (alignUp p (align t) + size t)
/-- For the payload of the `i`-th case. -/
def OrderlyCase (enc : String) (m : Mem) : Cases → Nat → Nat → Prop
  | .nil, _, _ => True
  | .cons _ t _ _, 0, p => Orderly enc m t p
  | .cons _ _ _ cs, i + 1, p => OrderlyCase enc m cs i p
end

end Verif.Abi.Spec
