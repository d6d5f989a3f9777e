import Verif.Abi.MeansSpec
import Verif.Abi.CoreSpec
import Verif.Abi.Flat

/-!
# What core values stand for

The values that the Canonical ABI assigns to a list of core values, apart from the models of `LiftFlat` and `LowerFlat`.
A core value is given by its bits, whatever its type; in a slot that the payloads of a variant share it may have more of
them than the payload uses.
-/

namespace Verif.Abi

/-- The bits of a core value, as a number. -/
def FV.bits : FV → Nat
  | .u32 x | .f32 x => x.toNat
  | .u64 x | .f64 x => x.toNat

namespace Spec

mutual
/-- The core values with the bits `bs` stand for the value `v` of the type; strings and the elements of lists are in
memory. Types with handles are left out. -/
def FlatMeans (R : Reading) (enc : String) (m : Mem) : Ty → List Nat → Val → Prop
  | .bool, bs, v => ∃ b, bs = [b] ∧ v = .bool (b % 2 ^ 32 != 0) ∧ (R.neat → b ≤ 1)
  | .u8, bs, v => ∃ b, bs = [b] ∧ v = .u8 (BitVec.ofNat 8 b) ∧ (R.neat → b < 2 ^ 8)
  | .u16, bs, v => ∃ b, bs = [b] ∧ v = .u16 (BitVec.ofNat 16 b) ∧ (R.neat → b < 2 ^ 16)
  | .u32, bs, v => ∃ b, bs = [b] ∧ v = .u32 (BitVec.ofNat 32 b) ∧ (R.neat → b < 2 ^ 32)
  | .u64, bs, v => ∃ b, bs = [b] ∧ v = .u64 (BitVec.ofNat 64 b) ∧ (R.neat → b < 2 ^ 64)
  | .s8, bs, v => ∃ b, bs = [b] ∧ v = .s8 (BitVec.ofNat 8 b) ∧
      (R.neat → b = (BitVec.ofInt 32 (BitVec.ofNat 8 b).toInt).toNat)
  | .s16, bs, v => ∃ b, bs = [b] ∧ v = .s16 (BitVec.ofNat 16 b) ∧
      (R.neat → b = (BitVec.ofInt 32 (BitVec.ofNat 16 b).toInt).toNat)
  | .s32, bs, v => ∃ b, bs = [b] ∧ v = .s32 (BitVec.ofNat 32 b) ∧ (R.neat → b < 2 ^ 32)
  | .s64, bs, v => ∃ b, bs = [b] ∧ v = .s64 (BitVec.ofNat 64 b) ∧ (R.neat → b < 2 ^ 64)
  | .f32, bs, v => ∃ b, bs = [b] ∧ v = .f32 (canonical32 (BitVec.ofNat 32 b)) ∧
      (R.neat → b = (canonical32 (BitVec.ofNat 32 b)).toNat)
  | .f64, bs, v => ∃ b, bs = [b] ∧ v = .f64 (canonical64 (BitVec.ofNat 64 b)) ∧
      (R.neat → b = (canonical64 (BitVec.ofNat 64 b)).toNat)
  | .char, bs, v => ∃ b, bs = [b] ∧ (∃ c : Char, c.toNat = b % 2 ^ 32 ∧ v = .s32 (BitVec.ofNat 32 c.toNat)) ∧
      (R.neat → b < 2 ^ 32)
  | .string, bs, v => ∃ p n, bs = [p, n] ∧ (∃ str, v = .str str ∧ StringMeans R enc m (p % 2 ^ 32) (n % 2 ^ 32) str) ∧
      (R.neat → p < 2 ^ 32 ∧ n < 2 ^ 32)
  | .list t, bs, v => ∃ p n, bs = [p, n] ∧ (∃ vs, v = .list vs ∧ vs.length = n % 2 ^ 32 ∧ align t ∣ p % 2 ^ 32 ∧
      p % 2 ^ 32 + n % 2 ^ 32 * size t ≤ m.len ∧
      ∀ (i : Nat) x, vs[i]? = some x → Means R enc m t (p % 2 ^ 32 + i * size t) x) ∧
      (R.neat → p < 2 ^ 32 ∧ n < 2 ^ 32)
  | .record fs, bs, v => ∃ es, v = .map es ∧ FlatMeansFields R enc m fs bs es
  | .variant cs, bs, v => ∃ d rest, bs = d :: rest ∧
      (∃ l t r ls w, cs.get? (d % 2 ^ 32) = some (l, t, r) ∧ Chain cs l r ls ∧ v = .map [(bars ls, w)] ∧
        FlatMeansCase R enc m cs (d % 2 ^ 32) rest w) ∧
      (R.neat → d < 2 ^ 32)
  | .flags ls, bs, v => v = .map (ls.zipIdx.map fun q => (q.1, .bool ((bs.getD (q.2 / 32) 0).testBit (q.2 % 32)))) ∧
      (R.neat → (∀ b ∈ bs, b < 2 ^ 32) ∧ ∀ i, ls.length ≤ i → (bs.getD (i / 32) 0).testBit (i % 32) = false)
  | .own _, _, _ | .borrow _, _, _ | .nil, _, _ | .other, _, _ => False
/-- They stand for the entries, one for each field in order. -/
def FlatMeansFields (R : Reading) (enc : String) (m : Mem) : Fields → List Nat → List (String × Val) → Prop
  | .nil, _, es => es = []
  | .cons l t fs, bs, es => ∃ x es', es = (l, x) :: es' ∧
      FlatMeans R enc m t (bs.take (coreTypes t).length) x ∧
      FlatMeansFields R enc m fs (bs.drop (coreTypes t).length) es'
/-- They stand for the payload of the `i`-th case, nil if it has none; those after it stand for nothing. -/
def FlatMeansCase (R : Reading) (enc : String) (m : Mem) : Cases → Nat → List Nat → Val → Prop
  | .nil, _, _, _ => False
  | .cons _ t _ _, 0, bs, w => ((t = .nil ∧ w = .nil) ∨
      (t ≠ .nil ∧ FlatMeans R enc m t (bs.take (coreTypes t).length) w)) ∧
      (R.neat → ∀ b ∈ bs.drop (coreTypes t).length, b = 0)
  | .cons _ _ _ cs, i + 1, bs, w => FlatMeansCase R enc m cs i bs w
end

mutual
/-- Every (pointer, length) pair met among the core values, or in memory behind them, describes bytes that end below
`2^32`; see `Orderly`. -/
def FlatOrderly (enc : String) (m : Mem) : Ty → List Nat → Prop
  | .string, bs => ∀ p n, bs = [p, n] → p % 2 ^ 32 + stringBytes enc (n % 2 ^ 32) < 2 ^ 32 ∧
      (n % 2 ^ 32 < 2 ^ 31 ∨ enc = "latin1+utf16")
  | .list t, bs => ∀ p n, bs = [p, n] → p % 2 ^ 32 + n % 2 ^ 32 * size t < 2 ^ 32 ∧ size t < 2 ^ 32 ∧
      (align t ∣ p % 2 ^ 32 → p % 2 ^ 32 + n % 2 ^ 32 * size t ≤ m.len →
        ∀ i < n % 2 ^ 32, Orderly enc m t (p % 2 ^ 32 + i * size t))
  | .record fs, bs => FlatOrderlyFields enc m fs bs
  | .variant cs, bs => ∀ d rest, bs = d :: rest → FlatOrderlyCase enc m cs (d % 2 ^ 32) rest
  | _, _ => True
/-- For every field. -/
def FlatOrderlyFields (enc : String) (m : Mem) : Fields → List Nat → Prop
  | .nil, _ => True
  | .cons _ t fs, bs => FlatOrderly enc m t (bs.take (coreTypes t).length) ∧
      FlatOrderlyFields enc m fs (bs.drop (coreTypes t).length)
/-- For the payload of the `i`-th case. -/
def FlatOrderlyCase (enc : String) (m : Mem) : Cases → Nat → List Nat → Prop
  | .nil, _, _ => True
  | .cons _ t _ _, 0, bs => FlatOrderly enc m t (bs.take (coreTypes t).length)
  | .cons _ _ _ cs, i + 1, bs => FlatOrderlyCase enc m cs i bs
end

end Spec

end Verif.Abi
