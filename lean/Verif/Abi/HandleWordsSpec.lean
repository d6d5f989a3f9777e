import Verif.Abi.HandleSpec
import Verif.Abi.Flat

/-!
# Where the handle indices of a value are

In memory and among flat values, each handle of a value takes one 32-bit word, its index. These definitions say which
words they are: `Alignment`, `Size` and `FlattenType` of the types before a handle fix its place.
-/

namespace Verif.Abi.Spec

/-- The low 32 bits of a flat value. A case of a variant may have to pass a 32-bit word in a wider slot. -/
def low32 : FV → U32
  | .u32 x | .f32 x => x
  | .u64 x | .f64 x => x.setWidth 32

mutual
/-- The words for the handles of a value of a type at address `p` of memory `m`, from left to right. Addresses wrap
around after `2^32 - 1`. -/
def WordsAt (m : Mem) : Ty → Val → U32 → List U32 → Prop
  | .own _, _, p, ws => ws = [BitVec.ofNat 32 (natAt m p.toNat 4)]
  | .borrow _, _, p, ws => ws = [BitVec.ofNat 32 (natAt m p.toNat 4)]
  | .list t, v, p, ws => ∃ vs, ∃ wss : List (List U32), v = .list vs ∧ wss.length = vs.length ∧ ws = wss.flatten ∧
      ∀ z, Abi.size t = .ok z → ∀ (j : Nat) x w, vs[j]? = some x → wss[j]? = some w →
        WordsAt m t x (BitVec.ofNat 32 (natAt m p.toNat 4) + BitVec.ofNat 32 j * z) w
  | .record fs, v, p, ws => ∃ mm, v = .map mm ∧ WordsAtFields m fs mm p ws
  | .variant cs, v, p, ws => ∃ key q i, v = .map [(key, q)] ∧ Selects cs key i ∧
      WordsAtPayload m cs i q (BitVec.ofNat 32 (alignUp (p + BitVec.ofNat 32 (discBytes cs.length)).toNat (alignCases cs))) ws
  | _, _, _, ws => ws = []
/-- The words for the handles in the fields of a record, the first of which is at the next aligned address from `p`. -/
def WordsAtFields (m : Mem) : Fields → List (String × Val) → U32 → List U32 → Prop
  | .nil, _, _, ws => ws = []
  | .cons l t fs, mm, p, ws => ∃ a b, WordsAt m t (mapGet mm l) (BitVec.ofNat 32 (alignUp p.toNat (align t))) a ∧
      (∀ z, Abi.size t = .ok z → WordsAtFields m fs mm (BitVec.ofNat 32 (alignUp p.toNat (align t)) + z) b) ∧ ws = a ++ b
/-- The words for the handles in the payload of case `i`, which is at `p`. -/
def WordsAtPayload (m : Mem) : Cases → Nat → Val → U32 → List U32 → Prop
  | .nil, _, _, _, _ => False
  | .cons _ t _ _, 0, q, p, ws => (t = .nil ∧ ws = []) ∨ (t ≠ .nil ∧ WordsAt m t q p ws)
  | .cons _ _ _ cs, i + 1, q, p, ws => WordsAtPayload m cs i q p ws
end

mutual
/-- The words for the handles of a value of a type among the flat values `fs`, the first of which is the first of this
value; those of the elements of a list are in memory `m`. -/
def WordsIn (m : Mem) : Ty → Val → List FV → List U32 → Prop
  | .own _, _, fs, ws => ∃ f, fs[0]? = some f ∧ ws = [low32 f]
  | .borrow _, _, fs, ws => ∃ f, fs[0]? = some f ∧ ws = [low32 f]
  | .list t, v, fs, ws => ∃ f vs, ∃ wss : List (List U32), fs[0]? = some f ∧ v = .list vs ∧ wss.length = vs.length ∧ ws = wss.flatten ∧
      ∀ z, Abi.size t = .ok z → ∀ (j : Nat) x w, vs[j]? = some x → wss[j]? = some w →
        WordsAt m t x (low32 f + BitVec.ofNat 32 j * z) w
  | .record fields, v, fs, ws => ∃ mm, v = .map mm ∧ WordsInFields m fields mm fs ws
  | .variant cs, v, fs, ws => ∃ key q i, v = .map [(key, q)] ∧ Selects cs key i ∧ WordsInPayload m cs i q (fs.drop 1) ws
  | _, _, _, ws => ws = []
/-- The words for the handles in the fields of a record. -/
def WordsInFields (m : Mem) : Fields → List (String × Val) → List FV → List U32 → Prop
  | .nil, _, _, ws => ws = []
  | .cons l t fields, mm, fs, ws => ∃ a b, WordsIn m t (mapGet mm l) fs a ∧
      (∀ ks, flatten t = .ok ks → WordsInFields m fields mm (fs.drop ks.length) b) ∧ ws = a ++ b
/-- The words for the handles in the payload of case `i`. -/
def WordsInPayload (m : Mem) : Cases → Nat → Val → List FV → List U32 → Prop
  | .nil, _, _, _, _ => False
  | .cons _ t _ _, 0, q, fs, ws => (t = .nil ∧ ws = []) ∨ (t ≠ .nil ∧ WordsIn m t q fs ws)
  | .cons _ _ _ cs, i + 1, q, fs, ws => WordsInPayload m cs i q fs ws
end

/-- The words for the handles of several values among the flat values of all of them. -/
def WordsInAll (m : Mem) : List Ty → List Val → List FV → List U32 → Prop
  | _, [], _, ws => ws = []
  | [], _ :: _, _, _ => False
  | t :: ts, v :: vs, fs, ws => ∃ a b, WordsIn m t v fs a ∧
      (∀ ks, flatten t = .ok ks → WordsInAll m ts vs (fs.drop ks.length) b) ∧ ws = a ++ b

end Verif.Abi.Spec
