import Verif.Abi.Mem
import Verif.Abi.LayoutSpec

/-!
# What the Go values of a component type are, and when two of them are the same value

Independent of how they are stored or passed.
-/

namespace Verif.Abi.Spec

/-- A 32-bit float is NaN: exponent all ones, fraction not zero. -/
def IsNaN32 (x : BitVec 32) : Prop := x.extractLsb' 23 8 = 0xFF#8 ∧ x.extractLsb' 0 23 ≠ 0#23

/-- A 64-bit float is NaN. -/
def IsNaN64 (x : BitVec 64) : Prop := x.extractLsb' 52 11 = 0x7FF#11 ∧ x.extractLsb' 0 52 ≠ 0#52

instance (x) : Decidable (IsNaN32 x) := inferInstanceAs (Decidable (_ ∧ _))
instance (x) : Decidable (IsNaN64 x) := inferInstanceAs (Decidable (_ ∧ _))

/-- The float itself, or the canonical NaN (quiet bit only) for any NaN. -/
def canonical32 (x : BitVec 32) : BitVec 32 := if IsNaN32 x then 0x7FC00000#32 else x

/-- The float itself, or the canonical NaN for any NaN. -/
def canonical64 (x : BitVec 64) : BitVec 64 := if IsNaN64 x then 0x7FF8000000000000#64 else x

/-- The word is a Unicode scalar value. -/
def IsScalar (x : BitVec 32) : Prop := x.toNat < 0xD800 ∨ (0xE000 ≤ x.toNat ∧ x.toNat < 0x110000)

/-- The integer a Go integer value stands for. -/
def intValue : Val → Option Int
  | .u8 x => some x.toNat
  | .u16 x => some x.toNat
  | .u32 x => some x.toNat
  | .u64 x => some x.toNat
  | .s8 x => some x.toInt
  | .s16 x => some x.toInt
  | .s32 x => some x.toInt
  | .s64 x => some x.toInt
  | _ => none

/-- Byte `i` of the two's complement representation of an integer, least significant byte first. -/
def byteOf (z : Int) (i : Nat) : Byte := BitVec.ofInt 8 (z / 256 ^ i)

/-- The eight integer types. -/
def integerTypes : List Ty := [.u8, .u16, .u32, .u64, .s8, .s16, .s32, .s64]

/-- The number in the `n` bytes at `p`, least significant byte first. -/
def natAt (m : Mem) : Nat → Nat → Nat
  | _, 0 => 0
  | p, n + 1 => (m.data p).toNat + 256 * natAt m (p + 1) n

/-- Bit `i` of the bytes from `p` on. -/
def bitAt (m : Mem) (p i : Nat) : Bool := (m.data (p + i / 8)).getLsbD (i % 8)

/-- `l1|l2|...|lk` -/
def bars : List String → String
  | [] => ""
  | [l] => l
  | l :: ls => l ++ "|" ++ bars ls

/-- No `|` in the string. -/
def NoBar (s : String) : Prop := '|' ∉ s.toList

instance (s) : Decidable (NoBar s) := inferInstanceAs (Decidable (¬ _))

/-- The key `l1|...|lk` selects case `i`: the first `lj` that is a label at all is the label of case `i` (and of no
later case). -/
def Selects (cs : Cases) (key : String) (i : Nat) : Prop :=
  ∃ before l after, key = bars (before ++ l :: after) ∧ (∀ p ∈ before ++ l :: after, NoBar p) ∧
    (∀ p ∈ before, p ∉ cs.labels) ∧ cs.labels[i]? = some l ∧ ∀ j, cs.labels[j]? = some l → j ≤ i

/-- The labels met when following `refines` from a case with this label and annotation. -/
inductive Chain (cs : Cases) : String → Option String → List String → Prop where
  | stop (l : String) : Chain cs l none [l]
  | dangling (l r : String) : r ∉ cs.labels → Chain cs l (some r) [l]
  | step (l r : String) (i : Nat) (t : Ty) (r' : Option String) (ls : List String) :
      cs.get? i = some (r, t, r') → (∀ j, cs.labels[j]? = some r → i ≤ j) → Chain cs r r' ls →
      Chain cs l (some r) (l :: ls)

mutual
/-- The type can be used: field, case and flag labels differ, case labels contain no `|`, following `refines` ends,
there are at most 64 flags, and the elements of a list have a layout. Everywhere in the type. -/
def Wf : Ty → Prop
  | .list t => Laid t ∧ Wf t
  | .record fs => fs.labels.Nodup ∧ WfFields fs
  | .variant cs => cs.labels.Nodup ∧ (∀ l ∈ cs.labels, NoBar l) ∧
      (∀ i l t r, cs.get? i = some (l, t, r) → ∃ ls, Chain cs l r ls) ∧ WfCases cs
  | .flags ls => ls.Nodup ∧ ls.length ≤ 64
  | _ => True
/-- Every field type can be used. -/
def WfFields : Fields → Prop
  | .nil => True
  | .cons _ t fs => Wf t ∧ WfFields fs
/-- Every payload type can be used. -/
def WfCases : Cases → Prop
  | .nil => True
  | .cons _ t _ cs => Wf t ∧ WfCases cs
end

mutual
/-- The Go value is a value of the type. A handle is passed as its representation. -/
def HasType : Ty → Val → Prop
  | .bool, v => ∃ b, v = .bool b
  | .u8, v => ∃ x, v = .u8 x
  | .u16, v => ∃ x, v = .u16 x
  | .u32, v => ∃ x, v = .u32 x
  | .u64, v => ∃ x, v = .u64 x
  | .s8, v => ∃ x, v = .s8 x
  | .s16, v => ∃ x, v = .s16 x
  | .s32, v => ∃ x, v = .s32 x
  | .s64, v => ∃ x, v = .s64 x
  | .f32, v => ∃ x, v = .f32 x
  | .f64, v => ∃ x, v = .f64 x
  | .char, v => ∃ c : Char, v = .s32 (BitVec.ofNat 32 c.toNat)
  | .string, v => ∃ s, v = .str s
  | .list t, v => ∃ vs, v = .list vs ∧ ∀ x ∈ vs, HasType t x
  | .record fs, v => ∃ m, v = .map m ∧ HasFields fs m
  | .variant cs, v => ∃ key p i, v = .map [(key, p)] ∧ Selects cs key i ∧ HasPayload cs i p
  | .flags ls, v => ∃ m, v = .map m ∧ ∀ l ∈ ls, ∃ b, mapGet m l = .bool b
  | .own _, v => ∃ x, v = .u32 x
  | .borrow _, v => ∃ x, v = .u32 x
  | .nil, _ => False
  | .other, _ => False
/-- The map has an entry of the right type for every field. -/
def HasFields : Fields → List (String × Val) → Prop
  | .nil, _ => True
  | .cons l t fs, m => HasType t (mapGet m l) ∧ HasFields fs m
/-- The value is a payload of the `i`-th case; a case without payload takes any value. -/
def HasPayload : Cases → Nat → Val → Prop
  | .nil, _, _ => False
  | .cons _ t _ _, 0, p => t = .nil ∨ HasType t p
  | .cons _ _ _ cs, i + 1, p => HasPayload cs i p
end

mutual
/-- `w` is the same value as `v` when both are read as values of the type: equal, except that every NaN is the
canonical NaN in `w`, that a record or flags value in `w` has exactly the declared labels, in order, and that a variant
value in `w` is named by the label of its case followed by the labels it refines. -/
def Same : Ty → Val → Val → Prop
  | .f32, v, w => ∃ x, v = .f32 x ∧ w = .f32 (canonical32 x)
  | .f64, v, w => ∃ x, v = .f64 x ∧ w = .f64 (canonical64 x)
  | .list t, v, w => ∃ vs ws, v = .list vs ∧ w = .list ws ∧ vs.length = ws.length ∧
      ∀ (i : Nat) a b, vs[i]? = some a → ws[i]? = some b → Same t a b
  | .record fs, v, w => ∃ m n, v = .map m ∧ w = .map n ∧ n.map Prod.fst = fs.labels ∧ SameFields fs m n
  | .variant cs, v, w => ∃ key p i l t r ls p', v = .map [(key, p)] ∧ Selects cs key i ∧
      cs.get? i = some (l, t, r) ∧ Chain cs l r ls ∧ w = .map [(bars ls, p')] ∧ SamePayload cs i p p'
  | .flags ls, v, w => ∃ m n, v = .map m ∧ w = .map n ∧ n.map Prod.fst = ls ∧ ∀ l ∈ ls, mapGet n l = mapGet m l
  | _, v, w => w = v
/-- Entry by entry the same. -/
def SameFields : Fields → List (String × Val) → List (String × Val) → Prop
  | .nil, _, _ => True
  | .cons l t fs, m, n => Same t (mapGet m l) (mapGet n l) ∧ SameFields fs m n
/-- The same payload of the `i`-th case; nil when that case has none. -/
def SamePayload : Cases → Nat → Val → Val → Prop
  | .nil, _, _, _ => False
  | .cons _ t _ _, 0, p, q => (t = .nil ∧ q = .nil) ∨ (t ≠ .nil ∧ Same t p q)
  | .cons _ _ _ cs, i + 1, p, q => SamePayload cs i p q
end

/-- Number of code units `s` takes in an encoding (`latin1+utf16` uses UTF-16 only if it must). -/
def codeUnits (enc : String) (s : String) : Nat :=
  if enc = "utf-8" then (s.toList.map fun c => if c.toNat < 0x80 then 1 else if c.toNat < 0x800 then 2
    else if c.toNat < 0x10000 then 3 else 4).sum
  else if enc = "latin1" ∨ (enc = "latin1+utf16" ∧ ∀ c ∈ s.toList, c.toNat < 256) then s.length
  else (s.toList.map fun c => if c.toNat < 0x10000 then 1 else 2).sum

mutual
/-- Every list in the value has less than `2^32` elements taking less than `2^32` bytes together: otherwise no 32-bit
memory holds it. -/
def ListsFit : Ty → Val → Prop
  | .list t, v => ∀ vs, v = .list vs → vs.length < 2 ^ 32 ∧ vs.length * size t < 2 ^ 32 ∧ ∀ x ∈ vs, ListsFit t x
  | .record fs, v => ∀ m, v = .map m → ListsFitFields fs m
  | .variant cs, v => ∀ key p i, v = .map [(key, p)] → Selects cs key i → ListsFitPayload cs i p
  | _, _ => True
/-- For every field. -/
def ListsFitFields : Fields → List (String × Val) → Prop
  | .nil, _ => True
  | .cons l t fs, m => ListsFit t (mapGet m l) ∧ ListsFitFields fs m
/-- For the payload of the `i`-th case. -/
def ListsFitPayload : Cases → Nat → Val → Prop
  | .nil, _, _ => True
  | .cons _ t _ _, 0, p => ListsFit t p
  | .cons _ _ _ cs, i + 1, p => ListsFitPayload cs i p
end

mutual
/-- Every string in the value can be written in the encoding (which matters for `latin1`), with less than `2^31` code
units, the most its length word can say. -/
def StringsFit (enc : String) : Ty → Val → Prop
  | .string, v => ∀ s, v = .str s → codeUnits enc s < 2 ^ 31 ∧ (enc = "latin1" → ∀ c ∈ s.toList, c.toNat < 256)
  | .list t, v => ∀ vs, v = .list vs → ∀ x ∈ vs, StringsFit enc t x
  | .record fs, v => ∀ m, v = .map m → StringsFitFields enc fs m
  | .variant cs, v => ∀ key p i, v = .map [(key, p)] → Selects cs key i → StringsFitPayload enc cs i p
  | _, _ => True
/-- For every field. -/
def StringsFitFields (enc : String) : Fields → List (String × Val) → Prop
  | .nil, _ => True
  | .cons l t fs, m => StringsFit enc t (mapGet m l) ∧ StringsFitFields enc fs m
/-- For the payload of the `i`-th case. -/
def StringsFitPayload (enc : String) : Cases → Nat → Val → Prop
  | .nil, _, _ => True
  | .cons _ t _ _, 0, p => StringsFit enc t p
  | .cons _ _ _ cs, i + 1, p => StringsFitPayload enc cs i p
end

mutual
/-- The type mentions no handles. -/
def Plain : Ty → Prop
  | .own _ | .borrow _ => False
  | .list t => Plain t
  | .record fs => PlainFields fs
  | .variant cs => PlainCases cs
  | _ => True
/-- No field mentions handles. -/
def PlainFields : Fields → Prop
  | .nil => True
  | .cons _ t fs => Plain t ∧ PlainFields fs
/-- No payload mentions handles. -/
def PlainCases : Cases → Prop
  | .nil => True
  | .cons _ t _ cs => Plain t ∧ PlainCases cs
end

/-- The `n` addresses from `p` on, wrapping around after `2^32 - 1`. -/
def InBlock (p : U32) (n x : Nat) : Prop := ∃ i < n, x = (p.toNat + i) % 2 ^ 32

/-- A guest allocator that keeps its promises. `used` says which bytes it must not hand out again. It may move and grow
the memory but leaves the bytes in use alone, whatever it answers; a block it hands out is aligned, inside the memory,
was not in use, and is in use from then on. -/
structure GoodAlloc {σ : Type} (E : Env σ) (used : σ → Nat → Prop) : Prop where
  keeps : ∀ a n m h x, used h x → used (E.realloc a n (m, h)).2.2 x ∧ (E.realloc a n (m, h)).2.1.data x = m.data x
  grows : ∀ a n m h, m.len < 2 ^ 32 → m.len ≤ m.cap →
    m.len ≤ (E.realloc a n (m, h)).2.1.len ∧ (E.realloc a n (m, h)).2.1.len < 2 ^ 32 ∧
      (E.realloc a n (m, h)).2.1.len ≤ (E.realloc a n (m, h)).2.1.cap
  block : ∀ a n m h p m' h', E.realloc a n (m, h) = (.ok p, (m', h')) → m.len < 2 ^ 32 → m.len ≤ m.cap →
    a.toNat ∣ p.toNat ∧ p.toNat + n.toNat ≤ m'.len ∧
      ∀ x, p.toNat ≤ x → x < p.toNat + n.toNat → ¬ used h x ∧ used h' x

end Verif.Abi.Spec
