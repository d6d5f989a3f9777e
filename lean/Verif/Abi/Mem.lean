import Verif.Go.SM
import Verif.Abi.Layout
import Verif.Handles.Model
import Verif.Encoding.Model

/-!
# Memory, Go values and the call context
-/

namespace Verif.Abi

/-- A guest memory, `*bytes.Buffer`: `Len()` bytes in use, and a backing array with room for `cap ≥ len` bytes, up to
which Go lets a slice expression reach. Bytes are addressed from the first unread one.
-- models abi/types/canonical_options.go:14 -/
structure Mem where
  data : Nat → Byte
  len : Nat
  cap : Nat

namespace Mem

/-- Is `Bytes()[lo:hi]` a valid slice expression? A Go slice may be extended up to its capacity.
-- models the slice expressions in abi/io/store.go:115,185,284 and abi/io/load.go:138,251 -/
def slice (m : Mem) (lo hi : U32) : Res Unit :=
  if lo.toNat ≤ hi.toNat ∧ hi.toNat ≤ m.cap then .ok () else .panic

/-- The `n` bytes from address `p`. -/
def read (m : Mem) (p n : Nat) : List Byte := (List.range n).map fun i => m.data (p + i)

/-- Memory after copying `bs` to address `p`. -/
def write (m : Mem) (p : Nat) (bs : List Byte) : Mem :=
  { m with data := fun a => if p ≤ a ∧ a < p + bs.length then bs.getD (a - p) 0 else m.data a }

/-- `uint32(c.Options.Memory.Len())`.
-- models abi/io/store.go:93,427 and abi/io/load.go:247,286 -/
def len32 (m : Mem) : U32 := BitVec.ofNat 32 m.len

end Mem

/-- The `n` low bytes of a number, least significant first.
-- models encoding/binary `LittleEndian.PutUint16/32/64` and `buf[0] = uint8(...)`, abi/io/store.go:187-194 -/
def leBytes : Nat → Nat → List Byte
  | 0, _ => []
  | n + 1, v => BitVec.ofNat 8 v :: leBytes n (v / 256)

/-- The number written least significant byte first.
-- models encoding/binary `LittleEndian.Uint16/32/64` and `buf[0]`, abi/io/load.go:140-155 -/
def leNat : List Byte → Nat
  | [] => 0
  | b :: bs => b.toNat + 256 * leNat bs

/-- A Go value of type `any`, by dynamic type. Floats are their bits; a `rune` is an `int32`; a `[]any` that is nil or
empty is `list []`; a `map[string]any` lists its entries; `other` is any other dynamic type. -/
inductive Val where
  | nil
  | bool (b : Bool)
  | u8 (x : BitVec 8) | u16 (x : BitVec 16) | u32 (x : BitVec 32) | u64 (x : BitVec 64)
  | s8 (x : BitVec 8) | s16 (x : BitVec 16) | s32 (x : BitVec 32) | s64 (x : BitVec 64)
  | int (x : Int) | uint (x : Nat)
  | f32 (bits : BitVec 32) | f64 (bits : BitVec 64)
  | str (s : String)
  | list (vs : List Val)
  | map (es : List (String × Val))
  | other

/-- `m[k]`: the zero value nil when the key is missing.
-- models the map reads in abi/io/store.go:467,540 and abi/io/lower.go:213 -/
def mapGet : List (String × Val) → String → Val
  | [], _ => .nil
  | (l, v) :: m, k => if k = l then v else mapGet m k

/-- `m[k] = v`.
-- models the map writes in abi/io/load.go:316,439,448 and abi/io/lift.go:265 -/
def mapSet : List (String × Val) → String → Val → List (String × Val)
  | [], k, v => [(k, v)]
  | (l, w) :: m, k, v => if k = l then (l, v) :: m else (l, w) :: mapSet m k v

/-- What a call can change: the memory, the guest allocator's own state, and the handle tables and contexts. -/
structure St (σ : Type) where
  mem : Mem
  heap : σ
  world : Handles.World

/-- What stays fixed during a call: the `CanonicalOptions`, the component instance and the call context.
`realloc` is the guest's allocator for requests `Realloc(0, 0, alignment, size)`, the only ones the code makes; it sees
the memory and its own state.
-- models abi/types/canonical_options.go:13-18 and abi/types/context.go:3-8 -/
structure Env (σ : Type) where
  enc : String
  realloc : U32 → U32 → Mem × σ → Res U32 × (Mem × σ)
  inst : Handles.InstId
  cx : Handles.CtxId
  info : Handles.RTInfo

variable {σ : Type}

/-- A call that only concerns handles. -/
def onWorld {α : Type} (f : SM Handles.World α) : SM (St σ) α := fun s =>
  ((f s.world).1, { s with world := (f s.world).2 })

/-- `cx.Options.Realloc(0, 0, alignment, size)`.
-- models the calls in abi/io/store.go:279,414 -/
def alloc (E : Env σ) (a n : U32) : SM (St σ) U32 := fun s =>
  ((E.realloc a n (s.mem, s.heap)).1,
    { s with mem := (E.realloc a n (s.mem, s.heap)).2.1, heap := (E.realloc a n (s.mem, s.heap)).2.2 })

/-- Write bytes at an address already checked by a slice expression. -/
def writeAt (p : U32) (bs : List Byte) : SM (St σ) Unit :=
  SM.modify fun s => { s with mem := s.mem.write p.toNat bs }

/-- `float32` NaN test on bits: exponent all ones and a non-zero fraction.
-- models math.IsNaN in abi/io/canonicalize.go:10 -/
def isNaN32 (x : BitVec 32) : Bool := x.toNat % 2 ^ 31 > 0x7F800000

/-- `float64` NaN test on bits.
-- models math.IsNaN in abi/io/canonicalize.go:17 -/
def isNaN64 (x : BitVec 64) : Bool := x.toNat % 2 ^ 63 > 0x7FF0000000000000

/-- `CanonicalizeFloat32`; `values.Float32Nan` is 0x7fc00000.
-- models abi/io/canonicalize.go:9-14, abi/values/float.go:7 -/
def canon32 (x : BitVec 32) : BitVec 32 := if isNaN32 x then 0x7FC00000 else x

/-- `CanonicalizeFloat64`; `values.Float64Nan` is 0x7ff8000000000000.
-- models abi/io/canonicalize.go:16-21, abi/values/float.go:19 -/
def canon64 (x : BitVec 64) : BitVec 64 := if isNaN64 x then 0x7FF8000000000000 else x

/-- `UTF16Tag`.
-- models abi/io/code_units.go:3 -/
def utf16Tag : U32 := 0x80000000

/-- `TaggedCodeUnits`.
-- models abi/io/code_units.go:5-8 -/
structure TaggedCodeUnits where
  codeUnits : U32
  utf16 : Bool
  deriving DecidableEq

/-- `UInt32ToTaggedCodeUnits`.
-- models abi/io/code_units.go:10-15 -/
def toTagged (i : U32) : TaggedCodeUnits := ⟨i &&& ~~~utf16Tag, i &&& utf16Tag != 0⟩

/-- `TaggedCodeUnits.ToUInt32`.
-- models abi/io/code_units.go:17-23 -/
def TaggedCodeUnits.toU32 (t : TaggedCodeUnits) : U32 := if t.utf16 then t.codeUnits ||| utf16Tag else t.codeUnits

/-- `ConvertU32ToRune`.
-- models abi/io/load.go:87-95 -/
def convertU32ToRune (x : U32) : Res (BitVec 32) :=
  if x.toNat ≥ 0x110000 then .err
  else if 0xD800 ≤ x.toNat ∧ x.toNat ≤ 0xDFFF then .err
  else .ok x

/-- `strings.Split(s, "|")` on characters, given the characters of the current part.
-- models strings.Split in abi/io/lower.go:363 -/
def splitBarFrom : List Char → List Char → List (List Char)
  | cur, [] => [cur]
  | cur, c :: cs => if c = '|' then cur :: splitBarFrom [] cs else splitBarFrom (cur ++ [c]) cs

/-- `strings.Split(s, "|")`.
-- models strings.Split in abi/io/lower.go:363 -/
def splitBar (s : String) : List String := (splitBarFrom [] s.toList).map String.ofList

/-- Lookup in the map from labels to positions: the last case of that label wins.
-- models abi/io/lower.go:359-362 -/
def labelIndex : Cases → Nat → String → Option Nat
  | .nil, _, _ => none
  | .cons l _ _ cs, i, k => match labelIndex cs (i + 1) k with
    | some j => some j
    | none => if k = l then some i else none

/-- The first part that is a label.
-- models abi/io/lower.go:363-368 -/
def firstLabel (cs : Cases) : List String → Option Nat
  | [] => none
  | l :: ls => match labelIndex cs 0 l with
    | some i => some i
    | none => firstLabel cs ls

/-- `MatchCase`.
-- models abi/io/lower.go:346-370; a map is a list of entries with different keys, so its length is its size. -/
def matchCase (v : Val) (cs : Cases) : Res (U32 × Val) :=
  match v with
  | .map [(key, value)] =>
    match firstLabel cs (splitBar key) with
    | some i => .ok (BitVec.ofNat 32 i, value)
    | none => .err
  | _ => .err

/-- `cases[i]`. -/
def Cases.get? : Cases → Nat → Option (String × Ty × Option String)
  | .nil, _ => none
  | .cons l t r _, 0 => some (l, t, r)
  | .cons _ _ _ cs, i + 1 => cs.get? i

/-- `FindCaseIndex`: position of the first case of that label.
-- models abi/io/load.go:401-408 -/
def findCaseIndex : Cases → String → Option Nat
  | .nil, _ => none
  | .cons l _ _ cs, k => if l = k then some 0 else (findCaseIndex cs k).map (· + 1)

/-- The loop of `CaseLabelWithRefinements`, `n` rounds at most; `none` when it is still running then.
-- models abi/io/load.go:387-397 -/
def labelLoop (cs : Cases) : Nat → String → Option String → Option String
  | 0, _, _ => none
  | _ + 1, label, none => some label
  | n + 1, label, some r =>
    match findCaseIndex cs r with
    | none => some label
    | some i => match cs.get? i with
      | some (l, _, r') => labelLoop cs n (label ++ "|" ++ l) r'
      | none => some label

/-- `CaseLabelWithRefinements`. A loop that has run more rounds than there are cases never ends
(`labelLoop_forever`).
-- models abi/io/load.go:385-399 -/
def caseLabelWithRefinements (cs : Cases) (label : String) (refines : Option String) : Res String :=
  match labelLoop cs (cs.length + 1) label refines with
  | some s => .ok s
  | none => .diverge

/-- `PackFlagsIntoInt`, from the current shift; Go's shift by 64 or more gives 0.
-- models abi/io/store.go:536-554 -/
def packFlagsFrom (m : List (String × Val)) : List String → Nat → Res U64
  | [], _ => .ok 0
  | l :: ls, i =>
    match mapGet m l with
    | .bool b => do
      let rest ← packFlagsFrom m ls (i + 1)
      .ok ((if b then (1 : U64) <<< i else 0) ||| rest)
    | _ => .err

/-- `UnpackFlagsFromInt`, onto the entries already there; also the loop of `LoadFlags`.
-- models abi/io/load.go:433-441,445-452 -/
def unpackFlagsOnto : List String → U64 → List (String × Val) → List (String × Val)
  | [], _, acc => acc
  | l :: ls, x, acc => unpackFlagsOnto ls (x >>> 1) (mapSet acc l (.bool (x &&& 1 == 1)))

end Verif.Abi
