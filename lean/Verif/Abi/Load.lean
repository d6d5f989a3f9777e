import Verif.Abi.Mem

/-!
# Model of `abi/io/load.go`
-/

namespace Verif.Abi
open Encoding

variable {σ : Type}

/-- `buf := Bytes()[ptr : ptr+size]`, read as a little-endian number.
-- models abi/io/load.go:138-155 -/
def loadBytes (ptr sz : U32) : SM (St σ) Nat := do
  let st ← SM.get
  SM.lift (st.mem.slice ptr (ptr + sz))
  pure (leNat (st.mem.read ptr.toNat sz.toNat))

/-- The type switch of `LoadInt`. -/
def intVal (t : Ty) (x : Nat) : Val :=
  match t with
  | .u8 => .u8 (BitVec.ofNat 8 x)
  | .u16 => .u16 (BitVec.ofNat 16 x)
  | .u32 => .u32 (BitVec.ofNat 32 x)
  | .u64 => .u64 (BitVec.ofNat 64 x)
  | .s8 => .s8 (BitVec.ofNat 8 x)
  | .s16 => .s16 (BitVec.ofNat 16 x)
  | .s32 => .s32 (BitVec.ofNat 32 x)
  | .s64 => .s64 (BitVec.ofNat 64 x)
  | _ => .u32 0

/-- `LoadInt`.
-- models abi/io/load.go:133-159 -/
def loadInt (ptr : U32) (t : Ty) : SM (St σ) Val := do
  let s ← SM.lift (size t)
  let x ← loadBytes ptr s
  pure (intVal t x)

/-- `LoadIntWithSize`; a size without a type leaves the type nil, which `Size` refuses.
-- models abi/io/load.go:161-184 -/
def loadIntWithSize (ptr nbytes : U32) (sign : Bool) : SM (St σ) Val :=
  if nbytes = 0 then pure (.u32 0)
  else if nbytes = 1 then loadInt ptr (if sign then .s8 else .u8)
  else if nbytes = 2 then loadInt ptr (if sign then .s16 else .u16)
  else if nbytes = 4 then loadInt ptr (if sign then .s32 else .u32)
  else if nbytes = 8 then loadInt ptr (if sign then .s64 else .u64)
  else loadInt ptr .nil

/-- `LoadUInt32`.
-- models abi/io/load.go:109-119 -/
def loadUInt32 (ptr : U32) : SM (St σ) U32 := do
  match ← loadInt ptr .u32 with
  | .u32 x => pure x
  | _ => SM.fail

/-- `LoadUInt64`.
-- models abi/io/load.go:121-131 -/
def loadUInt64 (ptr : U32) : SM (St σ) U64 := do
  match ← loadInt ptr .u64 with
  | .u64 x => pure x
  | _ => SM.fail

/-- `LoadBool`.
-- models abi/io/load.go:97-107 -/
def loadBool (ptr : U32) : SM (St σ) Val := do
  match ← loadInt ptr .u8 with
  | .u8 x => pure (.bool (x != 0))
  | _ => SM.fail

/-- `LoadChar`; a `rune` is an `int32`.
-- models abi/io/load.go:67-85 -/
def loadChar (ptr : U32) : SM (St σ) Val := do
  match ← loadIntWithSize ptr 4 false with
  | .u32 x => do
    let r ← SM.lift (convertU32ToRune x)
    pure (.s32 r)
  | _ => SM.fail

/-- `LoadFloat` at `types.F32`.
-- models abi/io/load.go:188-194 -/
def loadFloat32 (ptr : U32) : SM (St σ) Val := do
  let x ← loadUInt32 ptr
  pure (.f32 (canon32 x))

/-- `LoadFloat` at `types.F64`.
-- models abi/io/load.go:195-201 -/
def loadFloat64 (ptr : U32) : SM (St σ) Val := do
  let x ← loadUInt64 ptr
  pure (.f64 (canon64 x))

/-- The encoding a string is read with.
-- models abi/io/load.go:221-229 -/
def srcEncoding (enc : String) (tcu : TaggedCodeUnits) : String :=
  if enc = Latin1Utf16 then (if tcu.utf16 then UTF16LE else Latin1) else enc

/-- `LoadStringFromRange`.
-- models abi/io/load.go:219-253 -/
def loadStringFromRange (E : Env σ) (ptr taggedCodeUnits : U32) : SM (St σ) String := do
  let tcu := toTagged taggedCodeUnits
  let codec ← SM.lift (defaultFactory.get (srcEncoding E.enc tcu))
  let n := tcu.codeUnits * BitVec.ofNat 32 codec.runeSize
  if ptr ≠ alignTo ptr (BitVec.ofNat 32 codec.alignment) then SM.fail
  else do
    let st ← SM.get
    if (ptr + n).toNat > st.mem.len32.toNat then SM.fail
    else do
      SM.lift (st.mem.slice ptr (ptr + n))
      SM.lift (codec.enc.decode (st.mem.read ptr.toNat n.toNat))

/-- `LoadString`.
-- models abi/io/load.go:206-217 -/
def loadString (E : Env σ) (ptr : U32) : SM (St σ) String := do
  let b ← loadUInt32 ptr
  let n ← loadUInt32 (ptr + 4)
  loadStringFromRange E b n

/-- The element loop of `LoadListFromRange` from index `i` with `n` elements to go; `f` is `Load` at the element type.
-- models abi/io/load.go:291-297 -/
def loadElems (f : U32 → SM (St σ) Val) (ptr sz : U32) : Nat → Nat → SM (St σ) (List Val)
  | 0, _ => pure []
  | n + 1, i => do
    let v ← f (ptr + BitVec.ofNat 32 i * sz)
    let vs ← loadElems f ptr sz n (i + 1)
    pure (v :: vs)

/-- `LoadListFromRange`; `f` is `Load` at the element type `t`.
-- models abi/io/load.go:269-299 -/
def loadListFromRange (f : U32 → SM (St σ) Val) (t : Ty) (ptr n : U32) : SM (St σ) (List Val) := do
  let a ← SM.lift (alignment t)
  if ptr ≠ alignTo ptr a then SM.fail
  else do
    let s ← SM.lift (size t)
    let st ← SM.get
    if (ptr + n * s).toNat > st.mem.len32.toNat then SM.fail
    else loadElems f ptr s n.toNat 0

/-- `LoadList`.
-- models abi/io/load.go:255-267 -/
def loadList (f : U32 → SM (St σ) Val) (t : Ty) (ptr : U32) : SM (St σ) (List Val) := do
  let b ← loadUInt32 ptr
  let n ← loadUInt32 (ptr + 4)
  loadListFromRange f t b n

/-- The number `LoadFlags` reads its bits from.
-- models abi/io/load.go:416-431 -/
def loadFlagsWord (ptr sz : U32) : SM (St σ) U64 := do
  let v ← loadIntWithSize ptr sz false
  if sz = 1 then match v with | .u8 x => pure (x.setWidth 64) | _ => SM.crash
  else if sz = 2 then match v with | .u16 x => pure (x.setWidth 64) | _ => SM.crash
  else if sz = 4 then match v with | .u32 x => pure (x.setWidth 64) | _ => SM.crash
  else if sz = 8 then match v with | .u64 x => pure x | _ => SM.crash
  else pure 0

/-- `LoadFlags`.
-- models abi/io/load.go:410-443 -/
def loadFlags (ptr : U32) (ls : List String) : SM (St σ) Val := do
  let x ← loadFlagsWord ptr (sizeFlags ls.length)
  pure (.map (unpackFlagsOnto ls x []))

/-- The case index read by `LoadVariant`; the type assertions panic on another dynamic type.
-- models abi/io/load.go:332-347 -/
def loadDisc (ptr : U32) (dt : Disc) : SM (St σ) U32 := do
  let v ← loadInt ptr dt.ty
  match dt, v with
  | .u8, .u8 x => pure (x.setWidth 32)
  | .u16, .u16 x => pure (x.setWidth 32)
  | .u32, .u32 x => pure x
  | _, _ => SM.crash

mutual
/-- `Load`, on expanded types.
-- models abi/io/load.go:13-65, with `LoadRecord` 301-324 and `LoadVariant` 327-383 inlined in their cases. -/
def load (E : Env σ) : Ty → U32 → SM (St σ) Val
  | .bool, ptr => loadBool ptr
  | .u8, ptr => loadInt ptr .u8
  | .u16, ptr => loadInt ptr .u16
  | .u32, ptr => loadInt ptr .u32
  | .u64, ptr => loadInt ptr .u64
  | .s8, ptr => loadInt ptr .s8
  | .s16, ptr => loadInt ptr .s16
  | .s32, ptr => loadInt ptr .s32
  | .s64, ptr => loadInt ptr .s64
  | .f32, ptr => loadFloat32 ptr
  | .f64, ptr => loadFloat64 ptr
  | .char, ptr => loadChar ptr
  | .string, ptr => do
    let s ← loadString E ptr
    pure (.str s)
  | .list t, ptr => do
    let vs ← loadList (load E t) t ptr
    pure (.list vs)
  | .record fs, ptr => loadFields E fs ptr []
  | .variant cs, ptr => do
    let dt ← SM.lift (discriminantType cs.length)
    let i ← loadDisc ptr dt
    let s ← SM.lift (size dt.ty)
    if i.toNat ≥ (BitVec.ofNat 32 cs.length).toNat then SM.fail
    else do
      let a ← SM.lift (maxCaseAlignment cs 1)
      loadCase E cs cs i.toNat (alignTo (ptr + s) a)
  | .flags ls, ptr => loadFlags ptr ls
  | .own rt, ptr => do
    let i ← loadUInt32 ptr
    let r ← onWorld (Handles.liftOwn E.inst rt i)
    pure (.u32 r)
  | .borrow rt, ptr => do
    let i ← loadUInt32 ptr
    let r ← onWorld (Handles.liftBorrow E.inst E.cx rt i)
    pure (.u32 r)
  | .nil, _ => SM.fail
  | .other, _ => SM.fail
/-- The field loop of `LoadRecord`.
-- models abi/io/load.go:303-322 -/
def loadFields (E : Env σ) : Fields → U32 → List (String × Val) → SM (St σ) Val
  | .nil, _, acc => pure (.map acc)
  | .cons l t fs, ptr, acc => do
    let a ← SM.lift (alignment t)
    let ptr := alignTo ptr a
    let v ← load E t ptr
    let s ← SM.lift (size t)
    loadFields E fs (ptr + s) (mapSet acc l v)
/-- The end of `LoadVariant`: `v.Cases()[u32CaseIndex]`, its label and its payload.
-- models abi/io/load.go:359-382. The alignment of the payload (360-368) is computed before this in the model; line 359
does nothing that could be seen from there, the index having been checked. -/
def loadCase (E : Env σ) (all : Cases) : Cases → Nat → U32 → SM (St σ) Val
  | .nil, _, _ => SM.crash
  | .cons l t r _, 0, ptr => do
    let label ← SM.lift (caseLabelWithRefinements all l r)
    if t = .nil then pure (.map [(label, .nil)])
    else do
      let v ← load E t ptr
      pure (.map [(label, v)])
  | .cons _ _ _ cs, i + 1, ptr => loadCase E all cs i ptr
end

end Verif.Abi
