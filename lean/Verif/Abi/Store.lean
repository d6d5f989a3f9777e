import Verif.Abi.Mem

/-!
# Model of `abi/io/store.go`
-/

namespace Verif.Abi
open Encoding

variable {σ : Type}

/-- `StoreValidate`.
-- models abi/io/store.go:74-98 -/
def storeValidate (t : Ty) (ptr : U32) : SM (St σ) Unit := do
  let a ← SM.lift (alignment t)
  if ptr ≠ alignTo ptr a then SM.fail
  else do
    let s ← SM.lift (size t)
    let st ← SM.get
    if (ptr + s).toNat > st.mem.len32.toNat then SM.fail else pure ()

/-- What the type switch of `StoreInt` computes. -/
structure IntInfo where
  u64 : U64
  max : Int
  min : Int
  sign : Bool

/-- The type switch of `StoreInt`; a dynamic type it does not mention leaves everything zero.
-- models abi/io/store.go:121-162 -/
def intInfo : Val → Res IntInfo
  | .u8 x => .ok ⟨x.setWidth 64, 2 ^ 8 - 1, 0, false⟩
  | .u16 x => .ok ⟨x.setWidth 64, 2 ^ 16 - 1, 0, false⟩
  | .u32 x => .ok ⟨x.setWidth 64, 2 ^ 32 - 1, 0, false⟩
  | .u64 x => .ok ⟨x, 2 ^ 64 - 1, 0, false⟩
  | .s8 x => .ok ⟨x.signExtend 64, 2 ^ 7 - 1, -2 ^ 7, true⟩
  | .s16 x => .ok ⟨x.signExtend 64, 2 ^ 15 - 1, -2 ^ 15, true⟩
  | .s32 x => .ok ⟨x.signExtend 64, 2 ^ 31 - 1, -2 ^ 31, true⟩
  | .s64 x => .ok ⟨x, 2 ^ 63 - 1, -2 ^ 63, true⟩
  | .int _ => .err
  | .uint _ => .err
  | _ => .ok ⟨0, 0, 0, false⟩

/-- `StoreInt`.
-- models abi/io/store.go:120-197 -/
def storeInt (v : Val) (ptr nbytes : U32) (signed : Bool) : SM (St σ) Unit := do
  let i ← SM.lift (intInfo v)
  if i.sign ≠ signed then SM.fail
  else if ¬ signed ∧ (i.u64.toNat : Int) > i.max then SM.fail
  else if signed ∧ (i.u64.toInt > i.max ∨ i.u64.toInt < i.min) then SM.fail
  else do
    let st ← SM.get
    SM.lift (st.mem.slice ptr (ptr + nbytes))
    if nbytes = 1 ∨ nbytes = 2 ∨ nbytes = 4 ∨ nbytes = 8 then writeAt ptr (leBytes nbytes.toNat i.u64.toNat)
    else pure ()

/-- `StoreUInt32`.
-- models abi/io/store.go:114-118 -/
def storeUInt32 (x ptr : U32) : SM (St σ) Unit := do
  let st ← SM.get
  SM.lift (st.mem.slice ptr (ptr + 4))
  writeAt ptr (leBytes 4 x.toNat)

/-- `StoreFloat` at `nbytes == SizeOfFloat32`; the type assertion panics on any other dynamic type.
-- models abi/io/store.go:101-105 -/
def storeFloat32 (v : Val) (ptr : U32) : SM (St σ) Unit :=
  match v with
  | .f32 x => storeInt (.u32 (canon32 x)) ptr 4 false
  | _ => SM.crash

/-- `StoreFloat` at other sizes.
-- models abi/io/store.go:106-111 -/
def storeFloat64 (v : Val) (ptr : U32) : SM (St σ) Unit :=
  match v with
  | .f64 x => storeInt (.u64 (canon64 x)) ptr 8 false
  | _ => SM.crash

/-- `StoreStringDynamic`.
-- models abi/io/store.go:266-289 -/
def storeStringDynamic (E : Env σ) (s : String) (c : Codec) : SM (St σ) (U32 × U32) := do
  let bs ← SM.lift (c.enc.encode s)
  let n := BitVec.ofNat 32 bs.length
  let ptr ← alloc E (BitVec.ofNat 32 c.alignment) n
  let st ← SM.get
  SM.lift (st.mem.slice ptr (ptr + n))
  writeAt ptr (bs.take n.toNat)
  pure (ptr, BitVec.ofNat 32 (n.toNat / c.runeSize))

/-- `isLatin1`.
-- models abi/io/store.go:252-263 -/
def isLatin1 (s : String) : Bool := s.toList.all latin1Has

/-- `StoreStringIntoRange`.
-- models abi/io/store.go:217-250 -/
def storeStringIntoRange (E : Env σ) (s : String) : SM (St σ) (U32 × U32) := do
  let codec ← SM.lift (defaultFactory.get E.enc)
  if E.enc ≠ Latin1Utf16 then storeStringDynamic E s codec
  else do
    let enc := if isLatin1 s then Latin1 else UTF16LE
    let codec ← SM.lift (defaultFactory.get enc)
    let r ← storeStringDynamic E s codec
    pure (r.1, TaggedCodeUnits.toU32 ⟨r.2, enc == UTF16LE⟩)

/-- `StoreString`.
-- models abi/io/store.go:201-215 -/
def storeString (E : Env σ) (s : String) (ptr : U32) : SM (St σ) Unit := do
  let r ← storeStringIntoRange E s
  storeUInt32 r.1 ptr
  storeUInt32 r.2 (ptr + 4)

/-- The element loop of `StoreListIntoRange` from index `i`; `f` is `Store` at the element type.
-- models abi/io/store.go:431-437 -/
def storeElems (f : Val → U32 → SM (St σ) Unit) (ptr sz : U32) : List Val → Nat → SM (St σ) Unit
  | [], _ => pure ()
  | v :: vs, i => do
    f v (ptr + BitVec.ofNat 32 i * sz)
    storeElems f ptr sz vs (i + 1)

/-- `StoreListIntoRange`; `f` is `Store` at the element type `t`.
-- models abi/io/store.go:392-440. Simplified: the product of length and size is taken not to overflow `int`
(64 bits), so that the comparison with `math.MaxInt` never succeeds. -/
def storeListIntoRange (E : Env σ) (f : Val → U32 → SM (St σ) Unit) (t : Ty) (v : Val) : SM (St σ) (U32 × U32) :=
  match v with
  | .list vs => do
    let s ← SM.lift (size t)
    let n := BitVec.ofNat 32 (vs.length * s.toNat)
    let a ← SM.lift (alignment t)
    let ptr ← alloc E a n
    if ptr ≠ alignTo ptr a then SM.fail
    else do
      let st ← SM.get
      if (ptr + n).toNat > st.mem.len32.toNat then SM.fail
      else do
        storeElems f ptr s vs 0
        pure (ptr, BitVec.ofNat 32 vs.length)
  | _ => SM.fail

/-- `StoreList`.
-- models abi/io/store.go:380-390 -/
def storeList (E : Env σ) (f : Val → U32 → SM (St σ) Unit) (t : Ty) (v : Val) (ptr : U32) : SM (St σ) Unit := do
  let r ← storeListIntoRange E f t v
  storeUInt32 r.1 ptr
  storeUInt32 r.2 (ptr + 4)

/-- `StoreFlags`; the type assertion panics if the value is not a map.
-- models abi/io/store.go:515-526 -/
def storeFlags (v : Val) (ptr : U32) (ls : List String) : SM (St σ) Unit :=
  match v with
  | .map m => do
    let x ← SM.lift (packFlagsFrom m ls 0)
    storeInt (.u64 x) ptr (sizeFlags ls.length) false
  | _ => SM.crash

mutual
/-- `Store`, on expanded types.
-- models abi/io/store.go:13-72, with `StoreRecord` 451-480 and `StoreVariant` 482-513 inlined in their cases. -/
def store (E : Env σ) : Ty → Val → U32 → SM (St σ) Unit
  | .bool, v, ptr => do
    storeValidate .bool ptr
    match v with
    | .bool b => storeInt (.u8 (if b then 1 else 0)) ptr 1 false
    | _ => SM.fail
  | .u8, v, ptr => do storeValidate .u8 ptr; storeInt v ptr 1 false
  | .u16, v, ptr => do storeValidate .u16 ptr; storeInt v ptr 2 false
  | .u32, v, ptr => do storeValidate .u32 ptr; storeInt v ptr 4 false
  | .u64, v, ptr => do storeValidate .u64 ptr; storeInt v ptr 8 false
  | .s8, v, ptr => do storeValidate .s8 ptr; storeInt v ptr 1 true
  | .s16, v, ptr => do storeValidate .s16 ptr; storeInt v ptr 2 true
  | .s32, v, ptr => do storeValidate .s32 ptr; storeInt v ptr 4 true
  | .s64, v, ptr => do storeValidate .s64 ptr; storeInt v ptr 8 true
  | .f32, v, ptr => do storeValidate .f32 ptr; storeFloat32 v ptr
  | .f64, v, ptr => do storeValidate .f64 ptr; storeFloat64 v ptr
  | .char, v, ptr => do
    storeValidate .char ptr
    match v with
    | .s32 r => storeInt (.u32 r) ptr 4 false
    | _ => SM.fail
  | .string, v, ptr => do
    storeValidate .string ptr
    match v with
    | .str s => storeString E s ptr
    | _ => SM.fail
  | .list t, v, ptr => do
    storeValidate (.list t) ptr
    storeList E (store E t) t v ptr
  | .record fs, v, ptr => do
    storeValidate (.record fs) ptr
    match v with
    | .map m => storeFields E fs m ptr
    | _ => SM.fail
  | .variant cs, v, ptr => do
    storeValidate (.variant cs) ptr
    let r ← SM.lift (matchCase v cs)
    let dt ← SM.lift (discriminantType cs.length)
    let s ← SM.lift (size dt.ty)
    storeInt (.u32 r.1) ptr s false
    let a ← SM.lift (maxCaseAlignment cs 1)
    storeCase E cs r.1.toNat r.2 (alignTo (ptr + s) a)
  | .flags ls, v, ptr => do
    storeValidate (.flags ls) ptr
    storeFlags v ptr ls
  | .own rt, _, ptr => do storeValidate (.own rt) ptr; SM.fail
  | .borrow rt, _, ptr => do storeValidate (.borrow rt) ptr; SM.fail
  | .nil, _, ptr => do storeValidate .nil ptr; SM.fail
  | .other, _, ptr => do storeValidate .other ptr; SM.fail
/-- The field loop of `StoreRecord`.
-- models abi/io/store.go:456-478 -/
def storeFields (E : Env σ) : Fields → List (String × Val) → U32 → SM (St σ) Unit
  | .nil, _, _ => pure ()
  | .cons l t fs, m, ptr => do
    let a ← SM.lift (alignment t)
    let ptr := alignTo ptr a
    store E t (mapGet m l) ptr
    let s ← SM.lift (size t)
    storeFields E fs m (ptr + s)
/-- The end of `StoreVariant`: `v.Cases()[caseIndex]` and its payload.
-- models abi/io/store.go:508-512 -/
def storeCase (E : Env σ) : Cases → Nat → Val → U32 → SM (St σ) Unit
  | .nil, _, _, _ => SM.crash
  | .cons _ t _ _, 0, v, ptr => if t = .nil then pure () else store E t v ptr
  | .cons _ _ _ cs, i + 1, v, ptr => storeCase E cs i v ptr
end

end Verif.Abi
