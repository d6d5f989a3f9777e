import Verif.Abi.Types

/-!
# Model of `abi/io/alignment.go`, `size.go`, `flatten.go`
-/

namespace Verif.Abi

/-- `io.AlignTo`.
-- models abi/io/alignment.go:10-12. Simplified: the float64 computation `ceil(ptr/alignment)*alignment` is
replaced by exact arithmetic (`alignTo_float` shows that rounding makes no difference for the alignments the
code uses) and the conversion back to uint32 takes the low 32 bits (Go leaves it to the platform when the value
does not fit; amd64 does this, also for alignment 0, where it yields 0). -/
def alignTo (ptr a : U32) : U32 :=
  BitVec.ofNat 32 ((ptr.toNat + a.toNat - 1) / a.toNat * a.toNat)

/-- `max`.
-- models abi/io/math.go:5-10 -/
def umax (a b : U32) : U32 := if a.toNat > b.toNat then a else b

/-- The three types `DiscriminantType` returns. -/
inductive Disc where
  | u8 | u16 | u32
  deriving DecidableEq, Repr

/-- Discriminant as a value type. -/
def Disc.ty : Disc → Ty
  | .u8 => .u8
  | .u16 => .u16
  | .u32 => .u32

/-- Size and alignment of a discriminant in bytes; `disc_alignment` and `disc_size` show these are what
`Alignment` and `Size` return for it. -/
def Disc.bytes : Disc → U32
  | .u8 => 1
  | .u16 => 2
  | .u32 => 4

/-- `math.Ceil(math.Log2(float64(n)))`, computed exactly. -/
def ceilLog2 (n : Nat) : Nat := if n ≤ 1 then 0 else Nat.log2 (n - 1) + 1

/-- `io.DiscriminantType`, given the number of cases.
-- models abi/io/alignment.go:113-130. Simplified: `math.Log2` is computed exactly; it is exact in Go at the
powers of two, and strictly between them its error is far below the distance to the next integer multiple of 8. -/
def discriminantType (n : Nat) : Res Disc :=
  if ¬ (0 < n ∧ n < 2 ^ 63 - 1) then .err
  else match (ceilLog2 n + 7) / 8 with
    | 0 => .ok .u8
    | 1 => .ok .u8
    | 2 => .ok .u16
    | 3 => .ok .u32
    | _ => .err

/-- `io.AlignmentFlags`, given the number of labels.
-- models abi/io/alignment.go:87-96 -/
def alignmentFlags (n : Nat) : U32 :=
  if n ≤ 8 then 1 else if n ≤ 16 then 2 else 4

mutual
/-- `io.Alignment`.
-- models abi/io/alignment.go:14-57 and, in the `variant` case, `AlignmentVariant` 71-85: an error from
`MaxCaseAlignment` becomes `(0, nil)` there. -/
def alignment : Ty → Res U32
  | .bool => .ok 1
  | .u8 => .ok 1
  | .u16 => .ok 2
  | .u32 => .ok 4
  | .u64 => .ok 8
  | .s8 => .ok 1
  | .s16 => .ok 2
  | .s32 => .ok 4
  | .s64 => .ok 8
  | .f32 => .ok 4
  | .f64 => .ok 8
  | .char => .ok 4
  | .string => .ok 4
  | .list _ => .ok 4
  | .record fs => alignmentRecord fs 1
  | .variant cs =>
    match discriminantType cs.length with
    | .ok dt =>
      match maxCaseAlignment cs 1 with
      | .ok m => .ok (umax dt.bytes m)
      | .err => .ok 0
      | .panic => .panic
      | .diverge => .diverge
    | .err => .err
    | .panic => .panic
    | .diverge => .diverge
  | .flags ls => .ok (alignmentFlags ls.length)
  | .own _ => .ok 4
  | .borrow _ => .ok 4
  | .nil => .err
  | .other => .err
/-- Loop of `io.AlignmentRecord` from the accumulator `a`.
-- models abi/io/alignment.go:59-69 -/
def alignmentRecord : Fields → U32 → Res U32
  | .nil, a => .ok a
  | .cons _ t fs, a => do
    let al ← alignment t
    alignmentRecord fs (umax a al)
/-- Loop of `io.MaxCaseAlignment` from the accumulator `a`.
-- models abi/io/alignment.go:98-111 -/
def maxCaseAlignment : Cases → U32 → Res U32
  | .nil, a => .ok a
  | .cons _ t _ cs, a =>
    if t = .nil then maxCaseAlignment cs a
    else do
      let al ← alignment t
      maxCaseAlignment cs (umax a al)
end

/-- `io.NumI32Flags`, given the number of labels.
-- models abi/io/size.go:130-132; the float64 division by 32 and ceiling are exact below 2^53. -/
def numI32Flags (n : Nat) : U32 := BitVec.ofNat 32 ((n + 31) / 32)

/-- `io.SizeFlags`, given the number of labels.
-- models abi/io/size.go:116-128 -/
def sizeFlags (n : Nat) : U32 :=
  if n = 0 then 0 else if n ≤ 8 then 1 else if n ≤ 16 then 2 else 4 * numI32Flags n

mutual
/-- `io.Size`.
-- models abi/io/size.go:25-50, with `SizeRecord` 52-74 and `SizeVariant` 76-114 inlined in their cases. -/
def size : Ty → Res U32
  | .u8 => .ok 1
  | .s8 => .ok 1
  | .bool => .ok 1
  | .u16 => .ok 2
  | .s16 => .ok 2
  | .u32 => .ok 4
  | .s32 => .ok 4
  | .f32 => .ok 4
  | .u64 => .ok 8
  | .s64 => .ok 8
  | .f64 => .ok 8
  | .char => .ok 4
  | .list _ => .ok 8
  | .string => .ok 8
  | .record fs => do
    let s ← sizeFields fs 0
    let a ← alignmentRecord fs 1
    .ok (alignTo s a)
  | .variant cs => do
    let dt ← discriminantType cs.length
    let a ← maxCaseAlignment cs 1
    let s := alignTo dt.bytes a
    let m ← maxCaseSize cs 0
    let s := s + m
    let a ← alignment (.variant cs)
    .ok (alignTo s a)
  | .flags ls => .ok (sizeFlags ls.length)
  | .own _ => .ok 4
  | .borrow _ => .ok 4
  | .nil => .err
  | .other => .err
/-- Loop of `io.SizeRecord` from the offset `s`.
-- models abi/io/size.go:53-68 -/
def sizeFields : Fields → U32 → Res U32
  | .nil, s => .ok s
  | .cons _ t fs, s => do
    let a ← alignment t
    let s := alignTo s a
    let sz ← size t
    sizeFields fs (s + sz)
/-- Loop of `io.SizeVariant` over the cases.
-- models abi/io/size.go:97-107 -/
def maxCaseSize : Cases → U32 → Res U32
  | .nil, m => .ok m
  | .cons _ t _ cs, m =>
    if t = .nil then maxCaseSize cs m
    else do
      let sz ← size t
      maxCaseSize cs (umax m sz)
end

/-- The addresses at which `StoreRecord` and `LoadRecord` visit the fields, starting from `ptr`.
-- models abi/io/store.go:456-478 and abi/io/load.go:303-322, the pointer arithmetic of the two loops;
`storeFields_addrs` and `loadFields_addrs` show that the loops visit exactly these addresses. -/
def fieldAddrs : Fields → U32 → Res (List U32)
  | .nil, _ => .ok []
  | .cons _ t fs, ptr => do
    let a ← alignment t
    let ptr := alignTo ptr a
    let sz ← size t
    let rest ← fieldAddrs fs (ptr + sz)
    .ok (ptr :: rest)

/-- `kind.Kind`.
-- models abi/kind/kind.go:6-11 -/
inductive Kind where
  | u32 | u64 | f32 | f64
  deriving DecidableEq, Repr

/-- `io.join`.
-- models abi/io/flatten.go:138-150 -/
def join (a b : Kind) : Kind :=
  if a = b then a
  else if a = .u32 ∧ b = .f32 then .u32
  else if a = .f32 ∧ b = .u32 then .u32
  else .u64

/-- Joining the flattening of one more case into the accumulated list, position by position.
-- models abi/io/flatten.go:80-86 -/
def joinInto : List Kind → List Kind → List Kind
  | flat, [] => flat
  | [], fts => fts
  | k :: flat, ft :: fts => join k ft :: joinInto flat fts

mutual
/-- `io.FlattenType`.
-- models abi/io/flatten.go:22-56, with `FlattenVariant` 70-98 inlined; the discriminant flattens to one u32. -/
def flatten : Ty → Res (List Kind)
  | .bool => .ok [.u32]
  | .u8 => .ok [.u32]
  | .u16 => .ok [.u32]
  | .u32 => .ok [.u32]
  | .u64 => .ok [.u64]
  | .s64 => .ok [.u64]
  | .s8 => .ok [.u32]
  | .s16 => .ok [.u32]
  | .s32 => .ok [.u32]
  | .f32 => .ok [.f32]
  | .f64 => .ok [.f64]
  | .char => .ok [.u32]
  | .string => .ok [.u32, .u32]
  | .list _ => .ok [.u32, .u32]
  | .record fs => flattenFields fs
  | .variant cs => do
    let flat ← flattenCases cs []
    let _ ← discriminantType cs.length
    .ok (.u32 :: flat)
  | .flags ls => .ok (List.replicate (numI32Flags ls.length).toNat .u32)
  | .own _ => .ok [.u32]
  | .borrow _ => .ok [.u32]
  | .nil => .err
  | .other => .err
/-- `io.FlattenRecord`.
-- models abi/io/flatten.go:58-68 (the loop appends; concatenation is written right-associated here). -/
def flattenFields : Fields → Res (List Kind)
  | .nil => .ok []
  | .cons _ t fs => do
    let k ← flatten t
    let ks ← flattenFields fs
    .ok (k ++ ks)
/-- Loop of `io.FlattenVariant`.
-- models abi/io/flatten.go:71-88 -/
def flattenCases : Cases → List Kind → Res (List Kind)
  | .nil, flat => .ok flat
  | .cons _ t _ cs, flat =>
    if t = .nil then flattenCases cs flat
    else do
      let fts ← flatten t
      flattenCases cs (joinInto flat fts)
end

/-- `io.FlattenTypes`.
-- models abi/io/flatten.go:10-20 -/
def flattenTypes : List Ty → Res (List Kind)
  | [] => .ok []
  | t :: ts => do
    let k ← flatten t
    let ks ← flattenTypes ts
    .ok (k ++ ks)

/-- `types.FuncType`: parameter and result types (the names play no role in flattening).
-- models abi/types/func.go:15-43 -/
structure FuncTy where
  params : List Ty
  results : List Ty

/-- `io.flattenFuncType`.
-- models abi/io/flatten.go:123-136 -/
def flattenFunc (ft : FuncTy) (maxParams : Nat) : Res (List Kind × List Kind) := do
  let ps ← flattenTypes ft.params
  let ps := if ps.length > maxParams then [Kind.u32] else ps
  let rs ← flattenTypes ft.results
  .ok (ps, rs)

/-- `io.FlattenFuncTypeLower`.
-- models abi/io/flatten.go:100-110 (limits are taken non-negative). -/
def flattenFuncLower (ft : FuncTy) (maxParams maxResults : Nat) : Res (List Kind × List Kind) := do
  let (ps, rs) ← flattenFunc ft maxParams
  if rs.length > maxResults then .ok (ps ++ [.u32], []) else .ok (ps, rs)

/-- `io.FlattenFuncTypeLift`.
-- models abi/io/flatten.go:112-121 (limits are taken non-negative). -/
def flattenFuncLift (ft : FuncTy) (maxParams maxResults : Nat) : Res (List Kind × List Kind) := do
  let (ps, rs) ← flattenFunc ft maxParams
  if rs.length > maxResults then .ok (ps, [.u32]) else .ok (ps, rs)

end Verif.Abi
