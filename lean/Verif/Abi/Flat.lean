import Verif.Abi.Store
import Verif.Abi.Load

/-!
# Model of `abi/values`, `abi/io/lower.go` and `abi/io/lift.go`
-/

namespace Verif.Abi

/-- `values.Value`; floats are their bits. `values.U64` is an `int64` in the code, with the same bits.
-- models abi/values/int.go:5-23, abi/values/float.go:5-27 -/
inductive FV where
  | u32 (x : BitVec 32)
  | u64 (x : BitVec 64)
  | f32 (bits : BitVec 32)
  | f64 (bits : BitVec 64)
  deriving DecidableEq, Repr

/-- `Value.Kind`.
-- models abi/values/int.go:7,17, abi/values/float.go:9,21 -/
def FV.kind : FV → Kind
  | .u32 _ => .u32
  | .u64 _ => .u64
  | .f32 _ => .f32
  | .f64 _ => .f64

/-- `Value.Value`: the Go value with its dynamic type.
-- models abi/values/int.go:11,21, abi/values/float.go:13,25 -/
def FV.val : FV → Val
  | .u32 x => .u32 x
  | .u64 x => .u64 x
  | .f32 x => .f32 x
  | .f64 x => .f64 x

/-- `values.Zero`; the model has only the four kinds it knows.
-- models abi/values/factory.go:9-22 -/
def zero : Kind → FV
  | .u32 => .u32 0
  | .u64 => .u64 0
  | .f32 => .f32 0
  | .f64 => .f64 0

/-! ## Iterators -/

/-- A value iterator: the `valueIterator` at the bottom and the remaining flat types of the `coerceValueIterator`s
wrapped around it, the outermost wrapper first.
-- models abi/values/value.go:27-30, abi/values/coerce_value_iterator.go:17-20 -/
structure Iter where
  values : List FV
  index : Nat
  stack : List (List Kind)

/-- `NewIterator`.
-- models abi/values/value.go:20-25 -/
def newIterator (vs : List FV) : Iter := ⟨vs, 0, []⟩

/-- `valueIterator.Next`: result and new index. Beyond the end of a non-empty list the index expression panics.
-- models abi/values/value.go:32-43 -/
def baseNext (vs : List FV) (i : Nat) (k : Kind) : Res Val × Nat :=
  if vs.length = 0 then (.err, i)
  else match vs[i]? with
    | none => (.panic, i)
    | some v => if v.kind ≠ k then (.err, i + 1) else (.ok v.val, i + 1)

/-- The type switch at the end of `coerceValueIterator.Next`.
-- models abi/values/coerce_value_iterator.go:54-81 -/
def uncoerce (have_ want : Kind) (x : Val) : Res Val :=
  match have_, want with
  | .u32, .f32 => match x with
    | .u32 y => .ok (.f32 y)
    | _ => .err
  | .u64, .u32 => match x with
    | .u64 y => .ok (.u32 (y.setWidth 32))
    | _ => .err
  | .u64, .f32 => match x with
    | .u64 y => .ok (.f32 (y.setWidth 32))
    | _ => .err
  | .u64, .f64 => match x with
    | .u64 y => .ok (.f64 y)
    | _ => .err
  | _, _ => .ok x

/-- `Next` through the wrappers: result, new index, remaining flat types of the wrappers.
-- models abi/values/coerce_value_iterator.go:41-82 -/
def nextOn (vs : List FV) (i : Nat) : List (List Kind) → Kind → Res Val × Nat × List (List Kind)
  | [], k => ((baseNext vs i k).1, (baseNext vs i k).2, [])
  | [] :: st, _ => (.err, i, [] :: st)
  | (h :: fts) :: st, k =>
    match nextOn vs i st h with
    | (r, i', st') => (r >>= uncoerce h k, i', fts :: st')

/-- `ValueIterator.Next`.
-- models abi/values/value.go:32-43, abi/values/coerce_value_iterator.go:41-82 -/
def Iter.next (it : Iter) (k : Kind) : Res Val × Iter :=
  match nextOn it.values it.index it.stack k with
  | (r, i, st) => (r, { it with index := i, stack := st })

/-! ## Lowering -/

variable {σ : Type}

/-- The type switch in the payload loop of `LowerFlatVariant`.
-- models abi/io/lower.go:305-334 -/
def coerceTo : FV → Kind → FV
  | .f32 x, .u32 => .u32 x
  | .u32 x, .u64 => .u64 (x.setWidth 64)
  | .f32 x, .u64 => .u64 (x.setWidth 64)
  | .f64 x, .u64 => .u64 x
  | v, _ => v

/-- The payload loop of `LowerFlatVariant`: the coerced payload and the flat types left.
-- models abi/io/lower.go:299-335 -/
def coercePayload : List FV → List Kind → Res (List FV × List Kind)
  | [], fts => .ok ([], fts)
  | _ :: _, [] => .err
  | v :: vs, k :: fts => do
    let r ← coercePayload vs fts
    .ok (coerceTo v k :: r.1, r.2)

/-- The word loop of `LowerFlatFlags`, `n` words to go.
-- models abi/io/lower.go:233-237 -/
def flagWords : Nat → U64 → List FV
  | 0, _ => []
  | n + 1, x => .u32 (x.setWidth 32) :: flagWords n (x >>> 32)

/-- `LowerFlatFlags`.
-- models abi/io/lower.go:222-242; what is left of the number after the loop is the number shifted by 32 per round. -/
def lowerFlags (v : Val) (ls : List String) : Res (List FV) :=
  match v with
  | .map m => do
    let x ← packFlagsFrom m ls 0
    let n := (numI32Flags ls.length).toNat
    if x >>> (32 * n) ≠ 0 then .err else .ok (flagWords n x)
  | _ => .err

mutual
/-- `LowerFlat`, on expanded types.
-- models abi/io/lower.go:13-64, with the scalar functions 66-176, `LowerString` 178-193, `LowerFlatList` 195-204,
`LowerOwn` 244-254, `LowerBorrow` 256-270 and `LowerFlatVariant` 272-344 inlined in their cases. -/
def lowerFlat (E : Env σ) : Ty → Val → SM (St σ) (List FV)
  | .bool, v => match v with
    | .bool b => pure [.u32 (if b then 1 else 0)]
    | _ => SM.fail
  | .u8, v => match v with
    | .u8 x => pure [.u32 (x.setWidth 32)]
    | _ => SM.fail
  | .u16, v => match v with
    | .u16 x => pure [.u32 (x.setWidth 32)]
    | _ => SM.fail
  | .u32, v => match v with
    | .u32 x => pure [.u32 x]
    | _ => SM.fail
  | .u64, v => match v with
    | .u64 x => pure [.u64 x]
    | _ => SM.fail
  | .s8, v => match v with
    | .s8 x => pure [.u32 (x.signExtend 32)]
    | _ => SM.fail
  | .s16, v => match v with
    | .s16 x => pure [.u32 (x.signExtend 32)]
    | _ => SM.fail
  | .s32, v => match v with
    | .s32 x => pure [.u32 x]
    | _ => SM.fail
  | .s64, v => match v with
    | .s64 x => pure [.u64 x]
    | _ => SM.fail
  | .f32, v => match v with
    | .f32 x => pure [.f32 (canon32 x)]
    | _ => SM.fail
  | .f64, v => match v with
    | .f64 x => pure [.f64 (canon64 x)]
    | _ => SM.fail
  | .char, v => match v with
    | .s32 r => pure [.u32 r]
    | _ => SM.crash
  | .string, v => match v with
    | .str s => do
      let r ← storeStringIntoRange E s
      pure [.u32 r.1, .u32 r.2]
    | _ => SM.crash
  | .list t, v => do
    let r ← storeListIntoRange E (store E t) t v
    pure [.u32 r.1, .u32 r.2]
  | .record fs, v => match v with
    | .map m => lowerFields E fs m
    | _ => SM.fail
  | .variant cs, v => do
    let r ← SM.lift (matchCase v cs)
    let fts ← SM.lift (flatten (.variant cs))
    match fts with
    | [] => SM.fail
    | first :: fts =>
      if first ≠ .u32 then SM.fail
      else do
        let payload ← lowerCase E cs r.1.toNat r.2
        let p ← SM.lift (coercePayload payload fts)
        pure (.u32 r.1 :: (p.1 ++ p.2.map zero))
  | .flags ls, v => SM.lift (lowerFlags v ls)
  | .own rt, v => match v with
    | .u32 rep => do
      let i ← onWorld (Handles.lowerOwn E.inst rt rep)
      pure [.u32 i]
    | _ => SM.fail
  | .borrow rt, v => match v with
    | .u32 rep => do
      let i ← onWorld (Handles.lowerBorrow E.info E.inst E.cx rt rep)
      pure [.u32 i]
    | _ => SM.fail
  | .nil, _ => SM.fail
  | .other, _ => SM.fail
/-- The field loop of `LowerFlatRecord`.
-- models abi/io/lower.go:212-219 (the loop appends; concatenation is written right-associated here) -/
def lowerFields (E : Env σ) : Fields → List (String × Val) → SM (St σ) (List FV)
  | .nil, _ => pure []
  | .cons l t fs, m => do
    let a ← lowerFlat E t (mapGet m l)
    let b ← lowerFields E fs m
    pure (a ++ b)
/-- `variant.Cases()[caseIndex]` and the lowering of its payload.
-- models abi/io/lower.go:289-298 -/
def lowerCase (E : Env σ) : Cases → Nat → Val → SM (St σ) (List FV)
  | .nil, _, _ => SM.crash
  | .cons _ t _ _, 0, v => if t = .nil then pure [] else lowerFlat E t v
  | .cons _ _ _ cs, i + 1, v => lowerCase E cs i v
end

/-! ## Lifting -/

/-- The state of a lifting: what a call can change, and the iterator. -/
structure LSt (σ : Type) where
  st : St σ
  it : Iter

/-- A call that does not use the iterator. -/
def onSt {α : Type} (m : SM (St σ) α) : SM (LSt σ) α := fun s => ((m s.st).1, { s with st := (m s.st).2 })

/-- `vi.Next(k)`. -/
def next (k : Kind) : SM (LSt σ) Val := fun s => ((s.it.next k).1, { s with it := (s.it.next k).2 })

/-- `LiftFlatU32`.
-- models abi/io/lift.go:128-138; also the first lines of the other lifts that ask for `kind.U32` -/
def nextU32 : SM (LSt σ) U32 := do
  match ← next .u32 with
  | .u32 x => pure x
  | _ => SM.fail

/-- `LiftFlatU64`.
-- models abi/io/lift.go:140-150 -/
def nextU64 : SM (LSt σ) U64 := do
  match ← next .u64 with
  | .u64 x => pure x
  | _ => SM.fail

/-- The reading part of `LiftFlatFloat32`.
-- models abi/io/lift.go:201-208 -/
def nextF32 : SM (LSt σ) U32 := do
  match ← next .f32 with
  | .f32 x => pure x
  | _ => SM.fail

/-- The reading part of `LiftFlatFloat64`.
-- models abi/io/lift.go:213-220 -/
def nextF64 : SM (LSt σ) U64 := do
  match ← next .f64 with
  | .f64 x => pure x
  | _ => SM.fail

/-- The word loop of `LiftFlatFlags`, `n` words to go.
-- models abi/io/lift.go:329-340; a shift by 64 or more gives 0 -/
def liftFlagWords : Nat → Nat → U64 → SM (LSt σ) U64
  | 0, _, x => pure x
  | n + 1, shift, x => do
    let w ← nextU32
    liftFlagWords n (shift + 32) (x ||| (w.setWidth 64 <<< shift))

/-- `values.NewCoerceValueIterator(vi, flatTypes)`, used in place of `vi` from then on.
-- models abi/io/lift.go:305, abi/values/coerce_value_iterator.go:84-89 -/
def pushFlat (fts : List Kind) : SM (LSt σ) Unit := SM.modify fun s => { s with it := { s.it with stack := fts :: s.it.stack } }

/-- `cvi.FlatTypes()`, and back to the wrapped iterator.
-- models abi/io/lift.go:310-311 -/
def popFlat : SM (LSt σ) (List Kind) := fun s =>
  match s.it.stack with
  | [] => (.panic, s)
  | fts :: st => (.ok fts, { s with it := { s.it with stack := st } })

/-- The loop of `LiftFlatVariant` over the flat types the case did not use.
-- models abi/io/lift.go:314-319 -/
def skipFlat : List Kind → SM (LSt σ) Unit
  | [] => pure ()
  | k :: fts => do
    let _ ← next k
    skipFlat fts

mutual
/-- `LiftFlat`, on expanded types.
-- models abi/io/lift.go:28-89, with the scalar functions 91-232, `LiftFlatList` 234-244, `LiftFlatString` 246-256,
`LiftFlatVariant` 270-323 and `LiftFlatFlags` 325-342 inlined in their cases. -/
def liftFlat (E : Env σ) : Ty → SM (LSt σ) Val
  | .bool => do
    let x ← nextU32
    pure (.bool (x != 0))
  | .u8 => do
    let x ← nextU32
    pure (.u8 (x.setWidth 8))
  | .u16 => do
    let x ← nextU32
    pure (.u16 (x.setWidth 16))
  | .u32 => do
    let x ← nextU32
    pure (.u32 x)
  | .u64 => do
    let x ← nextU64
    pure (.u64 x)
  | .s8 => do
    let x ← nextU32
    pure (.s8 (x.setWidth 8))
  | .s16 => do
    let x ← nextU32
    pure (.s16 (x.setWidth 16))
  | .s32 => do
    let x ← nextU32
    pure (.s32 x)
  | .s64 => do
    let x ← nextU64
    pure (.s64 x)
  | .f32 => do
    let x ← nextF32
    pure (.f32 (canon32 x))
  | .f64 => do
    let x ← nextF64
    pure (.f64 (canon64 x))
  | .char => do
    let x ← nextU32
    let r ← SM.lift (convertU32ToRune x)
    pure (.s32 r)
  | .string => do
    let p ← nextU32
    let n ← nextU32
    let s ← onSt (loadStringFromRange E p n)
    pure (.str s)
  | .list t => do
    let p ← nextU32
    let n ← nextU32
    let vs ← onSt (loadListFromRange (load E t) t p n)
    pure (.list vs)
  | .record fs => liftFields E fs []
  | .variant cs => do
    let fts ← SM.lift (flatten (.variant cs))
    match fts with
    | [] => SM.fail
    | first :: fts =>
      if first ≠ .u32 then SM.fail
      else do
        let i ← nextU32
        if i.toNat ≥ cs.length then SM.fail
        else liftCase E cs cs i.toNat fts
  | .flags ls => do
    let x ← liftFlagWords (numI32Flags ls.length).toNat 0 0
    pure (.map (unpackFlagsOnto ls x []))
  | .own rt => do
    let i ← nextU32
    let r ← onSt (onWorld (Handles.liftOwn E.inst rt i))
    pure (.u32 r)
  | .borrow rt => do
    let i ← nextU32
    let r ← onSt (onWorld (Handles.liftBorrow E.inst E.cx rt i))
    pure (.u32 r)
  | .nil => SM.fail
  | .other => SM.fail
/-- The field loop of `LiftFlatRecord`.
-- models abi/io/lift.go:258-268 -/
def liftFields (E : Env σ) : Fields → List (String × Val) → SM (LSt σ) Val
  | .nil, acc => pure (.map acc)
  | .cons l t fs, acc => do
    let v ← liftFlat E t
    liftFields E fs (mapSet acc l v)
/-- The end of `LiftFlatVariant`, for case `i` and the flat types after the discriminant.
-- models abi/io/lift.go:300-323 (the label and the map are built last) -/
def liftCase (E : Env σ) (all : Cases) : Cases → Nat → List Kind → SM (LSt σ) Val
  | .nil, _, _ => SM.crash
  | .cons l t r _, 0, fts =>
    if t = .nil then do
      skipFlat fts
      let label ← SM.lift (caseLabelWithRefinements all l r)
      pure (.map [(label, .nil)])
    else do
      pushFlat fts
      let v ← liftFlat E t
      let fts ← popFlat
      skipFlat fts
      let label ← SM.lift (caseLabelWithRefinements all l r)
      pure (.map [(label, v)])
  | .cons _ _ _ cs, i + 1, fts => liftCase E all cs i fts
end

end Verif.Abi
