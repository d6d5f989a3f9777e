import Verif.Go.SM
import Verif.Leb128.Model

/-!
# Model of package `binary`

A reader is the list of bytes still to come. End of input is an error, except where the code asks for it
(`errors.Is(err, io.EOF)` on the section header). What a reader has left after an error is not used.
-/

namespace Verif.Binary

/-- `api.ValType` as far as the reader makes them.
-- models api/value.go (`I32Type` .. `F64Type`) -/
inductive ValType where
  | i32 | i64 | f32 | f64
  deriving DecidableEq, Repr

/-- `api.FuncType`; `ResultType` is a list of types.
-- models api/directive.go:41-44, api/result.go:3-5 -/
structure FuncType where
  params : List ValType
  results : List ValType
  deriving DecidableEq, Repr

/-- `api.Instruction` as far as the reader makes them.
-- models api/control.go (`End`), api/variable.go:3-7, api/i32.go (`I32Add`) -/
inductive Instr where
  | end_
  | localGet (i : U32)
  | i32Add
  deriving DecidableEq, Repr

/-- `api.Func`. A nil body is `none`. Nil and empty slices are not told apart.
-- models api/directive.go:46-50 -/
structure Func where
  type : U32
  locals : List ValType
  body : Option (List Instr)
  deriving DecidableEq, Repr

/-- `api.Export` with a `FuncExportDescription`; the name is the bytes of the string.
-- models api/directive.go:56-67 -/
structure Export where
  name : List Byte
  func : U32
  deriving DecidableEq, Repr

/-- `api.Module`; the fields the reader never sets are left out.
-- models api/directive.go:22-35 -/
structure Module where
  types : List FuncType
  funcs : List Func
  exports : List Export
  deriving DecidableEq, Repr

/-- `api.Directive`.
-- models api/directive.go:3-5, 35-39 -/
inductive Directive where
  | module (m : Module)
  | component
  deriving DecidableEq, Repr

/-- `api.Document`.
-- models api/directive.go:7-10, 17-20 -/
structure Document where
  version : BitVec 16
  layer : BitVec 16
  directive : Directive
  deriving DecidableEq, Repr

/-- A call that reads. -/
abbrev Rd := SM (List Byte)

/-- `ReadByte`, `ReadOpCode`.
-- models binary/read.go:392-398, 408-410 with `encoding/binary.Read` of one byte -/
def readByte : Rd Byte
  | [] => (.err, [])
  | b :: bs => (.ok b, bs)

/-- `ReadBytes`, and `io.ReadFull` of a slice of that size.
-- models binary/read.go:412-416, 108-113, 307-311 -/
def readBytes (n : Nat) : Rd (List Byte) := fun bs =>
  if bs.length < n then (.err, []) else (.ok (bs.take n), bs.drop n)

/-- `ReadUInt16`: little endian.
-- models binary/read.go:404-406 -/
def readUInt16 : Rd (BitVec 16) := do
  let lo ← readByte
  let hi ← readByte
  pure (hi ++ lo)

/-- `ReadLebU128`.
-- models binary/read.go:424-427 -/
def readLeb : Rd U32 := fun bs =>
  match Leb128.decodeReader bs with
  | .ok (v, _, rest) => (.ok v, rest)
  | .err => (.err, [])
  | .panic => (.panic, [])
  | .diverge => (.diverge, [])

/-- The loops `for i := 0; i < count; i++ { x, err := read(..); if err != nil { return }; xs[i] = x }`.
-- models binary/read.go:143-149, 192-198, 228-234, 256-262 -/
def readMany {α : Type} (r : Rd α) : Nat → Rd (List α)
  | 0 => pure []
  | n + 1 => do
    let x ← r
    let xs ← readMany r n
    pure (x :: xs)

/-- `Magic`.
-- models binary/binary.go:3 -/
def magic : List Byte := [0x00, 0x61, 0x73, 0x6d]

/-- `ReadPreamble`: version and layer.
-- models binary/read.go:45-69 -/
def readPreamble : Rd (BitVec 16 × BitVec 16) := do
  let m ← readBytes magic.length
  if magic ≠ m then SM.fail
  else do
    let version ← readUInt16
    let layer ← readUInt16
    pure (version, layer)

/-- `ReadValueType`.
-- models binary/read.go:202-218, binary/binary.go:23-28 -/
def readValueType : Rd ValType := do
  let b ← readByte
  if b = 0x7f then pure .i32
  else if b = 0x7e then pure .i64
  else if b = 0x7d then pure .f32
  else if b = 0x7c then pure .f64
  else SM.fail

/-- `ReadValueTypeVector`, `ReadResultType`.
-- models binary/read.go:175-200 -/
def readValueTypes : Rd (List ValType) := do
  let n ← readLeb
  readMany readValueType n.toNat

/-- `ReadType`.
-- models binary/read.go:153-173 -/
def readType : Rd FuncType := do
  let b ← readByte
  if b ≠ 0x60 then SM.fail
  else do
    let ps ← readValueTypes
    let rs ← readValueTypes
    pure ⟨ps, rs⟩

/-- `ReadFuncTypes`; the section size is not used.
-- models binary/read.go:137-151 -/
def readFuncTypes : Rd (List FuncType) := do
  let n ← readLeb
  readMany readType n.toNat

/-- `ReadFunc`.
-- models binary/read.go:239-247 -/
def readFunc : Rd Func := do
  let i ← readLeb
  pure ⟨i, [], none⟩

/-- `ReadFuncs`; the section size is not used.
-- models binary/read.go:220-237 -/
def readFuncs : Rd (List Func) := do
  let n ← readLeb
  readMany readFunc n.toNat

/-- `ReadString`.
-- models binary/read.go:297-314 -/
def readString : Rd (List Byte) := do
  let n ← readLeb
  if n = 0 then pure [] else readBytes n.toNat

/-- `ReadExport`. The index is read before the kind is looked at.
-- models binary/read.go:267-295 -/
def readExport : Rd Export := do
  let name ← readString
  let kind ← readByte
  let i ← readLeb
  if kind = 0x00 then pure ⟨name, i⟩ else SM.fail

/-- `ReadExports`; the section size is not used.
-- models binary/read.go:249-265 -/
def readExports : Rd (List Export) := do
  let n ← readLeb
  readMany readExport n.toNat

/-- `ReadInstruction`.
-- models binary/read.go:370-390, opcode/opcode.go (0x0b, 0x20, 0x6a) -/
def readInstruction : Rd Instr := do
  let b ← readByte
  if b = 0x0b then pure .end_
  else if b = 0x20 then do
    let i ← readLeb
    pure (.localGet i)
  else if b = 0x6a then pure .i32Add
  else SM.fail

/-- The loop of `ReadExpression`, for at most that many rounds; the last instruction kept is the `End`.
-- models binary/read.go:318-328 -/
def readExpressionLoop : Nat → Rd (List Instr)
  | 0 => fun bs => (.diverge, bs)
  | fuel + 1 => do
    let i ← readInstruction
    if i = .end_ then pure [i]
    else do
      let is ← readExpressionLoop fuel
      pure (i :: is)

/-- `ReadExpression`. Every round reads a byte, so there are fewer rounds than bytes and one more.
-- models binary/read.go:316-332 -/
def readExpression : Rd (List Instr) := fun bs => readExpressionLoop (bs.length + 1) bs

/-- The loop of `UpdateFuncsWithCode`: rounds to go, index, functions. `int(count)` is not negative (`int` has 64 bits).
-- models binary/read.go:341-366 -/
def updateFuncsLoop : Nat → Nat → List Func → Rd (List Func)
  | 0, _, fs => pure fs
  | n + 1, i, fs =>
    match fs[i]? with
    | none => SM.fail
    | some f => do
      let _ ← readLeb
      let locals ← readValueTypes
      let body ← readExpression
      updateFuncsLoop n (i + 1) (fs.set i { f with locals := locals, body := some body })

/-- `UpdateFuncsWithCode`; the section size and the function sizes are not used.
-- models binary/read.go:334-368 -/
def updateFuncs (fs : List Func) : Rd (List Func) := do
  let n ← readLeb
  updateFuncsLoop n.toNat 0 fs

/-- `ReadSectionHeader`; `none` stands for `io.EOF`.
-- models binary/read.go:123-135 with 74-80 -/
def readSectionHeader : Rd (Option (Byte × U32))
  | [] => (.ok none, [])
  | bs => (do
    let id ← readByte
    let size ← readLeb
    pure (some (id, size))) bs

/-- The `switch` of `ReadModule`.
-- models binary/read.go:81-113, binary/binary.go:8-16 -/
def readSection (m : Module) (id : Byte) (size : U32) : Rd Module :=
  if id = 1 then do
    let ts ← readFuncTypes
    pure { m with types := ts }
  else if id = 3 then do
    let fs ← readFuncs
    pure { m with funcs := fs }
  else if id = 10 then do
    let fs ← updateFuncs m.funcs
    pure { m with funcs := fs }
  else if id = 7 then do
    let es ← readExports
    pure { m with exports := es }
  else do
    let _ ← readBytes size.toNat
    pure m

/-- The loop of `ReadModule`, for at most that many rounds.
-- models binary/read.go:73-114 -/
def readModuleLoop : Nat → Module → Rd Module
  | 0, _ => fun bs => (.diverge, bs)
  | fuel + 1, m => do
    match ← readSectionHeader with
    | none => pure m
    | some (id, size) => do
      let m ← readSection m id size
      readModuleLoop fuel m

/-- `ReadModule`. Every round but the last reads a byte.
-- models binary/read.go:71-117 -/
def readModule : Rd Module := fun bs => readModuleLoop (bs.length + 1) ⟨[], [], []⟩ bs

/-- `Read`; `ReadComponent` reads nothing.
-- models binary/read.go:16-43, 119-121, binary/binary.go:5-6 -/
def read : Rd Document := do
  let p ← readPreamble
  if p.1 = 0x0a then pure ⟨p.1, p.2, .component⟩
  else if p.1 = 0x01 then do
    let m ← readModule
    pure ⟨p.1, p.2, .module m⟩
  else SM.fail

end Verif.Binary
