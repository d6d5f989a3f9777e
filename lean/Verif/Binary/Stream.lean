import Verif.Go.Reader
import Verif.Binary.Model

/-!
# The binary reader on an `io.Reader`

`Verif.Binary.Model` takes the input for a list of bytes. Here the same functions call `Read` of a reader, which hands out
its bytes in portions of its own choice, and whose errors are looked at where the code looks at them. `fuel` bounds the
number of rounds of every loop; running out of it is `diverge`.
-/

namespace Verif.Binary.Stream

open Io

variable {σ : Type} (R : Reader σ) (fuel : Nat)

/-- A call whose error is passed on. -/
def passing {α : Type} (f : σ → Out α × σ) : SM σ α := fun s => ((f s).1.res, (f s).2)

/-- `ReadByte`: `encoding/binary.Read` of one byte.
-- models binary/read.go:408-410, 418-422 -/
def byteOut (s : σ) : Out Byte × σ :=
  match readFull R fuel 1 s with
  | (.ok bs, s) => (.ok (bs.headD 0), s)
  | (.eof, s) => (.eof, s)
  | (.err, s) => (.err, s)
  | (.diverge, s) => (.diverge, s)

/-- The loop of `leb128.DecodeReader`: one byte is asked for; none is an error of its own, a byte with an error is that
error.
-- models leb128/decode.go:15-30 -/
def lebLoop : Nat → U32 → Nat → σ → Out U32 × σ
  | 0, _, _, s => (.diverge, s)
  | k + 1, val, shift, s =>
    match R.read s 1 with
    | ([], _, s) => (.err, s)
    | (_ :: _, some .eof, s) => (.eof, s)
    | (_ :: _, some .other, s) => (.err, s)
    | (b :: _, none, s) =>
      let val := val ||| ((b &&& 0b01111111#8).zeroExtend 32 <<< shift)
      if b &&& 0b10000000#8 = 0#8 then (.ok val, s) else lebLoop k val (shift + 7) s

/-- `ReadLebU128`.
-- models binary/read.go:424-427, leb128/decode.go:9-32 -/
def lebOut (s : σ) : Out U32 × σ := lebLoop R fuel 0#32 0 s

/-- `ReadByte`, `ReadOpCode`.
-- models binary/read.go:392-398, 408-410 -/
def readByte : SM σ Byte := passing (byteOut R fuel)

/-- `ReadBytes`, and `io.ReadFull` of a slice of that size.
-- models binary/read.go:412-416, 108-113, 307-311 -/
def readBytes (n : Nat) : SM σ (List Byte) := passing (readFull R fuel n)

/-- `ReadUInt16`: little endian.
-- models binary/read.go:404-406, 418-422 -/
def readUInt16 : SM σ (BitVec 16) := do
  let bs ← readBytes R fuel 2
  pure (bs.getD 1 0 ++ bs.getD 0 0)

/-- `ReadLebU128` whose error is passed on.
-- models binary/read.go:424-427 -/
def readLeb : SM σ U32 := passing (lebOut R fuel)

/-- The loops `for i := 0; i < count; i++ { x, err := read(..); if err != nil { return }; xs[i] = x }`.
-- models binary/read.go:143-149, 192-198, 228-234, 256-262 -/
def readMany {α : Type} (r : SM σ α) : Nat → SM σ (List α)
  | 0 => pure []
  | n + 1 => do
    let x ← r
    let xs ← readMany r n
    pure (x :: xs)

/-- `ReadPreamble`.
-- models binary/read.go:45-69 -/
def readPreamble : SM σ (BitVec 16 × BitVec 16) := do
  let m ← readBytes R fuel magic.length
  if magic ≠ m then SM.fail
  else do
    let version ← readUInt16 R fuel
    let layer ← readUInt16 R fuel
    pure (version, layer)

/-- `ReadValueType`.
-- models binary/read.go:202-218 -/
def readValueType : SM σ ValType := do
  let b ← readByte R fuel
  if b = 0x7f then pure .i32
  else if b = 0x7e then pure .i64
  else if b = 0x7d then pure .f32
  else if b = 0x7c then pure .f64
  else SM.fail

/-- `ReadValueTypeVector`, `ReadResultType`.
-- models binary/read.go:175-200 -/
def readValueTypes : SM σ (List ValType) := do
  let n ← readLeb R fuel
  readMany (readValueType R fuel) n.toNat

/-- `ReadType`.
-- models binary/read.go:153-173 -/
def readType : SM σ FuncType := do
  let b ← readByte R fuel
  if b ≠ 0x60 then SM.fail
  else do
    let ps ← readValueTypes R fuel
    let rs ← readValueTypes R fuel
    pure ⟨ps, rs⟩

/-- `ReadFuncTypes`.
-- models binary/read.go:137-151 -/
def readFuncTypes : SM σ (List FuncType) := do
  let n ← readLeb R fuel
  readMany (readType R fuel) n.toNat

/-- `ReadFunc`.
-- models binary/read.go:239-247 -/
def readFunc : SM σ Func := do
  let i ← readLeb R fuel
  pure ⟨i, [], none⟩

/-- `ReadFuncs`.
-- models binary/read.go:220-237 -/
def readFuncs : SM σ (List Func) := do
  let n ← readLeb R fuel
  readMany (readFunc R fuel) n.toNat

/-- `ReadString`.
-- models binary/read.go:297-314 -/
def readString : SM σ (List Byte) := do
  let n ← readLeb R fuel
  if n = 0 then pure [] else readBytes R fuel n.toNat

/-- `ReadExport`.
-- models binary/read.go:267-295 -/
def readExport : SM σ Export := do
  let name ← readString R fuel
  let kind ← readByte R fuel
  let i ← readLeb R fuel
  if kind = 0x00 then pure ⟨name, i⟩ else SM.fail

/-- `ReadExports`.
-- models binary/read.go:249-265 -/
def readExports : SM σ (List Export) := do
  let n ← readLeb R fuel
  readMany (readExport R fuel) n.toNat

/-- `ReadInstruction`.
-- models binary/read.go:370-390 -/
def readInstruction : SM σ Instr := do
  let b ← readByte R fuel
  if b = 0x0b then pure .end_
  else if b = 0x20 then do
    let i ← readLeb R fuel
    pure (.localGet i)
  else if b = 0x6a then pure .i32Add
  else SM.fail

/-- The loop of `ReadExpression`.
-- models binary/read.go:318-328 -/
def readExpressionLoop : Nat → SM σ (List Instr)
  | 0 => fun s => (.diverge, s)
  | k + 1 => do
    let i ← readInstruction R fuel
    if i = .end_ then pure [i]
    else do
      let is ← readExpressionLoop k
      pure (i :: is)

/-- `ReadExpression`.
-- models binary/read.go:316-332 -/
def readExpression : SM σ (List Instr) := readExpressionLoop R fuel fuel

/-- The loop of `UpdateFuncsWithCode`.
-- models binary/read.go:341-366 -/
def updateFuncsLoop : Nat → Nat → List Func → SM σ (List Func)
  | 0, _, fs => pure fs
  | n + 1, i, fs =>
    match fs[i]? with
    | none => SM.fail
    | some f => do
      let _ ← readLeb R fuel
      let locals ← readValueTypes R fuel
      let body ← readExpression R fuel
      updateFuncsLoop n (i + 1) (fs.set i { f with locals := locals, body := some body })

/-- `UpdateFuncsWithCode`.
-- models binary/read.go:334-368 -/
def updateFuncs (fs : List Func) : SM σ (List Func) := do
  let n ← readLeb R fuel
  updateFuncsLoop R fuel n.toNat 0 fs

/-- `ReadSectionHeader` as `ReadModule` uses it: `none` if the error is `io.EOF`, be it from the id or from the size.
-- models binary/read.go:123-135 with 74-80 -/
def readSectionHeader : SM σ (Option (Byte × U32)) := fun s =>
  match byteOut R fuel s with
  | (.eof, s) => (.ok none, s)
  | (.err, s) => (.err, s)
  | (.diverge, s) => (.diverge, s)
  | (.ok id, s) =>
    match lebOut R fuel s with
    | (.eof, s) => (.ok none, s)
    | (.err, s) => (.err, s)
    | (.diverge, s) => (.diverge, s)
    | (.ok size, s) => (.ok (some (id, size)), s)

/-- The `switch` of `ReadModule`.
-- models binary/read.go:81-113 -/
def readSection (m : Module) (id : Byte) (size : U32) : SM σ Module :=
  if id = 1 then do
    let ts ← readFuncTypes R fuel
    pure { m with types := ts }
  else if id = 3 then do
    let fs ← readFuncs R fuel
    pure { m with funcs := fs }
  else if id = 10 then do
    let fs ← updateFuncs R fuel m.funcs
    pure { m with funcs := fs }
  else if id = 7 then do
    let es ← readExports R fuel
    pure { m with exports := es }
  else do
    let _ ← readBytes R fuel size.toNat
    pure m

/-- The loop of `ReadModule`.
-- models binary/read.go:73-114 -/
def readModuleLoop : Nat → Module → SM σ Module
  | 0, _ => fun s => (.diverge, s)
  | k + 1, m => do
    match ← readSectionHeader R fuel with
    | none => pure m
    | some (id, size) => do
      let m ← readSection R fuel m id size
      readModuleLoop k m

/-- `ReadModule`.
-- models binary/read.go:71-117 -/
def readModule : SM σ Module := readModuleLoop R fuel fuel ⟨[], [], []⟩

/-- `Read`.
-- models binary/read.go:16-43, 119-121 -/
def read : SM σ Document := do
  let p ← readPreamble R fuel
  if p.1 = 0x0a then pure ⟨p.1, p.2, .component⟩
  else if p.1 = 0x01 then do
    let m ← readModule R fuel
    pure ⟨p.1, p.2, .module m⟩
  else SM.fail

end Verif.Binary.Stream
