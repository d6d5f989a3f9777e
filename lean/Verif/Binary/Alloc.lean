import Verif.Binary.Model

/-!
# The reader together with the memory it asks for

The same functions as in `Verif.Binary.Model`, on a state that also counts the slots of all slices the code asks
the Go runtime for: the count given to each `make`, and one for each element appended. A slot is an element of
the slice, so between 1 and 40 bytes. Objects of fixed size that are made for an element (`&api.FuncType{…}`) and
the buffers of fixed size in `encoding/binary` are not counted.
-/

namespace Verif.Binary

/-- The bytes still to come, and the slots asked for until now. -/
structure Tally where
  rest : List Byte
  asked : Nat

/-- A call that reads and asks for memory. -/
abbrev Ra := SM Tally

/-- A call that asks for no memory that is counted.
-- models nothing of its own; the calls it is used for are cited in `Verif.Binary.Model` -/
def plain {α : Type} (r : Rd α) : Ra α := fun s => ((r s.rest).1, ⟨(r s.rest).2, s.asked⟩)

/-- `make([]T, n)`, or `append` of `n` elements.
-- models binary/read.go:108, 142, 191, 227, 255, 307, 323, 413 (simplified: it always succeeds; the Go runtime
ends the program if there is not enough memory) -/
def ask (n : Nat) : Ra Unit := fun s => (.ok (), ⟨s.rest, s.asked + n⟩)

/-- The counted loops, as `readMany`.
-- models binary/read.go:143-149, 192-198, 228-234, 256-262 -/
def askMany {α : Type} (r : Ra α) : Nat → Ra (List α)
  | 0 => pure []
  | n + 1 => do
    let x ← r
    let xs ← askMany r n
    pure (x :: xs)

/-- `ReadBytes`.
-- models binary/read.go:412-416 -/
def askBytes (n : Nat) : Ra (List Byte) := do
  ask n
  plain (readBytes n)

/-- `ReadPreamble`.
-- models binary/read.go:45-69 -/
def askPreamble : Ra (BitVec 16 × BitVec 16) := do
  let m ← askBytes magic.length
  if magic ≠ m then SM.fail
  else do
    let version ← plain readUInt16
    let layer ← plain readUInt16
    pure (version, layer)

/-- `ReadValueTypeVector`, `ReadResultType`.
-- models binary/read.go:175-200 -/
def askValueTypes : Ra (List ValType) := do
  let n ← plain readLeb
  ask n.toNat
  askMany (plain readValueType) n.toNat

/-- `ReadType`.
-- models binary/read.go:153-173 -/
def askType : Ra FuncType := do
  let b ← plain readByte
  if b ≠ 0x60 then SM.fail
  else do
    let ps ← askValueTypes
    let rs ← askValueTypes
    pure ⟨ps, rs⟩

/-- `ReadFuncTypes`.
-- models binary/read.go:137-151 -/
def askFuncTypes : Ra (List FuncType) := do
  let n ← plain readLeb
  ask n.toNat
  askMany askType n.toNat

/-- `ReadFuncs`.
-- models binary/read.go:220-237 -/
def askFuncs : Ra (List Func) := do
  let n ← plain readLeb
  ask n.toNat
  askMany (plain readFunc) n.toNat

/-- `ReadString`.
-- models binary/read.go:297-314 (the copy made by `string(buf)` is not counted) -/
def askString : Ra (List Byte) := do
  let n ← plain readLeb
  if n = 0 then pure [] else askBytes n.toNat

/-- `ReadExport`.
-- models binary/read.go:267-295 -/
def askExport : Ra Export := do
  let name ← askString
  let kind ← plain readByte
  let i ← plain readLeb
  if kind = 0x00 then pure ⟨name, i⟩ else SM.fail

/-- `ReadExports`.
-- models binary/read.go:249-265 -/
def askExports : Ra (List Export) := do
  let n ← plain readLeb
  ask n.toNat
  askMany askExport n.toNat

/-- The loop of `ReadExpression`.
-- models binary/read.go:318-328 -/
def askExpressionLoop : Nat → Ra (List Instr)
  | 0 => fun s => (.diverge, s)
  | fuel + 1 => do
    let i ← plain readInstruction
    ask 1
    if i = .end_ then pure [i]
    else do
      let is ← askExpressionLoop fuel
      pure (i :: is)

/-- `ReadExpression`.
-- models binary/read.go:316-332 -/
def askExpression : Ra (List Instr) := fun s => askExpressionLoop (s.rest.length + 1) s

/-- The loop of `UpdateFuncsWithCode`.
-- models binary/read.go:341-366 -/
def askCodeLoop : Nat → Nat → List Func → Ra (List Func)
  | 0, _, fs => pure fs
  | n + 1, i, fs =>
    match fs[i]? with
    | none => SM.fail
    | some f => do
      let _ ← plain readLeb
      let locals ← askValueTypes
      let body ← askExpression
      askCodeLoop n (i + 1) (fs.set i { f with locals := locals, body := some body })

/-- `UpdateFuncsWithCode`.
-- models binary/read.go:334-368 -/
def askCode (fs : List Func) : Ra (List Func) := do
  let n ← plain readLeb
  askCodeLoop n.toNat 0 fs

/-- The `switch` of `ReadModule`.
-- models binary/read.go:81-113 -/
def askSection (m : Module) (id : Byte) (size : U32) : Ra Module :=
  if id = 1 then do
    let ts ← askFuncTypes
    pure { m with types := ts }
  else if id = 3 then do
    let fs ← askFuncs
    pure { m with funcs := fs }
  else if id = 10 then do
    let fs ← askCode m.funcs
    pure { m with funcs := fs }
  else if id = 7 then do
    let es ← askExports
    pure { m with exports := es }
  else do
    ask size.toNat
    let _ ← plain (readBytes size.toNat)
    pure m

/-- The loop of `ReadModule`.
-- models binary/read.go:73-114 -/
def askModuleLoop : Nat → Module → Ra Module
  | 0, _ => fun s => (.diverge, s)
  | fuel + 1, m => do
    match ← plain readSectionHeader with
    | none => pure m
    | some (id, size) => do
      let m ← askSection m id size
      askModuleLoop fuel m

/-- `ReadModule`.
-- models binary/read.go:71-117 -/
def askModule : Ra Module := fun s => askModuleLoop (s.rest.length + 1) ⟨[], [], []⟩ s

/-- `Read`.
-- models binary/read.go:16-43 -/
def askRead : Ra Document := do
  let p ← askPreamble
  if p.1 = 0x0a then pure ⟨p.1, p.2, .component⟩
  else if p.1 = 0x01 then do
    let m ← askModule
    pure ⟨p.1, p.2, .module m⟩
  else SM.fail

/-- The slots that reading these bytes asks for.
-- models binary/read.go:16-43 -/
def slots (bs : List Byte) : Nat := (askRead ⟨bs, 0⟩).2.asked

end Verif.Binary
