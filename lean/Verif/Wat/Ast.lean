import Verif.Go.Text

/-!
# Model of package `wat/ast`

Floating point numbers are their bits. Slices are lists; a nil slice and an empty slice are the same list.
-/

namespace Verif.Wat

/-- `ValType`.
-- models wat/ast/ast.go:108-126 -/
inductive ValType where
  | i32 | i64 | f32 | f64
  deriving DecidableEq, Repr

/-- `RefType`; a nil interface is `none` in `TableType`.
-- models wat/ast/ast.go:96-106 -/
inductive RefType where
  | funcRef | externRef
  deriving DecidableEq, Repr

/-- `Index`.
-- models wat/ast/ast.go:279-293 -/
inductive Index where
  | raw (i : U32)
  | id (name : List Byte)
  deriving DecidableEq, Repr

/-- The instructions without operands.
-- models wat/ast/ast.go:156-224, 263-277, 360-366 -/
inductive Plain where
  | ret | drop | select | memoryGrow | i32Load | i32Store
  | f32Add | f32Sub | f32Mul | f32Div | f32Sqrt | f32Min | f32Max | f32Ceil | f32Floor | f32Trunc | f32Nearest
  | i32Add | i32Sub | i32Mul | i32DivS | i32DivU | i32Eqz
  deriving DecidableEq, Repr

/-- The instructions with one index; `BrTable` always gets a list of one index.
-- models wat/ast/ast.go:233-261, 342-358, 368-372 -/
inductive Indexed where
  | br | brIf | brTable | call | localGet | localSet | localTee | globalGet | globalSet
  deriving DecidableEq, Repr

/-- `Result`.
-- models wat/ast/ast.go:92-94 -/
structure Result where
  types : List ValType
  deriving DecidableEq, Repr

/-- `Instruction`; `nil` is the nil interface. The `Value` of `I32Eqz` is always 0.
-- models wat/ast/ast.go:128-382 -/
inductive Inst where
  | nil
  | plain (p : Plain)
  | indexed (k : Indexed) (i : Index)
  | i32Const (v : U32)
  | i64Const (v : U64)
  | f32Const (v : U32)
  | f64Const (v : U64)
  | callIndirect (type : List Byte)
  | folded (inst : Inst) (parameters : List Inst)
  | block (name : Option (List Byte)) (results : List Result) (instructions : List Inst)
  | loop (name : Option (List Byte)) (results : List Result) (instructions : List Inst)
  | ifThen (name : Option (List Byte)) (results : List Result) (clause thens : List Inst) (elses : Option (List Inst))

/-- `Parameter`.
-- models wat/ast/ast.go:83-86 -/
structure Parameter where
  id : Option (List Byte)
  types : List ValType
  deriving DecidableEq, Repr

/-- `FuncType`.
-- models wat/ast/ast.go:47-50 -/
structure FuncType where
  parameters : List Parameter
  results : List Result
  deriving DecidableEq, Repr

/-- `Type`.
-- models wat/ast/ast.go:42-45 -/
structure TypeDef where
  id : Option (List Byte)
  funcType : FuncType
  deriving DecidableEq, Repr

/-- `Limits`.
-- models wat/ast/ast.go:78-81 -/
structure Limits where
  min : U32
  max : Option U32
  deriving DecidableEq, Repr

/-- `Memory`.
-- models wat/ast/ast.go:37-40 -/
structure Memory where
  id : Option (List Byte)
  limits : Limits
  deriving DecidableEq, Repr

/-- `TableType`.
-- models wat/ast/ast.go:58-61 -/
structure TableType where
  limits : Limits
  refType : Option RefType
  deriving DecidableEq, Repr

/-- `Table`; an `Element` is its identifier.
-- models wat/ast/ast.go:52-56, 74-76 -/
structure Table where
  id : Option (List Byte)
  tableType : TableType
  elements : List (List Byte)
  deriving DecidableEq, Repr

/-- `Global` with its `GlobalType`.
-- models wat/ast/ast.go:63-72 -/
structure Global where
  id : Option (List Byte)
  mutable : Bool
  type : ValType
  instructions : List Inst

/-- `Function`; a `Local` is its type and an `InlineExport` its name.
-- models wat/ast/ast.go:26-33, 88-90, 295-297 -/
structure Function where
  id : Option (List Byte)
  locals : List ValType
  exports : List (List Byte)
  parameters : List Parameter
  results : List Result
  instructions : List Inst

/-- `Module`.
-- models wat/ast/ast.go:13-20 -/
structure Module where
  functions : List Function
  memory : List Memory
  types : List TypeDef
  tables : List Table
  globals : List Global

/-- `Directive`.
-- models wat/ast/ast.go:5-20 -/
inductive Directive where
  | component
  | module (m : Module)

end Verif.Wat
