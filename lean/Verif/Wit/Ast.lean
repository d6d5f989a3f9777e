import Verif.Go.Text

/-!
# The WIT syntax tree

Models `wit/ast`. A slice that is nil and one that is empty are the same list, as no reader in the repository tells them
apart. A string is the list of its bytes.
-/

namespace Verif.Wit

/-- `Version`.
-- models wit/ast/ast.go:18-24 -/
structure Version where
  major : U64
  minor : U64
  patch : U64
  pre : List Byte
  build : List Byte
  deriving DecidableEq, Repr

/-- `PackageDeclaration`.
-- models wit/ast/ast.go:12-16 -/
structure PackageDeclaration where
  namespace_ : List Byte
  name : List Byte
  version : Option Version
  deriving DecidableEq, Repr

/-- `Type` with the structs that implement it. `List` and `Option` embed a `Type` besides their `ItemType`; both fields
are in the model, a nil one being `none`. The embedded `Type` of the other structs is never set and left out.
-- models wit/ast/ast.go:144-207, 284-287 -/
inductive Ty where
  | u8 | u16 | u32 | u64 | s8 | s16 | s32 | s64 | float32 | float64 | char | bool | string
  | tuple (types : List Ty)
  | list (embedded itemType : Option Ty)
  | option (embedded itemType : Option Ty)
  | result (ok error : Option Ty)
  | own (id : List Byte)
  | borrow (id : List Byte)
  | id (value : List Byte)
  | stream (element end_ : Option Ty)
  | future (itemType : Option Ty)
  deriving Repr

/-- `Parameter`.
-- models wit/ast/ast.go:57-60 -/
structure Parameter where
  id : List Byte
  type : Ty
  deriving Repr

/-- `ResultList`.
-- models wit/ast/ast.go:52-55 -/
structure ResultList where
  named : List Parameter
  anonymous : Option Ty
  deriving Repr

/-- `FuncType`.
-- models wit/ast/ast.go:47-50 -/
structure FuncType where
  params : List Parameter
  results : ResultList
  deriving Repr

/-- `FuncItem`.
-- models wit/ast/ast.go:41-45 -/
structure FuncItem where
  id : List Byte
  type : FuncType
  deriving Repr

/-- `UsePath`, with the two fields of its `Package` on their own.
-- models wit/ast/ast.go:109-115 -/
structure UsePath where
  id : List Byte
  package : Option PackageDeclaration
  packageName : List Byte
  deriving DecidableEq, Repr

/-- `UseName`.
-- models wit/ast/ast.go:117-120 -/
structure UseName where
  name : List Byte
  as_ : Option (List Byte)
  deriving DecidableEq, Repr

/-- `Use`.
-- models wit/ast/ast.go:102-107 -/
structure Use where
  from_ : UsePath
  names : List UseName
  deriving DecidableEq, Repr

/-- `IncludeName`.
-- models wit/ast/ast.go:134-137 -/
structure IncludeName where
  name : List Byte
  as_ : List Byte
  deriving DecidableEq, Repr

/-- `Include`.
-- models wit/ast/ast.go:128-132 -/
structure Include where
  from_ : UsePath
  names : List IncludeName
  deriving DecidableEq, Repr

/-- `TopLevelUse`.
-- models wit/ast/ast.go:139-142 -/
structure TopLevelUse where
  item : UsePath
  as_ : Option (List Byte)
  deriving DecidableEq, Repr

/-- `ResourceMethod` with the structs that implement it.
-- models wit/ast/ast.go:215-234 -/
inductive ResourceMethod where
  | static (id : List Byte) (type : FuncType)
  | constructor (parameters : List Parameter)
  | method (id : List Byte) (func : FuncItem)
  deriving Repr

/-- `Field`.
-- models wit/ast/ast.go:242-245 -/
structure Field where
  name : List Byte
  type : Ty
  deriving Repr

/-- `Case`.
-- models wit/ast/ast.go:263-266 -/
structure Case where
  name : List Byte
  type : Option Ty
  deriving Repr

/-- `TypeDef` with the structs that implement it. A `Flag` and an `EnumCase` are their names.
-- models wit/ast/ast.go:122-126, 209-213, 236-282 -/
inductive TypeDef where
  | resource (id : List Byte) (methods : List ResourceMethod)
  | record (id : List Byte) (fields : List Field)
  | flags (id : List Byte) (flags : List (List Byte))
  | variant (id : List Byte) (cases : List Case)
  | enum (id : List Byte) (cases : List (List Byte))
  | type (id : List Byte) (type : Ty)
  deriving Repr

/-- `InterfaceItem` with the structs that implement it.
-- models wit/ast/ast.go:37-45, 102-107, 122-126 -/
inductive InterfaceItem where
  | use (u : Use)
  | typeDef (t : TypeDef)
  | func (f : FuncItem)
  deriving Repr

/-- `Interface`.
-- models wit/ast/ast.go:32-35 -/
structure Interface where
  name : List Byte
  items : List InterfaceItem
  deriving Repr

/-- `ExternType` with the structs that implement it.
-- models wit/ast/ast.go:81-100 -/
inductive ExternType where
  | func (id : List Byte) (type : FuncType)
  | interface (id : List Byte) (items : List InterfaceItem)
  | usePath (path : UsePath)
  deriving Repr

/-- `WorldItem` with the structs that implement it.
-- models wit/ast/ast.go:67-79, 102-107, 122-132 -/
inductive WorldItem where
  | export_ (e : ExternType)
  | import_ (e : ExternType)
  | use (u : Use)
  | typeDef (t : TypeDef)
  | include (i : Include)
  deriving Repr

/-- `World`.
-- models wit/ast/ast.go:62-65 -/
structure World where
  id : List Byte
  items : List WorldItem
  deriving Repr

/-- `AstItem`: three pointers, each possibly nil.
-- models wit/ast/ast.go:26-30 -/
structure AstItem where
  interface : Option Interface
  world : Option World
  use : Option TopLevelUse
  deriving Repr

/-- `Ast`.
-- models wit/ast/ast.go:7-10 -/
structure Ast where
  package : Option PackageDeclaration
  items : List AstItem
  deriving Repr

end Verif.Wit
