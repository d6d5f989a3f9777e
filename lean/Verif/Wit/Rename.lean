import Verif.Wit.GrammarProps

/-!
# Names in the WIT tree (C151)

A renaming `r` gives every name another. `Ast.rename` renames the names in a tree and leaves everything else: what kinds of
items there are, in which order, the versions, and the fields the parser never fills.
-/

namespace Verif.Wit.Spec

mutual
/-- A type with its names renamed. -/
def renTy (r : List Byte → List Byte) : Ty → Ty
  | .tuple ts => .tuple (renTys r ts)
  | .list none none => .list none none
  | .list (some a) none => .list (some (renTy r a)) none
  | .list none (some b) => .list none (some (renTy r b))
  | .list (some a) (some b) => .list (some (renTy r a)) (some (renTy r b))
  | .option none none => .option none none
  | .option (some a) none => .option (some (renTy r a)) none
  | .option none (some b) => .option none (some (renTy r b))
  | .option (some a) (some b) => .option (some (renTy r a)) (some (renTy r b))
  | .result none none => .result none none
  | .result (some a) none => .result (some (renTy r a)) none
  | .result none (some b) => .result none (some (renTy r b))
  | .result (some a) (some b) => .result (some (renTy r a)) (some (renTy r b))
  | .stream none none => .stream none none
  | .stream (some a) none => .stream (some (renTy r a)) none
  | .stream none (some b) => .stream none (some (renTy r b))
  | .stream (some a) (some b) => .stream (some (renTy r a)) (some (renTy r b))
  | .future none => .future none
  | .future (some a) => .future (some (renTy r a))
  | .own w => .own (r w)
  | .borrow w => .borrow (r w)
  | .id w => .id (r w)
  | t => t
/-- Types with their names renamed. -/
def renTys (r : List Byte → List Byte) : List Ty → List Ty
  | [] => []
  | t :: ts => renTy r t :: renTys r ts
end

variable (r : List Byte → List Byte)

/-- A parameter with its names renamed. -/
def renParameter (p : Parameter) : Parameter := ⟨r p.id, renTy r p.type⟩
/-- Results with their names renamed. -/
def renResults (x : ResultList) : ResultList := ⟨x.named.map (renParameter r), x.anonymous.map (renTy r)⟩
/-- A function type with its names renamed. -/
def renFunc (f : FuncType) : FuncType := ⟨f.params.map (renParameter r), renResults r f.results⟩
/-- A function with its names renamed. -/
def renFuncItem (f : FuncItem) : FuncItem := ⟨r f.id, renFunc r f.type⟩
/-- A path with its name renamed. -/
def renPath (p : UsePath) : UsePath := ⟨r p.id, p.package, p.packageName⟩
/-- A used name, renamed. -/
def renUseName (u : UseName) : UseName := ⟨r u.name, u.as_.map r⟩
/-- A use with its names renamed. -/
def renUse (u : Use) : Use := ⟨renPath r u.from_, u.names.map (renUseName r)⟩
/-- An included name, renamed. -/
def renIncludeName (i : IncludeName) : IncludeName := ⟨r i.name, r i.as_⟩
/-- An include with its names renamed. -/
def renInclude (i : Include) : Include := ⟨renPath r i.from_, i.names.map (renIncludeName r)⟩
/-- A use at the top with its names renamed. -/
def renTopLevelUse (u : TopLevelUse) : TopLevelUse := ⟨renPath r u.item, u.as_.map r⟩
/-- A method with its names renamed; the `ID` beside a function stays empty. -/
def renMethod : ResourceMethod → ResourceMethod
  | .static w f => .static (r w) (renFunc r f)
  | .constructor ps => .constructor (ps.map (renParameter r))
  | .method w f => .method w (renFuncItem r f)
/-- A field with its names renamed. -/
def renField (f : Field) : Field := ⟨r f.name, renTy r f.type⟩
/-- A case with its names renamed. -/
def renCase (c : Case) : Case := ⟨r c.name, c.type.map (renTy r)⟩
/-- A type definition with its names renamed. -/
def renTypeDef : TypeDef → TypeDef
  | .resource w ms => .resource (r w) (ms.map (renMethod r))
  | .record w fs => .record (r w) (fs.map (renField r))
  | .flags w fs => .flags (r w) (fs.map r)
  | .variant w cs => .variant (r w) (cs.map (renCase r))
  | .enum w cs => .enum (r w) (cs.map r)
  | .type w t => .type (r w) (renTy r t)
/-- An item of an interface with its names renamed. -/
def renInterfaceItem : InterfaceItem → InterfaceItem
  | .use u => .use (renUse r u)
  | .typeDef t => .typeDef (renTypeDef r t)
  | .func f => .func (renFuncItem r f)
/-- An interface with its names renamed. -/
def renInterface (i : Interface) : Interface := ⟨r i.name, i.items.map (renInterfaceItem r)⟩
/-- What is imported or exported with its names renamed. -/
def renExtern : ExternType → ExternType
  | .func w f => .func (r w) (renFunc r f)
  | .interface w is => .interface (r w) (is.map (renInterfaceItem r))
  | .usePath p => .usePath (renPath r p)
/-- An item of a world with its names renamed. -/
def renWorldItem : WorldItem → WorldItem
  | .export_ e => .export_ (renExtern r e)
  | .import_ e => .import_ (renExtern r e)
  | .use u => .use (renUse r u)
  | .typeDef t => .typeDef (renTypeDef r t)
  | .include i => .include (renInclude r i)
/-- A world with its names renamed. -/
def renWorld (w : World) : World := ⟨r w.id, w.items.map (renWorldItem r)⟩
/-- An item with its names renamed. -/
def renItem (i : AstItem) : AstItem := ⟨i.interface.map (renInterface r), i.world.map (renWorld r), i.use.map (renTopLevelUse r)⟩
/-- A package declaration with its names renamed. -/
def renPackage (p : PackageDeclaration) : PackageDeclaration := ⟨r p.namespace_, r p.name, p.version⟩
/-- A tree with its names renamed. -/
def Ast.rename (a : Ast) : Ast := ⟨a.package.map (renPackage r), a.items.map (renItem r)⟩

/-- A token with its text renamed. -/
def renTok (t : Sig) : Sig := ⟨t.type, r t.capture⟩

/-- The renaming is one of names: it leaves the texts of all other tokens in the list as they are. -/
def NamesOnly (ts : List Sig) : Prop := ∀ t ∈ ts, t.type ≠ .id → t.type ≠ .explicitId → r t.capture = t.capture

/-- What comes of a text, renamed. -/
def renResult : Res Ast → Res Ast
  | .ok a => .ok (Ast.rename r a)
  | x => x

end Verif.Wit.Spec
