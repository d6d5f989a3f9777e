import Verif.Wit.Render
import Verif.Wat.Print

/-!
# A printer for WIT

Writes every syntax tree as the WIT specification says, as tokens with a space between them. It is not part of the
repository; nothing of the parser is used.
-/

namespace Verif.Wit.Spec

/-- A keyword or an operator. -/
def tok (k : TokenType) : Sig := ⟨k, ((keyword k).or (operator k)).getD []⟩

/-- A name, with the `%` it may have. -/
def nameTok (w : List Byte) : Sig := ⟨if w.head? = some (ch '%') then .explicitId else .id, w⟩

/-- Separated by commas. -/
def commaSep : List (List Sig) → List Sig
  | [] => []
  | [x] => x
  | x :: y :: r => x ++ tok .comma :: commaSep (y :: r)

mutual

/-- Types. The item type of a list or an option is in either of its two fields. -/
def printTy : Ty → List Sig
  | .u8 => [tok .u8] | .u16 => [tok .u16] | .u32 => [tok .u32] | .u64 => [tok .u64]
  | .s8 => [tok .s8] | .s16 => [tok .s16] | .s32 => [tok .s32] | .s64 => [tok .s64]
  | .float32 => [tok .float32] | .float64 => [tok .float64] | .char => [tok .char] | .bool => [tok .bool] | .string => [tok .string]
  | .tuple ts => tok .tuple :: tok .less :: (printTys ts ++ [tok .greater])
  | .list (some a) _ => tok .list :: tok .less :: (printTy a ++ [tok .greater])
  | .list none (some a) => tok .list :: tok .less :: (printTy a ++ [tok .greater])
  | .list none none => [tok .list]
  | .option (some a) _ => tok .option :: tok .less :: (printTy a ++ [tok .greater])
  | .option none (some a) => tok .option :: tok .less :: (printTy a ++ [tok .greater])
  | .option none none => [tok .option]
  | .result none none => [tok .result]
  | .result (some a) none => tok .result :: tok .less :: (printTy a ++ [tok .greater])
  | .result none (some b) => tok .result :: tok .less :: tok .underscore :: tok .comma :: (printTy b ++ [tok .greater])
  | .result (some a) (some b) => tok .result :: tok .less :: (printTy a ++ tok .comma :: (printTy b ++ [tok .greater]))
  | .stream none none => [tok .stream]
  | .stream (some a) none => tok .stream :: tok .less :: (printTy a ++ [tok .greater])
  | .stream none (some b) => tok .stream :: tok .less :: tok .underscore :: tok .comma :: (printTy b ++ [tok .greater])
  | .stream (some a) (some b) => tok .stream :: tok .less :: (printTy a ++ tok .comma :: (printTy b ++ [tok .greater]))
  | .future none => [tok .future]
  | .future (some a) => tok .future :: tok .less :: (printTy a ++ [tok .greater])
  | .own id => [tok .own, tok .less, nameTok id, tok .greater]
  | .borrow id => [tok .borrow, tok .less, nameTok id, tok .greater]
  | .id w => [nameTok w]

/-- The types of a tuple. -/
def printTys : List Ty → List Sig
  | [] => []
  | [t] => printTy t
  | t :: u :: ts => printTy t ++ tok .comma :: printTys (u :: ts)

end

def printParameter (p : Parameter) : List Sig := nameTok p.id :: tok .colon :: printTy p.type

def printParameters (ps : List Parameter) : List Sig := tok .openParen :: (commaSep (ps.map printParameter) ++ [tok .closeParen])

def printResults (r : ResultList) : List Sig :=
  match r.anonymous with
  | some t => tok .rightArrow :: printTy t
  | none => if r.named = [] then [] else tok .rightArrow :: printParameters r.named

def printFunc (f : FuncType) : List Sig := tok .func :: (printParameters f.params ++ printResults f.results)

def printFuncItem (f : FuncItem) : List Sig := nameTok f.id :: tok .colon :: (printFunc f.type ++ [tok .semicolon])

def printField (f : Field) : List Sig := nameTok f.name :: tok .colon :: printTy f.type

def printCase (c : Case) : List Sig :=
  match c.type with
  | none => [nameTok c.name]
  | some t => nameTok c.name :: tok .openParen :: (printTy t ++ [tok .closeParen])

/-- A method is written as its function. -/
def printMethod : ResourceMethod → List Sig
  | .constructor ps => tok .constructor :: (printParameters ps ++ [tok .semicolon])
  | .static id f => nameTok id :: tok .colon :: tok .static :: (printFunc f ++ [tok .semicolon])
  | .method _ f => printFuncItem f

def printTypeDef : TypeDef → List Sig
  | .type id t => tok .type :: nameTok id :: tok .equal :: (printTy t ++ [tok .semicolon])
  | .record id fs => tok .record :: nameTok id :: tok .openBrace :: (commaSep (fs.map printField) ++ [tok .closeBrace])
  | .flags id fs => tok .flags :: nameTok id :: tok .openBrace :: (commaSep (fs.map fun f => [nameTok f]) ++ [tok .closeBrace])
  | .variant id cs => tok .variant :: nameTok id :: tok .openBrace :: (commaSep (cs.map printCase) ++ [tok .closeBrace])
  | .enum id cs => tok .enum :: nameTok id :: tok .openBrace :: (commaSep (cs.map fun c => [nameTok c]) ++ [tok .closeBrace])
  | .resource id ms =>
    if ms = [] then [tok .resource, nameTok id, tok .semicolon]
    else tok .resource :: nameTok id :: tok .openBrace :: (ms.flatMap printMethod ++ [tok .closeBrace])

/-- The number of a version, in decimal. -/
def numberTok (v : U64) : Sig := ⟨.integer, Wat.Spec.decimal v.toNat⟩

/-- `@major.minor.patch`, with `-pre` and `+build`. -/
def printVersion : Option Version → List Sig
  | none => []
  | some v => tok .at :: numberTok v.major :: tok .period :: numberTok v.minor :: tok .period :: numberTok v.patch ::
      ((if v.pre = [] then [] else [tok .minus, nameTok v.pre]) ++ if v.build = [] then [] else [tok .plus, nameTok v.build])

/-- `name` or `namespace:package/name@version`. -/
def printPath (p : UsePath) : List Sig :=
  match p.package with
  | none => [nameTok p.id]
  | some d => nameTok d.namespace_ :: tok .colon :: nameTok d.name :: tok .slash :: nameTok p.packageName :: printVersion d.version

def printAs : Option (List Byte) → List Sig
  | none => []
  | some w => [tok .as, nameTok w]

def printUseName (u : UseName) : List Sig := nameTok u.name :: printAs u.as_

def printUse (u : Use) : List Sig :=
  tok .use :: (printPath u.from_ ++ tok .period :: tok .openBrace :: (commaSep (u.names.map printUseName) ++ [tok .closeBrace, tok .semicolon]))

def printIncludeName (i : IncludeName) : List Sig := [nameTok i.name, tok .as, nameTok i.as_]

def printInclude (i : Include) : List Sig :=
  tok .include :: (printPath i.from_ ++
    if i.names = [] then [tok .semicolon] else tok .with :: tok .openBrace :: (commaSep (i.names.map printIncludeName) ++ [tok .closeBrace]))

def printInterfaceItem : InterfaceItem → List Sig
  | .use u => printUse u
  | .typeDef t => printTypeDef t
  | .func f => printFuncItem f

def printInterfaceItems (is : List InterfaceItem) : List Sig := tok .openBrace :: (is.flatMap printInterfaceItem ++ [tok .closeBrace])

def printExternType : ExternType → List Sig
  | .func id f => nameTok id :: tok .colon :: (printFunc f ++ [tok .semicolon])
  | .interface id is => nameTok id :: tok .colon :: tok .interface :: printInterfaceItems is
  | .usePath p => printPath p ++ [tok .semicolon]

def printWorldItem : WorldItem → List Sig
  | .export_ e => tok .export :: printExternType e
  | .import_ e => tok .import :: printExternType e
  | .use u => printUse u
  | .typeDef t => printTypeDef t
  | .include i => printInclude i

def printInterface (i : Interface) : List Sig := tok .interface :: nameTok i.name :: printInterfaceItems i.items

def printWorld (w : World) : List Sig := tok .world :: nameTok w.id :: tok .openBrace :: (w.items.flatMap printWorldItem ++ [tok .closeBrace])

def printTopLevelUse (u : TopLevelUse) : List Sig := tok .use :: (printPath u.item ++ (printAs u.as_ ++ [tok .semicolon]))

/-- An item has one of three; a tree has no other items. -/
def printItem : AstItem → List Sig
  | ⟨some i, _, _⟩ => printInterface i
  | ⟨none, some w, _⟩ => printWorld w
  | ⟨none, none, some u⟩ => printTopLevelUse u
  | ⟨none, none, none⟩ => []

def printPackage : Option PackageDeclaration → List Sig
  | none => []
  | some p => tok .package :: nameTok p.namespace_ :: tok .colon :: nameTok p.name :: (printVersion p.version ++ [tok .semicolon])

/-- The tokens of a tree. -/
def printTokens (a : Ast) : List Sig := printPackage a.package ++ a.items.flatMap printItem

/-- The text of a tree. -/
def print (a : Ast) : List Byte := sep ((printTokens a).map (·.capture))

/-! ## The trees that the parser can give back -/

section
variable [Unicode]

/-- A word that is no keyword, or `%` and a word. -/
def Name (w : List Byte) : Prop :=
  (∃ rs, Word rs ∧ w = utf8 rs ∧ ∀ ty, keyword ty ≠ some w) ∨ ∃ rs, Word rs ∧ w = txt "%" ++ utf8 rs

mutual

/-- Types: none of the built-in types other than `u32`, `float32`, `float64` and `string`; item types of lists and options
in the embedded field. -/
def OkTy : Ty → Prop
  | .u32 | .string | .float32 | .float64 => True
  | .tuple ts => OkTys ts
  | .list (some a) none => OkTy a
  | .option (some a) none => OkTy a
  | .result none none => True
  | .result (some a) none => OkTy a
  | .result none (some b) => OkTy b
  | .result (some a) (some b) => OkTy a ∧ OkTy b
  | .stream none none => True
  | .stream (some a) none => OkTy a
  | .stream none (some b) => OkTy b
  | .stream (some a) (some b) => OkTy a ∧ OkTy b
  | .future none => True
  | .future (some a) => OkTy a
  | .own w | .borrow w | .id w => Name w
  | _ => False

def OkTys : List Ty → Prop
  | [] => True
  | t :: ts => OkTy t ∧ OkTys ts

end

def OkParameter (p : Parameter) : Prop := Name p.id ∧ OkTy p.type

/-- Not both kinds of results. -/
def OkResults (r : ResultList) : Prop :=
  match r.anonymous with
  | some t => r.named = [] ∧ OkTy t
  | none => ∀ p ∈ r.named, OkParameter p

def OkFunc (f : FuncType) : Prop := (∀ p ∈ f.params, OkParameter p) ∧ OkResults f.results

def OkFuncItem (f : FuncItem) : Prop := Name f.id ∧ OkFunc f.type

/-- The `ID` of a method is empty: the name is that of its function. -/
def OkMethod : ResourceMethod → Prop
  | .constructor ps => ∀ p ∈ ps, OkParameter p
  | .static id f => Name id ∧ OkFunc f
  | .method id f => id = [] ∧ OkFuncItem f

def OkTypeDef : TypeDef → Prop
  | .type id t => Name id ∧ OkTy t
  | .record id fs => Name id ∧ ∀ f ∈ fs, Name f.name ∧ OkTy f.type
  | .flags id fs => Name id ∧ ∀ f ∈ fs, Name f
  | .variant id cs => Name id ∧ ∀ c ∈ cs, Name c.name ∧ ∀ t ∈ c.type, OkTy t
  | .enum id cs => Name id ∧ ∀ c ∈ cs, Name c
  | .resource id ms => Name id ∧ ∀ m ∈ ms, OkMethod m

/-- A plain name. -/
def OkPath (p : UsePath) : Prop := p.package = none ∧ p.packageName = [] ∧ Name p.id

def OkAs (a : Option (List Byte)) : Prop := ∀ w ∈ a, Name w

def OkUse (u : Use) : Prop := OkPath u.from_ ∧ ∀ n ∈ u.names, Name n.name ∧ OkAs n.as_

/-- At most one name. -/
def OkInclude (i : Include) : Prop := OkPath i.from_ ∧ i.names.length ≤ 1 ∧ ∀ n ∈ i.names, Name n.name ∧ Name n.as_

def OkInterfaceItem : InterfaceItem → Prop
  | .use u => OkUse u
  | .typeDef t => OkTypeDef t
  | .func f => OkFuncItem f

def OkExternType : ExternType → Prop
  | .func id f => Name id ∧ OkFunc f
  | .interface id is => Name id ∧ ∀ i ∈ is, OkInterfaceItem i
  | .usePath p => OkPath p

/-- No flags and no enum in a world. -/
def OkWorldItem : WorldItem → Prop
  | .export_ e | .import_ e => OkExternType e
  | .use u => OkUse u
  | .typeDef t => InWorld t ∧ OkTypeDef t
  | .include i => OkInclude i

/-- Numbers below `2^31`, nothing after them. -/
def OkVersion (v : Option Version) : Prop :=
  ∀ x ∈ v, x.major.toNat < 2 ^ 31 ∧ x.minor.toNat < 2 ^ 31 ∧ x.patch.toNat < 2 ^ 31 ∧ x.pre = [] ∧ x.build = []

def OkPackage (p : Option PackageDeclaration) : Prop := ∀ d ∈ p, Name d.namespace_ ∧ Name d.name ∧ OkVersion d.version

/-- An item has one of three. -/
def OkItem : AstItem → Prop
  | ⟨some i, none, none⟩ => Name i.name ∧ ∀ x ∈ i.items, OkInterfaceItem x
  | ⟨none, some w, none⟩ => Name w.id ∧ ∀ x ∈ w.items, OkWorldItem x
  | ⟨none, none, some u⟩ => OkPath u.item ∧ OkAs u.as_
  | _ => False

/-- The trees. -/
def OkAst (a : Ast) : Prop := OkPackage a.package ∧ ∀ i ∈ a.items, OkItem i

end

/-- What the parser makes of the items: after a use its semicolon is an item without content. -/
def seen (is : List AstItem) : List AstItem := is.flatMap fun i => if i.use.isSome then [i, ⟨none, none, none⟩] else [i]

end Verif.Wit.Spec
