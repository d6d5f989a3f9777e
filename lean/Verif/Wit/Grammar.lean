import Verif.Wit.Parse

/-!
# A grammar of WIT documents

For every syntax tree the sequences of tokens it can be written as, in the order in which a grammar is usually written. It
is the grammar of what the parser of this repository accepts, which is more and less than WIT: see the comments. White space
and comments are no tokens here.

Nothing of the parser is used but `Sig`, the type and text of a token, and `strconv.ParseInt`.
-/

namespace Verif.Wit.Spec

/-- A set of sequences of tokens. -/
abbrev Lang := List Sig → Prop

/-- One after the other. -/
def Lang.cat (A B : Lang) : Lang := fun ts => ∃ a b, ts = a ++ b ∧ A a ∧ B b

@[inherit_doc] infixr:67 " ⬝ " => Lang.cat

/-- Either. -/
def Lang.alt (A B : Lang) : Lang := fun ts => A ts ∨ B ts

@[inherit_doc] infixr:65 " ∣∣ " => Lang.alt

/-- No token. -/
def eps : Lang := fun ts => ts = []

/-- No token, allowed under a condition only. -/
def only (p : Prop) : Lang := fun ts => p ∧ ts = []

/-- Nothing. -/
def never : Lang := fun _ => False

/-- A token of a type: a keyword or punctuation. -/
def T (k : TokenType) : Lang := fun ts => ∃ w, ts = [⟨k, w⟩]

/-- A name, with or without `%`. The `%` belongs to the name. -/
def ident (w : List Byte) : Lang := fun ts => ts = [⟨.id, w⟩] ∨ ts = [⟨.explicitId, w⟩]

/-- Any one token with the given text. -/
def any (w : List Byte) : Lang := fun ts => ∃ k, ts = [⟨k, w⟩]

/-- Not beginning with a token of the given type. -/
def Lang.notBegin (A : Lang) (k : TokenType) : Lang := fun ts => A ts ∧ ∀ t ∈ ts.head?, t.type ≠ k

/-- One after the other, for any number. -/
def many {α : Type} (item : α → Lang) : List α → Lang
  | [] => eps
  | x :: xs => item x ⬝ many item xs

/-- Separated by commas, with or without a comma at the end. -/
def commas {α : Type} (item : α → Lang) : List α → Lang
  | [] => eps
  | x :: xs => item x ⬝ (T .comma ⬝ commas item xs ∣∣ only (xs = []))

/-- The words that begin a type the parser knows. -/
def typeWords : List TokenType :=
  [.u32, .string, .float32, .float64, .stream, .future, .list, .option, .result, .tuple, .own, .borrow]

mutual

/-- Types. Liberty of the parser: every token that is none of `typeWords` is a type, the words `u8`, `bool` and so on as
well as any punctuation; where a type is in doubt with something else, the something else wins. -/
def ty : Ty → Lang
  | .u32 => T .u32
  | .string => T .string
  | .float32 => T .float32
  | .float64 => T .float64
  | .stream none none => T .stream
  | .stream (some a) none => T .stream ⬝ T .less ⬝ (ty a).notBegin .underscore ⬝ T .greater
  | .stream none (some b) => T .stream ⬝ T .less ⬝ T .underscore ⬝ T .comma ⬝ ty b ⬝ T .greater
  | .stream (some a) (some b) => T .stream ⬝ T .less ⬝ (ty a).notBegin .underscore ⬝ T .comma ⬝ ty b ⬝ T .greater
  | .future none => T .future
  | .future (some a) => T .future ⬝ T .less ⬝ ty a ⬝ T .greater
  | .list (some a) none => T .list ⬝ T .less ⬝ ty a ⬝ T .greater
  | .option (some a) none => T .option ⬝ T .less ⬝ ty a ⬝ T .greater
  | .result none none => T .result
  | .result (some a) none => T .result ⬝ T .less ⬝ (ty a).notBegin .underscore ⬝ T .greater
  | .result none (some b) => T .result ⬝ T .less ⬝ T .underscore ⬝ T .comma ⬝ ty b ⬝ T .greater
  | .result (some a) (some b) => T .result ⬝ T .less ⬝ (ty a).notBegin .underscore ⬝ T .comma ⬝ ty b ⬝ T .greater
  | .tuple ts => T .tuple ⬝ T .less ⬝ tys ts ⬝ T .greater
  | .own id => T .own ⬝ T .less ⬝ ident id ⬝ T .greater
  | .borrow id => T .borrow ⬝ T .less ⬝ ident id ⬝ T .greater
  | .id w => fun ts => ∃ k, k ∉ typeWords ∧ ts = [⟨k, w⟩]
  | _ => never

/-- The types of a tuple: `commas` of types that do not begin with `>`. -/
def tys : List Ty → Lang
  | [] => eps
  | t :: ts => (ty t).notBegin .greater ⬝ (T .comma ⬝ tys ts ∣∣ only (ts = []))

end

/-- `name: type`. -/
def parameter (p : Parameter) : Lang := ident p.id ⬝ T .colon ⬝ ty p.type

/-- `(parameters)`. -/
def parameters (ps : List Parameter) : Lang := T .openParen ⬝ commas parameter ps ⬝ T .closeParen

/-- Nothing, `-> (parameters)` or `-> type`. -/
def results (r : ResultList) : Lang :=
  match r.anonymous with
  | none => only (r.named = []) ∣∣ T .rightArrow ⬝ parameters r.named
  | some t => only (r.named = []) ⬝ T .rightArrow ⬝ (ty t).notBegin .openParen

/-- `func (parameters) results`. -/
def func (f : FuncType) : Lang := T .func ⬝ parameters f.params ⬝ results f.results

/-- `name: func…;`. -/
def funcItem (f : FuncItem) : Lang := ident f.id ⬝ T .colon ⬝ func f.type ⬝ T .semicolon

/-- `name: type`. -/
def field (f : Field) : Lang := ident f.name ⬝ T .colon ⬝ ty f.type

/-- `name` or `name(type)`. -/
def case_ (c : Case) : Lang :=
  match c.type with
  | none => ident c.name
  | some t => ident c.name ⬝ T .openParen ⬝ ty t ⬝ T .closeParen

/-- A method of a resource. The `ID` of a method stays empty. -/
def method : ResourceMethod → Lang
  | .constructor ps => T .constructor ⬝ parameters ps ⬝ T .semicolon
  | .static id f => ident id ⬝ T .colon ⬝ T .static ⬝ func f ⬝ T .semicolon
  | .method id f => only (id = []) ⬝ funcItem f

/-- Type definitions. Liberty of the parser: a resource without methods may lack its semicolon. -/
def typeDef : TypeDef → Lang
  | .type id t => T .type ⬝ ident id ⬝ T .equal ⬝ ty t ⬝ T .semicolon
  | .record id fs => T .record ⬝ ident id ⬝ T .openBrace ⬝ commas field fs ⬝ T .closeBrace
  | .flags id fs => T .flags ⬝ ident id ⬝ T .openBrace ⬝ commas ident fs ⬝ T .closeBrace
  | .variant id cs => T .variant ⬝ ident id ⬝ T .openBrace ⬝ commas case_ cs ⬝ T .closeBrace
  | .enum id cs => T .enum ⬝ ident id ⬝ T .openBrace ⬝ commas ident cs ⬝ T .closeBrace
  | .resource id ms => T .resource ⬝ ident id ⬝
      (T .openBrace ⬝ many method ms ⬝ T .closeBrace ∣∣ only (ms = []) ⬝ T .semicolon ∣∣ only (ms = []))

/-- A path. Lack of the parser: a plain name only, no `namespace:package/name@version`. -/
def path (p : UsePath) : Lang := only (p.package = none ∧ p.packageName = []) ⬝ ident p.id

/-- Nothing or `as name`. -/
def as_ : Option (List Byte) → Lang
  | none => eps
  | some w => T .as ⬝ ident w

/-- `name` or `name as name`. -/
def useName (u : UseName) : Lang := ident u.name ⬝ as_ u.as_

/-- `use path.{names};`. -/
def use (u : Use) : Lang :=
  T .use ⬝ path u.from_ ⬝ T .period ⬝ T .openBrace ⬝ commas useName u.names ⬝ T .closeBrace ⬝ T .semicolon

/-- `name as name`. -/
def includeName (i : IncludeName) : Lang := ident i.name ⬝ T .as ⬝ ident i.as_

/-- `include path;` or `include path with {names}`. Lack of the parser: no commas between the names. -/
def include_ (i : Include) : Lang :=
  T .include ⬝ path i.from_ ⬝
    (T .with ⬝ T .openBrace ⬝ many includeName i.names ⬝ T .closeBrace ∣∣ only (i.names = []) ⬝ T .semicolon)

/-- Items of interfaces. -/
def interfaceItem : InterfaceItem → Lang
  | .use u => use u
  | .typeDef t => typeDef t
  | .func f => funcItem f

/-- `{items}`. -/
def interfaceItems (is : List InterfaceItem) : Lang := T .openBrace ⬝ many interfaceItem is ⬝ T .closeBrace

/-- What is imported or exported. -/
def externType : ExternType → Lang
  | .func id f => ident id ⬝ T .colon ⬝ func f ⬝ T .semicolon
  | .interface id is => ident id ⬝ T .colon ⬝ T .interface ⬝ interfaceItems is
  | .usePath p => path p ⬝ T .semicolon

/-- The type definitions a world can have. Lack of the parser: no flags and no enum. -/
def InWorld : TypeDef → Prop
  | .flags _ _ | .enum _ _ => False
  | _ => True

/-- Items of worlds. -/
def worldItem : WorldItem → Lang
  | .export_ e => T .export ⬝ externType e
  | .import_ e => T .import ⬝ externType e
  | .use u => use u
  | .typeDef t => only (InWorld t) ⬝ typeDef t
  | .include i => include_ i

/-- `interface name {items}`. -/
def interface (i : Interface) : Lang := T .interface ⬝ ident i.name ⬝ interfaceItems i.items

/-- `world name {items}`. -/
def world (w : World) : Lang := T .world ⬝ ident w.id ⬝ T .openBrace ⬝ many worldItem w.items ⬝ T .closeBrace

/-- `use path` or `use path as name`. Lack of the parser: no semicolon. -/
def topLevelUse (u : TopLevelUse) : Lang := T .use ⬝ path u.item ⬝ as_ u.as_

/-- A number of a version, as `strconv.ParseInt(_, 0, 32)` reads it. -/
def number (v : U64) : Lang := fun ts => ∃ w i, Strconv.parseInt w 32 = .ok i ∧ v = BitVec.ofInt 64 i ∧ ts = [⟨.integer, w⟩]

/-- Nothing or `@major.minor.patch`. Lack of the parser: nothing after that. -/
def version : Option Version → Lang
  | none => eps
  | some v => only (v.pre = [] ∧ v.build = []) ⬝
      T .at ⬝ number v.major ⬝ T .period ⬝ number v.minor ⬝ T .period ⬝ number v.patch

/-- Nothing or `package namespace:name version;`. Liberty of the parser: the namespace is any token. -/
def package : Option PackageDeclaration → Lang
  | none => eps
  | some p => T .package ⬝ any p.namespace_ ⬝ T .colon ⬝ ident p.name ⬝ version p.version ⬝ T .semicolon

/-- An item of a document: a use, a world or an interface. -/
def item : AstItem → Lang
  | ⟨none, none, some u⟩ => topLevelUse u
  | ⟨none, some w, none⟩ => world w
  | ⟨some i, none, none⟩ => interface i
  | _ => never

/-- A document. -/
def document (a : Ast) : Lang := package a.package ⬝ many item a.items

/-- An item of a document, or one of the other tokens, which the parser turns into an empty item. -/
def itemOrToken : AstItem → Lang
  | ⟨none, none, none⟩ => fun ts => ∃ t : Sig, t.type ∉ [.use, .world, .interface] ∧ ts = [t]
  | i => item i

/-- A document with other tokens between its items. -/
def documentOrTokens (a : Ast) : Lang := package a.package ⬝ many itemOrToken a.items

end Verif.Wit.Spec
