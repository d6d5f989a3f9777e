import Verif.Wat.Print
import Verif.Wat.Number

/-!
# A grammar of WAT modules

For every syntax tree the sequences of tokens it can be written as. It is the grammar of what the parser of this repository
accepts, which is more and less than WAT: see the comments. White space and comments are no tokens here.

Nothing of the parser is used but `Sig`, the type and text of a token, and `Lib`, the parts of the Go library that read floating
point numbers. What numbers stand for is specified in `Verif.Wat.Number`.
-/

namespace Verif.Wat.Spec

/-- A set of sequences of tokens. -/
abbrev Lang := List Sig → Prop

/-- One after the other. -/
def Lang.cat (A B : Lang) : Lang := fun ts => ∃ a b, ts = a ++ b ∧ A a ∧ B b

@[inherit_doc] infixr:67 " ⬝ " => Lang.cat

/-- Either. -/
def Lang.alt (A B : Lang) : Lang := fun ts => A ts ∨ B ts

@[inherit_doc] infixr:65 " ∣∣ " => Lang.alt

/-- No token. -/
def eps : Lang := fun ts => ts = []

/-- No token, allowed under a condition only. -/
def only (p : Prop) : Lang := fun ts => p ∧ ts = []

/-- Nothing. -/
def never : Lang := fun _ => False

/-- A token. -/
def tok (t : Sig) : Lang := fun ts => ts = [t]

/-- A word. -/
def word (w : List Byte) : Lang := tok (kw w)

/-- In parentheses. -/
def par (A : Lang) : Lang := tok lp ⬝ A ⬝ tok rp

/-- One after the other, for any number. -/
def many {α : Type} (item : α → Lang) : List α → Lang
  | [] => eps
  | x :: xs => item x ⬝ many item xs

/-- A name. -/
def ident (w : List Byte) : Lang := tok ⟨.id, w⟩

/-- A name or nothing. -/
def optIdent : Option (List Byte) → Lang
  | none => eps
  | some w => ident w

/-- A value type. -/
def val (t : ValType) : Lang := word (valWord t)

/-- A string in quotes, without quotes in it. -/
def str (s : List Byte) : Lang := fun ts => ch '"' ∉ s ∧ ts = [⟨.string, ch '"' :: s ++ [ch '"']⟩]

/-- An integer modulo 2^32. -/
def int32 (v : U32) : Lang := fun ts => ∃ w i, ConstInt w i ∧ v = BitVec.ofInt 32 i ∧ ts = [⟨.integer, w⟩]

/-- An integer modulo 2^64. -/
def int64 (v : U64) : Lang := fun ts => ∃ w i, ConstInt w i ∧ v = BitVec.ofInt 64 i ∧ ts = [⟨.integer, w⟩]

/-- A number as 32 bit floating point number. -/
def float32 (lib : Lib) (v : U32) : Lang := fun ts =>
  (∃ w, ConstFloat32 (fun w v => lib.parseFloat32 w = .ok v) w v ∧ ts = [⟨.float, w⟩]) ∨ ∃ i, int32 i ts ∧ v = lib.float32OfInt i

/-- A number as 64 bit floating point number. -/
def float64 (lib : Lib) (v : U64) : Lang := fun ts =>
  (∃ w, lib.parseFloat64 w = .ok v ∧ ts = [⟨.float, w⟩]) ∨ ∃ i, int64 i ts ∧ v = lib.float64OfInt i

/-- An index: a number or a name. -/
def index : Index → Lang
  | .raw v => fun ts => ∃ w i, IndexInt w i ∧ v = BitVec.ofInt 32 i ∧ ts = [⟨.integer, w⟩]
  | .id w => ident w

/-- `(result types)`. -/
def results (r : Result) : Lang := par (word (txt "result") ⬝ many val r.types)

/-- `(result type)`. Lack of the parser: one type only. -/
def result (r : Result) : Lang :=
  match r.types with
  | [t] => par (word (txt "result") ⬝ val t)
  | _ => never

/-- `(param name type)` or `(param types)`. -/
def param (p : Parameter) : Lang :=
  match p.id, p.types with
  | some w, [t] => par (word (txt "param") ⬝ ident w ⬝ val t)
  | none, ts => par (word (txt "param") ⬝ many val ts)
  | _, _ => never

/-! ## Instructions -/

/-- Lack of the parser: the instructions that are accepted and have no tree. -/
def lostWords : List (List Byte) :=
  [txt "i32.and", txt "i32.or", txt "i32.xor", txt "i32.shl", txt "i32.shr_s", txt "i32.shr_u", txt "i32.rotl", txt "i32.rotr",
   txt "i32.rem_s", txt "i32.rem_u", txt "i32.clz", txt "i32.ctz", txt "i32.popcnt", txt "i32.extend8_s", txt "i32.extend16_s",
   txt "i32.eq", txt "i32.ne", txt "i32.lt_s", txt "i32.lt_u", txt "i32.le_s", txt "i32.le_u", txt "i32.gt_s", txt "i32.gt_u",
   txt "i32.ge_s", txt "i32.ge_u"]

/-- The instructions that operands in parentheses can follow. What follows the others is inside them. -/
def TakesOperands : Inst → Prop
  | .block _ _ _ | .loop _ _ _ | .ifThen _ _ _ _ _ | .folded _ _ => False
  | _ => True

mutual

/-- An instruction, with operands in parentheses or without. -/
inductive IsInst (lib : Lib) : Inst → List Sig → Prop
  | alone {i : Inst} {ts : List Sig} : IsHead lib i ts → IsInst lib i ts
  | folded {i : Inst} {ps : List Inst} {ts us : List Sig} :
    TakesOperands i → IsHead lib i ts → ps ≠ [] → IsInsts lib ps us → IsInst lib (.folded i ps) (ts ++ us)

/-- An instruction without operands. Lack of the parser: no `end`, so the instructions of a block are in parentheses. -/
inductive IsHead (lib : Lib) : Inst → List Sig → Prop
  | lost {w : List Byte} : w ∈ lostWords → IsHead lib .nil [kw w]
  | plain {p : Plain} : IsHead lib (.plain p) [kw (plainWord p)]
  | indexed {k : Indexed} {i : Index} {ts : List Sig} : index i ts → IsHead lib (.indexed k i) (kw (indexedWord k) :: ts)
  | i32Const {v : U32} {ts : List Sig} : int32 v ts → IsHead lib (.i32Const v) (kw (txt "i32.const") :: ts)
  | i64Const {v : U64} {ts : List Sig} : int64 v ts → IsHead lib (.i64Const v) (kw (txt "i64.const") :: ts)
  | f32Const {v : U32} {ts : List Sig} : float32 lib v ts → IsHead lib (.f32Const v) (kw (txt "f32.const") :: ts)
  | f64Const {v : U64} {ts : List Sig} : float64 lib v ts → IsHead lib (.f64Const v) (kw (txt "f64.const") :: ts)
  | callIndirect {w : List Byte} {ts : List Sig} : par (word (txt "type") ⬝ ident w) ts →
    IsHead lib (.callIndirect w) (kw (txt "call_indirect") :: ts)
  | block {name : Option (List Byte)} {rs : List Result} {is : List Inst} {a b c : List Sig} :
    optIdent name a → many results rs b → IsInsts lib is c → IsHead lib (.block name rs is) (kw (txt "block") :: (a ++ (b ++ c)))
  | loop {name : Option (List Byte)} {rs : List Result} {is : List Inst} {a b c : List Sig} :
    optIdent name a → many results rs b → IsInsts lib is c → IsHead lib (.loop name rs is) (kw (txt "loop") :: (a ++ (b ++ c)))
  | ifThen {name : Option (List Byte)} {rs : List Result} {clause : List Inst} {thens elses : Option (List Inst)} {a b : List Sig} :
    optIdent name a → IsIf lib rs clause thens elses b →
    IsHead lib (.ifThen name rs clause (thens.getD []) elses) (kw (txt "if") :: (a ++ b))

/-- Instructions, each in parentheses. -/
inductive IsInsts (lib : Lib) : List Inst → List Sig → Prop
  | nil : IsInsts lib [] []
  | cons {i : Inst} {is : List Inst} {ts us : List Sig} :
    IsInst lib i ts → IsInsts lib is us → IsInsts lib (i :: is) (inParens ts ++ us)

/-- What follows `if`: results, instructions of the condition, `then` and `else`. Liberties of the parser: in any order, and
the last `then` and the last `else` count. -/
inductive IsIf (lib : Lib) : List Result → List Inst → Option (List Inst) → Option (List Inst) → List Sig → Prop
  | nil : IsIf lib [] [] none none []
  | result {r : Result} {rs : List Result} {clause : List Inst} {thens elses : Option (List Inst)} {ts us : List Sig} :
    result r ts → IsIf lib rs clause thens elses us → IsIf lib (r :: rs) clause thens elses (ts ++ us)
  | clause {i : Inst} {rs : List Result} {clause : List Inst} {thens elses : Option (List Inst)} {ts us : List Sig} :
    IsInst lib i ts → IsIf lib rs clause thens elses us → IsIf lib rs (i :: clause) thens elses (inParens ts ++ us)
  | then_ {is : List Inst} {rs : List Result} {clause : List Inst} {thens elses : Option (List Inst)} {ts us : List Sig} :
    IsInsts lib is ts → IsIf lib rs clause thens elses us →
    IsIf lib rs clause (some (thens.getD is)) elses (inParens (kw (txt "then") :: ts) ++ us)
  | else_ {is : List Inst} {rs : List Result} {clause : List Inst} {thens elses : Option (List Inst)} {ts us : List Sig} :
    IsInsts lib is ts → IsIf lib rs clause thens elses us →
    IsIf lib rs clause thens (some (elses.getD is)) (inParens (kw (txt "else") :: ts) ++ us)

end

/-! ## Modules -/

/-- The parts of a function, after its name: types, locals, exports and instructions in parentheses in any order, and then
instructions without parentheses. Lack of the parser: an import leaves nothing in the tree. -/
inductive IsFunc (lib : Lib) : Function → List Sig → Prop
  | rest {id : Option (List Byte)} {is : List Inst} {ts : List Sig} : many (IsInst lib) is ts → IsFunc lib ⟨id, [], [], [], [], is⟩ ts
  | local_ {t : ValType} {f : Function} {ts us : List Sig} : par (word (txt "local") ⬝ val t) ts → IsFunc lib f us →
    IsFunc lib { f with locals := t :: f.locals } (ts ++ us)
  | param {p : Parameter} {f : Function} {ts us : List Sig} : param p ts → IsFunc lib f us →
    IsFunc lib { f with parameters := p :: f.parameters } (ts ++ us)
  | result {r : Result} {f : Function} {ts us : List Sig} : result r ts → IsFunc lib f us →
    IsFunc lib { f with results := r :: f.results } (ts ++ us)
  | export_ {s : List Byte} {f : Function} {ts us : List Sig} : par (word (txt "export") ⬝ str s) ts → IsFunc lib f us →
    IsFunc lib { f with exports := s :: f.exports } (ts ++ us)
  | import_ {s s' : List Byte} {f : Function} {ts us : List Sig} : par (word (txt "import") ⬝ str s ⬝ str s') ts → IsFunc lib f us →
    IsFunc lib f (ts ++ us)
  | inst {i : Inst} {f : Function} {ts us : List Sig} : par (IsInst lib i) ts → IsFunc lib f us →
    IsFunc lib { f with instructions := i :: f.instructions } (ts ++ us)

/-- `func name parts`. -/
def func (lib : Lib) (f : Function) : Lang := word (txt "func") ⬝ optIdent f.id ⬝ IsFunc lib f

/-- The parts of a function type. Liberty of the parser: in any order, and with `()` between them. -/
inductive IsFuncType : FuncType → List Sig → Prop
  | nil : IsFuncType ⟨[], []⟩ []
  | param {p : Parameter} {f : FuncType} {ts us : List Sig} : param p ts → IsFuncType f us →
    IsFuncType { f with parameters := p :: f.parameters } (ts ++ us)
  | result {r : Result} {f : FuncType} {ts us : List Sig} : result r ts → IsFuncType f us →
    IsFuncType { f with results := r :: f.results } (ts ++ us)
  | nothing {f : FuncType} {us : List Sig} : IsFuncType f us → IsFuncType f (lp :: rp :: us)

/-- `type name (func parts)`. Liberty of the parser: the function type may be missing. -/
def typeDef (t : TypeDef) : Lang :=
  word (txt "type") ⬝ optIdent t.id ⬝ (par (word (txt "func") ⬝ IsFuncType t.funcType) ∣∣ only (t.funcType = ⟨[], []⟩))

/-- One or two integers. -/
def limits (l : Limits) : Lang := int32 l.min ⬝ (match l.max with | none => eps | some m => int32 m)

/-- The reference type a word stands for. -/
def refType (w : List Byte) : Option RefType :=
  if w = txt "funcref" then some .funcRef else if w = txt "externref" then some .externRef else none

/-- The type of a table. Liberties of the parser: the limits may be missing, and the reference type may be any word. -/
def tableType (t : TableType) : Lang :=
  (limits t.limits ∣∣ only (t.limits = ⟨0, none⟩)) ⬝ fun ts => ∃ w, t.refType = refType w ∧ ts = [kw w]

/-- `table name type (elem name) …`. -/
def table (t : Table) : Lang :=
  word (txt "table") ⬝ optIdent t.id ⬝ tableType t.tableType ⬝ many (fun e => par (word (txt "elem") ⬝ ident e)) t.elements

/-- `memory name limits`. -/
def memory (m : Memory) : Lang := word (txt "memory") ⬝ optIdent m.id ⬝ limits m.limits

/-- `type` or `(mut type)`. -/
def globalType (isMut : Bool) (t : ValType) : Lang := if isMut then par (word (txt "mut") ⬝ val t) else val t

/-- `global name type instructions`. -/
def global (lib : Lib) (g : Global) : Lang :=
  word (txt "global") ⬝ optIdent g.id ⬝ globalType g.mutable g.type ⬝ IsInsts lib g.instructions

/-- The sections of a module in any order. -/
inductive IsModule (lib : Lib) : Module → List Sig → Prop
  | nil : IsModule lib ⟨[], [], [], [], []⟩ []
  | func {f : Function} {m : Module} {ts us : List Sig} : par (func lib f) ts → IsModule lib m us →
    IsModule lib { m with functions := f :: m.functions } (ts ++ us)
  | type {t : TypeDef} {m : Module} {ts us : List Sig} : par (typeDef t) ts → IsModule lib m us →
    IsModule lib { m with types := t :: m.types } (ts ++ us)
  | table {t : Table} {m : Module} {ts us : List Sig} : par (table t) ts → IsModule lib m us →
    IsModule lib { m with tables := t :: m.tables } (ts ++ us)
  | global {g : Global} {m : Module} {ts us : List Sig} : par (global lib g) ts → IsModule lib m us →
    IsModule lib { m with globals := g :: m.globals } (ts ++ us)
  | memory {x : Memory} {m : Module} {ts us : List Sig} : par (memory x) ts → IsModule lib m us →
    IsModule lib { m with memory := x :: m.memory } (ts ++ us)

/-- `(module sections)` or `(component)`. Lack of the parser: a component has nothing in it. -/
def directive (lib : Lib) : Directive → Lang
  | .component => par (tok ⟨.component, txt "component"⟩)
  | .module m => par (tok ⟨.module, txt "module"⟩ ⬝ IsModule lib m)

end Verif.Wat.Spec
