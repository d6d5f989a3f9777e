import Verif.Wat.StreamStep
import Verif.Wat.Render
import Verif.Wat.Number

/-!
# Writing WAT

A printer for syntax trees, written from the WebAssembly text format and not from the parser, and the trees it is meant
for.
-/

namespace Verif.Wat.Spec

/-- A decimal digit. -/
def digitChar (d : Nat) : Byte := BitVec.ofNat 8 (48 + d)

/-- A number in decimal digits. -/
def decimal (n : Nat) : List Byte :=
  if n < 10 then [digitChar n] else decimal (n / 10) ++ [digitChar (n % 10)]

/-- A number. -/
def number (n : Nat) : Sig := ⟨.integer, decimal n⟩

/-- A number with a minus sign if it is negative. -/
def signed (v : Int) : Sig := ⟨.integer, if v < 0 then ch '-' :: decimal v.natAbs else decimal v.natAbs⟩

/-- Tokens in parentheses. -/
def inParens (ts : List Sig) : List Sig := lp :: (ts ++ [rp])

/-- An optional name. -/
def idToks : Option (List Byte) → List Sig
  | none => []
  | some w => [⟨.id, w⟩]

/-- The word of a value type. -/
def valWord : ValType → List Byte
  | .i32 => txt "i32"
  | .i64 => txt "i64"
  | .f32 => txt "f32"
  | .f64 => txt "f64"

/-- The word of a reference type. -/
def refWord : RefType → List Byte
  | .funcRef => txt "funcref"
  | .externRef => txt "externref"

/-- The word of an instruction without operands. -/
def plainWord : Plain → List Byte
  | .ret => txt "return"
  | .drop => txt "drop"
  | .select => txt "select"
  | .memoryGrow => txt "memory.grow"
  | .i32Load => txt "i32.load"
  | .i32Store => txt "i32.store"
  | .f32Add => txt "f32.add"
  | .f32Sub => txt "f32.sub"
  | .f32Mul => txt "f32.mul"
  | .f32Div => txt "f32.div"
  | .f32Sqrt => txt "f32.sqrt"
  | .f32Min => txt "f32.min"
  | .f32Max => txt "f32.max"
  | .f32Ceil => txt "f32.ceil"
  | .f32Floor => txt "f32.floor"
  | .f32Trunc => txt "f32.trunc"
  | .f32Nearest => txt "f32.nearest"
  | .i32Add => txt "i32.add"
  | .i32Sub => txt "i32.sub"
  | .i32Mul => txt "i32.mul"
  | .i32DivS => txt "i32.div_s"
  | .i32DivU => txt "i32.div_u"
  | .i32Eqz => txt "i32.eqz"

/-- The word of an instruction with an index. -/
def indexedWord : Indexed → List Byte
  | .br => txt "br"
  | .brIf => txt "br_if"
  | .brTable => txt "br_table"
  | .call => txt "call"
  | .localGet => txt "local.get"
  | .localSet => txt "local.set"
  | .localTee => txt "local.tee"
  | .globalGet => txt "global.get"
  | .globalSet => txt "global.set"

/-- An index: a number or a name. -/
def indexToks : Index → Sig
  | .raw i => number i.toNat
  | .id w => ⟨.id, w⟩

/-- `(result t …)`. -/
def resultToks (r : Result) : List Sig := kw (txt "result") :: r.types.map fun t => kw (valWord t)

/-- How floating point numbers are written. -/
structure Floats where
  show32 : U32 → List Byte
  show64 : U64 → List Byte

mutual
/-- The tokens of an instruction. -/
def instToks (fl : Floats) : Inst → List Sig
  | .nil => []
  | .plain p => [kw (plainWord p)]
  | .indexed k i => [kw (indexedWord k), indexToks i]
  | .i32Const v => [kw (txt "i32.const"), number v.toNat]
  | .i64Const v => [kw (txt "i64.const"), signed v.toInt]
  | .f32Const v => [kw (txt "f32.const"), ⟨.float, fl.show32 v⟩]
  | .f64Const v => [kw (txt "f64.const"), ⟨.float, fl.show64 v⟩]
  | .callIndirect t => kw (txt "call_indirect") :: inParens [kw (txt "type"), ⟨.id, t⟩]
  | .folded i ps => instToks fl i ++ instsToks fl ps
  | .block name rs is => kw (txt "block") :: (idToks name ++ (rs.flatMap fun r => inParens (resultToks r)) ++ instsToks fl is)
  | .loop name rs is => kw (txt "loop") :: (idToks name ++ (rs.flatMap fun r => inParens (resultToks r)) ++ instsToks fl is)
  | .ifThen name rs clause thens elses =>
    kw (txt "if") :: (idToks name ++ (rs.flatMap fun r => inParens (resultToks r)) ++ instsToks fl clause ++
      inParens (kw (txt "then") :: instsToks fl thens) ++ elseToks fl elses)
/-- The tokens of instructions, each in parentheses. -/
def instsToks (fl : Floats) : List Inst → List Sig
  | [] => []
  | i :: is => inParens (instToks fl i) ++ instsToks fl is
/-- `(else …)`. -/
def elseToks (fl : Floats) : Option (List Inst) → List Sig
  | none => []
  | some is => inParens (kw (txt "else") :: instsToks fl is)
end

/-- `param $x t …`. -/
def paramToks (p : Parameter) : List Sig := kw (txt "param") :: (idToks p.id ++ p.types.map fun t => kw (valWord t))

/-- `type $t (func …)`. -/
def typeToks (t : TypeDef) : List Sig :=
  kw (txt "type") :: (idToks t.id ++ inParens (kw (txt "func") ::
    ((t.funcType.parameters.flatMap fun p => inParens (paramToks p)) ++ t.funcType.results.flatMap fun r => inParens (resultToks r))))

/-- Limits. -/
def limitsToks (l : Limits) : List Sig :=
  number l.min.toNat :: (match l.max with | none => [] | some m => [number m.toNat])

/-- `memory $m 1 2`. -/
def memoryToks (m : Memory) : List Sig := kw (txt "memory") :: (idToks m.id ++ limitsToks m.limits)

/-- `table $t 1 2 funcref (elem $f) …`. -/
def tableToks (t : Table) : List Sig :=
  kw (txt "table") :: (idToks t.id ++ limitsToks t.tableType.limits ++
    (match t.tableType.refType with | none => [] | some r => [kw (refWord r)]) ++
    t.elements.flatMap fun e => inParens [kw (txt "elem"), ⟨.id, e⟩])

/-- `global $g (mut t) (…) …`. -/
def globalToks (fl : Floats) (g : Global) : List Sig :=
  kw (txt "global") :: (idToks g.id ++
    (if g.mutable then inParens [kw (txt "mut"), kw (valWord g.type)] else [kw (valWord g.type)]) ++ instsToks fl g.instructions)

/-- `func $f (export "n") (param …) (result …) (local …) (…) …`. -/
def funcToks (fl : Floats) (f : Function) : List Sig :=
  kw (txt "func") :: (idToks f.id ++
    (f.exports.flatMap fun n => inParens [kw (txt "export"), ⟨.string, ch '"' :: n ++ [ch '"']⟩]) ++
    (f.parameters.flatMap fun p => inParens (paramToks p)) ++
    (f.results.flatMap fun r => inParens (resultToks r)) ++
    (f.locals.flatMap fun t => inParens [kw (txt "local"), kw (valWord t)]) ++
    instsToks fl f.instructions)

/-- The tokens of a directive. -/
def directiveToks (fl : Floats) : Directive → List Sig
  | .component => inParens [⟨.component, txt "component"⟩]
  | .module m => inParens (⟨.module, txt "module"⟩ ::
      ((m.types.flatMap fun t => inParens (typeToks t)) ++ (m.tables.flatMap fun t => inParens (tableToks t)) ++
      (m.memory.flatMap fun m => inParens (memoryToks m)) ++ (m.globals.flatMap fun g => inParens (globalToks fl g)) ++
      m.functions.flatMap fun f => inParens (funcToks fl f)))

/-- The text of a directive: its tokens with spaces between them. -/
def print (fl : Floats) (d : Directive) : List Byte := sep ((directiveToks fl d).map (·.capture))

/-! ## The supported trees -/

/-- A name. -/
def Name (w : List Byte) : Prop := ∃ n, w = ch '$' :: n ∧ n ≠ [] ∧ ∀ b ∈ n, b ∈ wordChars

/-- No name or a name. -/
def OptName (o : Option (List Byte)) : Prop := ∀ w, o = some w → Name w

/-- Instructions that take folded operands. -/
def isLeaf : Inst → Bool
  | .plain _ | .indexed _ _ | .i32Const _ | .i64Const _ | .f32Const _ | .f64Const _ | .callIndirect _ => true
  | _ => false

mutual
/-- The instructions the parser supports: names are names, 64 bit constants are in the range of 32 bit ones, floats are
written as words the library reads back, operands follow instructions that take them, and an `if` has results of one
type each. -/
def InstOk (lib : Lib) (fl : Floats) : Inst → Prop
  | .nil => False
  | .plain _ => True
  | .indexed _ i => ∀ w, i = .id w → Name w
  | .i32Const _ => True
  | .i64Const v => -2 ^ 31 ≤ v.toInt ∧ v.toInt < 2 ^ 32
  | .f32Const v => Written ⟨.float, fl.show32 v⟩ ∧ ConstFloat32 (fun w v => lib.parseFloat32 w = .ok v) (fl.show32 v) v
  | .f64Const v => Written ⟨.float, fl.show64 v⟩ ∧ lib.parseFloat64 (fl.show64 v) = .ok v
  | .callIndirect t => Name t
  | .folded i ps => isLeaf i ∧ InstOk lib fl i ∧ ps ≠ [] ∧ InstsOk lib fl ps
  | .block name _ is => OptName name ∧ InstsOk lib fl is
  | .loop name _ is => OptName name ∧ InstsOk lib fl is
  | .ifThen name rs clause thens elses => OptName name ∧ (∀ r ∈ rs, r.types.length = 1) ∧
      InstsOk lib fl clause ∧ InstsOk lib fl thens ∧ ElseOk lib fl elses
/-- All instructions. -/
def InstsOk (lib : Lib) (fl : Floats) : List Inst → Prop
  | [] => True
  | i :: is => InstOk lib fl i ∧ InstsOk lib fl is
/-- All instructions of an `else`. -/
def ElseOk (lib : Lib) (fl : Floats) : Option (List Inst) → Prop
  | none => True
  | some is => InstsOk lib fl is
end

/-- A parameter with a name has one type. -/
def ParamOk (p : Parameter) : Prop := OptName p.id ∧ (p.id.isSome → p.types.length = 1)

/-- The parts of a function type are supported. -/
def TypeOk (t : TypeDef) : Prop :=
  OptName t.id ∧ (∀ p ∈ t.funcType.parameters, ParamOk p) ∧ ∀ r ∈ t.funcType.results, r.types.length = 1

/-- A table has a reference type. -/
def TableOk (t : Table) : Prop := OptName t.id ∧ t.tableType.refType ≠ none ∧ ∀ e ∈ t.elements, Name e

/-- The parts of a global are supported. -/
def GlobalOk (lib : Lib) (fl : Floats) (g : Global) : Prop := OptName g.id ∧ InstsOk lib fl g.instructions

/-- The parts of a function are supported; there is no quote in an exported name. -/
def FuncOk (lib : Lib) (fl : Floats) (f : Function) : Prop :=
  OptName f.id ∧ (∀ n ∈ f.exports, ch '"' ∉ n) ∧ (∀ p ∈ f.parameters, ParamOk p) ∧ (∀ r ∈ f.results, r.types.length = 1) ∧
    InstsOk lib fl f.instructions

/-- The trees the parser supports. -/
def Supported (lib : Lib) (fl : Floats) : Directive → Prop
  | .component => True
  | .module m => (∀ t ∈ m.types, TypeOk t) ∧ (∀ t ∈ m.tables, TableOk t) ∧ (∀ x ∈ m.memory, OptName x.id) ∧
      (∀ g ∈ m.globals, GlobalOk lib fl g) ∧ ∀ f ∈ m.functions, FuncOk lib fl f

end Verif.Wat.Spec
