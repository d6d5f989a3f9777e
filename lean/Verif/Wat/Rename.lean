import Verif.Wat.GrammarProps

/-!
# Names in the WAT tree (C152)

A renaming `r` gives every identifier another identifier and every string another string, quotes included. `renDirective` renames
the identifiers and exported names in a tree and leaves everything else: what kinds of sections and instructions there are, in
which order, the types and all numbers.
-/

namespace Verif.Wat.Spec

/-- A word in quotes. -/
def quoted (s : List Byte) : List Byte := ch '"' :: s ++ [ch '"']

/-- What is between the quotes. -/
def unquoted (w : List Byte) : List Byte := w.tail.dropLast

/-- A word in quotes without quotes in it. -/
def PlainString (w : List Byte) : Prop := ∃ s, ch '"' ∉ s ∧ w = quoted s

variable (r : List Byte → List Byte)

/-- What becomes of the text of a string: the text between the quotes of what the string in quotes becomes. -/
def renString (s : List Byte) : List Byte := unquoted (r (quoted s))

/-- An index with its name renamed. -/
def renIndex : Index → Index
  | .raw v => .raw v
  | .id w => .id (r w)

mutual
/-- An instruction with its names renamed. -/
def renInst : Inst → Inst
  | .indexed k i => .indexed k (renIndex r i)
  | .callIndirect w => .callIndirect (r w)
  | .folded i ps => .folded (renInst i) (renInsts ps)
  | .block name rs is => .block (name.map r) rs (renInsts is)
  | .loop name rs is => .loop (name.map r) rs (renInsts is)
  | .ifThen name rs clause thens none => .ifThen (name.map r) rs (renInsts clause) (renInsts thens) none
  | .ifThen name rs clause thens (some elses) =>
    .ifThen (name.map r) rs (renInsts clause) (renInsts thens) (some (renInsts elses))
  | i => i
/-- Instructions with their names renamed. -/
def renInsts : List Inst → List Inst
  | [] => []
  | i :: is => renInst i :: renInsts is
end

/-- A parameter with its name renamed. -/
def renParameter (p : Parameter) : Parameter := { p with id := p.id.map r }

/-- A function type with its names renamed. -/
def renFuncType (f : FuncType) : FuncType := { f with parameters := f.parameters.map (renParameter r) }

/-- A type definition with its names renamed. -/
def renTypeDef (t : TypeDef) : TypeDef := ⟨t.id.map r, renFuncType r t.funcType⟩

/-- A memory with its name renamed. -/
def renMemory (m : Memory) : Memory := { m with id := m.id.map r }

/-- A table with its names renamed. -/
def renTable (t : Table) : Table := { t with id := t.id.map r, elements := t.elements.map r }

/-- A global with its names renamed. -/
def renGlobal (g : Global) : Global := { g with id := g.id.map r, instructions := renInsts r g.instructions }

/-- A function with its names and the names of its exports renamed. -/
def renFunction (f : Function) : Function :=
  ⟨f.id.map r, f.locals, f.exports.map (renString r), f.parameters.map (renParameter r), f.results, renInsts r f.instructions⟩

/-- A module with its names renamed. -/
def renModule (m : Module) : Module :=
  ⟨m.functions.map (renFunction r), m.memory.map (renMemory r), m.types.map (renTypeDef r), m.tables.map (renTable r),
    m.globals.map (renGlobal r)⟩

/-- A directive with its names renamed. -/
def renDirective : Directive → Directive
  | .component => .component
  | .module m => .module (renModule r m)

/-- Tokens that are names: identifiers and strings. -/
def isName (t : Sig) : Prop := t.type = .id ∨ t.type = .string

/-- A token, renamed if it is an identifier or a string. -/
def renTok (t : Sig) : Sig :=
  match t with
  | ⟨.id, w⟩ => ⟨.id, r w⟩
  | ⟨.string, w⟩ => ⟨.string, r w⟩
  | t => t

/-- The renaming keeps, for the strings in the list, whether they are words in quotes without quotes in them. -/
def KeepsStrings (ts : List Sig) : Prop := ∀ t ∈ ts, t.type = .string → (PlainString (r t.capture) ↔ PlainString t.capture)

/-- What comes of a text, renamed. -/
def renResult : Res Directive → Res Directive
  | .ok d => .ok (renDirective r d)
  | x => x

end Verif.Wat.Spec
