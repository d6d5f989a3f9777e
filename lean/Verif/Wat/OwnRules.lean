import Verif.Wat.FloatWords

/-!
# The WAT lexer with rules of one's own

The rules of a lexer are an exported field, and the types of rules are exported, so that a caller can have other tokens
than those of WAT. Here is what the lexer does for any rules.
-/

namespace Verif.Wat

open Spec

/-- The lexemes begun by a first byte, for any rules.
-- models wat/lex/lexer.go:99-108 -/
def beginLexemes (rs : List Rule) (b : Byte) : List Lexeme :=
  (rs.filter (·.check b)).map fun r => ((⟨r, 0⟩ : Lexeme).eat b).getD ⟨r, 0⟩

/-- `Lexer.next` of a lexer with any rules. No node of a rule is nil.
-- models wat/lex/lexer.go:90-150, 191-206 -/
def ruleNext (rs : List Rule) : SM Lexer Token := fun l =>
  match l.input[l.position]? with
  | none => makeToken .endOfStream l
  | some b =>
    let l := { l with position := l.position + 1 }
    let ls := beginLexemes rs b
    if ls.length = 0 then (.err, l)
    else
      match scan (l.input.drop l.position) l.position ls with
      | (.ok ty, p) => makeToken ty { l with position := p }
      | (.err, p) => (.err, { l with position := p })
      | (.panic, p) => (.panic, { l with position := p })
      | (.diverge, p) => (.diverge, { l with position := p })

/-- The lexer of WAT has the rules of `New`. -/
theorem ruleNext_rules : ruleNext rules = lexNext := rfl

namespace Spec

/-- The bytes lead from one node of the automaton to another. Of the edges of a node the first that admits the byte is
followed. -/
inductive Leads (d : Dfa) : Nat → List Byte → Nat → Prop
  | nil (q : Nat) : Leads d q [] q
  | cons (q q' : Nat) (b : Byte) (w : List Byte) (node : Node) (before after : List ((Byte → Bool) × Nat)) (f : Byte → Bool) (p : Nat) :
      d.nodes[q]? = some node → node.edges = before ++ (f, p) :: after → f b = true → (∀ e ∈ before, e.1 b = false) →
      Leads d p w q' → Leads d q (b :: w) q'

/-- The rule can have read these bytes. -/
def Viable : Rule → List Byte → Prop
  | .dfa d _, w => ∃ q, Leads d 0 w q
  | .str s _, w => w <+: s

/-- The bytes are a token of the rule. -/
def Matches : Rule → List Byte → Prop
  | .dfa d _, w => ∃ q node, Leads d 0 w q ∧ d.nodes[q]? = some node ∧ node.final = true
  | .str s _, w => w = s

/-- `w` is the longest of the beginnings of `t`, other than the empty one, with the property. -/
structure Longest (P : List Byte → Prop) (t w : List Byte) : Prop where
  prefix_ : w <+: t
  nonempty : w ≠ []
  holds : P w
  longest : ∀ v, v <+: t → v ≠ [] → P v → v.length ≤ w.length

/-- The first rule of which the bytes are a token. -/
def FirstMatch (rs : List Rule) (w : List Byte) (r : Rule) : Prop :=
  ∃ before after, rs = before ++ r :: after ∧ Matches r w ∧ ∀ r' ∈ before, ¬ Matches r' w

/-- The type of a token of a rule: words of type `Reserved` are told apart further. -/
def TypeOf (r : Rule) (w : List Byte) (ty : TokenType) : Prop :=
  (r.type = .reserved → WordType w ty) ∧ (r.type ≠ .reserved → ty = r.type)

end Spec

end Verif.Wat
