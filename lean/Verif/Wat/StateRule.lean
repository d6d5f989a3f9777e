import Verif.Wat.RuleOrder

/-!
# Rules of the third kind

`StateRule` is exported and is a `Rule`, but the registry of the lexer has no factory for it.
-/

namespace Verif.Wat

open Spec

/-- A rule of any of the three types of the package. Of a `StateRule` only what the lexer asks is kept: whether it can
begin with a byte. `StateLexeme` is no `Lexeme` (it has no methods `Rule` and `Accepted`) and nothing makes one.
-- models wat/lex/state.go:5-39, wat/lex/lexeme.go:9-13 -/
inductive AnyRule where
  | known (r : Rule)
  | state (startMatch : Byte → Bool) (ty : TokenType)

/-- The rules the registry has a factory for.
-- models wat/lex/registry.go:6-9 -/
def knowns (rs : List AnyRule) : List Rule := rs.filterMap fun | .known r => some r | .state _ _ => none

/-- The rule is a `StateRule` that can begin with the byte.
-- models wat/lex/state.go:17-19 -/
def AnyRule.startsState (b : Byte) : AnyRule → Bool
  | .known _ => false
  | .state f _ => f b

/-- `Lexer.next` of a lexer with rules of all three types. The lookup of a factory for a `StateRule` gives a nil interface,
and the call of its method fails at run time; `fault` is what becomes of that: a panic, or an error if `handle.Error`
recovers from it. The rules before it have no effect that could be seen.
-- models wat/lex/lexer.go:90-150, wat/lex/registry.go:6-9 -/
def anyNext (fault : Res Token) (rs : List AnyRule) : SM Lexer Token := fun l =>
  match l.input[l.position]? with
  | none => makeToken .endOfStream l
  | some b => if rs.any (·.startsState b) then (fault, { l with position := l.position + 1 }) else ruleNext (knowns rs) l

/-- Rules of the other two types with rules of the third between them. -/
inductive Spec.Among : List Rule → List AnyRule → Prop
  | nil : Among [] []
  | known {ks : List Rule} {rs : List AnyRule} (r : Rule) : Among ks rs → Among (r :: ks) (.known r :: rs)
  | state {ks : List Rule} {rs : List AnyRule} (f : Byte → Bool) (ty : TokenType) : Among ks rs → Among ks (.state f ty :: rs)

theorem knowns_among (ks : List Rule) (rs : List AnyRule) (h : Among ks rs) : knowns rs = ks := by
  induction h with
  | nil => rfl
  | known r _ ih => rw [← ih]; rfl
  | state f ty _ ih => rw [← ih]; rfl

/-- C142, the part that holds: where no `StateRule` can begin, the lexer does what it would do without them. Missing: that
a `StateRule` which can begin yields a token; false of the code, see `state_rule_fails`. -/
theorem state_rule_partial (fault : Res Token) (ks : List Rule) (rs : List AnyRule) (hk : Among ks rs) (l : Lexer)
    (h : ∀ (f : Byte → Bool) (ty : TokenType), AnyRule.state f ty ∈ rs → ∀ b, l.input[l.position]? = some b → f b = false) :
    anyNext fault rs l = ruleNext ks l := by
  rw [← knowns_among ks rs hk]
  unfold anyNext
  cases hb : l.input[l.position]? with
  | none => unfold ruleNext; rw [hb]
  | some b =>
    simp only
    rw [if_neg]
    intro ha
    obtain ⟨r, hr, hs⟩ := List.any_eq_true.1 ha
    cases r with
    | known r => cases hs
    | state f ty =>
      rw [show AnyRule.startsState b (.state f ty) = f b from rfl, h f ty hr b hb] at hs
      cases hs

/-- A `StateRule` that can begin with the next byte makes every lexer fail there, whatever the other rules. -/
theorem state_rule_fails (fault : Res Token) (hf : fault = .err ∨ fault = .panic) (rs : List AnyRule) (l : Lexer)
    (f : Byte → Bool) (ty : TokenType) (h : AnyRule.state f ty ∈ rs) (b : Byte) (hb : l.input[l.position]? = some b)
    (hs : f b = true) : ∀ t, (anyNext fault rs l).1 ≠ .ok t := by
  intro t
  unfold anyNext
  rw [hb]
  simp only
  rw [if_pos (List.any_eq_true.2 ⟨_, h, hs⟩)]
  rcases hf with rfl | rfl <;> (intro e; cases e)

example : Among rules (.state isDigit .integer :: rules.map .known) := by
  refine .state _ _ ?_
  generalize rules = ks
  induction ks with
  | nil => exact .nil
  | cons r ks ih => exact .known r ih

/-- With the rules of WAT and a rule for digits of one's own, words are read and digits are not. -/
example : (anyNext .panic (rules.map .known ++ [.state isDigit .integer]) (Lexer.new (txt "a"))).1 = .ok ⟨.reserved, 0, 0, 0, txt "a"⟩ ∧
    (anyNext .panic (rules.map .known ++ [.state isDigit .integer]) (Lexer.new (txt "1"))).1 = .panic ∧
    (lexNext (Lexer.new (txt "1"))).1 = .ok ⟨.integer, 0, 0, 0, txt "1"⟩ := by decide +kernel

end Verif.Wat
