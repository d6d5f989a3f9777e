import Verif.Wit.LexProps

/-!
# What the errors of the WIT lexer say
-/

namespace Verif.Wit

open Spec

/-- What an error of the lexer says: the numbers in it. The words around them, and the character named after them if it
begins no token, are left out.
-- models wit/lex/lexer.go:325-327 -/
structure Message where
  line : Nat
  column : Nat
  position : Nat
  deriving DecidableEq, Repr

/-- `lexerError`.
-- models wit/lex/lexer.go:325-327 -/
def lexerError (l : Lexer) : Message := ⟨l.line, l.column, l.position⟩

/-- What `Next` returns: a token, or an error with its message. The error is made from the lexer as it is when `next`
returns. The errors of `expect` and `expectIf` have other messages, but they are never returned: only what has been
looked at is expected.
-- models wit/lex/lexer.go:55-65, 104-106, 180 -/
inductive Said where
  | token (t : Token)
  | error (m : Message)
  | stuck
  deriving DecidableEq, Repr

section
variable [Unicode]

/-- `Next`, with the message of its error.
-- models wit/lex/lexer.go:55-65, 104-106, 180 -/
def said (l : Lexer) : Said :=
  match nextTok l with
  | (.ok t, _) => .token t
  | (.err, l) => .error (lexerError l)
  | _ => .stuck

/-- What `n` calls of `Next` return. -/
def saids : Nat → Lexer → List Said
  | 0, _ => []
  | n + 1, l => said l :: saids n (nextTok l).2

/-- The tokens among what was said. -/
def Spec.tokensSaid (ss : List Said) : List Token := ss.filterMap fun | .token t => some t | _ => none

/-! ## Proofs -/

/-- After any answers, the tokens returned end where the text not yet returned begins. -/
theorem afterNexts_offset (n : Nat) (l : Lexer) (hl : Inv l) (hp : l.peekToken = none) :
    (afterNexts n l).offset = l.offset + (textOf (tokensOf (nexts n l))).length := by
  induction n generalizing l with
  | zero => rfl
  | succ n ih =>
    obtain ⟨i1, i2, i3, k⟩ := lexNext_inv l hl
    rw [afterNexts, nexts, nextTok_fresh l hp, ih (lexNext l).2 i1 (i3.trans hp)]
    rcases k with ⟨he, ho, -⟩ | ⟨t, ht, ho, hle, hcap, -⟩
    · rw [he, ho]; rfl
    · rw [ht]
      show _ = _ + (textOf (t :: tokensOf (nexts n (lexNext l).2))).length
      have hb := i1.bound
      have hle2 := i1.le
      rw [i2] at hb
      have hlen : t.capture.length = (lexNext l).2.offset - l.offset := by
        rw [hcap, List.length_take, List.length_drop]; omega
      have e : textOf (t :: tokensOf (nexts n (lexNext l).2)) = t.capture ++ textOf (tokensOf (nexts n (lexNext l).2)) := rfl
      rw [e, List.length_append]
      omega

theorem said_snoc (n : Nat) (l : Lexer) : saids (n + 1) l = saids n l ++ [said (afterNexts n l)] := by
  induction n generalizing l with
  | zero => rfl
  | succ n ih =>
    rw [saids, ih]
    rfl

theorem tokensSaid_nexts (n : Nat) (l : Lexer) : tokensSaid (saids n l) = tokensOf (nexts n l) := by
  induction n generalizing l with
  | zero => rfl
  | succ n ih =>
    rw [saids, nexts]
    unfold said
    rcases hs : nextTok l with ⟨_ | _ | _ | _, l'⟩
    · show _ :: tokensSaid _ = _ :: tokensOf _
      rw [ih]
    · exact ih l'
    · exact ih l'
    · exact ih l'

/-- C141. In any sequence of calls of `Next` on a new lexer, an error says truly where it is: its line and column are
those in which the text begins that was not returned in tokens, its position is that of the end of the bytes refused, of
which there is at least one. -/
theorem error_place (input : List Byte) (n : Nat) (ss : List Said) (m : Message)
    (h : saids n (Lexer.new input) = ss ++ [.error m]) :
    ∃ bad rest : List Byte, bad ≠ [] ∧ input = textOf (tokensSaid ss) ++ bad ++ rest ∧
      m.line = (textOf (tokensSaid ss)).count (ch '\n') ∧
      m.column = ((textOf (tokensSaid ss)).reverse.takeWhile (· != ch '\n')).length ∧
      m.position = (textOf (tokensSaid ss) ++ bad).length := by
  cases n with
  | zero => exact absurd h.symm (by simp [saids])
  | succ n =>
    rw [said_snoc] at h
    obtain ⟨hss, hm⟩ := List.append_inj' h rfl
    subst hss
    clear h
    injection hm with h _
    obtain ⟨h1, h2, h3⟩ := afterNexts_inv n _ (inv_new input) rfl
    have ho := afterNexts_offset n _ (inv_new input) rfl
    have hpre := (nexts_from n _ (inv_new input) rfl).2.1
    rw [tokensSaid_nexts]
    rw [show (Lexer.new input).offset = 0 from rfl, Nat.zero_add] at ho
    rw [show (Lexer.new input).offset = 0 from rfl, List.drop_zero] at hpre
    rw [show (Lexer.new input).input = input from rfl] at h2 hpre
    unfold said at h
    rw [nextTok_fresh _ h3] at h
    generalize hl : afterNexts n (Lexer.new input) = l at *
    generalize textOf (tokensOf (nexts n (Lexer.new input))) = w at *
    have hw : input.take w.length = w := (List.prefix_iff_eq_take.1 hpre).symm
    obtain ⟨i1, i2, -, k⟩ := lexNext_inv l h1
    rcases hr : lexNext l with ⟨r, l'⟩
    rw [hr] at h i1 i2 k
    simp only at i1 i2
    rcases k with ⟨he, hoff, hlt⟩ | ⟨t, ht, -⟩
    · simp only at he hoff hlt
      subst he
      simp only [Said.error.injEq] at h
      subst h
      have hle := h1.le
      have hb := i1.bound
      rw [i2, h2] at hb
      refine ⟨(input.drop w.length).take (l'.position - w.length), input.drop l'.position, ?_, ?_, ?_, ?_, ?_⟩
      · intro e
        have := congrArg List.length e
        rw [List.length_take, List.length_drop, List.length_nil] at this
        omega
      · rw [List.append_assoc, show input.drop l'.position = (input.drop w.length).drop (l'.position - w.length) by
          rw [List.drop_drop]; congr 1; omega, List.take_append_drop]
        conv => lhs; rw [← List.take_append_drop w.length input, hw]
      · show l'.line = _
        rw [i1.line, i2, hoff, h2, ho, hw]; rfl
      · show l'.column = _
        rw [i1.column, i2, hoff, h2, ho, hw]; rfl
      · show l'.position = _
        rw [List.length_append, List.length_take, List.length_drop]
        omega
    · simp only at ht
      subst ht
      cases h

/-- The answers with messages are the answers of `Next`: nothing else is ever returned, and where a token is not returned
there is a message. -/
theorem said_next (input : List Byte) (n : Nat) :
    (saids n (Lexer.new input)).map (fun | .token t => Res.ok t | .error _ => .err | .stuck => .diverge) = nexts n (Lexer.new input) := by
  suffices H : ∀ l : Lexer, Inv l → l.peekToken = none →
      (saids n l).map (fun | .token t => Res.ok t | .error _ => .err | .stuck => .diverge) = nexts n l from H _ (inv_new input) rfl
  induction n with
  | zero => intros; rfl
  | succ n ih =>
    intro l hl hp
    obtain ⟨i1, -, i3, k⟩ := lexNext_inv l hl
    rw [saids, nexts, List.map_cons]
    unfold said
    rw [nextTok_fresh l hp]
    rw [ih _ i1 (i3.trans hp)]
    congr 1
    rcases k with ⟨he, -⟩ | ⟨t, ht, -⟩
    · rcases hr : lexNext l with ⟨r, l'⟩
      rw [hr] at he
      cases he
      rfl
    · rcases hr : lexNext l with ⟨r, l'⟩
      rw [hr] at ht
      cases ht
      rfl

end

example : (@saids someTables 4 (Lexer.new (txt "a\n #b"))) =
    [.token ⟨.id, 0, 0, 0, txt "a"⟩, .token ⟨.whitespace, 1, 1, 0, txt "\n "⟩, .error ⟨1, 1, 4⟩,
     .token ⟨.id, 3, 1, 1, txt "#b"⟩] := by decide

end Verif.Wit
