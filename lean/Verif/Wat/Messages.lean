import Verif.Wat.SemiProps

/-!
# What the errors of the WAT lexer say
-/

namespace Verif.Wat

open Spec

/-- What an error of the lexer says: the numbers and the bytes in it. The words around them are left out.
-- models wat/lex/lexer.go:710-712 -/
structure Message where
  line : Nat
  column : Nat
  position : Nat
  quoted : List Byte
  deriving DecidableEq, Repr

/-- `lexerError`.
-- models wat/lex/lexer.go:710-712 -/
def lexerError (l : Lexer) : Message := ⟨l.line, l.column, l.position, (l.input.drop l.offset).take (l.position - l.offset)⟩

/-- What `Next` returns: a token, or an error with its message. The error is made from the lexer as it is when `next`
returns.
-- models wat/lex/lexer.go:78-88, 110-112, 142 -/
inductive Said where
  | token (t : Token)
  | error (m : Message)
  | stuck
  deriving DecidableEq, Repr

/-- `Next`, with the message of its error.
-- models wat/lex/lexer.go:78-88, 110-112, 142 -/
def said (l : Lexer) : Said :=
  match nextTok l with
  | (.ok t, _) => .token t
  | (.err, l) => .error (lexerError l)
  | _ => .stuck

/-- What `n` calls of `Next` return. -/
def saids : Nat → Lexer → List Said
  | 0, _ => []
  | n + 1, l => said l :: saids n (nextTok l).2

namespace Spec

/-- The tokens among what was said. -/
def tokensSaid (ss : List Said) : List Token := ss.filterMap fun | .token t => some t | _ => none

end Spec

/-! ## Proofs -/

theorem first_none (b : Byte) (w : List Byte) (h : first (b :: w) = none) :
    b ∉ starts ∨ b = ch ';' ∧ ∃ c w', w = c :: w' ∧ c ≠ ch ';' := by
  rw [first] at h
  split at h
  · cases h
  rename_i h1
  split at h
  · split at h
    · split at h <;> cases h
    · cases h
  rename_i h2
  split at h
  · cases h
  rename_i h3
  split at h
  · simp only at h; split at h <;> cases h
  rename_i h4
  split at h
  · rename_i h5
    right
    refine ⟨h5, ?_⟩
    split at h
    · simp only at h; split at h <;> cases h
    · rename_i h6
      cases w with
      | nil => simp at h
      | cons c w' => exact ⟨c, w', rfl, by simpa using h6⟩
  rename_i h5
  split at h
  · cases h
  rename_i h6
  left
  intro hm
  rcases List.mem_append.1 hm with hm | hm
  · rcases List.mem_append.1 hm with hm | hm
    · exact h1 ((isSpace_iff b).2 hm)
    · exact h6 ((isIdChar_iff b).2 hm)
  · have : b = ch '(' ∨ b = ch ')' ∨ b = ch '"' ∨ b = ch ';' := by simpa [txt, ch] using hm
    rcases this with h | h | h | h
    · exact h2 h
    · exact h3 h
    · exact h4 h
    · exact h5 h

/-- An error is about one byte. -/
theorem err_step (l : Lexer) (h1 : l.offset ≤ l.position) (h2 : l.position ≤ l.input.length) (he : (lexNext l).1 = .err) :
    ∃ b rest, l.input.drop l.position = b :: rest ∧ lexNext l = (.err, { l with position := l.position + 1 }) ∧
      first (b :: rest) = none := by
  have h := lexNext_at l h1 h2
  split at h
  · obtain ⟨ty, -, hn⟩ := h
    rw [hn] at he
    cases he
  · rename_i heq
    rcases Nat.lt_or_ge l.position l.input.length with hlt | hge
    · have hd : l.input.drop l.position = l.input[l.position] :: l.input.drop (l.position + 1) := List.drop_eq_getElem_cons hlt
      have hs := scan_first l.input[l.position] (l.input.drop (l.position + 1)) l.position
      rw [hd] at heq
      rw [heq] at hs
      refine ⟨_, _, hd, ?_, heq⟩
      unfold lexNext
      rw [List.getElem?_eq_getElem hlt]
      simp only
      rcases hs with h | h
      · rw [if_pos (by simp [h])]
      · by_cases h0 : (startLexemes l.input[l.position]).length = 0
        · rw [if_pos h0]
        · rw [if_neg h0, h]
    · rw [List.drop_eq_nil_of_le hge] at heq
      simp [first] at heq

/-- After any answers, the tokens returned end where the text not yet returned begins. -/
theorem afterNexts_offset (n : Nat) (l : Lexer) (hl : Inv l) (hp : l.peekToken = none) :
    (afterNexts n l).offset = l.offset + (textOf (tokensOf (nexts n l))).length := by
  induction n generalizing l with
  | zero => rfl
  | succ n ih =>
    obtain ⟨i1, i2, i3, k⟩ := lexNext_inv l hl
    rw [afterNexts, nexts, nextTok_fresh l hp, ih (lexNext l).2 i1 (i3.trans hp)]
    rcases k with ⟨he, ho, -⟩ | ⟨t, ht, ho, hle, hcap, -⟩
    · rw [he, ho]; rfl
    · rw [ht]
      show _ = _ + (textOf (t :: tokensOf (nexts n (lexNext l).2))).length
      have hb := i1.bound
      have hle2 := i1.le
      rw [i2] at hb
      have hlen : t.capture.length = (lexNext l).2.offset - l.offset := by
        rw [hcap, List.length_take, List.length_drop]; omega
      have e : textOf (t :: tokensOf (nexts n (lexNext l).2)) = t.capture ++ textOf (tokensOf (nexts n (lexNext l).2)) := rfl
      rw [e, List.length_append]
      omega

theorem said_snoc (n : Nat) (l : Lexer) : saids (n + 1) l = saids n l ++ [said (afterNexts n l)] := by
  induction n generalizing l with
  | zero => rfl
  | succ n ih =>
    rw [saids, ih]
    rfl

theorem tokensSaid_nexts (n : Nat) (l : Lexer) : tokensSaid (saids n l) = tokensOf (nexts n l) := by
  induction n generalizing l with
  | zero => rfl
  | succ n ih =>
    rw [saids, nexts]
    unfold said
    rcases hs : nextTok l with ⟨_ | _ | _ | _, l'⟩
    · show _ :: tokensSaid _ = _ :: tokensOf _
      rw [ih]
    · exact ih l'
    · exact ih l'
    · exact ih l'

/-- C140. In any sequence of calls of `Next` on a new lexer, an error says truly where it is: the bytes it quotes follow
those of the tokens returned before; its line and column are those in which they begin, its position is that at which they
end. The last of the bytes begins no token, or is a semicolon that another byte than a semicolon follows. -/
theorem error_place (input : List Byte) (n : Nat) (ss : List Said) (m : Message)
    (h : saids n (Lexer.new input) = ss ++ [.error m]) :
    ∃ (before : List Byte) (b : Byte) (rest : List Byte), m.quoted = before ++ [b] ∧
      input = textOf (tokensSaid ss) ++ m.quoted ++ rest ∧
      m.line = (textOf (tokensSaid ss)).count (ch '\n') ∧
      m.column = ((textOf (tokensSaid ss)).reverse.takeWhile (· != ch '\n')).length ∧
      m.position = (textOf (tokensSaid ss) ++ m.quoted).length ∧
      (b ∉ starts ∨ b = ch ';' ∧ ∃ c w, rest = c :: w ∧ c ≠ ch ';') := by
  cases n with
  | zero => exact absurd h.symm (by simp [saids])
  | succ n =>
    rw [said_snoc] at h
    obtain ⟨hss, hm⟩ := List.append_inj' h rfl
    subst hss
    clear h
    injection hm with h _
    obtain ⟨h1, h2, h3⟩ := afterNexts_inv n _ (inv_new input) rfl
    have ho := afterNexts_offset n _ (inv_new input) rfl
    have hpre := (nexts_from n _ (inv_new input) rfl).2.1
    rw [tokensSaid_nexts]
    rw [show (Lexer.new input).offset = 0 from rfl, Nat.zero_add] at ho
    rw [show (Lexer.new input).offset = 0 from rfl, List.drop_zero] at hpre
    rw [show (Lexer.new input).input = input from rfl] at h2 hpre
    unfold said at h
    rw [nextTok_fresh _ h3] at h
    generalize hl : afterNexts n (Lexer.new input) = l at *
    generalize textOf (tokensOf (nexts n (Lexer.new input))) = w at *
    have hw : input.take w.length = w := (List.prefix_iff_eq_take.1 hpre).symm
    have he : (lexNext l).1 = .err := by
      rcases hr : lexNext l with ⟨_ | _ | _ | _, l'⟩ <;> rw [hr] at h <;> first | rfl | cases h
    obtain ⟨b, rest, hd, hn, hf⟩ := err_step l h1.le h1.bound he
    rw [hn] at h
    simp only [Said.error.injEq] at h
    subst h
    have hlt : l.position < l.input.length := by
      rcases Nat.lt_or_ge l.position l.input.length with h | h
      · exact h
      · rw [List.drop_eq_nil_of_le h] at hd; cases hd
    have hle := h1.le
    have hq : (l.input.drop l.offset).take (l.position + 1 - l.offset) = (l.input.drop l.offset).take (l.position - l.offset) ++ [b] := by
      rw [show l.position + 1 - l.offset = (l.position - l.offset) + 1 by omega, List.take_add_one, List.getElem?_drop,
        show l.offset + (l.position - l.offset) = l.position by omega, ← List.head?_drop, hd]
      rfl
    have hrest : l.input.drop (l.position + 1) = rest := by
      rw [← List.tail_drop, hd]; rfl
    have hsplit : input = w ++ (l.input.drop l.offset).take (l.position + 1 - l.offset) ++ rest := by
      rw [← hrest, h2, ho, List.append_assoc,
        show input.drop (l.position + 1) = (input.drop w.length).drop (l.position + 1 - w.length) by
          rw [List.drop_drop]; congr 1; omega, List.take_append_drop]
      conv => lhs; rw [← List.take_append_drop w.length input, hw]
    refine ⟨_, b, rest, hq, hsplit, ?_, ?_, ?_, first_none b rest hf⟩
    · show l.line = _
      rw [h1.line, h2, ho, hw]; rfl
    · show l.column = _
      rw [h1.column, h2, ho, hw]; rfl
    · show l.position + 1 = _
      rw [List.length_append]
      show l.position + 1 = w.length + ((l.input.drop l.offset).take (l.position + 1 - l.offset)).length
      rw [List.length_take, List.length_drop]
      omega

/-- The answers with messages are the answers of `Next`: nothing else is ever returned, and where a token is not returned
there is a message. -/
theorem said_next (input : List Byte) (n : Nat) :
    (saids n (Lexer.new input)).map (fun | .token t => Res.ok t | .error _ => .err | .stuck => .diverge) = nexts n (Lexer.new input) := by
  suffices H : ∀ l : Lexer, Inv l → l.peekToken = none →
      (saids n l).map (fun | .token t => Res.ok t | .error _ => .err | .stuck => .diverge) = nexts n l from H _ (inv_new input) rfl
  induction n with
  | zero => intros; rfl
  | succ n ih =>
    intro l hl hp
    obtain ⟨i1, -, i3, k⟩ := lexNext_inv l hl
    rw [saids, nexts, List.map_cons]
    unfold said
    rw [nextTok_fresh l hp]
    rw [ih _ i1 (i3.trans hp)]
    congr 1
    rcases k with ⟨he, -⟩ | ⟨t, ht, -⟩
    · rcases hr : lexNext l with ⟨r, l'⟩
      rw [hr] at he
      cases he
      rfl
    · rcases hr : lexNext l with ⟨r, l'⟩
      rw [hr] at ht
      cases ht
      rfl

example : saids 4 (Lexer.new (txt "a\n ;b")) =
    [.token ⟨.reserved, 0, 0, 0, txt "a"⟩, .token ⟨.whitespace, 1, 1, 0, txt "\n "⟩, .error ⟨1, 1, 4, txt ";"⟩,
     .token ⟨.reserved, 3, 1, 1, txt ";b"⟩] := by decide

end Verif.Wat
