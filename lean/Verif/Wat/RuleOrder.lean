import Verif.Wat.FromString

/-!
# The order of the rules

`New` appends the rules of the parentheses while it ranges over a map, so that their order differs from run to run.
-/

namespace Verif.Wat

open Spec

theorem firstAccepted_perm (xs ys : List Rule) (h : xs.Perm ys) (w : List Byte)
    (hu : ∀ r ∈ xs, ∀ r' ∈ xs, Matches r w → Matches r' w → r.type = r'.type) :
    firstAccepted (alive xs w) = firstAccepted (alive ys w) := by
  induction h with
  | nil => rfl
  | @cons r xs ys hp ih =>
    by_cases hm : Matches r w
    · rw [(firstAccepted_cons r xs w).1 hm, (firstAccepted_cons r ys w).1 hm]
    · rw [(firstAccepted_cons r xs w).2 hm, (firstAccepted_cons r ys w).2 hm]
      exact ih fun r hr r' hr' => hu r (List.mem_cons_of_mem _ hr) r' (List.mem_cons_of_mem _ hr')
  | swap r r' xs =>
    by_cases hm : Matches r w
    · by_cases hm' : Matches r' w
      · rw [(firstAccepted_cons r' _ w).1 hm', (firstAccepted_cons r _ w).1 hm,
          hu r (by simp) r' (by simp) hm hm']
      · rw [(firstAccepted_cons r' _ w).2 hm', (firstAccepted_cons r _ w).1 hm, (firstAccepted_cons r _ w).1 hm]
    · by_cases hm' : Matches r' w
      · rw [(firstAccepted_cons r' _ w).1 hm', (firstAccepted_cons r _ w).2 hm, (firstAccepted_cons r' _ w).1 hm']
      · rw [(firstAccepted_cons r' _ w).2 hm', (firstAccepted_cons r _ w).2 hm, (firstAccepted_cons r _ w).2 hm, (firstAccepted_cons r' _ w).2 hm']
  | @trans xs ys zs h1 _ ih1 ih2 =>
    rw [ih1 hu]
    exact ih2 fun r hr r' hr' => hu r (h1.mem_iff.2 hr) r' (h1.mem_iff.2 hr')

theorem firstAccepted_append (before xs ys : List Rule) (w : List Byte) (h : firstAccepted (alive xs w) = firstAccepted (alive ys w)) :
    firstAccepted (alive (before ++ xs) w) = firstAccepted (alive (before ++ ys) w) := by
  induction before with
  | nil => exact h
  | cons r before ih =>
    by_cases hm : Matches r w
    · rw [List.cons_append, List.cons_append, (firstAccepted_cons r _ w).1 hm, (firstAccepted_cons r _ w).1 hm]
    · rw [List.cons_append, List.cons_append, (firstAccepted_cons r _ w).2 hm, (firstAccepted_cons r _ w).2 hm, ih]

/-- Rules none of which share a token but with rules of the same type can be in any order. -/
theorem rule_order (before xs ys : List Rule) (h : xs.Perm ys)
    (hu : ∀ w, ∀ r ∈ xs, ∀ r' ∈ xs, Matches r w → Matches r' w → r.type = r'.type) (l : Lexer) :
    ruleNext (before ++ xs) l = ruleNext (before ++ ys) l := by
  have hf : ∀ w, firstAccepted (alive (before ++ xs) w) = firstAccepted (alive (before ++ ys) w) :=
    fun w => firstAccepted_append before xs ys w (firstAccepted_perm xs ys h w (hu w))
  have hn : ∀ w, alive (before ++ xs) w = [] ↔ alive (before ++ ys) w = [] := by
    intro w
    rw [alive_nil, alive_nil]
    simp only [List.mem_append, h.mem_iff]
  have scanned : ∀ (t w : List Byte) (p : Nat), scan t p (alive (before ++ xs) w) = scan t p (alive (before ++ ys) w) := by
    intro t
    induction t with
    | nil => intro w p; rw [scan, scan, hf]
    | cons b t ih =>
      intro w p
      rw [scan, scan, alive_step, alive_step, hf, ih]
      have := hn (w ++ [b])
      by_cases he : alive (before ++ xs) (w ++ [b]) = []
      · rw [he, this.1 he]
      · rw [if_neg (by simpa using he), if_neg (by simpa using fun x => he (this.2 x))]
  unfold ruleNext
  cases l.input[l.position]? with
  | none => rfl
  | some b =>
    simp only
    rw [begin_alive, begin_alive, scanned]
    have := hn [b]
    by_cases he : alive (before ++ xs) [b] = []
    · rw [he, this.1 he]
    · rw [if_neg (by simpa using he), if_neg (by simpa using fun x => he (this.2 x))]

/-- The rules `New` makes if it ranges over the parentheses in that order.
-- models wat/lex/lexer.go:32-54, 27-30 -/
def newRules (parens : List (Byte × TokenType)) : List Rule :=
  [.dfa whitespaceDfa .whitespace, .dfa lineCommentDfa .lineComment, .dfa blockCommentDfa .blockComment,
   .dfa strDfa .string, .dfa identifierDfa .id, .dfa reservedDfa .reserved] ++ parens.map fun p => .str [p.1] p.2

/-- C139. In whatever order `New` ranges over the map of the parentheses, the lexer does the same. -/
theorem map_order (parens : List (Byte × TokenType)) (h : parens.Perm [(ch '(', .openParen), (ch ')', .closeParen)]) (l : Lexer) :
    ruleNext (newRules parens) l = lexNext l := by
  rw [← ruleNext_rules]
  refine rule_order _ _ _ (h.map _) ?_ l
  intro w r hr r' hr' hm hm'
  obtain ⟨p, hp, rfl⟩ := List.mem_map.1 hr
  obtain ⟨p', hp', rfl⟩ := List.mem_map.1 hr'
  have e : w = [p.1] := hm
  have e' : w = [p'.1] := hm'
  rw [e] at e'
  injection e' with e' _
  rw [h.mem_iff] at hp hp'
  have key : ∀ p ∈ [(ch '(', TokenType.openParen), (ch ')', .closeParen)], ∀ p' ∈ [(ch '(', TokenType.openParen), (ch ')', .closeParen)],
      p.1 = p'.1 → p.2 = p'.2 := by decide
  exact key p hp p' hp' e'

example : [(ch ')', TokenType.closeParen), (ch '(', .openParen)].Perm [(ch '(', .openParen), (ch ')', .closeParen)] ∧
    (ruleNext (newRules [(ch ')', .closeParen), (ch '(', .openParen)]) (Lexer.new (txt "(a"))).1 = .ok ⟨.openParen, 0, 0, 0, txt "("⟩ :=
  ⟨.swap _ _ _, by decide +kernel⟩

end Verif.Wat
