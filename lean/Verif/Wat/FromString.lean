import Verif.Wat.OwnRulesProps
import Mathlib.Data.List.Forall2

/-!
# Automata made from strings
-/

namespace Verif.Wat

open Spec

/-- `FromString`, with the flag `Final` of the node returned last. Go numbers no nodes: here the node after `i` bytes has
the number `i`; the first is the start, and the last is returned, for the caller to make it final or to give it edges.
-- models wat/lex/dfa.go:107-119 -/
def fromString (s : List Byte) (final : Bool) : Dfa :=
  ⟨go 0 s⟩
where
  /-- The nodes from the `i`th on. -/
  go (i : Nat) : List Byte → List Node
    | [] => [{ edges := [], final := final }]
    | b :: s => { edges := [((· == b), i + 1)] } :: go (i + 1) s

theorem fromString_go (final : Bool) (s : List Byte) (i k : Nat) :
    (fromString.go final i s)[k]? = if k < s.length then some { edges := [((· == s[k]!), i + k + 1)] }
      else if k = s.length then some { edges := [], final := final } else none := by
  induction s generalizing i k with
  | nil =>
    cases k with
    | zero => rfl
    | succ k => simp [fromString.go]
  | cons b s ih =>
    cases k with
    | zero => simp [fromString.go]
    | succ k =>
      rw [fromString.go, List.getElem?_cons_succ, ih]
      simp only [List.length_cons, Nat.add_lt_add_iff_right, Nat.add_right_cancel_iff]
      by_cases h : k < s.length
      · rw [if_pos h, if_pos h]
        simp [Nat.add_comm, Nat.add_left_comm]
      · rw [if_neg h, if_neg h]

theorem fromString_leads (s : List Byte) (final : Bool) (w : List Byte) (i q : Nat) (hi : i ≤ s.length) :
    Leads (fromString s final) i w q ↔ w <+: s.drop i ∧ q = i + w.length := by
  induction w generalizing i with
  | nil =>
    constructor
    · intro h; cases h; simp
    · rintro ⟨-, rfl⟩; exact .nil _
  | cons b w ih =>
    constructor
    · intro h
      cases h with
      | cons _ _ _ _ node before after f p h1 h2 h3 h4 h5 =>
        have k : (fromString.go final 0 s)[i]? = some node := h1
        rw [fromString_go] at k
        by_cases hl : i < s.length
        · rw [if_pos hl] at k
          cases k
          cases before with
          | nil =>
            injection h2 with h2 _
            cases h2
            have hb : b = s[i] := by
              have : b = s[i]! := by simpa using h3
              rw [this, getElem!_pos s i hl]
            rw [Nat.zero_add] at h5
            obtain ⟨k1, k2⟩ := (ih (i + 1) hl).1 h5
            refine ⟨?_, by rw [k2, List.length_cons]; omega⟩
            rw [List.drop_eq_getElem_cons hl, hb]
            exact List.cons_prefix_cons.2 ⟨rfl, k1⟩
          | cons e before =>
            have := congrArg List.length h2
            simp at this
        · rw [if_neg hl, if_pos (by omega)] at k
          cases k
          simp at h2
    · rintro ⟨h1, rfl⟩
      have hl : i < s.length := by
        have := h1.length_le
        rw [List.length_cons, List.length_drop] at this
        omega
      rw [List.drop_eq_getElem_cons hl, List.cons_prefix_cons] at h1
      refine .cons i _ b w { edges := [((· == s[i]!), 0 + i + 1)] } [] [] _ (0 + i + 1) ?_ rfl ?_ (by simp) ?_
      · show (fromString.go final 0 s)[i]? = _
        rw [fromString_go, if_pos hl]
      · rw [getElem!_pos s i hl, h1.1]
        simp
      · rw [Nat.zero_add]
        exact (ih (i + 1) hl).2 ⟨h1.2, by rw [List.length_cons]; omega⟩

/-- C138. The automaton of a string can read the beginnings of the string and nothing else, and if its last node is final
its only token is the string. -/
theorem from_string (s w : List Byte) (ty : TokenType) :
    (∀ final, Viable (.dfa (fromString s final) ty) w ↔ w <+: s) ∧
    (Matches (.dfa (fromString s true) ty) w ↔ w = s) ∧ ¬ Matches (.dfa (fromString s false) ty) w := by
  refine ⟨fun final => ?_, ?_, ?_⟩
  · show (∃ q, Leads _ 0 w q) ↔ _
    constructor
    · rintro ⟨q, h⟩
      exact ((fromString_leads s final w 0 q (Nat.zero_le _)).1 h).1
    · intro h
      exact ⟨_, (fromString_leads s final w 0 _ (Nat.zero_le _)).2 ⟨h, rfl⟩⟩
  · show (∃ q node, Leads _ 0 w q ∧ _ ∧ _) ↔ _
    constructor
    · rintro ⟨q, node, h, hn, hf⟩
      obtain ⟨h1, h2⟩ := (fromString_leads s true w 0 q (Nat.zero_le _)).1 h
      have k : (fromString.go true 0 s)[q]? = some node := hn
      rw [fromString_go] at k
      by_cases hl : q < s.length
      · rw [if_pos hl] at k
        cases k
        cases hf
      · exact h1.eq_of_length_le (by rw [Nat.zero_add] at h2; rw [← h2, List.drop_zero]; omega)
    · rintro rfl
      refine ⟨_, { edges := [], final := true }, (fromString_leads w true w 0 _ (Nat.zero_le _)).2 ⟨by simp, rfl⟩, ?_, rfl⟩
      show (fromString.go true 0 w)[0 + w.length]? = _
      rw [fromString_go, if_neg (by omega), if_pos (by omega)]
  · rintro ⟨q, node, h, hn, hf⟩
    have k : (fromString.go false 0 s)[q]? = some node := hn
    rw [fromString_go] at k
    split at k
    · cases k; cases hf
    · split at k
      · cases k; cases hf
      · cases k

namespace Spec

/-- Two rules with the same type, beginnings and tokens. -/
def SameRule (r r' : Rule) : Prop :=
  r.type = r'.type ∧ ∀ w, (Viable r w ↔ Viable r' w) ∧ (Matches r w ↔ Matches r' w)

end Spec

theorem firstAccepted_cons (r : Rule) (rs : List Rule) (w : List Byte) :
    (Matches r w → firstAccepted (alive (r :: rs) w) = some r.type) ∧
    (¬ Matches r w → firstAccepted (alive (r :: rs) w) = firstAccepted (alive rs w)) := by
  constructor
  · intro h
    exact firstAccepted_first (r :: rs) w r ⟨[], rs, rfl, h, by simp⟩
  · intro h
    unfold firstAccepted alive
    rw [List.filterMap_cons]
    cases hx : (⟨r, 0⟩ : Lexeme).run w with
    | none => rfl
    | some l =>
      simp only
      rw [List.find?_cons_of_neg]
      intro ha
      exact h ((matches_iff r w).2 ⟨l, hx, ha⟩)

theorem alive_same (rs rs' : List Rule) (h : List.Forall₂ SameRule rs rs') (w : List Byte) :
    firstAccepted (alive rs w) = firstAccepted (alive rs' w) ∧ (alive rs w = [] ↔ alive rs' w = []) := by
  constructor
  · induction h with
    | nil => rfl
    | @cons r r' rs rs' hr _ ih =>
      by_cases hm : Matches r w
      · rw [(firstAccepted_cons r rs w).1 hm, (firstAccepted_cons r' rs' w).1 ((hr.2 w).2.1 hm), hr.1]
      · rw [(firstAccepted_cons r rs w).2 hm, (firstAccepted_cons r' rs' w).2 (fun h => hm ((hr.2 w).2.2 h)), ih]
  · rw [alive_nil, alive_nil]
    induction h with
    | nil => simp
    | @cons r r' rs rs' hr _ ih => simp only [List.forall_mem_cons, ih, (hr.2 w).1]

/-- The lexer returns the same for rules with the same types, beginnings and tokens. -/
theorem same_rules (rs rs' : List Rule) (h : List.Forall₂ SameRule rs rs') (l : Lexer) : ruleNext rs l = ruleNext rs' l := by
  have scanned : ∀ (t w : List Byte) (p : Nat), scan t p (alive rs w) = scan t p (alive rs' w) := by
    intro t
    induction t with
    | nil => intro w p; rw [scan, scan, (alive_same rs rs' h w).1]
    | cons b t ih =>
      intro w p
      rw [scan, scan, alive_step, alive_step, (alive_same rs rs' h w).1, ih]
      have := (alive_same rs rs' h (w ++ [b])).2
      by_cases he : alive rs (w ++ [b]) = []
      · rw [he, this.1 he]
      · rw [if_neg (by simpa using he), if_neg (by simpa using fun x => he (this.2 x))]
  unfold ruleNext
  cases l.input[l.position]? with
  | none => rfl
  | some b =>
    simp only
    rw [begin_alive, begin_alive, scanned]
    have := (alive_same rs rs' h [b]).2
    by_cases he : alive rs [b] = []
    · rw [he, this.1 he]
    · rw [if_neg (by simpa using he), if_neg (by simpa using fun x => he (this.2 x))]

/-- C138. A rule with the automaton of a string is as good as a rule with that string, wherever among other rules. -/
theorem from_string_rule (before after : List Rule) (s : List Byte) (ty : TokenType) (l : Lexer) :
    ruleNext (before ++ .dfa (fromString s true) ty :: after) l = ruleNext (before ++ .str s ty :: after) l := by
  have same : ∀ rs : List Rule, List.Forall₂ SameRule rs rs := by
    intro rs
    induction rs with
    | nil => exact .nil
    | cons r rs ih => exact .cons ⟨rfl, fun w => ⟨.rfl, .rfl⟩⟩ ih
  refine same_rules _ _ ?_ l
  induction before with
  | nil => exact .cons ⟨rfl, fun w => ⟨(from_string s w ty).1 true, (from_string s w ty).2.1⟩⟩ (same after)
  | cons r before ih => exact .cons ⟨rfl, fun w => ⟨.rfl, .rfl⟩⟩ ih

example : Matches (.dfa (fromString (txt "param") true) .reserved) (txt "param") ∧
    ¬ Matches (.dfa (fromString (txt "param") true) .reserved) (txt "para") :=
  ⟨(from_string _ _ _).2.1.2 rfl, fun h => absurd ((from_string _ _ _).2.1.1 h) (by decide)⟩

end Verif.Wat
