import Verif.Wat.LexSpec

/-!
# The automata find the tokens of the specification
-/

namespace Verif.Wat

open Spec

theorem run_cons (p : Byte → Bool) (b : Byte) (w : List Byte) :
    run p (b :: w) = if p b then run p w + 1 else 0 := by
  unfold run
  rw [List.takeWhile_cons]
  split <;> simp

@[simp] theorem run_nil (p : Byte → Bool) : run p [] = 0 := rfl

theorem run_le (p : Byte → Bool) (w : List Byte) : run p w ≤ w.length := by
  unfold run
  exact (List.takeWhile_prefix p).length_le

/-- One lexeme of an automaton in a node whose only edge is a loop: it eats as long as the loop's test holds. -/
theorem scan_loop (d : Dfa) (ty : TokenType) (k : Nat) (p : Byte → Bool) (he : (d.node k).edges = [(p, k)])
    (hf : (d.node k).final = true) (w : List Byte) (pos : Nat) :
    scan w pos [⟨.dfa d ty, k⟩] = (.ok ty, pos + run p w) := by
  have acc : firstAccepted [⟨.dfa d ty, k⟩] = some ty := by
    simp [firstAccepted, Lexeme.accepted, hf, Rule.type]
  induction w generalizing pos with
  | nil => simp [scan, acc]
  | cons b w ih =>
    rw [scan, run_cons]
    have e : ([⟨.dfa d ty, k⟩] : List Lexeme).filterMap (·.eat b) = if p b then [⟨.dfa d ty, k⟩] else [] := by
      simp only [List.filterMap_cons, List.filterMap_nil, Lexeme.eat, he, List.find?_cons, List.find?_nil]
      by_cases h : p b <;> simp [h]
    rw [e]
    by_cases h : p b
    · simp only [h, if_true, List.length_singleton]
      rw [if_neg (by decide), ih]
      congr 1; omega
    · simp only [h, if_false, List.length_nil, if_true, acc, Nat.add_zero, Bool.false_eq_true]

/-- A lexeme in a final node without edges. -/
theorem scan_end (d : Dfa) (ty : TokenType) (k : Nat) (he : (d.node k).edges = []) (hf : (d.node k).final = true)
    (w : List Byte) (pos : Nat) : scan w pos [⟨.dfa d ty, k⟩] = (.ok ty, pos) := by
  have acc : firstAccepted [⟨.dfa d ty, k⟩] = some ty := by
    simp [firstAccepted, Lexeme.accepted, hf, Rule.type]
  cases w with
  | nil => simp [scan, acc]
  | cons b w =>
    rw [scan]
    have e : ([⟨.dfa d ty, k⟩] : List Lexeme).filterMap (·.eat b) = [] := by
      simp only [List.filterMap_cons, List.filterMap_nil, Lexeme.eat, he, List.find?_nil, Option.map_none]
    rw [e]; simp [acc]

/-- A step of a single lexeme that can eat. -/
theorem scan_step (d : Dfa) (ty : TokenType) (k k' : Nat) (b : Byte) (w : List Byte) (pos : Nat)
    (h : (⟨.dfa d ty, k⟩ : Lexeme).eat b = some ⟨.dfa d ty, k'⟩) :
    scan (b :: w) pos [⟨.dfa d ty, k⟩] = scan w (pos + 1) [⟨.dfa d ty, k'⟩] := by
  rw [scan]
  simp only [List.filterMap_cons, h, List.filterMap_nil, List.length_singleton]
  rw [if_neg (by decide)]

/-- A node left only by one byte. -/
theorem scan_until (d : Dfa) (ty : TokenType) (k f : Nat) (c : Byte)
    (he : (d.node k).edges = [((· == c), f), (notIn [c], k)]) (hn : (d.node k).final = false)
    (hfe : (d.node f).edges = []) (hf : (d.node f).final = true) (w : List Byte) (pos : Nat) :
    scan w pos [⟨.dfa d ty, k⟩] =
      if run (· != c) w < w.length then (.ok ty, pos + run (· != c) w + 1) else (.ok .endOfStream, pos + w.length) := by
  induction w generalizing pos with
  | nil => simp [scan, firstAccepted, Lexeme.accepted, hn]
  | cons b w ih =>
    rw [run_cons]
    by_cases h : b = c
    · subst h
      rw [scan_step d ty k f b w pos (by simp [Lexeme.eat, he, List.find?_cons]), scan_end d ty f hfe hf]
      simp
    · rw [scan_step d ty k k b w pos (by simp [Lexeme.eat, he, List.find?_cons, notIn, h, beq_eq_false_iff_ne.2 h]), ih]
      simp only [bne_iff_ne, ne_eq, h, not_false_eq_true, if_true, List.length_cons, Nat.add_lt_add_iff_right]
      split <;> congr 1 <;> omega

/-- Inside a block comment: in node 2, and in node 3 where the byte before was a semicolon. -/
theorem scan_comment (w : List Byte) (pos : Nat) :
    (scan w pos [⟨.dfa blockCommentDfa .blockComment, 2⟩] =
      match closing w with
      | some n => (.ok .blockComment, pos + n)
      | none => (.ok .endOfStream, pos + w.length)) ∧
    (scan w pos [⟨.dfa blockCommentDfa .blockComment, 3⟩] =
      if w.head? = some (ch ')') then (.ok .blockComment, pos + 1)
      else match closing w with
        | some n => (.ok .blockComment, pos + n)
        | none => (.ok .endOfStream, pos + w.length)) := by
  induction w generalizing pos with
  | nil => exact ⟨rfl, rfl⟩
  | cons b w ih =>
    obtain ⟨i1, i2⟩ := ih (pos + 1)
    have hb : ¬ (ch ';' = ch ')') := by decide
    have shift : ∀ r : Option Nat, (match r.map (· + 1) with
          | some n => ((.ok .blockComment, pos + n) : Res TokenType × Nat)
          | none => (.ok .endOfStream, pos + (b :: w).length)) =
        (match r with
          | some n => (.ok .blockComment, pos + 1 + n)
          | none => (.ok .endOfStream, pos + 1 + w.length)) := by
      intro r
      cases r with
      | none => simp only [Option.map_none, List.length_cons]; congr 1; omega
      | some n => simp only [Option.map_some]; congr 1; omega
    constructor
    · by_cases h : b = ch ';'
      · subst h
        rw [scan_step blockCommentDfa .blockComment 2 3 _ w pos rfl, i2, closing]
        by_cases h2 : w.head? = some (ch ')')
        · rw [if_pos h2, if_pos ⟨rfl, h2⟩]
        · rw [if_neg h2, if_neg (by simp [h2]), shift]
      · rw [scan_step blockCommentDfa .blockComment 2 2 _ w pos (by
          simp [Lexeme.eat, Dfa.node, blockCommentDfa, List.find?_cons, notIn, h, beq_eq_false_iff_ne.2 h]), i1, closing,
          if_neg (by simp [h]), shift]
    · by_cases h1 : b = ch ')'
      · subst h1
        rw [scan_step blockCommentDfa .blockComment 3 4 _ w pos rfl, scan_end _ _ _ rfl rfl]
        simp
      · rw [if_neg (by simpa using h1)]
        by_cases h : b = ch ';'
        · subst h
          rw [scan_step blockCommentDfa .blockComment 3 3 _ w pos rfl, i2, closing]
          by_cases h2 : w.head? = some (ch ')')
          · rw [if_pos h2, if_pos ⟨rfl, h2⟩]
          · rw [if_neg h2, if_neg (by simp [h2]), shift]
        · rw [scan_step blockCommentDfa .blockComment 3 2 _ w pos (by
            simp [Lexeme.eat, Dfa.node, blockCommentDfa, List.find?_cons, notIn, h, h1, beq_eq_false_iff_ne.2 h,
              beq_eq_false_iff_ne.2 h1]), i1, closing, if_neg (by simp [h]), shift]

theorem start_space (b : Byte) (h : isSpace b = true) : startLexemes b = [⟨.dfa whitespaceDfa .whitespace, 1⟩] := by
  have h1 : b ≠ ch ';' ∧ b ≠ ch '(' ∧ b ≠ ch ')' ∧ b ≠ ch '"' ∧ b ≠ ch '$' ∧ isIdChar b = false := by
    revert h; revert b; decide
  obtain ⟨h1, h2, h3, h4, h5, h6⟩ := h1
  simp [startLexemes, rules, Rule.check, Dfa.node, whitespaceDfa, lineCommentDfa, blockCommentDfa, strDfa, identifierDfa,
    reservedDfa, h, h1, h2, Ne.symm h2, h3, Ne.symm h3, h4, h5, h6, List.filter_cons, Lexeme.eat]

theorem start_word (b : Byte) (h : isIdChar b = true) (h5 : b ≠ ch '$') :
    startLexemes b = [⟨.dfa reservedDfa .reserved, 1⟩] := by
  have h1 : b ≠ ch ';' ∧ b ≠ ch '(' ∧ b ≠ ch ')' ∧ b ≠ ch '"' ∧ isSpace b = false := by
    revert h h5; revert b; decide
  obtain ⟨h1, h2, h3, h4, h6⟩ := h1
  simp [startLexemes, rules, Rule.check, Dfa.node, whitespaceDfa, lineCommentDfa, blockCommentDfa, strDfa, identifierDfa,
    reservedDfa, h, h1, h2, Ne.symm h2, h3, Ne.symm h3, h4, h5, h6, List.filter_cons, Lexeme.eat]

theorem start_none (b : Byte) (h : isSpace b = false) (h1 : b ≠ ch ';') (h2 : b ≠ ch '(') (h3 : b ≠ ch ')') (h4 : b ≠ ch '"')
    (h6 : isIdChar b = false) : startLexemes b = [] := by
  have h5 : b ≠ ch '$' := by rintro rfl; revert h6; decide
  simp [startLexemes, rules, Rule.check, Dfa.node, whitespaceDfa, lineCommentDfa, blockCommentDfa, strDfa, identifierDfa,
    reservedDfa, h, h1, h2, Ne.symm h2, h3, Ne.symm h3, h4, h5, h6, List.filter_cons]

/-- A parenthesis, or the beginning of a comment. -/
theorem scan_paren (w : List Byte) (pos : Nat) :
    scan w pos (startLexemes (ch '(')) =
      if w.head? = some (ch ';') then
        match closing w.tail with
        | some n => (.ok .blockComment, pos + (1 + n))
        | none => (.ok .endOfStream, pos + w.length)
      else (.ok .openParen, pos) := by
  cases w with
  | nil => rfl
  | cons b w =>
    have e0 : startLexemes (ch '(') = [⟨.dfa blockCommentDfa .blockComment, 1⟩, ⟨.str [ch '('] .openParen, 1⟩] := rfl
    rw [e0, scan]
    by_cases h : b = ch ';'
    · subst h
      have e : ([⟨.dfa blockCommentDfa .blockComment, 1⟩, ⟨.str [ch '('] .openParen, 1⟩] : List Lexeme).filterMap
          (·.eat (ch ';')) = [⟨.dfa blockCommentDfa .blockComment, 2⟩] := rfl
      simp only [e, List.length_singleton]
      rw [if_neg (by decide), (scan_comment w (pos + 1)).1, if_pos (by simp)]
      simp only [List.tail_cons, List.length_cons]
      cases closing w with
      | none => simp only; congr 1; omega
      | some n => simp only; congr 1; omega
    · have e : ([⟨.dfa blockCommentDfa .blockComment, 1⟩, ⟨.str [ch '('] .openParen, 1⟩] : List Lexeme).filterMap
          (·.eat b) = [] := by
        simp [Lexeme.eat, Dfa.node, blockCommentDfa, h]
      simp only [e, List.length_nil, if_true, List.head?_cons, Option.some.injEq, h, if_false]
      rfl

theorem scan_close (w : List Byte) (pos : Nat) : scan w pos (startLexemes (ch ')')) = (.ok .closeParen, pos) := by
  cases w with
  | nil => rfl
  | cons b w =>
    have e0 : startLexemes (ch ')') = [⟨.str [ch ')'] .closeParen, 1⟩] := rfl
    rw [e0, scan]
    have e : ([⟨.str [ch ')'] .closeParen, 1⟩] : List Lexeme).filterMap (·.eat b) = [] := by simp [Lexeme.eat]
    simp only [e, List.length_nil, if_true]
    rfl

theorem scan_semi (w : List Byte) (pos : Nat) :
    scan w pos (startLexemes (ch ';')) =
      if w.head? = some (ch ';') then
        if run (· != ch '\n') w.tail < w.tail.length then (.ok .lineComment, pos + (run (· != ch '\n') w.tail + 2))
        else (.ok .endOfStream, pos + w.length)
      else if w = [] then (.ok .endOfStream, pos) else (.err, pos) := by
  have e0 : startLexemes (ch ';') = [⟨.dfa lineCommentDfa .lineComment, 1⟩] := rfl
  rw [e0]
  cases w with
  | nil => rfl
  | cons b w =>
    by_cases h : b = ch ';'
    · subst h
      rw [scan_step lineCommentDfa .lineComment 1 2 _ w pos rfl, scan_until _ _ 2 3 (ch '\n') rfl rfl rfl rfl]
      have hh : (ch ';' :: w).head? = some (ch ';') := rfl
      by_cases h5 : run (· != ch '\n') w < w.length
      · rw [if_pos h5, if_pos hh, if_pos (show run _ (ch ';' :: w).tail < (ch ';' :: w).tail.length from h5), List.tail_cons]; congr 1; omega
      · rw [if_neg h5, if_pos hh, if_neg (show ¬ run _ (ch ';' :: w).tail < (ch ';' :: w).tail.length from h5), List.length_cons]; congr 1; omega
    · rw [scan]
      have e : ([⟨.dfa lineCommentDfa .lineComment, 1⟩] : List Lexeme).filterMap (·.eat b) = [] := by
        simp [Lexeme.eat, Dfa.node, lineCommentDfa, h]
      simp only [e, List.length_nil, if_true, List.head?_cons, Option.some.injEq, h, if_false]
      rfl

theorem scan_dollar (w : List Byte) (pos : Nat) :
    scan w pos (startLexemes (ch '$')) = (.ok (if 1 ≤ run isIdChar w then .id else .reserved), pos + run isIdChar w) := by
  have e0 : startLexemes (ch '$') = [⟨.dfa identifierDfa .id, 1⟩, ⟨.dfa reservedDfa .reserved, 1⟩] := rfl
  rw [e0]
  have key : ∀ (w : List Byte) (pos : Nat), scan w pos [⟨.dfa identifierDfa .id, 2⟩, ⟨.dfa reservedDfa .reserved, 1⟩] =
      (.ok .id, pos + run isIdChar w) := by
    intro w
    induction w with
    | nil => intro pos; rfl
    | cons b w ih =>
      intro pos
      rw [scan, run_cons]
      by_cases h : isIdChar b = true
      · have e : ([⟨.dfa identifierDfa .id, 2⟩, ⟨.dfa reservedDfa .reserved, 1⟩] : List Lexeme).filterMap (·.eat b) =
            [⟨.dfa identifierDfa .id, 2⟩, ⟨.dfa reservedDfa .reserved, 1⟩] := by
          simp [Lexeme.eat, Dfa.node, identifierDfa, reservedDfa, h]
        simp only [e, List.length_cons, List.length_nil, h, if_true]
        rw [if_neg (by decide), ih]
        congr 1; omega
      · rw [Bool.not_eq_true] at h
        have e : ([⟨.dfa identifierDfa .id, 2⟩, ⟨.dfa reservedDfa .reserved, 1⟩] : List Lexeme).filterMap (·.eat b) = [] := by
          simp [Lexeme.eat, Dfa.node, identifierDfa, reservedDfa, h]
        simp only [e, List.length_nil, h, if_true]
        rfl
  cases w with
  | nil => rfl
  | cons b w =>
    rw [scan, run_cons]
    by_cases h : isIdChar b = true
    · have e : ([⟨.dfa identifierDfa .id, 1⟩, ⟨.dfa reservedDfa .reserved, 1⟩] : List Lexeme).filterMap (·.eat b) =
          [⟨.dfa identifierDfa .id, 2⟩, ⟨.dfa reservedDfa .reserved, 1⟩] := by
        simp [Lexeme.eat, Dfa.node, identifierDfa, reservedDfa, h]
      simp only [e, List.length_cons, List.length_nil, h, if_true]
      rw [if_neg (by decide), key, if_pos (by omega)]
      congr 1; omega
    · rw [Bool.not_eq_true] at h
      have e : ([⟨.dfa identifierDfa .id, 1⟩, ⟨.dfa reservedDfa .reserved, 1⟩] : List Lexeme).filterMap (·.eat b) = [] := by
        simp [Lexeme.eat, Dfa.node, identifierDfa, reservedDfa, h]
      simp only [e, List.length_nil, h, if_true]
      rfl

/-- The automata and the specification agree: after a first byte `b` at position `pos - 1`. -/
theorem scan_first (b : Byte) (w : List Byte) (pos : Nat) :
    match first (b :: w) with
    | some (ty, n) => startLexemes b ≠ [] ∧ 1 ≤ n ∧ scan w (pos + 1) (startLexemes b) = (.ok ty, pos + n)
    | none => startLexemes b = [] ∨ scan w (pos + 1) (startLexemes b) = (.err, pos + 1) := by
  rw [first]
  by_cases h0 : isSpace b = true
  · rw [if_pos h0, start_space b h0]
    refine ⟨by simp, by omega, ?_⟩
    rw [scan_loop whitespaceDfa .whitespace 1 isSpace rfl rfl]
    congr 1; omega
  rw [if_neg h0]
  rw [Bool.not_eq_true] at h0
  by_cases h1 : b = ch '('
  · subst h1
    rw [if_pos rfl, scan_paren]
    have hne : startLexemes (ch '(') ≠ [] := by intro h; exact absurd (congrArg List.length h) (by decide)
    by_cases h : w.head? = some (ch ';')
    · rw [if_pos h, if_pos h]
      cases closing w.tail with
      | none => exact ⟨hne, by omega, by simp only; congr 1; omega⟩
      | some n => exact ⟨hne, by omega, by simp only; congr 1; omega⟩
    · rw [if_neg h, if_neg h]
      exact ⟨hne, by omega, rfl⟩
  rw [if_neg h1]
  by_cases h2 : b = ch ')'
  · subst h2
    rw [if_pos rfl, scan_close]
    exact ⟨by intro h; exact absurd (congrArg List.length h) (by decide), by omega, rfl⟩
  rw [if_neg h2]
  by_cases h3 : b = ch '"'
  · subst h3
    rw [if_pos rfl]
    have e0 : startLexemes (ch '"') = [⟨.dfa strDfa .string, 1⟩] := rfl
    rw [e0, scan_until _ _ 1 2 (ch '"') rfl rfl rfl rfl]
    simp only
    by_cases h : run (· != ch '"') w < w.length
    · rw [if_pos h, if_pos h]
      exact ⟨by simp, by omega, by congr 1; omega⟩
    · rw [if_neg h, if_neg h]
      exact ⟨by simp, by omega, by congr 1; omega⟩
  rw [if_neg h3]
  by_cases h4 : b = ch ';'
  · subst h4
    rw [if_pos rfl, scan_semi]
    have hne : startLexemes (ch ';') ≠ [] := by intro h; exact absurd (congrArg List.length h) (by decide)
    by_cases h : w.head? = some (ch ';')
    · rw [if_pos h, if_pos h]
      simp only
      by_cases h5 : run (· != ch '\n') w.tail < w.tail.length
      · rw [if_pos h5, if_pos h5]
        exact ⟨hne, by omega, by congr 1; omega⟩
      · rw [if_neg h5, if_neg h5]
        exact ⟨hne, by omega, by congr 1; omega⟩
    · rw [if_neg h, if_neg h]
      by_cases h5 : w = []
      · rw [if_pos h5, if_pos h5]
        exact ⟨hne, by omega, rfl⟩
      · rw [if_neg h5, if_neg h5]
        exact .inr rfl
  rw [if_neg h4]
  by_cases h5 : isIdChar b = true
  · rw [if_pos h5]
    simp only
    by_cases h6 : b = ch '$'
    · subst h6
      rw [scan_dollar]
      refine ⟨by intro h; exact absurd (congrArg List.length h) (by decide), by omega, ?_⟩
      simp only [true_and]
      congr 1; omega
    · rw [start_word b h5 h6, scan_loop reservedDfa .reserved 1 isIdChar rfl rfl, if_neg (by simp [h6])]
      exact ⟨by simp, by omega, by congr 1; omega⟩
  · rw [if_neg h5]
    rw [Bool.not_eq_true] at h5
    exact .inl (start_none b h0 h4 h1 h2 h3 h5)

/-! ## Lengths -/

theorem closing_le (w : List Byte) (n : Nat) (h : closing w = some n) : n ≤ w.length := by
  induction w generalizing n with
  | nil => cases h
  | cons b w ih =>
    rw [closing] at h
    split at h
    · rename_i hb
      cases w with
      | nil => simp at hb
      | cons c w => cases h; simp
    · rw [Option.map_eq_some_iff] at h
      obtain ⟨m, hm, rfl⟩ := h
      have := ih m hm
      simp only [List.length_cons]; omega

theorem first_le (w : List Byte) (ty : TokenType) (n : Nat) (h : first w = some (ty, n)) : n ≤ w.length := by
  cases w with
  | nil => simp [first] at h; omega
  | cons b w =>
    rw [first] at h
    have t : w.head? = some (ch ';') → w.length = w.tail.length + 1 := by
      cases w with
      | nil => intro h; simp at h
      | cons c w => intro _; simp
    have r1 := run_le isSpace w
    have r2 := run_le isIdChar w
    simp only [List.length_cons]
    split at h
    · cases h; omega
    split at h
    · split at h
      · rename_i hh
        have := t hh
        split at h
        · rename_i m hm
          have := closing_le _ _ hm
          cases h; omega
        · cases h; omega
      · cases h; omega
    split at h
    · cases h; omega
    split at h
    · simp only at h
      split at h <;> cases h <;> omega
    split at h
    · split at h
      · rename_i hh
        have := t hh
        simp only at h
        split at h <;> cases h <;> omega
      · split at h
        · cases h; omega
        · cases h
    split at h
    · cases h; omega
    · cases h

/-- The end of the stream is the end of the text. -/
theorem first_eos (w : List Byte) (n : Nat) (h : first w = some (.endOfStream, n)) : n = w.length := by
  cases w with
  | nil => simp [first] at h; simp [h]
  | cons b w =>
    rw [first] at h
    simp only [List.length_cons]
    split at h
    · cases h
    split at h
    · split at h
      · split at h
        · cases h
        · cases h; omega
      · cases h
    split at h
    · cases h
    split at h
    · simp only at h
      split at h <;> cases h; omega
    split at h
    · split at h
      · simp only at h
        split at h <;> cases h; omega
      · split at h
        · rename_i hw; cases h; simp [hw]
        · cases h
    split at h
    · simp only [Option.some.injEq, Prod.mk.injEq] at h
      obtain ⟨h, _⟩ := h
      split at h <;> cases h
    · cases h

theorem first_pos (w : List Byte) (hw : w ≠ []) (ty : TokenType) (n : Nat) (h : first w = some (ty, n)) : 1 ≤ n := by
  cases w with
  | nil => exact absurd rfl hw
  | cons b w =>
    have := scan_first b w 0
    rw [h] at this
    exact this.2.1

/-! ## The classification always answers -/

theorem digitsLoop_le (d : Byte → Bool) (st : Bool) (w : List Byte) (i : Nat) : (digitsLoop d st w i).1 ≤ i + w.length := by
  induction w generalizing i with
  | nil => simp [digitsLoop]
  | cons b w ih =>
    have := ih (i + 1)
    simp only [digitsLoop, List.length_cons]
    split
    · omega
    · split
      · omega
      · simp

theorem digits_le (d : Byte → Bool) (st : Bool) (s : List Byte) (i : Nat) (h : i ≤ s.length) :
    (digits d st s i).1 ≤ s.length := by
  unfold digits
  split
  · exact h
  · split
    · exact h
    · have := digitsLoop_le d st (s.drop i) i
      rw [List.length_drop] at this
      omega

theorem byteAt_lt (s : List Byte) (i : Nat) (h : i < s.length) : byteAt s i = .ok s[i] := by
  simp [byteAt, List.getElem?_eq_getElem h]

theorem exponentNext_ok (a c : Byte) (s : List Byte) (i : Nat) (h : i < s.length)
    (h2 : s[i]? = some (ch '.') → i ≠ s.length - 1) : ∃ r, exponentNext a c s i = .ok r := by
  unfold exponentNext
  rw [byteAt_lt s i h, Res.bind_ok]
  by_cases hb : s[i] = ch '.'
  · have := h2 (by rw [List.getElem?_eq_getElem h, hb])
    rw [if_pos hb, byteAt_lt s (i + 1) (by omega)]
    exact ⟨_, rfl⟩
  · rw [if_neg hb]
    exact ⟨_, rfl⟩

theorem float_ok (s : List Byte) : ∃ r, float s 0 = .ok r := by
  unfold float
  have h0 := digits_le isDigit false s 0 (by omega)
  simp only
  split
  · exact ⟨_, rfl⟩
  split
  · exact ⟨_, rfl⟩
  rename_i h1
  have h2 : (num s 0).1 < s.length := by
    have : (num s 0).1 ≤ s.length := h0
    omega
  rw [byteAt_lt _ _ h2, Res.bind_ok]
  split
  · exact ⟨_, rfl⟩
  rename_i h3
  obtain ⟨e, he⟩ := exponentNext_ok (ch 'e') (ch 'E') s (num s 0).1 h2 (by
    intro h; rw [List.getElem?_eq_getElem h2] at h; intro h4; exact h3 ⟨Option.some.inj h, h4⟩)
  rw [he, Res.bind_ok]
  split
  · exact ⟨_, rfl⟩
  split
  · exact ⟨_, rfl⟩
  split
  · exact ⟨_, rfl⟩
  rename_i h5
  have h6 : (frac s (num s 0).1).1 < s.length := by
    have : (frac s (num s 0).1).1 ≤ s.length := digits_le _ _ _ _ h0
    omega
  rw [byteAt_lt _ _ h6, Res.bind_ok]
  split <;> exact ⟨_, rfl⟩

theorem hexfloat_ok (s : List Byte) : ∃ r, hexfloat s 0 = .ok r := by
  unfold hexfloat
  split
  · exact ⟨_, rfl⟩
  rename_i hp
  have hl : 0 + 2 ≤ s.length := by
    simp only [Bool.not_eq_eq_eq_not, Bool.not_true, Bool.not_eq_false, List.isPrefixOf_iff_prefix] at hp
    exact hp.length_le
  have h0 := digits_le isHex true s (0 + 2) hl
  simp only
  split
  · exact ⟨_, rfl⟩
  split
  · exact ⟨_, rfl⟩
  rename_i h1
  have h2 : (hexnum s (0 + 2)).1 < s.length := by
    have : (hexnum s (0 + 2)).1 ≤ s.length := h0
    omega
  rw [byteAt_lt _ _ h2, Res.bind_ok]
  split
  · exact ⟨_, rfl⟩
  rename_i h3
  obtain ⟨e, he⟩ := exponentNext_ok (ch 'p') (ch 'P') s (hexnum s (0 + 2)).1 h2 (by
    intro h; rw [List.getElem?_eq_getElem h2] at h; intro h4; exact h3 ⟨Option.some.inj h, h4⟩)
  rw [he, Res.bind_ok]
  split
  · exact ⟨_, rfl⟩
  split
  · exact ⟨_, rfl⟩
  split
  · exact ⟨_, rfl⟩
  rename_i h5
  have h6 : (hexfrac s ((hexnum s (0 + 2)).1 + 1)).1 < s.length := by
    have : (hexfrac s ((hexnum s (0 + 2)).1 + 1)).1 ≤ s.length := digits_le _ _ _ _ h2
    omega
  rw [byteAt_lt _ _ h6, Res.bind_ok]
  split <;> exact ⟨_, rfl⟩

theorem isFloat_ok (s : List Byte) : ∃ r, isFloat s = .ok r := by
  unfold isFloat
  obtain ⟨f, hf⟩ := float_ok (unsigned s)
  obtain ⟨g, hg⟩ := hexfloat_ok (unsigned s)
  simp only [hf, hg, Res.bind_ok]
  repeat (first | exact ⟨_, rfl⟩ | split)

theorem classify_ok (ty : TokenType) (c : List Byte) :
    ∃ ty', classify ty c = .ok ty' ∧ (ty' = .endOfStream ↔ ty = .endOfStream) ∧ (ty ≠ .reserved → ty' = ty) ∧
      (ty = .reserved → ty' = .integer ∨ ty' = .float ∨ ty' = .module ∨ ty' = .component ∨ ty' = .reserved) := by
  unfold classify
  by_cases h : ty = .reserved
  · subst h
    rw [if_pos rfl]
    split
    · exact ⟨_, rfl, by simp⟩
    obtain ⟨f, hf⟩ := isFloat_ok c
    rw [hf, Res.bind_ok]
    split
    · exact ⟨_, rfl, by simp⟩
    · unfold keyword
      split
      · rename_i hk
        split at hk
        · cases hk; exact ⟨_, rfl, by simp⟩
        split at hk
        · cases hk; exact ⟨_, rfl, by simp⟩
        · cases hk
      · exact ⟨_, rfl, by simp⟩
  · rw [if_neg h]
    exact ⟨_, rfl, by simp, by simp, by simp [h]⟩

/-! ## One call -/

/-- The token that `first` describes, when the text not yet returned begins at `offset` and the lexer stands at
`position`. -/
theorem lexNext_at (l : Lexer) (h1 : l.offset ≤ l.position) (h2 : l.position ≤ l.input.length) :
    match first (l.input.drop l.position) with
    | some (ty, n) =>
      ∃ ty', classify ty ((l.input.drop l.offset).take (l.position + n - l.offset)) = .ok ty' ∧
        lexNext l = (.ok ⟨ty', l.offset, l.column, l.line, (l.input.drop l.offset).take (l.position + n - l.offset)⟩,
          { l with
            position := l.position + n, offset := l.position + n,
            line := (advance ((l.input.drop l.offset).take (l.position + n - l.offset)) (l.line, l.column)).1,
            column := (advance ((l.input.drop l.offset).take (l.position + n - l.offset)) (l.line, l.column)).2 })
    | none => ∃ p, l.position < p ∧ p ≤ l.input.length ∧ lexNext l = (.err, { l with position := p }) := by
  have mk : ∀ (ty : TokenType) (n : Nat), l.position + n ≤ l.input.length →
      ∃ ty', classify ty ((l.input.drop l.offset).take (l.position + n - l.offset)) = .ok ty' ∧
        makeToken ty { l with position := l.position + n } =
        (.ok ⟨ty', l.offset, l.column, l.line, (l.input.drop l.offset).take (l.position + n - l.offset)⟩,
          { l with
            position := l.position + n, offset := l.position + n,
            line := (advance ((l.input.drop l.offset).take (l.position + n - l.offset)) (l.line, l.column)).1,
            column := (advance ((l.input.drop l.offset).take (l.position + n - l.offset)) (l.line, l.column)).2 }) := by
    intro ty n hn
    obtain ⟨ty', hty, -⟩ := classify_ok ty ((l.input.drop l.offset).take (l.position + n - l.offset))
    refine ⟨ty', hty, ?_⟩
    unfold makeToken
    rw [if_neg (by simp only [Classical.not_not]; omega)]
    simp only [hty]
  rcases Nat.lt_or_ge l.position l.input.length with hlt | hge
  · have hd : l.input.drop l.position = l.input[l.position] :: l.input.drop (l.position + 1) := List.drop_eq_getElem_cons hlt
    have hs := scan_first l.input[l.position] (l.input.drop (l.position + 1)) l.position
    have hle := first_le (l.input.drop l.position)
    rw [← hd] at hs
    have hlen := List.length_drop (i := l.position) (l := l.input)
    unfold lexNext
    rw [List.getElem?_eq_getElem hlt]
    simp only
    split
    · rename_i ty n heq
      rw [heq] at hs
      obtain ⟨a, b, c⟩ := hs
      have hn := hle ty n heq
      rw [if_neg (by simpa using a), c]
      exact mk ty n (by omega)
    · rename_i heq
      rw [heq] at hs
      refine ⟨l.position + 1, by omega, by omega, ?_⟩
      rcases hs with h | h
      · rw [if_pos (by simp [h])]
      · by_cases h0 : (startLexemes l.input[l.position]).length = 0
        · rw [if_pos h0]
        · rw [if_neg h0, h]
  · have hd : l.input.drop l.position = [] := List.drop_eq_nil_of_le hge
    rw [hd]
    simp only [first]
    unfold lexNext
    rw [List.getElem?_eq_none hge]
    exact mk .endOfStream 0 (by omega)

end Verif.Wat
