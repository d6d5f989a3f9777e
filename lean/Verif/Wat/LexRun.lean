import Verif.Wat.LexLemmas

/-!
# Runs of the lexer

What a caller of the lexer sees: the answers of a sequence of calls.
-/

namespace Verif.Wat

/-- The answers of `n` calls of `Next`. -/
def nexts : Nat → Lexer → List (Res Token)
  | 0, _ => []
  | n + 1, l => (nextTok l).1 :: nexts n (nextTok l).2

/-- The lexer after `n` calls of `Next`. -/
def afterNexts : Nat → Lexer → Lexer
  | 0, l => l
  | n + 1, l => afterNexts n (nextTok l).2

/-- The tokens among the answers. -/
def tokensOf (rs : List (Res Token)) : List Token :=
  rs.filterMap fun | .ok t => some t | _ => none

/-- The text of a sequence of tokens. -/
def textOf (ts : List Token) : List Byte := (ts.map (·.capture)).flatten

namespace Spec

/-- The line on which a text ends, from 0: the newlines in it. -/
def line (p : List Byte) : Nat := p.count (ch '\n')

/-- The column in which a text ends, from 0: the bytes after the last newline. -/
def column (p : List Byte) : Nat := (p.reverse.takeWhile (· != ch '\n')).length

end Spec

open Spec

theorem advance_place (c p : List Byte) : advance c (line p, column p) = (line (p ++ c), column (p ++ c)) := by
  induction c generalizing p with
  | nil => simp [advance]
  | cons b c ih =>
    rw [advance]
    have : (if b = ch '\n' then (line p + 1, 0) else (line p, column p + 1)) = (line (p ++ [b]), column (p ++ [b])) := by
      by_cases h : b = ch '\n'
      · subst h; simp [line, column]
      · rw [if_neg h]
        simp [line, column, h]
    rw [this, ih]
    simp

/-- What holds of a lexer after any calls. -/
structure Inv (l : Lexer) : Prop where
  le : l.offset ≤ l.position
  bound : l.position ≤ l.input.length
  line : l.line = line (l.input.take l.offset)
  column : l.column = column (l.input.take l.offset)

theorem inv_new (input : List Byte) : Inv (Lexer.new input) :=
  ⟨Nat.le_refl _, Nat.zero_le _, rfl, rfl⟩

/-- One call of the inner `next`. -/
theorem lexNext_inv (l : Lexer) (hl : Inv l) :
    Inv (lexNext l).2 ∧ (lexNext l).2.input = l.input ∧ (lexNext l).2.peekToken = l.peekToken ∧
    ((lexNext l).1 = .err ∧ (lexNext l).2.offset = l.offset ∧ l.position < (lexNext l).2.position ∨
      ∃ t, (lexNext l).1 = .ok t ∧ (lexNext l).2.offset = (lexNext l).2.position ∧ l.offset ≤ (lexNext l).2.offset ∧
        t.capture = (l.input.drop l.offset).take ((lexNext l).2.offset - l.offset) ∧ t.position = l.offset ∧
        t.line = l.line ∧ t.column = l.column ∧ l.position ≤ (lexNext l).2.position ∧
        (t.type = .endOfStream → (lexNext l).2.offset = l.input.length) ∧
        (t.type ≠ .endOfStream → l.position < (lexNext l).2.offset)) := by
  have h := lexNext_at l hl.le hl.bound
  split at h
  · rename_i ty n heq
    obtain ⟨ty', hc, hn⟩ := h
    have hle := first_le _ _ _ heq
    rw [List.length_drop] at hle
    have hb := hl.bound
    have ho := hl.le
    rw [hn]
    refine ⟨⟨Nat.le_refl _, by simp only; omega, ?_, ?_⟩, rfl, rfl, .inr ⟨_, rfl, rfl, by simp only; omega, rfl, rfl, rfl, rfl,
      by simp only; omega, ?_, ?_⟩⟩
    · simp only
      rw [hl.line, hl.column, advance_place]
      simp only
      rw [← List.take_add]
      congr 2; omega
    · simp only
      rw [hl.line, hl.column, advance_place]
      simp only
      rw [← List.take_add]
      congr 2; omega
    · intro he
      obtain ⟨ty2, hc2, he2, -⟩ := classify_ok ty ((l.input.drop l.offset).take (l.position + n - l.offset))
      rw [hc] at hc2
      cases hc2
      have := he2.1 he
      subst this
      have := first_eos _ _ heq
      rw [List.length_drop] at this
      simp only; omega
    · intro he
      obtain ⟨ty2, hc2, he2, -⟩ := classify_ok ty ((l.input.drop l.offset).take (l.position + n - l.offset))
      rw [hc] at hc2
      cases hc2
      have hty : ty ≠ .endOfStream := fun h => he (he2.2 h)
      have hw : l.input.drop l.position ≠ [] := by
        intro hw
        rw [hw] at heq
        simp only [first, Option.some.injEq, Prod.mk.injEq] at heq
        exact hty heq.1.symm
      have := first_pos _ hw _ _ heq
      simp only; omega
  · obtain ⟨p, h1, h2, h3⟩ := h
    rw [h3]
    have ho := hl.le
    exact ⟨⟨by simp only; omega, h2, hl.line, hl.column⟩, rfl, rfl, .inl ⟨rfl, rfl, h1⟩⟩

/-- One call of `Next` when nothing has been peeked. -/
theorem nextTok_fresh (l : Lexer) (h : l.peekToken = none) : nextTok l = lexNext l := by
  simp [nextTok, h]

theorem afterNexts_succ (n : Nat) (l : Lexer) : afterNexts (n + 1) l = (nextTok (afterNexts n l)).2 := by
  induction n generalizing l with
  | zero => rfl
  | succ n ih => rw [afterNexts, ih, ← afterNexts]

theorem afterNexts_inv (n : Nat) (l : Lexer) (hl : Inv l) (hp : l.peekToken = none) :
    Inv (afterNexts n l) ∧ (afterNexts n l).input = l.input ∧ (afterNexts n l).peekToken = none := by
  induction n with
  | zero => exact ⟨hl, rfl, hp⟩
  | succ n ih =>
    obtain ⟨h1, h2, h3⟩ := ih
    rw [afterNexts_succ, nextTok_fresh _ h3]
    obtain ⟨i1, i2, i3, -⟩ := lexNext_inv _ h1
    exact ⟨i1, i2.trans h2, i3.trans h3⟩

/-- The answers from any state. -/
theorem nexts_from (n : Nat) (l : Lexer) (hl : Inv l) (hp : l.peekToken = none) :
    (∀ r ∈ nexts n l, r.Returns) ∧
    textOf (tokensOf (nexts n l)) <+: l.input.drop l.offset ∧
    (∀ (i : Nat) (t : Token), (tokensOf (nexts n l))[i]? = some t →
      t.position = l.offset + (textOf ((tokensOf (nexts n l)).take i)).length ∧
      t.line = line (l.input.take t.position) ∧ t.column = column (l.input.take t.position) ∧
      (t.type ≠ .endOfStream → t.capture ≠ []) ∧
      (t.type = .endOfStream → textOf ((tokensOf (nexts n l)).take (i + 1)) = l.input.drop l.offset)) := by
  induction n generalizing l with
  | zero =>
    refine ⟨by simp [nexts], by simp [nexts, tokensOf, textOf], ?_⟩
    intro i t h
    simp [nexts, tokensOf] at h
  | succ n ih =>
    rw [nexts, nextTok_fresh l hp]
    obtain ⟨i1, i2, i3, h⟩ := lexNext_inv l hl
    obtain ⟨j1, j2, j3⟩ := ih (lexNext l).2 i1 (i3.trans hp)
    rw [i2] at j2 j3
    rcases h with ⟨he, ho, -⟩ | ⟨t, ht, ho, hle, hcap, hpos, hline, hcol, -, heos, hne⟩
    · rw [he]
      rw [ho] at j2 j3
      have e : tokensOf (.err :: nexts n (lexNext l).2) = tokensOf (nexts n (lexNext l).2) := by simp [tokensOf]
      rw [e]
      refine ⟨?_, j2, j3⟩
      intro r hr
      rcases List.mem_cons.1 hr with rfl | hr
      · exact .inr rfl
      · exact j1 r hr
    · rw [ht]
      have e : tokensOf (.ok t :: nexts n (lexNext l).2) = t :: tokensOf (nexts n (lexNext l).2) := by simp [tokensOf]
      rw [e]
      have hsplit : l.input.drop l.offset = t.capture ++ l.input.drop (lexNext l).2.offset := by
        conv => lhs; rw [← List.take_append_drop ((lexNext l).2.offset - l.offset) (l.input.drop l.offset)]
        rw [← hcap, List.drop_drop]
        congr 2; omega
      have hb := i1.bound
      have hle2 := i1.le
      rw [i2] at hb
      have hlen : t.capture.length = (lexNext l).2.offset - l.offset := by
        rw [hcap, List.length_take, List.length_drop]; omega
      refine ⟨?_, ?_, ?_⟩
      · intro r hr
        rcases List.mem_cons.1 hr with rfl | hr
        · exact .inl ⟨t, rfl⟩
        · exact j1 r hr
      · rw [hsplit]
        simp only [textOf, List.map_cons, List.flatten_cons]
        exact List.prefix_append_right_inj _ |>.2 j2
      · intro i u hu
        cases i with
        | zero =>
          simp only [List.getElem?_cons_zero, Option.some.injEq] at hu
          subst hu
          refine ⟨by simp [textOf, hpos], by rw [hline, hpos, hl.line], by rw [hcol, hpos, hl.column], ?_, ?_⟩
          · intro h hc
            have := hne h
            have := hl.le
            rw [hc] at hlen
            simp only [List.length_nil] at hlen
            omega
          · intro h
            have := heos h
            rw [hsplit, this]
            simp [textOf]
        | succ i =>
          simp only [List.getElem?_cons_succ] at hu
          obtain ⟨k1, k2, k3, k4, k5⟩ := j3 i u hu
          refine ⟨?_, k2, k3, k4, ?_⟩
          · rw [k1]
            simp only [textOf, List.take_succ_cons, List.map_cons, List.flatten_cons, List.length_append] at hlen ⊢
            omega
          · intro h
            rw [hsplit, ← k5 h]
            simp [textOf]

/-- An end or an error is reached. -/
theorem nexts_end (l : Lexer) (hl : Inv l) (hp : l.peekToken = none) (m : Nat) (hm : l.input.length - l.position ≤ m) :
    ∃ (ts : List Token) (last : Res Token), ts.length ≤ m ∧ nexts (ts.length + 1) l = ts.map .ok ++ [last] ∧
      (∀ t ∈ ts, t.type ≠ .endOfStream) ∧ (last = .err ∨ ∃ t, last = .ok t ∧ t.type = .endOfStream) := by
  induction m generalizing l with
  | zero =>
    obtain ⟨i1, i2, i3, h⟩ := lexNext_inv l hl
    have hb := i1.bound
    rw [i2] at hb
    have hle := i1.le
    rcases h with ⟨he, -, hlt⟩ | ⟨t, ht, ho, -, -, -, -, -, -, -, hne⟩
    · exact ⟨[], .err, Nat.le_refl _, by simp [nexts, nextTok_fresh l hp, he], by simp, .inl rfl⟩
    · refine ⟨[], .ok t, Nat.le_refl _, by simp [nexts, nextTok_fresh l hp, ht], by simp, .inr ⟨t, rfl, ?_⟩⟩
      by_cases h : t.type = .endOfStream
      · exact h
      · have := hne h
        omega
  | succ m ih =>
    obtain ⟨i1, i2, i3, h⟩ := lexNext_inv l hl
    have hb := i1.bound
    rw [i2] at hb
    have hle := i1.le
    rcases h with ⟨he, -, hlt⟩ | ⟨t, ht, ho, -, -, -, -, -, -, -, hne⟩
    · exact ⟨[], .err, Nat.zero_le _, by simp [nexts, nextTok_fresh l hp, he], by simp, .inl rfl⟩
    · by_cases h : t.type = .endOfStream
      · exact ⟨[], .ok t, Nat.zero_le _, by simp [nexts, nextTok_fresh l hp, ht], by simp, .inr ⟨t, rfl, h⟩⟩
      · have := hne h
        obtain ⟨ts, last, k1, k2, k3, k4⟩ := ih (lexNext l).2 i1 (i3.trans hp) (by rw [i2]; omega)
        refine ⟨t :: ts, last, by simpa using k1, ?_, ?_, k4⟩
        · rw [List.length_cons, nexts, nextTok_fresh l hp, ht, k2]; rfl
        · intro u hu
          rcases List.mem_cons.1 hu with rfl | hu
          · exact h
          · exact k3 u hu

/-- After answers without an error the lexer stands where the tokens end. -/
theorem afterNexts_at (n : Nat) (l : Lexer) (hl : Inv l) (hp : l.peekToken = none) (ho : l.offset = l.position)
    (ts : List Token) (h : nexts n l = ts.map .ok) :
    (afterNexts n l).offset = l.offset + (textOf ts).length ∧ (afterNexts n l).position = (afterNexts n l).offset := by
  induction n generalizing l ts with
  | zero =>
    cases ts with
    | nil => exact ⟨by simp [textOf, afterNexts], ho.symm⟩
    | cons t ts => simp [nexts] at h
  | succ n ih =>
    cases ts with
    | nil => simp [nexts] at h
    | cons t ts =>
      rw [nexts, nextTok_fresh l hp, List.map_cons, List.cons.injEq] at h
      obtain ⟨i1, i2, i3, k⟩ := lexNext_inv l hl
      rcases k with ⟨he, -⟩ | ⟨u, hu, ko, hle, hcap, -⟩
      · rw [he] at h; cases h.1
      · rw [hu] at h
        cases h.1
        obtain ⟨a, b⟩ := ih (lexNext l).2 i1 (i3.trans hp) ko ts h.2
        rw [afterNexts, nextTok_fresh l hp]
        refine ⟨?_, b⟩
        rw [a]
        have hb := i1.bound
        have hle2 := i1.le
        rw [i2] at hb
        have hlen : t.capture.length = (lexNext l).2.offset - l.offset := by
          rw [hcap, List.length_take, List.length_drop]; omega
        simp only [textOf, List.map_cons, List.flatten_cons, List.length_append] at hlen ⊢
        omega

theorem tokensOf_ok (ts : List Token) : tokensOf (ts.map .ok) = ts := by
  induction ts with
  | nil => rfl
  | cons t ts ih =>
    rw [List.map_cons]
    show t :: tokensOf (ts.map .ok) = _
    rw [ih]

/-- The answer after answers without an error is the first token of the text left. -/
theorem next_at (input : List Byte) (n : Nat) (ts : List Token) (h : nexts n (Lexer.new input) = ts.map .ok)
    (ty : TokenType) (k : Nat) (hf : first (input.drop (textOf ts).length) = some (ty, k)) :
    ∃ ty', classify ty ((input.drop (textOf ts).length).take k) = .ok ty' ∧
      (nextTok (afterNexts n (Lexer.new input))).1 =
        .ok ⟨ty', (textOf ts).length, column (textOf ts), line (textOf ts), (input.drop (textOf ts).length).take k⟩ := by
  obtain ⟨h1, h2, h3⟩ := afterNexts_inv n _ (inv_new input) rfl
  obtain ⟨a, b⟩ := afterNexts_at n _ (inv_new input) rfl rfl ts h
  have hpre : input.take (textOf ts).length = textOf ts := by
    have := (nexts_from n _ (inv_new input) rfl).2.1
    rw [h] at this
    rw [tokensOf_ok] at this
    exact (List.prefix_iff_eq_take.1 this).symm
  have hat := lexNext_at _ h1.le h1.bound
  have hi : (Lexer.new input).input = input := rfl
  have h0 : (Lexer.new input).offset = 0 := rfl
  have c1 := h1.line
  have c2 := h1.column
  rw [nextTok_fresh _ h3]
  rw [h0, Nat.zero_add] at a
  rw [h2, b, a, hi] at hat
  rw [h2, a, hi, hpre] at c1 c2
  rw [hf] at hat
  obtain ⟨ty', d1, d2⟩ := hat
  rw [Nat.add_sub_cancel_left] at d1 d2
  exact ⟨ty', d1, by rw [d2, c1, c2]⟩

end Verif.Wat
