import Verif.Wat.FloatWords
import Verif.Wat.Stream

/-!
# Texts made of tokens

A text made of tokens with a space between them has these tokens.
-/

namespace Verif.Wat

open Spec

namespace Spec

/-- Words with a space between them. -/
def sep : List (List Byte) → List Byte
  | [] => []
  | [w] => w
  | w :: v :: ws => w ++ ch ' ' :: sep (v :: ws)

/-- A token as it can be written down. -/
inductive Written : Sig → Prop
  | openParen : Written ⟨.openParen, txt "("⟩
  | closeParen : Written ⟨.closeParen, txt ")"⟩
  | word (ty : TokenType) (w : List Byte) : w ≠ [] → (∀ b ∈ w, b ∈ wordChars) → w.head? ≠ some (ch '$') →
      WordType w ty → Written ⟨ty, w⟩
  | id (w : List Byte) : w ≠ [] → (∀ b ∈ w, b ∈ wordChars) → Written ⟨.id, ch '$' :: w⟩
  | string (w : List Byte) : ch '"' ∉ w → Written ⟨.string, ch '"' :: w ++ [ch '"']⟩

end Spec

/-- Whether a text is a word of that type. -/
def isWordOf (ty : TokenType) (w : List Byte) : Bool :=
  w.all isIdChar && !w.isEmpty && w.head? != some (ch '$') && (classify .reserved w == .ok ty)

theorem written_word (ty : TokenType) (w : List Byte) (h : isWordOf ty w = true) : Written ⟨ty, w⟩ := by
  simp only [isWordOf, Bool.and_eq_true, List.all_eq_true, bne_iff_ne, beq_iff_eq, Bool.not_eq_true', List.isEmpty_eq_false_iff] at h
  exact .word ty w h.1.1.2 (fun b hb => (isIdChar_iff b).1 (h.1.1.1 b hb)) h.1.2 ((classify_iff w ty).1 h.2)

/-- A lexer at the beginning of the text `rest`. -/
structure Fresh (l : Lexer) (rest : List Byte) : Prop where
  ready : Ready l
  peek : l.peekToken = none
  offset : l.offset = l.position
  rest : l.input.drop l.position = rest

theorem fresh_new (text : List Byte) : Fresh (Lexer.new text) text := ⟨ready_new text, rfl, rfl, rfl⟩

/-- One call of `Next` there. -/
theorem fresh_next (l : Lexer) (c rest : List Byte) (h : Fresh l (c ++ rest)) (ty ty' : TokenType)
    (hf : first (c ++ rest) = some (ty, c.length)) (hc : classify ty c = .ok ty') :
    ∃ t l', nextTok l = (.ok t, l') ∧ t.type = ty' ∧ t.capture = c ∧ Fresh l' rest := by
  have k := lexNext_at l h.ready.inv.le h.ready.inv.bound
  rw [h.rest, hf] at k
  obtain ⟨ty2, k1, k2⟩ := k
  rw [h.offset, h.rest, Nat.add_sub_cancel_left, List.take_left] at k1 k2
  rw [hc] at k1
  cases k1
  rw [← nextTok_fresh l h.peek] at k2
  refine ⟨_, _, k2, rfl, rfl, ?_, h.peek, rfl, ?_⟩
  · rcases next_cases l h.ready with ⟨e, -⟩ | ⟨t, l', e, r, -⟩
    · rw [k2] at e; cases e
    · rw [k2] at e
      cases e
      exact r
  · simp only
    rw [← List.drop_drop, h.rest, List.drop_left]

theorem collect_cons (l : Lexer) (c rest : List Byte) (h : Fresh l (c ++ rest)) (ty ty' : TokenType)
    (hf : first (c ++ rest) = some (ty, c.length)) (hc : classify ty c = .ok ty') (he : ty' ≠ .endOfStream) (n : Nat) :
    ∃ l', Fresh l' rest ∧ collect (n + 1) l =
      if ty'.isTrivia then collect n l' else ⟨⟨ty', c⟩ :: (collect n l').toks, (collect n l').ended⟩ := by
  obtain ⟨t, l', h1, h2, h3, h4⟩ := fresh_next l c rest h ty ty' hf hc
  subst h2; subst h3
  refine ⟨l', h4, ?_⟩
  rw [collect, h1]
  simp only [if_neg he]
  have : t.sig = ⟨t.type, t.capture⟩ := by simp [Token.sig, he]
  rw [this]

theorem classify_other (ty : TokenType) (c : List Byte) (h : ty ≠ .reserved) : classify ty c = .ok ty := by
  simp [classify, h]

/-- The first token of a text that begins with a written token and a space or nothing after it. -/
theorem first_written (t : Sig) (ht : Written t) (rest : List Byte) (hr : ∀ b, rest.head? = some b → b = ch ' ') :
    ∃ ty, first (t.capture ++ rest) = some (ty, t.capture.length) ∧ classify ty t.capture = .ok t.type ∧
      t.type ≠ .endOfStream ∧ t.type.isTrivia = false := by
  have hsp : isIdChar (ch ' ') = false := by decide
  have hrun : ∀ w : List Byte, (∀ b ∈ w, b ∈ wordChars) → run isIdChar (w ++ rest) = w.length := fun w hw =>
    run_stop _ _ _ (fun x hx => (isIdChar_iff x).2 (hw x hx)) (fun x hx => by rw [hr x hx]; exact hsp)
  cases ht with
  | openParen =>
    refine ⟨.openParen, ?_, by decide, by simp, rfl⟩
    show first (ch '(' :: rest) = _
    rw [first, if_neg (by decide), if_pos rfl, if_neg]
    · rfl
    · intro h
      have := hr _ h
      revert this; decide
  | closeParen =>
    refine ⟨.closeParen, ?_, by decide, by simp, rfl⟩
    show first (ch ')' :: rest) = _
    rw [first, if_neg (by decide), if_neg (by decide), if_pos rfl]
    rfl
  | word ty w hne hw hd hc =>
    have hc := (classify_iff w ty).2 hc
    cases w with
    | nil => exact absurd rfl hne
    | cons b w =>
      have hb : isIdChar b = true := (isIdChar_iff b).2 (hw b (by simp))
      have hd : b ≠ ch '$' := by simpa using hd
      obtain ⟨h0, h1, h2, h3, h4⟩ := idChar_not b hb
      obtain ⟨u, hu, he1, -, he3⟩ := classify_ok .reserved (b :: w)
      rw [hc] at hu
      cases hu
      refine ⟨.reserved, ?_, hc, ?_, ?_⟩
      · simp only [List.cons_append]
        rw [first, if_neg (by simp [h0]), if_neg h1, if_neg h2, if_neg h3, if_neg h4, if_pos hb]
        simp only
        rw [hrun w (fun x hx => hw x (by simp [hx])), List.length_cons, Nat.add_comm, if_neg (by simp [hd])]
      · intro he
        have := he1.1 he
        cases this
      · rcases he3 rfl with h | h | h | h | h <;> rw [h] <;> rfl
  | id w hne hw =>
    refine ⟨.id, ?_, by simp [classify], by simp, rfl⟩
    have h1 : 1 ≤ w.length := by cases w with
      | nil => exact absurd rfl hne
      | cons b w => simp
    simp only [List.cons_append]
    rw [first, if_neg (by decide), if_neg (by decide), if_neg (by decide), if_neg (by decide), if_neg (by decide),
      if_pos (by decide)]
    simp only
    rw [hrun w hw, if_pos (by simpa using h1), List.length_cons, Nat.add_comm]
  | string w hq =>
    refine ⟨.string, ?_, by simp [classify], by simp, rfl⟩
    have hrn : run (· != ch '"') (w ++ ([ch '"'] ++ rest)) = w.length :=
      run_stop _ _ _ (fun b hb => by
        have : b ≠ ch '"' := fun he => hq (he ▸ hb)
        simpa using this) (fun b hb => by cases hb; rfl)
    rw [show (ch '"' :: w ++ [ch '"']) ++ rest = ch '"' :: (w ++ ([ch '"'] ++ rest)) by simp, first,
      if_neg (by decide), if_neg (by decide), if_neg (by decide), if_pos rfl]
    simp only
    rw [hrn, if_pos (by simp)]
    simp

theorem first_space (w : List Byte) (h : ∀ b, w.head? = some b → isSpace b = false) :
    first (ch ' ' :: w) = some (.whitespace, 1) := by
  rw [first, if_pos (by decide)]
  have : run isSpace ([] ++ w) = ([] : List Byte).length := run_stop _ _ _ (fun b hb => by simp at hb) h
  rw [List.nil_append] at this
  rw [this]; rfl

theorem written_head (t : Sig) (ht : Written t) : ∃ b w, t.capture = b :: w ∧ isSpace b = false := by
  cases ht with
  | openParen => exact ⟨_, _, rfl, by decide⟩
  | closeParen => exact ⟨_, _, rfl, by decide⟩
  | word ty w hne hw hd hc =>
    cases w with
    | nil => exact absurd rfl hne
    | cons b w => exact ⟨b, w, rfl, (idChar_not b ((isIdChar_iff b).2 (hw b (by simp)))).1⟩
  | id w hne hw => exact ⟨_, _, rfl, by decide⟩
  | string w hq => exact ⟨_, _, rfl, by decide⟩

theorem collect_sep (ts : List Sig) (ht : ∀ t ∈ ts, Written t) (l : Lexer) (h : Fresh l (sep (ts.map (·.capture)))) (n : Nat)
    (hn : 2 * ts.length < n) : collect n l = ⟨ts, true⟩ := by
  induction ts generalizing l n with
  | nil =>
    cases n with
    | zero => omega
    | succ n =>
      have hd := h.rest
      have hb := h.ready.inv.bound
      simp only [List.map_nil, sep, List.drop_eq_nil_iff] at hd
      exact collect_end l h.ready h.peek (by omega) n
  | cons t ts ih =>
    have ht1 := ht t (by simp)
    cases ts with
    | nil =>
      have h' : Fresh l (t.capture ++ []) := by simpa [sep] using h
      obtain ⟨ty, f1, f2, f3, f4⟩ := first_written t ht1 [] (fun b hb => by simp at hb)
      cases n with
      | zero => omega
      | succ n =>
        obtain ⟨l', k1, k2⟩ := collect_cons l _ _ h' ty t.type f1 f2 f3 n
        rw [k2, f4, ih (fun u hu => by simp at hu) l' (by simpa [sep] using k1) n (by simp only [List.length_cons, List.length_nil] at hn ⊢; omega)]
        rfl
    | cons u us =>
      have h' : Fresh l (t.capture ++ ch ' ' :: sep ((u :: us).map (·.capture))) := h
      obtain ⟨ty, f1, f2, f3, f4⟩ := first_written t ht1 (ch ' ' :: sep ((u :: us).map (·.capture))) (fun b hb => by
        simpa using hb.symm)
      simp only [List.length_cons] at hn
      obtain ⟨m, rfl⟩ : ∃ m, n = m + 2 := ⟨n - 2, by omega⟩
      obtain ⟨l', k1, k2⟩ := collect_cons l _ _ h' ty t.type f1 f2 f3 (m + 1)
      have hsp : first (([ch ' '] : List Byte) ++ sep ((u :: us).map (·.capture))) = some (.whitespace, ([ch ' '] : List Byte).length) := by
        refine first_space _ (fun b hb => ?_)
        obtain ⟨c, w, e1, e2⟩ := written_head u (ht u (by simp))
        have : (sep ((u :: us).map (·.capture))).head? = some c := by
          cases us with
          | nil => simp [sep, e1]
          | cons v vs => simp [sep, e1]
        change (sep ((u :: us).map (·.capture))).head? = some b at hb
        rw [this] at hb
        cases hb
        exact e2
      obtain ⟨l2, j1, j2⟩ := collect_cons l' [ch ' '] _ k1 .whitespace .whitespace hsp (by decide) (by simp) m
      rw [k2, f4, j2]
      simp only [TokenType.isTrivia, if_true]
      rw [ih (fun v hv => ht v (by simp [hv])) l2 j1 m (by simp only [List.length_cons]; omega)]
      rfl

/-- A text made of tokens has these tokens. -/
theorem significant_sep (ts : List Sig) (ht : ∀ t ∈ ts, Written t) : significant (sep (ts.map (·.capture))) = ⟨ts, true⟩ := by
  have hl := gives_new (sep (ts.map (·.capture)))
  have := collect_bound _ hl.ready (left (Lexer.new (sep (ts.map (·.capture)))) + 1) (left (Lexer.new (sep (ts.map (·.capture)))) + 2 * ts.length + 1) (by omega) (by omega)
  rw [← hl.gives, this]
  exact collect_sep ts ht _ (fresh_new _) _ (by omega)

end Verif.Wat
