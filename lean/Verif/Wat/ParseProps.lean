import Verif.Wat.ConstProps

/-!
# Properties of the WAT parser: C47, C51
-/

namespace Verif.Wat

open Spec

/-- The capture of an end of stream token is empty or begins with a character that is in no word, so it is none of the
words the parser compares captures with. -/
theorem end_capture_no_word (input : List Byte) (n : Nat) (ts : List Token) (h : nexts n (Lexer.new input) = ts.map .ok)
    (t : Token) (ht : t ∈ ts) (he : t.type = .endOfStream) : ∀ b, t.capture.head? = some b → b ∉ wordChars := by
  intro b hb
  by_cases hc : t.capture = []
  · rw [hc] at hb; cases hb
  · rcases end_capture input n ts h t ht he hc with ⟨x, e, -⟩ | ⟨x, e, -⟩ | ⟨x, e, -⟩ | e
    all_goals
      rw [e] at hb
      cases hb
      decide

theorem collect_length (n : Nat) (l : Lexer) (h : Ready l) : (collect n l).toks.length ≤ left l := by
  induction n generalizing l with
  | zero => simp [collect]
  | succ n ih =>
    rw [collect]
    rcases next_cases l h with ⟨h1, -⟩ | ⟨t, l', h1, h2, h3, -, -, h5⟩
    · rcases hx : nextTok l with ⟨r, l'⟩
      rw [hx] at h1
      simp only at h1
      subst h1
      simp
    · rw [h1]
      simp only
      by_cases hk : t.type = .endOfStream
      · simp [hk]
      · have := h5 hk
        have := ih l' h2
        rw [if_neg hk]
        split
        · omega
        · simp only [List.length_cons]; omega

/-- A text has at most as many tokens as bytes. -/
theorem significant_length (text : List Byte) : (significant text).toks.length ≤ text.length := by
  have := collect_length (text.length + 1) (Lexer.new text) (ready_new text)
  simpa [significant, left, Lexer.new] using this

theorem stream_refl : OpsSim Eq streamOps streamOps :=
  ⟨fun s t h _ => by subst h; exact ⟨rfl, fun _ _ => rfl⟩, fun s t h _ => by subst h; exact ⟨rfl, fun _ _ => rfl⟩⟩

/-- The result of the parser is that on the tokens of the text, for every bound greater than the number of tokens. -/
theorem parseText_tokens (lib : Lib) (h : lib.Total) (text : List Byte) (n m : Nat) (hn : text.length < n)
    (hm : (significant text).toks.length < m) :
    parseText lib n text = (parse streamOps lib m (significant text)).1 ∧ (parseText lib n text).Returns := by
  have h1 := (parse_safe lib h m (significant text) hm).1
  have hs := significant_length text
  have h2 := (parse_safe lib h n (significant text) (by omega)).1
  have hd : ∀ r : Res Directive, r.Returns → r ≠ .diverge := by
    rintro r (⟨a, rfl⟩ | rfl) <;> simp
  have e1 : parseText lib n text = (parse streamOps lib n (significant text)).1 :=
    text_reads (parse_sim lexOps_sim lib n n (Nat.le_refl _)) text (hd _ h2)
  rw [e1]
  refine ⟨?_, h2⟩
  rcases Nat.le_total n m with hl | hl
  · exact (parse_sim stream_refl lib n m hl _ _ rfl (hd _ h2)).1
  · exact (parse_sim stream_refl lib m n hl _ _ rfl (hd _ h1)).1.symm

/-- C51 for WAT. Parsing a text ends with a tree or an error. The bound on loops and recursion is never reached if it is
greater than the length of the text, and then does not matter. (`lib.Total`: `strconv.ParseFloat` returns.) -/
theorem wat_parser_ends (lib : Lib) (h : lib.Total) (text : List Byte) (n m : Nat) (hn : text.length < n)
    (hm : text.length < m) : (parseText lib n text).Returns ∧ parseText lib n text = parseText lib m text := by
  have k1 := parseText_tokens lib h text n n hn (by have := significant_length text; omega)
  have k2 := parseText_tokens lib h text m n hm (by have := significant_length text; omega)
  exact ⟨k1.2, k1.1.trans k2.1.symm⟩

namespace Spec

/-- The tokens `Next` returns up to the end of the text or the first error, and whether it is the end. -/
def lexed (text : List Byte) : List Token × Bool := go (text.length + 1) (Lexer.new text)
where
  /-- At most so many calls of `Next`. -/
  go : Nat → Lexer → List Token × Bool
    | 0, _ => ([], false)
    | n + 1, l =>
      match (nextTok l).1 with
      | .ok t => if t.type = .endOfStream then ([], true) else (t :: (go n (nextTok l).2).1, (go n (nextTok l).2).2)
      | _ => ([], false)

/-- The types and texts of the tokens that are neither white space nor comments. -/
def meaning (ts : List Token) : List (TokenType × List Byte) :=
  (ts.filter fun t => t.type ≠ .whitespace ∧ t.type ≠ .lineComment ∧ t.type ≠ .blockComment).map fun t => (t.type, t.capture)

end Spec

theorem collect_lexed (n : Nat) (l : Lexer) :
    (collect n l).toks.map (fun s => (s.type, s.capture)) = meaning (lexed.go n l).1 ∧ (collect n l).ended = (lexed.go n l).2 := by
  induction n generalizing l with
  | zero => exact ⟨rfl, rfl⟩
  | succ n ih =>
    rw [collect, lexed.go]
    rcases nextTok l with ⟨r, l'⟩
    cases r with
    | ok t =>
      simp only
      by_cases hk : t.type = .endOfStream
      · rw [if_pos hk, if_pos hk]; exact ⟨rfl, rfl⟩
      · rw [if_neg hk, if_neg hk]
        obtain ⟨i1, i2⟩ := ih l'
        have hs : t.sig = ⟨t.type, t.capture⟩ := by simp [Token.sig, hk]
        by_cases ht : t.type.isTrivia = true
        · rw [if_pos ht]
          refine ⟨?_, i2⟩
          rw [i1]
          unfold meaning
          rw [List.filter_cons_of_neg]
          cases hty : t.type <;> rw [hty] at ht <;> simp [TokenType.isTrivia] at ht ⊢
        · rw [if_neg ht]
          refine ⟨?_, i2⟩
          rw [List.map_cons, i1, hs]
          unfold meaning
          rw [List.filter_cons_of_pos, List.map_cons]
          cases hty : t.type <;> rw [hty] at ht <;> simp [TokenType.isTrivia] at ht ⊢
    | err => exact ⟨rfl, rfl⟩
    | panic => exact ⟨rfl, rfl⟩
    | diverge => exact ⟨rfl, rfl⟩

/-- C47. Two texts with the same tokens other than white space and comments, both up to their ends or both up to a
lexical error, have the same tree or are both refused. -/
theorem trivia_ignored (lib : Lib) (h : lib.Total) (a b : List Byte) (ht : meaning (lexed a).1 = meaning (lexed b).1)
    (he : (lexed a).2 = (lexed b).2) (n m : Nat) (hn : a.length < n) (hm : b.length < m) :
    parseText lib n a = parseText lib m b := by
  have e : significant a = significant b := by
    obtain ⟨a1, a2⟩ := collect_lexed (a.length + 1) (Lexer.new a)
    obtain ⟨b1, b2⟩ := collect_lexed (b.length + 1) (Lexer.new b)
    have h1 : (significant a).toks.map (fun s => (s.type, s.capture)) = (significant b).toks.map (fun s => (s.type, s.capture)) :=
      a1.trans (ht.trans b1.symm)
    have h2 : (significant a).ended = (significant b).ended := a2.trans (he.trans b2.symm)
    have h3 : (significant a).toks = (significant b).toks := by
      refine (List.map_inj_right ?_).1 h1
      rintro ⟨x1, x2⟩ ⟨y1, y2⟩ hxy
      simp only [Prod.mk.injEq] at hxy
      rw [hxy.1, hxy.2]
    rcases hx : significant a with ⟨x1, x2⟩
    rcases hy : significant b with ⟨y1, y2⟩
    rw [hx, hy] at h2 h3
    simp only at h2 h3
    rw [h2, h3]
  have k1 := parseText_tokens lib h a n ((significant a).toks.length + 1) hn (by omega)
  have k2 := parseText_tokens lib h b m ((significant a).toks.length + 1) hm (by rw [e]; omega)
  rw [k1.1, k2.1, e]

example : meaning (lexed (txt "(module(;x;)(func ;; f\n))")).1 = meaning (lexed (txt "( module\t( func ) )")).1 ∧
    (lexed (txt "(module(;x;)(func ;; f\n))")).2 = (lexed (txt "( module\t( func ) )")).2 := by
  exact ⟨by decide, by decide⟩

/-- A library for examples. -/
def someLib : Lib := ⟨fun _ => .err, fun _ => .err, id, id⟩

example : someLib.Total := ⟨fun _ => .inr rfl, fun _ => .inr rfl⟩

/-- Whether an outcome is a success. -/
def isOk {α : Type} : Res α → Bool
  | .ok _ => true
  | _ => false

example : isOk (parseText someLib 20 (txt "(module (func))")) = true := by decide +kernel
example : isOk (parseText someLib 20 (txt "(module (fun))")) = false := by decide +kernel

end Verif.Wat
