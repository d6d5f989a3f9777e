import Verif.Wat.LexProps

/-!
# Semicolons in WAT texts: C111
-/

namespace Verif.Wat
open Spec

/-- C111, line comments: wherever two semicolons stand in a text lexed so far without an error, the text up to and with
the next line feed is one `LineComment` token. -/
theorem line_comment_at (input : List Byte) (n : Nat) (ts : List Token) (h : nexts n (Lexer.new input) = ts.map .ok)
    (body rest : List Byte) (hb : ch '\n' ∉ body) (hi : input = textOf ts ++ (txt ";;" ++ body ++ txt "\n") ++ rest) :
    ∃ t : Token, nexts (n + 1) (Lexer.new input) = (ts ++ [t]).map .ok ∧ t.type = .lineComment ∧
      t.capture = txt ";;" ++ body ++ txt "\n" := by
  have hr : run (· != ch '\n') (body ++ ([ch '\n'] ++ rest)) = body.length :=
    run_stop _ _ _ (fun b hb2 => by
      have : b ≠ ch '\n' := fun he => hb (he ▸ hb2)
      simpa using this) (fun b hb2 => by cases hb2; rfl)
  obtain ⟨ty', c1, c2⟩ := token_at input n ts h _ rest hi .lineComment (by
    rw [show (txt ";;" ++ body ++ txt "\n") ++ rest = ch ';' :: ch ';' :: (body ++ ([ch '\n'] ++ rest)) by simp [txt], first,
      if_neg (by decide), if_neg (by decide), if_neg (by decide), if_neg (by decide), if_pos rfl, if_pos List.head?_cons,
      List.tail_cons]
    simp only
    rw [hr, if_pos (by simp only [List.length_append, List.length_singleton]; omega)]
    simp [txt])
  exact ⟨_, c2, (Res.ok.inj c1).symm, rfl⟩

/-- C111, at the end: a line comment that the text ends in, and a lone semicolon there, end the stream. -/
theorem line_comment_end (input : List Byte) (n : Nat) (ts : List Token) (h : nexts n (Lexer.new input) = ts.map .ok)
    (rest : List Byte) (hi : input = textOf ts ++ rest)
    (hr : rest = txt ";" ∨ ∃ body, rest = txt ";;" ++ body ∧ ch '\n' ∉ body) :
    ∃ t : Token, nexts (n + 1) (Lexer.new input) = (ts ++ [t]).map .ok ∧ t.type = .endOfStream ∧ t.capture = rest := by
  obtain ⟨ty', c1, c2⟩ := token_at input n ts h rest [] (by rw [hi]; simp) .endOfStream (by
    rw [List.append_nil]
    rcases hr with rfl | ⟨body, rfl, hb⟩
    · rfl
    · have hn : ¬ run (· != ch '\n') body < body.length := by
        intro hlt
        have := (run_until (ch '\n') body).1 hlt
        apply hb
        have h2 : ch '\n' ∈ body.take (run (· != ch '\n') body + 1) := by rw [this]; simp
        exact List.mem_of_mem_take h2
      rw [show txt ";;" ++ body = ch ';' :: ch ';' :: body by simp [txt], first,
        if_neg (by decide), if_neg (by decide), if_neg (by decide), if_neg (by decide), if_pos rfl, if_pos List.head?_cons,
        List.tail_cons]
      simp only
      rw [if_neg hn]
      simp [Nat.add_comm])
  exact ⟨_, c2, (Res.ok.inj c1).symm, rfl⟩

/-- C111, a single semicolon: one that another byte than a semicolon follows is an error. -/
theorem lone_semicolon (input : List Byte) (n : Nat) (ts : List Token) (h : nexts n (Lexer.new input) = ts.map .ok)
    (b : Byte) (rest : List Byte) (hb : b ≠ ch ';') (hi : input = textOf ts ++ txt ";" ++ b :: rest) :
    nexts (n + 1) (Lexer.new input) = ts.map .ok ++ [.err] := by
  have hd : input.drop (textOf ts).length = ch ';' :: b :: rest := by rw [hi, List.append_assoc]; simp [txt]
  have hf : first (ch ';' :: b :: rest) = none := by
    rw [first, if_neg (by decide), if_neg (by decide), if_neg (by decide), if_neg (by decide), if_pos rfl,
      if_neg (by simp [hb]), if_neg (by simp)]
  obtain ⟨h1, h2, h3⟩ := afterNexts_inv n _ (inv_new input) rfl
  obtain ⟨e1, e2⟩ := afterNexts_at n _ (inv_new input) rfl rfl _ h
  have hx := lexNext_at _ h1.le h1.bound
  rw [e2, e1, h2, show (Lexer.new input).offset = 0 from rfl, Nat.zero_add, show (Lexer.new input).input = input from rfl,
    hd, hf] at hx
  obtain ⟨p, -, -, hp⟩ := hx
  rw [nexts_succ, h, nextTok_fresh _ h3, hp]

example : nexts 2 (Lexer.new (txt "x;; a\r\n)")) =
      [.ok ⟨.reserved, 0, 0, 0, txt "x"⟩, .ok ⟨.lineComment, 1, 1, 0, txt ";; a\r\n"⟩] := by decide
example : nexts 2 (Lexer.new (txt "x;;a")) = [.ok ⟨.reserved, 0, 0, 0, txt "x"⟩, .ok ⟨.endOfStream, 1, 1, 0, txt ";;a"⟩] ∧
    nexts 2 (Lexer.new (txt "x;a")) = [.ok ⟨.reserved, 0, 0, 0, txt "x"⟩, .err] := by decide

end Verif.Wat
