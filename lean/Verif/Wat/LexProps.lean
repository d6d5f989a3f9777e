import Verif.Wat.LexShape

/-!
# Properties of the WAT lexer: C41, C42, C43, C46, C68, C69, C70, C71
-/

namespace Verif.Wat

open Spec

/-! ## C41 -/

/-- C41. The answers of any number of calls of `Next` on a new lexer are tokens or errors. The captures of the tokens,
concatenated, begin the input, and are all of it once an end of stream has been returned. Each token begins where the
ones before it end, and only the end of stream can be empty. (An error between two tokens loses no text either: the
bytes passed over are in the capture of the next token.) -/
theorem tokens_tile (input : List Byte) (n : Nat) :
    (∀ r ∈ nexts n (Lexer.new input), r.Returns) ∧
    textOf (tokensOf (nexts n (Lexer.new input))) <+: input ∧
    (∀ (i : Nat) (t : Token), (tokensOf (nexts n (Lexer.new input)))[i]? = some t →
      t.position = (textOf ((tokensOf (nexts n (Lexer.new input))).take i)).length ∧
      (t.type ≠ .endOfStream → t.capture ≠ []) ∧
      (t.type = .endOfStream → textOf ((tokensOf (nexts n (Lexer.new input))).take (i + 1)) = input)) := by
  obtain ⟨h1, h2, h3⟩ := nexts_from n (Lexer.new input) (inv_new input) rfl
  refine ⟨h1, h2, ?_⟩
  intro i t ht
  obtain ⟨a, -, -, b, c⟩ := h3 i t ht
  refine ⟨?_, b, ?_⟩
  · rw [a, show (Lexer.new input).offset = 0 from rfl, Nat.zero_add]
  · intro h; rw [c h]; rfl

/-- C41. After at most as many tokens as the input has bytes there is an end of stream or an error. -/
theorem tokens_end (input : List Byte) :
    ∃ (ts : List Token) (last : Res Token), ts.length ≤ input.length ∧
      nexts (ts.length + 1) (Lexer.new input) = ts.map .ok ++ [last] ∧
      (∀ t ∈ ts, t.type ≠ .endOfStream) ∧ (last = .err ∨ ∃ t, last = .ok t ∧ t.type = .endOfStream) :=
  nexts_end (Lexer.new input) (inv_new input) rfl input.length (Nat.le_refl _)

example : nexts 6 (Lexer.new (txt "(a 0x1)")) =
    [.ok ⟨.openParen, 0, 0, 0, txt "("⟩, .ok ⟨.reserved, 1, 1, 0, txt "a"⟩, .ok ⟨.whitespace, 2, 2, 0, txt " "⟩,
     .ok ⟨.integer, 3, 3, 0, txt "0x1"⟩, .ok ⟨.closeParen, 6, 6, 0, txt ")"⟩, .ok ⟨.endOfStream, 7, 7, 0, []⟩] := by decide
example : nexts 3 (Lexer.new (txt "a;b")) =
    [.ok ⟨.reserved, 0, 0, 0, txt "a"⟩, .err, .ok ⟨.reserved, 1, 1, 0, txt ";b"⟩] := by decide

/-! ## C42 -/

/-- C42. -/
theorem token_place (input : List Byte) (n : Nat) (t : Token) (h : t ∈ tokensOf (nexts n (Lexer.new input))) :
    t.line = (input.take t.position).count (ch '\n') ∧
    t.column = ((input.take t.position).reverse.takeWhile (· != ch '\n')).length := by
  obtain ⟨i, hi, rfl⟩ := List.getElem_of_mem h
  obtain ⟨-, b, c, -⟩ := (nexts_from n (Lexer.new input) (inv_new input) rfl).2.2 i _ (List.getElem?_eq_getElem hi)
  exact ⟨b, c⟩

example : nexts 3 (Lexer.new (txt "\"a\nb\"\n\nxy")) =
    [.ok ⟨.string, 0, 0, 0, txt "\"a\nb\""⟩, .ok ⟨.whitespace, 5, 2, 1, txt "\n\n"⟩, .ok ⟨.reserved, 7, 0, 3, txt "xy"⟩] := by
  decide

/-! ## C43 -/

/-- A call on one of several lexers. -/
inductive Call where
  | peek (i : Nat)
  | next (i : Nat)
  | clone (i : Nat)
  deriving DecidableEq

/-- A call on the lexer with that number; a clone is added at the end. There is no answer to a clone or to a call on a
lexer that does not exist. -/
def Call.run (c : Call) (ls : List Lexer) : Option (Res Token) × List Lexer :=
  match c with
  | .peek i => match ls[i]? with
    | some l => (some (peekTok l).1, ls.set i (peekTok l).2)
    | none => (none, ls)
  | .next i => match ls[i]? with
    | some l => (some (nextTok l).1, ls.set i (nextTok l).2)
    | none => (none, ls)
  | .clone i => match ls[i]? with
    | some l => (none, ls ++ [l.clone])
    | none => (none, ls)

/-- The answers of a sequence of calls. -/
def runCalls : List Call → List Lexer → List (Option (Res Token))
  | [], _ => []
  | c :: cs, ls => (c.run ls).1 :: runCalls cs (c.run ls).2

namespace Spec

/-- What a lexer is to its user: a place in a fixed sequence of answers. `Peek` reads it, `Next` also moves on, a clone
has its own. -/
def callAt (seq : Nat → Res Token) (c : Call) (ks : List Nat) : Option (Res Token) × List Nat :=
  match c with
  | .peek i => match ks[i]? with
    | some k => (some (seq k), ks)
    | none => (none, ks)
  | .next i => match ks[i]? with
    | some k => (some (seq k), ks.set i (k + 1))
    | none => (none, ks)
  | .clone i => match ks[i]? with
    | some k => (none, ks ++ [k])
    | none => (none, ks)

/-- The calls with their answers. -/
def callsAt (seq : Nat → Res Token) : List Call → List Nat → List (Call × Option (Res Token))
  | [], _ => []
  | c :: cs, ks => (c, (callAt seq c ks).1) :: callsAt seq cs (callAt seq c ks).2

end Spec

/-- The answers of `Next` alone. -/
def answer (input : List Byte) (k : Nat) : Res Token := (nextTok (afterNexts k (Lexer.new input))).1

/-- The lexer is at place `k`, with or without a peeked token. -/
def At (input : List Byte) (l : Lexer) (k : Nat) : Prop :=
  l = afterNexts k (Lexer.new input) ∨
  ∃ t, answer input k = .ok t ∧ l = { afterNexts (k + 1) (Lexer.new input) with peekToken := some t }

theorem at_fresh (input : List Byte) (k : Nat) : (afterNexts k (Lexer.new input)).peekToken = none :=
  (afterNexts_inv k _ (inv_new input) rfl).2.2

theorem at_next (input : List Byte) (l : Lexer) (k : Nat) (h : At input l k) :
    (nextTok l).1 = answer input k ∧ At input (nextTok l).2 (k + 1) := by
  rcases h with rfl | ⟨t, ht, rfl⟩
  · exact ⟨rfl, .inl (afterNexts_succ k _).symm⟩
  · refine ⟨by simp [nextTok, ht], .inl ?_⟩
    have := at_fresh input (k + 1)
    simp only [nextTok]
    rw [← this]

theorem at_peek (input : List Byte) (l : Lexer) (k : Nat) (h : At input l k) (t : Token) (ht : answer input k = .ok t) :
    (peekTok l).1 = .ok t ∧ At input (peekTok l).2 k := by
  rcases h with rfl | ⟨u, hu, rfl⟩
  · have hn := at_fresh input k
    have ha : (lexNext (afterNexts k (Lexer.new input))).1 = .ok t := by rw [← nextTok_fresh _ hn]; exact ht
    have he : lexNext (afterNexts k (Lexer.new input)) = (.ok t, (lexNext (afterNexts k (Lexer.new input))).2) := by
      rw [← ha]
    have e : peekTok (afterNexts k (Lexer.new input)) =
        (.ok t, { (lexNext (afterNexts k (Lexer.new input))).2 with peekToken := some t }) := by
      unfold peekTok
      rw [hn]
      simp only
      rw [he]
    rw [e]
    refine ⟨rfl, .inr ⟨t, ht, ?_⟩⟩
    rw [afterNexts_succ, nextTok_fresh _ hn]
  · rw [hu] at ht
    cases ht
    exact ⟨rfl, .inr ⟨t, hu, rfl⟩⟩

/-- All lexers are at their places. -/
def AllAt (input : List Byte) (ls : List Lexer) (ks : List Nat) : Prop :=
  ls.length = ks.length ∧ ∀ (i : Nat) (l : Lexer) (k : Nat), ls[i]? = some l → ks[i]? = some k → At input l k

theorem allAt_get (input : List Byte) (ls : List Lexer) (ks : List Nat) (h : AllAt input ls ks) (i : Nat) :
    (∃ l k, ls[i]? = some l ∧ ks[i]? = some k ∧ At input l k) ∨ (ls[i]? = none ∧ ks[i]? = none) := by
  rcases Nat.lt_or_ge i ls.length with hi | hi
  · have hi2 : i < ks.length := h.1 ▸ hi
    exact .inl ⟨_, _, List.getElem?_eq_getElem hi, List.getElem?_eq_getElem hi2,
      h.2 i _ _ (List.getElem?_eq_getElem hi) (List.getElem?_eq_getElem hi2)⟩
  · exact .inr ⟨List.getElem?_eq_none hi, List.getElem?_eq_none (h.1 ▸ hi)⟩

theorem allAt_set (input : List Byte) (ls : List Lexer) (ks : List Nat) (h : AllAt input ls ks) (i : Nat) (l : Lexer) (k : Nat)
    (hl : At input l k) : AllAt input (ls.set i l) (ks.set i k) := by
  refine ⟨by simp [h.1], ?_⟩
  intro j m q hm hq
  rw [List.getElem?_set] at hm hq
  split at hm
  · rename_i hij
    rw [if_pos hij] at hq
    split at hm
    · split at hq
      · cases hm; cases hq; exact hl
      · cases hq
    · cases hm
  · rename_i hij
    rw [if_neg hij] at hq
    exact h.2 j m q hm hq

theorem calls_from (input : List Byte) (cs : List Call) (ls : List Lexer) (ks : List Nat) (h : AllAt input ls ks)
    (hp : ∀ i r, (Call.peek i, some r) ∈ callsAt (answer input) cs ks → ∃ t, r = .ok t) :
    runCalls cs ls = (callsAt (answer input) cs ks).map (·.2) := by
  induction cs generalizing ls ks with
  | nil => rfl
  | cons c cs ih =>
    rw [runCalls, callsAt, List.map_cons]
    have key : (c.run ls).1 = (callAt (answer input) c ks).1 ∧ AllAt input (c.run ls).2 (callAt (answer input) c ks).2 := by
      cases c with
      | peek i =>
        rcases allAt_get input ls ks h i with ⟨l, k, hl, hk, ha⟩ | ⟨hl, hk⟩
        · obtain ⟨t, ht⟩ := hp i (answer input k) (by simp [callsAt, callAt, hk])
          obtain ⟨p1, p2⟩ := at_peek input l k ha t ht
          simp only [Call.run, callAt, hl, hk]
          refine ⟨by rw [p1, ht], ?_⟩
          have := allAt_set input ls ks h i _ k p2
          rwa [show ks.set i k = ks from List.ext_getElem? (fun j => by
            rw [List.getElem?_set]
            split
            · rename_i hij; subst hij
              split
              · exact hk.symm
              · rename_i hn; rw [List.getElem?_eq_none (by omega)]
            · rfl)] at this
        · simp only [Call.run, callAt, hl, hk]
          exact ⟨trivial, h⟩
      | next i =>
        rcases allAt_get input ls ks h i with ⟨l, k, hl, hk, ha⟩ | ⟨hl, hk⟩
        · obtain ⟨p1, p2⟩ := at_next input l k ha
          simp only [Call.run, callAt, hl, hk]
          exact ⟨by rw [p1], allAt_set input ls ks h i _ _ p2⟩
        · simp only [Call.run, callAt, hl, hk]
          exact ⟨trivial, h⟩
      | clone i =>
        rcases allAt_get input ls ks h i with ⟨l, k, hl, hk, ha⟩ | ⟨hl, hk⟩
        · simp only [Call.run, callAt, hl, hk]
          refine ⟨trivial, by simp [h.1], ?_⟩
          intro j m q hm hq
          rw [List.getElem?_append] at hm hq
          rw [← h.1] at hq
          split at hm
          · rename_i hj
            rw [if_pos hj] at hq
            exact h.2 j m q hm hq
          · rename_i hj
            rw [if_neg hj] at hq
            rcases Nat.eq_zero_or_pos (j - ls.length) with hz | hz
            · rw [hz] at hm hq
              cases hm; cases hq
              exact ha
            · rw [List.getElem?_eq_none (by simp only [List.length_singleton]; omega)] at hm
              cases hm
        · simp only [Call.run, callAt, hl, hk]
          exact ⟨trivial, h⟩
    rw [key.1]
    congr 1
    refine ih _ _ key.2 ?_
    intro i r hr
    exact hp i r (by rw [callsAt]; exact List.mem_cons_of_mem _ hr)

/-- C43, for texts or calls where no `Peek` meets an error. Whatever calls of `Peek`, `Next` and `Clone` are made on a
lexer and on its clones, in any order, each lexer answers from its own place in the one sequence of answers of `Next`.
Missing: `Peek` where `Next` would return an error, which panics instead (`peek_panics`). -/
theorem peek_clone_partial (input : List Byte) (cs : List Call)
    (hp : ∀ i r, (Call.peek i, some r) ∈ callsAt (answer input) cs [0] → ∃ t, r = .ok t) :
    runCalls cs [Lexer.new input] = (callsAt (answer input) cs [0]).map (·.2) := by
  refine calls_from input cs _ _ ⟨rfl, ?_⟩ hp
  intro i l k hl hk
  cases i with
  | zero => cases hl; cases hk; exact .inl rfl
  | succ i => simp at hl

/-- What the sequence of answers is. -/
theorem answer_nexts (input : List Byte) (n k : Nat) (h : k < n) : (nexts n (Lexer.new input))[k]? = some (answer input k) :=
  nexts_getElem? n _ k h

/-- C43 fails at an error: `Peek` panics, and what `Next` returns after it is not what it would have returned. -/
theorem peek_panics : runCalls [.peek 0, .next 0] [Lexer.new (txt ";a b")] ≠ (callsAt (answer (txt ";a b")) [.peek 0, .next 0] [0]).map (·.2) ∧
    runCalls [.peek 0, .next 0] [Lexer.new (txt ";a b")] = [some .panic, some (.ok ⟨.reserved, 0, 0, 0, txt ";a"⟩)] ∧
    runCalls [.next 0] [Lexer.new (txt ";a b")] = [some .err] := by decide

example : ∀ i r, (Call.peek i, some r) ∈ callsAt (answer (txt "(a b)"))
      [.peek 0, .clone 0, .next 0, .next 0, .peek 1, .next 1, .clone 1, .peek 2] [0] → ∃ t, r = .ok t := by
  intro i r h
  have e : callsAt (answer (txt "(a b)")) [.peek 0, .clone 0, .next 0, .next 0, .peek 1, .next 1, .clone 1, .peek 2] [0] =
      [(.peek 0, some (.ok ⟨.openParen, 0, 0, 0, txt "("⟩)), (.clone 0, none),
       (.next 0, some (.ok ⟨.openParen, 0, 0, 0, txt "("⟩)), (.next 0, some (.ok ⟨.reserved, 1, 1, 0, txt "a"⟩)),
       (.peek 1, some (.ok ⟨.openParen, 0, 0, 0, txt "("⟩)), (.next 1, some (.ok ⟨.openParen, 0, 0, 0, txt "("⟩)),
       (.clone 1, none), (.peek 2, some (.ok ⟨.reserved, 1, 1, 0, txt "a"⟩))] := by decide
  rw [e] at h
  simp only [List.mem_cons, Prod.mk.injEq, Call.peek.injEq, Option.some.injEq, reduceCtorEq, false_and, false_or, List.not_mem_nil,
    or_false, and_false] at h
  rcases h with h | h | h <;> exact ⟨_, h.2⟩

/-! ## C46, C68, C69 -/

/-- The kind that the automata find behind a type. -/
theorem kind_of_type (ty ty' : TokenType) (c : List Byte) (h : classify ty c = .ok ty') (hne : ty' = .string ∨
    ty' = .blockComment ∨ ty' = .lineComment ∨ ty' = .endOfStream ∨ ty' = .whitespace ∨ ty' = .id ∨ ty' = .openParen ∨
    ty' = .closeParen) : ty = ty' := by
  obtain ⟨u, hu, -, h1, h2⟩ := classify_ok ty c
  rw [h] at hu
  cases hu
  by_cases ht : ty = .reserved
  · have := h2 ht
    exfalso
    rcases this with rfl | rfl | rfl | rfl | rfl <;> simp at hne
  · exact (h1 ht).symm

/-- C46, one direction. In a text lexed without an error every token of type string is closed by a quote and has no
quote between, and every comment is closed by the first end marker after its beginning. Missing: an unclosed string or
comment at the end of the text is no error (`unterminated_is_end`). -/
theorem closed_tokens_partial (input : List Byte) (n : Nat) (ts : List Token)
    (h : nexts n (Lexer.new input) = ts.map .ok) (t : Token) (ht : t ∈ ts) :
    (t.type = .string → ∃ body, t.capture = [ch '"'] ++ body ++ [ch '"'] ∧ ch '"' ∉ body) ∧
    (t.type = .blockComment → ∃ body, t.capture = txt "(;" ++ body ++ txt ";)" ∧
      ∀ q, q ++ txt ";)" <+: body ++ txt ";)" → q = body) ∧
    (t.type = .lineComment → ∃ body, t.capture = txt ";;" ++ body ++ [ch '\n'] ∧ ch '\n' ∉ body) := by
  obtain ⟨ty, hc, hs⟩ := token_shape input n ts h t ht
  refine ⟨?_, ?_, ?_⟩ <;> intro he <;> have hk := kind_of_type ty t.type t.capture hc (by simp [he]) <;>
    rw [hk, he] at hs <;> exact hs

/-- The end of stream has a text only if the input ends inside a string or comment (or with a lone semicolon): so a
caller could tell. -/
theorem end_capture (input : List Byte) (n : Nat) (ts : List Token)
    (h : nexts n (Lexer.new input) = ts.map .ok) (t : Token) (ht : t ∈ ts) (he : t.type = .endOfStream) (hc : t.capture ≠ []) :
    (∃ body, t.capture = [ch '"'] ++ body ∧ ch '"' ∉ body) ∨
    (∃ body, t.capture = txt "(;" ++ body ∧ ∀ q, ¬ q ++ txt ";)" <+: body) ∨
    (∃ body, t.capture = txt ";;" ++ body ∧ ch '\n' ∉ body) ∨ t.capture = txt ";" := by
  obtain ⟨ty, hk, hs⟩ := token_shape input n ts h t ht
  have hk := kind_of_type ty t.type t.capture hk (by simp [he])
  rw [hk, he] at hs
  exact hs.2.resolve_left hc

/-- C46 fails: whatever has been returned before, if the rest of the text is a string or block comment that is never
closed, `Next` returns it as the end of the stream, without an error. -/
theorem unterminated_is_end (input : List Byte) (n : Nat) (ts : List Token) (h : nexts n (Lexer.new input) = ts.map .ok)
    (rest : List Byte) (hi : input = textOf ts ++ rest)
    (hr : (∃ body, rest = [ch '"'] ++ body ∧ ch '"' ∉ body) ∨
      (∃ body, rest = txt "(;" ++ body ∧ ∀ q, ¬ q ++ txt ";)" <+: body)) :
    ∃ t : Token, nexts (n + 1) (Lexer.new input) = (ts ++ [t]).map .ok ∧ t.type = .endOfStream ∧ t.capture = rest := by
  have hd : input.drop (textOf ts).length = rest := by rw [hi]; simp
  have hf : first rest = some (.endOfStream, rest.length) := by
    rcases hr with ⟨body, rfl, hb⟩ | ⟨body, rfl, hb⟩
    · have hn : ¬ run (· != ch '"') body < body.length := by
        intro hlt
        have := (run_until (ch '"') body).1 hlt
        apply hb
        have h2 : ch '"' ∈ body.take (run (· != ch '"') body + 1) := by rw [this]; simp
        exact List.mem_of_mem_take h2
      rw [show [ch '"'] ++ body = ch '"' :: body from rfl, first, if_neg (by decide), if_neg (by decide), if_neg (by decide),
        if_pos rfl]
      simp only
      rw [if_neg hn]
      simp [Nat.add_comm]
    · have hn := closing_none_of body hb
      rw [show txt "(;" ++ body = ch '(' :: ch ';' :: body from rfl, first, if_neg (by decide), if_pos rfl, if_pos List.head?_cons,
        List.tail_cons, hn]
      simp [Nat.add_comm]
  obtain ⟨ty', c1, c2⟩ := next_at input n ts h .endOfStream rest.length (by rw [hd]; exact hf)
  rw [hd, List.take_length] at c1 c2
  exact ⟨⟨ty', (textOf ts).length, column (textOf ts), line (textOf ts), rest⟩,
    by rw [nexts_succ, h, c2, List.map_append]; rfl, (Res.ok.inj c1).symm, rfl⟩

example : nexts 2 (Lexer.new (txt "(module \"a)")) = [.ok ⟨.openParen, 0, 0, 0, txt "("⟩, .ok ⟨.module, 1, 1, 0, txt "module"⟩] ∧
    nexts 4 (Lexer.new (txt "(module \"a)")) = [.ok ⟨.openParen, 0, 0, 0, txt "("⟩, .ok ⟨.module, 1, 1, 0, txt "module"⟩,
      .ok ⟨.whitespace, 7, 7, 0, txt " "⟩, .ok ⟨.endOfStream, 8, 8, 0, txt "\"a)"⟩] := by decide

/-- The token at a place of the text from what the text is there. -/
theorem token_at (input : List Byte) (n : Nat) (ts : List Token) (h : nexts n (Lexer.new input) = ts.map .ok)
    (c rest : List Byte) (hi : input = textOf ts ++ c ++ rest) (ty : TokenType) (hf : first (c ++ rest) = some (ty, c.length)) :
    ∃ ty', classify ty c = .ok ty' ∧ nexts (n + 1) (Lexer.new input) =
      (ts ++ [Token.mk ty' (textOf ts).length (column (textOf ts)) (line (textOf ts)) c]).map .ok := by
  have hd : input.drop (textOf ts).length = c ++ rest := by rw [hi, List.append_assoc]; simp
  obtain ⟨ty', c1, c2⟩ := next_at input n ts h ty c.length (by rw [hd]; exact hf)
  rw [hd, List.take_left] at c1 c2
  refine ⟨ty', c1, ?_⟩
  rw [nexts_succ, h, c2, List.map_append]
  rfl

theorem run_stop (p : Byte → Bool) (w r : List Byte) (hw : ∀ b ∈ w, p b = true) (hr : ∀ b, r.head? = some b → p b = false) :
    run p (w ++ r) = w.length := by
  induction w with
  | nil =>
    cases r with
    | nil => rfl
    | cons b r => rw [List.nil_append, run_cons, if_neg (by simp [hr b rfl])]; rfl
  | cons b w ih =>
    rw [List.cons_append, run_cons, if_pos (hw b (by simp)), ih (fun x hx => hw x (by simp [hx])), List.length_cons]

namespace Spec

/-- The inside of a string literal: bytes other than quote and backslash, and bytes escaped by a backslash. -/
inductive StringBody : List Byte → Prop
  | nil : StringBody []
  | plain (b : Byte) (s : List Byte) : b ≠ ch '"' → b ≠ ch '\\' → StringBody s → StringBody (b :: s)
  | escaped (b : Byte) (s : List Byte) : StringBody s → StringBody (ch '\\' :: b :: s)

/-- The inside of a block comment, comments in it being closed. -/
inductive CommentBody : List Byte → Prop
  | nil : CommentBody []
  | plain (b : Byte) (s : List Byte) : (∀ c, s.head? = some c → ¬ (b = ch '(' ∧ c = ch ';') ∧ ¬ (b = ch ';' ∧ c = ch ')')) →
      CommentBody s → CommentBody (b :: s)
  | nested (c s : List Byte) : CommentBody c → CommentBody s → CommentBody (txt "(;" ++ c ++ txt ";)" ++ s)

end Spec

/-- C68, for literals without an escaped quote: wherever a string literal stands in a text lexed so far without an
error, `Next` returns it as one token. Missing: literals with an escaped quote, which are cut there
(`escaped_quote_cut`). -/
theorem string_literal_partial (input : List Byte) (n : Nat) (ts : List Token) (h : nexts n (Lexer.new input) = ts.map .ok)
    (body rest : List Byte) (_ : StringBody body) (hq : ch '"' ∉ body)
    (hi : input = textOf ts ++ ([ch '"'] ++ body ++ [ch '"']) ++ rest) :
    ∃ t : Token, nexts (n + 1) (Lexer.new input) = (ts ++ [t]).map .ok ∧ t.type = .string ∧
      t.capture = [ch '"'] ++ body ++ [ch '"'] := by
  have hr : run (· != ch '"') (body ++ ([ch '"'] ++ rest)) = body.length :=
    run_stop _ _ _ (fun b hb => by
      have : b ≠ ch '"' := fun he => hq (he ▸ hb)
      simpa using this) (fun b hb => by cases hb; rfl)
  obtain ⟨ty', c1, c2⟩ := token_at input n ts h _ rest hi .string (by
    rw [show ([ch '"'] ++ body ++ [ch '"']) ++ rest = ch '"' :: (body ++ ([ch '"'] ++ rest)) by simp, first,
      if_neg (by decide), if_neg (by decide), if_neg (by decide), if_pos rfl]
    simp only
    rw [hr, if_pos (by simp only [List.length_append, List.length_singleton]; omega)]
    simp)
  exact ⟨_, c2, (Res.ok.inj c1).symm, rfl⟩

/-- C68 fails: a string literal with an escaped quote is cut at that quote. -/
theorem escaped_quote_cut : StringBody (txt "a\\\"b") ∧
    nexts 2 (Lexer.new ([ch '"'] ++ txt "a\\\"b" ++ [ch '"'])) =
      [.ok ⟨.string, 0, 0, 0, txt "\"a\\\""⟩, .ok ⟨.reserved, 4, 4, 0, txt "b"⟩] := by
  refine ⟨?_, by decide⟩
  exact .plain _ _ (by decide) (by decide) (.escaped _ _ (.plain _ _ (by decide) (by decide) .nil))

example : nexts 1 (Lexer.new (txt "(\"a\\n\")")) = [.ok ⟨.openParen, 0, 0, 0, txt "("⟩] ∧ StringBody (txt "a\\n") ∧
    ch '"' ∉ txt "a\\n" :=
  ⟨by decide, .plain _ _ (by decide) (by decide) (.escaped _ _ .nil), by decide⟩

theorem closing_first (body rest : List Byte) (h : ∀ q, q ++ txt ";)" <+: body ++ txt ";)" → q = body) :
    closing (body ++ txt ";)" ++ rest) = some (body.length + 2) := by
  induction body with
  | nil => rfl
  | cons b body ih =>
    rw [List.cons_append, List.cons_append, closing, if_neg, ih]
    · rfl
    · intro q hq
      have := h (b :: q) (by rw [List.cons_append, List.cons_append, List.cons_prefix_cons]; exact ⟨rfl, hq⟩)
      exact (List.cons.inj this).2
    · intro hb
      have := h [] (by
        rw [List.nil_append, List.cons_append]
        show [ch ';', ch ')'] <+: _
        rw [List.cons_prefix_cons]
        refine ⟨hb.1.symm, ?_⟩
        have h2 := hb.2
        cases body with
        | nil => cases h2
        | cons c body => simp only [List.cons_append, List.head?_cons, Option.some.injEq] at h2; rw [h2]; simp)
      cases this

/-- C69, for comments without a comment in them: wherever a block comment whose inside has no `(;` or `;)` stands in a
text lexed so far without an error, `Next` returns it as one token. Missing: comments in comments, which end the outer
one (`nested_comment_cut`). -/
theorem block_comment_partial (input : List Byte) (n : Nat) (ts : List Token) (h : nexts n (Lexer.new input) = ts.map .ok)
    (body rest : List Byte) (_ : CommentBody body) (_ : ∀ q, ¬ q ++ txt "(;" <+: body ++ txt ";)")
    (hc : ∀ q, q ++ txt ";)" <+: body ++ txt ";)" → q = body)
    (hi : input = textOf ts ++ (txt "(;" ++ body ++ txt ";)") ++ rest) :
    ∃ t : Token, nexts (n + 1) (Lexer.new input) = (ts ++ [t]).map .ok ∧ t.type = .blockComment ∧
      t.capture = txt "(;" ++ body ++ txt ";)" := by
  obtain ⟨ty', c1, c2⟩ := token_at input n ts h _ rest hi .blockComment (by
    rw [show (txt "(;" ++ body ++ txt ";)") ++ rest = ch '(' :: ch ';' :: (body ++ txt ";)" ++ rest) by simp [txt], first,
      if_neg (by decide), if_pos rfl, if_pos List.head?_cons, List.tail_cons, closing_first body rest hc]
    simp [txt]
    omega)
  exact ⟨_, c2, (Res.ok.inj c1).symm, rfl⟩

/-- C69 fails: the first end marker ends the outer comment. -/
theorem nested_comment_cut : CommentBody (txt "(;;)") ∧
    nexts 2 (Lexer.new (txt "(;" ++ txt "(;;)" ++ txt ";)")) = [.ok ⟨.blockComment, 0, 0, 0, txt "(;(;;)"⟩, .err] :=
  ⟨.nested [] [] .nil .nil, by decide⟩

example : nexts 1 (Lexer.new (txt " (; x ;)")) = [.ok ⟨.whitespace, 0, 0, 0, txt " "⟩] ∧ CommentBody (txt " x ") ∧
    (∀ q, ¬ q ++ txt "(;" <+: txt " x " ++ txt ";)") ∧ ∀ q, q ++ txt ";)" <+: txt " x " ++ txt ";)" → q = txt " x " := by
  refine ⟨by decide, .plain _ _ ?_ (.plain _ _ ?_ (.plain _ _ ?_ .nil)), ?_, ?_⟩
  · intro c _; exact ⟨fun h => absurd h.1 (by decide), fun h => absurd h.1 (by decide)⟩
  · intro c _; exact ⟨fun h => absurd h.1 (by decide), fun h => absurd h.1 (by decide)⟩
  · intro c _; exact ⟨fun h => absurd h.1 (by decide), fun h => absurd h.1 (by decide)⟩
  · intro q hq
    have := hq.mem (a := ch '(') (by simp [txt])
    revert this; decide
  · intro q hq
    have h1 := hq.length_le
    have h2 := List.prefix_iff_eq_take.1 hq
    have h3 : q.length ≤ 3 := by simp [txt] at h1; omega
    have : q = (txt " x " ++ txt ";)").take q.length := by
      have := congrArg (List.take q.length) h2
      rw [List.take_left, List.take_take, Nat.min_eq_left (by simp)] at this
      exact this
    rcases (by omega : q.length = 0 ∨ q.length = 1 ∨ q.length = 2 ∨ q.length = 3) with e | e | e | e <;>
      rw [List.length_append, e] at h2 <;> rw [e] at this <;> rw [this] at h2 ⊢ <;> revert h2 <;> decide

/-! ## C70 -/

namespace Spec

/-- The characters of words and names in the WebAssembly text format. -/
def wordChars : List Byte :=
  txt "0123456789abcdefghijklmnopqrstuvwxyzABCDEFGHIJKLMNOPQRSTUVWXYZ!#$%&'*+-./:<=>?@\\^_`|~"

/-- Types of tokens that are words. -/
def isWord (ty : TokenType) : Prop := ty = .reserved ∨ ty = .integer ∨ ty = .float ∨ ty = .module ∨ ty = .component

end Spec

theorem isIdChar_iff (b : Byte) : isIdChar b = true ↔ b ∈ wordChars := by
  revert b; decide

/-- C70. A word or name token has only characters of words, and ends where they end. -/
theorem word_tokens (input : List Byte) (n : Nat) (ts : List Token) (h : nexts n (Lexer.new input) = ts.map .ok)
    (t : Token) (ht : t ∈ ts) (hw : isWord t.type ∨ t.type = .id) :
    t.capture ≠ [] ∧ (∀ b ∈ t.capture, b ∈ wordChars) ∧
    (∀ b, (input.drop (t.position + t.capture.length)).head? = some b → b ∉ wordChars) ∧
    (t.type = .id ↔ ∃ name, name ≠ [] ∧ t.capture = [ch '$'] ++ name) := by
  obtain ⟨ty, hc, hs⟩ := token_shape input n ts h t ht
  obtain ⟨u, hu, he1, he2, he3⟩ := classify_ok ty t.capture
  rw [hc] at hu
  cases hu
  by_cases hr : ty = .reserved
  · subst hr
    obtain ⟨a, b, c, d⟩ := hs
    refine ⟨a, fun x hx => (isIdChar_iff x).1 (b x hx), ?_, ?_⟩
    · intro x hx hm
      rw [← List.drop_drop] at hx
      have := c x hx
      rw [(isIdChar_iff x).2 hm] at this
      cases this
    · constructor
      · intro hid
        rcases he3 rfl with h | h | h | h | h <;> rw [hid] at h <;> cases h
      · rintro ⟨name, hn, hcap⟩
        have := d (by rw [hcap]; rfl)
        rw [hcap] at this
        cases name with
        | nil => exact absurd rfl hn
        | cons x y => cases this
  · have ht2 := he2 hr
    rcases hw with hw | hw
    · exfalso
      rw [ht2] at hw
      rcases hw with h | h | h | h | h <;> rw [h] at hs hr <;> first | exact hr rfl | exact hs
    · rw [← ht2, hw] at hs
      obtain ⟨name, h1, h2, h3, h4⟩ := hs
      refine ⟨by rw [h1]; simp, ?_, ?_, fun _ => ⟨name, h2, h1⟩, fun _ => hw⟩
      · intro x hx
        rw [h1] at hx
        rcases List.mem_append.1 hx with hx | hx
        · rw [List.mem_singleton] at hx
          rw [hx]; decide
        · exact (isIdChar_iff x).1 (h3 x hx)
      · intro x hx hm
        rw [← List.drop_drop] at hx
        have := h4 x hx
        rw [(isIdChar_iff x).2 hm] at this
        cases this

/-- C70. Wherever a longest run of characters of words stands in a text lexed so far without an error, `Next` returns it
as one token, a name or a word. -/
theorem word_at (input : List Byte) (n : Nat) (ts : List Token) (h : nexts n (Lexer.new input) = ts.map .ok)
    (w rest : List Byte) (hne : w ≠ []) (hw : ∀ b ∈ w, b ∈ wordChars) (hr : ∀ b, rest.head? = some b → b ∉ wordChars)
    (hi : input = textOf ts ++ w ++ rest) :
    ∃ t : Token, nexts (n + 1) (Lexer.new input) = (ts ++ [t]).map .ok ∧ t.capture = w ∧ (isWord t.type ∨ t.type = .id) := by
  cases w with
  | nil => exact absurd rfl hne
  | cons b w =>
    have hb : isIdChar b = true := (isIdChar_iff b).2 (hw b (by simp))
    have hrun : run isIdChar (w ++ rest) = w.length := by
      refine run_stop _ _ _ (fun x hx => (isIdChar_iff x).2 (hw x (by simp [hx]))) (fun x hx => ?_)
      rw [Bool.eq_false_iff]
      intro hx2
      exact hr x hx ((isIdChar_iff x).1 hx2)
    have h0 : isSpace b = false ∧ b ≠ ch '(' ∧ b ≠ ch ')' ∧ b ≠ ch '"' ∧ b ≠ ch ';' := by
      clear hne hw hi
      revert hb; revert b; decide
    obtain ⟨h0, h1, h2, h3, h4⟩ := h0
    obtain ⟨ty', c1, c2⟩ := token_at input n ts h (b :: w) rest hi (if b = ch '$' ∧ 1 ≤ w.length then .id else .reserved) (by
      rw [List.cons_append, first, if_neg (by simp [h0]), if_neg h1, if_neg h2, if_neg h3, if_neg h4, if_pos hb]
      simp only
      rw [hrun, List.length_cons, Nat.add_comm])
    refine ⟨_, c2, rfl, ?_⟩
    simp only
    obtain ⟨u, hu, -, he2, he3⟩ := classify_ok (if b = ch '$' ∧ 1 ≤ w.length then .id else .reserved) (b :: w)
    rw [c1] at hu
    cases hu
    split at he2
    · exact .inr (he2 (by simp))
    · rename_i hcond
      rw [if_neg hcond] at he3
      rcases he3 rfl with h | h | h | h | h <;> simp [h, isWord]

example : nexts 3 (Lexer.new (txt "$a<b(i32.const")) = [.ok ⟨.id, 0, 0, 0, txt "$a<b"⟩, .ok ⟨.openParen, 4, 4, 0, txt "("⟩,
    .ok ⟨.reserved, 5, 5, 0, txt "i32.const"⟩] := by decide

/-- C70. The keywords `module` and `component` have token types of their own, and no other text has. -/
theorem keyword_tokens (input : List Byte) (n : Nat) (ts : List Token) (h : nexts n (Lexer.new input) = ts.map .ok)
    (t : Token) (ht : t ∈ ts) :
    (t.type = .module ↔ t.capture = txt "module") ∧ (t.type = .component ↔ t.capture = txt "component") := by
  obtain ⟨ty, hc, hs⟩ := token_shape input n ts h t ht
  by_cases hr : ty = .reserved
  · subst hr
    have key : ∀ w k, w = txt "module" ∧ k = .module ∨ w = txt "component" ∧ k = .component →
        (t.type = k ↔ t.capture = w) := by
      intro w k hwk
      constructor
      · intro hk
        rw [hk] at hc
        unfold classify at hc
        rw [if_pos rfl] at hc
        split at hc
        · rcases hwk with ⟨-, rfl⟩ | ⟨-, rfl⟩ <;> cases hc
        · obtain ⟨f, -, hf⟩ := Res.bind_eq_ok.1 hc
          clear hc
          split at hf
          · rcases hwk with ⟨-, rfl⟩ | ⟨-, rfl⟩ <;> cases hf
          · unfold keyword at hf
            rcases hwk with ⟨rfl, rfl⟩ | ⟨rfl, rfl⟩ <;> by_cases e1 : t.capture = txt "module" <;>
              by_cases e2 : t.capture = txt "component" <;> simp [e1, e2] at hf ⊢
            all_goals first | assumption | (rw [if_neg (by decide)] at hf; cases hf)
      · intro hw
        rw [hw] at hc
        have : classify .reserved w = .ok k := by
          rcases hwk with ⟨rfl, rfl⟩ | ⟨rfl, rfl⟩ <;> decide
        rw [this] at hc
        exact (Res.ok.inj hc).symm
    exact ⟨key _ _ (.inl ⟨rfl, rfl⟩), key _ _ (.inr ⟨rfl, rfl⟩)⟩
  · obtain ⟨u, hu, -, he2, -⟩ := classify_ok ty t.capture
    rw [hc] at hu
    cases hu
    have ht2 := he2 hr
    rw [← ht2] at hs hr
    have hno : ∀ w : List Byte, (∃ b r, w = b :: r ∧ isIdChar b = true ∧ b ≠ ch '$') → t.capture ≠ w := by
      rintro w ⟨b, r, rfl, hb1, hb2⟩ hw
      rw [hw] at hs
      have h2 : isSpace b = false ∧ b ≠ ch '(' ∧ b ≠ ch ')' ∧ b ≠ ch '"' ∧ b ≠ ch ';' := by
        clear hs hw; revert b; decide
      obtain ⟨k0, k1, k2, k3, k4⟩ := h2
      cases hty : t.type <;> rw [hty] at hs hr
      case whitespace => rw [hs.2.1 b (by simp)] at k0; cases k0
      case openParen => exact k1 (List.cons.inj hs.1).1
      case closeParen => exact k2 (List.cons.inj (show b :: r = txt ")" from hs)).1
      case string => obtain ⟨x, hx, -⟩ := hs; exact k3 (List.cons.inj hx).1
      case lineComment => obtain ⟨x, hx, -⟩ := hs; exact k4 (List.cons.inj hx).1
      case blockComment => obtain ⟨x, hx, -⟩ := hs; exact k1 (List.cons.inj hx).1
      case id => obtain ⟨x, hx, -⟩ := hs; exact hb2 (List.cons.inj hx).1
      case reserved => exact hr rfl
      case endOfStream =>
        rcases hs.2 with e | ⟨x, hx, -⟩ | ⟨x, hx, -⟩ | ⟨x, hx, -⟩ | hx
        · cases e
        · exact k3 (List.cons.inj hx).1
        · exact k1 (List.cons.inj hx).1
        · exact k4 (List.cons.inj hx).1
        · exact k4 (List.cons.inj hx).1
      all_goals exact hs
    refine ⟨⟨fun hk => ?_, fun hk => absurd hk (hno _ ⟨ch 'm', txt "odule", rfl, by decide, by decide⟩)⟩,
      ⟨fun hk => ?_, fun hk => absurd hk (hno _ ⟨ch 'c', txt "omponent", rfl, by decide, by decide⟩)⟩⟩
    · rw [hk] at hs; exact absurd hs (by simp [Shape])
    · rw [hk] at hs; exact absurd hs (by simp [Shape])

example : nexts 2 (Lexer.new (txt "(module")) =
    [.ok ⟨.openParen, 0, 0, 0, txt "("⟩, .ok ⟨.module, 1, 1, 0, txt "module"⟩] := by decide

/-! ## C71 -/

namespace Spec

/-- Space, tab, newline, vertical tab, form feed and carriage return. -/
def spaces : List Byte := [0x20, 0x09, 0x0a, 0x0b, 0x0c, 0x0d]

/-- The characters some token begins with. -/
def starts : List Byte := spaces ++ wordChars ++ txt "()\";"

end Spec

theorem isSpace_iff (b : Byte) : isSpace b = true ↔ b ∈ spaces := by
  revert b; decide

/-- The capture of a token is the text at its position. -/
theorem token_capture (input : List Byte) (n : Nat) (ts : List Token) (h : nexts n (Lexer.new input) = ts.map .ok)
    (t : Token) (ht : t ∈ ts) : t.capture = (input.drop t.position).take t.capture.length := by
  have k := tokens_tile input n
  rw [h, tokensOf_ok] at k
  obtain ⟨i, hi, rfl⟩ := List.getElem_of_mem ht
  obtain ⟨-, k2, k3⟩ := k
  obtain ⟨hp, -, -⟩ := k3 i _ (List.getElem?_eq_getElem hi)
  have hs : textOf ts = textOf (ts.take i) ++ (ts[i].capture ++ textOf (ts.drop (i + 1))) := by
    have e : ts = ts.take i ++ ts[i] :: ts.drop (i + 1) := by
      rw [← List.drop_eq_getElem_cons hi, List.take_append_drop]
    have e2 : ∀ a b : List Token, textOf (a ++ b) = textOf a ++ textOf b := fun a b => by simp [textOf]
    conv => lhs; rw [e]
    rw [e2]
    rfl
  obtain ⟨r, hr⟩ := k2
  rw [hp, ← hr, hs, List.append_assoc, List.append_assoc, List.drop_left, List.take_left]

/-- C71. White space and parenthesis tokens are what they should be. -/
theorem space_tokens (input : List Byte) (n : Nat) (ts : List Token) (h : nexts n (Lexer.new input) = ts.map .ok)
    (t : Token) (ht : t ∈ ts) :
    (t.type = .whitespace → t.capture ≠ [] ∧ (∀ b ∈ t.capture, b ∈ spaces) ∧
      ∀ b, (input.drop (t.position + t.capture.length)).head? = some b → b ∉ spaces) ∧
    (t.type = .openParen → t.capture = txt "(" ∧ (input.drop (t.position + 1)).head? ≠ some (ch ';')) ∧
    (t.type = .closeParen → t.capture = txt ")") := by
  obtain ⟨ty, hc, hs⟩ := token_shape input n ts h t ht
  have same : t.type = .whitespace ∨ t.type = .openParen ∨ t.type = .closeParen → ty = t.type := by
    intro hk
    obtain ⟨u, hu, -, he2, he3⟩ := classify_ok ty t.capture
    rw [hc] at hu
    cases hu
    by_cases hr : ty = .reserved
    · rcases he3 hr with h | h | h | h | h <;> rw [h] at hk <;> simp at hk
    · exact (he2 hr).symm
  refine ⟨fun hk => ?_, fun hk => ?_, fun hk => ?_⟩ <;> rw [same (by simp [hk]), hk] at hs
  · obtain ⟨h1, h2, h3⟩ := hs
    refine ⟨h1, fun b hb => (isSpace_iff b).1 (h2 b hb), fun b hb hm => ?_⟩
    rw [← List.drop_drop] at hb
    have := h3 b hb
    rw [(isSpace_iff b).2 hm] at this
    cases this
  · obtain ⟨h1, h2⟩ := hs
    refine ⟨h1, fun h3 => h2 ?_⟩
    have hc := token_capture input n ts h t ht
    rw [h1] at hc
    rw [← List.drop_drop] at h3
    rcases hd : input.drop t.position with _ | ⟨x, _ | ⟨y, r⟩⟩
    · rw [hd] at h3; simp at h3
    · rw [hd] at h3; simp at h3
    · rw [hd] at h3 hc
      simp only [List.drop_succ_cons, List.drop_zero, List.head?_cons, Option.some.injEq] at h3
      have hx : ch '(' = x := (List.cons.inj (show ch '(' :: [] = x :: [] from hc)).1
      rw [h3, ← hx]
      exact ⟨r, rfl⟩
  · exact hs

/-- C71. Wherever a longest run of white space or a parenthesis that begins no comment stands in a text lexed so far
without an error, `Next` returns it as one token; where a byte stands that begins no token, it returns an error. -/
theorem space_at (input : List Byte) (n : Nat) (ts : List Token) (h : nexts n (Lexer.new input) = ts.map .ok)
    (w rest : List Byte) (hi : input = textOf ts ++ w ++ rest) :
    (w ≠ [] → (∀ b ∈ w, b ∈ spaces) → (∀ b, rest.head? = some b → b ∉ spaces) →
      ∃ t : Token, nexts (n + 1) (Lexer.new input) = (ts ++ [t]).map .ok ∧ t.capture = w ∧ t.type = .whitespace) ∧
    (w = txt "(" → rest.head? ≠ some (ch ';') →
      ∃ t : Token, nexts (n + 1) (Lexer.new input) = (ts ++ [t]).map .ok ∧ t.capture = w ∧ t.type = .openParen) ∧
    (w = txt ")" →
      ∃ t : Token, nexts (n + 1) (Lexer.new input) = (ts ++ [t]).map .ok ∧ t.capture = w ∧ t.type = .closeParen) ∧
    (∀ b, w = [b] → b ∉ starts → nexts (n + 1) (Lexer.new input) = ts.map .ok ++ [.err]) := by
  have go : ∀ ty, ty ≠ .reserved → first (w ++ rest) = some (ty, w.length) →
      ∃ t : Token, nexts (n + 1) (Lexer.new input) = (ts ++ [t]).map .ok ∧ t.capture = w ∧ t.type = ty := by
    intro ty hty hf
    obtain ⟨ty', c1, c2⟩ := token_at input n ts h w rest hi ty hf
    refine ⟨_, c2, rfl, ?_⟩
    obtain ⟨u, hu, -, he2, -⟩ := classify_ok ty w
    rw [c1] at hu
    cases hu
    exact he2 hty
  refine ⟨fun hne hw hr => go _ (by simp) ?_, fun hw hr => go _ (by simp) ?_, fun hw => go _ (by simp) ?_, fun b hw hb => ?_⟩
  · cases w with
    | nil => exact absurd rfl hne
    | cons b w =>
      have hrun : run isSpace (w ++ rest) = w.length :=
        run_stop _ _ _ (fun x hx => (isSpace_iff x).2 (hw x (by simp [hx]))) (fun x hx => by
          rw [Bool.eq_false_iff]
          intro hx2
          exact hr x hx ((isSpace_iff x).1 hx2))
      rw [List.cons_append, first, if_pos ((isSpace_iff b).2 (hw b (by simp))), hrun, List.length_cons, Nat.add_comm]
  · subst hw
    rw [show txt "(" ++ rest = ch '(' :: rest from rfl, first, if_neg (by decide), if_pos rfl, if_neg hr]
    rfl
  · subst hw
    rw [show txt ")" ++ rest = ch ')' :: rest from rfl, first, if_neg (by decide), if_neg (by decide), if_pos rfl]
    rfl
  · subst hw
    have hd : input.drop (textOf ts).length = b :: rest := by rw [hi, List.append_assoc]; simp
    have hf : first (b :: rest) = none := by
      have hx : isSpace b = false ∧ b ≠ ch '(' ∧ b ≠ ch ')' ∧ b ≠ ch '"' ∧ b ≠ ch ';' ∧ isIdChar b = false := by
        have hb' : (b ∉ spaces ∧ b ∉ wordChars) ∧ b ∉ txt "()\";" := by
          simpa only [starts, List.mem_append, not_or] using hb
        have hp : b ≠ ch '(' ∧ b ≠ ch ')' ∧ b ≠ ch '"' ∧ b ≠ ch ';' := by
          have := hb'.2
          clear hd hi go hb hb'
          revert b; decide
        refine ⟨?_, hp.1, hp.2.1, hp.2.2.1, hp.2.2.2, ?_⟩
        · rw [Bool.eq_false_iff]; exact fun h => hb'.1.1 ((isSpace_iff b).1 h)
        · rw [Bool.eq_false_iff]; exact fun h => hb'.1.2 ((isIdChar_iff b).1 h)
      obtain ⟨k0, k1, k2, k3, k4, k5⟩ := hx
      rw [first, if_neg (by simp [k0]), if_neg k1, if_neg k2, if_neg k3, if_neg k4, if_neg (by simp [k5])]
    obtain ⟨h1, h2, h3⟩ := afterNexts_inv n _ (inv_new input) rfl
    obtain ⟨e1, e2⟩ := afterNexts_at n _ (inv_new input) rfl rfl _ h
    have hx := lexNext_at _ h1.le h1.bound
    rw [e2, e1, h2, show (Lexer.new input).offset = 0 from rfl, Nat.zero_add, show (Lexer.new input).input = input from rfl,
      hd, hf] at hx
    obtain ⟨p, -, -, hp⟩ := hx
    rw [nexts_succ, h, nextTok_fresh _ h3, hp]

example : (nextTok (Lexer.new (txt "  (;;)"))).1 = .ok ⟨.whitespace, 0, 0, 0, txt "  "⟩ := by decide
example : (nextTok (Lexer.new (txt "(;;)x"))).1 = .ok ⟨.blockComment, 0, 0, 0, txt "(;;)"⟩ := by decide
example : (nextTok (Lexer.new (txt "0x1p+3 "))).1 = .ok ⟨.float, 0, 0, 0, txt "0x1p+3"⟩ := by decide

example : nexts 3 (Lexer.new (txt "a\t\n,b")) =
    [.ok ⟨.reserved, 0, 0, 0, txt "a"⟩, .ok ⟨.whitespace, 1, 1, 0, txt "\t\n"⟩, .err] ∧ ch ',' ∉ starts := by
  exact ⟨by decide, by decide⟩

end Verif.Wat
