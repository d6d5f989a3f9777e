import Verif.Wit.Chars

/-!
# Properties of the WIT lexer: C43, C52, C53, C54, C73, C74
-/

namespace Verif.Wit

open Spec

variable [Unicode]

/-! ## C52, C73 -/

/-- C52. The answers of any number of calls of `Next` on a new lexer are tokens or errors. The captures of the tokens,
concatenated, begin the input, and are all of it once an end of stream has been returned. Each token begins where the
ones before it end, and only the end of stream can be empty. (An error between two tokens loses no text either: the
bytes passed over are in the capture of the next token.) -/
theorem tokens_tile (input : List Byte) (n : Nat) :
    (∀ r ∈ nexts n (Lexer.new input), r.Returns) ∧
    textOf (tokensOf (nexts n (Lexer.new input))) <+: input ∧
    (∀ (i : Nat) (t : Token), (tokensOf (nexts n (Lexer.new input)))[i]? = some t →
      t.position = (textOf ((tokensOf (nexts n (Lexer.new input))).take i)).length ∧
      (t.type ≠ .endOfStream → t.capture ≠ []) ∧
      (t.type = .endOfStream → textOf ((tokensOf (nexts n (Lexer.new input))).take (i + 1)) = input)) := by
  obtain ⟨h1, h2, h3⟩ := nexts_from n (Lexer.new input) (inv_new input) rfl
  refine ⟨h1, h2, ?_⟩
  intro i t ht
  obtain ⟨a, -, -, b, c⟩ := h3 i t ht
  refine ⟨?_, b, ?_⟩
  · rw [a, show (Lexer.new input).offset = 0 from rfl, Nat.zero_add]
  · intro h; rw [c h]; rfl

/-- C52. After at most as many tokens as the input has bytes there is an end of stream or an error. -/
theorem tokens_end (input : List Byte) :
    ∃ (ts : List Token) (last : Res Token), ts.length ≤ input.length ∧
      nexts (ts.length + 1) (Lexer.new input) = ts.map .ok ++ [last] ∧
      (∀ t ∈ ts, t.type ≠ .endOfStream) ∧ (last = .err ∨ ∃ t, last = .ok t ∧ t.type = .endOfStream) :=
  nexts_end (Lexer.new input) (inv_new input) rfl input.length (Nat.le_refl _)

/-- Tables for the examples: `é` (U+00E9) is a letter, U+00A0 a space. -/
@[instance_reducible] def someTables : Unicode := ⟨(· == 0xE9), fun _ => false, (· == 0xA0)⟩

example : (@nexts someTables 7 (Lexer.new (txt "a-b: " ++ utf8 [0xE9, 0xA0] ++ txt "u8"))) =
    [.ok ⟨.id, 0, 0, 0, txt "a-b"⟩, .ok ⟨.colon, 3, 3, 0, txt ":"⟩, .ok ⟨.whitespace, 4, 4, 0, txt " "⟩,
     .ok ⟨.id, 5, 5, 0, [0xC3#8, 0xA9#8]⟩, .ok ⟨.whitespace, 7, 7, 0, [0xC2#8, 0xA0#8]⟩, .ok ⟨.u8, 9, 9, 0, txt "u8"⟩,
     .ok ⟨.endOfStream, 11, 11, 0, []⟩] := by decide
example : (@nexts someTables 3 (Lexer.new (txt "a\"b"))) =
    [.ok ⟨.id, 0, 0, 0, txt "a"⟩, .err, .ok ⟨.id, 1, 1, 0, txt "\"b"⟩] := by decide

/-- C73. -/
theorem token_place (input : List Byte) (n : Nat) (t : Token) (h : t ∈ tokensOf (nexts n (Lexer.new input))) :
    t.line = (input.take t.position).count (ch '\n') ∧
    t.column = ((input.take t.position).reverse.takeWhile (· != ch '\n')).length := by
  obtain ⟨i, hi, rfl⟩ := List.getElem_of_mem h
  obtain ⟨-, b, c, -⟩ := (nexts_from n (Lexer.new input) (inv_new input) rfl).2.2 i _ (List.getElem?_eq_getElem hi)
  exact ⟨b, c⟩

example : (@nexts someTables 3 (Lexer.new (txt "/*a\nb*/\n\nxy"))) =
    [.ok ⟨.blockComment, 0, 0, 0, txt "/*a\nb*/"⟩, .ok ⟨.whitespace, 7, 3, 1, txt "\n\n"⟩, .ok ⟨.id, 9, 0, 3, txt "xy"⟩] := by
  decide

/-! ## C43 -/

/-- A call on one of several lexers. -/
inductive Call where
  | peek (i : Nat)
  | next (i : Nat)
  | clone (i : Nat)
  deriving DecidableEq

/-- A call on the lexer with that number; a clone is added at the end. There is no answer to a clone or to a call on a
lexer that does not exist. -/
def Call.run (c : Call) (ls : List Lexer) : Option (Res Token) × List Lexer :=
  match c with
  | .peek i => match ls[i]? with
    | some l => (some (peekTok l).1, ls.set i (peekTok l).2)
    | none => (none, ls)
  | .next i => match ls[i]? with
    | some l => (some (nextTok l).1, ls.set i (nextTok l).2)
    | none => (none, ls)
  | .clone i => match ls[i]? with
    | some l => (none, ls ++ [l.clone])
    | none => (none, ls)

/-- The answers of a sequence of calls. -/
def runCalls : List Call → List Lexer → List (Option (Res Token))
  | [], _ => []
  | c :: cs, ls => (c.run ls).1 :: runCalls cs (c.run ls).2

namespace Spec

/-- What a lexer is to its user: a place in a fixed sequence of answers. `Peek` reads it, `Next` also moves on, a clone
has its own. -/
def callAt (seq : Nat → Res Token) (c : Call) (ks : List Nat) : Option (Res Token) × List Nat :=
  match c with
  | .peek i => match ks[i]? with
    | some k => (some (seq k), ks)
    | none => (none, ks)
  | .next i => match ks[i]? with
    | some k => (some (seq k), ks.set i (k + 1))
    | none => (none, ks)
  | .clone i => match ks[i]? with
    | some k => (none, ks ++ [k])
    | none => (none, ks)

/-- The calls with their answers. -/
def callsAt (seq : Nat → Res Token) : List Call → List Nat → List (Call × Option (Res Token))
  | [], _ => []
  | c :: cs, ks => (c, (callAt seq c ks).1) :: callsAt seq cs (callAt seq c ks).2

end Spec

/-- The answers of `Next` alone. -/
def answer (input : List Byte) (k : Nat) : Res Token := (nextTok (afterNexts k (Lexer.new input))).1

/-- The lexer is at place `k`, with or without a peeked token. -/
def At (input : List Byte) (l : Lexer) (k : Nat) : Prop :=
  l = afterNexts k (Lexer.new input) ∨
  ∃ t, answer input k = .ok t ∧ l = { afterNexts (k + 1) (Lexer.new input) with peekToken := some t }

theorem at_fresh (input : List Byte) (k : Nat) : (afterNexts k (Lexer.new input)).peekToken = none :=
  (afterNexts_inv k _ (inv_new input) rfl).2.2

theorem at_next (input : List Byte) (l : Lexer) (k : Nat) (h : At input l k) :
    (nextTok l).1 = answer input k ∧ At input (nextTok l).2 (k + 1) := by
  rcases h with rfl | ⟨t, ht, rfl⟩
  · exact ⟨rfl, .inl (afterNexts_succ k _).symm⟩
  · refine ⟨by simp [nextTok, ht], .inl ?_⟩
    have := at_fresh input (k + 1)
    simp only [nextTok]
    rw [← this]

theorem at_peek (input : List Byte) (l : Lexer) (k : Nat) (h : At input l k) (t : Token) (ht : answer input k = .ok t) :
    (peekTok l).1 = .ok t ∧ At input (peekTok l).2 k := by
  rcases h with rfl | ⟨u, hu, rfl⟩
  · have hn := at_fresh input k
    have ha : (lexNext (afterNexts k (Lexer.new input))).1 = .ok t := by rw [← nextTok_fresh _ hn]; exact ht
    have he : lexNext (afterNexts k (Lexer.new input)) = (.ok t, (lexNext (afterNexts k (Lexer.new input))).2) := by
      rw [← ha]
    have e : peekTok (afterNexts k (Lexer.new input)) =
        (.ok t, { (lexNext (afterNexts k (Lexer.new input))).2 with peekToken := some t }) := by
      unfold peekTok
      rw [hn]
      simp only
      rw [he]
    rw [e]
    refine ⟨rfl, .inr ⟨t, ht, ?_⟩⟩
    rw [afterNexts_succ, nextTok_fresh _ hn]
  · rw [hu] at ht
    cases ht
    exact ⟨rfl, .inr ⟨t, hu, rfl⟩⟩

/-- All lexers are at their places. -/
def AllAt (input : List Byte) (ls : List Lexer) (ks : List Nat) : Prop :=
  ls.length = ks.length ∧ ∀ (i : Nat) (l : Lexer) (k : Nat), ls[i]? = some l → ks[i]? = some k → At input l k

theorem allAt_get (input : List Byte) (ls : List Lexer) (ks : List Nat) (h : AllAt input ls ks) (i : Nat) :
    (∃ l k, ls[i]? = some l ∧ ks[i]? = some k ∧ At input l k) ∨ (ls[i]? = none ∧ ks[i]? = none) := by
  rcases Nat.lt_or_ge i ls.length with hi | hi
  · have hi2 : i < ks.length := h.1 ▸ hi
    exact .inl ⟨_, _, List.getElem?_eq_getElem hi, List.getElem?_eq_getElem hi2,
      h.2 i _ _ (List.getElem?_eq_getElem hi) (List.getElem?_eq_getElem hi2)⟩
  · exact .inr ⟨List.getElem?_eq_none hi, List.getElem?_eq_none (h.1 ▸ hi)⟩

theorem allAt_set (input : List Byte) (ls : List Lexer) (ks : List Nat) (h : AllAt input ls ks) (i : Nat) (l : Lexer) (k : Nat)
    (hl : At input l k) : AllAt input (ls.set i l) (ks.set i k) := by
  refine ⟨by simp [h.1], ?_⟩
  intro j m q hm hq
  rw [List.getElem?_set] at hm hq
  split at hm
  · rename_i hij
    rw [if_pos hij] at hq
    split at hm
    · split at hq
      · cases hm; cases hq; exact hl
      · cases hq
    · cases hm
  · rename_i hij
    rw [if_neg hij] at hq
    exact h.2 j m q hm hq

theorem calls_from (input : List Byte) (cs : List Call) (ls : List Lexer) (ks : List Nat) (h : AllAt input ls ks)
    (hp : ∀ i r, (Call.peek i, some r) ∈ callsAt (answer input) cs ks → ∃ t, r = .ok t) :
    runCalls cs ls = (callsAt (answer input) cs ks).map (·.2) := by
  induction cs generalizing ls ks with
  | nil => rfl
  | cons c cs ih =>
    rw [runCalls, callsAt, List.map_cons]
    have key : (c.run ls).1 = (callAt (answer input) c ks).1 ∧ AllAt input (c.run ls).2 (callAt (answer input) c ks).2 := by
      cases c with
      | peek i =>
        rcases allAt_get input ls ks h i with ⟨l, k, hl, hk, ha⟩ | ⟨hl, hk⟩
        · obtain ⟨t, ht⟩ := hp i (answer input k) (by simp [callsAt, callAt, hk])
          obtain ⟨p1, p2⟩ := at_peek input l k ha t ht
          simp only [Call.run, callAt, hl, hk]
          refine ⟨by rw [p1, ht], ?_⟩
          have := allAt_set input ls ks h i _ k p2
          rwa [show ks.set i k = ks from List.ext_getElem? (fun j => by
            rw [List.getElem?_set]
            split
            · rename_i hij; subst hij
              split
              · exact hk.symm
              · rename_i hn; rw [List.getElem?_eq_none (by omega)]
            · rfl)] at this
        · simp only [Call.run, callAt, hl, hk]
          exact ⟨trivial, h⟩
      | next i =>
        rcases allAt_get input ls ks h i with ⟨l, k, hl, hk, ha⟩ | ⟨hl, hk⟩
        · obtain ⟨p1, p2⟩ := at_next input l k ha
          simp only [Call.run, callAt, hl, hk]
          exact ⟨by rw [p1], allAt_set input ls ks h i _ _ p2⟩
        · simp only [Call.run, callAt, hl, hk]
          exact ⟨trivial, h⟩
      | clone i =>
        rcases allAt_get input ls ks h i with ⟨l, k, hl, hk, ha⟩ | ⟨hl, hk⟩
        · simp only [Call.run, callAt, hl, hk]
          refine ⟨trivial, by simp [h.1], ?_⟩
          intro j m q hm hq
          rw [List.getElem?_append] at hm hq
          rw [← h.1] at hq
          split at hm
          · rename_i hj
            rw [if_pos hj] at hq
            exact h.2 j m q hm hq
          · rename_i hj
            rw [if_neg hj] at hq
            rcases Nat.eq_zero_or_pos (j - ls.length) with hz | hz
            · rw [hz] at hm hq
              cases hm; cases hq
              exact ha
            · rw [List.getElem?_eq_none (by simp only [List.length_singleton]; omega)] at hm
              cases hm
        · simp only [Call.run, callAt, hl, hk]
          exact ⟨trivial, h⟩
    rw [key.1]
    congr 1
    refine ih _ _ key.2 ?_
    intro i r hr
    exact hp i r (by rw [callsAt]; exact List.mem_cons_of_mem _ hr)

/-- C43, for texts or calls where no `Peek` meets an error. Whatever calls of `Peek`, `Next` and `Clone` are made on a
lexer and on its clones, in any order, each lexer answers from its own place in the one sequence of answers of `Next`.
Missing: `Peek` where `Next` would return an error, which panics instead (`peek_panics`). -/
theorem peek_clone_partial (input : List Byte) (cs : List Call)
    (hp : ∀ i r, (Call.peek i, some r) ∈ callsAt (answer input) cs [0] → ∃ t, r = .ok t) :
    runCalls cs [Lexer.new input] = (callsAt (answer input) cs [0]).map (·.2) := by
  refine calls_from input cs _ _ ⟨rfl, ?_⟩ hp
  intro i l k hl hk
  cases i with
  | zero => cases hl; cases hk; exact .inl rfl
  | succ i => simp at hl

/-- What the sequence of answers is. -/
theorem answer_nexts (input : List Byte) (n k : Nat) (h : k < n) : (nexts n (Lexer.new input))[k]? = some (answer input k) :=
  nexts_getElem? n _ k h

omit [Unicode] in
/-- C43 fails at an error: `Peek` panics, and what `Next` returns after it is not what it would have returned. -/
theorem peek_panics : letI := someTables
    runCalls [.peek 0, .next 0] [Lexer.new (txt "\"a b")] ≠
      (callsAt (answer (txt "\"a b")) [.peek 0, .next 0] [0]).map (·.2) ∧
    runCalls [.peek 0, .next 0] [Lexer.new (txt "\"a b")] = [some .panic, some (.ok ⟨.id, 0, 0, 0, txt "\"a"⟩)] ∧
    runCalls [.next 0] [Lexer.new (txt "\"a b")] = [some .err] := by decide

example : letI := someTables
    ∀ i r, (Call.peek i, some r) ∈ callsAt (answer (txt "a: b"))
      [.peek 0, .clone 0, .next 0, .next 0, .peek 1, .next 1, .clone 1, .peek 2] [0] → ∃ t, r = .ok t := by
  letI := someTables
  intro i r h
  have e : callsAt (answer (txt "a: b")) [.peek 0, .clone 0, .next 0, .next 0, .peek 1, .next 1, .clone 1, .peek 2] [0] =
      [(.peek 0, some (.ok ⟨.id, 0, 0, 0, txt "a"⟩)), (.clone 0, none),
       (.next 0, some (.ok ⟨.id, 0, 0, 0, txt "a"⟩)), (.next 0, some (.ok ⟨.colon, 1, 1, 0, txt ":"⟩)),
       (.peek 1, some (.ok ⟨.id, 0, 0, 0, txt "a"⟩)), (.next 1, some (.ok ⟨.id, 0, 0, 0, txt "a"⟩)),
       (.clone 1, none), (.peek 2, some (.ok ⟨.colon, 1, 1, 0, txt ":"⟩))] := by decide
  rw [e] at h
  simp only [List.mem_cons, Prod.mk.injEq, Call.peek.injEq, Option.some.injEq, reduceCtorEq, false_and, false_or, List.not_mem_nil,
    or_false, and_false] at h
  rcases h with h | h | h <;> exact ⟨_, h.2⟩

/-! ## Single tokens -/

/-- The token at a place of the text from what the text is there. -/
theorem token_at (input : List Byte) (n : Nat) (ts : List Token) (h : nexts n (Lexer.new input) = ts.map .ok)
    (c rest : List Byte) (hi : input = textOf ts ++ c ++ rest) (ty : TokenType) (hf : first (c ++ rest) = some (ty, c.length)) :
    ∃ t : Token, nexts (n + 1) (Lexer.new input) = (ts ++ [t]).map .ok ∧ t.type = classify ty c ∧ t.capture = c := by
  have hd : input.drop (textOf ts).length = c ++ rest := by rw [hi, List.append_assoc]; simp
  have c2 := next_at input n ts h ty c.length (by rw [hd]; exact hf)
  rw [hd, List.take_left] at c2
  refine ⟨⟨classify ty c, (textOf ts).length, column (textOf ts), line (textOf ts), c⟩, ?_, rfl, rfl⟩
  rw [nexts_succ, h, c2, List.map_append]
  rfl

theorem first_cons (b : Byte) (w : List Byte) : first (b :: w) =
    (let r := (decode (b :: w)).1
    let k := (decode (b :: w)).2
    let v := (b :: w).drop k
    if isSpace r then some (.whitespace, k + run isSpace v)
    else if r = rn '/' then
      if v.head? = some (ch '/') then some (.lineComment, 2 + (v.tail.takeWhile (· != ch '\n')).length)
      else if v.head? = some (ch '*') then (closing 1 v.tail).map fun n => (.blockComment, 2 + n)
      else some (.slash, 1)
    else match single r with
    | some ty => some (ty, 1)
    | none =>
      if r = rn '-' then
        if v.head? = some (ch '>') then some (.rightArrow, 2) else some (.minus, 1)
      else if r = rn '%' then
        if v ≠ [] ∧ isKeyLikeStart (decode v).1 then
          some (.explicitId, 1 + ((decode v).2 + run isKeyLikeContinue (v.drop (decode v).2)))
        else some (.explicitId, 1)
      else if isKeyLikeStart r then some (.id, k + run isKeyLikeContinue v)
      else if isDigit r then some (.integer, k + run isDigit v)
      else none) := by
  rw [first, if_neg (by simp)]
  rfl

theorem first_slash (w : List Byte) : first (ch '/' :: w) =
    if w.head? = some (ch '/') then some (.lineComment, 2 + (w.tail.takeWhile (· != ch '\n')).length)
    else if w.head? = some (ch '*') then (closing 1 w.tail).map fun n => (.blockComment, 2 + n)
    else some (.slash, 1) := by
  rw [first_cons, decode_char '/' (by decide)]
  simp only [List.drop_succ_cons, List.drop_zero]
  rw [if_neg (by rw [show isSpace (rn '/') = false from rfl]; decide), if_pos trivial]

/-! ## C53 -/

/-- C53. Wherever a block comment begins in a text lexed so far without an error, `Next` returns the whole of it, with
the comments nested in it, as one token. -/
theorem comments_nest (input : List Byte) (n : Nat) (ts : List Token) (h : nexts n (Lexer.new input) = ts.map .ok)
    (c rest : List Byte) (hc : Comment c) (hi : input = textOf ts ++ c ++ rest) :
    ∃ t : Token, nexts (n + 1) (Lexer.new input) = (ts ++ [t]).map .ok ∧ t.type = .blockComment ∧ t.capture = c := by
  obtain ⟨body, hb, rfl⟩ := hc
  refine token_at input n ts h _ rest hi .blockComment ?_
  have e : txt "/*" ++ body ++ txt "*/" ++ rest = ch '/' :: ch '*' :: (body ++ (txt "*/" ++ rest)) := by
    rw [show txt "/*" = [ch '/', ch '*'] from rfl]; simp
  rw [e, first_slash, if_neg (by simp; decide), if_pos (by simp)]
  simp only [List.tail_cons]
  rw [closing_body body hb, closing]
  simp only [Option.map_some, List.length_append, show (txt "/*").length = 2 from rfl, show (txt "*/").length = 2 from rfl]
  congr 2
  omega

/-- C53. A text that begins with a comment marker but with no comment is an error. -/
theorem unbalanced_comment_refused (input : List Byte) (n : Nat) (ts : List Token)
    (h : nexts n (Lexer.new input) = ts.map .ok) (w : List Byte) (hi : input = textOf ts ++ (txt "/*" ++ w))
    (hc : ∀ c, Comment c → ¬ c <+: txt "/*" ++ w) : (nextTok (afterNexts n (Lexer.new input))).1 = .err := by
  have hd : input.drop (textOf ts).length = txt "/*" ++ w := by rw [hi]; simp
  apply next_err input n ts h
  rw [hd, show txt "/*" ++ w = ch '/' :: ch '*' :: w from rfl, first_slash, if_neg (by simp; decide), if_pos (by simp)]
  simp only [List.tail_cons]
  cases hcl : closing 1 w with
  | none => rfl
  | some m =>
    refine absurd ?_ (hc _ (closing_comment w m hcl))
    rw [List.prefix_append_right_inj]
    exact List.take_prefix m w

example : Comment (txt "/*" ++ (txt "a* " ++ (txt "/*" ++ txt "b*" ++ txt "*/") ++ txt "//d") ++ txt "*/") :=
  ⟨_, .nested (txt "a* ") (txt "b*") (txt "//d") (by decide) (.plain _ (by decide)) (.plain _ (by decide)), rfl⟩
example : (@nexts someTables 2 (Lexer.new (txt "a /* /* */"))) = [.ok ⟨.id, 0, 0, 0, txt "a"⟩, .ok ⟨.whitespace, 1, 1, 0, txt " "⟩] ∧
    (@nexts someTables 3 (Lexer.new (txt "a /* /* */")))[2]? = some .err := by decide +kernel

/-! ## C54 -/

namespace Spec

/-- The keywords of WIT, as spelled. -/
def keyword : TokenType → Option (List Byte)
  | .use => txt "use" | .type => txt "type" | .func => txt "func" | .u8 => txt "u8" | .u16 => txt "u16" | .u32 => txt "u32"
  | .u64 => txt "u64" | .s8 => txt "s8" | .s16 => txt "s16" | .s32 => txt "s32" | .s64 => txt "s64"
  | .float32 => txt "float32" | .float64 => txt "float64" | .char => txt "char" | .resource => txt "resource"
  | .own => txt "own" | .borrow => txt "borrow" | .record => txt "record" | .flags => txt "flags" | .variant => txt "variant"
  | .enum => txt "enum" | .union => txt "union" | .bool => txt "bool" | .string => txt "string" | .option => txt "option"
  | .result => txt "result" | .future => txt "future" | .stream => txt "stream" | .list => txt "list"
  | .underscore => txt "_" | .as => txt "as" | .from => txt "from" | .static => txt "static" | .interface => txt "interface"
  | .tuple => txt "tuple" | .world => txt "world" | .import => txt "import" | .export => txt "export"
  | .package => txt "package" | .constructor => txt "constructor" | .include => txt "include" | .with => txt "with"
  | _ => none

/-- The operators of WIT, as spelled. -/
def operator : TokenType → Option (List Byte)
  | .equal => txt "=" | .comma => txt "," | .colon => txt ":" | .period => txt "." | .semicolon => txt ";"
  | .openParen => txt "(" | .closeParen => txt ")" | .openBrace => txt "{" | .closeBrace => txt "}" | .less => txt "<"
  | .greater => txt ">" | .star => txt "*" | .at => txt "@" | .plus => txt "+" | .minus => txt "-" | .rightArrow => txt "->"
  | .slash => txt "/"
  | _ => none

/-- The type a word should have: that of the keyword it spells, or else an identifier. -/
def IsWordType (c : List Byte) (ty : TokenType) : Prop :=
  keyword ty = some c ∨ (ty = .id ∧ ∀ ty', keyword ty' ≠ some c)

/-- White space: space, tab, newline, vertical tab, form feed, carriage return, and what Unicode adds beyond ASCII. -/
def white (r : Nat) : Bool := decide (r ∈ [32, 9, 10, 11, 12, 13]) || (decide (128 ≤ r) && Unicode.space r)

/-- Letters: those of ASCII, and what Unicode adds. -/
def letter (r : Nat) : Bool :=
  decide (r ∈ "abcdefghijklmnopqrstuvwxyzABCDEFGHIJKLMNOPQRSTUVWXYZ".toList.map Char.toNat) || (decide (128 ≤ r) && Unicode.letter r)

/-- Digits: those of ASCII, and what Unicode adds. -/
def digit (r : Nat) : Bool := decide (r ∈ "0123456789".toList.map Char.toNat) || (decide (128 ≤ r) && Unicode.digit r)

/-- A word: letters, digits and hyphens, beginning with a letter or underscore. (The last condition only excludes tables
that have a character both as letter and as space.) -/
def Word (rs : List Nat) : Prop :=
  ∃ r tl, rs = r :: tl ∧ (∀ r ∈ rs, Scalar r) ∧ (letter r = true ∨ r = rn '_') ∧
    (∀ r ∈ tl, letter r = true ∨ digit r = true ∨ r = rn '-') ∧ white r = false

/-- A text in which no word goes on. -/
def WordEnds (rest : List Byte) : Prop :=
  ∀ r, Begins rest r → letter r = false ∧ digit r = false ∧ r ≠ rn '-'

end Spec

theorem below_128 {f g : Nat → Bool} (h : ∀ r < 128, f r = g r) (h' : ∀ r, 128 ≤ r → f r = g r) : f = g :=
  funext fun r => if hr : r < 128 then h r hr else h' r (by omega)

theorem white_eq : white = isSpace := by
  refine below_128 (fun r hr => ?_) fun r hr => ?_
  · have key : ∀ r < 128, decide (r ∈ [32, 9, 10, 11, 12, 13]) = (r = 32 || (9 ≤ r && r ≤ 13)) := by decide
    rw [white, isSpace, if_pos hr, key r hr, decide_eq_false (p := 128 ≤ r) (by omega)]
    simp
  · rw [white, isSpace, if_neg (by omega), decide_eq_true hr, decide_eq_false (p := r ∈ [32, 9, 10, 11, 12, 13]) (by simp; omega)]
    simp

theorem letter_eq : letter = isLetter := by
  have big : ∀ r ∈ "abcdefghijklmnopqrstuvwxyzABCDEFGHIJKLMNOPQRSTUVWXYZ".toList.map Char.toNat, r < 128 := by decide
  refine below_128 (fun r hr => ?_) fun r hr => ?_
  · have key : ∀ r < 128, decide (r ∈ "abcdefghijklmnopqrstuvwxyzABCDEFGHIJKLMNOPQRSTUVWXYZ".toList.map Char.toNat) =
        ((65 ≤ r && r ≤ 90) || (97 ≤ r && r ≤ 122)) := by decide +kernel
    rw [letter, isLetter, if_pos hr, key r hr, decide_eq_false (p := 128 ≤ r) (by omega)]
    simp
  · rw [letter, isLetter, if_neg (by omega), decide_eq_true (p := 128 ≤ r) hr,
      decide_eq_false (fun h => absurd (big r h) (by omega))]
    simp

theorem digit_eq : digit = isDigit := by
  have big : ∀ r ∈ "0123456789".toList.map Char.toNat, r < 128 := by decide
  refine below_128 (fun r hr => ?_) fun r hr => ?_
  · have key : ∀ r < 128, decide (r ∈ "0123456789".toList.map Char.toNat) = (48 ≤ r && r ≤ 57) := by decide +kernel
    rw [digit, isDigit, if_pos hr, key r hr, decide_eq_false (p := 128 ≤ r) (by omega)]
    simp
  · rw [digit, isDigit, if_neg (by omega), decide_eq_true (p := 128 ≤ r) hr,
      decide_eq_false (fun h => absurd (big r h) (by omega))]
    simp

omit [Unicode] in
theorem keyword_table : ∀ ty c, keyword ty = some c ↔ (c, ty) ∈ keywordMap := by
  intro ty c
  constructor
  · intro h
    cases ty <;> first | (cases h; done) | (injection h with h; subst h; decide)
  · intro h
    have key : ∀ k ∈ keywordMap, keyword k.2 = some k.1 := by decide
    exact key (c, ty) h

omit [Unicode] in
theorem wordType_spec (c : List Byte) : IsWordType c (wordType c) := by
  unfold wordType IsWordType
  cases h : keywordMap.find? (·.1 == c) with
  | none =>
    refine .inr ⟨rfl, ?_⟩
    intro ty' hk
    rw [keyword_table] at hk
    have := List.find?_eq_none.1 h _ hk
    simp at this
  | some k =>
    left
    have h1 := List.mem_of_find?_eq_some h
    have h2 := List.find?_some h
    simp only [beq_iff_eq] at h2
    subst h2
    simp only [Option.map_some, Option.getD_some]
    exact (keyword_table _ _).2 h1

/-- Characters that begin no word, other than those of Latin letters and underscore. -/
theorem letter_other (r : Nat) (h : isLetter r = true ∨ r = rn '_') :
    r ≠ rn '/' ∧ single r = none ∧ r ≠ rn '-' ∧ r ≠ rn '%' := by
  by_cases hr : r < 128
  · have key : ∀ r < 128, ((65 ≤ r && r ≤ 90) || (97 ≤ r && r ≤ 122)) = true ∨ r = rn '_' →
        r ≠ rn '/' ∧ single r = none ∧ r ≠ rn '-' ∧ r ≠ rn '%' := by decide
    unfold isLetter at h
    rw [if_pos hr] at h
    exact key r hr h
  · have h1 : ∀ c : Char, c.toNat < 128 → r ≠ rn c := by
      intro c hc he
      unfold rn at he
      omega
    refine ⟨h1 _ (by decide), ?_, h1 _ (by decide), h1 _ (by decide)⟩
    cases hsi : single r with
    | none => rfl
    | some ty =>
      have := single_some _ _ hsi
      have key : ∀ k ∈ singles, k.1 < 128 := by decide
      exact absurd (key _ this) hr


theorem start_iff (r : Nat) : isKeyLikeStart r = true ↔ isLetter r = true ∨ r = rn '_' ∨ r = rn '-' := by
  simp [isKeyLikeStart, or_assoc]

theorem continue_iff (r : Nat) : isKeyLikeContinue r = true ↔ isLetter r = true ∨ isDigit r = true ∨ r = rn '-' := by
  simp [isKeyLikeContinue, or_assoc]

theorem wordEnds_iff (rest : List Byte) :
    WordEnds rest ↔ rest = [] ∨ (isLetter (decode rest).1 = false ∧ isDigit (decode rest).1 = false ∧ (decode rest).1 ≠ rn '-') := by
  rw [WordEnds, letter_eq, digit_eq]
  constructor
  · intro h
    by_cases he : rest = []
    · exact .inl he
    · exact .inr (h _ ((begins_iff _ _).2 ⟨he, rfl⟩))
  · intro h r hr
    obtain ⟨he, rfl⟩ := (begins_iff _ _).1 hr
    exact h.resolve_left he

theorem ends_run (rest : List Byte) (h : WordEnds rest) : rest = [] ∨ isKeyLikeContinue (decode rest).1 = false := by
  rcases (wordEnds_iff rest).1 h with h | ⟨h1, h2, h3⟩
  · exact .inl h
  · right
    rw [Bool.eq_false_iff, ne_eq, continue_iff, h1, h2]
    simp [h3]

omit [Unicode] in
theorem utf8_cons (r : Nat) (tl : List Nat) : utf8 (r :: tl) = encode r ++ utf8 tl := by simp [utf8]

theorem first_word (rs : List Nat) (hw : Word rs) (rest : List Byte) (hr : WordEnds rest) :
    first (utf8 rs ++ rest) = some (.id, (utf8 rs).length) := by
  rw [Word, letter_eq, digit_eq, white_eq] at hw
  obtain ⟨r, tl, rfl, hs, hl, hc, hsp⟩ := hw
  obtain ⟨n1, n2, n3, n4⟩ := letter_other r hl
  have hd := decode_encode r (hs r (by simp)) (utf8 tl ++ rest)
  rw [utf8_cons, List.append_assoc]
  unfold first
  rw [if_neg (by simp [encode_ne]), hd]
  simp only [List.drop_left]
  rw [if_neg (by simp [hsp]), if_neg n1, n2]
  simp only
  rw [if_neg n3, if_neg n4, if_pos ((start_iff r).2 (by rcases hl with h | h <;> simp [h])),
    run_utf8 _ tl rest (fun x hx => hs x (by simp [hx])) (fun x hx => (continue_iff x).2 (hc x hx)) (ends_run rest hr),
    List.length_append]

/-- C54. Wherever a word stands in a text lexed so far without an error, `Next` returns it as one token, of the type of
the keyword it spells, and as an identifier if it spells none. -/
theorem word_token (input : List Byte) (n : Nat) (ts : List Token) (h : nexts n (Lexer.new input) = ts.map .ok)
    (rs : List Nat) (hw : Word rs) (rest : List Byte) (hr : WordEnds rest) (hi : input = textOf ts ++ utf8 rs ++ rest) :
    ∃ t : Token, nexts (n + 1) (Lexer.new input) = (ts ++ [t]).map .ok ∧ t.capture = utf8 rs ∧ IsWordType (utf8 rs) t.type := by
  obtain ⟨t, h1, h2, h3⟩ := token_at input n ts h _ rest hi .id (first_word rs hw rest hr)
  refine ⟨t, h1, h3, ?_⟩
  rw [h2]
  exact wordType_spec _

/-- C54. With a percent sign before it a word is an explicit identifier, also if it spells a keyword. -/
theorem explicit_token (input : List Byte) (n : Nat) (ts : List Token) (h : nexts n (Lexer.new input) = ts.map .ok)
    (rs : List Nat) (hw : Word rs) (rest : List Byte) (hr : WordEnds rest)
    (hi : input = textOf ts ++ (txt "%" ++ utf8 rs) ++ rest) :
    ∃ t : Token, nexts (n + 1) (Lexer.new input) = (ts ++ [t]).map .ok ∧ t.capture = txt "%" ++ utf8 rs ∧
      t.type = .explicitId := by
  obtain ⟨t, h1, h2, h3⟩ := token_at input n ts h _ rest hi .explicitId (by
    rw [Word, letter_eq, digit_eq, white_eq] at hw
    obtain ⟨r, tl, rfl, hs, hl, hc, hsp⟩ := hw
    have hd := decode_encode r (hs r (by simp)) (utf8 tl ++ rest)
    rw [show txt "%" ++ utf8 (r :: tl) ++ rest = ch '%' :: (utf8 (r :: tl) ++ rest) from rfl, first_cons,
      decode_char '%' (by decide), utf8_cons, List.append_assoc]
    simp only [List.drop_succ_cons, List.drop_zero]
    rw [if_neg (by rw [show isSpace (rn '%') = false from rfl]; decide), if_neg (by decide),
      show single (rn '%') = none from by decide]
    simp only
    rw [if_neg (by decide), if_pos trivial, hd,
      if_pos ⟨by simp [encode_ne], (start_iff r).2 (by rcases hl with h | h <;> simp [h])⟩]
    simp only [List.drop_left]
    rw [run_utf8 _ tl rest (fun x hx => hs x (by simp [hx])) (fun x hx => (continue_iff x).2 (hc x hx)) (ends_run rest hr)]
    simp only [List.length_append, show (txt "%").length = 1 from rfl])
  exact ⟨t, h1, h3, h2⟩

/-- C54. `->` is one token, and a hyphen before anything else another. -/
theorem arrow_token (input : List Byte) (n : Nat) (ts : List Token) (h : nexts n (Lexer.new input) = ts.map .ok)
    (rest : List Byte) (hi : input = textOf ts ++ txt "-" ++ rest) :
    ∃ t : Token, nexts (n + 1) (Lexer.new input) = (ts ++ [t]).map .ok ∧
      (txt ">" <+: rest → t.type = .rightArrow ∧ t.capture = txt "->") ∧
      (¬ txt ">" <+: rest → t.type = .minus ∧ t.capture = txt "-") := by
  have hf : ∀ w, first (ch '-' :: w) = if w.head? = some (ch '>') then some (.rightArrow, 2) else some (.minus, 1) := by
    intro w
    rw [first_cons, decode_char '-' (by decide)]
    simp only [List.drop_succ_cons, List.drop_zero]
    rw [if_neg (by rw [show isSpace (rn '-') = false from rfl]; decide), if_neg (by decide),
      show single (rn '-') = none from by decide]
    simp only
    rw [if_pos trivial]
  by_cases hg : txt ">" <+: rest
  · obtain ⟨v, rfl⟩ := hg
    obtain ⟨t, h1, h2, h3⟩ := token_at input n ts h (txt "->") v (by
      rw [hi, show txt "->" = txt "-" ++ txt ">" from rfl]; simp) .rightArrow (by
      rw [show txt "->" ++ v = ch '-' :: ch '>' :: v from rfl, hf, if_pos (by simp)]
      rfl)
    exact ⟨t, h1, fun _ => ⟨h2, h3⟩, fun hn => absurd (List.prefix_append _ _) hn⟩
  · obtain ⟨t, h1, h2, h3⟩ := token_at input n ts h (txt "-") rest hi .minus (by
      rw [show txt "-" ++ rest = ch '-' :: rest from rfl, hf, if_neg]
      · rfl
      · intro hh
        apply hg
        cases rest with
        | nil => simp at hh
        | cons x v =>
          simp only [List.head?_cons, Option.some.injEq] at hh
          subst hh
          exact ⟨v, rfl⟩)
    exact ⟨t, h1, fun hn => absurd hn hg, fun _ => ⟨h2, h3⟩⟩

/-- C54. Wherever another operator stands, `Next` returns it as a token of its own type. -/
theorem operator_token (input : List Byte) (n : Nat) (ts : List Token) (h : nexts n (Lexer.new input) = ts.map .ok)
    (ty : TokenType) (c rest : List Byte) (ho : operator ty = some c) (hi : input = textOf ts ++ c ++ rest)
    (hs : c = txt "/" → ¬ txt "/" <+: rest ∧ ¬ txt "*" <+: rest) (hm : c = txt "-" → ¬ txt ">" <+: rest) :
    ∃ t : Token, nexts (n + 1) (Lexer.new input) = (ts ++ [t]).map .ok ∧ t.type = ty ∧ t.capture = c := by
  by_cases h1 : ty = .minus
  · subst h1
    cases ho
    obtain ⟨t, k1, -, k2⟩ := arrow_token input n ts h rest hi
    exact ⟨t, k1, k2 (hm rfl)⟩
  by_cases h2 : ty = .rightArrow
  · subst h2
    cases ho
    obtain ⟨t, k1, k2, -⟩ := arrow_token input n ts h (txt ">" ++ rest) (by
      rw [hi, show txt "->" = txt "-" ++ txt ">" from rfl]; simp)
    exact ⟨t, k1, k2 (List.prefix_append _ _)⟩
  by_cases h3 : ty = .slash
  · subst h3
    cases ho
    obtain ⟨t, k1, k2, k3⟩ := token_at input n ts h (txt "/") rest hi .slash (by
      have key : ∀ x : Char, rest.head? = some (ch x) → [ch x] <+: rest := by
        intro x hx
        cases rest with
        | nil => simp at hx
        | cons y v =>
          simp only [List.head?_cons, Option.some.injEq] at hx
          subst hx
          exact ⟨v, rfl⟩
      rw [show txt "/" ++ rest = ch '/' :: rest from rfl, first_slash, if_neg (fun hh => (hs rfl).1 (key '/' hh)),
        if_neg (fun hh => (hs rfl).2 (key '*' hh))]
      rfl)
    exact ⟨t, k1, k2, k3⟩
  · obtain ⟨x, hx, rfl, hsi⟩ : ∃ x : Char, x.toNat < 128 ∧ c = [ch x] ∧ single (rn x) = some ty ∧ isSpace (rn x) = false ∧
        rn x ≠ rn '/' := by
      cases ty <;> first
        | (exfalso; cases ho; done)
        | (exfalso; exact h1 rfl)
        | (exfalso; exact h2 rfl)
        | (exfalso; exact h3 rfl)
        | (cases ho; exact ⟨_, by decide, rfl, by decide, rfl, by decide⟩)
    obtain ⟨t, k1, k2, k3⟩ := token_at input n ts h [ch x] rest hi ty (by
      rw [List.singleton_append, first_cons, decode_char x hx]
      simp only
      rw [hsi.1, if_neg (by simp [hsi.2.1]), if_neg hsi.2.2]
      rfl)
    refine ⟨t, k1, ?_, k3⟩
    rw [k2, classify, if_neg]
    rintro rfl
    cases ho

/-- How the tokens other than words are spelled. -/
theorem first_spelling (w : List Byte) (ty : TokenType) (k : Nat) (h : first w = some (ty, k)) (hid : ty ≠ .id) :
    keyword ty = none ∧ (ty = .explicitId → txt "%" <+: w.take k) ∧ (∀ c, operator ty = some c → w.take k = c) ∧
    (ty = .blockComment → Comment (w.take k)) ∧
    (ty = .lineComment → txt "//" <+: w.take k ∧ ch '\n' ∉ w.take k) ∧
    (ty = .whitespace → ∀ r ∈ chars (w.take k), isSpace r = true) ∧
    (ty = .integer → ∀ r ∈ chars (w.take k), isDigit r = true) := by
  cases w with
  | nil =>
    rw [first, if_pos rfl] at h
    cases h
    simp [keyword, operator]
  | cons b w =>
    rw [first_cons] at h
    simp only at h
    have ascii : ∀ c : Char, c.toNat < 128 → (decode (b :: w)).1 = rn c → b = ch c ∧ (b :: w).drop (decode (b :: w)).2 = w := by
      intro c hc hd
      have := (decode_is c hc b w).1 hd
      subst this
      rw [decode_char c hc]
      exact ⟨rfl, rfl⟩
    have many : ∀ f, f (decode (b :: w)).1 = true →
        ∀ r ∈ chars ((b :: w).take ((decode (b :: w)).2 + run f ((b :: w).drop (decode (b :: w)).2))), f r = true := by
      intro f hf r hr
      rw [chars_take _ _ (by simp)] at hr
      rcases List.mem_cons.1 hr with rfl | hr
      · exact hf
      · exact (run_chars f _).1 r hr
    split at h
    · rename_i hs
      cases h
      simp only [keyword, operator, reduceCtorEq, false_implies, implies_true, true_and, and_true, forall_const]
      exact many _ hs
    split at h
    · rename_i hd
      obtain ⟨rfl, hv⟩ := ascii '/' (by decide) hd
      rw [hv] at h
      split at h
      · rename_i hh
        cases w with
        | nil => simp at hh
        | cons c w =>
          simp only [List.head?_cons, Option.some.injEq] at hh
          subst hh
          cases h
          simp only [keyword, operator, reduceCtorEq, false_implies, implies_true, true_and, and_true, forall_const,
            List.tail_cons]
          rw [Nat.add_comm, List.take_succ_cons, List.take_succ_cons,
            ← List.prefix_iff_eq_take.1 (List.takeWhile_prefix (· != ch '\n') (l := w))]
          refine ⟨⟨_, rfl⟩, ?_⟩
          have hne : ch '\n' ≠ ch '/' := by decide
          simp only [List.mem_cons, hne, false_or]
          intro hx
          have := List.all_takeWhile (p := (· != ch '\n')) (l := w)
          rw [List.all_eq_true] at this
          have := this _ hx
          simp at this
      split at h
      · rename_i hh
        rw [Option.map_eq_some_iff] at h
        obtain ⟨m, hm, he⟩ := h
        cases w with
        | nil => simp at hh
        | cons c w =>
          simp only [List.head?_cons, Option.some.injEq] at hh
          subst hh
          cases he
          simp only [keyword, operator, reduceCtorEq, false_implies, implies_true, true_and, and_true, forall_const]
          have := closing_comment _ _ hm
          rw [Nat.add_comm, List.take_succ_cons, List.take_succ_cons]
          exact this
      · cases h
        simp only [keyword, operator, reduceCtorEq, false_implies, true_and, and_true, Option.some.injEq]
        rintro c rfl
        rfl
    split at h
    · rename_i ty' hs
      cases h
      have hm := single_some _ _ hs
      have key : ∀ k ∈ singles, ∃ c : Char, c.toNat < 128 ∧ k.1 = rn c ∧ operator k.2 = some [ch c] ∧ keyword k.2 = none := by
        intro k hk
        simp only [singles, List.mem_cons, List.not_mem_nil, or_false] at hk
        rcases hk with rfl | rfl | rfl | rfl | rfl | rfl | rfl | rfl | rfl | rfl | rfl | rfl | rfl | rfl <;>
          exact ⟨_, by decide, rfl, rfl, rfl⟩
      obtain ⟨c, hc, hr, ho, hk⟩ := key _ hm
      obtain ⟨rfl, -⟩ := ascii c hc hr
      have hn := singles_kinds _ hm
      simp only [ne_eq] at hn
      simp only [hn, false_implies, true_and, and_true]
      refine ⟨hk, ?_⟩
      intro c' hc'
      rw [ho] at hc'
      cases hc'
      rfl
    split at h
    · rename_i hm
      obtain ⟨rfl, hv⟩ := ascii '-' (by decide) hm
      rw [hv] at h
      split at h
      · rename_i hh
        cases w with
        | nil => simp at hh
        | cons c w =>
          simp only [List.head?_cons, Option.some.injEq] at hh
          subst hh
          cases h
          simp only [keyword, operator, reduceCtorEq, false_implies, true_and, and_true, Option.some.injEq]
          rintro c rfl
          rfl
      · cases h
        simp only [keyword, operator, reduceCtorEq, false_implies, true_and, and_true, Option.some.injEq]
        rintro c rfl
        rfl
    split at h
    · rename_i hm
      obtain ⟨rfl, hv⟩ := ascii '%' (by decide) hm
      rw [hv] at h
      have fin : ∀ m, txt "%" <+: (ch '%' :: w).take (1 + m) := by
        intro m
        rw [Nat.add_comm, List.take_succ_cons]
        exact ⟨_, rfl⟩
      split at h
      · cases h
        simp only [keyword, operator, reduceCtorEq, false_implies, implies_true, true_and, and_true, forall_const]
        exact fin _
      · cases h
        simp only [keyword, operator, reduceCtorEq, false_implies, implies_true, true_and, and_true, forall_const]
        exact fin 0
    split at h
    · cases h
      exact absurd rfl hid
    split at h
    · rename_i hs
      cases h
      simp only [keyword, operator, reduceCtorEq, false_implies, implies_true, true_and, forall_const]
      exact many _ hs
    · cases h

/-- C54, the other direction. In a text lexed without an error every token of a keyword's type spells that keyword, no
identifier spells a keyword, every explicit identifier begins with a percent sign, and every token of an operator's type
is that operator. -/
theorem token_spelling (input : List Byte) (n : Nat) (ts : List Token) (h : nexts n (Lexer.new input) = ts.map .ok)
    (t : Token) (ht : t ∈ ts) :
    (∀ c, keyword t.type = some c → t.capture = c) ∧ (t.type = .id → ∀ ty, keyword ty ≠ some t.capture) ∧
    (t.type = .explicitId → txt "%" <+: t.capture) ∧ (∀ c, operator t.type = some c → t.capture = c) ∧
    (t.type = .blockComment → Comment t.capture) ∧
    (t.type = .lineComment → txt "//" <+: t.capture ∧ ch '\n' ∉ t.capture) ∧
    (t.type = .whitespace → ∃ rs, Chars t.capture rs ∧ ∀ r ∈ rs, white r = true) ∧
    (t.type = .integer → ∃ rs, Chars t.capture rs ∧ ∀ r ∈ rs, digit r = true) := by
  rw [white_eq, digit_eq]
  obtain ⟨ty, k, hf, hc, hty⟩ := token_first input n ts h t ht
  by_cases hid : ty = .id
  · subst hid
    rw [hty, classify, if_pos rfl]
    have hn := wordType_cases t.capture
    rcases wordType_spec t.capture with hk | ⟨h1, h2⟩
    · have hm := (keyword_table _ _).1 hk
      have hn := keyword_kinds _ hm
      simp only [ne_eq] at hn
      simp only [hn, false_implies, true_and, and_true]
      have key : ∀ k ∈ keywordMap, operator k.2 = none := by decide
      refine ⟨fun c hc => ?_, fun c hc => ?_⟩
      · rw [hk] at hc; exact Option.some.inj hc
      · rw [key _ hm] at hc; cases hc
    · rw [h1]
      simp only [keyword, operator, reduceCtorEq, false_implies, implies_true, true_and, and_true, forall_const]
      exact h2
  · rw [classify, if_neg hid] at hty
    rw [hty, hc]
    obtain ⟨h1, h2, h3, h4, h5, h6, h7⟩ := first_spelling _ _ _ hf hid
    refine ⟨?_, fun h => absurd h hid, h2, h3, h4, h5, fun h => ⟨_, chars_spec _, h6 h⟩, fun h => ⟨_, chars_spec _, h7 h⟩⟩
    intro c hc
    rw [h1] at hc
    cases hc

example : (@nexts someTables 12 (Lexer.new (txt "%use use-x use->-_/"))).filterMap (fun | .ok t => some (t.type, t.capture) | _ => none) =
    [(.explicitId, txt "%use"), (.whitespace, txt " "), (.id, txt "use-x"), (.whitespace, txt " "), (.id, txt "use-"),
     (.greater, txt ">"), (.minus, txt "-"), (.underscore, txt "_"), (.slash, txt "/"), (.endOfStream, []), (.endOfStream, []),
     (.endOfStream, [])] := by decide +kernel
example : letI := someTables
    Word [rn 'u', 0xE9, rn '-', rn '8'] ∧ WordEnds (txt "_") ∧ IsWordType (txt "u8") .u8 ∧ IsWordType (txt "u9") .id :=
  ⟨⟨rn 'u', [0xE9, rn '-', rn '8'], rfl, by simp [Scalar, rn], by decide, by decide, by decide⟩, (@wordEnds_iff someTables (txt "_")).2 (.inr (by decide)), .inl rfl,
    .inr ⟨rfl, fun ty => by cases ty <;> decide⟩⟩

/-! ## C74 -/

namespace Spec

/-- A text in which no run of characters that pass the test goes on. -/
def RunEnds (f : Nat → Bool) (rest : List Byte) : Prop := ∀ r, Begins rest r → f r = false

end Spec

omit [Unicode] in
theorem runEnds_iff (f : Nat → Bool) (rest : List Byte) : RunEnds f rest ↔ rest = [] ∨ f (decode rest).1 = false := by
  constructor
  · intro h
    by_cases he : rest = []
    · exact .inl he
    · exact .inr (h _ ((begins_iff _ _).2 ⟨he, rfl⟩))
  · intro h r hr
    obtain ⟨he, rfl⟩ := (begins_iff _ _).1 hr
    exact h.resolve_left he

/-- C74. A run of white space is one token. -/
theorem space_token (input : List Byte) (n : Nat) (ts : List Token) (h : nexts n (Lexer.new input) = ts.map .ok)
    (rs : List Nat) (hne : rs ≠ []) (hs : ∀ r ∈ rs, Scalar r ∧ white r = true) (rest : List Byte) (hr : RunEnds white rest)
    (hi : input = textOf ts ++ utf8 rs ++ rest) :
    ∃ t : Token, nexts (n + 1) (Lexer.new input) = (ts ++ [t]).map .ok ∧ t.type = .whitespace ∧ t.capture = utf8 rs := by
  rw [white_eq] at hs hr
  refine token_at input n ts h _ rest hi .whitespace ?_
  cases rs with
  | nil => exact absurd rfl hne
  | cons r tl =>
    have hd := decode_encode r (hs r (by simp)).1 (utf8 tl ++ rest)
    rw [utf8_cons, List.append_assoc]
    unfold first
    rw [if_neg (by simp [encode_ne]), hd]
    simp only [List.drop_left]
    rw [if_pos (hs r (by simp)).2,
      run_utf8 _ tl rest (fun x hx => (hs x (by simp [hx])).1) (fun x hx => (hs x (by simp [hx])).2) ((runEnds_iff _ _).1 hr), List.length_append]

/-- Digits begin nothing else. -/
theorem digit_other (r : Nat) (h : isDigit r = true) : r ≠ rn '/' ∧ single r = none ∧ r ≠ rn '-' ∧ r ≠ rn '%' ∧ r ≠ rn '_' := by
  by_cases hr : r < 128
  · have key : ∀ r < 128, (48 ≤ r && r ≤ 57) = true →
        r ≠ rn '/' ∧ single r = none ∧ r ≠ rn '-' ∧ r ≠ rn '%' ∧ r ≠ rn '_' := by decide
    unfold isDigit at h
    rw [if_pos hr] at h
    exact key r hr h
  · have h1 : ∀ c : Char, c.toNat < 128 → r ≠ rn c := by
      intro c hc he
      unfold rn at he
      omega
    refine ⟨h1 _ (by decide), ?_, h1 _ (by decide), h1 _ (by decide), h1 _ (by decide)⟩
    cases hsi : single r with
    | none => rfl
    | some ty =>
      have := single_some _ _ hsi
      have key : ∀ k ∈ singles, k.1 < 128 := by decide
      exact absurd (key _ this) hr

/-- C74. A run of digits is one token. (The condition on the first digit only excludes tables that have a character both
as digit and as space or letter.) -/
theorem digits_token (input : List Byte) (n : Nat) (ts : List Token) (h : nexts n (Lexer.new input) = ts.map .ok)
    (r : Nat) (tl : List Nat) (hs : ∀ x ∈ r :: tl, Scalar x ∧ digit x = true) (ho : white r = false ∧ letter r = false)
    (rest : List Byte) (hr : RunEnds digit rest) (hi : input = textOf ts ++ utf8 (r :: tl) ++ rest) :
    ∃ t : Token, nexts (n + 1) (Lexer.new input) = (ts ++ [t]).map .ok ∧ t.type = .integer ∧ t.capture = utf8 (r :: tl) := by
  rw [white_eq, letter_eq] at ho
  rw [digit_eq] at hs hr
  refine token_at input n ts h _ rest hi .integer ?_
  have hd := decode_encode r (hs r (by simp)).1 (utf8 tl ++ rest)
  have hdg := (hs r (by simp)).2
  obtain ⟨n1, n2, n3, n4, n5⟩ := digit_other r hdg
  rw [utf8_cons, List.append_assoc]
  unfold first
  rw [if_neg (by simp [encode_ne]), hd]
  simp only [List.drop_left]
  rw [if_neg (by simp [ho.1]), if_neg n1, n2]
  simp only
  rw [if_neg n3, if_neg n4, if_neg (by rw [start_iff, ho.2]; simp [n3, n5]), if_pos hdg,
    run_utf8 _ tl rest (fun x hx => (hs x (by simp [hx])).1) (fun x hx => (hs x (by simp [hx])).2) ((runEnds_iff _ _).1 hr), List.length_append]

/-- C74. A line comment goes on to the end of the line, the newline not being part of it, or of the text. -/
theorem line_comment_token (input : List Byte) (n : Nat) (ts : List Token) (h : nexts n (Lexer.new input) = ts.map .ok)
    (body rest : List Byte) (hb : ch '\n' ∉ body) (hr : rest = [] ∨ [ch '\n'] <+: rest)
    (hi : input = textOf ts ++ (txt "//" ++ body) ++ rest) :
    ∃ t : Token, nexts (n + 1) (Lexer.new input) = (ts ++ [t]).map .ok ∧ t.type = .lineComment ∧
      t.capture = txt "//" ++ body := by
  refine token_at input n ts h _ rest hi .lineComment ?_
  rw [show txt "//" ++ body ++ rest = ch '/' :: ch '/' :: (body ++ rest) from rfl, first_slash, if_pos (by simp)]
  simp only [List.tail_cons]
  rw [List.takeWhile_append_of_pos (fun x hx => by
    have : x ≠ ch '\n' := fun he => hb (he ▸ hx)
    simpa using this)]
  have : rest.takeWhile (· != ch '\n') = [] := by
    rcases hr with rfl | ⟨v, rfl⟩
    · rfl
    · rfl
  rw [this]
  simp [show (txt "//").length = 2 from rfl]

/-- C74. A character that begins no token is an error. -/
theorem foreign_character_refused (input : List Byte) (n : Nat) (ts : List Token)
    (h : nexts n (Lexer.new input) = ts.map .ok) (r : Nat) (hs : Scalar r) (rest : List Byte)
    (hn : white r = false ∧ letter r = false ∧ digit r = false)
    (hc : r ∉ [rn '/', rn '=', rn ',', rn ':', rn '.', rn ';', rn '(', rn ')', rn '{', rn '}', rn '<', rn '>', rn '*', rn '@',
      rn '-', rn '+', rn '%', rn '_'])
    (hi : input = textOf ts ++ encode r ++ rest) : (nextTok (afterNexts n (Lexer.new input))).1 = .err := by
  rw [white_eq, letter_eq, digit_eq] at hn
  have hd : input.drop (textOf ts).length = encode r ++ rest := by rw [hi]; simp
  apply next_err input n ts h
  simp only [List.mem_cons, List.not_mem_nil, or_false, not_or] at hc
  rw [hd]
  unfold first
  rw [if_neg (by simp [encode_ne]), decode_encode r hs]
  simp only [List.drop_left]
  rw [if_neg (by simp [hn.1]), if_neg hc.1]
  have hsi : single r = none := by
    cases hsi : single r with
    | none => rfl
    | some ty =>
      have hm := single_some _ _ hsi
      simp only [singles, List.mem_cons, Prod.mk.injEq, List.not_mem_nil, or_false] at hm
      simp [hc] at hm
  rw [hsi]
  simp only
  rw [if_neg (by simp [hc]), if_neg (by simp [hc]), if_neg (by rw [start_iff, hn.2.1]; simp [hc]), if_neg (by simp [hn.2.2])]

example : letI := someTables
    (∀ r ∈ [0x20, 9, 0xA0], Scalar r ∧ white r = true) ∧ RunEnds white (txt "a") ∧
    (∀ x ∈ [rn '4', rn '2'], Scalar x ∧ digit x = true) ∧ white (rn '4') = false ∧ letter (rn '4') = false ∧
    RunEnds digit (txt ".") ∧
    (Scalar (rn '"') ∧ white (rn '"') = false ∧ letter (rn '"') = false ∧ digit (rn '"') = false) ∧
    (Scalar 0x1F600 ∧ white 0x1F600 = false ∧ letter 0x1F600 = false ∧ digit 0x1F600 = false) := by
  simp only [runEnds_iff, Scalar]
  decide

end Verif.Wit
