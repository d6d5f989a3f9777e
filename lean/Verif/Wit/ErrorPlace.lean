import Verif.Wit.Local
import Verif.Wit.ParseProps

/-!
# The place an error of the WIT parser names: C145

An error of the parser names the line, the column and the position of a token, with one exception. It is the token the
parser looked at last. What comes after it in the text has no part in the error. The exception is the error about an unknown
item of a world, which names the line and the column where the item's first token ends.
-/

namespace Verif.Wit

variable [Unicode]

/-- What the parser has looked at last: nothing yet, a token, or a place where the lexer gave no token. -/
inductive Seen where
  | nothing
  | token (t : Token)
  | fault
  deriving DecidableEq, Repr

/-- The token an answer gives. -/
def Seen.of : Res Token → Seen
  | .ok t => .token t
  | _ => .fault

/-- What the parser looks at in the token an answer gives. -/
def sigOf : Res Token → Res Sig
  | .ok t => .ok t.sig
  | .err => .err
  | .panic => .panic
  | .diverge => .diverge

/-- The loop of `next`, with the whole token as its result.
-- models wit/parse/parser.go:944-962 -/
def nextWhole : Nat → SM Lexer Token
  | 0 => fun l => (.diverge, l)
  | n + 1 => do
    let t ← nextTok
    if t.type.isTrivia then nextWhole n else pure t

/-- The loop of `peek`, with the whole token as its result.
-- models wit/parse/parser.go:927-942 -/
def peekWhole : Nat → SM Lexer Token
  | 0 => fun l => (.diverge, l)
  | n + 1 => do
    let t ← peekCaught
    if t.type.isTrivia then do
      let _ ← nextTok
      peekWhole n
    else pure t

/-- A call that reads a token, with a note of the token it gives. -/
def watch (f : Lexer → Res Token × Lexer) : SM (Lexer × Seen) Sig := fun s =>
  let r := f s.1
  (sigOf r.1, (r.2, Seen.of r.1))

/-- `peek` and `next`, with a note of the token looked at last. Where the parser makes an error with `parseError(tok)`, `tok`
is the result of the last call of `peek` or `next`.
-- models wit/parse/parser.go:927-962, and the argument of `parseError` at 186, 437, 756, 891, 903 and 924 -/
def watchOps : Ops (Lexer × Seen) where
  peek := watch fun l => peekWhole (l.input.length + 3) l
  next := watch fun l => nextWhole (l.input.length + 3) l

/-- `Parse` of a text: its outcome, and the token the parser looked at last.
-- models wit/parse/parser.go:14-53 -/
def parseWatched (n : Nat) (text : List Byte) : Res Ast × Seen :=
  ((parseAst watchOps n (Lexer.new text, .nothing)).1, (parseAst watchOps n (Lexer.new text, .nothing)).2.2)

/-- The line, the column and the position in the message of an error, for the token looked at last.
-- models wit/parse/parser.go:968-976 -/
def Token.place (t : Token) : Nat × Nat × Nat := (t.line + 1, t.column + 1, t.position)

/-- The line and the column in the message of the error about an unknown item of a world: those of the lexer.
-- models wit/parse/parser.go:978-985, the call at 662 -/
def Lexer.place (l : Lexer) : Nat × Nat := (l.line + 1, l.column + 1)

/-! ## The outcome is that of `Parse` -/

theorem nextWhole_loop (n : Nat) (l : Lexer) : nextLoop n l = (sigOf (nextWhole n l).1, (nextWhole n l).2) := by
  induction n generalizing l with
  | zero => rfl
  | succ n ih =>
    rw [nextLoop, nextWhole, SM.bind_def, SM.bind_def]
    rcases nextTok l with ⟨r, l'⟩
    cases r with
    | ok t =>
      simp only
      by_cases ht : t.type.isTrivia = true
      · rw [if_pos ht, if_pos ht]; exact ih l'
      · rw [if_neg ht, if_neg ht]; rfl
    | _ => rfl

theorem peekWhole_loop (n : Nat) (l : Lexer) : peekLoop n l = (sigOf (peekWhole n l).1, (peekWhole n l).2) := by
  induction n generalizing l with
  | zero => rfl
  | succ n ih =>
    rw [peekLoop, peekWhole, SM.bind_def, SM.bind_def]
    rcases peekCaught l with ⟨r, l'⟩
    cases r with
    | ok t =>
      simp only
      by_cases ht : t.type.isTrivia = true
      · rw [if_pos ht, if_pos ht, SM.bind_def, SM.bind_def]
        rcases nextTok l' with ⟨r, l''⟩
        cases r with
        | ok t => exact ih l''
        | _ => rfl
      · rw [if_neg ht, if_neg ht]; rfl
    | _ => rfl

omit [Unicode] in
theorem dich_refl {S : Type} (o : Ops S) : OpsDich (fun _ => False) Eq o o :=
  ⟨⟨fun _ _ h _ => .inl (by subst h; exact ⟨rfl, rfl⟩), fun _ h => h⟩,
   ⟨fun _ _ h _ => .inl (by subst h; exact ⟨rfl, rfl⟩), fun _ h => h⟩, fun _ h => h⟩

theorem watch_sim : OpsSim (fun l (s : Lexer × Seen) => s.1 = l) lexOps watchOps := by
  refine ⟨?_, ?_⟩
  · rintro l ⟨l', s⟩ h _
    simp only at h
    subst h
    simp only [watchOps, watch, lexOps]
    rw [peekWhole_loop]
    exact ⟨rfl, fun _ _ => rfl⟩
  · rintro l ⟨l', s⟩ h _
    simp only at h
    subst h
    simp only [watchOps, watch, lexOps]
    rw [nextWhole_loop]
    exact ⟨rfl, fun _ _ => rfl⟩

/-- The outcome of a parse that is watched is that of the parse. -/
theorem watched_outcome (text : List Byte) (n : Nat) (hn : text.length < n) :
    (parseWatched n text).1 = parseText n text := by
  have hr := (wit_parser_ends text n n hn hn).1
  have k := parseAst_sim watch_sim n n (Nat.le_refl n) (Lexer.new text) (Lexer.new text, .nothing) rfl
    (by intro e; unfold parseText at hr; rw [e] at hr; rcases hr with ⟨_, hr⟩ | hr <;> cases hr)
  exact k.1.symm

theorem watched_returns (text : List Byte) (n : Nat) (hn : text.length < n) :
    (parseWatched n text).1 ≠ .diverge := by
  rw [watched_outcome text n hn]
  have hr := (wit_parser_ends text n n hn hn).1
  intro e
  rw [e] at hr
  rcases hr with ⟨_, hr⟩ | hr <;> cases hr

/-- The bound does not matter. -/
theorem watched_bound (text : List Byte) (n m : Nat) (hn : text.length < n) (hm : n ≤ m) :
    parseWatched n text = parseWatched m text := by
  have k := (parseAst_dich (dich_refl watchOps) n m hm).1 (Lexer.new text, .nothing) _ rfl (watched_returns text n hn)
  rcases k with ⟨k1, k2⟩ | k
  · unfold parseWatched
    rw [k1, k2]
  · exact k.elim

/-! ## Tokens by their number -/

/-- From the token of number `i` on, the first that is neither white space nor a comment, and its number. After an answer
that is no token, the number after it. -/
def skipTo (a : Nat → Res Token) : Nat → Nat → Res Token × Nat
  | 0, i => (.diverge, i)
  | n + 1, i => match a i with
    | .ok t => if t.type.isTrivia then skipTo a n (i + 1) else (.ok t, i)
    | r => (r, i + 1)

/-- The number after the one found. -/
def stepOver : Res Token × Nat → Nat
  | (.ok _, i) => i + 1
  | (_, i) => i

def numOps (a : Nat → Res Token) (f : Nat) : Ops (Nat × Seen) where
  peek := fun s => (sigOf (skipTo a f s.1).1, ((skipTo a f s.1).2, Seen.of (skipTo a f s.1).1))
  next := fun s => (sigOf (skipTo a f s.1).1, (stepOver (skipTo a f s.1), Seen.of (skipTo a f s.1).1))

theorem answer_cases (text : List Byte) (i : Nat) : (∃ t, answer text i = .ok t) ∨ answer text i = .err := by
  have hi := (afterNexts_inv i _ (inv_new text) rfl).1
  unfold answer
  rw [nextTok_fresh _ (at_fresh text i)]
  rcases (lexNext_inv _ hi).2.2.2 with h | ⟨t, h, -⟩
  · exact .inr h.1
  · exact .inl ⟨t, h⟩

theorem nextWhole_at (text : List Byte) (n : Nat) (l : Lexer) (i : Nat) (h : At text l i) :
    (nextWhole n l).1 = (skipTo (answer text) n i).1 ∧ At text (nextWhole n l).2 (stepOver (skipTo (answer text) n i)) := by
  induction n generalizing l i with
  | zero => exact ⟨rfl, h⟩
  | succ n ih =>
    obtain ⟨h1, h2⟩ := at_next text l i h
    rw [nextWhole, SM.bind_def, skipTo]
    rcases hx : nextTok l with ⟨r, l'⟩
    rw [hx] at h1 h2
    simp only at h1 h2
    rcases answer_cases text i with ⟨t, ht⟩ | ht
    · rw [ht] at h1 ⊢
      subst h1
      simp only
      by_cases hk : t.type.isTrivia = true
      · rw [if_pos hk, if_pos hk]; exact ih l' (i + 1) h2
      · rw [if_neg hk, if_neg hk]; exact ⟨rfl, h2⟩
    · rw [ht] at h1 ⊢
      subst h1
      exact ⟨rfl, h2⟩

theorem at_peek_err (text : List Byte) (l : Lexer) (i : Nat) (h : At text l i) (he : answer text i = .err) :
    (peekCaught l).1 = .err ∧ At text (peekCaught l).2 (i + 1) := by
  rcases h with rfl | ⟨t, ht, rfl⟩
  · have hn := at_fresh text i
    have ha : (lexNext (afterNexts i (Lexer.new text))).1 = .err := by rw [← nextTok_fresh _ hn]; exact he
    have hx : lexNext (afterNexts i (Lexer.new text)) = (.err, (lexNext (afterNexts i (Lexer.new text))).2) := by
      rw [← ha]
    have e : peekCaught (afterNexts i (Lexer.new text)) = (.err, (lexNext (afterNexts i (Lexer.new text))).2) := by
      unfold peekCaught peekTok
      rw [hn]
      simp only
      rw [hx]
    rw [e]
    exact ⟨rfl, .inl (by rw [afterNexts_succ, nextTok_fresh _ hn])⟩
  · rw [ht] at he
    cases he

theorem at_peek_ok (text : List Byte) (l : Lexer) (i : Nat) (h : At text l i) (t : Token) (ht : answer text i = .ok t) :
    (peekCaught l).1 = .ok t ∧ At text (peekCaught l).2 i := by
  obtain ⟨h1, h2⟩ := at_peek text l i h t ht
  unfold peekCaught
  rcases hx : peekTok l with ⟨r, l'⟩
  rw [hx] at h1 h2
  simp only at h1
  subst h1
  exact ⟨rfl, h2⟩

theorem peekWhole_at (text : List Byte) (n : Nat) (l : Lexer) (i : Nat) (h : At text l i) :
    (peekWhole n l).1 = (skipTo (answer text) n i).1 ∧ At text (peekWhole n l).2 (skipTo (answer text) n i).2 := by
  induction n generalizing l i with
  | zero => exact ⟨rfl, h⟩
  | succ n ih =>
    rw [peekWhole, SM.bind_def, skipTo]
    rcases answer_cases text i with ⟨t, ht⟩ | ht
    · obtain ⟨h1, h2⟩ := at_peek_ok text l i h t ht
      rcases hx : peekCaught l with ⟨r, l'⟩
      rw [hx] at h1 h2
      simp only at h1 h2
      rw [ht]
      subst h1
      simp only
      by_cases hk : t.type.isTrivia = true
      · rw [if_pos hk, if_pos hk, SM.bind_def]
        obtain ⟨g1, g2⟩ := at_next text l' i h2
        rcases hy : nextTok l' with ⟨q, l''⟩
        rw [hy] at g1 g2
        simp only at g1 g2
        rw [ht] at g1
        subst g1
        exact ih l'' (i + 1) g2
      · rw [if_neg hk, if_neg hk]; exact ⟨rfl, h2⟩
    · obtain ⟨h1, h2⟩ := at_peek_err text l i h ht
      rcases hx : peekCaught l with ⟨r, l'⟩
      rw [hx] at h1 h2
      simp only at h1 h2
      rw [ht]
      subst h1
      exact ⟨rfl, h2⟩

theorem at_input (text : List Byte) (l : Lexer) (i : Nat) (h : At text l i) : l.input = text := by
  rcases h with rfl | ⟨t, ht, rfl⟩
  · exact (afterNexts_inv i _ (inv_new text) rfl).2.1
  · exact (afterNexts_inv (i + 1) _ (inv_new text) rfl).2.1

theorem num_dich (text : List Byte) : OpsDich (fun _ => False) (fun (s : Lexer × Seen) (q : Nat × Seen) => s.2 = q.2 ∧ At text s.1 q.1)
    watchOps (numOps (answer text) (text.length + 3)) := by
  refine ⟨⟨?_, fun _ h => h⟩, ⟨?_, fun _ h => h⟩, fun _ h => h⟩
  · rintro ⟨l, s⟩ ⟨i, q⟩ ⟨hs, hl⟩ _
    refine .inl ?_
    simp only at hs hl
    simp only [watchOps, watch, numOps]
    rw [at_input text l i hl]
    obtain ⟨h1, h2⟩ := peekWhole_at text (text.length + 3) l i hl
    rw [h1]
    exact ⟨rfl, rfl, h2⟩
  · rintro ⟨l, s⟩ ⟨i, q⟩ ⟨hs, hl⟩ _
    refine .inl ?_
    simp only at hs hl
    simp only [watchOps, watch, numOps]
    rw [at_input text l i hl]
    obtain ⟨h1, h2⟩ := nextWhole_at text (text.length + 3) l i hl
    rw [h1]
    exact ⟨rfl, rfl, h2⟩

/-- Parsing tokens by their number. -/
theorem watched_num (text : List Byte) (n : Nat) (hn : text.length < n) :
    (parseWatched n text).1 = (parseAst (numOps (answer text) (text.length + 3)) n (0, .nothing)).1 ∧
    (parseWatched n text).2 = (parseAst (numOps (answer text) (text.length + 3)) n (0, .nothing)).2.2 := by
  have k := (parseAst_dich (num_dich text) n n (Nat.le_refl n)).1 (Lexer.new text, .nothing) (0, .nothing) ⟨rfl, .inl rfl⟩
    (watched_returns text n hn)
  rcases k with ⟨k1, k2, -⟩ | k
  · exact ⟨k1, k2⟩
  · exact k.elim

/-! ## Sources that begin alike -/

/-- What was looked at last is no token before the one of number `k`. -/
def Beyond (a : Nat → Res Token) (k : Nat) (s : Seen) : Prop :=
  s = .fault ∨ ∃ j t, k ≤ j ∧ a j = .ok t ∧ s = .token t

omit [Unicode] in
theorem skipTo_beyond (a : Nat → Res Token) (k n i : Nat) (h : k ≤ i) :
    k ≤ (skipTo a n i).2 ∧ Beyond a k (Seen.of (skipTo a n i).1) := by
  induction n generalizing i with
  | zero => exact ⟨h, .inl rfl⟩
  | succ n ih =>
    rw [skipTo]
    rcases hx : a i with t | _ | _ | _
    · simp only
      by_cases hk : t.type.isTrivia = true
      · rw [if_pos hk]; exact ih (i + 1) (by omega)
      · rw [if_neg hk]; exact ⟨h, .inr ⟨i, t, h, hx, rfl⟩⟩
    · exact ⟨Nat.le_succ_of_le h, .inl rfl⟩
    · exact ⟨Nat.le_succ_of_le h, .inl rfl⟩
    · exact ⟨Nat.le_succ_of_le h, .inl rfl⟩

omit [Unicode] in
theorem stepOver_ge (r : Res Token × Nat) : r.2 ≤ stepOver r := by
  rcases r with ⟨r, i⟩
  cases r <;> simp [stepOver]

omit [Unicode] in
theorem skipTo_alike (a b : Nat → Res Token) (k : Nat) (hab : ∀ i, i < k → ∃ t, a i = .ok t ∧ b i = .ok t)
    (n m i : Nat) (hi : i ≤ k) (hm : k - i < m) (hd : (skipTo a n i).1 ≠ .diverge) :
    (skipTo a n i = skipTo b m i ∧ stepOver (skipTo a n i) ≤ k) ∨
      (k ≤ (skipTo a n i).2 ∧ Beyond a k (Seen.of (skipTo a n i).1)) := by
  induction n generalizing m i with
  | zero => exact absurd rfl hd
  | succ n ih =>
    rcases Nat.lt_or_ge i k with hk | hk
    · obtain ⟨t, h1, h2⟩ := hab i hk
      cases m with
      | zero => omega
      | succ m =>
        rw [skipTo, h1] at hd ⊢
        rw [skipTo, h2]
        simp only at hd ⊢
        by_cases ht : t.type.isTrivia = true
        · rw [if_pos ht] at hd ⊢
          rw [if_pos ht]
          exact ih m (i + 1) (by omega) (by omega) hd
        · rw [if_neg ht, if_neg ht]
          exact .inl ⟨rfl, hk⟩
    · exact .inr (skipTo_beyond a k (n + 1) i hk)

omit [Unicode] in
theorem sigOf_diverge (r : Res Token) (h : sigOf r ≠ .diverge) : r ≠ .diverge := by
  rintro rfl
  exact h rfl

omit [Unicode] in
theorem alike_dich (a b : Nat → Res Token) (k f f' : Nat) (hab : ∀ i, i < k → ∃ t, a i = .ok t ∧ b i = .ok t) (hf : k < f') :
    OpsDich (fun (s : Nat × Seen) => k ≤ s.1 ∧ Beyond a k s.2) (fun (s q : Nat × Seen) => s = q ∧ s.1 ≤ k)
      (numOps a f) (numOps b f') := by
  refine ⟨⟨?_, ?_⟩, ⟨?_, ?_⟩, ?_⟩
  · rintro ⟨i, s⟩ _ ⟨rfl, hi⟩ hd
    simp only [numOps] at hd hi ⊢
    rcases skipTo_alike a b k hab f f' i hi (by omega) (sigOf_diverge _ hd) with ⟨h1, h2⟩ | h
    · have := stepOver_ge (skipTo a f i)
      rw [← h1]
      exact .inl ⟨rfl, rfl, by omega⟩
    · exact .inr h
  · rintro ⟨i, s⟩ ⟨hi, -⟩
    exact skipTo_beyond a k f i hi
  · rintro ⟨i, s⟩ _ ⟨rfl, hi⟩ hd
    simp only [numOps] at hd hi ⊢
    rcases skipTo_alike a b k hab f f' i hi (by omega) (sigOf_diverge _ hd) with ⟨h1, h2⟩ | h
    · rw [← h1]
      exact .inl ⟨rfl, rfl, h2⟩
    · have := stepOver_ge (skipTo a f i)
      exact .inr ⟨by omega, h.2⟩
  · rintro ⟨i, s⟩ ⟨hi, -⟩
    have h := skipTo_beyond a k f i hi
    have := stepOver_ge (skipTo a f i)
    exact ⟨Nat.le_trans h.1 this, h.2⟩
  · rintro ⟨i, s⟩ h
    have := stepOver_ge (skipTo a f i)
    exact ⟨Nat.le_trans h.1 this, h.2⟩

/-! ## Positions -/

theorem offset_step (text : List Byte) (i : Nat) :
    (afterNexts i (Lexer.new text)).offset ≤ (afterNexts (i + 1) (Lexer.new text)).offset ∧
    ∀ t, answer text i = .ok t → t.position = (afterNexts i (Lexer.new text)).offset ∧
      (t.type ≠ .endOfStream → (afterNexts i (Lexer.new text)).offset < (afterNexts (i + 1) (Lexer.new text)).offset) := by
  have hi := (afterNexts_inv i _ (inv_new text) rfl).1
  have hf := at_fresh text i
  unfold answer
  rw [afterNexts_succ, nextTok_fresh _ hf]
  rcases (lexNext_inv _ hi).2.2.2 with h | ⟨t, h, -, h2, -, h3, -, -, -, -, h4⟩
  · refine ⟨by omega, fun t ht => ?_⟩
    rw [h.1] at ht
    cases ht
  · refine ⟨h2, fun u hu => ?_⟩
    rw [h] at hu
    cases hu
    exact ⟨h3, fun ht => Nat.lt_of_le_of_lt hi.le (h4 ht)⟩

theorem offset_mono (text : List Byte) (i d : Nat) :
    (afterNexts i (Lexer.new text)).offset ≤ (afterNexts (i + d) (Lexer.new text)).offset := by
  induction d with
  | zero => exact Nat.le_refl _
  | succ d ih => exact Nat.le_trans ih (offset_step text (i + d)).1

/-- A token that is not the end of the text comes once. -/
theorem answer_once (text : List Byte) (i j : Nat) (hij : i < j) (t : Token) (hi : answer text i = .ok t)
    (hj : answer text j = .ok t) (ht : t.type ≠ .endOfStream) : False := by
  obtain ⟨h1, h2⟩ := (offset_step text i).2 t hi
  obtain ⟨h3, -⟩ := (offset_step text j).2 t hj
  have h4 := offset_mono text (i + 1) (j - (i + 1))
  rw [show i + 1 + (j - (i + 1)) = j by omega] at h4
  have := h2 ht
  omega

theorem number_le (text : List Byte) (ts : List Token) (hd : ∀ t ∈ ts, t.type ≠ .endOfStream)
    (h : nexts ts.length (Lexer.new text) = ts.map .ok) : ts.length ≤ text.length := by
  have key : ∀ i, i ≤ ts.length → i ≤ (afterNexts i (Lexer.new text)).offset := by
    intro i
    induction i with
    | zero => intro _; exact Nat.zero_le _
    | succ i ih =>
      intro hi
      have h1 := answer_nexts text ts.length i hi
      rw [h, List.getElem?_map, List.getElem?_eq_getElem hi] at h1
      simp only [Option.map_some, Option.some.injEq] at h1
      have := ((offset_step text i).2 _ h1.symm).2 (hd _ (List.getElem_mem hi))
      have := ih (by omega)
      omega
  have h1 := key _ (Nat.le_refl _)
  obtain ⟨h2, h3, -⟩ := afterNexts_inv ts.length _ (inv_new text) rfl
  have := h2.le
  have h4 := h2.bound
  rw [h3] at h4
  have : (Lexer.new text).input = text := rfl
  rw [this] at h4
  omega

/-- C145. Two texts begin with the same tokens, and the parser, reading the first text, looks at one of them last: at the
one its error names, if it refuses the text. Then it does with the second text what it does with the first, and looks at the
same token last. -/
theorem parse_error_local (text text' : List Byte) (ts : List Token)
    (hd : ∀ t ∈ ts, t.type ≠ .endOfStream) (h1 : nexts ts.length (Lexer.new text) = ts.map .ok)
    (h2 : nexts ts.length (Lexer.new text') = ts.map .ok) (n n' : Nat) (hn : text.length < n) (hn' : text'.length < n')
    (tok : Token) (hm : tok ∈ ts) (hs : (parseWatched n text).2 = .token tok) :
    parseWatched n' text' = parseWatched n text := by
  have hab : ∀ i, i < ts.length → ∃ t, answer text i = .ok t ∧ answer text' i = .ok t := by
    intro i hi
    have a1 := answer_nexts text ts.length i hi
    have a2 := answer_nexts text' ts.length i hi
    rw [h1, List.getElem?_map, List.getElem?_eq_getElem hi] at a1
    rw [h2, List.getElem?_map, List.getElem?_eq_getElem hi] at a2
    simp only [Option.map_some, Option.some.injEq] at a1 a2
    exact ⟨_, a1.symm, a2.symm⟩
  have hl := number_le text' ts hd h2
  rw [watched_bound text' n' (max n n') hn' (Nat.le_max_right _ _)]
  obtain ⟨w1, w2⟩ := watched_num text n hn
  obtain ⟨v1, v2⟩ := watched_num text' (max n n') (Nat.lt_of_lt_of_le hn' (Nat.le_max_right _ _))
  have hr := watched_returns text n hn
  rw [w1] at hr
  have k := (parseAst_dich (alike_dich (answer text) (answer text') ts.length (text.length + 3) (text'.length + 3) hab (by omega))
    n (max n n') (Nat.le_max_left _ _)).1 (0, .nothing) (0, .nothing) ⟨rfl, Nat.zero_le _⟩ hr
  rcases k with ⟨k1, k2, -⟩ | ⟨-, k⟩
  · refine Prod.ext ?_ ?_
    · rw [v1, w1, k1]
    · rw [v2, w2, k2]
  · exfalso
    rw [← w2, hs] at k
    rcases k with k | ⟨j, t, hj, ht, e⟩
    · cases k
    · cases e
      obtain ⟨i, hi, e⟩ := List.getElem_of_mem hm
      obtain ⟨t, b1, -⟩ := hab i hi
      have a1 := answer_nexts text ts.length i hi
      rw [h1, List.getElem?_map, List.getElem?_eq_getElem hi] at a1
      simp only [Option.map_some, Option.some.injEq] at a1
      rw [e] at a1
      exact answer_once text i j (by omega) tok a1.symm ht (hd tok hm)

omit [Unicode] in
/-- The token looked at last is one of the tokens of the text. -/
theorem seen_dich (a : Nat → Res Token) (f : Nat) :
    OpsDich (fun _ => False) (fun (s q : Nat × Seen) => s = q ∧ (s.2 = .nothing ∨ s.2 = .fault ∨
      ∃ i t, a i = .ok t ∧ t.type.isTrivia = false ∧ s.2 = .token t)) (numOps a f) (numOps a f) := by
  have key : ∀ n i, Seen.of (skipTo a n i).1 = .nothing ∨ Seen.of (skipTo a n i).1 = .fault ∨
      ∃ j t, a j = .ok t ∧ t.type.isTrivia = false ∧ Seen.of (skipTo a n i).1 = .token t := by
    intro n
    induction n with
    | zero => exact fun i => .inr (.inl rfl)
    | succ n ih =>
      intro i
      rw [skipTo]
      rcases hx : a i with t | _ | _ | _
      · simp only
        by_cases hk : t.type.isTrivia = true
        · rw [if_pos hk]; exact ih (i + 1)
        · rw [if_neg hk]; exact .inr (.inr ⟨i, t, hx, by simpa using hk, rfl⟩)
      · exact .inr (.inl rfl)
      · exact .inr (.inl rfl)
      · exact .inr (.inl rfl)
  refine ⟨⟨?_, fun _ h => h⟩, ⟨?_, fun _ h => h⟩, fun _ h => h⟩
  · rintro ⟨i, s⟩ _ ⟨rfl, hi⟩ hd
    exact .inl ⟨rfl, rfl, key f i⟩
  · rintro ⟨i, s⟩ _ ⟨rfl, hi⟩ hd
    exact .inl ⟨rfl, rfl, key f i⟩

/-- C145, the place. The token looked at last stands in the text at its position, is neither white space nor a comment, and
the line and the column an error names are those of the position: one more than the newlines before it, and one more than the
bytes between the last newline and it. Missing: the error about an unknown item of a world, see `world_item_place`. -/
theorem parse_error_place_partial (text : List Byte) (n : Nat) (hn : text.length < n) (tok : Token)
    (hs : (parseWatched n text).2 = .token tok) :
    tok.place = (Spec.line (text.take tok.position) + 1, Spec.column (text.take tok.position) + 1, tok.position) ∧
    tok.capture <+: text.drop tok.position ∧ tok.type ≠ .whitespace ∧ tok.type ≠ .lineComment ∧ tok.type ≠ .blockComment := by
  obtain ⟨w1, w2⟩ := watched_num text n hn
  have hr := watched_returns text n hn
  rw [w1] at hr
  have k := (parseAst_dich (seen_dich (answer text) (text.length + 3)) n n (Nat.le_refl n)).1 (0, .nothing) (0, .nothing)
    ⟨rfl, .inl rfl⟩ hr
  rw [w2] at hs
  rcases k with ⟨-, -, k⟩ | k
  · rw [hs] at k
    rcases k with k | k | ⟨i, t, ha, hk, e⟩
    · cases k
    · cases k
    · cases e
      obtain ⟨hi, hin, -⟩ := afterNexts_inv i _ (inv_new text) rfl
      unfold answer at ha
      rw [nextTok_fresh _ (at_fresh text i)] at ha
      have hin' : (afterNexts i (Lexer.new text)).input = text := hin
      rcases (lexNext_inv _ hi).2.2.2 with h | ⟨t, h, -, -, h2, h3, h4, h5, -, -, -⟩
      · rw [h.1] at ha; cases ha
      · rw [ha] at h
        cases h
        rw [hi.line, hin', ← h3] at h4
        rw [hi.column, hin', ← h3] at h5
        refine ⟨by unfold Token.place; rw [h4, h5], ?_, ?_, ?_, ?_⟩
        · rw [h2, hin', ← h3]
          exact List.take_prefix _ _
        all_goals (intro e; rw [e] at hk; cases hk)
  · exact k.elim

/-- What follows a token. -/
theorem place_after (text : List Byte) (i : Nat) (t : Token) (h : answer text i = .ok t) :
    (afterNexts (i + 1) (Lexer.new text)).line = Spec.line (text.take (t.position + t.capture.length)) ∧
    (afterNexts (i + 1) (Lexer.new text)).column = Spec.column (text.take (t.position + t.capture.length)) := by
  obtain ⟨hi, hin, -⟩ := afterNexts_inv i _ (inv_new text) rfl
  obtain ⟨hj, hjn, -⟩ := afterNexts_inv (i + 1) _ (inv_new text) rfl
  have hin' : (afterNexts i (Lexer.new text)).input = text := hin
  have hjn' : (afterNexts (i + 1) (Lexer.new text)).input = text := hjn
  have he : (afterNexts (i + 1) (Lexer.new text)).offset = t.position + t.capture.length := by
    have hb := hj.bound
    have hl := hj.le
    rw [hjn'] at hb
    unfold answer at h
    rw [nextTok_fresh _ (at_fresh text i)] at h
    rw [afterNexts_succ, nextTok_fresh _ (at_fresh text i)] at hb hl ⊢
    rcases (lexNext_inv _ hi).2.2.2 with g | ⟨u, g, -, g1, g2, g3, -⟩
    · rw [g.1] at h; cases h
    · rw [h] at g
      cases g
      rw [g2, g3, List.length_take, List.length_drop, hin']
      omega
  rw [hj.line, hj.column, hjn', he]
  exact ⟨rfl, rfl⟩

omit [Unicode] in
theorem lexer_place_peeked (l : Lexer) (t : Option Token) : ({ l with peekToken := t } : Lexer).place = l.place := rfl

theorem peekWhole_place (text : List Byte) (n : Nat) (l l' : Lexer) (i : Nat) (h : At text l i) (t : Token)
    (hp : peekWhole n l = (.ok t, l')) :
    l'.place = (Spec.line (text.take (t.position + t.capture.length)) + 1,
      Spec.column (text.take (t.position + t.capture.length)) + 1) := by
  induction n generalizing l i with
  | zero => cases hp
  | succ n ih =>
    rw [peekWhole, SM.bind_def] at hp
    rcases answer_cases text i with ⟨u, hu⟩ | hu
    · obtain ⟨h1, h2⟩ := at_peek_ok text l i h u hu
      have hpk : (peekCaught l).2 = { afterNexts (i + 1) (Lexer.new text) with peekToken := some u } := by
        rcases h with rfl | ⟨v, hv, rfl⟩
        · have hn := at_fresh text i
          have ha : (lexNext (afterNexts i (Lexer.new text))).1 = .ok u := by rw [← nextTok_fresh _ hn]; exact hu
          have he : lexNext (afterNexts i (Lexer.new text)) = (.ok u, (lexNext (afterNexts i (Lexer.new text))).2) := by
            rw [← ha]
          have e : peekCaught (afterNexts i (Lexer.new text)) =
              (.ok u, { (lexNext (afterNexts i (Lexer.new text))).2 with peekToken := some u }) := by
            unfold peekCaught peekTok
            rw [hn]
            simp only
            rw [he]
          rw [e, afterNexts_succ, nextTok_fresh _ hn]
        · rw [hv] at hu
          cases hu
          rfl
      rcases hx : peekCaught l with ⟨r, l1⟩
      rw [hx] at h1 h2 hp hpk
      simp only at h1 h2 hpk
      subst h1
      simp only at hp
      by_cases hk : u.type.isTrivia = true
      · rw [if_pos hk, SM.bind_def] at hp
        obtain ⟨g1, g2⟩ := at_next text l1 i h2
        rcases hy : nextTok l1 with ⟨q, l2⟩
        rw [hy] at g1 g2 hp
        simp only at g1 g2
        rw [hu] at g1
        subst g1
        exact ih l2 (i + 1) g2 hp
      · rw [if_neg hk] at hp
        cases hp
        rw [hpk, lexer_place_peeked]
        obtain ⟨p1, p2⟩ := place_after text i t hu
        unfold Lexer.place
        rw [p1, p2]
    · obtain ⟨h1, h2⟩ := at_peek_err text l i h hu
      rcases hx : peekCaught l with ⟨r, l1⟩
      rw [hx] at h1 hp
      simp only at h1
      subst h1
      cases hp

/-- C145 fails at an unknown item of a world: the parser, at any place of any text, looks at the first token of the item and
refuses it, and the line and the column its error names are those of the place where that token ends. -/
theorem world_item_place (text : List Byte) (l : Lexer) (i : Nat) (h : At text l i) (seen : Seen) (n : Nat) (g : Sig) (l' : Lexer)
    (t : Token) (hp : watchOps.peek (l, seen) = (.ok g, (l', .token t)))
    (ht : t.type ∉ [TokenType.export, .import, .use, .type, .record, .variant, .resource, .include]) :
    parseWorldItem watchOps n (l, seen) = (.err, (l', .token t)) ∧
    l'.place = (Spec.line (text.take (t.position + t.capture.length)) + 1,
      Spec.column (text.take (t.position + t.capture.length)) + 1) := by
  have hw : peekWhole (l.input.length + 3) l = (.ok t, l') ∧ g = t.sig := by
    simp only [watchOps, watch] at hp
    rcases hx : peekWhole (l.input.length + 3) l with ⟨r, l1⟩
    rw [hx] at hp
    cases r with
    | ok u => simp only [sigOf, Seen.of, Prod.mk.injEq, Res.ok.injEq, Seen.token.injEq] at hp; obtain ⟨rfl, rfl, rfl⟩ := hp; exact ⟨rfl, rfl⟩
    | _ => simp [sigOf] at hp
  refine ⟨?_, peekWhole_place text _ l l' i h t hw.1⟩
  have hg : g.type = t.type := by rw [hw.2]; rfl
  unfold parseWorldItem
  rw [SM.bind_def, hp]
  simp only [List.mem_cons, List.not_mem_nil, or_false, not_or] at ht
  obtain ⟨a1, a2, a3, a4, a5, a6, a7, a8⟩ := ht
  simp only [hg, a1, a2, a3, a4, a5, a6, a7, a8, if_false]
  rfl

/-! ## Cases that meet the hypotheses -/

/-- The tokens of `package a:b; world w {foo`. -/
def fooTokens : List Token :=
  [⟨.package, 0, 0, 0, txt "package"⟩, ⟨.whitespace, 7, 7, 0, txt " "⟩, ⟨.id, 8, 8, 0, txt "a"⟩, ⟨.colon, 9, 9, 0, txt ":"⟩,
    ⟨.id, 10, 10, 0, txt "b"⟩, ⟨.semicolon, 11, 11, 0, txt ";"⟩, ⟨.interface, 12, 12, 0, txt "interface"⟩,
    ⟨.openBrace, 21, 21, 0, txt "{"⟩]

example : letI := someTables; (∀ t ∈ fooTokens, t.type ≠ .endOfStream) ∧
    nexts fooTokens.length (Lexer.new (txt "package a:b;interface{")) = fooTokens.map .ok ∧
    nexts fooTokens.length (Lexer.new (txt "package a:b;interface{ \n use $")) = fooTokens.map .ok := by decide +kernel

example : letI := someTables; (parseWatched 40 (txt "package a:b;interface{")).2 = .token ⟨.openBrace, 21, 21, 0, txt "{"⟩ ∧
    isOk (parseWatched 40 (txt "package a:b;interface{")).1 = false ∧
    (parseWatched 40 (txt "package a:b;interface{ \n use $")).2 = .token ⟨.openBrace, 21, 21, 0, txt "{"⟩ := by decide +kernel

/-- The error about the item `foo`, which begins in line 2 and column 2, names line 2 and column 5. -/
example : letI := someTables; (parseAst watchOps 40 (Lexer.new (txt "package a:b; world w {\n foo }"), .nothing)).2.2 =
      .token ⟨.id, 24, 1, 1, txt "foo"⟩ ∧
    isOk (parseAst watchOps 40 (Lexer.new (txt "package a:b; world w {\n foo }"), .nothing)).1 = false ∧
    (parseAst watchOps 40 (Lexer.new (txt "package a:b; world w {\n foo }"), .nothing)).2.1.place = (2, 5) := by decide +kernel

/-- A place before that item, and what `peek` gives there. -/
example : letI := someTables
    At (txt "package a:b; world w {\n foo }") (afterNexts 12 (Lexer.new (txt "package a:b; world w {\n foo }"))) 12 ∧
    (watchOps.peek (afterNexts 12 (Lexer.new (txt "package a:b; world w {\n foo }")), .nothing)).1 = .ok ⟨.id, txt "foo"⟩ ∧
    (watchOps.peek (afterNexts 12 (Lexer.new (txt "package a:b; world w {\n foo }")), .nothing)).2.2 =
      .token ⟨.id, 24, 1, 1, txt "foo"⟩ := by
  letI := someTables
  exact ⟨.inl rfl, by decide +kernel, by decide +kernel⟩

end Verif.Wit
