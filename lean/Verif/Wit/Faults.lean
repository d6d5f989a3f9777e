import Verif.Wit.Messages

/-!
# Where the WIT lexer fails, and how far it has read then
-/

namespace Verif.Wit

open Spec

section
variable [Unicode]

namespace Spec

/-- A character that begins no token. -/
def Foreign (r : Nat) : Prop :=
  white r = false ∧ letter r = false ∧ digit r = false ∧
    r ∉ "/=,:.;(){}<>*@-+%_".toList.map Char.toNat

/-- `c` is the first character of the text, `r` its number: its encoding, or one byte with which no character begins. -/
def FirstChar (rest c : List Byte) (r : Nat) : Prop :=
  c <+: rest ∧ ((Scalar r ∧ c = encode r) ∨ (Malformed rest ∧ c.length = 1 ∧ r = 0xFFFD))

/-- A text that begins like a block comment, but with no block comment. -/
def Unclosed (rest : List Byte) : Prop := txt "/*" <+: rest ∧ ∀ c, Comment c → ¬ c <+: rest

end Spec

omit [Unicode] in
/-- The first character as it is decoded. -/
theorem firstChar_iff (rest c : List Byte) (r : Nat) :
    FirstChar rest c r ↔ rest ≠ [] ∧ r = (decode rest).1 ∧ c = rest.take (decode rest).2 := by
  constructor
  · rintro ⟨hp, ⟨hs, rfl⟩ | ⟨hm, hc, rfl⟩⟩
    · obtain ⟨v, rfl⟩ := hp
      rw [decode_encode r hs]
      exact ⟨by simp [encode_ne], rfl, by simp⟩
    · rw [decode_malformed rest hm]
      refine ⟨hm.1, rfl, ?_⟩
      rw [List.prefix_iff_eq_take.1 hp, hc]
  · rintro ⟨hne, rfl, rfl⟩
    refine ⟨List.take_prefix _ _, ?_⟩
    by_cases hm : Malformed rest
    · rw [decode_malformed rest hm]
      refine .inr ⟨hm, ?_, rfl⟩
      rw [List.length_take]
      have := List.length_pos_iff.2 hm.1
      omega
    · have : ∃ r, Scalar r ∧ encode r <+: rest := by
        apply Classical.byContradiction
        intro h
        exact hm ⟨hne, fun r h1 h2 => h ⟨r, h1, h2⟩⟩
      obtain ⟨r, hs, v, rfl⟩ := this
      rw [decode_encode r hs]
      exact .inl ⟨hs, by simp⟩

/-- The tests of `next` all fail. -/
theorem foreign_iff (r : Nat) : Foreign r ↔
    isSpace r = false ∧ r ≠ rn '/' ∧ single r = none ∧ r ≠ rn '-' ∧ r ≠ rn '%' ∧ isKeyLikeStart r = false ∧ isDigit r = false := by
  unfold Foreign
  rw [white_eq, letter_eq, digit_eq]
  have hk : isKeyLikeStart r = false ↔ isLetter r = false ∧ r ≠ rn '_' ∧ r ≠ rn '-' := by
    have := start_iff r
    by_cases h3 : r = rn '_' <;> by_cases h4 : r = rn '-' <;> cases h : isKeyLikeStart r <;> cases h2 : isLetter r <;> simp_all
  have hsi : single r = none ↔ r ∉ singles.map (·.1) := by
    unfold single
    rw [Option.map_eq_none_iff, List.find?_eq_none]
    generalize singles = ss
    simp only [List.mem_map, not_exists, not_and, beq_iff_eq]
  rw [hk, hsi]
  have e : r ∉ "/=,:.;(){}<>*@-+%_".toList.map Char.toNat ↔
      r ≠ rn '/' ∧ r ∉ singles.map (·.1) ∧ r ≠ rn '-' ∧ r ≠ rn '%' ∧ r ≠ rn '_' := by
    have k1 : ∀ x ∈ "/=,:.;(){}<>*@-+%_".toList.map Char.toNat, x ∈ rn '/' :: rn '-' :: rn '%' :: rn '_' :: singles.map (·.1) := by
      decide
    have k2 : ∀ x ∈ rn '/' :: rn '-' :: rn '%' :: rn '_' :: singles.map (·.1), x ∈ "/=,:.;(){}<>*@-+%_".toList.map Char.toNat := by
      decide
    have k : r ∈ "/=,:.;(){}<>*@-+%_".toList.map Char.toNat ↔ r ∈ rn '/' :: rn '-' :: rn '%' :: rn '_' :: singles.map (·.1) :=
      ⟨k1 r, k2 r⟩
    rw [k, List.mem_cons, List.mem_cons, List.mem_cons, List.mem_cons]
    generalize (r ∈ singles.map (·.1)) = q
    simp only [not_or, ne_eq]
    constructor
    · rintro ⟨a1, a2, a3, a4, a5⟩; exact ⟨a1, a5, a2, a3, a4⟩
    · rintro ⟨a1, a5, a2, a3, a4⟩; exact ⟨a1, a2, a3, a4, a5⟩
  rw [e]
  constructor
  · rintro ⟨h1, h2, h3, h4, h5, h6, h7, h8⟩; exact ⟨h1, h4, h5, h6, h7, ⟨h2, h8, h6⟩, h3⟩
  · rintro ⟨h1, h4, h5, h6, h7, ⟨h2, h8, -⟩, h3⟩; exact ⟨h1, h2, h3, h4, h5, h6, h7, h8⟩

omit [Unicode] in
theorem unclosed_iff (rest : List Byte) : Unclosed rest ↔ ∃ w, rest = ch '/' :: ch '*' :: w ∧ closing 1 w = none := by
  constructor
  · rintro ⟨⟨w, rfl⟩, hc⟩
    refine ⟨w, rfl, ?_⟩
    cases hcl : closing 1 w with
    | none => rfl
    | some m =>
      refine absurd ?_ (hc _ (closing_comment w m hcl))
      rw [List.prefix_append_right_inj]
      exact List.take_prefix m w
  · rintro ⟨w, rfl, hcl⟩
    refine ⟨⟨w, rfl⟩, ?_⟩
    rintro c ⟨body, hb, rfl⟩ ⟨v, hv⟩
    have e : txt "/*" ++ body ++ txt "*/" ++ v = ch '/' :: ch '*' :: (body ++ (txt "*/" ++ v)) := by
      rw [show txt "/*" = [ch '/', ch '*'] from rfl]; simp
    rw [e] at hv
    injection hv with _ hv
    injection hv with _ hv
    rw [← hv, closing_body body hb, closing] at hcl
    cases hcl

/-- Where no token begins, the first character is foreign or begins a comment that is not closed. -/
theorem first_none_iff (w : List Byte) : first w = none ↔ (w ≠ [] ∧ Foreign (decode w).1) ∨ Unclosed w := by
  rw [foreign_iff, unclosed_iff]
  cases w with
  | nil => simp [first]
  | cons b w =>
    by_cases hb : b = ch '/'
    · subst hb
      rw [first_slash, decode_char '/' (by decide)]
      have hl : ¬ ((ch '/' :: w) ≠ [] ∧ isSpace (rn '/') = false ∧ rn '/' ≠ rn '/' ∧ single (rn '/') = none ∧ rn '/' ≠ rn '-' ∧
          rn '/' ≠ rn '%' ∧ isKeyLikeStart (rn '/') = false ∧ isDigit (rn '/') = false) := fun h => h.2.2.1 rfl
      rw [or_iff_right hl]
      cases w with
      | nil => simp
      | cons c w =>
        simp only [List.head?_cons, Option.some.injEq, List.tail_cons, List.cons.injEq, true_and]
        by_cases h1 : c = ch '/'
        · subst h1
          rw [if_pos rfl]
          constructor
          · intro h; cases h
          · rintro ⟨_, ⟨h, -⟩, -⟩; exact absurd h (by decide)
        · rw [if_neg h1]
          by_cases h2 : c = ch '*'
          · subst h2
            rw [if_pos rfl]
            constructor
            · intro h; exact ⟨w, ⟨rfl, rfl⟩, by simpa using h⟩
            · rintro ⟨_, ⟨-, rfl⟩, h⟩; simpa using h
          · rw [if_neg h2]
            constructor
            · intro h; cases h
            · rintro ⟨_, ⟨h, -⟩, -⟩; exact absurd h h2
    · have hne : (decode (b :: w)).1 ≠ rn '/' := fun h => hb ((decode_is '/' (by decide) b w).1 h)
      have hr : ¬ ∃ v, b :: w = ch '/' :: ch '*' :: v ∧ closing 1 v = none := by
        rintro ⟨v, h, -⟩
        injection h with h _
        exact hb h
      rw [or_iff_left hr, first_cons]
      simp only [ne_eq, reduceCtorEq, not_false_eq_true, true_and]
      generalize (decode (b :: w)).1 = r at *
      generalize (decode (b :: w)).2 = k
      rw [if_neg hne]
      cases h1 : isSpace r
      · cases h2 : single r
        · by_cases h3 : r = rn '-'
          · simp only [Bool.false_eq_true, if_false, if_pos h3]
            split <;> simp [h3]
          · by_cases h4 : r = rn '%'
            · simp only [Bool.false_eq_true, if_false, if_neg h3, if_pos h4]
              split <;> simp [h4]
            · cases h5 : isKeyLikeStart r <;> cases h6 : isDigit r <;> simp [h3, h4, hne]
        · simp
      · simp

/-- How far the lexer has read when it fails. -/
theorem lexNext_fault (l : Lexer) :
    (l.rest ≠ [] ∧ Foreign (decode l.rest).1 → lexNext l = (.err, l.skip (decode l.rest).2)) ∧
    (Unclosed l.rest → lexNext l = (.err, l.skip l.rest.length)) := by
  rw [foreign_iff, unclosed_iff]
  refine ⟨?_, ?_⟩
  · rintro ⟨hr, h1, h2, h3, h4, h5, h6, h7⟩
    unfold lexNext
    rw [SM.bind_get, SM.bind_ok (readRune_at l hr)]
    simp only [h1, h3, h6, h7, if_neg h2, if_neg h4, if_neg h5, Bool.false_eq_true, if_false]
    rfl
  · rintro ⟨w, hw, hc⟩
    have hr : l.rest ≠ [] := by simp [hw]
    have hd : decode l.rest = (rn '/', 1) := by rw [hw]; exact decode_char '/' (by decide) _
    have hlen : l.rest.length = l.input.length - l.position := List.length_drop
    unfold lexNext
    rw [SM.bind_get, SM.bind_ok (readRune_at l hr), hd]
    simp only
    rw [if_neg (by rw [show isSpace (rn '/') = false from rfl]; decide), if_pos trivial]
    have r1 : (l.skip 1).rest = ch '*' :: w := by rw [skip_rest, hw]; rfl
    have e1 : eat '/' (l.skip 1) = (.ok false, l.skip 1) := by
      rw [eat_at '/' (by decide), r1, if_neg (by simp; decide)]
    have e2 : eat '*' (l.skip 1) = (.ok true, l.skip 2) := by
      rw [eat_at '*' (by decide), r1, if_pos (by simp), skip_skip]
    rw [SM.bind_ok e1]
    simp only [Bool.false_eq_true, if_false]
    rw [SM.bind_ok e2]
    simp only [if_true]
    have r2 : (l.skip 2).rest = w := by rw [skip_rest, hw]; rfl
    have hbl := blockLoop_at (l.input.length + 1) 1 (l.skip 2) (by rw [r2]; rw [hw] at hlen; simp at hlen; omega)
    rw [r2, hc] at hbl
    simp only at hbl
    rw [SM.bind_err hbl, skip_skip, hw]
    simp only [List.length_cons]
    congr 2
    omega

/-- C143. After any number of calls of `Next` that all returned tokens, the next call fails exactly if the text that is
left begins with a character that begins no token, or like a block comment that is not closed. The error says the line and
the column of that place; its position is that after the character, or that of the end of the text. -/
theorem fails_iff (input : List Byte) (n : Nat) (ts : List Token) (h : nexts n (Lexer.new input) = ts.map .ok)
    (rest : List Byte) (hi : input = textOf ts ++ rest) (m : Message) :
    saids (n + 1) (Lexer.new input) = ts.map .token ++ [.error m] ↔
      m.line = (textOf ts).count (ch '\n') ∧ m.column = ((textOf ts).reverse.takeWhile (· != ch '\n')).length ∧
      ((∃ c r, FirstChar rest c r ∧ Foreign r ∧ m.position = (textOf ts ++ c).length) ∨
       (Unclosed rest ∧ m.position = input.length)) := by
  obtain ⟨h1, h2, h3⟩ := afterNexts_inv n _ (inv_new input) rfl
  obtain ⟨a, b⟩ := afterNexts_at n _ (inv_new input) rfl rfl ts h
  have c1 := h1.line
  have c2 := h1.column
  have hts : saids n (Lexer.new input) = ts.map .token := by
    have := said_next input n
    rw [h] at this
    generalize saids n (Lexer.new input) = ss at this
    clear c1 c2 a b h h1 h2 h3 hi
    induction ss generalizing ts with
    | nil => cases ts with
      | nil => rfl
      | cons t ts => cases this
    | cons s ss ih => cases ts with
      | nil => cases this
      | cons t ts =>
        rw [List.map_cons, List.map_cons] at this
        injection this with e1 e2
        rw [List.map_cons, ← ih ts e2]
        cases s with
        | token u => injection e1 with e1; rw [e1]
        | error _ => cases e1
        | stuck => cases e1
  rw [said_snoc, hts, List.append_cancel_left_eq, List.cons.injEq]
  have hi0 : (Lexer.new input).input = input := rfl
  rw [show (Lexer.new input).offset = 0 from rfl, Nat.zero_add] at a
  have hpre : input.take (textOf ts).length = textOf ts := by rw [hi, List.take_left]
  rw [h2, hi0, a, hpre] at c1 c2
  generalize hl : afterNexts n (Lexer.new input) = l at *
  rw [hi0] at h2
  have hrest : l.rest = rest := by
    unfold Lexer.rest
    rw [h2, b, a, hi, List.drop_left]
  have hat := lexNext_first l h1.le h1.bound
  have hsaid : said l = match lexNext l with | (.ok t, _) => Said.token t | (.err, l) => .error (lexerError l) | _ => .stuck := by
    unfold said
    rw [nextTok_fresh _ h3]
    rfl
  obtain ⟨f1, f2⟩ := lexNext_fault l
  have hf := first_none_iff rest
  rw [hrest] at hat f1 f2
  simp only [and_true]
  cases hfr : first rest with
  | some tk =>
    have hat := lexNext_at l h1.le h1.bound
    change match first l.rest with | some (ty, n) => _ | none => _ at hat
    rw [hrest, hfr] at hat
    simp only at hat
    rw [hsaid, hat]
    have hno : ¬ ((rest ≠ [] ∧ Foreign (decode rest).1) ∨ Unclosed rest) := fun k => by
      rw [← hf, hfr] at k; cases k
    constructor
    · intro k; cases k
    · rintro ⟨-, -, ⟨c, r, k1, k2, -⟩ | ⟨k, -⟩⟩
      · obtain ⟨k3, rfl, -⟩ := (firstChar_iff _ _ _).1 k1
        exact absurd (.inl ⟨k3, k2⟩) hno
      · exact absurd (.inr k) hno
  | none =>
    have line : ∀ j, (lexerError (l.skip j)).line = (textOf ts).count (ch '\n') := fun j => c1
    have column : ∀ j, (lexerError (l.skip j)).column = ((textOf ts).reverse.takeWhile (· != ch '\n')).length := fun j => c2
    have position : ∀ j, (lexerError (l.skip j)).position = (textOf ts).length + j := fun j => by
      show l.position + j = _
      rw [b, a]
    have apart : rest ≠ [] ∧ Foreign (decode rest).1 → Unclosed rest → False := by
      intro k1 k2
      obtain ⟨w, rfl, -⟩ := (unclosed_iff _).1 k2
      rw [decode_char '/' (by decide)] at k1
      exact ((foreign_iff _).1 k1.2).2.1 rfl
    have key : ∀ j, lexNext l = (.err, l.skip j) →
        (said l = .error m ↔
        m.line = (textOf ts).count (ch '\n') ∧ m.column = ((textOf ts).reverse.takeWhile (· != ch '\n')).length ∧
          m.position = (textOf ts).length + j) := by
      intro j hj
      rw [hsaid, hj]
      simp only [Said.error.injEq]
      constructor
      · rintro rfl; exact ⟨line j, column j, position j⟩
      · rintro ⟨k1, k2, k3⟩
        rw [← line j] at k1
        rw [← column j] at k2
        rw [← position j] at k3
        cases m
        simp only at k1 k2 k3
        rw [k1, k2, k3]
    rcases hf.1 hfr with k | k
    · rw [key _ (f1 k)]
      have hp := decode_pos _ k.1
      refine and_congr_right fun _ => and_congr_right fun _ => ⟨fun e => .inl ⟨_, _, (firstChar_iff _ _ _).2 ⟨k.1, rfl, rfl⟩, k.2, ?_⟩, ?_⟩
      · rw [e, List.length_append, List.length_take]; omega
      · rintro (⟨c, r, k1, -, e⟩ | ⟨k2, -⟩)
        · obtain ⟨-, -, rfl⟩ := (firstChar_iff _ _ _).1 k1
          rw [e, List.length_append, List.length_take]; omega
        · exact (apart k k2).elim
    · rw [key _ (f2 k)]
      refine and_congr_right fun _ => and_congr_right fun _ => ⟨fun e => .inr ⟨k, ?_⟩, ?_⟩
      · rw [e, hi, List.length_append]
      · rintro (⟨c, r, k1, k2, -⟩ | ⟨-, e⟩)
        · obtain ⟨k3, rfl, -⟩ := (firstChar_iff _ _ _).1 k1
          exact (apart ⟨k3, k2⟩ k).elim
        · rw [e, hi, List.length_append]

end

example : letI := someTables
    nexts 2 (Lexer.new (txt "a\n#b")) = [⟨.id, 0, 0, 0, txt "a"⟩, ⟨.whitespace, 1, 1, 0, txt "\n"⟩].map .ok ∧
    FirstChar (txt "#b") (txt "#") (rn '#') ∧ Foreign (rn '#') ∧
    saids 3 (Lexer.new (txt "a\n#b")) = [⟨.id, 0, 0, 0, txt "a"⟩, ⟨.whitespace, 1, 1, 0, txt "\n"⟩].map .token ++ [.error ⟨1, 0, 3⟩] :=
  ⟨by decide, (firstChar_iff _ _ _).2 (by decide), (@foreign_iff someTables _).2 (by decide), by decide⟩
example : letI := someTables
    FirstChar (0x80 :: txt "b") [0x80] 0xFFFD ∧ Foreign 0xFFFD ∧ FirstChar (0xE2 :: 0x82 :: 0xAC :: txt "b") [0xE2, 0x82, 0xAC] 0x20AC :=
  ⟨(firstChar_iff _ _ _).2 (by decide), (@foreign_iff someTables _).2 (by decide), (firstChar_iff _ _ _).2 (by decide)⟩
example : letI := someTables
    Unclosed (txt "/* /* */") ∧
    saids 3 (Lexer.new (txt "a /* /* */")) = [⟨.id, 0, 0, 0, txt "a"⟩, ⟨.whitespace, 1, 1, 0, txt " "⟩].map .token ++ [.error ⟨0, 2, 10⟩] :=
  ⟨(unclosed_iff _).2 ⟨_, rfl, by decide⟩, by decide +kernel⟩

end Verif.Wit
