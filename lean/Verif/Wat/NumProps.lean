import Verif.Wat.LexProps

/-!
# Number words of the WAT lexer: C44, C45
-/

namespace Verif.Wat

namespace Spec

/-- A decimal digit. -/
def digit (b : Byte) : Bool := 48 ≤ b.toNat && b.toNat ≤ 57

/-- A hexadecimal digit. -/
def hexDigit (b : Byte) : Bool := digit b || (97 ≤ b.toNat && b.toNat ≤ 102) || (65 ≤ b.toNat && b.toNat ≤ 70)

/-- Digits with single underscores between them: `num` and `hexnum` of the WebAssembly text format. -/
inductive Numeral (d : Byte → Bool) : List Byte → Prop
  | one (b : Byte) : d b = true → Numeral d [b]
  | more (b : Byte) (s : List Byte) : d b = true → Numeral d s → Numeral d (b :: s)
  | under (b : Byte) (s : List Byte) : d b = true → Numeral d s → Numeral d (b :: ch '_' :: s)

/-- An optional sign. -/
def Sign (s : List Byte) : Prop := s = [] ∨ s = txt "+" ∨ s = txt "-"

/-- An integer of the WebAssembly text format. -/
def Integer (w : List Byte) : Prop :=
  ∃ sg body, Sign sg ∧ w = sg ++ body ∧ (Numeral digit body ∨ ∃ h, body = txt "0x" ++ h ∧ Numeral hexDigit h)

/-- A digit, then digits and underscores in any order. -/
def Loose (d : Byte → Bool) (s : List Byte) : Prop :=
  ∃ b r, s = b :: r ∧ d b = true ∧ ∀ c ∈ r, d c = true ∨ c = ch '_'

/-- Underscores stand only between other characters, one at a time. -/
def Tidy (w : List Byte) : Prop := ¬ txt "__" <:+: w ∧ ¬ txt "_" <:+ w

end Spec

open Spec

theorem isDigit_eq : isDigit = digit := by
  funext b; revert b; decide

theorem isHex_eq : isHex = hexDigit := by
  funext b; revert b; decide

/-- The loop accepts all digits and underscores. -/
theorem digitsLoop_all (d : Byte → Bool) (st : Bool) (w : List Byte) (i : Nat) (h : ∀ c ∈ w, d c = true ∨ c = ch '_') :
    digitsLoop d st w i = (i + w.length, true) := by
  induction w generalizing i with
  | nil => simp [digitsLoop]
  | cons b w ih =>
    have hw : ∀ c ∈ w, d c = true ∨ c = ch '_' := fun c hc => h c (by simp [hc])
    rw [digitsLoop, ih (i + 1) hw]
    have : (i + 1 + w.length, true) = (i + (b :: w).length, true) := by simp only [List.length_cons]; congr 1; omega
    rw [this]
    by_cases hb : b = ch '_'
    · rw [if_pos hb]
    · rw [if_neg hb, if_pos ((h b (by simp)).resolve_right hb)]

/-- What the loop passes over, and where it stops. -/
theorem digitsLoop_stop (d : Byte → Bool) (st : Bool) (w : List Byte) (i : Nat) :
    (∀ c ∈ w, d c = true ∨ c = ch '_') ∨
    ∃ p b r, w = p ++ b :: r ∧ (∀ c ∈ p, d c = true ∨ c = ch '_') ∧ d b = false ∧ b ≠ ch '_' ∧
      digitsLoop d st w i = (i + p.length, st) := by
  induction w generalizing i with
  | nil => exact .inl (by simp)
  | cons b w ih =>
    by_cases hb : d b = true ∨ b = ch '_'
    · have e : digitsLoop d st (b :: w) i = digitsLoop d st w (i + 1) := by
        rw [digitsLoop]
        by_cases h2 : b = ch '_'
        · rw [if_pos h2]
        · rw [if_neg h2, if_pos (hb.resolve_right h2)]
      rcases ih (i + 1) with h | ⟨p, c, r, h1, h2, h3, h4, h5⟩
      · refine .inl ?_
        intro c hc
        rcases List.mem_cons.1 hc with rfl | hc
        · exact hb
        · exact h c hc
      · refine .inr ⟨b :: p, c, r, by rw [h1]; rfl, ?_, h3, h4, ?_⟩
        · intro c hc
          rcases List.mem_cons.1 hc with rfl | hc
          · exact hb
          · exact h2 c hc
        · rw [e, h5]; simp only [List.length_cons]; congr 1; omega
    · have h1 : d b = false := by simpa using fun h => hb (.inl h)
      have h2 : b ≠ ch '_' := fun h => hb (.inr h)
      exact .inr ⟨[], b, w, rfl, by simp, h1, h2, by rw [digitsLoop, if_neg h2, h1]; rfl⟩

/-- `num` is true exactly on loose numerals. -/
theorem num_iff (s : List Byte) : (num s 0).2 = true ↔ Loose digit s := by
  unfold num digits
  rw [isDigit_eq]
  cases s with
  | nil => simp [Loose]
  | cons b r =>
    simp only [List.getElem?_cons_zero, List.drop_zero]
    by_cases hb : digit b = true
    · simp only [hb, Bool.not_true, Bool.false_eq_true, if_false]
      rcases digitsLoop_stop digit false (b :: r) 0 with h | ⟨p, c, q, h1, h2, h3, h4, h5⟩
      · rw [digitsLoop_all _ _ _ _ h]
        simp only [true_iff]
        exact ⟨b, r, rfl, hb, fun c hc => h c (by simp [hc])⟩
      · rw [h5]
        simp only [Bool.false_eq_true, false_iff]
        rintro ⟨b', r', he, hb', hr⟩
        have : c ∈ b' :: r' := by rw [← he, h1]; simp
        rcases List.mem_cons.1 this with rfl | hc
        · rw [h3] at hb'; cases hb'
        · rcases hr c hc with h | h
          · rw [h3] at h; cases h
          · exact h4 h
    · have hb : digit b = false := by simpa using hb
      simp only [hb, Bool.not_false, if_true, Bool.false_eq_true, false_iff]
      rintro ⟨b', r', he, hb', -⟩
      cases he
      rw [hb] at hb'; cases hb'

/-- `hexnum` is true and reaches the end exactly on loose hexadecimal numerals. -/
theorem hexnum_iff (s : List Byte) : ((hexnum s 0).2 = true ∧ (hexnum s 0).1 = s.length) ↔ Loose hexDigit s := by
  unfold hexnum digits
  rw [isHex_eq]
  cases s with
  | nil => simp [Loose]
  | cons b r =>
    simp only [List.getElem?_cons_zero, List.drop_zero]
    by_cases hb : hexDigit b = true
    · simp only [hb, Bool.not_true, Bool.false_eq_true, if_false]
      rcases digitsLoop_stop hexDigit true (b :: r) 0 with h | ⟨p, c, q, h1, h2, h3, h4, h5⟩
      · rw [digitsLoop_all _ _ _ _ h]
        simp only [true_and, Nat.zero_add, true_iff]
        exact ⟨b, r, rfl, hb, fun c hc => h c (by simp [hc])⟩
      · rw [h5]
        constructor
        · intro hl
          have := hl.2
          rw [h1] at this
          simp at this
        · rintro ⟨b', r', he, hb', hr⟩
          exfalso
          have : c ∈ b' :: r' := by rw [← he, h1]; simp
          rcases List.mem_cons.1 this with rfl | hc
          · rw [h3] at hb'; cases hb'
          · rcases hr c hc with h | h
            · rw [h3] at h; cases h
            · exact h4 h
    · have hb : hexDigit b = false := by simpa using hb
      simp only [hb, Bool.not_false, if_true, Bool.false_eq_true, false_and, false_iff]
      rintro ⟨b', r', he, hb', -⟩
      cases he
      rw [hb] at hb'; cases hb'

/-- The word without its sign. -/
theorem unsigned_split (w : List Byte) : ∃ sg, Sign sg ∧ w = sg ++ unsigned w := by
  cases w with
  | nil => exact ⟨[], .inl rfl, rfl⟩
  | cons b w =>
    unfold unsigned
    by_cases h1 : b = ch '+'
    · exact ⟨txt "+", .inr (.inl rfl), by simp [h1, txt]⟩
    · by_cases h2 : b = ch '-'
      · exact ⟨txt "-", .inr (.inr rfl), by simp [h2, txt]⟩
      · exact ⟨[], .inl rfl, by simp [h1, h2]⟩

/-- A body that begins with neither sign is what `unsigned` leaves. -/
theorem unsigned_of (sg body : List Byte) (hs : Sign sg) (h : body.head? ≠ some (ch '+') ∧ body.head? ≠ some (ch '-'))
    (hne : body ≠ []) : unsigned (sg ++ body) = body := by
  rcases hs with rfl | rfl | rfl
  · cases body with
    | nil => exact absurd rfl hne
    | cons b body =>
      simp only [List.head?_cons, ne_eq, Option.some.injEq] at h
      simp [unsigned, h.1, h.2]
  · rfl
  · rfl

theorem loose_head (d : Byte → Bool) (s : List Byte) (h : Loose d s) (hd : d (ch '+') = false ∧ d (ch '-') = false) :
    s ≠ [] ∧ s.head? ≠ some (ch '+') ∧ s.head? ≠ some (ch '-') := by
  obtain ⟨b, r, rfl, hb, -⟩ := h
  refine ⟨by simp, ?_, ?_⟩ <;> intro he <;> simp only [List.head?_cons, Option.some.injEq] at he <;> rw [he] at hb
  · rw [hd.1] at hb; cases hb
  · rw [hd.2] at hb; cases hb

theorem isInteger_unsigned (w : List Byte) : isInteger w = true ↔ (Loose digit (unsigned w) ∨ ∃ h, unsigned w = txt "0x" ++ h ∧ Loose hexDigit h) := by
  unfold isInteger
  by_cases h0 : w.length = 0
  · rw [if_pos h0, List.length_eq_zero_iff.1 h0]
    simp only [Bool.false_eq_true, unsigned, false_iff, not_or, not_exists]
    refine ⟨?_, ?_⟩
    · rintro ⟨b, r, h, -⟩; cases h
    · intro h hh; have := congrArg List.length hh.1; simp [txt] at this
  · rw [if_neg h0]
    simp only
    by_cases h1 : (num (unsigned w) 0).2 = true
    · rw [if_pos h1]
      simp only [true_iff]
      exact .inl ((num_iff _).1 h1)
    · rw [if_neg h1]
      have h1' : ¬ Loose digit (unsigned w) := fun h => h1 ((num_iff _).2 h)
      by_cases h2 : (txt "0x").isPrefixOf (unsigned w) = true
      · rw [if_pos h2]
        rw [List.isPrefixOf_iff_prefix] at h2
        obtain ⟨h, hh⟩ := h2
        rw [← hh, List.drop_left' (by rfl)]
        have := hexnum_iff h
        have e : (if (hexnum h 0).2 = true then decide ((hexnum h 0).1 = h.length) else false) = true ↔ Loose hexDigit h := by
          rw [← this]
          by_cases h3 : (hexnum h 0).2 = true
          · rw [if_pos h3]; simp [h3]
          · rw [if_neg h3]; simp [h3]
        rw [e]
        constructor
        · intro hl; exact .inr ⟨h, rfl, hl⟩
        · rintro (hl | ⟨h', he, hl⟩)
          · rw [hh] at hl; exact absurd hl h1'
          · rwa [List.append_cancel_left he]
      · rw [if_neg h2]
        simp only [Bool.false_eq_true, false_iff, not_or, not_exists]
        refine ⟨h1', ?_⟩
        intro h hh
        apply h2
        rw [List.isPrefixOf_iff_prefix]
        exact ⟨h, hh.1.symm⟩

/-- C44, what is accepted: an optional sign, then a decimal digit or `0x` and a hexadecimal digit, then digits and
underscores in any order. -/
theorem isInteger_iff (w : List Byte) : isInteger w = true ↔
    ∃ sg body, Sign sg ∧ w = sg ++ body ∧ (Loose digit body ∨ ∃ h, body = txt "0x" ++ h ∧ Loose hexDigit h) := by
  rw [isInteger_unsigned]
  constructor
  · intro h
    obtain ⟨sg, hs, hw⟩ := unsigned_split w
    exact ⟨sg, _, hs, hw, h⟩
  · rintro ⟨sg, body, hs, rfl, h⟩
    have hh : body ≠ [] ∧ body.head? ≠ some (ch '+') ∧ body.head? ≠ some (ch '-') := by
      rcases h with h | ⟨x, rfl, -⟩
      · exact loose_head digit body h ⟨by decide, by decide⟩
      · refine ⟨by simp [txt], ?_, ?_⟩ <;> simp [txt] <;> decide
    rw [unsigned_of sg body hs hh.2 hh.1]
    exact h

theorem numeral_loose (d : Byte → Bool) (s : List Byte) (h : Numeral d s) : Loose d s := by
  induction h with
  | one b hb => exact ⟨b, [], rfl, hb, by simp⟩
  | more b s hb hs ih =>
    refine ⟨b, s, rfl, hb, ?_⟩
    obtain ⟨c, r, rfl, hc, hr⟩ := ih
    intro x hx
    rcases List.mem_cons.1 hx with rfl | hx
    · exact .inl hc
    · exact hr x hx
  | under b s hb hs ih =>
    refine ⟨b, ch '_' :: s, rfl, hb, ?_⟩
    obtain ⟨c, r, rfl, hc, hr⟩ := ih
    intro x hx
    rcases List.mem_cons.1 hx with rfl | hx
    · exact .inr rfl
    rcases List.mem_cons.1 hx with rfl | hx
    · exact .inl hc
    · exact hr x hx

/-- A loose numeral with its underscores between digits is a numeral. -/
theorem loose_tidy (d : Byte → Bool) (b : Byte) (r : List Byte) (hb : d b = true) (hr : ∀ c ∈ r, d c = true ∨ c = ch '_')
    (hn : ¬ txt "__" <:+: b :: r) (he : ¬ txt "_" <:+ b :: r) : Numeral d (b :: r) := by
  induction hlen : r.length using Nat.strongRecOn generalizing b r with
  | ind n ih =>
    cases r with
    | nil => exact .one b hb
    | cons c r =>
      have sub : ∀ x, x <:+ b :: c :: r → (¬ txt "__" <:+: x) ∧ (¬ txt "_" <:+ x) := fun x hx =>
        ⟨fun h => hn (h.trans hx.isInfix), fun h => he (h.trans hx)⟩
      rcases hr c (by simp) with hc | hc
      · refine .more b _ hb (ih r.length (by simp at hlen; omega) c r hc (fun x hx => hr x (by simp [hx])) ?_ ?_ rfl)
        · exact (sub _ (List.suffix_cons _ _)).1
        · exact (sub _ (List.suffix_cons _ _)).2
      · subst hc
        cases r with
        | nil => exact absurd (List.suffix_cons b [ch '_']) he
        | cons e r =>
          rcases hr e (by simp) with h2 | h2
          · refine .under b _ hb (ih r.length (by simp at hlen; omega) e r h2 (fun x hx => hr x (by simp [hx])) ?_ ?_ rfl)
            · exact (sub _ ((List.suffix_cons _ _).trans (List.suffix_cons _ _))).1
            · exact (sub _ ((List.suffix_cons _ _).trans (List.suffix_cons _ _))).2
          · subst h2
            exact absurd ⟨[b], r, rfl⟩ hn

/-- Integers of the format are accepted. -/
theorem integer_accepted (w : List Byte) (h : Integer w) : isInteger w = true := by
  rw [isInteger_iff]
  obtain ⟨sg, body, hs, hw, h⟩ := h
  refine ⟨sg, body, hs, hw, ?_⟩
  rcases h with h | ⟨x, hx, h⟩
  · exact .inl (numeral_loose _ _ h)
  · exact .inr ⟨x, hx, numeral_loose _ _ h⟩

theorem integer_tidy (w : List Byte) (ht : Tidy w) : isInteger w = true ↔ Integer w := by
  refine ⟨?_, integer_accepted w⟩
  rw [isInteger_iff]
  rintro ⟨sg, body, hs, rfl, h⟩
  refine ⟨sg, body, hs, rfl, ?_⟩
  have suf : ∀ x, x <:+ sg ++ body → (¬ txt "__" <:+: x) ∧ (¬ txt "_" <:+ x) := fun x hx =>
    ⟨fun h => ht.1 (h.trans hx.isInfix), fun h => ht.2 (h.trans hx)⟩
  rcases h with ⟨b, r, rfl, hb, hr⟩ | ⟨x, rfl, b, r, rfl, hb, hr⟩
  · obtain ⟨h1, h2⟩ := suf _ (List.suffix_append _ _)
    exact .inl (loose_tidy digit b r hb hr h1 h2)
  · obtain ⟨h1, h2⟩ := suf (b :: r) ((List.suffix_append _ _).trans (List.suffix_append _ _))
    exact .inr ⟨_, rfl, loose_tidy hexDigit b r hb hr h1 h2⟩

theorem idChar_not (b : Byte) (h : isIdChar b = true) :
    isSpace b = false ∧ b ≠ ch '(' ∧ b ≠ ch ')' ∧ b ≠ ch '"' ∧ b ≠ ch ';' := by
  revert b; decide

/-- The token of a text that is one word. -/
theorem word_token (w : List Byte) (hne : w ≠ []) (hw : ∀ b ∈ w, b ∈ wordChars) (hd : w.head? ≠ some (ch '$')) :
    ∃ ty, classify .reserved w = .ok ty ∧ (nextTok (Lexer.new w)).1 = .ok ⟨ty, 0, 0, 0, w⟩ := by
  cases w with
  | nil => exact absurd rfl hne
  | cons b w =>
    have hb : isIdChar b = true := (isIdChar_iff b).2 (hw b (by simp))
    have hrun : run isIdChar (w ++ []) = w.length :=
      run_stop _ _ _ (fun x hx => (isIdChar_iff x).2 (hw x (by simp [hx]))) (fun x hx => by simp at hx)
    rw [List.append_nil] at hrun
    have hd : b ≠ ch '$' := by simpa using hd
    obtain ⟨h0, h1, h2, h3, h4⟩ := idChar_not b hb
    obtain ⟨ty, c1, c2⟩ := token_at (b :: w) 0 [] rfl (b :: w) [] (by simp [textOf]) .reserved (by
      rw [List.append_nil, first, if_neg (by simp [h0]), if_neg h1, if_neg h2, if_neg h3, if_neg h4, if_pos hb]
      simp only
      rw [hrun, List.length_cons, Nat.add_comm, if_neg (by simp [hd])])
    refine ⟨ty, c1, ?_⟩
    simp only [nexts, List.nil_append, List.map_cons, List.map_nil, List.cons.injEq, and_true] at c2
    rw [c2]
    rfl

theorem classify_integer (w : List Byte) : classify .reserved w = .ok .integer ↔ isInteger w = true := by
  unfold classify
  rw [if_pos rfl]
  by_cases h : isInteger w = true
  · simp [h]
  · rw [if_neg h]
    obtain ⟨f, hf⟩ := isFloat_ok w
    rw [hf, Res.bind_ok]
    simp only [h, Bool.false_eq_true, iff_false]
    split
    · simp
    · unfold keyword
      split
      · rename_i hk
        split at hk
        · cases hk; simp
        · split at hk
          · cases hk; simp
          · cases hk
      · simp

/-- C44, for words with no underscore at the end or after another underscore. Such a word is returned as an integer
exactly when it is an integer of the WebAssembly text format. Missing: words with such underscores, which can be
returned as integers (`untidy_integer`); `integer_words` says for all words what is accepted. -/
theorem integer_words_partial (w : List Byte) (hne : w ≠ []) (hw : ∀ b ∈ w, b ∈ wordChars) (hd : w.head? ≠ some (ch '$'))
    (ht : Tidy w) :
    ∃ t : Token, (nextTok (Lexer.new w)).1 = .ok t ∧ t.capture = w ∧ (t.type = .integer ↔ Integer w) := by
  obtain ⟨ty, h1, h2⟩ := word_token w hne hw hd
  refine ⟨_, h2, rfl, ?_⟩
  rw [← integer_tidy w ht, ← classify_integer, h1]
  simp

/-- C44, what is returned as an integer. -/
theorem integer_words (w : List Byte) (hne : w ≠ []) (hw : ∀ b ∈ w, b ∈ wordChars) (hd : w.head? ≠ some (ch '$')) :
    ∃ t : Token, (nextTok (Lexer.new w)).1 = .ok t ∧ t.capture = w ∧ (Integer w → t.type = .integer) ∧
      (t.type = .integer ↔ ∃ sg body, Sign sg ∧ w = sg ++ body ∧
        (Loose digit body ∨ ∃ h, body = txt "0x" ++ h ∧ Loose hexDigit h)) := by
  obtain ⟨ty, h1, h2⟩ := word_token w hne hw hd
  have e : ty = .integer ↔ isInteger w = true := by rw [← classify_integer, h1]; simp
  exact ⟨_, h2, rfl, fun h => e.2 (integer_accepted w h), by rw [← isInteger_iff]; exact e⟩

theorem numeral_last (d : Byte → Bool) (s : List Byte) (h : Numeral d s) : ∃ p b, s = p ++ [b] ∧ d b = true := by
  induction h with
  | one b hb => exact ⟨[], b, rfl, hb⟩
  | more b s hb hs ih => obtain ⟨p, c, rfl, hc⟩ := ih; exact ⟨b :: p, c, rfl, hc⟩
  | under b s hb hs ih => obtain ⟨p, c, rfl, hc⟩ := ih; exact ⟨b :: ch '_' :: p, c, rfl, hc⟩

/-- C44 fails: `1_` is returned as an integer and is none. -/
theorem untidy_integer : (nextTok (Lexer.new (txt "1_"))).1 = .ok ⟨.integer, 0, 0, 0, txt "1_"⟩ ∧ ¬ Integer (txt "1_") := by
  refine ⟨by decide, ?_⟩
  rintro ⟨sg, body, hs, hw, h⟩
  have last : ∀ (d : Byte → Bool) (p : List Byte), d (ch '_') = false → Numeral d p → p <:+ txt "1_" → False := by
    intro d p hd hn hp
    obtain ⟨q, b, rfl, hb⟩ := numeral_last d p hn
    have := hp.mem (a := b) (by simp)
    obtain ⟨u, hu⟩ := hp
    have e : (u ++ (q ++ [b])).getLast? = some b := by rw [← List.append_assoc]; simp
    rw [hu] at e
    have : (txt "1_").getLast? = some (ch '_') := by decide
    rw [this] at e
    cases e
    rw [hd] at hb; cases hb
  rcases h with h | ⟨x, rfl, h⟩
  · exact last digit body (by decide) h ⟨sg, hw.symm⟩
  · exact last hexDigit x (by decide) h ⟨sg ++ txt "0x", by rw [hw]; simp⟩

example : Tidy (txt "-0x1_F") ∧ Integer (txt "-0x1_F") ∧ (∀ b ∈ txt "-0x1_F", b ∈ wordChars) := by
  refine ⟨⟨?_, ?_⟩, ⟨txt "-", txt "0x1_F", .inr (.inr rfl), rfl, .inr ⟨txt "1_F", rfl, .under _ _ (by decide) (.one _ (by decide))⟩⟩, by decide⟩
  · intro h
    have := h.sublist.count_le (ch '_')
    revert this; decide
  · rw [← List.isSuffixOf_iff_suffix]; decide

/-! ## C45 -/

namespace Spec

/-- The parts of a float literal: hexadecimal or not, whole part, whether there is a point, fraction, exponent with its
letter, sign and digits. -/
structure Lit where
  hex : Bool
  whole : List Byte
  point : Bool
  fraction : List Byte
  exponent : Option (Byte × List Byte × List Byte)

/-- The text of a float literal. -/
def Lit.text (l : Lit) : List Byte :=
  (if l.hex then txt "0x" else []) ++ l.whole ++ (if l.point then txt "." else []) ++ l.fraction ++
    match l.exponent with
    | some (c, sg, n) => [c] ++ sg ++ n
    | none => []

/-- Whether the parts are those of a literal of the WebAssembly text format. -/
structure Lit.Valid (l : Lit) : Prop where
  whole : Numeral (if l.hex then hexDigit else digit) l.whole
  fraction : l.fraction ≠ [] → l.point = true ∧ Numeral (if l.hex then hexDigit else digit) l.fraction
  exponent : ∀ c sg n, l.exponent = some (c, sg, n) →
    (if l.hex then c = ch 'p' ∨ c = ch 'P' else c = ch 'e' ∨ c = ch 'E') ∧ Sign sg ∧ Numeral digit n

end Spec

open Spec

/-- The digits at a place of a text. -/
theorem digits_at (d : Byte → Bool) (st : Bool) (pre p r : List Byte) (h : Loose d p)
    (hr : ∀ b, r.head? = some b → d b = false ∧ b ≠ ch '_') :
    digits d st (pre ++ (p ++ r)) pre.length = (pre.length + p.length, if r = [] then true else st) := by
  obtain ⟨b, q, rfl, hb, hq⟩ := h
  unfold digits
  have e : (pre ++ (b :: q ++ r))[pre.length]? = some b := by simp
  rw [e]
  simp only [hb, Bool.not_true, Bool.false_eq_true, if_false]
  rw [List.drop_left]
  have all : ∀ c ∈ b :: q, d c = true ∨ c = ch '_' := by
    intro c hc
    rcases List.mem_cons.1 hc with rfl | hc
    · exact .inl hb
    · exact hq c hc
  revert all
  generalize b :: q = p
  intro all
  generalize pre.length = i
  clear e hb hq
  induction p generalizing i with
  | nil =>
    cases r with
    | nil => simp [digitsLoop]
    | cons c r =>
      obtain ⟨h1, h2⟩ := hr c rfl
      rw [List.nil_append, digitsLoop, if_neg h2, h1]
      simp
  | cons c p ih =>
    have e2 : digitsLoop d st (c :: p ++ r) i = digitsLoop d st (p ++ r) (i + 1) := by
      rw [List.cons_append, digitsLoop]
      by_cases h2 : c = ch '_'
      · rw [if_pos h2]
      · rw [if_neg h2, if_pos ((all c (by simp)).resolve_right h2)]
    rw [e2, ih (fun x hx => all x (by simp [hx])) (i + 1)]
    simp only [List.length_cons]
    congr 1; omega

theorem byteAt_at (pre r : List Byte) (b : Byte) (i : Nat) (h : i = pre.length) : byteAt (pre ++ b :: r) i = .ok b := by
  subst h; simp [byteAt]

/-- Sign and digits at the end of a text. -/
theorem exponent_at (pre sg n : List Byte) (hs : Sign sg) (hn : Numeral digit n) (i : Nat) (hi : i = pre.length) :
    (exponent (pre ++ (sg ++ n)) i).2 = true ↔ sg ≠ [] := by
  subst hi
  have hl := numeral_loose _ _ hn
  rcases hs with rfl | rfl | rfl
  · obtain ⟨b, r, rfl, hb, -⟩ := hl
    have e : sign (pre ++ ([] ++ b :: r)) pre.length = (pre.length, false) := by
      have h1 : b ≠ ch '+' ∧ b ≠ ch '-' := by
        refine ⟨?_, ?_⟩ <;> rintro rfl <;> revert hb <;> decide
      simp [sign, h1.1, h1.2]
    simp only [exponent, e]
    simp
  all_goals unfold exponent
  · have e : sign (pre ++ (txt "+" ++ n)) pre.length = (pre.length + 1, true) := by simp [sign, txt]
    have := digits_at digit false (pre ++ txt "+") n [] hl (by simp)
    simp only [List.append_nil, List.append_assoc, List.length_append, if_true] at this
    simp only [e, Bool.not_true, Bool.false_eq_true, if_false, num, isDigit_eq]
    rw [show (txt "+").length = 1 from rfl] at this
    rw [this]; simp [txt]
  · have e : sign (pre ++ (txt "-" ++ n)) pre.length = (pre.length + 1, true) := by simp [sign, txt]
    have := digits_at digit false (pre ++ txt "-") n [] hl (by simp)
    simp only [List.append_nil, List.append_assoc, List.length_append, if_true] at this
    simp only [e, Bool.not_true, Bool.false_eq_true, if_false, num, isDigit_eq]
    rw [show (txt "-").length = 1 from rfl] at this
    rw [this]; simp [txt]

namespace Spec

/-- A float of the WebAssembly text format that is no integer. -/
def Float (w : List Byte) : Prop :=
  ∃ sg, Sign sg ∧ ((∃ l : Lit, l.Valid ∧ (l.point = true ∨ l.exponent ≠ none) ∧ w = sg ++ l.text) ∨
    w = sg ++ txt "inf" ∨ w = sg ++ txt "nan" ∨ ∃ n, Numeral hexDigit n ∧ w = sg ++ txt "nan:0x" ++ n)

/-- The characters in float literals with digits. -/
def litChars : List Byte := txt "0123456789abcdefABCDEF_.xpP+-"

end Spec

theorem numeral_chars (d : Byte → Bool) (hd : ∀ b, d b = true → hexDigit b = true) (s : List Byte) (h : Numeral d s) :
    ∀ b ∈ s, b ∈ litChars := by
  have key : ∀ b, hexDigit b = true ∨ b = ch '_' → b ∈ litChars := by decide
  obtain ⟨b, r, rfl, hb, hr⟩ := numeral_loose d s h
  intro x hx
  rcases List.mem_cons.1 hx with rfl | hx
  · exact key _ (.inl (hd _ hb))
  · exact key _ ((hr x hx).imp_left (hd x))

theorem digit_hex (b : Byte) (h : digit b = true) : hexDigit b = true := by simp [hexDigit, h]

theorem sign_chars (sg : List Byte) (h : Sign sg) : ∀ b ∈ sg, b ∈ litChars := by
  rcases h with rfl | rfl | rfl <;> decide

theorem lit_chars (l : Lit) (h : l.Valid) : ∀ b ∈ l.text, b ∈ litChars := by
  have hd : ∀ b, (if l.hex then hexDigit else digit) b = true → hexDigit b = true := by
    intro b hb
    split at hb
    · exact hb
    · exact digit_hex b hb
  intro b hb
  unfold Lit.text at hb
  rcases List.mem_append.1 hb with hb | hb
  · rcases List.mem_append.1 hb with hb | hb
    · rcases List.mem_append.1 hb with hb | hb
      · rcases List.mem_append.1 hb with hb | hb
        · split at hb
          · exact (show ∀ b ∈ txt "0x", b ∈ litChars by decide) b hb
          · simp at hb
        · exact numeral_chars _ hd _ h.whole b hb
      · split at hb
        · exact (show ∀ b ∈ txt ".", b ∈ litChars by decide) b hb
        · simp at hb
    · exact numeral_chars _ hd _ (h.fraction (by intro he; rw [he] at hb; simp at hb)).2 b hb
  · cases he : l.exponent with
    | none => rw [he] at hb; simp at hb
    | some x =>
      obtain ⟨c, sg, n⟩ := x
      rw [he] at hb
      obtain ⟨h1, h2, h3⟩ := h.exponent c sg n he
      simp only [List.append_assoc] at hb
      rcases List.mem_append.1 hb with hb | hb
      · rw [List.mem_singleton] at hb
        subst hb
        split at h1
        · rcases h1 with rfl | rfl <;> decide
        · rcases h1 with rfl | rfl <;> decide
      rcases List.mem_append.1 hb with hb | hb
      · exact sign_chars sg h2 b hb
      · exact numeral_chars digit digit_hex _ h3 b hb

theorem numeral_head (d : Byte → Bool) (s : List Byte) (h : Numeral d s) : ∃ b r, s = b :: r ∧ d b = true := by
  obtain ⟨b, r, h1, h2, -⟩ := numeral_loose d s h
  exact ⟨b, r, h1, h2⟩

/-- What follows the whole part. -/
def Lit.tail (l : Lit) : List Byte :=
  (if l.point then txt "." else []) ++ (l.fraction ++
    match l.exponent with
    | some (c, sg, n) => [c] ++ (sg ++ n)
    | none => [])

theorem lit_text (l : Lit) : l.text = (if l.hex then txt "0x" else []) ++ (l.whole ++ Lit.tail l) := by
  unfold Lit.text Lit.tail
  cases l.exponent <;> simp

theorem tail_head (l : Lit) (hv : l.Valid) (h : l.point = true ∨ l.exponent ≠ none) :
    ∃ b r, Lit.tail l = b :: r ∧ digit b = false ∧ b ≠ ch '_' ∧ b ≠ ch 'x' ∧ (l.hex = true → hexDigit b = false) := by
  unfold Lit.tail
  by_cases hp : l.point = true
  · rw [if_pos hp]
    exact ⟨ch '.', _, rfl, by decide, by decide, by decide, fun _ => by decide⟩
  · rw [if_neg hp]
    have hf : l.fraction = [] := by
      by_cases hf : l.fraction = []
      · exact hf
      · exact absurd (hv.fraction hf).1 hp
    rw [hf]
    cases he : l.exponent with
    | none => exact absurd he (h.resolve_left hp)
    | some x =>
      obtain ⟨c, sg, n⟩ := x
      obtain ⟨h1, -⟩ := hv.exponent c sg n he
      refine ⟨c, _, rfl, ?_⟩
      split at h1
      · rcases h1 with rfl | rfl <;> exact ⟨by decide, by decide, by decide, fun _ => by decide⟩
      · rename_i hx
        rcases h1 with rfl | rfl <;> exact ⟨by decide, by decide, by decide, fun h => absurd h hx⟩

/-- Decimal: `float` refuses. -/
theorem float_decimal (pre r : List Byte) (b : Byte) (h : Loose digit pre) (hb : digit b = false) (hu : b ≠ ch '_') :
    float (pre ++ b :: r) 0 = .ok (0, false) := by
  have := digits_at digit false [] pre (b :: r) h (by simp [hb, hu])
  simp only [List.nil_append, List.length_nil, reduceCtorEq, if_false] at this
  unfold float num
  rw [isDigit_eq, this]
  rfl

/-- Hexadecimal: `hexfloat` accepts unless the exponent has no sign. -/
theorem hexfloat_lit (l : Lit) (hv : l.Valid) (hx : l.hex = true) (h : l.point = true ∨ l.exponent ≠ none) :
    ∃ r, hexfloat l.text 0 = .ok r ∧ (r.2 = true ↔ ∀ c sg n, l.exponent = some (c, sg, n) → sg ≠ []) := by
  have hw : Loose hexDigit l.whole := by
    have := hv.whole
    rw [hx] at this
    exact numeral_loose _ _ this
  obtain ⟨b, r, ht, -, hu, -, hb⟩ := tail_head l hv h
  have htext : l.text = txt "0x" ++ (l.whole ++ Lit.tail l) := by rw [lit_text, hx]; rfl
  have hnum : hexnum l.text (0 + 2) = (2 + l.whole.length, true) := by
    have := digits_at hexDigit true (txt "0x") l.whole (Lit.tail l) hw (by
      rw [ht]; simp only [List.head?_cons, Option.some.injEq, forall_eq']; exact ⟨hb hx, hu⟩)
    rw [htext]
    unfold hexnum
    rw [isHex_eq]
    rw [show (txt "0x").length = 0 + 2 from rfl] at this
    rw [this]
    simp
  have hpre : (txt "0x").isPrefixOf l.text = true := by
    rw [List.isPrefixOf_iff_prefix, htext]; exact List.prefix_append _ _
  have hlen : l.text.length = 2 + l.whole.length + (Lit.tail l).length := by
    rw [htext]; simp [txt]; omega
  have hsplit : l.text = (txt "0x" ++ l.whole) ++ Lit.tail l := by rw [htext]; simp
  have hplen : (txt "0x" ++ l.whole).length = 2 + l.whole.length := by simp [txt]; omega
  have hb0 : byteAt l.text (2 + l.whole.length) = .ok b := by
    rw [hsplit, ht]; exact byteAt_at _ _ _ _ hplen.symm
  have htl : 1 ≤ (Lit.tail l).length := by rw [ht]; simp
  unfold hexfloat
  rw [hpre]
  simp only [Bool.not_true, Bool.false_eq_true, if_false, hnum]
  rw [if_neg (by omega), hb0, Res.bind_ok]
  by_cases hp : l.point = true
  · -- with a point
    have hbp : b = ch '.' := by
      unfold Lit.tail at ht
      rw [if_pos hp] at ht
      exact (List.cons.inj ht).1.symm
    have hr : r = l.fraction ++ match l.exponent with
        | some (c, sg, n) => [c] ++ (sg ++ n)
        | none => [] := by
      unfold Lit.tail at ht
      rw [if_pos hp] at ht
      exact (List.cons.inj ht).2.symm
    by_cases hf : l.fraction = []
    · cases he : l.exponent with
      | none =>
        have hr0 : r = [] := by rw [hr, hf, he]; rfl
        rw [if_pos ⟨hbp, by rw [hlen, ht, hr0]; simp⟩]
        exact ⟨_, rfl, by simp⟩
      | some x =>
        obtain ⟨c, sg, n⟩ := x
        obtain ⟨h1, h2, h3⟩ := hv.exponent c sg n he
        rw [hx] at h1
        simp only [if_true] at h1
        have hr1 : r = c :: (sg ++ n) := by rw [hr, hf, he]; rfl
        rw [if_neg (by rw [hlen, ht, hr1]; simp)]
        have hb1 : byteAt l.text (2 + l.whole.length + 1) = .ok c := by
          rw [hsplit, ht, hr1, show ∀ x : List Byte, x ++ b :: c :: (sg ++ n) = (x ++ [b]) ++ c :: (sg ++ n) by simp]
          exact byteAt_at _ _ _ _ (by rw [List.length_append, hplen]; rfl)
        have hen : exponentNext (ch 'p') (ch 'P') l.text (2 + l.whole.length) = .ok true := by
          unfold exponentNext
          rw [hb0, Res.bind_ok, if_pos hbp, hb1, Res.bind_ok]
          rcases h1 with rfl | rfl <;> rfl
        rw [hen, Res.bind_ok, if_pos rfl, if_pos hbp]
        refine ⟨_, rfl, ?_⟩
        have hs2 : l.text = ((txt "0x" ++ l.whole) ++ [b, c]) ++ (sg ++ n) := by rw [hsplit, ht, hr1]; simp
        rw [hs2, exponent_at _ sg n h2 h3 _ (by rw [List.length_append, hplen]; rfl)]
        constructor
        · intro h c' s' n' heq; cases heq; exact h
        · intro h; exact h c sg n rfl
    · obtain ⟨-, hfn⟩ := hv.fraction hf
      rw [hx] at hfn
      simp only [if_true] at hfn
      obtain ⟨f0, fr, hf0, hf1⟩ := numeral_head _ _ hfn
      have hfl : 1 ≤ l.fraction.length := by rw [hf0]; simp
      have hrl : l.fraction.length ≤ r.length := by rw [hr]; simp
      rw [if_neg (by rw [hlen, ht, List.length_cons]; omega)]
      have hb1 : byteAt l.text (2 + l.whole.length + 1) = .ok f0 := by
        rw [hsplit, ht, hr, hf0, List.cons_append,
          show ∀ x y : List Byte, x ++ b :: f0 :: y = (x ++ [b]) ++ f0 :: y by simp]
        exact byteAt_at _ _ _ _ (by rw [List.length_append, hplen]; rfl)
      have hfp : f0 ≠ ch 'p' ∧ f0 ≠ ch 'P' := by
        refine ⟨?_, ?_⟩ <;> rintro rfl <;> revert hf1 <;> decide
      have hen : exponentNext (ch 'p') (ch 'P') l.text (2 + l.whole.length) = .ok false := by
        unfold exponentNext
        rw [hb0, Res.bind_ok, if_pos hbp, hb1, Res.bind_ok, hbp]
        simp only [beq_eq_false_iff_ne.2 hfp.1, beq_eq_false_iff_ne.2 hfp.2]
        rfl
      rw [hen, Res.bind_ok]
      simp only [Bool.false_eq_true, if_false]
      have hs3 : l.text = ((txt "0x" ++ l.whole) ++ [b]) ++ (l.fraction ++ match l.exponent with
          | some (c, sg, n) => [c] ++ (sg ++ n)
          | none => []) := by rw [hsplit, ht, hr]; simp
      have hl3 : ((txt "0x" ++ l.whole) ++ [b]).length = 2 + l.whole.length + 1 := by rw [List.length_append, hplen]; rfl
      have hfrac : hexfrac l.text (2 + l.whole.length + 1) = (2 + l.whole.length + 1 + l.fraction.length, true) := by
        have := digits_at hexDigit true ((txt "0x" ++ l.whole) ++ [b]) l.fraction (match l.exponent with
          | some (c, sg, n) => [c] ++ (sg ++ n)
          | none => []) (numeral_loose _ _ hfn) (by
            intro x hx2
            cases he : l.exponent with
            | none => rw [he] at hx2; simp at hx2
            | some y =>
              obtain ⟨c, sg, n⟩ := y
              obtain ⟨h1, -⟩ := hv.exponent c sg n he
              rw [hx] at h1
              simp only [if_true] at h1
              rw [he] at hx2
              cases hx2
              rcases h1 with rfl | rfl <;> exact ⟨by decide, by decide⟩)
        unfold hexfrac
        rw [isHex_eq, ← hl3]
        conv => lhs; rw [hs3]
        rw [this]
        simp
      rw [hfrac]
      simp only [Bool.not_true, Bool.false_eq_true, if_false]
      cases he : l.exponent with
      | none =>
        rw [if_pos (by rw [hs3, he, List.length_append, hl3]; simp)]
        exact ⟨_, rfl, by simp⟩
      | some x =>
        obtain ⟨c, sg, n⟩ := x
        obtain ⟨h1, h2, h3⟩ := hv.exponent c sg n he
        rw [hx] at h1
        simp only [if_true] at h1
        rw [he] at hs3
        simp only at hs3
        rw [if_neg (by rw [hs3, List.length_append, hl3]; simp)]
        have hl4 : ((txt "0x" ++ l.whole) ++ [b] ++ l.fraction).length = 2 + l.whole.length + 1 + l.fraction.length := by
          rw [List.length_append, hl3]
        have hb2 : byteAt l.text (2 + l.whole.length + 1 + l.fraction.length) = .ok c := by
          rw [hs3, show ∀ x y : List Byte, x ++ (y ++ ([c] ++ (sg ++ n))) = (x ++ y) ++ c :: (sg ++ n) by simp]
          exact byteAt_at _ _ _ _ hl4.symm
        rw [hb2, Res.bind_ok, if_neg (by rcases h1 with rfl | rfl <;> decide)]
        refine ⟨_, rfl, ?_⟩
        have hs4 : l.text = ((txt "0x" ++ l.whole) ++ [b] ++ l.fraction ++ [c]) ++ (sg ++ n) := by rw [hs3]; simp
        rw [hs4, exponent_at _ sg n h2 h3 _ (by rw [List.length_append, hl4]; rfl)]
        constructor
        · intro h c' s' n' heq; cases heq; exact h
        · intro h; exact h c sg n rfl
  · -- without a point: an exponent follows at once
    have hf : l.fraction = [] := by
      by_cases hf : l.fraction = []
      · exact hf
      · exact absurd (hv.fraction hf).1 hp
    cases he : l.exponent with
    | none => exact absurd he (h.resolve_left hp)
    | some x =>
      obtain ⟨c, sg, n⟩ := x
      obtain ⟨h1, h2, h3⟩ := hv.exponent c sg n he
      rw [hx] at h1
      simp only [if_true] at h1
      have hb' : b = c ∧ r = sg ++ n := by
        unfold Lit.tail at ht
        rw [if_neg hp, hf, he] at ht
        exact ⟨(List.cons.inj ht).1.symm, (List.cons.inj ht).2.symm⟩
      obtain ⟨rfl, hr⟩ := hb'
      have hbd : b ≠ ch '.' := by rcases h1 with rfl | rfl <;> decide
      rw [if_neg (by simp [hbd])]
      have hen : exponentNext (ch 'p') (ch 'P') l.text (2 + l.whole.length) = .ok true := by
        unfold exponentNext
        rw [hb0, Res.bind_ok, if_neg hbd]
        rcases h1 with rfl | rfl <;> rfl
      rw [hen, Res.bind_ok, if_pos rfl, if_neg hbd]
      refine ⟨_, rfl, ?_⟩
      have hs2 : l.text = ((txt "0x" ++ l.whole) ++ [b]) ++ (sg ++ n) := by rw [hsplit, ht, hr]; simp
      rw [hs2, exponent_at _ sg n h2 h3 _ (by rw [List.length_append, hplen]; rfl)]
      constructor
      · intro h c' s' n' heq; cases heq; exact h
      · intro h; exact h b sg n rfl

theorem lit_head (l : Lit) (hv : l.Valid) : ∃ b r, l.text = b :: r ∧ digit b = true := by
  rw [lit_text]
  have hw := hv.whole
  cases hx : l.hex with
  | true => exact ⟨ch '0', _, rfl, by decide⟩
  | false =>
    rw [hx] at hw
    obtain ⟨b, r, h1, h2⟩ := numeral_head _ _ hw
    exact ⟨b, _, by rw [h1]; rfl, h2⟩

theorem lit_unsigned (l : Lit) (hv : l.Valid) (sg : List Byte) (hs : Sign sg) : unsigned (sg ++ l.text) = l.text := by
  obtain ⟨b, r, h1, h2⟩ := lit_head l hv
  refine unsigned_of sg l.text hs ?_ (by rw [h1]; simp)
  rw [h1]
  refine ⟨?_, ?_⟩ <;> intro h <;> simp only [List.head?_cons, Option.some.injEq] at h <;> rw [h] at h2 <;> revert h2 <;> decide

theorem decimal_no_0x (w r : List Byte) (b : Byte) (hw : Loose digit w) (hb : b ≠ ch 'x') : ¬ txt "0x" <+: w ++ b :: r := by
  obtain ⟨c, q, rfl, hc, hq⟩ := hw
  intro h
  rw [show txt "0x" = [ch '0', ch 'x'] from rfl, List.cons_append, List.cons_prefix_cons] at h
  have h2 := h.2
  cases q with
  | nil => rw [List.nil_append, List.cons_prefix_cons] at h2; exact hb h2.1.symm
  | cons d q =>
    rw [List.cons_append, List.cons_prefix_cons] at h2
    rcases hq d (by simp) with hd | hd
    · rw [← h2.1] at hd; revert hd; decide
    · rw [← h2.1] at hd; revert hd; decide

theorem lit_not_integer (l : Lit) (hv : l.Valid) (h : l.point = true ∨ l.exponent ≠ none) (sg : List Byte) (hs : Sign sg) :
    isInteger (sg ++ l.text) = false := by
  rw [Bool.eq_false_iff]
  intro hi
  rw [isInteger_unsigned, lit_unsigned l hv sg hs] at hi
  obtain ⟨b, r, ht, hd, hu, hx, hb⟩ := tail_head l hv h
  have hmem : b ∈ l.whole ++ Lit.tail l := by rw [ht]; simp
  have loose_mem : ∀ (d : Byte → Bool) (s : List Byte), Loose d s → b ∈ s → d b = true := by
    rintro d s ⟨c, q, rfl, hc, hq⟩ hm
    rcases List.mem_cons.1 hm with rfl | hm
    · exact hc
    · exact (hq b hm).resolve_right hu
  rcases hi with hi | ⟨x, hi, hl⟩
  · have := loose_mem _ _ hi (by rw [lit_text]; exact List.mem_append_right _ hmem)
    rw [hd] at this; cases this
  · cases hh : l.hex with
    | true =>
      rw [lit_text, hh] at hi
      have := List.append_cancel_left (show txt "0x" ++ (l.whole ++ Lit.tail l) = txt "0x" ++ x from hi)
      have h2 := loose_mem _ _ hl (by rw [← this]; exact hmem)
      rw [hb hh] at h2; cases h2
    | false =>
      have hw := hv.whole
      rw [hh] at hw
      rw [lit_text, hh, ht] at hi
      exact decimal_no_0x l.whole r b (numeral_loose _ _ hw) hx ⟨x, hi.symm⟩

theorem lit_isFloat (l : Lit) (hv : l.Valid) (h : l.point = true ∨ l.exponent ≠ none) (sg : List Byte) (hs : Sign sg) :
    ∃ r, isFloat (sg ++ l.text) = .ok r ∧
      (r = true ↔ l.hex = true ∧ ∀ c sg n, l.exponent = some (c, sg, n) → sg ≠ []) := by
  unfold isFloat
  obtain ⟨b, r, ht, hd, hu, hx, hb⟩ := tail_head l hv h
  obtain ⟨c, q, h1, h2⟩ := lit_head l hv
  have hne : ¬ (sg ++ l.text).length = 0 := by rw [List.length_append, h1]; simp
  have hc : ∀ (d : Byte) (s : List Byte), digit d = false → l.text ≠ d :: s := by
    intro d s hd2 he
    rw [h1] at he
    cases he
    rw [hd2] at h2; cases h2
  rw [if_neg hne]
  simp only [lit_unsigned l hv sg hs]
  rw [if_neg (show l.text ≠ txt "inf" from hc _ _ (by decide)), if_neg (show l.text ≠ txt "nan" from hc _ _ (by decide)),
    if_neg (show l.text ≠ txt "nan:arithmetic" from hc _ _ (by decide)),
    if_neg (show l.text ≠ txt "nan:canonical" from hc _ _ (by decide)), if_neg (by
    rw [List.isPrefixOf_iff_prefix, h1]
    intro hp
    have : c = ch 'n' := by
      rw [show txt "nan:0x" = ch 'n' :: txt "an:0x" from rfl, List.cons_prefix_cons] at hp
      exact hp.1.symm
    rw [this] at h2; revert h2; decide)]
  cases hh : l.hex with
  | true =>
    have e : float l.text 0 = .ok (0, false) := by
      rw [lit_text, hh]
      exact float_decimal (txt "0") (l.whole ++ Lit.tail l) (ch 'x') ⟨ch '0', [], rfl, by decide, by simp⟩ (by decide) (by decide)
    rw [e, Res.bind_ok]
    simp only [Bool.false_eq_true, if_false]
    obtain ⟨r, k1, k2⟩ := hexfloat_lit l hv hh h
    rw [k1, Res.bind_ok]
    exact ⟨_, rfl, by rw [k2]; simp⟩
  | false =>
    have hw := hv.whole
    rw [hh] at hw
    have hl := numeral_loose _ _ hw
    have etext : l.text = l.whole ++ b :: r := by rw [lit_text, hh, ht]; rfl
    rw [etext, float_decimal _ _ _ hl hd hu, Res.bind_ok]
    simp only [Bool.false_eq_true, if_false]
    have : (txt "0x").isPrefixOf (l.whole ++ b :: r) = false := by
      rw [Bool.eq_false_iff, ne_eq, List.isPrefixOf_iff_prefix]
      exact decimal_no_0x l.whole r b hl hx
    unfold hexfloat
    rw [this]
    exact ⟨false, rfl, by simp⟩

theorem classify_float (w : List Byte) (hi : isInteger w = false) : classify .reserved w = .ok .float ↔ isFloat w = .ok true := by
  unfold classify
  rw [if_pos rfl, if_neg (by simp [hi])]
  obtain ⟨f, hf⟩ := isFloat_ok w
  rw [hf, Res.bind_ok]
  cases f with
  | true => simp
  | false =>
    simp only [Bool.false_eq_true, if_false]
    unfold keyword
    split
    · rename_i hk
      split at hk
      · cases hk; simp
      · split at hk
        · cases hk; simp
        · cases hk
    · simp

/-- C45, for float literals with digits. A literal of the WebAssembly text format with a point or an exponent is never
returned as an integer, and is returned as a float exactly when it is hexadecimal and its exponent, if any, has a sign.
Missing: decimal floats, which are never floats (`decimal_float_missed`), exponents without a sign, and the converse, as
words that are no floats are returned as floats (`no_float_taken`). -/
theorem float_words_partial (l : Lit) (hv : l.Valid) (h : l.point = true ∨ l.exponent ≠ none) (sg : List Byte) (hs : Sign sg) :
    ∃ t : Token, (nextTok (Lexer.new (sg ++ l.text))).1 = .ok t ∧ t.capture = sg ++ l.text ∧ t.type ≠ .integer ∧
      (t.type = .float ↔ l.hex = true ∧ ∀ c sg n, l.exponent = some (c, sg, n) → sg ≠ []) := by
  have hchars : ∀ b ∈ sg ++ l.text, b ∈ litChars := by
    intro b hb
    rcases List.mem_append.1 hb with hb | hb
    · exact sign_chars sg hs b hb
    · exact lit_chars l hv b hb
  obtain ⟨c, q, h1, h2⟩ := lit_head l hv
  obtain ⟨ty, k1, k2⟩ := word_token (sg ++ l.text) (by rw [h1]; simp)
    (fun b hb => (show ∀ b ∈ litChars, b ∈ wordChars by decide) b (hchars b hb))
    (by
      intro hd
      have : ch '$' ∈ sg ++ l.text := List.mem_of_mem_head? hd
      exact (show ch '$' ∉ litChars by decide) (hchars _ this))
  have hni := lit_not_integer l hv h sg hs
  obtain ⟨r, f1, f2⟩ := lit_isFloat l hv h sg hs
  refine ⟨_, k2, rfl, ?_, ?_⟩
  · intro he
    simp only at he
    rw [he, classify_integer, hni] at k1
    cases k1
  · rw [← f2]
    have := classify_float _ hni
    rw [k1, f1] at this
    simpa using this

/-- C45 for the literals without digits, and for NaNs with a payload. -/
theorem float_names (sg : List Byte) (hs : Sign sg) (n : List Byte) (hn : Numeral hexDigit n) (w : List Byte)
    (hw : w = txt "inf" ∨ w = txt "nan" ∨ w = txt "nan:0x" ++ n) :
    ∃ t : Token, (nextTok (Lexer.new (sg ++ w))).1 = .ok t ∧ t.capture = sg ++ w ∧ t.type = .float := by
  have hchars : ∀ b ∈ sg ++ w, b ∈ wordChars ∧ b ≠ ch '$' := by
    intro b hb
    have k1 : ∀ b ∈ litChars, b ∈ wordChars ∧ b ≠ ch '$' := by decide
    have k2 : ∀ b ∈ txt "inf" ++ txt "nan:0x", b ∈ wordChars ∧ b ≠ ch '$' := by decide
    rcases List.mem_append.1 hb with hb | hb
    · exact k1 b (sign_chars sg hs b hb)
    · rcases hw with rfl | rfl | rfl
      · exact k2 b (List.mem_append_left _ hb)
      · exact (show ∀ b ∈ txt "nan", b ∈ wordChars ∧ b ≠ ch '$' by decide) b hb
      · rcases List.mem_append.1 hb with hb | hb
        · exact k2 b (List.mem_append_right _ hb)
        · exact k1 b (numeral_chars hexDigit (fun _ h => h) _ hn b hb)
  have hhead : ∃ c q, w = c :: q ∧ (c = ch 'i' ∨ c = ch 'n') := by
    rcases hw with rfl | rfl | rfl
    · exact ⟨_, _, rfl, .inl rfl⟩
    · exact ⟨_, _, rfl, .inr rfl⟩
    · exact ⟨_, _, rfl, .inr rfl⟩
  obtain ⟨c, q, hc1, hc2⟩ := hhead
  have hu : unsigned (sg ++ w) = w := by
    refine unsigned_of sg w hs ?_ (by rw [hc1]; simp)
    rw [hc1]
    rw [List.head?_cons]
    rcases hc2 with rfl | rfl <;> exact ⟨by decide, by decide⟩
  obtain ⟨ty, k1, k2⟩ := word_token (sg ++ w) (by rw [hc1]; simp) (fun b hb => (hchars b hb).1) (by
    intro hd; exact (hchars _ (List.mem_of_mem_head? hd)).2 rfl)
  refine ⟨_, k2, rfl, ?_⟩
  have hni : isInteger (sg ++ w) = false := by
    rw [Bool.eq_false_iff, ne_eq, isInteger_unsigned, hu]
    rintro (⟨b, r, h, hb, -⟩ | ⟨x, h, -⟩)
    · rw [hc1] at h
      cases h
      rcases hc2 with rfl | rfl <;> revert hb <;> decide
    · rw [hc1] at h
      rw [show txt "0x" ++ x = ch '0' :: (txt "x" ++ x) from rfl] at h
      have := (List.cons.inj h).1
      rcases hc2 with rfl | rfl <;> revert this <;> decide
  have hf : isFloat (sg ++ w) = .ok true := by
    unfold isFloat
    rw [if_neg (by rw [List.length_append, hc1]; simp)]
    simp only [hu]
    rcases hw with rfl | rfl | rfl
    · rfl
    · rfl
    · obtain ⟨b, r, rfl, hb, -⟩ := numeral_loose _ _ hn
      have hne : ∀ s : String, (txt s).length < 6 ∨ (txt s)[4]? ≠ some (ch '0') → txt "nan:0x" ++ b :: r ≠ txt s := by
        intro s hs2 he
        rcases hs2 with h | h
        · rw [← he] at h; simp [txt] at h; omega
        · rw [← he] at h; exact h rfl
      rw [if_neg (hne _ (.inl (by decide))), if_neg (hne _ (.inl (by decide))), if_neg (hne _ (.inr (by decide))),
        if_neg (hne _ (.inr (by decide))), if_pos (by rw [List.isPrefixOf_iff_prefix]; exact List.prefix_append _ _),
        List.drop_left' (by rfl)]
      unfold hexnum digits
      rw [isHex_eq]
      simp only [List.getElem?_cons_zero, hb, Bool.not_true, Bool.false_eq_true, if_false]
      rcases digitsLoop_stop hexDigit true (List.drop 0 (b :: r)) 0 with h | ⟨p, c, q, -, -, -, -, h5⟩
      · rw [digitsLoop_all _ _ _ _ h]
      · rw [h5]
  have := (classify_float _ hni).2 hf
  rw [k1] at this
  exact Res.ok.inj this

/-- C45, the other direction in part: what is returned as a float is `inf`, a NaN, or begins with `0x`. -/
theorem float_only (w : List Byte) (t : Token) (hne : w ≠ []) (hw : ∀ b ∈ w, b ∈ wordChars) (hd : w.head? ≠ some (ch '$'))
    (h : (nextTok (Lexer.new w)).1 = .ok t) (ht : t.type = .float) :
    ∃ sg body, Sign sg ∧ w = sg ++ body ∧ (body = txt "inf" ∨ body = txt "nan" ∨ body = txt "nan:arithmetic" ∨
      body = txt "nan:canonical" ∨ txt "nan:0x" <+: body ∨ txt "0x" <+: body) := by
  obtain ⟨sg, hs, hsplit⟩ := unsigned_split w
  refine ⟨sg, _, hs, hsplit, ?_⟩
  obtain ⟨ty, k1, k2⟩ := word_token w hne hw hd
  rw [h] at k2
  have k2 := Res.ok.inj k2
  rw [k2] at ht
  simp only at ht
  rw [ht] at k1
  have hi : isInteger w = false := by
    rw [Bool.eq_false_iff]
    intro hi
    rw [(classify_integer w).2 hi] at k1
    cases k1
  rw [classify_float w hi] at k1
  unfold isFloat at k1
  split at k1
  · cases k1
  simp only at k1
  split at k1
  · rename_i h1; exact .inl h1
  split at k1
  · rename_i h1; exact .inr (.inl h1)
  split at k1
  · rename_i h1; exact .inr (.inr (.inl h1))
  split at k1
  · rename_i h1; exact .inr (.inr (.inr (.inl h1)))
  split at k1
  · rename_i h1; exact .inr (.inr (.inr (.inr (.inl (List.isPrefixOf_iff_prefix.1 h1)))))
  have hn : (num (unsigned w) 0).2 = false := by
    rw [Bool.eq_false_iff, ne_eq, num_iff]
    intro hl
    rw [(isInteger_unsigned w).2 (.inl hl)] at hi
    cases hi
  have e : float (unsigned w) 0 = .ok (0, false) := by
    unfold float
    simp [hn]
  rw [e, Res.bind_ok] at k1
  simp only [Bool.false_eq_true, if_false] at k1
  refine .inr (.inr (.inr (.inr (.inr ?_))))
  rw [← List.isPrefixOf_iff_prefix]
  cases hp : (txt "0x").isPrefixOf (unsigned w) with
  | true => rfl
  | false =>
    unfold hexfloat at k1
    rw [hp] at k1
    cases k1

/-- C45 fails: `1.5` is a float and is not returned as one. -/
theorem decimal_float_missed : Float (txt "1.5") ∧ (nextTok (Lexer.new (txt "1.5"))).1 = .ok ⟨.reserved, 0, 0, 0, txt "1.5"⟩ := by
  refine ⟨⟨[], .inl rfl, .inl ⟨⟨false, txt "1", true, txt "5", none⟩, ⟨.one _ (by decide), fun _ => ⟨rfl, .one _ (by decide)⟩, ?_⟩,
    .inl rfl, rfl⟩⟩, by decide⟩
  intro c sg n h; cases h

/-- C45 fails: `0x1g8` is no float and is returned as one. -/
theorem no_float_taken : ¬ Float (txt "0x1g8") ∧ (nextTok (Lexer.new (txt "0x1g8"))).1 = .ok ⟨.float, 0, 0, 0, txt "0x1g8"⟩ := by
  refine ⟨?_, by decide⟩
  rintro ⟨sg, hs, h⟩
  have hg : ch 'g' ∈ txt "0x1g8" := by decide
  have h8 : ch '8' ∈ txt "0x1g8" := by decide
  rcases h with ⟨l, hv, -, h⟩ | h | h | ⟨n, hn, h⟩
  · rw [h] at hg
    rcases List.mem_append.1 hg with hg | hg
    · exact (show ch 'g' ∉ litChars by decide) (sign_chars sg hs _ hg)
    · exact (show ch 'g' ∉ litChars by decide) (lit_chars l hv _ hg)
  · rw [h] at h8
    rcases hs with rfl | rfl | rfl <;> revert h8 <;> decide
  · rw [h] at h8
    rcases hs with rfl | rfl | rfl <;> revert h8 <;> decide
  · have hn2 : ch 'n' ∈ txt "0x1g8" := by rw [h]; simp [txt]
    revert hn2; decide

example : (Lit.mk true (txt "1_f") true (txt "8") (some (ch 'p', txt "-", txt "10"))).Valid ∧
    txt "-" ++ (Lit.mk true (txt "1_f") true (txt "8") (some (ch 'p', txt "-", txt "10"))).text = txt "-0x1_f.8p-10" := by
  refine ⟨⟨.under _ _ (by decide) (.one _ (by decide)), fun _ => ⟨rfl, .one _ (by decide)⟩, ?_⟩, rfl⟩
  intro c sg n h
  cases h
  exact ⟨.inl rfl, .inr (.inr rfl), .more _ _ (by decide) (.one _ (by decide))⟩

end Verif.Wat
