import Verif.Wit.GrammarProps

/-!
# Properties of the WIT lexer and parser: C112, bytes that are not UTF-8
-/

namespace Verif.Wit

open Spec

variable [Unicode]

namespace Spec

/-- U+FFFD, which stands for bytes that are not UTF-8, is no white space, letter or digit. So it is in Unicode. -/
def PlainReplacement : Prop := white 0xFFFD = false ∧ letter 0xFFFD = false ∧ digit 0xFFFD = false

/-- A text in UTF-8. -/
def Utf8 (w : List Byte) : Prop := ∃ rs, (∀ r ∈ rs, Scalar r) ∧ w = utf8 rs

end Spec

/-- C112. Where no character begins `Next` answers with an error. -/
theorem malformed_refused (hu : PlainReplacement) (input : List Byte) (n : Nat) (ts : List Token)
    (h : nexts n (Lexer.new input) = ts.map .ok) (w : List Byte) (hm : Malformed w) (hi : input = textOf ts ++ w) :
    (nextTok (afterNexts n (Lexer.new input))).1 = .err := by
  rw [PlainReplacement, white_eq, letter_eq, digit_eq] at hu
  apply next_err input n ts h
  have hd : input.drop (textOf ts).length = w := by rw [hi]; simp
  rw [hd]
  unfold first
  rw [if_neg hm.1, decode_malformed w hm]
  simp only
  rw [if_neg (by simp [hu.1]), if_neg (by decide), show single 0xFFFD = none from by decide]
  simp only
  rw [if_neg (by decide), if_neg (by decide), if_neg (by rw [start_iff, hu.2.1]; decide), if_neg (by simp [hu.2.2])]

omit [Unicode] in
theorem utf8_of_cons (r : Nat) (qs : List Nat) (h : Scalar r) (hs : ∀ q ∈ qs, Scalar q) (w : List Byte) (e : w = utf8 (r :: qs)) : Utf8 w := by
  refine ⟨r :: qs, ?_, e⟩
  intro q hq
  rcases List.mem_cons.1 hq with rfl | hq
  · exact h
  · exact hs q hq

omit [Unicode] in
/-- Characters that are not U+FFFD are UTF-8. -/
theorem chars_utf8_of (w : List Byte) (rs : List Nat) (h : Chars w rs) (hr : ∀ r ∈ rs, r ≠ 0xFFFD) : Utf8 w := by
  induction h with
  | nil => exact ⟨[], by simp, rfl⟩
  | char hs _ ih =>
    obtain ⟨qs, h1, rfl⟩ := ih (fun r h => hr r (by simp [h]))
    exact utf8_of_cons _ qs hs h1 _ (utf8_cons _ _).symm
  | other _ _ _ => exact absurd rfl (hr _ (by simp))

omit [Unicode] in
theorem isUtf8_ascii (w : List Byte) (h : ∀ b ∈ w, b.toNat < 128) : Utf8 w := by
  induction w with
  | nil => exact ⟨[], by simp, rfl⟩
  | cons b w ih =>
    obtain ⟨qs, h1, rfl⟩ := ih (fun r h' => h r (by simp [h']))
    have hb := h b (by simp)
    refine utf8_of_cons b.toNat qs (.inl (by omega)) h1 _ ?_
    rw [utf8_cons, encode, if_pos hb]
    simp

/-- What a token that is no comment consists of. -/
theorem first_utf8 (hu : PlainReplacement) (w : List Byte) (ty : TokenType) (k : Nat) (h : first w = some (ty, k))
    (h1 : ty ≠ .lineComment) (h2 : ty ≠ .blockComment) : Utf8 (w.take k) := by
  rw [PlainReplacement, white_eq, letter_eq, digit_eq] at hu
  cases w with
  | nil => exact ⟨[], by simp, by simp [utf8]⟩
  | cons b w =>
    rw [first_cons] at h
    simp only at h
    have ascii : ∀ c : Char, c.toNat < 128 → (decode (b :: w)).1 = rn c → b = ch c ∧ (b :: w).drop (decode (b :: w)).2 = w := by
      intro c hc hd
      have := (decode_is c hc b w).1 hd
      subst this
      rw [decode_char c hc]
      exact ⟨rfl, rfl⟩
    have small : ∀ c : Char, c.toNat < 128 → (ch c).toNat < 128 := by
      intro c hc
      unfold ch
      rw [BitVec.toNat_ofNat]
      omega
    have many : ∀ (v : List Byte) (f g : Nat → Bool), v ≠ [] → f 0xFFFD = false → g 0xFFFD = false → f (decode v).1 = true →
        Utf8 (v.take ((decode v).2 + run g (v.drop (decode v).2))) := by
      intro v f g hv hf hg hd
      refine chars_utf8_of _ _ (chars_spec _) ?_
      rw [chars_take _ _ hv]
      intro r hr he
      rcases List.mem_cons.1 hr with rfl | hr
      · rw [he, hf] at hd; cases hd
      · have := (run_chars g _).1 r hr
        rw [he, hg] at this; cases this
    have hks : isKeyLikeStart 0xFFFD = false := by rw [Bool.eq_false_iff, ne_eq, start_iff, hu.2.1]; decide
    have hkc : isKeyLikeContinue 0xFFFD = false := by rw [Bool.eq_false_iff, ne_eq, continue_iff, hu.2.1, hu.2.2]; decide
    split at h
    · rename_i hs
      cases h
      exact many _ _ _ (by simp) hu.1 hu.1 hs
    split at h
    · rename_i hd
      obtain ⟨rfl, hv⟩ := ascii '/' (by decide) hd
      split at h
      · cases h; exact absurd rfl h1
      split at h
      · rw [Option.map_eq_some_iff] at h
        obtain ⟨m, -, he⟩ := h
        cases he; exact absurd rfl h2
      · cases h
        exact isUtf8_ascii _ (by simp only [List.take_succ_cons, List.take_zero, List.mem_singleton, forall_eq]; decide)
    split at h
    · rename_i ty' hs
      cases h
      have hm := single_some _ _ hs
      have key : ∀ k ∈ singles, k.1 < 128 := by decide
      have hlt := key _ hm
      simp only at hlt
      refine isUtf8_ascii _ ?_
      simp only [List.take_succ_cons, List.take_zero, List.mem_singleton, forall_eq]
      by_cases hb : b.toNat < 128
      · exact hb
      · have := (decode_wide b w (by omega)).1; omega
    split at h
    · rename_i hm
      obtain ⟨rfl, hv⟩ := ascii '-' (by decide) hm
      rw [hv] at h
      split at h
      · rename_i hh
        cases w with
        | nil => simp at hh
        | cons c w =>
          simp only [List.head?_cons, Option.some.injEq] at hh
          subst hh
          cases h
          refine isUtf8_ascii _ ?_
          simp only [List.take_succ_cons, List.take_zero, List.mem_cons, List.not_mem_nil, or_false]
          rintro x (rfl | rfl) <;> decide
      · cases h
        exact isUtf8_ascii _ (by simp only [List.take_succ_cons, List.take_zero, List.mem_singleton, forall_eq]; decide)
    split at h
    · rename_i hm
      obtain ⟨rfl, hv⟩ := ascii '%' (by decide) hm
      rw [hv] at h
      split at h
      · rename_i hk
        cases h
        rw [Nat.add_comm, List.take_succ_cons]
        obtain ⟨qs, q1, q2⟩ := many w _ _ hk.1 hks hkc hk.2
        refine utf8_of_cons (rn '%') qs (.inl (by decide)) q1 _ ?_
        rw [utf8_cons, ← q2]
        rfl
      · cases h
        exact isUtf8_ascii _ (by simp only [List.take_succ_cons, List.take_zero, List.mem_singleton, forall_eq]; decide)
    split at h
    · rename_i hs
      cases h
      exact many _ _ _ (by simp) hks hkc hs
    split at h
    · rename_i hs
      cases h
      exact many _ _ _ (by simp) hu.2.2 hu.2.2 hs
    · cases h

/-- C112. Every token returned before the first error is UTF-8 unless it is a comment. -/
theorem tokens_utf8 (hu : PlainReplacement) (input : List Byte) (n : Nat) (ts : List Token)
    (h : nexts n (Lexer.new input) = ts.map .ok) (t : Token) (ht : t ∈ ts) (hl : t.type ≠ .lineComment) (hb : t.type ≠ .blockComment) :
    Utf8 t.capture := by
  obtain ⟨ty, k, hf, hc, hty⟩ := token_first input n ts h t ht
  rw [hc]
  refine first_utf8 hu _ ty k hf ?_ ?_
  · rintro rfl
    exact hl (by rw [hty]; rfl)
  · rintro rfl
    exact hb (by rw [hty]; rfl)

/-- C112. A text that is accepted is UTF-8 apart from its comments: it is a sequence of parts, each of which is UTF-8 or a
line comment or a block comment. -/
theorem accepted_utf8 (hu : PlainReplacement) (text : List Byte) (n : Nat) (hn : text.length < n) (a : Ast) (h : parseText n text = .ok a) :
    ∃ parts : List (List Byte), text = parts.flatten ∧
      ∀ p ∈ parts, Utf8 p ∨ Comment p ∨ (txt "//" <+: p ∧ ch '\n' ∉ p) := by
  obtain ⟨hl, -⟩ := (accepted_iff_loose text n hn a).1 h
  have key : ∀ (m : Nat) (k : Nat) (ts : List Token), nexts k (Lexer.new text) = ts.map .ok →
      (lexed.go m (afterNexts k (Lexer.new text))).2 = true →
      ∃ j, ∃ us : List Token, ∃ t : Token, nexts j (Lexer.new text) = (us ++ [t]).map .ok ∧ t.type = .endOfStream := by
    intro m
    induction m with
    | zero => intro k ts _ h2; cases h2
    | succ m ih =>
      intro k ts h1 h2
      rw [lexed.go] at h2
      have hs := nexts_succ k (Lexer.new text)
      cases ht : (nextTok (afterNexts k (Lexer.new text))).1 with
      | ok t =>
        rw [ht] at h2 hs
        have h3 : nexts (k + 1) (Lexer.new text) = (ts ++ [t]).map .ok := by rw [hs, h1, List.map_append]; rfl
        by_cases he : t.type = .endOfStream
        · exact ⟨k + 1, ts, t, h3, he⟩
        · refine ih (k + 1) (ts ++ [t]) h3 ?_
          simp only at h2
          rw [if_neg he] at h2
          rw [afterNexts_succ]
          exact h2
      | err => rw [ht] at h2; cases h2
      | panic => rw [ht] at h2; cases h2
      | diverge => rw [ht] at h2; cases h2
  obtain ⟨j, us, t, h1, h2⟩ := key (text.length + 1) 0 [] rfl hl
  refine ⟨(us ++ [t]).map (·.capture), ?_, ?_⟩
  · have h3 := (tokens_tile text j).2.2 us.length t
    have e : tokensOf (nexts j (Lexer.new text)) = us ++ [t] := by
      rw [h1]
      unfold tokensOf
      rw [List.filterMap_map]
      exact List.filterMap_some
    rw [e] at h3
    have h4 := (h3 (by simp)).2.2 h2
    rw [List.take_of_length_le (by simp)] at h4
    exact h4.symm
  · intro p hp
    obtain ⟨x, hx, rfl⟩ := List.mem_map.1 hp
    have sp := token_spelling text j (us ++ [t]) h1 x hx
    by_cases c1 : x.type = .lineComment
    · exact .inr (.inr (sp.2.2.2.2.2.1 c1))
    by_cases c2 : x.type = .blockComment
    · exact .inr (.inl (sp.2.2.2.2.1 c2))
    · exact .inl (tokens_utf8 hu text j _ h1 x hx c1 c2)

/-! ## Cases -/

omit [Unicode] in
/-- A byte that begins no character, an overlong form, a surrogate, and a character that is cut off. -/
theorem some_malformed : Malformed [0xFF#8] ∧ Malformed [0xC1#8, 0xA1#8] ∧ Malformed [0xED#8, 0xA0#8, 0x80#8] ∧ Malformed [0xE2#8, 0x82#8] := by
  have key : ∀ w, w ≠ [] → decode w = (0xFFFD, 1) → Malformed w := by
    intro w hw hd
    refine ⟨hw, ?_⟩
    rintro r hr ⟨v, rfl⟩
    rw [decode_encode r hr] at hd
    injection hd with e1 e2
    subst e1
    exact absurd e2 (by decide)
  exact ⟨key _ (by simp) (by decide), key _ (by simp) (by decide), key _ (by simp) (by decide), key _ (by simp) (by decide)⟩

example : @PlainReplacement someTables := by unfold PlainReplacement; decide
example : (@nexts someTables 2 (Lexer.new (txt "ab" ++ [0xC1#8, 0xA1#8]))) = [.ok ⟨.id, 0, 0, 0, txt "ab"⟩, .err] := by decide
example : @nexts someTables 2 (Lexer.new (txt "/*" ++ [0xFF#8] ++ txt "*/" ++ utf8 [0xE9])) =
    [.ok ⟨.blockComment, 0, 0, 0, txt "/*" ++ [0xFF#8] ++ txt "*/"⟩, .ok ⟨.id, 5, 5, 0, utf8 [0xE9]⟩] := by decide

end Verif.Wit
