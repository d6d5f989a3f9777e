import Verif.Wit.GrammarProps

/-!
# Texts made of WIT tokens

A text made of tokens with a space between them has these tokens.
-/

namespace Verif.Wit

open Spec

namespace Spec

/-- Words with a space between them. -/
def sep : List (List Byte) → List Byte
  | [] => []
  | [w] => w
  | w :: v :: ws => w ++ ch ' ' :: sep (v :: ws)

variable [Unicode] in
/-- A token as it can be written down. -/
inductive Written : Sig → Prop
  | keyword (ty : TokenType) (w : List Byte) : keyword ty = some w → Written ⟨ty, w⟩
  | operator (ty : TokenType) (w : List Byte) : operator ty = some w → Written ⟨ty, w⟩
  | name (rs : List Nat) : Word rs → (∀ ty, Spec.keyword ty ≠ some (utf8 rs)) → Written ⟨.id, utf8 rs⟩
  | explicit (rs : List Nat) : Word rs → Written ⟨.explicitId, txt "%" ++ utf8 rs⟩
  | digits (ds : List Byte) : ds ≠ [] → (∀ b ∈ ds, ch '0' ≤ b ∧ b ≤ ch '9') → Written ⟨.integer, ds⟩

end Spec

/-! ## Words in ASCII -/

/-- An ASCII letter. -/
def asciiLetter (b : Byte) : Bool := (65 ≤ b.toNat && b.toNat ≤ 90) || (97 ≤ b.toNat && b.toNat ≤ 122)

/-- An ASCII digit. -/
def asciiDigit (b : Byte) : Bool := 48 ≤ b.toNat && b.toNat ≤ 57

/-- A word of ASCII letters, digits and hyphens. -/
def asciiWord : List Byte → Bool
  | [] => false
  | b :: w => (asciiLetter b || b.toNat == 95) && w.all fun c => asciiLetter c || asciiDigit c || c.toNat == 45

theorem utf8_ascii (w : List Byte) (h : ∀ b ∈ w, b.toNat < 128) : utf8 (w.map BitVec.toNat) = w := by
  induction w with
  | nil => rfl
  | cons b w ih =>
    rw [List.map_cons, utf8_cons, ih (fun c hc => h c (by simp [hc])), encode, if_pos (h b (by simp))]
    simp

variable [Unicode]

theorem asciiLetter_spec (b : Byte) (h : asciiLetter b = true) : b.toNat < 128 ∧ isLetter b.toNat = true ∧ isSpace b.toNat = false := by
  simp only [asciiLetter, Bool.or_eq_true, Bool.and_eq_true, decide_eq_true_eq] at h
  have : b.toNat < 128 := by omega
  refine ⟨this, ?_, ?_⟩
  · rw [isLetter, if_pos this]
    simp; omega
  · rw [isSpace, if_pos this]
    simp; omega

theorem asciiDigit_spec (b : Byte) (h : asciiDigit b = true) :
    b.toNat < 128 ∧ isDigit b.toNat = true ∧ isSpace b.toNat = false ∧ isLetter b.toNat = false := by
  simp only [asciiDigit, Bool.and_eq_true, decide_eq_true_eq] at h
  have : b.toNat < 128 := by omega
  refine ⟨this, ?_, ?_, ?_⟩
  · rw [isDigit, if_pos this]
    simp; omega
  · rw [isSpace, if_pos this]
    simp; omega
  · rw [isLetter, if_pos this]
    simp; omega

theorem ascii_word (w : List Byte) (h : asciiWord w = true) : Word (w.map BitVec.toNat) ∧ utf8 (w.map BitVec.toNat) = w := by
  cases w with
  | nil => cases h
  | cons b w =>
    simp only [asciiWord, Bool.and_eq_true, Bool.or_eq_true, beq_iff_eq, List.all_eq_true] at h
    obtain ⟨hb, hw⟩ := h
    have h1 : b.toNat < 128 ∧ (isLetter b.toNat = true ∨ b.toNat = rn '_') ∧ isSpace b.toNat = false := by
      rcases hb with hb | hb
      · obtain ⟨a, b, c⟩ := asciiLetter_spec b hb
        exact ⟨a, .inl b, c⟩
      · rw [hb]
        exact ⟨by omega, .inr rfl, rfl⟩
    have h2 : ∀ c ∈ w, c.toNat < 128 ∧ (isLetter c.toNat = true ∨ isDigit c.toNat = true ∨ c.toNat = rn '-') := by
      intro c hc
      rcases hw c hc with (k | k) | k
      · exact ⟨(asciiLetter_spec c k).1, .inl (asciiLetter_spec c k).2.1⟩
      · exact ⟨(asciiDigit_spec c k).1, .inr (.inl (asciiDigit_spec c k).2.1)⟩
      · exact ⟨by omega, .inr (.inr k)⟩
    have h3 : ∀ c ∈ b :: w, c.toNat < 128 := by
      intro c hc
      rcases List.mem_cons.1 hc with rfl | hc
      · exact h1.1
      · exact (h2 c hc).1
    rw [Word, letter_eq, digit_eq, white_eq]
    refine ⟨⟨b.toNat, w.map BitVec.toNat, rfl, ?_, h1.2.1, ?_, h1.2.2⟩, utf8_ascii _ h3⟩
    · intro r hr
      obtain ⟨c, hc, rfl⟩ := List.mem_map.1 hr
      have := h3 c hc
      exact .inl (by omega)
    · intro r hr
      obtain ⟨c, hc, rfl⟩ := List.mem_map.1 hr
      exact (h2 c hc).2

theorem keyword_word (ty : TokenType) (w : List Byte) (h : keyword ty = some w) : Word (w.map BitVec.toNat) ∧ utf8 (w.map BitVec.toNat) = w := by
  have key : ∀ k ∈ keywordMap, asciiWord k.1 = true := by decide
  exact ascii_word w (key _ ((keyword_table ty w).1 h))

/-! ## One token -/

/-- Nothing or a space. -/
def Stops (rest : List Byte) : Prop := rest = [] ∨ ∃ v, rest = ch ' ' :: v

omit [Unicode] in
theorem keyword_inj (ty ty' : TokenType) (w : List Byte) (h : keyword ty = some w) (h' : keyword ty' = some w) : ty' = ty := by
  rw [keyword_table] at h h'
  have key : ∀ j ∈ keywordMap, ∀ k ∈ keywordMap, j.1 = k.1 → k.2 = j.2 := by decide
  exact key _ h _ h' rfl

theorem written_token (input : List Byte) (n : Nat) (ts : List Token) (h : nexts n (Lexer.new input) = ts.map .ok)
    (s : Sig) (hs : Written s) (rest : List Byte) (hr : Stops rest) (hi : input = textOf ts ++ s.capture ++ rest) :
    ∃ t : Token, nexts (n + 1) (Lexer.new input) = (ts ++ [t]).map .ok ∧ t.type = s.type ∧ t.capture = s.capture := by
  have hsp : ∀ v, decode (ch ' ' :: v) = (rn ' ', 1) := decode_char ' ' (by decide)
  have hw : WordEnds rest := by
    rcases hr with rfl | ⟨v, rfl⟩
    · exact (wordEnds_iff _).2 (.inl rfl)
    · exact (wordEnds_iff _).2 (.inr (by rw [hsp]; exact ⟨rfl, rfl, by decide⟩))
  have hd : RunEnds digit rest := by
    rw [digit_eq]
    rcases hr with rfl | ⟨v, rfl⟩
    · exact (runEnds_iff _ _).2 (.inl rfl)
    · exact (runEnds_iff _ _).2 (.inr (by rw [hsp]; rfl))
  have hx : ∀ c : Char, ch c ≠ ch ' ' → ¬ [ch c] <+: rest := by
    rintro c hc ⟨v, hv⟩
    rcases hr with rfl | ⟨u, rfl⟩
    · simp at hv
    · injection hv with hv
      exact hc hv
  cases hs with
  | keyword ty w hk =>
    obtain ⟨h1, h2⟩ := keyword_word ty w hk
    obtain ⟨t, k1, k2, k3⟩ := word_token input n ts h _ h1 rest hw (by rw [h2]; exact hi)
    rw [h2] at k2 k3
    refine ⟨t, k1, ?_, k2⟩
    rcases k3 with k3 | ⟨-, k3⟩
    · exact keyword_inj ty t.type w hk k3
    · exact absurd hk (k3 ty)
  | operator ty w ho =>
    exact operator_token input n ts h ty w rest ho hi (fun _ => ⟨hx '/' (by decide), hx '*' (by decide)⟩) (fun _ => hx '>' (by decide))
  | name rs h1 h2 =>
    obtain ⟨t, k1, k2, k3⟩ := word_token input n ts h rs h1 rest hw hi
    refine ⟨t, k1, ?_, k2⟩
    rcases k3 with k3 | ⟨k3, -⟩
    · exact absurd k3 (h2 _)
    · exact k3
  | explicit rs h1 =>
    obtain ⟨t, k1, k2, k3⟩ := explicit_token input n ts h rs h1 rest hw hi
    exact ⟨t, k1, k3, k2⟩
  | digits ds hne hds =>
    cases ds with
    | nil => exact absurd rfl hne
    | cons b ds =>
      have ha : ∀ c ∈ b :: ds, asciiDigit c = true := by
        intro c hc
        have := hds c hc
        simp only [asciiDigit, Bool.and_eq_true, decide_eq_true_eq]
        exact this
      have hu := utf8_ascii (b :: ds) (fun c hc => (asciiDigit_spec c (ha c hc)).1)
      obtain ⟨t, k1, k2, k3⟩ := digits_token input n ts h b.toNat (ds.map BitVec.toNat) (by
          intro x hx
          rw [← List.map_cons, List.mem_map] at hx
          obtain ⟨c, hc, rfl⟩ := hx
          obtain ⟨a1, a2, -⟩ := asciiDigit_spec c (ha c hc)
          rw [digit_eq]
          exact ⟨.inl (by omega), a2⟩)
        (by rw [white_eq, letter_eq]; exact (asciiDigit_spec b (ha b (by simp))).2.2) rest hd (by rw [← List.map_cons, hu]; exact hi)
      rw [← List.map_cons, hu] at k3
      exact ⟨t, k1, k2, k3⟩

/-- What a written token begins with. -/
theorem written_head (s : Sig) (hs : Written s) : s.capture ≠ [] ∧ s.type ≠ .endOfStream ∧
    (s.type ≠ .whitespace ∧ s.type ≠ .lineComment ∧ s.type ≠ .blockComment) ∧ ∀ rest, isSpace (decode (s.capture ++ rest)).1 = false := by
  have hword : ∀ rs, Word rs → utf8 rs ≠ [] ∧ ∀ rest, isSpace (decode (utf8 rs ++ rest)).1 = false := by
    rintro rs ⟨r, tl, rfl, h1, -, -, h2⟩
    rw [utf8_cons]
    refine ⟨by simp [encode_ne], fun rest => ?_⟩
    rw [List.append_assoc, decode_encode r (h1 r (by simp)), ← white_eq]
    exact h2
  cases hs with
  | keyword ty w hk =>
    obtain ⟨h1, h2⟩ := keyword_word ty w hk
    have := hword _ h1
    rw [h2] at this
    refine ⟨this.1, ?_, ?_, this.2⟩
    · rintro rfl; cases hk
    · refine ⟨?_, ?_, ?_⟩ <;> (rintro rfl; cases hk)
  | operator ty w ho =>
    have : w ≠ [] ∧ ty ≠ .endOfStream ∧ (ty ≠ .whitespace ∧ ty ≠ .lineComment ∧ ty ≠ .blockComment) ∧ ∃ c : Char, ∃ v, c.toNat < 128 ∧ w = ch c :: v ∧
        isSpace (rn c) = false := by
      cases ty <;> first
        | (exfalso; cases ho; done)
        | (cases ho; exact ⟨by decide, by decide, by decide, _, _, by decide, rfl, rfl⟩)
    obtain ⟨h1, h2, h3, c, v, hc, rfl, h4⟩ := this
    refine ⟨h1, h2, h3, fun rest => ?_⟩
    show isSpace (decode (ch c :: (v ++ rest))).1 = false
    rw [decode_char c hc]
    exact h4
  | name rs h1 h2 => exact ⟨(hword rs h1).1, by simp, by simp, (hword rs h1).2⟩
  | explicit rs h1 =>
    refine ⟨by simp [show txt "%" = [ch '%'] from rfl], by simp, by simp, fun rest => ?_⟩
    show isSpace (decode (ch '%' :: (utf8 rs ++ rest))).1 = false
    rw [decode_char '%' (by decide)]
    rfl
  | digits ds hne hds =>
    cases ds with
    | nil => exact absurd rfl hne
    | cons b ds =>
      refine ⟨hne, by simp, by simp, fun rest => ?_⟩
      have ha : asciiDigit b = true := by
        have := hds b (by simp)
        simp only [asciiDigit, Bool.and_eq_true, decide_eq_true_eq]
        exact this
      obtain ⟨a1, -, a2, -⟩ := asciiDigit_spec b ha
      show isSpace (decode (b :: (ds ++ rest))).1 = false
      rw [decode_ascii b _ a1]
      exact a2

/-! ## All tokens -/

omit [Unicode] in
theorem textOf_append (a b : List Token) : textOf (a ++ b) = textOf a ++ textOf b := by simp [textOf]

omit [Unicode] in
theorem textOf_one (t : Token) : textOf [t] = t.capture := by simp [textOf]

omit [Unicode] in
theorem meaning_append (a b : List Token) : meaning (a ++ b) = meaning a ++ meaning b := by simp [meaning]

theorem render_nexts (us : List Sig) (hu : ∀ u ∈ us, Written u) (input : List Byte) (n : Nat) (ts : List Token)
    (h : nexts n (Lexer.new input) = ts.map .ok) (hi : input = textOf ts ++ sep (us.map (·.capture))) :
    ∃ vs : List Token, nexts (n + vs.length) (Lexer.new input) = (ts ++ vs).map .ok ∧ input = textOf (ts ++ vs) ∧
      meaning vs = us.map (fun u => (u.type, u.capture)) ∧ ∀ v ∈ vs, v.type ≠ .endOfStream ∧ v.capture ≠ [] := by
  induction us generalizing n ts with
  | nil => exact ⟨[], by simpa using h, by simpa [sep] using hi, rfl, by simp⟩
  | cons u us ih =>
    have hu1 := hu u (by simp)
    obtain ⟨w1, w2, w3, w4⟩ := written_head u hu1
    have mean : ∀ t : Token, t.type = u.type → t.capture = u.capture → meaning [t] = [(u.type, u.capture)] := by
      intro t h1 h2
      simp only [meaning]
      rw [List.filter_cons_of_pos (by simp [h1, w3])]
      simp [h1, h2]
    cases us with
    | nil =>
      obtain ⟨t, k1, k2, k3⟩ := written_token input n ts h u hu1 [] (.inl rfl) (by simpa [sep] using hi)
      refine ⟨[t], k1, ?_, mean t k2 k3, ?_⟩
      · rw [textOf_append, textOf_one, k3]; simpa [sep] using hi
      · simp only [List.mem_singleton, forall_eq]
        rw [k2, k3]
        exact ⟨w2, w1⟩
    | cons u' us =>
      have hi' : input = textOf ts ++ u.capture ++ ch ' ' :: sep ((u' :: us).map (·.capture)) := by
        rw [hi, List.append_assoc]; rfl
      obtain ⟨t, k1, k2, k3⟩ := written_token input n ts h u hu1 _ (.inr ⟨_, rfl⟩) hi'
      obtain ⟨w1', -, -, w4'⟩ := written_head u' (hu u' (by simp))
      have hend : RunEnds white (sep ((u' :: us).map (·.capture))) := by
        rw [white_eq]
        refine (runEnds_iff _ _).2 (.inr ?_)
        cases us with
        | nil => have := w4' []; simpa [sep] using this
        | cons v vs => exact w4' _
      obtain ⟨b, j1, j2, j3⟩ := space_token input (n + 1) (ts ++ [t]) k1 [32] (by simp) (by
          simp only [List.mem_singleton, forall_eq, white_eq]
          exact ⟨.inl (by omega), rfl⟩) _ hend (by
          rw [hi', textOf_append, textOf_one, k3]
          rw [show utf8 [32] = [ch ' '] from by decide]
          simp)
      rw [show utf8 [32] = [ch ' '] from by decide] at j3
      obtain ⟨vs, i1, i2, i3, i4⟩ := ih (fun v hv => hu v (by simp [hv])) (n + 2) (ts ++ [t] ++ [b]) j1 (by
          rw [hi', textOf_append, textOf_append, textOf_one, textOf_one, k3, j3]
          simp)
      refine ⟨t :: b :: vs, ?_, ?_, ?_, ?_⟩
      · rw [show n + (t :: b :: vs).length = n + 2 + vs.length by simp; omega, i1]
        simp
      · rw [show ts ++ t :: b :: vs = ts ++ [t] ++ [b] ++ vs by simp]
        exact i2
      · rw [show t :: b :: vs = [t] ++ ([b] ++ vs) from rfl, meaning_append, meaning_append, mean t k2 k3, i3]
        have : meaning [b] = [] := by
          simp only [meaning]
          rw [List.filter_cons_of_neg (by simp [j2])]
          rfl
        rw [this]
        rfl
      · simp only [List.mem_cons, forall_eq_or_imp]
        refine ⟨by rw [k2, k3]; exact ⟨w2, w1⟩, by rw [j2, j3]; simp, ?_⟩
        exact i4

theorem go_nexts (k m : Nat) (l : Lexer) (ts : List Token) (e : Token) (h : nexts (k + 1) l = (ts ++ [e]).map .ok)
    (hts : ∀ t ∈ ts, t.type ≠ .endOfStream) (he : e.type = .endOfStream) (hk : k < m) : lexed.go m l = (ts, true) := by
  induction k generalizing m l ts with
  | zero =>
    have hl := congrArg List.length h
    simp [nexts] at hl
    subst hl
    cases m with
    | zero => omega
    | succ m =>
      simp only [nexts, List.nil_append, List.map_cons, List.map_nil, List.cons.injEq, and_true] at h
      rw [lexed.go, h]
      simp only [if_pos he]
  | succ k ih =>
    cases ts with
    | nil =>
      have hl := congrArg List.length h
      simp [nexts_length] at hl
    | cons t ts =>
      cases m with
      | zero => omega
      | succ m =>
        rw [nexts, List.cons_append, List.map_cons] at h
        injection h with h1 h2
        have := ih m _ ts h2 (fun u hu => hts u (by simp [hu])) (by omega)
        rw [lexed.go, h1]
        simp only [if_neg (hts t (by simp)), this]

omit [Unicode] in
theorem textOf_length (ts : List Token) (h : ∀ t ∈ ts, t.capture ≠ []) : ts.length ≤ (textOf ts).length := by
  induction ts with
  | nil => simp
  | cons t ts ih =>
    have h1 := ih (fun u hu => h u (by simp [hu]))
    have h2 : 0 < t.capture.length := List.length_pos_iff.2 (h t (by simp))
    simp only [textOf, List.map_cons, List.flatten_cons, List.length_append, List.length_cons] at h1 ⊢
    omega

/-- A text made of tokens has no lexical error and these tokens. -/
theorem render_tokens (us : List Sig) (hu : ∀ u ∈ us, Written u) :
    Lexes (sep (us.map (·.capture))) ∧ tokens (sep (us.map (·.capture))) = us := by
  obtain ⟨vs, h1, h2, h3, h4⟩ := render_nexts us hu (sep (us.map (·.capture))) 0 [] rfl (by simp [textOf])
  rw [List.nil_append] at h1 h2
  rw [Nat.zero_add] at h1
  obtain ⟨e, k1, k2, k3⟩ := token_at _ vs.length vs h1 [] [] (by simpa using h2) .endOfStream (by rw [List.append_nil, first, if_pos rfl]; rfl)
  have hl := textOf_length vs (fun t ht => (h4 t ht).2)
  rw [← h2] at hl
  have hgo := go_nexts vs.length ((sep (us.map (·.capture))).length + 1) _ vs e k1 (fun t ht => (h4 t ht).1) k2 (by omega)
  refine ⟨by unfold Lexes lexed; rw [hgo], ?_⟩
  unfold tokens lexed
  rw [hgo, h3, List.map_map]
  exact List.map_id _

end Verif.Wit
