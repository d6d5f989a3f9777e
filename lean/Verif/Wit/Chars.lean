import Verif.Wit.LexRun

/-!
# Characters and comments of a WIT text
-/

namespace Verif.Wit

namespace Spec

/-- A Unicode scalar value. -/
def Scalar (r : Nat) : Prop := r < 0xD800 ∨ (0xE000 ≤ r ∧ r < 0x110000)

/-- The UTF-8 encoding of a character. -/
def encode (r : Nat) : List Byte :=
  if r < 0x80 then [BitVec.ofNat 8 r]
  else if r < 0x800 then [BitVec.ofNat 8 (0xC0 + r / 64), BitVec.ofNat 8 (0x80 + r % 64)]
  else if r < 0x10000 then
    [BitVec.ofNat 8 (0xE0 + r / 4096), BitVec.ofNat 8 (0x80 + r / 64 % 64), BitVec.ofNat 8 (0x80 + r % 64)]
  else
    [BitVec.ofNat 8 (0xF0 + r / 262144), BitVec.ofNat 8 (0x80 + r / 4096 % 64), BitVec.ofNat 8 (0x80 + r / 64 % 64),
     BitVec.ofNat 8 (0x80 + r % 64)]

/-- The UTF-8 encoding of a text. -/
def utf8 (rs : List Nat) : List Byte := rs.flatMap encode

/-- Bytes with which no character begins. -/
def Malformed (w : List Byte) : Prop := w ≠ [] ∧ ∀ r, Scalar r → ¬ encode r <+: w

/-- The first character of a text. A byte with which no character begins counts as U+FFFD. -/
def Begins (w : List Byte) (r : Nat) : Prop := (Scalar r ∧ encode r <+: w) ∨ (Malformed w ∧ r = 0xFFFD)

/-- The characters of a text. A byte with which no character begins counts as U+FFFD. -/
inductive Chars : List Byte → List Nat → Prop
  | nil : Chars [] []
  | char {r : Nat} {w : List Byte} {rs : List Nat} : Scalar r → Chars w rs → Chars (encode r ++ w) (r :: rs)
  | other {b : Byte} {w : List Byte} {rs : List Nat} : Malformed (b :: w) → Chars w rs → Chars (b :: w) (0xFFFD :: rs)

end Spec

open Spec

theorem toNat_byte (n : Nat) (h : n < 256) : (BitVec.ofNat 8 n).toNat = n := by
  rw [BitVec.toNat_ofNat]; omega

theorem lead_two (b : Byte) (h : 0xC2 ≤ b.toNat ∧ b.toNat ≤ 0xDF) : lead b = some (2, 0x80, 0xBF) := by
  unfold lead; simp only; rw [if_pos h]

theorem lead_three (b : Byte) (h : 0xE0 ≤ b.toNat ∧ b.toNat ≤ 0xEF) :
    lead b = some (3, if b.toNat = 0xE0 then 0xA0 else 0x80, if b.toNat = 0xED then 0x9F else 0xBF) := by
  unfold lead
  simp only
  rw [if_neg (by omega)]
  split
  · rename_i h1; rw [if_neg (by omega)]
  · split
    · rfl
    · rw [if_pos (by omega)]

theorem lead_four (b : Byte) (h : 0xF0 ≤ b.toNat ∧ b.toNat ≤ 0xF4) :
    lead b = some (4, if b.toNat = 0xF0 then 0x90 else 0x80, if b.toNat = 0xF4 then 0x8F else 0xBF) := by
  unfold lead
  simp only
  rw [if_neg (by omega), if_neg (by omega), if_neg (by omega), if_neg (by omega)]
  split
  · rename_i h1; rw [if_neg (by omega)]
  · split
    · rw [if_neg (by omega)]
    · rw [if_pos (by omega), if_pos (by omega)]

/-- An encoded character is decoded, whatever follows it. -/
theorem decode_encode (r : Nat) (hr : Scalar r) (v : List Byte) : decode (encode r ++ v) = (r, (encode r).length) := by
  unfold Scalar at hr
  unfold encode
  split
  · rename_i h
    rw [List.cons_append, List.nil_append, decode_ascii _ _ (by rw [toNat_byte _ (by omega)]; exact h), toNat_byte _ (by omega)]
    rfl
  split
  · rename_i h
    have e1 := toNat_byte (0xC0 + r / 64) (by omega)
    have e2 := toNat_byte (0x80 + r % 64) (by omega)
    simp only [List.cons_append, List.nil_append]
    rw [decode, if_neg (by rw [e1]; omega), lead_two _ (by rw [e1]; omega), decodeWide, if_pos (by rw [e2]; omega), e1, e2]
    simp only [List.length_cons, List.length_nil, Prod.mk.injEq, and_true]
    omega
  split
  · rename_i h
    have e1 := toNat_byte (0xE0 + r / 4096) (by omega)
    have e2 := toNat_byte (0x80 + r / 64 % 64) (by omega)
    have e3 := toNat_byte (0x80 + r % 64) (by omega)
    simp only [List.cons_append, List.nil_append]
    rw [decode, if_neg (by rw [e1]; omega), lead_three _ (by rw [e1]; omega), decodeWide, if_pos ?_, e1, e2, e3]
    · simp only [List.length_cons, List.length_nil, Prod.mk.injEq, and_true]
      omega
    · rw [isTail_iff, e1, e2, e3]
      refine ⟨⟨?_, ?_⟩, by omega, by omega⟩
      · split <;> omega
      · split <;> omega
  · rename_i h
    have e1 := toNat_byte (0xF0 + r / 262144) (by omega)
    have e2 := toNat_byte (0x80 + r / 4096 % 64) (by omega)
    have e3 := toNat_byte (0x80 + r / 64 % 64) (by omega)
    have e4 := toNat_byte (0x80 + r % 64) (by omega)
    simp only [List.cons_append, List.nil_append]
    rw [decode, if_neg (by rw [e1]; omega), lead_four _ (by rw [e1]; omega), decodeWide, if_pos ?_, e1, e2, e3, e4]
    · simp only [List.length_cons, List.length_nil, Prod.mk.injEq, and_true]
      omega
    · rw [isTail_iff, isTail_iff, e1, e2, e3, e4]
      refine ⟨⟨?_, ?_⟩, ⟨by omega, by omega⟩, by omega, by omega⟩
      · split <;> omega
      · split <;> omega

theorem encode_ne (r : Nat) : encode r ≠ [] := by
  unfold encode
  repeat' split
  all_goals simp

/-- What `decode` finds is there. -/
theorem encode_decode (w : List Byte) (hw : w ≠ []) :
    decode w = (runeError, 1) ∨ (Scalar (decode w).1 ∧ encode (decode w).1 <+: w) := by
  cases w with
  | nil => exact absurd rfl hw
  | cons b w =>
    have eqb : ∀ (x : Byte) (n : Nat), x.toNat = n → BitVec.ofNat 8 n = x := by
      intro x n h; subst h; simp
    by_cases hb : b.toNat < 128
    · right
      rw [decode_ascii b w hb]
      refine ⟨.inl (by simp only; omega), ?_⟩
      unfold encode
      rw [if_pos hb, eqb b _ rfl]
      exact ⟨w, rfl⟩
    · rw [decode, if_neg (by omega), decodeWide.eq_def]
      have hb' := b.isLt
      split
      · rename_i lo hi c w' hl
        split
        · rename_i hc
          right
          have := lead_cases _ _ _ _ hl
          refine ⟨.inl (by simp only; omega), ?_⟩
          unfold encode
          rw [if_neg (by simp only; omega), if_pos (by simp only; omega), eqb b _ (by simp only; omega), eqb c _ (by simp only; omega)]
          exact ⟨w', rfl⟩
        · exact .inl rfl
      · rename_i lo hi c d w' hl
        split
        · rename_i hc
          right
          have := lead_cases _ _ _ _ hl
          obtain ⟨hc, hd⟩ := hc
          rw [isTail_iff] at hd
          refine ⟨by unfold Scalar; simp only; omega, ?_⟩
          unfold encode
          rw [if_neg (by simp only; omega), if_neg (by simp only; omega), if_pos (by simp only; omega), eqb b _ (by simp only; omega), eqb c _ (by simp only; omega), eqb d _ (by simp only; omega)]
          exact ⟨w', rfl⟩
        · exact .inl rfl
      · rename_i lo hi c d e w' hl
        split
        · rename_i hc
          right
          have := lead_cases _ _ _ _ hl
          obtain ⟨hc, hd, he⟩ := hc
          rw [isTail_iff] at hd he
          refine ⟨by unfold Scalar; simp only; omega, ?_⟩
          unfold encode
          rw [if_neg (by simp only; omega), if_neg (by simp only; omega), if_neg (by simp only; omega), eqb b _ (by simp only; omega), eqb c _ (by simp only; omega), eqb d _ (by simp only; omega), eqb e _ (by simp only; omega)]
          exact ⟨w', rfl⟩
        · exact .inl rfl
      · exact .inl rfl

theorem decode_malformed (w : List Byte) (h : Malformed w) : decode w = (0xFFFD, 1) := by
  rcases encode_decode w h.1 with e | ⟨e1, e2⟩
  · exact e
  · exact absurd e2 (h.2 _ e1)

/-- The first character is what `decode` says. -/
theorem begins_iff (w : List Byte) (r : Nat) : Begins w r ↔ w ≠ [] ∧ r = (decode w).1 := by
  constructor
  · rintro (⟨hs, v, rfl⟩ | ⟨hm, rfl⟩)
    · rw [decode_encode r hs]; exact ⟨by simp [encode_ne], rfl⟩
    · rw [decode_malformed w hm]; exact ⟨hm.1, rfl⟩
  · rintro ⟨hw, rfl⟩
    by_cases hm : Malformed w
    · exact .inr ⟨hm, by rw [decode_malformed w hm]⟩
    · left
      rcases encode_decode w hw with e | e
      · exfalso
        refine hm ⟨hw, fun r hr hp => ?_⟩
        obtain ⟨v, rfl⟩ := hp
        rw [decode_encode r hr] at e
        injection e with e1 e2
        subst e1
        exact absurd e2 (by decide)
      · exact e

/-! ## Runs -/

/-- A text of characters that pass a test, followed by one that does not. -/
theorem run_utf8 (f : Nat → Bool) (rs : List Nat) (rest : List Byte) (hs : ∀ r ∈ rs, Scalar r) (hf : ∀ r ∈ rs, f r = true)
    (hr : rest = [] ∨ f (decode rest).1 = false) : run f (utf8 rs ++ rest) = (utf8 rs).length := by
  induction rs with
  | nil =>
    simp only [utf8, List.flatMap_nil, List.nil_append, List.length_nil]
    rw [run_eq]
    rcases hr with h | h
    · rw [if_pos h]
    · split
      · rfl
      · rw [if_neg (by simp [h])]
  | cons r rs ih =>
    have e : utf8 (r :: rs) ++ rest = encode r ++ (utf8 rs ++ rest) := by simp [utf8]
    rw [e, run_eq, if_neg (by simp [encode_ne]), decode_encode r (hs r (by simp)), if_pos (hf r (by simp))]
    simp only [List.drop_left]
    rw [ih (fun r h => hs r (by simp [h])) (fun r h => hf r (by simp [h]))]
    simp [utf8]

/-- Cutting a text into characters, at most `n`; a byte that belongs to no character counts as U+FFFD. -/
def charsN : Nat → List Byte → List Nat
  | 0, _ => []
  | n + 1, w => if w = [] then [] else (decode w).1 :: charsN n (w.drop (decode w).2)

/-- The characters of a text. -/
def chars (w : List Byte) : List Nat := charsN w.length w

theorem charsN_bound (n m : Nat) (w : List Byte) (hn : w.length ≤ n) (hm : w.length ≤ m) : charsN n w = charsN m w := by
  induction n generalizing m w with
  | zero =>
    have : w = [] := List.length_eq_zero_iff.1 (by omega)
    subst this
    cases m <;> simp [charsN]
  | succ n ih =>
    cases m with
    | zero =>
      have : w = [] := List.length_eq_zero_iff.1 (by omega)
      subst this
      simp [charsN]
    | succ m =>
      rw [charsN, charsN]
      by_cases hw : w = []
      · rw [if_pos hw, if_pos hw]
      · have hp := decode_pos w hw
        rw [if_neg hw, if_neg hw, ih m (w.drop (decode w).2) (by rw [List.length_drop]; omega)
          (by rw [List.length_drop]; omega)]

theorem chars_cons (w : List Byte) (h : w ≠ []) : chars w = (decode w).1 :: chars (w.drop (decode w).2) := by
  have hp := decode_pos w h
  unfold chars
  rw [charsN_bound w.length (w.length + 1) w (Nat.le_refl _) (by omega), charsN, if_neg h,
    charsN_bound w.length (w.drop (decode w).2).length (w.drop (decode w).2) (by rw [List.length_drop]; omega) (Nat.le_refl _)]

theorem chars_nil : chars [] = [] := rfl

theorem chars_utf8 (rs : List Nat) (hs : ∀ r ∈ rs, Scalar r) : chars (utf8 rs) = rs := by
  induction rs with
  | nil => rfl
  | cons r rs ih =>
    have e : utf8 (r :: rs) = encode r ++ utf8 rs := by simp [utf8]
    rw [e, chars_cons _ (by simp [encode_ne]), decode_encode r (hs r (by simp))]
    simp only [List.drop_left]
    rw [ih (fun r h => hs r (by simp [h]))]

theorem chars_spec (w : List Byte) : Chars w (chars w) := by
  induction w using rune_induction with
  | nil => exact .nil
  | step w hw ih =>
    rw [chars_cons w hw]
    rcases (begins_iff w _).2 ⟨hw, rfl⟩ with ⟨hs, v, hv⟩ | ⟨hm, -⟩
    · have hd := decode_encode _ hs v
      rw [hv] at hd
      have e : w.drop (decode w).2 = v := by
        rw [hd]
        conv => lhs; arg 2; rw [← hv]
        simp
      rw [e] at ih ⊢
      have := Chars.char hs ih
      rwa [hv] at this
    · rw [decode_malformed w hm] at ih ⊢
      cases w with
      | nil => exact absurd rfl hw
      | cons b w => exact .other hm ih

/-- The first character of a text, followed by a cut text. -/
theorem chars_take (w : List Byte) (n : Nat) (h : w ≠ []) :
    chars (w.take ((decode w).2 + n)) = (decode w).1 :: chars ((w.drop (decode w).2).take n) := by
  have hp := decode_pos w h
  have hne : w.take ((decode w).2 + n) ≠ [] := by
    intro he
    have := congrArg List.length he
    rw [List.length_take, List.length_nil] at this
    have : w.length ≠ 0 := fun h0 => h (List.length_eq_zero_iff.1 h0)
    omega
  have hd : decode (w.take ((decode w).2 + n)) = decode w := by
    have := decode_prefix (w.take ((decode w).2 + n)) (w.drop ((decode w).2 + n)) hne (by
      rw [List.take_append_drop, List.length_take]; omega)
    rw [List.take_append_drop] at this
    exact this
  rw [chars_cons _ hne, hd, List.drop_take, Nat.add_sub_cancel_left]

/-- What a run is. -/
theorem run_chars (f : Nat → Bool) (w : List Byte) :
    (∀ r ∈ chars (w.take (run f w)), f r = true) ∧ (w.drop (run f w) = [] ∨ f (decode (w.drop (run f w))).1 = false) := by
  induction w using rune_induction with
  | nil => simp [run_nil, chars_nil]
  | step w hw ih =>
    rw [run_eq, if_neg hw]
    by_cases hf : f (decode w).1 = true
    · rw [if_pos hf, chars_take w _ hw]
      rw [List.drop_drop] at ih
      refine ⟨?_, ih.2⟩
      intro r hr
      rcases List.mem_cons.1 hr with rfl | hr
      · exact hf
      · exact ih.1 r hr
    · rw [if_neg hf]
      refine ⟨by simp [chars_nil], .inr ?_⟩
      simpa using hf

/-! ## Comments -/

namespace Spec

/-- There is no comment marker in the text. -/
def Unmarked (p : List Byte) : Prop := ¬ txt "/*" <:+: p ∧ ¬ txt "*/" <:+: p

/-- What can stand between the markers of a block comment: text without markers, with comments between. The first
marker of a text counts, so that in `*/*` the comment ends. -/
inductive CommentBody : List Byte → Prop
  | plain (p : List Byte) : Unmarked (p ++ txt "*") → CommentBody p
  | nested (p c s : List Byte) : Unmarked (p ++ txt "/") → CommentBody c → CommentBody s →
      CommentBody (p ++ (txt "/*" ++ c ++ txt "*/") ++ s)

/-- A block comment. -/
def Comment (c : List Byte) : Prop := ∃ body, CommentBody body ∧ c = txt "/*" ++ body ++ txt "*/"

end Spec

theorem two_infix (a b x y : Byte) (w : List Byte) : [a, b] <:+: x :: y :: w ↔ (a = x ∧ b = y) ∨ [a, b] <:+: y :: w := by
  rw [List.infix_cons_iff]
  simp

theorem unmarked_tail (b : Byte) (p : List Byte) (h : Unmarked (b :: p)) : Unmarked p :=
  ⟨fun k => h.1 (k.trans (List.suffix_cons b p).isInfix), fun k => h.2 (k.trans (List.suffix_cons b p).isInfix)⟩

theorem unmarked_cons (b c : Byte) (p : List Byte) :
    Unmarked (b :: c :: p) ↔ ¬ (b = ch '/' ∧ c = ch '*') ∧ ¬ (b = ch '*' ∧ c = ch '/') ∧ Unmarked (c :: p) := by
  unfold Unmarked
  rw [show txt "/*" = [ch '/', ch '*'] from rfl, show txt "*/" = [ch '*', ch '/'] from rfl, two_infix, two_infix]
  constructor
  · rintro ⟨h1, h2⟩
    exact ⟨fun h => h1 (.inl ⟨h.1.symm, h.2.symm⟩), fun h => h2 (.inl ⟨h.1.symm, h.2.symm⟩), fun h => h1 (.inr h),
      fun h => h2 (.inr h)⟩
  · rintro ⟨h1, h2, h3, h4⟩
    exact ⟨fun h => h.elim (fun h => h1 ⟨h.1.symm, h.2.symm⟩) h3, fun h => h.elim (fun h => h2 ⟨h.1.symm, h.2.symm⟩) h4⟩

/-- A test for markers. -/
def unmarked : List Byte → Bool
  | b :: c :: p => !(b == ch '/' && c == ch '*') && !(b == ch '*' && c == ch '/') && unmarked (c :: p)
  | _ => true

theorem unmarked_iff (p : List Byte) : unmarked p = true ↔ Unmarked p := by
  induction p using two_induction with
  | nil => exact ⟨fun _ => ⟨by decide, by decide⟩, fun _ => rfl⟩
  | one b =>
    refine ⟨fun _ => ⟨fun h => ?_, fun h => ?_⟩, fun _ => rfl⟩ <;> have := h.length_le <;> simp [txt] at this
  | two b c w _ ih =>
    rw [unmarked_cons, unmarked, Bool.and_eq_true, Bool.and_eq_true, ih, and_assoc]
    simp [Decidable.imp_iff_not_or]

instance (p : List Byte) : Decidable (Unmarked p) := decidable_of_iff _ (unmarked_iff p)

/-- Text without markers is passed over. -/
theorem closing_unmarked (d : Nat) (p : List Byte) (c : Byte) (w : List Byte) (h : Unmarked (p ++ [c])) :
    closing (d + 1) (p ++ c :: w) = (closing (d + 1) (c :: w)).map (· + p.length) := by
  induction p with
  | nil => simp
  | cons b p ih =>
    have ihp := ih (unmarked_tail b _ h)
    rw [List.cons_append] at h ⊢
    have key : ∃ x q, p ++ c :: w = x :: q ∧ ¬ (b = ch '/' ∧ x = ch '*') ∧ ¬ (b = ch '*' ∧ x = ch '/') := by
      cases p with
      | nil =>
        rw [List.nil_append, unmarked_cons] at h
        exact ⟨c, w, rfl, h.1, h.2.1⟩
      | cons x p =>
        rw [List.cons_append, unmarked_cons] at h
        exact ⟨x, p ++ c :: w, rfl, h.1, h.2.1⟩
    obtain ⟨x, q, e, h1, h2⟩ := key
    rw [e] at ihp ⊢
    rw [closing, if_neg h1, if_neg h2, ihp, Option.map_map]
    congr 1

/-- The inside of a comment is passed over. -/
theorem closing_body (body : List Byte) (hb : CommentBody body) (d : Nat) (w : List Byte) :
    closing (d + 1) (body ++ (txt "*/" ++ w)) = (closing d w).map (· + (body.length + 2)) := by
  induction hb generalizing d w with
  | plain p h =>
    rw [show txt "*/" ++ w = ch '*' :: ch '/' :: w from rfl, closing_unmarked d p (ch '*') _ h, closing, if_neg (by decide),
      if_pos (by decide), Option.map_map]
    congr 1
    funext x
    simp only [Function.comp]
    omega
  | nested p c s h _ _ ihc ihs =>
    have e : p ++ (txt "/*" ++ c ++ txt "*/") ++ s ++ (txt "*/" ++ w) =
        p ++ (ch '/' :: ch '*' :: (c ++ (txt "*/" ++ (s ++ (txt "*/" ++ w))))) := by
      rw [show txt "/*" = [ch '/', ch '*'] from rfl]
      simp
    rw [e, closing_unmarked d p (ch '/') _ h, closing, if_pos (by decide), ihc, ihs, Option.map_map, Option.map_map, Option.map_map]
    congr 1
    funext x
    simp only [Function.comp, List.length_append, show (txt "/*").length = 2 from rfl, show (txt "*/").length = 2 from rfl]
    omega

theorem body_cons (b : Byte) (s w : List Byte) (hs : CommentBody s)
    (h : ∀ c, (s ++ (txt "*/" ++ w)).head? = some c → ¬ (b = ch '/' ∧ c = ch '*') ∧ ¬ (b = ch '*' ∧ c = ch '/')) :
    CommentBody (b :: s) := by
  cases hs with
  | plain _ hp =>
    refine .plain _ ?_
    cases s with
    | nil =>
      have := h (ch '*') rfl
      exact (unmarked_cons b (ch '*') []).2 ⟨this.1, this.2, hp⟩
    | cons x s =>
      have := h x rfl
      exact (unmarked_cons b x _).2 ⟨this.1, this.2, hp⟩
  | nested p c s hp hc hs =>
    rw [show b :: (p ++ (txt "/*" ++ c ++ txt "*/") ++ s) = (b :: p) ++ (txt "/*" ++ c ++ txt "*/") ++ s by simp]
    refine .nested _ _ _ ?_ hc hs
    cases p with
    | nil =>
      have := h (ch '/') rfl
      exact (unmarked_cons b (ch '/') []).2 ⟨this.1, this.2, hp⟩
    | cons x p =>
      have := h x rfl
      exact (unmarked_cons b x _).2 ⟨this.1, this.2, hp⟩

/-- What `closing` finds begins with the inside of a comment. -/
theorem closing_some (d : Nat) (w : List Byte) (n : Nat) (h : closing (d + 1) w = some n) :
    ∃ body v m, CommentBody body ∧ w = body ++ (txt "*/" ++ v) ∧ closing d v = some m ∧ n = body.length + 2 + m := by
  suffices H : ∀ k (w : List Byte), w.length ≤ k → ∀ d n, closing (d + 1) w = some n →
      ∃ body v m, CommentBody body ∧ w = body ++ (txt "*/" ++ v) ∧ closing d v = some m ∧ n = body.length + 2 + m from
    H w.length w (Nat.le_refl _) d n h
  intro k
  induction k with
  | zero =>
    intro w hw d n h
    have : w = [] := List.length_eq_zero_iff.1 (by omega)
    subst this
    cases h
  | succ k ih =>
    intro w hw d n h
    rcases w with _ | ⟨b, _ | ⟨c, w⟩⟩
    · cases h
    · cases h
    · simp only [List.length_cons] at hw
      rw [closing] at h
      split at h
      · rename_i hm
        obtain ⟨rfl, rfl⟩ := hm
        rw [Option.map_eq_some_iff] at h
        obtain ⟨n1, h1, rfl⟩ := h
        obtain ⟨c1, v1, m1, hc1, rfl, hv1, rfl⟩ := ih w (by omega) (d + 1) n1 h1
        obtain ⟨c2, v2, m2, hc2, rfl, hv2, rfl⟩ := ih v1 (by simp only [List.length_append] at hw; omega) d m1 hv1
        refine ⟨[] ++ (txt "/*" ++ c1 ++ txt "*/") ++ c2, v2, m2, .nested [] c1 c2 ?_ hc1 hc2, ?_, hv2, ?_⟩
        · constructor <;> decide
        · rw [show txt "/*" = [ch '/', ch '*'] from rfl]; simp
        · simp only [List.length_append, List.length_nil, show (txt "/*").length = 2 from rfl, show (txt "*/").length = 2 from rfl]
          omega
      · split at h
        · rename_i hm
          obtain ⟨rfl, rfl⟩ := hm
          rw [Option.map_eq_some_iff] at h
          obtain ⟨n1, h1, rfl⟩ := h
          refine ⟨[], w, n1, .plain [] ?_, rfl, h1, ?_⟩
          · constructor <;> decide
          · simp only [List.length_nil]; omega
        · rename_i hn1 hn2
          rw [Option.map_eq_some_iff] at h
          obtain ⟨n1, h1, rfl⟩ := h
          obtain ⟨s, v, m, hs, hw2, hv, rfl⟩ := ih (c :: w) (by simp only [List.length_cons]; omega) d n1 h1
          refine ⟨b :: s, v, m, body_cons b s v hs ?_, by rw [hw2]; rfl, hv, ?_⟩
          · intro x hx
            rw [← hw2] at hx
            cases hx
            exact ⟨hn1, hn2⟩
          · simp only [List.length_cons]; omega

theorem closing_comment (w : List Byte) (n : Nat) (h : closing 1 w = some n) :
    Comment (txt "/*" ++ w.take n) := by
  obtain ⟨body, v, m, hb, rfl, hv, rfl⟩ := closing_some 0 w n h
  have : m = 0 := by simpa [closing] using hv.symm
  subst this
  refine ⟨body, hb, ?_⟩
  rw [List.append_assoc (txt "/*")]
  congr 1
  rw [← List.append_assoc, List.take_left' (by simp [show (txt "*/").length = 2 from rfl])]

end Verif.Wit
