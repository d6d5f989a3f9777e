import Verif.Wat.ParseSafe
import Verif.Wat.StreamStep
import Verif.Wat.Render
import Verif.Wat.Number

/-!
# Number constants of WAT: C48, C49
-/

namespace Verif.Wat

open Spec

namespace Spec

/-- A decimal or hexadecimal integer without a sign, and its value. -/
inductive Magnitude : List Byte → Nat → Prop
  | decimal (s : List Byte) : Numeral digit s → Magnitude s (value 10 s)
  | hex (s : List Byte) : Numeral hexDigit s → Magnitude (txt "0x" ++ s) (value 16 s)

/-- An integer literal of the WebAssembly text format, and its value. -/
inductive Literal : List Byte → Int → Prop
  | none (s : List Byte) (n : Nat) : Magnitude s n → Literal s n
  | plus (s : List Byte) (n : Nat) : Magnitude s n → Literal (ch '+' :: s) n
  | minus (s : List Byte) (n : Nat) : Magnitude s n → Literal (ch '-' :: s) (-(n : Int))

/-- No plus sign in front, and no 0 in front of further decimal digits. -/
def NoPadding (w : List Byte) : Prop :=
  w.head? ≠ some (ch '+') ∧
    ∀ body, (w = body ∨ w = ch '-' :: body) → body.head? = some (ch '0') → body = txt "0" ∨ txt "0x" <+: body

end Spec

/-- Proves that a given text is a numeral. -/
macro "numeral" : tactic => `(tactic|
  repeat first | exact .one _ (by decide) | refine .under _ _ (by decide) ?_ | refine .more _ _ (by decide) ?_)

theorem digitOf_hex (b : Byte) (h : hexDigit b = true) :
    b ≠ ch '_' ∧ Strconv.digitOf b = some (digitVal b) ∧ digitVal b < 16 := by
  revert b; decide

theorem digitOf_dec (b : Byte) (h : digit b = true) :
    b ≠ ch '_' ∧ Strconv.digitOf b = some (digitVal b) ∧ digitVal b < 10 := by
  revert b; decide

theorem value_grows (base : Nat) (hb : 1 ≤ base) (s : List Byte) (n : Nat) :
    n ≤ s.foldl (fun n b => if b = ch '_' then n else n * base + digitVal b) n := by
  induction s generalizing n with
  | nil => exact Nat.le_refl _
  | cons b s ih =>
    rw [List.foldl_cons]
    refine Nat.le_trans ?_ (ih _)
    split
    · exact Nat.le_refl _
    · have : n * 1 ≤ n * base := Nat.mul_le_mul_left n hb
      omega

theorem digitLoop_value (d : Byte → Bool) (base max : Nat) (hb : 1 ≤ base)
    (hd : ∀ b, d b = true → b ≠ ch '_' ∧ Strconv.digitOf b = some (digitVal b) ∧ digitVal b < base)
    (s : List Byte) (hs : ∀ b ∈ s, d b = true ∨ b = ch '_') (n : Nat) (hn : n ≤ max) :
    Strconv.digitLoop base max true s n =
      let v := s.foldl (fun n b => if b = ch '_' then n else n * base + digitVal b) n
      if v ≤ max then .ok v else .err := by
  induction s generalizing n with
  | nil => simp [Strconv.digitLoop, hn]
  | cons b s ih =>
    have hs' : ∀ b ∈ s, d b = true ∨ b = ch '_' := fun c hc => hs c (by simp [hc])
    rw [Strconv.digitLoop, List.foldl_cons]
    by_cases hu : b = ch '_'
    · rw [if_pos ⟨rfl, hu⟩, if_pos hu]
      exact ih hs' n hn
    · have hdb := (hs b (by simp)).resolve_right hu
      obtain ⟨-, h2, h3⟩ := hd b hdb
      rw [if_neg (by simp [hu]), if_neg hu, h2]
      simp only
      rw [if_neg (by omega)]
      by_cases hm : n * base + digitVal b ≤ max
      · rw [if_neg (by omega)]
        exact ih hs' _ hm
      · rw [if_pos (by omega), if_neg]
        have := value_grows base hb s (n * base + digitVal b)
        omega

theorem numeral_mem (d : Byte → Bool) (s : List Byte) (h : Numeral d s) : ∀ b ∈ s, d b = true ∨ b = ch '_' := by
  induction h with
  | one b hb => intro c hc; simp only [List.mem_singleton] at hc; subst hc; exact .inl hb
  | more b s hb _ ih =>
    intro c hc
    rcases List.mem_cons.1 hc with rfl | hc
    · exact .inl hb
    · exact ih c hc
  | under b s hb _ ih =>
    intro c hc
    rcases List.mem_cons.1 hc with rfl | hc
    · exact .inl hb
    · rcases List.mem_cons.1 hc with rfl | hc
      · exact .inr rfl
      · exact ih c hc

theorem under_digit (hex : Bool) (b : Byte) (hb : digit b = true ∨ (hex = true ∧ hexDigit b = true)) :
    (ch '0' ≤ b ∧ b ≤ ch '9') ∨ (hex = true ∧ ch 'a' ≤ Strconv.lower b ∧ Strconv.lower b ≤ ch 'f') := by
  revert hb
  cases hex
  · simp only [Bool.false_eq_true, false_and, or_false]
    revert b; decide
  · simp only [true_and]
    revert b; decide

theorem underLoop_numeral (hex : Bool) (d : Byte → Bool) (hd : ∀ b, d b = true → digit b = true ∨ (hex = true ∧ hexDigit b = true))
    (s : List Byte) (h : Numeral d s) (saw : Strconv.Saw) : Strconv.underLoop hex s saw = true := by
  induction h generalizing saw with
  | one b hb =>
    rw [Strconv.underLoop, if_pos (under_digit hex b (hd b hb))]
    rfl
  | more b s hb _ ih =>
    rw [Strconv.underLoop, if_pos (under_digit hex b (hd b hb))]
    exact ih _
  | under b s hb _ ih =>
    rw [Strconv.underLoop, if_pos (under_digit hex b (hd b hb)), Strconv.underLoop, if_neg (by cases hex <;> decide), if_pos rfl, if_pos rfl]
    exact ih _

/-- `ParseUint` of an unpadded magnitude. -/
theorem parseUint_magnitude (s : List Byte) (n : Nat) (h : Magnitude s n)
    (hp : s.head? = some (ch '0') → s = txt "0" ∨ txt "0x" <+: s) (bits : Nat) :
    Strconv.parseUint s bits = if n < 2 ^ bits then .ok n else .err := by
  have hpos : 0 < 2 ^ bits := Nat.two_pow_pos bits
  cases h with
  | decimal s h =>
    have hmem := numeral_mem _ _ h
    obtain ⟨b, r, hbr, hb⟩ := numeral_head _ _ h
    have hbase : Strconv.prefixBase s = (10, s) ∨ s = txt "0" := by
      by_cases h0 : s.head? = some (ch '0')
      · rcases hp h0 with h1 | ⟨q, h1⟩
        · exact .inr h1
        · exfalso
          have : ch 'x' ∈ s := by rw [← h1]; simp [txt]
          have := hmem _ this
          revert this; decide
      · left; rw [Strconv.prefixBase, if_pos h0]
    have hunder : Strconv.underscoreOK s = true := by
      unfold Strconv.underscoreOK
      simp only
      rw [if_neg]
      · exact underLoop_numeral false digit (fun b hb => .inl hb) s h _
      · rintro ⟨h0, h1⟩
        rcases hp h0 with h2 | ⟨q, h2⟩
        · rw [h2] at h1
          revert h1; decide
        · have : ch 'x' ∈ s := by rw [← h2]; simp [txt]
          have := hmem _ this
          revert this; decide
    unfold Strconv.parseUint
    rw [if_neg (by rw [hbr]; simp)]
    simp only [hunder, not_true, and_false, if_false]
    rcases hbase with h1 | h1
    · rw [h1]
      simp only
      rw [digitLoop_value digit 10 (2 ^ bits - 1) (by omega) digitOf_dec s hmem 0 (by omega)]
      simp only
      change (if value 10 s ≤ 2 ^ bits - 1 then Res.ok (value 10 s) else Res.err) >>= _ = _
      by_cases hv : value 10 s < 2 ^ bits
      · rw [if_pos hv, if_pos (by omega)]; rfl
      · rw [if_neg hv, if_neg (by omega)]; rfl
    · rw [h1]
      have e1 : Strconv.prefixBase (txt "0") = (8, []) := by decide
      have e2 : value 10 (txt "0") = 0 := by decide
      rw [e1, e2, if_pos hpos]
      rfl
  | hex s h =>
    have hmem := numeral_mem _ _ h
    obtain ⟨b, r, hbr, hb⟩ := numeral_head _ _ h
    have htxt : txt "0x" ++ s = ch '0' :: ch 'x' :: s := rfl
    have hbase : Strconv.prefixBase (txt "0x" ++ s) = (16, s) := by
      have hx : Option.map Strconv.lower (txt "0x" ++ s)[1]? = some (ch 'x') := by
        rw [htxt]
        simp only [List.getElem?_cons_succ, List.getElem?_cons_zero, Option.map_some]
        decide
      have h3 : 3 ≤ (txt "0x" ++ s).length := by rw [htxt, hbr]; simp
      unfold Strconv.prefixBase
      rw [hx, if_neg (by rw [htxt]; simp), if_neg (fun h => absurd h.2 (by decide)), if_neg (fun h => absurd h.2 (by decide)), if_pos ⟨h3, rfl⟩]
      rfl
    have hunder : Strconv.underscoreOK (txt "0x" ++ s) = true := by
      unfold Strconv.underscoreOK
      simp only
      have hx : Option.map Strconv.lower (txt "0x" ++ s)[1]? = some (ch 'x') := by
        rw [htxt]
        simp only [List.getElem?_cons_succ, List.getElem?_cons_zero, Option.map_some]
        decide
      rw [hx, if_pos ⟨by rw [htxt]; rfl, .inr (.inr rfl)⟩]
      exact underLoop_numeral _ hexDigit (fun b hb => .inr ⟨by simp, hb⟩) s h _
    unfold Strconv.parseUint
    rw [if_neg (by rw [htxt]; simp)]
    simp only [hunder, not_true, and_false, if_false]
    rw [hbase]
    simp only
    rw [digitLoop_value hexDigit 16 (2 ^ bits - 1) (by omega) digitOf_hex s hmem 0 (by omega)]
    simp only
    change (if value 16 s ≤ 2 ^ bits - 1 then Res.ok (value 16 s) else Res.err) >>= _ = _
    by_cases hv : value 16 s < 2 ^ bits
    · rw [if_pos hv, if_pos (by omega)]; rfl
    · rw [if_neg hv, if_neg (by omega)]; rfl

theorem magnitude_head (s : List Byte) (n : Nat) (h : Magnitude s n) : ∃ b r, s = b :: r ∧ digit b = true := by
  cases h with
  | decimal s h => exact numeral_head _ _ h
  | hex s h => exact ⟨ch '0', ch 'x' :: s, rfl, by decide⟩

theorem digit_sign (b : Byte) (h : digit b = true) : b ≠ ch '+' ∧ b ≠ ch '-' := by
  revert b; decide

/-- What the parser makes of an unpadded literal. -/
theorem integerValue_literal (w : List Byte) (v : Int) (h : Literal w v) (hp : NoPadding w) :
    integerValue w = if -2 ^ 31 ≤ v ∧ v < 2 ^ 32 then .ok v else .err := by
  cases h with
  | none s n h =>
    obtain ⟨b, r, e, hb⟩ := magnitude_head _ _ h
    obtain ⟨-, h2⟩ := digit_sign b hb
    unfold integerValue
    rw [if_neg (by rw [e]; simpa using h2), parseUint_magnitude w n h (fun h0 => hp.2 w (.inl rfl) h0) 32]
    by_cases hv : n < 2 ^ 32
    · rw [if_pos hv, if_pos (by omega)]; rfl
    · rw [if_neg hv, if_neg (by omega)]; rfl
  | plus s n h => exact absurd rfl hp.1
  | minus s n h =>
    unfold integerValue
    rw [if_pos List.head?_cons]
    unfold Strconv.parseInt
    simp only
    rw [if_pos (.inr trivial), parseUint_magnitude s n h (fun h0 => hp.2 s (.inr rfl) h0) 32]
    by_cases hv : n < 2 ^ 32
    · rw [if_pos hv, Res.bind_ok, if_pos (by simp)]
      by_cases h2 : n ≤ 2 ^ 31
      · rw [if_neg (by omega), if_pos (by omega)]
      · rw [if_pos (by omega), if_neg (by omega)]
    · rw [if_neg hv, if_neg (by omega)]; rfl

theorem literal_integer (w : List Byte) (v : Int) (h : Literal w v) : Integer w := by
  have key : ∀ s n, Magnitude s n → Numeral digit s ∨ ∃ h, s = txt "0x" ++ h ∧ Numeral hexDigit h := by
    intro s n h
    cases h with
    | decimal s h => exact .inl h
    | hex s h => exact .inr ⟨s, rfl, h⟩
  cases h with
  | none s n h => exact ⟨[], w, .inl rfl, rfl, key _ _ h⟩
  | plus s n h => exact ⟨txt "+", s, .inr (.inl rfl), rfl, key _ _ h⟩
  | minus s n h => exact ⟨txt "-", s, .inr (.inr rfl), rfl, key _ _ h⟩

theorem hex_wordChar (b : Byte) (h : hexDigit b = true ∨ b = ch '_') : b ∈ wordChars := by
  revert b; decide

theorem magnitude_chars (s : List Byte) (n : Nat) (h : Magnitude s n) : ∀ b ∈ s, b ∈ wordChars := by
  cases h with
  | decimal s h =>
    intro b hb
    exact hex_wordChar b ((numeral_mem _ _ h b hb).imp (digit_hex b) id)
  | hex s h =>
    intro b hb
    rcases List.mem_append.1 hb with hb | hb
    · have : ∀ b ∈ txt "0x", b ∈ wordChars := by decide
      exact this b hb
    · exact hex_wordChar b (numeral_mem _ _ h b hb)

theorem literal_written (w : List Byte) (v : Int) (h : Literal w v) : Written ⟨.integer, w⟩ := by
  have hi := (classify_integer w).2 (integer_accepted w (literal_integer w v h))
  have hc : w ≠ [] ∧ (∀ b ∈ w, b ∈ wordChars) ∧ w.head? ≠ some (ch '$') := by
    cases h with
    | none s n h =>
      obtain ⟨b, r, e, hb⟩ := magnitude_head _ _ h
      refine ⟨by rw [e]; simp, magnitude_chars _ _ h, ?_⟩
      rw [e]
      intro h0
      simp only [List.head?_cons, Option.some.injEq] at h0
      subst h0
      revert hb; decide
    | plus s n h =>
      refine ⟨by simp, ?_, by rw [List.head?_cons]; decide⟩
      intro b hb
      rcases List.mem_cons.1 hb with rfl | hb
      · decide
      · exact magnitude_chars _ _ h b hb
    | minus s n h =>
      refine ⟨by simp, ?_, by rw [List.head?_cons]; decide⟩
      intro b hb
      rcases List.mem_cons.1 hb with rfl | hb
      · decide
      · exact magnitude_chars _ _ h b hb
  exact .word .integer w hc.1 hc.2.1 hc.2.2 ((classify_iff _ _).1 hi)

/-- Reading from the lexer of a text gives what reading its tokens gives. -/
theorem text_reads {α : Type} {f : SM Stream α} {g : SM Lexer α} (h : Sim Gives f g) (text : List Byte)
    (hd : (f (significant text)).1 ≠ .diverge) : (g (Lexer.new text)).1 = (f (significant text)).1 :=
  ((h _ _ (gives_new text)) hd).1.symm

/-- C48, for literals without a plus sign and without superfluous leading zeros. `ParseInt32` of a text that is such a
literal gives its value modulo 2^32 if that is in the range of the claim and an error otherwise. Missing: a literal with a
plus sign, which is refused, and a decimal literal with a 0 in front, which is read in base 8 (`padded_literals`). -/
theorem int32_literal_partial (w : List Byte) (v : Int) (h : Literal w v) (hp : NoPadding w) :
    (parseInt32 lexOps (Lexer.new w)).1 = if -2 ^ 31 ≤ v ∧ v < 2 ^ 32 then .ok (BitVec.ofInt 32 v) else .err := by
  have hs : significant w = ⟨[⟨.integer, w⟩], true⟩ :=
    significant_sep [⟨.integer, w⟩] (by simpa using literal_written w v h)
  have e : (parseInt32 streamOps ⟨[⟨.integer, w⟩], true⟩).1 =
      if -2 ^ 31 ≤ v ∧ v < 2 ^ 32 then .ok (BitVec.ofInt 32 v) else .err := by
    have hv := integerValue_literal w v h hp
    by_cases hr : -2 ^ 31 ≤ v ∧ v < 2 ^ 32
    · rw [if_pos hr] at hv ⊢
      rw [parseInt32_cons w v hv]
    · rw [if_neg hr] at hv ⊢
      rw [parseInt32_err w hv]
  have hd : (parseInt32 streamOps (significant w)).1 ≠ .diverge := by
    rw [hs, e]; split <;> simp
  rw [text_reads (parseInt32_sim lexOps_sim) w hd, hs, e]

/-- C48 for 64 bit constants, with the same literals. `ParseInt64` gives the value modulo 2^64, but only in the range of 32
bit constants: every other literal is an error. Missing: the rest of the range (`wide_literal`) and the literals
`int32_literal_partial` leaves out. -/
theorem int64_literal_partial (w : List Byte) (v : Int) (h : Literal w v) (hp : NoPadding w) :
    (parseInt64 lexOps (Lexer.new w)).1 = if -2 ^ 31 ≤ v ∧ v < 2 ^ 32 then .ok (BitVec.ofInt 64 v) else .err := by
  have hs : significant w = ⟨[⟨.integer, w⟩], true⟩ :=
    significant_sep [⟨.integer, w⟩] (by simpa using literal_written w v h)
  have e : (parseInt64 streamOps ⟨[⟨.integer, w⟩], true⟩).1 =
      if -2 ^ 31 ≤ v ∧ v < 2 ^ 32 then .ok (BitVec.ofInt 64 v) else .err := by
    have hv := integerValue_literal w v h hp
    by_cases hr : -2 ^ 31 ≤ v ∧ v < 2 ^ 32
    · rw [if_pos hr] at hv ⊢
      rw [parseInt64_cons w v hv]
    · rw [if_neg hr] at hv ⊢
      rw [parseInt64_err w hv]
  have hd : (parseInt64 streamOps (significant w)).1 ≠ .diverge := by
    rw [hs, e]; split <;> simp
  rw [text_reads (parseInt64_sim lexOps_sim) w hd, hs, e]

/-- The constant of an `i32.const` or `i64.const` instruction is what `ParseInt32` and `ParseInt64` read. -/
theorem const_instruction (lib : Lib) (w : List Byte) (v : Int) (h : Literal w v) (hp : NoPadding w) (n : Nat) :
    (parseInstruction lexOps lib (n + 1) (Lexer.new (txt "i32.const " ++ w))).1 =
      (if -2 ^ 31 ≤ v ∧ v < 2 ^ 32 then .ok (.i32Const (BitVec.ofInt 32 v)) else .err) ∧
    (parseInstruction lexOps lib (n + 1) (Lexer.new (txt "i64.const " ++ w))).1 =
      (if -2 ^ 31 ≤ v ∧ v < 2 ^ 32 then .ok (.i64Const (BitVec.ofInt 64 v)) else .err) := by
  have hw : ∀ c : List Byte, c = txt "i32.const" ∨ c = txt "i64.const" →
      significant (c ++ ch ' ' :: w) = ⟨[⟨.reserved, c⟩, ⟨.integer, w⟩], true⟩ := by
    intro c hc
    have hwc : Written ⟨.reserved, c⟩ := by
      rcases hc with rfl | rfl
      · exact written_word _ _ (by decide)
      · exact written_word _ _ (by decide)
    exact significant_sep [⟨.reserved, c⟩, ⟨.integer, w⟩] (by
      intro t ht
      rcases List.mem_cons.1 ht with rfl | ht
      · exact hwc
      · rw [List.mem_singleton] at ht
        rw [ht]; exact literal_written w v h)
  constructor
  · have hs := hw (txt "i32.const") (.inl rfl)
    have e : (parseInstruction streamOps lib (n + 1) ⟨[⟨.reserved, txt "i32.const"⟩, ⟨.integer, w⟩], true⟩).1 =
        if -2 ^ 31 ≤ v ∧ v < 2 ^ 32 then .ok (.i32Const (BitVec.ofInt 32 v)) else .err := by
      have hv := integerValue_literal w v h hp
      have hh : parseHead streamOps lib (parseInstruction streamOps lib n) n (txt "i32.const") = (do
          let v ← parseInt32 streamOps
          pure (.i32Const v)) := by
        unfold parseHead
        rw [show plainWords.lookup (txt "i32.const") = none by decide]
        simp only
        rw [show indexedWords.lookup (txt "i32.const") = none by decide]
        simp only
        rw [if_neg (by decide), if_pos trivial]
      change (parseInstruction streamOps lib (n + 1) ⟨kw (txt "i32.const") :: [⟨.integer, w⟩], true⟩).1 = _
      rw [parseInstruction_cons, hh]
      by_cases hr : -2 ^ 31 ≤ v ∧ v < 2 ^ 32
      · rw [if_pos hr] at hv ⊢
        rw [SM.bind_ok (show (do
            let v ← parseInt32 streamOps
            pure (Inst.i32Const v)) _ = (.ok (.i32Const (BitVec.ofInt 32 v)), ⟨[], true⟩) from by
          rw [SM.bind_ok (parseInt32_cons w v hv [] true)]
          rfl), parseFolded_end]
      · rw [if_neg hr] at hv ⊢
        rw [SM.bind_err (SM.bind_err (parseInt32_err w hv [] true))]
    rw [← hs] at e
    have hd : (parseInstruction streamOps lib (n + 1) (significant (txt "i32.const" ++ ch ' ' :: w))).1 ≠ .diverge := by
      rw [e]; split <;> simp
    exact (text_reads (parseInstruction_sim lexOps_sim lib (n + 1) (n + 1) (Nat.le_refl _)) _ hd).trans e
  · have hs := hw (txt "i64.const") (.inr rfl)
    have e : (parseInstruction streamOps lib (n + 1) ⟨[⟨.reserved, txt "i64.const"⟩, ⟨.integer, w⟩], true⟩).1 =
        if -2 ^ 31 ≤ v ∧ v < 2 ^ 32 then .ok (.i64Const (BitVec.ofInt 64 v)) else .err := by
      have hv := integerValue_literal w v h hp
      have hh : parseHead streamOps lib (parseInstruction streamOps lib n) n (txt "i64.const") = (do
          let v ← parseInt64 streamOps
          pure (.i64Const v)) := by
        unfold parseHead
        rw [show plainWords.lookup (txt "i64.const") = none by decide]
        simp only
        rw [show indexedWords.lookup (txt "i64.const") = none by decide]
        simp only
        rw [if_neg (by decide), if_neg (by decide), if_pos trivial]
      change (parseInstruction streamOps lib (n + 1) ⟨kw (txt "i64.const") :: [⟨.integer, w⟩], true⟩).1 = _
      rw [parseInstruction_cons, hh]
      by_cases hr : -2 ^ 31 ≤ v ∧ v < 2 ^ 32
      · rw [if_pos hr] at hv ⊢
        rw [SM.bind_ok (show (do
            let v ← parseInt64 streamOps
            pure (Inst.i64Const v)) _ = (.ok (.i64Const (BitVec.ofInt 64 v)), ⟨[], true⟩) from by
          rw [SM.bind_ok (parseInt64_cons w v hv [] true)]
          rfl), parseFolded_end]
      · rw [if_neg hr] at hv ⊢
        rw [SM.bind_err (SM.bind_err (parseInt64_err w hv [] true))]
    rw [← hs] at e
    have hd : (parseInstruction streamOps lib (n + 1) (significant (txt "i64.const" ++ ch ' ' :: w))).1 ≠ .diverge := by
      rw [e]; split <;> simp
    exact (text_reads (parseInstruction_sim lexOps_sim lib (n + 1) (n + 1) (Nat.le_refl _)) _ hd).trans e

/-- C48 fails for padded literals: `+5` is a literal with the value 5 and is refused, `010` one with the value 10 and is
read as 8, `08` one with the value 8 and is refused. -/
theorem padded_literals :
    (Literal (txt "+5") 5 ∧ (parseInt32 lexOps (Lexer.new (txt "+5"))).1 = .err) ∧
    (Literal (txt "010") 10 ∧ (parseInt32 lexOps (Lexer.new (txt "010"))).1 = .ok 8) ∧
    (Literal (txt "08") 8 ∧ (parseInt32 lexOps (Lexer.new (txt "08"))).1 = .err) :=
  ⟨⟨.plus _ _ (.decimal _ (by numeral)), by decide⟩,
   ⟨.none _ _ (.decimal _ (by numeral)), by decide⟩,
   ⟨.none _ _ (.decimal _ (by numeral)), by decide⟩⟩

/-- C48 fails for 64 bit constants: 4294967296 is in their range and refused. -/
theorem wide_literal : Literal (txt "0x1_0000_0000") 4294967296 ∧ NoPadding (txt "0x1_0000_0000") ∧
    (parseInt64 lexOps (Lexer.new (txt "0x1_0000_0000"))).1 = .err := by
  have h : Literal (txt "0x1_0000_0000") 4294967296 := by
    have k := Literal.none _ _ (.hex (txt "1_0000_0000") (by numeral))
    rw [show value 16 (txt "1_0000_0000") = 4294967296 by decide] at k
    exact k
  have hp : NoPadding (txt "0x1_0000_0000") := by
    refine ⟨by decide, ?_⟩
    rintro body (rfl | h) -
    · exact .inr (by decide)
    · cases h
  exact ⟨h, hp, by rw [int64_literal_partial _ _ h hp]; decide⟩

example : Literal (txt "-0x8000_0000") (-2147483648) ∧ NoPadding (txt "-0x8000_0000") := by
  have k := Literal.minus _ _ (.hex (txt "8000_0000") (by numeral))
  rw [show value 16 (txt "8000_0000") = 2147483648 by decide] at k
  refine ⟨k, by decide, ?_⟩
  rintro body (rfl | h) hb
  · cases hb
  · rw [← (List.cons.inj h).2]
    exact .inr (by decide)

/-! ## C49 -/

theorem nan_written (sg : List Byte) (hs : Sign sg) (s : List Byte) (h : Numeral hexDigit s) :
    Written ⟨.float, sg ++ (txt "nan:0x" ++ s)⟩ := by
  obtain ⟨t, h1, h2, h3⟩ := float_names sg hs s h _ (.inr (.inr rfl))
  have hc : ∀ b ∈ sg ++ (txt "nan:0x" ++ s), b ∈ wordChars ∧ b ≠ ch '$' := by
    intro b hb
    rcases List.mem_append.1 hb with hb | hb
    · rcases hs with rfl | rfl | rfl
      · cases hb
      · rw [List.mem_singleton.1 hb]; decide
      · rw [List.mem_singleton.1 hb]; decide
    · rcases List.mem_append.1 hb with hb | hb
      · have : ∀ b ∈ txt "nan:0x", b ∈ wordChars ∧ b ≠ ch '$' := by decide
        exact this b hb
      · have hx := numeral_mem _ _ h b hb
        refine ⟨hex_wordChar b hx, ?_⟩
        have : ∀ b : Byte, hexDigit b = true ∨ b = ch '_' → b ≠ ch '$' := by decide
        exact this b hx
  have hne : sg ++ (txt "nan:0x" ++ s) ≠ [] := by simp [txt]
  have hd : (sg ++ (txt "nan:0x" ++ s)).head? ≠ some (ch '$') := fun hd => (hc _ (List.mem_of_mem_head? hd)).2 rfl
  obtain ⟨ty, k1, k2⟩ := word_token _ hne (fun b hb => (hc b hb).1) hd
  rw [h1] at k2
  have := Res.ok.inj k2
  rw [this] at h3
  simp only at h3
  rw [h3] at k1
  exact .word _ _ hne (fun b hb => (hc b hb).1) hd ((classify_iff _ _).1 k1)

theorem f32_const_reads (lib : Lib) (w : List Byte) (hw : Written ⟨.float, w⟩) (v : U32) (hv : float32Value lib w = .ok v)
    (n : Nat) : (parseInstruction lexOps lib (n + 1) (Lexer.new (txt "f32.const " ++ w))).1 = .ok (.f32Const v) := by
  have hs : significant (txt "f32.const" ++ ch ' ' :: w) = ⟨[⟨.reserved, txt "f32.const"⟩, ⟨.float, w⟩], true⟩ :=
    significant_sep [⟨.reserved, txt "f32.const"⟩, ⟨.float, w⟩] (by
      intro t ht
      rcases List.mem_cons.1 ht with rfl | ht
      · exact written_word _ _ (by decide)
      · rw [List.mem_singleton] at ht
        rw [ht]; exact hw)
  have hh : parseHead streamOps lib (parseInstruction streamOps lib n) n (txt "f32.const") = (do
      let v ← constFloat32 streamOps lib
      pure (.f32Const v)) := by
    unfold parseHead
    rw [show plainWords.lookup (txt "f32.const") = none by decide]
    simp only
    rw [show indexedWords.lookup (txt "f32.const") = none by decide]
    simp only
    rw [if_neg (by decide), if_neg (by decide), if_neg (by decide), if_pos trivial]
  have e : (parseInstruction streamOps lib (n + 1) ⟨kw (txt "f32.const") :: [⟨.float, w⟩], true⟩).1 = .ok (.f32Const v) := by
    rw [parseInstruction_cons, hh]
    have hc := constFloat32_cons lib w [] true
    rw [hv] at hc
    rw [SM.bind_ok (show (do
        let v ← constFloat32 streamOps lib
        pure (Inst.f32Const v)) _ = (.ok (.f32Const v), ⟨[], true⟩) from by
      rw [SM.bind_ok hc]
      rfl), parseFolded_end]
  have e2 : (parseInstruction streamOps lib (n + 1) (significant (txt "f32.const" ++ ch ' ' :: w))).1 = .ok (.f32Const v) := by
    rw [hs]; exact e
  have hd : (parseInstruction streamOps lib (n + 1) (significant (txt "f32.const" ++ ch ' ' :: w))).1 ≠ .diverge := by
    rw [e2]; simp
  exact (text_reads (parseInstruction_sim lexOps_sim lib (n + 1) (n + 1) (Nat.le_refl _)) _ hd).trans e2

theorem float32Value_nan (lib : Lib) (negative : Bool) (s : List Byte) :
    float32Value lib ((if negative then txt "-" else []) ++ (txt "nan:0x" ++ s)) = nanBits negative (ch ':' :: (txt "0x" ++ s)) := by
  cases negative <;> rfl

theorem nanBits_payload (negative : Bool) (s : List Byte) (N : Nat) (h : Strconv.parseUint (txt "0x" ++ s) 32 = .ok N) :
    nanBits negative (ch ':' :: (txt "0x" ++ s)) = .ok (BitVec.ofNat 32 N ||| if negative then 0xff800000 else 0x7f800000) := by
  have hp1 : ¬ (txt "canonical").isPrefixOf (txt "0x" ++ s) = true := by
    rw [List.isPrefixOf_iff_prefix]
    rintro ⟨r, hr⟩
    exact absurd (List.cons.inj hr).1 (by decide)
  have hp2 : ¬ (txt "arithmetic").isPrefixOf (txt "0x" ++ s) = true := by
    rw [List.isPrefixOf_iff_prefix]
    rintro ⟨r, hr⟩
    exact absurd (List.cons.inj hr).1 (by decide)
  unfold nanBits
  simp only
  rw [if_pos List.head?_cons, List.drop_succ_cons, List.drop_zero, if_neg (by simp [txt]), if_neg hp1, if_neg hp2, h,
    Res.bind_ok]

theorem nan_bits (negative : Bool) (N : Nat) (h : N < 2 ^ 23) :
    (BitVec.ofNat 32 N ||| if negative then 0xff800000 else 0x7f800000) =
      BitVec.ofNat 32 ((if negative then 2 ^ 31 else 0) + 255 * 2 ^ 23 + N) := by
  apply BitVec.eq_of_toNat_eq
  rw [BitVec.toNat_or, BitVec.toNat_ofNat, BitVec.toNat_ofNat, Nat.mod_eq_of_lt (by omega : N < 2 ^ 32)]
  cases negative
  · rw [if_neg (by simp), if_neg (by simp), show (0x7f800000 : U32).toNat = 255 * 2 ^ 23 by decide, Nat.or_comm,
      Nat.mul_comm 255, ← Nat.two_pow_add_eq_or_of_lt h]
    omega
  · rw [if_pos rfl, if_pos rfl, show (0xff800000 : U32).toNat = 511 * 2 ^ 23 by decide, Nat.or_comm,
      Nat.mul_comm 511, ← Nat.two_pow_add_eq_or_of_lt h]
    omega

/-- C49, for a NaN with a payload and no plus sign. `f32.const nan:0xN` is the NaN with a sign bit if the literal has a
minus sign, all bits of the exponent and the mantissa N. Missing: plain `nan`, which is infinity (`plain_nan_infinite`),
and a plus sign, with which it is refused (`f32_plus_nan_refused`). -/
theorem nan_payload_partial (lib : Lib) (negative : Bool) (s : List Byte) (h : Numeral hexDigit s) (hN : value 16 s < 2 ^ 23)
    (n : Nat) :
    (parseInstruction lexOps lib (n + 1)
      (Lexer.new (txt "f32.const " ++ ((if negative then txt "-" else []) ++ (txt "nan:0x" ++ s))))).1 =
      .ok (.f32Const (BitVec.ofNat 32 ((if negative then 2 ^ 31 else 0) + 255 * 2 ^ 23 + value 16 s))) := by
  have hs : Sign (if negative then txt "-" else []) := by
    cases negative
    · exact .inl rfl
    · exact .inr (.inr rfl)
  have hv : float32Value lib ((if negative then txt "-" else []) ++ (txt "nan:0x" ++ s)) =
      .ok (BitVec.ofNat 32 ((if negative then 2 ^ 31 else 0) + 255 * 2 ^ 23 + value 16 s)) := by
    have hu : Strconv.parseUint (txt "0x" ++ s) 32 = .ok (value 16 s) := by
      rw [parseUint_magnitude _ _ (.hex s h) (fun _ => .inr ⟨s, rfl⟩) 32, if_pos (by omega)]
    rw [float32Value_nan, nanBits_payload negative s _ hu, nan_bits negative _ hN]
  exact f32_const_reads lib _ (nan_written _ hs s h) _ hv n

/-- C49 fails for a NaN without payload: whatever the library, `f32.const nan` has the bits of positive infinity and
`f32.const -nan` those of negative infinity: the mantissa is 0. -/
theorem plain_nan_infinite (lib : Lib) :
    (parseInstruction lexOps lib 1 (Lexer.new (txt "f32.const nan"))).1 = .ok (.f32Const 0x7f800000) ∧
    (parseInstruction lexOps lib 1 (Lexer.new (txt "f32.const -nan"))).1 = .ok (.f32Const 0xff800000) :=
  ⟨f32_const_reads lib (txt "nan") (written_word _ _ (by decide)) _ (by rfl) 0,
   f32_const_reads lib (txt "-nan") (written_word _ _ (by decide)) _ (by rfl) 0⟩

/-- A canonical NaN is negative whatever its sign: the literal has no sign and the constant has one. -/
theorem canonical_nan_negative (lib : Lib) :
    (parseInstruction lexOps lib 1 (Lexer.new (txt "f32.const nan:canonical"))).1 = .ok (.f32Const 0xffc00000) :=
  f32_const_reads lib (txt "nan:canonical") (written_word _ _ (by decide)) _ (by rfl) 0

example : Numeral hexDigit (txt "40_0001") ∧ value 16 (txt "40_0001") = 4194305 := ⟨by numeral, by decide⟩

end Verif.Wat
