import Verif.Wat.NumberLemmas
import Verif.Wat.PrintRead

/-!
# What numbers in a WAT text are read as: C134, C135
-/

namespace Verif.Wat

open Spec

theorem integer_literal (w : List Byte) (h : Integer w) : ∃ v, Literal w v := by
  have key : ∀ s, (Numeral digit s ∨ ∃ h, s = txt "0x" ++ h ∧ Numeral hexDigit h) → ∃ n, Magnitude s n := by
    rintro s (h | ⟨h, rfl, k⟩)
    · exact ⟨_, .decimal s h⟩
    · exact ⟨_, .hex h k⟩
  obtain ⟨sg, body, rfl | rfl | rfl, rfl, hb⟩ := h
  · obtain ⟨n, h⟩ := key _ hb
    exact ⟨_, .none _ n h⟩
  · obtain ⟨n, h⟩ := key _ hb
    exact ⟨_, .plus _ n h⟩
  · obtain ⟨n, h⟩ := key _ hb
    exact ⟨_, .minus _ n h⟩

theorem integer_written (w : List Byte) (h : Integer w) : Written ⟨.integer, w⟩ := by
  obtain ⟨v, h⟩ := integer_literal w h
  exact literal_written w v h

/-- The tokens of a word and an integer. -/
theorem significant_two (c w : List Byte) (hc : Written ⟨.reserved, c⟩) (hw : Integer w) :
    significant (c ++ ch ' ' :: w) = ⟨[kw c, ⟨.integer, w⟩], true⟩ :=
  significant_sep [⟨.reserved, c⟩, ⟨.integer, w⟩] (by
    intro t ht
    rcases List.mem_cons.1 ht with rfl | ht
    · exact hc
    · rw [List.mem_singleton] at ht
      rw [ht]; exact integer_written w hw)

/-- An instruction with one integer behind it. -/
theorem parse_two (lib : Lib) (c w : List Byte) (hc : Written ⟨.reserved, c⟩) (hw : Integer w) (n : Nat) (f : SM Stream Inst)
    (hh : parseHead streamOps lib (parseInstruction streamOps lib n) n c = f) (r : Res Inst) (hr : r.Returns)
    (hf : f ⟨[⟨.integer, w⟩], true⟩ = (r, ⟨[], true⟩)) :
    (parseInstruction lexOps lib (n + 1) (Lexer.new (c ++ ch ' ' :: w))).1 = r := by
  have hs := significant_two c w hc hw
  have e : (parseInstruction streamOps lib (n + 1) ⟨[kw c, ⟨.integer, w⟩], true⟩).1 = r := by
    rw [parseInstruction_cons, hh]
    cases r with
    | ok i => rw [SM.bind_ok hf, parseFolded_end]
    | err => rw [SM.bind_err hf]
    | panic => exact absurd hr Res.not_returns_panic
    | diverge => exact absurd hr Res.not_returns_diverge
  rw [← hs] at e
  have hd : (parseInstruction streamOps lib (n + 1) (significant (c ++ ch ' ' :: w))).1 ≠ .diverge := by
    rw [e]; rintro rfl; exact Res.not_returns_diverge hr
  exact (text_reads (parseInstruction_sim lexOps_sim lib (n + 1) (n + 1) (Nat.le_refl _)) _ hd).trans e

theorem head_i32Const (lib : Lib) (f : SM Stream Inst) (n : Nat) : parseHead streamOps lib f n (txt "i32.const") = (do
    let v ← parseInt32 streamOps
    pure (.i32Const v)) := by
  unfold parseHead
  rw [show plainWords.lookup (txt "i32.const") = none by decide]
  simp only
  rw [show indexedWords.lookup (txt "i32.const") = none by decide]
  simp only
  rw [if_neg (by decide), if_pos trivial]

theorem head_i64Const (lib : Lib) (f : SM Stream Inst) (n : Nat) : parseHead streamOps lib f n (txt "i64.const") = (do
    let v ← parseInt64 streamOps
    pure (.i64Const v)) := by
  unfold parseHead
  rw [show plainWords.lookup (txt "i64.const") = none by decide]
  simp only
  rw [show indexedWords.lookup (txt "i64.const") = none by decide]
  simp only
  rw [if_neg (by decide), if_neg (by decide), if_pos trivial]

theorem head_indexed (lib : Lib) (f : SM Stream Inst) (n : Nat) (k : Indexed) :
    parseHead streamOps lib f n (indexedWord k) = (do
      let i ← parseIndex streamOps
      pure (.indexed k i)) := by
  unfold parseHead
  rw [show plainWords.lookup (indexedWord k) = none by cases k <;> decide]
  simp only
  rw [show indexedWords.lookup (indexedWord k) = some k by cases k <;> decide]

/-! ## C134: integer constants -/

/-- C134. An integer constant is read as Go reads it: with `0x` in base 16, with a 0 in front in base 8, otherwise in base 10, with a
minus sign or without a sign, from -2^31 up to 2^32 - 1. The constant is that number modulo 2^32 or 2^64. Any other integer of the text
format is an error. -/
theorem const_exact (lib : Lib) (w : List Byte) (hw : Integer w) (n : Nat) :
    (∀ i, ConstInt w i →
      (parseInstruction lexOps lib (n + 1) (Lexer.new (txt "i32.const " ++ w))).1 = .ok (.i32Const (BitVec.ofInt 32 i)) ∧
      (parseInstruction lexOps lib (n + 1) (Lexer.new (txt "i64.const " ++ w))).1 = .ok (.i64Const (BitVec.ofInt 64 i))) ∧
    ((∀ i, ¬ ConstInt w i) →
      (parseInstruction lexOps lib (n + 1) (Lexer.new (txt "i32.const " ++ w))).1 = .err ∧
      (parseInstruction lexOps lib (n + 1) (Lexer.new (txt "i64.const " ++ w))).1 = .err) := by
  have h32 : Written ⟨.reserved, txt "i32.const"⟩ := written_word _ _ (by decide)
  have h64 : Written ⟨.reserved, txt "i64.const"⟩ := written_word _ _ (by decide)
  constructor
  · intro i hi
    have hv := (integerValue_iff w i).2 hi
    refine ⟨parse_two lib _ w h32 hw n _ (head_i32Const lib _ n) _ (.inl ⟨_, rfl⟩) ?_,
      parse_two lib _ w h64 hw n _ (head_i64Const lib _ n) _ (.inl ⟨_, rfl⟩) ?_⟩
    · rw [SM.bind_ok (parseInt32_cons w i hv [] true)]; rfl
    · rw [SM.bind_ok (parseInt64_cons w i hv [] true)]; rfl
  · intro hi
    have hv : integerValue w = .err := by
      rcases integerValue_returns w with ⟨i, h⟩ | h
      · exact absurd ((integerValue_iff w i).1 h) (hi i)
      · exact h
    refine ⟨parse_two lib _ w h32 hw n _ (head_i32Const lib _ n) _ (.inr rfl) ?_,
      parse_two lib _ w h64 hw n _ (head_i64Const lib _ n) _ (.inr rfl) ?_⟩
    · rw [SM.bind_err (parseInt32_err w hv [] true)]
    · rw [SM.bind_err (parseInt64_err w hv [] true)]

/-- A word has one number at most. -/
theorem const_unique (w : List Byte) (i j : Int) (hi : ConstInt w i) (hj : ConstInt w j) : i = j :=
  Res.ok.inj (((integerValue_iff w i).2 hi).symm.trans ((integerValue_iff w j).2 hj))

/-- C134, plus signs: no integer constant may have one. -/
theorem plus_refused (lib : Lib) (s : List Byte) (hw : Integer (ch '+' :: s)) (n : Nat) :
    (parseInstruction lexOps lib (n + 1) (Lexer.new (txt "i32.const +" ++ s))).1 = .err ∧
    (parseInstruction lexOps lib (n + 1) (Lexer.new (txt "i64.const +" ++ s))).1 = .err := by
  refine (const_exact lib _ hw n).2 fun i hi => ?_
  have h := hi.1
  generalize e : ch '+' :: s = w at h
  cases h with
  | plain s n h =>
    obtain ⟨b, r, e', hb⟩ := goNat_head _ _ h
    rw [e'] at e
    rw [← (List.cons.inj e).1] at hb
    exact absurd hb (by decide)
  | minus => cases e

/-- The number of decimal digits after a 0. -/
theorem goNat_padded (s : List Byte) (hs : s ≠ []) (h : Numeral digit (ch '0' :: s)) (v : Nat) :
    GoNat (ch '0' :: s) v ↔ (∀ b ∈ s, octDigit b = true ∨ b = ch '_') ∧ v = value 8 s := by
  have hm := numeral_mem _ _ h
  have hlet : ∀ c r, s = c :: r → c ≠ ch 'x' ∧ c ≠ ch 'X' ∧ c ≠ ch 'o' ∧ c ≠ ch 'O' ∧ c ≠ ch 'b' ∧ c ≠ ch 'B' := by
    rintro c r rfl
    have key : ∀ c : Byte, digit c = true ∨ c = ch '_' →
        c ≠ ch 'x' ∧ c ≠ ch 'X' ∧ c ≠ ch 'o' ∧ c ≠ ch 'O' ∧ c ≠ ch 'b' ∧ c ≠ ch 'B' := by decide
    exact key c (hm c (by simp))
  constructor
  · intro g
    generalize e : ch '0' :: s = w at g
    cases g with
    | decimal s _ k0 => subst e; exact absurd rfl k0
    | zero => cases e; exact absurd rfl hs
    | octal s g => cases e; exact ⟨opened_mem _ _ g, rfl⟩
    | hex c r k => cases e; obtain ⟨h1, h2, -⟩ := hlet c r rfl; rcases k with k | k <;> contradiction
    | lettered c r k => cases e; obtain ⟨-, -, h1, h2, -⟩ := hlet c r rfl; rcases k with k | k <;> contradiction
    | binary c r k => cases e; obtain ⟨-, -, -, -, h1, h2⟩ := hlet c r rfl; rcases k with k | k <;> contradiction
  · rintro ⟨ho, rfl⟩
    refine .octal s ?_
    have key : ∀ t, Numeral digit t → (∀ b ∈ t, octDigit b = true ∨ b = ch '_') → Numeral octDigit t := by
      intro t ht
      have hno : ∀ b, digit b = true → b ≠ ch '_' := by decide
      induction ht with
      | one b hb => intro hq; exact .one b ((hq b (by simp)).resolve_right (hno b hb))
      | more b t hb _ ih => intro hq; exact .more b t ((hq b (by simp)).resolve_right (hno b hb)) (ih fun c hc => hq c (by simp [hc]))
      | under b t hb _ ih => intro hq; exact .under b t ((hq b (by simp)).resolve_right (hno b hb)) (ih fun c hc => hq c (by simp [hc]))
    rcases ((numeral_cons digit (ch '0') s).1 h).2 with k | k | ⟨r, rfl, k⟩
    · exact absurd k hs
    · exact .inl (key s k ho)
    · exact .inr ⟨r, rfl, key r k fun b hb => ho b (by simp [hb])⟩

/-- C134, leading zeros: further decimal digits after a 0 are octal digits, and an 8 or 9 among them is an error. -/
theorem padded_octal (lib : Lib) (s : List Byte) (hs : s ≠ []) (h : Numeral digit (ch '0' :: s)) (n : Nat) :
    (parseInstruction lexOps lib (n + 1) (Lexer.new (txt "i32.const 0" ++ s))).1 =
      if (s.all fun b => octDigit b || b == ch '_') ∧ value 8 s < 2 ^ 32 then .ok (.i32Const (BitVec.ofNat 32 (value 8 s))) else .err := by
  have hw : Integer (ch '0' :: s) := ⟨[], _, .inl rfl, rfl, .inl h⟩
  have hall : (s.all fun b => octDigit b || b == ch '_') = true ↔ ∀ b ∈ s, octDigit b = true ∨ b = ch '_' := by
    rw [List.all_eq_true]
    simp only [Bool.or_eq_true, beq_iff_eq]
  by_cases hc : (s.all fun b => octDigit b || b == ch '_') = true ∧ value 8 s < 2 ^ 32
  · rw [if_pos hc]
    have := ((const_exact lib _ hw n).1 (value 8 s : Int) ⟨.plain _ _ ((goNat_padded s hs h _).2 ⟨hall.1 hc.1, rfl⟩), by omega, by omega⟩).1
    rw [BitVec.ofInt_natCast] at this
    exact this
  · rw [if_neg hc]
    refine ((const_exact lib _ hw n).2 fun i hi => hc ?_).1
    obtain ⟨g, h1, h2⟩ := hi
    generalize e : ch '0' :: s = w at g
    cases g with
    | plain t v g =>
      subst e
      obtain ⟨k1, rfl⟩ := (goNat_padded s hs h v).1 g
      exact ⟨hall.2 k1, by omega⟩
    | minus => cases e

/-- A constant of each kind: octal, hexadecimal and negative, with a plus sign, with an 8 after a 0. -/
example : (Integer (txt "0_17") ∧ ConstInt (txt "0_17") 15) ∧ (Integer (txt "-0xA") ∧ ConstInt (txt "-0xA") (-10)) ∧
    Integer (txt "+5") ∧ (Numeral digit (txt "0189") ∧ ((txt "189").all fun b => octDigit b || b == ch '_') = false) :=
  ⟨⟨⟨[], _, .inl rfl, rfl, .inl (by numeral)⟩, (integerValue_iff _ _).1 (by decide)⟩,
   ⟨⟨txt "-", txt "0xA", .inr (.inr rfl), rfl, .inr ⟨txt "A", rfl, by numeral⟩⟩, (integerValue_iff _ _).1 (by decide)⟩,
   ⟨txt "+", txt "5", .inr (.inl rfl), rfl, .inl (by numeral)⟩, by numeral, by decide⟩

/-! ## C135: indices -/

/-- What an index is read as, in every case: the number that decimal digits with an optional sign stand for, modulo 2^32, if it is from
-2^63 up to 2^63 - 1. Any other integer of the text format is an error. -/
theorem index_exact (lib : Lib) (k : Indexed) (w : List Byte) (hw : Integer w) (n : Nat) :
    (∀ i, IndexInt w i →
      (parseInstruction lexOps lib (n + 1) (Lexer.new (indexedWord k ++ ch ' ' :: w))).1 = .ok (.indexed k (.raw (BitVec.ofInt 32 i)))) ∧
    ((∀ i, ¬ IndexInt w i) → (parseInstruction lexOps lib (n + 1) (Lexer.new (indexedWord k ++ ch ' ' :: w))).1 = .err) := by
  have hk : Written ⟨.reserved, indexedWord k⟩ := written_word _ _ (by cases k <;> decide)
  constructor
  · intro i hi
    have hv := (atoi_iff w i).2 hi
    refine parse_two lib _ w hk hw n _ (head_indexed lib _ n k) _ (.inl ⟨_, rfl⟩) ?_
    have : parseIndex streamOps ⟨[⟨.integer, w⟩], true⟩ = (.ok (.raw (BitVec.ofInt 32 i)), ⟨[], true⟩) := by
      unfold parseIndex
      rw [next_bind, if_pos rfl]
      simp only [hv]
      rfl
    rw [SM.bind_ok this]
    rfl
  · intro hi
    have hv : Strconv.atoi w = .err := by
      rcases atoi_returns w with ⟨i, h⟩ | h
      · exact absurd ((atoi_iff w i).1 h) (hi i)
      · exact h
    refine parse_two lib _ w hk hw n _ (head_indexed lib _ n k) _ (.inr rfl) ?_
    have : parseIndex streamOps ⟨[⟨.integer, w⟩], true⟩ = (.err, ⟨[], true⟩) := by
      unfold parseIndex
      rw [next_bind, if_pos rfl]
      simp only [hv]
      rfl
    rw [SM.bind_err this]

theorem digits_numeral (s : List Byte) (hs : s ≠ []) (h : ∀ b ∈ s, digit b = true) : Numeral digit s := by
  induction s with
  | nil => exact absurd rfl hs
  | cons b s ih =>
    by_cases h0 : s = []
    · subst h0; exact .one b (h b (by simp))
    · exact .more b s (h b (by simp)) (ih h0 fun c hc => h c (by simp [hc]))

/-- C135, for decimal digits without a sign and without underscores: an index below 2^32 is the number written. Missing: hexadecimal
indices and underscores, which are refused (`index_hex_refused`, `index_under_refused`), and numbers that are no indices, which are
accepted (`index_wraps`, `index_negative`). -/
theorem index_decimal_partial (lib : Lib) (k : Indexed) (s : List Byte) (hs : s ≠ []) (h : ∀ b ∈ s, digit b = true)
    (hv : value 10 s < 2 ^ 32) (n : Nat) :
    (parseInstruction lexOps lib (n + 1) (Lexer.new (indexedWord k ++ ch ' ' :: s))).1 =
      .ok (.indexed k (.raw (BitVec.ofNat 32 (value 10 s)))) := by
  have := (index_exact lib k s ⟨[], s, .inl rfl, rfl, .inl (digits_numeral s hs h)⟩ n).1 _ ⟨.none s hs h, by omega, by omega⟩
  rw [BitVec.ofInt_natCast] at this
  exact this

/-- C135 fails beyond: an index from 2^32 on is taken for another one, up to 2^63. -/
theorem index_wraps (lib : Lib) (k : Indexed) (s : List Byte) (hs : s ≠ []) (h : ∀ b ∈ s, digit b = true)
    (_hl : 2 ^ 32 ≤ value 10 s) (hv : value 10 s < 2 ^ 63) (n : Nat) :
    ∃ v : U32, v.toNat ≠ value 10 s ∧
      (parseInstruction lexOps lib (n + 1) (Lexer.new (indexedWord k ++ ch ' ' :: s))).1 = .ok (.indexed k (.raw v)) := by
  have := (index_exact lib k s ⟨[], s, .inl rfl, rfl, .inl (digits_numeral s hs h)⟩ n).1 _ ⟨.none s hs h, by omega, by omega⟩
  refine ⟨_, ?_, this⟩
  intro e
  have := (BitVec.ofInt 32 (value 10 s : Int)).isLt
  omega

/-- Nor is a negative number refused. -/
theorem index_negative (lib : Lib) (k : Indexed) (s : List Byte) (hs : s ≠ []) (h : ∀ b ∈ s, digit b = true)
    (hv : value 10 s ≤ 2 ^ 63) (n : Nat) :
    ∃ v : U32, (parseInstruction lexOps lib (n + 1) (Lexer.new (indexedWord k ++ txt " -" ++ s))).1 = .ok (.indexed k (.raw v)) := by
  have := (index_exact lib k (ch '-' :: s) ⟨txt "-", s, .inr (.inr rfl), rfl, .inl (digits_numeral s hs h)⟩ n).1 _
    ⟨.minus s hs h, by omega, by omega⟩
  rw [show indexedWord k ++ txt " -" ++ s = indexedWord k ++ ch ' ' :: ch '-' :: s by rw [List.append_assoc]; rfl]
  exact ⟨_, this⟩

theorem whole_chars (w : List Byte) (i : Int) (h : Whole w i) : ∀ b ∈ w, b ≠ ch 'x' ∧ b ≠ ch '_' := by
  have hd : ∀ b, digit b = true → b ≠ ch 'x' ∧ b ≠ ch '_' := by decide
  cases h with
  | none s _ h => exact fun b hb => hd b (h b hb)
  | plus s _ h =>
    intro b hb
    rcases List.mem_cons.1 hb with rfl | hb
    · decide
    · exact hd b (h b hb)
  | minus s _ h =>
    intro b hb
    rcases List.mem_cons.1 hb with rfl | hb
    · decide
    · exact hd b (h b hb)

/-- Hexadecimal indices are refused. -/
theorem index_hex_refused (lib : Lib) (k : Indexed) (s : List Byte) (h : Numeral hexDigit s) (n : Nat) :
    (parseInstruction lexOps lib (n + 1) (Lexer.new (indexedWord k ++ txt " 0x" ++ s))).1 = .err := by
  have := (index_exact lib k (txt "0x" ++ s) ⟨[], _, .inl rfl, rfl, .inr ⟨s, rfl, h⟩⟩ n).2
    fun i hi => (whole_chars _ i hi.1 (ch 'x') (by simp [txt])).1 rfl
  rw [show indexedWord k ++ txt " 0x" ++ s = indexedWord k ++ ch ' ' :: (txt "0x" ++ s) by rw [List.append_assoc]; rfl]
  exact this

/-- So are indices with underscores. -/
theorem index_under_refused (lib : Lib) (k : Indexed) (s : List Byte) (h : Numeral digit s) (hu : ch '_' ∈ s) (n : Nat) :
    (parseInstruction lexOps lib (n + 1) (Lexer.new (indexedWord k ++ ch ' ' :: s))).1 = .err :=
  (index_exact lib k s ⟨[], s, .inl rfl, rfl, .inl h⟩ n).2 fun i hi => (whole_chars _ i hi.1 _ hu).2 rfl

/-- Indices of each kind. -/
example : (txt "010" ≠ [] ∧ (∀ b ∈ txt "010", digit b = true) ∧ value 10 (txt "010") = 10) ∧
    ((∀ b ∈ txt "4294967296", digit b = true) ∧ value 10 (txt "4294967296") = 2 ^ 32) ∧
    Numeral hexDigit (txt "1F") ∧ (Numeral digit (txt "1_0") ∧ ch '_' ∈ txt "1_0") :=
  ⟨by decide, by decide, by numeral, by numeral, by decide⟩

end Verif.Wat
