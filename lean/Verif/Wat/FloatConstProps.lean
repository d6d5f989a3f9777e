import Verif.Wat.HexFloatProps

/-!
# Floating point constants: C98, C99, and C85 with the library's conversions

The numbers of a format and what is nearest are in `Verif/Go/Ieee.lean`, the literals in `NumProps.lean` (`Lit`) and their
values in `HexFloatProps.lean` (`Lit.value`).
-/

namespace Verif.Wat

open Spec Ieee

/-- What `f32.const` and a text are parsed to. -/
abbrev f32Const (n : Nat) (w : List Byte) : Res Inst :=
  (parseInstruction lexOps goLib (n + 1) (Lexer.new (txt "f32.const " ++ w))).1

/-- What `f64.const` and a text are parsed to. -/
abbrev f64Const (n : Nat) (w : List Byte) : Res Inst :=
  (parseInstruction lexOps goLib (n + 1) (Lexer.new (txt "f64.const " ++ w))).1

/-- The library always comes back: the hypothesis of C51 and C86 is met by Go's library. -/
theorem goLib_total : goLib.Total := by
  constructor <;> intro s
  · rcases Strconv.parseFloat_returns single s with ⟨b, h⟩ | h
    · exact .inl ⟨BitVec.ofNat 32 b, by show (Strconv.parseFloat single s >>= _) = _; rw [h]; rfl⟩
    · exact .inr (by show (Strconv.parseFloat single s >>= _) = _; rw [h]; rfl)
  · rcases Strconv.parseFloat_returns single s with ⟨b, h⟩ | h
    · exact .inl ⟨BitVec.ofNat 64 (Strconv.widen b), by show (Strconv.parseFloat single s >>= _) = _; rw [h]; rfl⟩
    · exact .inr (by show (Strconv.parseFloat single s >>= _) = _; rw [h]; rfl)

theorem goLib_f32 (s : List Byte) (r : Res Nat) (h : Strconv.parseFloat single s = r) :
    goLib.parseFloat32 s = (r >>= fun b => .ok (BitVec.ofNat 32 b)) := by rw [← h]; rfl

theorem goLib_f64 (s : List Byte) (r : Res Nat) (h : Strconv.parseFloat single s = r) :
    goLib.parseFloat64 s = (r >>= fun b => .ok (BitVec.ofNat 64 (Strconv.widen b))) := by rw [← h]; rfl

/-- A literal with digits is no name of a NaN. -/
theorem lit_value32 (lib : Lib) (l : Lit) (hv : l.Valid) (sg : List Byte) (hs : Sign sg) :
    float32Value lib (sg ++ l.text) = lib.parseFloat32 (sg ++ l.text) := by
  obtain ⟨b, r, hb, hd⟩ := lit_head l hv
  have hn : ¬ (txt "nan").isPrefixOf (b :: r) = true := by
    rw [List.isPrefixOf_iff_prefix]
    rintro ⟨q, hq⟩
    have : ch 'n' = b := (List.cons.inj hq).1
    rw [← this] at hd
    exact absurd hd (by decide)
  have hm : b ≠ ch '-' := (digit_sign b hd).2
  have hp : ¬ (txt "nan").isPrefixOf (txt "+" ++ (b :: r)) = true := by
    rw [List.isPrefixOf_iff_prefix]
    rintro ⟨q, hq⟩
    exact absurd (List.cons.inj hq).1 (by decide)
  rw [hb]
  unfold float32Value
  rcases hs with rfl | rfl | rfl
  · simp only [List.nil_append, List.head?_cons, Option.some.injEq, hm, decide_false, Bool.false_eq_true, if_false]
    rw [if_neg hn]
  · rw [show (decide ((txt "+" ++ (b :: r)).head? = some (ch '-'))) = false from rfl]
    simp only [Bool.false_eq_true, if_false]
    rw [if_neg hp]
  · rw [show (decide ((txt "-" ++ (b :: r)).head? = some (ch '-'))) = true from rfl]
    simp only [if_true]
    rw [if_neg (by simpa [txt] using hn)]

/-! ## Literals with digits -/

/-- C98, for hexadecimal literals whose exponent has a sign. `f32.const` of such a literal is the single precision number
nearest to the literal's value, ties to even, with the literal's sign; a literal for which infinity is nearest is refused.
`f64.const` of it is the double precision number of the value of that single precision number, refused in the same case.
Missing: every other literal, as it is refused (`float_literal_refused`), and double precision: the constant of `f64.const` is
the nearest number only if the literal is a single precision number (`exact_literal_partial`, `double_rounded`,
`double_refused`). -/
theorem float_literal_partial (l : Lit) (hv : l.Valid) (hx : l.hex = true) (c : Byte) (es en : List Byte)
    (he : l.exponent = some (c, es, en)) (hes : es ≠ []) (sg : List Byte) (hs : Sign sg) (n : Nat) :
    ∃ b, single.Nearest l.value b ∧
      f32Const n (sg ++ l.text) =
        (if b < single.infinity then .ok (.f32Const (BitVec.ofNat 32 (single.signed (sg = txt "-") b))) else .err) ∧
      ((b < single.infinity ∧ ∃ d, d < double.infinity ∧ double.value d = single.value b ∧
          f64Const n (sg ++ l.text) = .ok (.f64Const (BitVec.ofNat 64 (double.signed (sg = txt "-") d)))) ∨
        (¬ b < single.infinity ∧ f64Const n (sg ++ l.text) = .err)) := by
  obtain ⟨ty, h1, -, h3⟩ := lit_written l hv (.inr (by rw [he]; simp)) sg hs
  have hty : ty = .float := h3.2 ⟨hx, fun c' sg' n' h => by
    rw [he] at h
    have := (Prod.mk.inj (Prod.mk.inj (Option.some.inj h)).2).1
    rw [← this]; exact hes⟩
  subst hty
  obtain ⟨b, hb, hp⟩ := parseFloat_hex single l hv hx (by rw [he]; simp) sg hs
  obtain ⟨k1, k2, k3, k4⟩ := float_const goLib _ h1 n
  rw [lit_value32 goLib l hv sg hs] at k1 k2
  refine ⟨b, hb, ?_, ?_⟩
  · by_cases h : b < single.infinity
    · rw [if_pos h] at hp
      rw [if_pos h]
      exact k1 _ (by rw [goLib_f32 _ _ hp]; rfl)
    · rw [if_neg h] at hp
      rw [if_neg h]
      exact k2 (by rw [goLib_f32 _ _ hp]; rfl)
  · by_cases h : b < single.infinity
    · rw [if_pos h] at hp
      obtain ⟨d, d1, d2, d3⟩ := Strconv.widen_value (sg = txt "-") b h
      refine .inl ⟨h, d, d2, d3, k3 _ ?_⟩
      rw [goLib_f64 _ _ hp]
      show Res.ok _ = _
      rw [d1]
    · rw [if_neg h] at hp
      exact .inr ⟨h, k4 (by rw [goLib_f64 _ _ hp]; rfl)⟩

/-- C98 fails for every other literal with a point or an exponent: a decimal literal, one whose exponent has no sign, and
one without an exponent are all refused, by `f32.const` and by `f64.const`. -/
theorem float_literal_refused (l : Lit) (hv : l.Valid) (h : l.point = true ∨ l.exponent ≠ none)
    (hn : ¬ (l.hex = true ∧ ∃ c es en, l.exponent = some (c, es, en) ∧ es ≠ [])) (sg : List Byte) (hs : Sign sg) (n : Nat) :
    f32Const n (sg ++ l.text) = .err ∧ f64Const n (sg ++ l.text) = .err := by
  obtain ⟨ty, h1, h2, h3⟩ := lit_written l hv h sg hs
  by_cases hty : ty = .float
  · obtain ⟨hx, he⟩ := h3.1 hty
    subst hty
    have hnone : l.exponent = none := by
      cases hl : l.exponent with
      | none => rfl
      | some e => obtain ⟨c, es, en⟩ := e; exact absurd ⟨hx, c, es, en, hl, he c es en hl⟩ hn
    have hp := parseFloat_no_exponent single l hv hx hnone sg hs
    obtain ⟨-, k2, -, k4⟩ := float_const goLib _ h1 n
    rw [lit_value32 goLib l hv sg hs] at k2
    exact ⟨k2 (by rw [goLib_f32 _ _ hp]; rfl), k4 (by rw [goLib_f64 _ _ hp]; rfl)⟩
  · exact word_const goLib ty _ h1 hty h2 n

/-- C98, for literals whose value is a single precision number: both constants have exactly that value, with the literal's
sign. Missing: as in `float_literal_partial`. -/
theorem exact_literal_partial (l : Lit) (hv : l.Valid) (hx : l.hex = true) (c : Byte) (es en : List Byte)
    (he : l.exponent = some (c, es, en)) (hes : es ≠ []) (b : Nat) (hb : b < single.infinity) (hval : l.value = single.value b)
    (sg : List Byte) (hs : Sign sg) (n : Nat) :
    f32Const n (sg ++ l.text) = .ok (.f32Const (BitVec.ofNat 32 (single.signed (sg = txt "-") b))) ∧
    ∃ d, d < double.infinity ∧ double.value d = l.value ∧
      f64Const n (sg ++ l.text) = .ok (.f64Const (BitVec.ofNat 64 (double.signed (sg = txt "-") d))) := by
  obtain ⟨b', h1, h2, h3⟩ := float_literal_partial l hv hx c es en he hes sg hs n
  have e : b' = b := Strconv.nearest_unique single _ _ _ h1 (hval ▸ Strconv.nearest_self single b (Nat.le_of_lt hb))
  subst e
  rw [if_pos hb] at h2
  refine ⟨h2, ?_⟩
  rcases h3 with ⟨-, d, d1, d2, d3⟩ | ⟨h, -⟩
  · exact ⟨d, d1, d2.trans hval.symm, d3⟩
  · exact absurd hb h

/-- The literal `0x1.00000001p+0`. -/
def preciseLit : Lit := ⟨true, txt "1", true, txt "00000001", some (ch 'p', txt "+", txt "0")⟩

/-- The literal `0x1p+128`. -/
def largeLit : Lit := ⟨true, txt "1", false, [], some (ch 'p', txt "+", txt "128")⟩

theorem preciseLit_valid : preciseLit.Valid :=
  ⟨by show Numeral hexDigit (txt "1"); numeral, fun _ => ⟨rfl, by show Numeral hexDigit (txt "00000001"); numeral⟩, fun c sg n h => by
    cases h; exact ⟨.inl rfl, .inr (.inl rfl), by numeral⟩⟩

theorem largeLit_valid : largeLit.Valid :=
  ⟨by show Numeral hexDigit (txt "1"); numeral, fun h => absurd rfl h, fun c sg n h => by
    cases h; exact ⟨.inl rfl, .inr (.inl rfl), by numeral⟩⟩

example : preciseLit.text = txt "0x1.00000001p+0" ∧ largeLit.text = txt "0x1p+128" := by decide

theorem preciseLit_value : preciseLit.value = 1 + 1 / 2 ^ 32 := by
  have e1 : Spec.value 16 preciseLit.whole = 1 := by decide
  have e2 : Spec.value 16 preciseLit.fraction = 1 := by decide
  have e3 : digitCount preciseLit.fraction = 8 := by decide
  have e4 : preciseLit.power = 0 := by decide
  unfold Lit.value
  rw [if_pos (show preciseLit.hex = true from rfl), e1, e2, e3, e4]
  norm_num

theorem largeLit_value : largeLit.value = 2 ^ 128 := by
  have e1 : Spec.value 16 largeLit.whole = 1 := by decide
  have e2 : Spec.value 16 largeLit.fraction = 0 := by decide
  have e4 : largeLit.power = 128 := by decide
  unfold Lit.value
  rw [if_pos (show largeLit.hex = true from rfl), e1, e2, e4]
  norm_num

theorem double_value (b m : Nat) (h : double.magnitude b = m * 2 ^ 1042) : double.value b = m / 2 ^ 32 := by
  unfold Format.value
  rw [h, show double.scale = 1042 + 32 by decide, pow_add]
  generalize 1042 = k
  push_cast
  have : (2 : ℚ) ^ k ≠ 0 := by positivity
  field_simp

/-- C98 fails for double precision: `f64.const 0x1.00000001p+0` is 1, although the literal is itself a double precision
number, and another one. -/
theorem double_rounded :
    double.Nearest preciseLit.value 0x3ff0000000100000 ∧
    f64Const 0 (txt "0x1.00000001p+0") = .ok (.f64Const 0x3ff0000000000000) := by
  constructor
  · have : preciseLit.value = double.value 0x3ff0000000100000 := by
      rw [preciseLit_value, double_value _ (2 ^ 32 + 1) (by decide +kernel)]
      norm_num
    rw [this]
    exact Strconv.nearest_self double _ (by decide)
  · have hw : Written ⟨.float, txt "0x1.00000001p+0"⟩ := written_word _ _ (by decide +kernel)
    have hp : Strconv.parseFloat single (txt "0x1.00000001p+0") = .ok 0x3f800000 := by decide +kernel
    have hwd : Strconv.widen 0x3f800000 = 0x3ff0000000000000 := by decide +kernel
    refine (float_const goLib _ hw 0).2.2.1 _ ?_
    rw [goLib_f64 _ _ hp]
    show Res.ok (BitVec.ofNat 64 (Strconv.widen 0x3f800000)) = _
    rw [hwd]
    rfl

/-- C98 fails for double precision numbers above the largest single precision number: `f64.const 0x1p+128` is refused,
although the literal is a double precision number. -/
theorem double_refused :
    double.Nearest largeLit.value 0x47f0000000000000 ∧ f64Const 0 (txt "0x1p+128") = .err := by
  constructor
  · have : largeLit.value = double.value 0x47f0000000000000 := by
      rw [largeLit_value, double_value _ (2 ^ 160) (by decide +kernel)]
      norm_num
    rw [this]
    exact Strconv.nearest_self double _ (by decide)
  · have hw : Written ⟨.float, txt "0x1p+128"⟩ := written_word _ _ (by decide +kernel)
    have hp : Strconv.parseFloat single (txt "0x1p+128") = .err := by decide +kernel
    refine (float_const goLib _ hw 0).2.2.2 ?_
    rw [goLib_f64 _ _ hp]
    rfl

/-- Meets the hypotheses of `float_literal_partial`: the constant is 1, as the literal lies between 1 and the next single
precision number, nearer to 1. -/
example : f32Const 0 (txt "-0x1.00000001p+0") = .ok (.f32Const 0xbf800000) := by
  have hw : Written ⟨.float, txt "-0x1.00000001p+0"⟩ := written_word _ _ (by decide +kernel)
  refine (float_const goLib _ hw 0).1 _ ?_
  decide +kernel

example := float_literal_partial preciseLit preciseLit_valid rfl (ch 'p') (txt "+") (txt "0") rfl (by decide) (txt "-") (.inr (.inr rfl)) 0

/-- Meets the hypotheses of `float_literal_refused`: `1.5`. -/
example : f32Const 0 (txt "1.5") = .err :=
  (float_literal_refused ⟨false, txt "1", true, txt "5", none⟩
    ⟨by show Numeral digit (txt "1"); numeral, fun _ => ⟨rfl, by show Numeral digit (txt "5"); numeral⟩, fun _ _ _ h => by cases h⟩
    (.inl rfl) (by simp) [] (.inl rfl) 0).1

/-- Meets the hypotheses of `exact_literal_partial`: `0x1p+0` is 1. -/
example : f32Const 0 (txt "0x1p+0") = .ok (.f32Const 0x3f800000) := by
  have hv : (⟨true, txt "1", false, [], some (ch 'p', txt "+", txt "0")⟩ : Lit).Valid :=
    ⟨by show Numeral hexDigit (txt "1"); numeral, fun h => absurd rfl h, fun c sg n h => by
      cases h; exact ⟨.inl rfl, .inr (.inl rfl), by numeral⟩⟩
  have h := (exact_literal_partial _ hv rfl (ch 'p') (txt "+") (txt "0") rfl (by decide) 0x3f800000 (by decide) (by
    have e1 : Spec.value 16 (txt "1") = 1 := by decide
    have e2 : Spec.value 16 [] = 0 := by decide
    have e4 : (⟨true, txt "1", false, [], some (ch 'p', txt "+", txt "0")⟩ : Lit).power = 0 := by decide
    have e5 : single.magnitude 0x3f800000 = 2 ^ 149 := by decide +kernel
    unfold Lit.value Format.value
    rw [if_pos rfl, e1, e2, e4, e5, show single.scale = 149 by decide]
    norm_num) [] (.inl rfl) 0).1
  exact h

/-! ## Infinities and NaNs -/

theorem inf_written (sg : List Byte) (hs : Sign sg) : Written ⟨.float, sg ++ txt "inf"⟩ ∧ Written ⟨.float, sg ++ txt "nan"⟩ := by
  rcases hs with rfl | rfl | rfl <;> exact ⟨written_word _ _ (by decide), written_word _ _ (by decide)⟩

/-- C99, for infinities: `f32.const` and `f64.const` of `inf`, with any sign or none, are the infinity of that sign. -/
theorem infinity_const (sg : List Byte) (hs : Sign sg) (n : Nat) :
    f32Const n (sg ++ txt "inf") = .ok (.f32Const (BitVec.ofNat 32 (single.signed (sg = txt "-") single.infinity))) ∧
    f64Const n (sg ++ txt "inf") = .ok (.f64Const (BitVec.ofNat 64 (double.signed (sg = txt "-") double.infinity))) := by
  obtain ⟨k1, -, k3, -⟩ := float_const goLib _ (inf_written sg hs).1 n
  rcases hs with rfl | rfl | rfl <;>
    exact ⟨k1 _ (by decide +kernel), k3 _ (by decide +kernel)⟩

/-- C99, for a NaN without a sign or payload: `f64.const nan` is the positive NaN whose mantissa has only its top bit.
Missing: NaNs with a sign or payload, which are refused (`f64_nan_refused`). -/
theorem f64_nan_partial (n : Nat) :
    f64Const n (txt "nan") = .ok (.f64Const (BitVec.ofNat 64 (double.infinity + 2 ^ 51))) :=
  (float_const goLib _ (inf_written [] (.inl rfl)).2 n).2.2.1 _ (by decide +kernel)

/-- `ParseFloat` knows a NaN by nothing but `nan`. -/
theorem parseFloat_nan (f : Format) (sg s : List Byte) (hs : Sign sg) (h : sg ≠ [] ∨ s ≠ []) :
    Strconv.parseFloat f (sg ++ (txt "nan" ++ s)) = .err := by
  obtain ⟨e1, e2⟩ := body_of sg (txt "nan" ++ s) hs ⟨by show some (ch 'n') ≠ _; decide, by show some (ch 'n') ≠ _; decide⟩
  have hi : ∀ w, w.head? = some (ch 'i') → Strconv.small (txt "nan" ++ s) ≠ w := by
    intro w hw e
    rw [← e] at hw
    exact absurd hw (show some (ch 'n') ≠ some (ch 'i') by decide)
  have hr : Strconv.readFloat (txt "nan" ++ s) = none := by
    unfold Strconv.readFloat
    have hx : Strconv.isHexFloat (txt "nan" ++ s) = false := by
      unfold Strconv.isHexFloat
      rw [decide_eq_false_iff_not]
      rintro ⟨-, h, -⟩
      exact absurd h (show some (ch 'n') ≠ some (ch '0') by decide)
    rw [hx]
    have hm : Strconv.mantissaLoop false (txt "nan" ++ s) ⟨0, 0, false, false⟩ = (⟨0, 0, false, false⟩, txt "nan" ++ s) := rfl
    simp only [Bool.false_eq_true, if_false]
    rw [hm]
    simp
  unfold Strconv.parseFloat
  simp only
  rw [e1, e2, if_neg (by
    rintro (h | h)
    · exact hi _ rfl h
    · exact hi _ rfl h), if_neg (by
    rintro ⟨h1, h2⟩
    rcases h with h | h
    · rcases hs with rfl | rfl | rfl
      · exact h rfl
      · exact absurd h1 (show ¬ (true = false) by decide)
      · exact absurd h1 (show ¬ (true = false) by decide)
    · have := congrArg List.length h2
      simp [Strconv.small, txt] at this
      exact h this), hr]

/-- C99 fails for every other NaN of double precision: with a sign, with a payload, or with both, it is refused. -/
theorem f64_nan_refused (sg : List Byte) (hs : Sign sg) (s : List Byte) (h : Numeral hexDigit s) (n : Nat) :
    (sg ≠ [] → f64Const n (sg ++ txt "nan") = .err) ∧ f64Const n (sg ++ (txt "nan:0x" ++ s)) = .err := by
  constructor
  · intro hne
    have hp := parseFloat_nan single sg [] hs (.inl hne)
    rw [List.append_nil] at hp
    exact (float_const goLib _ (inf_written sg hs).2 n).2.2.2 (by rw [goLib_f64 _ _ hp]; rfl)
  · have hp := parseFloat_nan single sg (txt ":0x" ++ s) hs (.inr (by simp [txt]))
    exact (float_const goLib _ (nan_written sg hs s h) n).2.2.2 (by
      rw [show sg ++ (txt "nan:0x" ++ s) = sg ++ (txt "nan" ++ (txt ":0x" ++ s)) from rfl, goLib_f64 _ _ hp]; rfl)

/-- C49 fails for a plus sign: `f32.const` of `+nan`, with or without a payload, is refused. -/
theorem f32_plus_nan_refused (s : List Byte) (h : Numeral hexDigit s) (n : Nat) :
    f32Const n (txt "+nan") = .err ∧ f32Const n (txt "+" ++ (txt "nan:0x" ++ s)) = .err := by
  have hs : Sign (txt "+") := .inr (.inl rfl)
  constructor
  · have hp := parseFloat_nan single (txt "+") [] hs (.inl (by decide))
    rw [List.append_nil] at hp
    exact (float_const goLib _ (inf_written (txt "+") hs).2 n).2.1 (by
      show goLib.parseFloat32 _ = .err
      rw [goLib_f32 _ _ hp]; rfl)
  · have hp := parseFloat_nan single (txt "+") (txt ":0x" ++ s) hs (.inl (by decide))
    exact (float_const goLib _ (nan_written (txt "+") hs s h) n).2.1 (by
      show goLib.parseFloat32 _ = .err
      rw [goLib_f32 (txt "+" ++ (txt "nan:0x" ++ s)) _ hp]; rfl)

example : f64Const 0 (txt "-nan") = .err ∧ f64Const 0 (txt "nan:0x1") = .err :=
  ⟨(f64_nan_refused (txt "-") (.inr (.inr rfl)) (txt "1") (by numeral) 0).1 (by decide),
   (f64_nan_refused [] (.inl rfl) (txt "1") (by numeral) 0).2⟩
example : f32Const 0 (txt "+nan:0x1") = .err := (f32_plus_nan_refused (txt "1") (by numeral) 0).2

/-! ## Integers -/

/-- C85, for integers without plus sign or leading zeros that are in the range of the signed 32 bit type (`f32.const`) or of
32 bit literals (`f64.const`): the constant is the number nearest to the integer, ties to even, with the integer's sign.
Missing: the other integers (`f32_integer_wraps`, `float_integer_refused`) and the sign of `-0` (`negative_zero`). -/
theorem float_integer_nearest_partial (w : List Byte) (v : Int) (h : Literal w v) (hp : NoPadding w) (n : Nat) :
    (-2 ^ 31 ≤ v → v < 2 ^ 31 → ∃ b, single.Nearest (v.natAbs : ℚ) b ∧
      f32Const n w = .ok (.f32Const (BitVec.ofNat 32 (single.signed (v < 0) b)))) ∧
    (-2 ^ 31 ≤ v → v < 2 ^ 32 → ∃ b, double.Nearest (v.natAbs : ℚ) b ∧
      f64Const n w = .ok (.f64Const (BitVec.ofNat 64 (double.signed (v < 0) b)))) := by
  obtain ⟨h1, h2⟩ := float_integer_partial goLib w v h hp n
  constructor
  · intro hl hu
    obtain ⟨i, hi, hr⟩ := h1 hl hu
    have e1 : single.magnitude single.infinity = 2 ^ 277 := by decide +kernel
    obtain ⟨b, hb, ho⟩ := Strconv.ofInt_nearest single v (by
      rw [e1, show single.scale = 149 by decide]
      exact Nat.le_trans (Nat.mul_le_mul_right _ (show v.natAbs ≤ 2 ^ 32 by omega)) (by decide +kernel))
    refine ⟨b, hb, hr.trans ?_⟩
    show Res.ok (Inst.f32Const (BitVec.ofNat 32 (Strconv.ofInt single i.toInt))) = _
    rw [hi, ho]
  · intro hl hu
    obtain ⟨i, hi, hr⟩ := h2 hl hu
    have e1 : double.magnitude double.infinity = 2 ^ 2098 := by decide +kernel
    obtain ⟨b, hb, ho⟩ := Strconv.ofInt_nearest double v (by
      rw [e1, show double.scale = 1074 by decide]
      exact Nat.le_trans (Nat.mul_le_mul_right _ (show v.natAbs ≤ 2 ^ 32 by omega)) (by decide +kernel))
    refine ⟨b, hb, hr.trans ?_⟩
    show Res.ok (Inst.f64Const (BitVec.ofNat 64 (Strconv.ofInt double i.toInt))) = _
    rw [hi, ho]

end Verif.Wat
