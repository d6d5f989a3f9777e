import Verif.Wat.ConstProps

/-!
# Floating point constants written as integers: C85
-/

namespace Verif.Wat

open Spec

theorem constFloat_int (lib : Lib) (w : List Byte) (v : Int) (h : Literal w v) (hp : NoPadding w) (rest : List Sig) (e : Bool) :
    (constFloat32 streamOps lib ⟨⟨.integer, w⟩ :: rest, e⟩ =
      if -2 ^ 31 ≤ v ∧ v < 2 ^ 32 then (.ok (lib.float32OfInt (BitVec.ofInt 32 v)), ⟨rest, e⟩) else (.err, ⟨rest, e⟩)) ∧
    (constFloat64 streamOps lib ⟨⟨.integer, w⟩ :: rest, e⟩ =
      if -2 ^ 31 ≤ v ∧ v < 2 ^ 32 then (.ok (lib.float64OfInt (BitVec.ofInt 64 v)), ⟨rest, e⟩) else (.err, ⟨rest, e⟩)) := by
  have hv := integerValue_literal w v h hp
  have hf : peekFloat streamOps ⟨⟨.integer, w⟩ :: rest, e⟩ = (.ok false, ⟨⟨.integer, w⟩ :: rest, e⟩) := rfl
  have hn : ¬(false = true) := by simp
  unfold constFloat32 constFloat64
  rw [SM.bind_ok hf, SM.bind_ok hf, if_neg hn, if_neg hn]
  by_cases hr : -2 ^ 31 ≤ v ∧ v < 2 ^ 32
  · rw [if_pos hr] at hv
    rw [if_pos hr, if_pos hr, SM.bind_ok (parseInt32_cons w v hv rest e), SM.bind_ok (parseInt64_cons w v hv rest e)]
    exact ⟨rfl, rfl⟩
  · rw [if_neg hr] at hv
    rw [if_neg hr, if_neg hr, SM.bind_err (parseInt32_err w hv rest e), SM.bind_err (parseInt64_err w hv rest e)]
    exact ⟨rfl, rfl⟩

/-- What `f32.const` and `f64.const` make of an integer. -/
theorem float_instruction (lib : Lib) (w : List Byte) (v : Int) (h : Literal w v) (hp : NoPadding w) (n : Nat) :
    (parseInstruction lexOps lib (n + 1) (Lexer.new (txt "f32.const " ++ w))).1 =
      (if -2 ^ 31 ≤ v ∧ v < 2 ^ 32 then .ok (.f32Const (lib.float32OfInt (BitVec.ofInt 32 v))) else .err) ∧
    (parseInstruction lexOps lib (n + 1) (Lexer.new (txt "f64.const " ++ w))).1 =
      (if -2 ^ 31 ≤ v ∧ v < 2 ^ 32 then .ok (.f64Const (lib.float64OfInt (BitVec.ofInt 64 v))) else .err) := by
  have hw : ∀ c : List Byte, c = txt "f32.const" ∨ c = txt "f64.const" →
      significant (c ++ ch ' ' :: w) = ⟨[⟨.reserved, c⟩, ⟨.integer, w⟩], true⟩ := by
    intro c hc
    have hwc : Written ⟨.reserved, c⟩ := by
      rcases hc with rfl | rfl
      · exact written_word _ _ (by decide)
      · exact written_word _ _ (by decide)
    exact significant_sep [⟨.reserved, c⟩, ⟨.integer, w⟩] (by
      intro t ht
      rcases List.mem_cons.1 ht with rfl | ht
      · exact hwc
      · rw [List.mem_singleton] at ht
        rw [ht]; exact literal_written w v h)
  obtain ⟨k32, k64⟩ := constFloat_int lib w v h hp [] true
  constructor
  · have hs := hw (txt "f32.const") (.inl rfl)
    have e : (parseInstruction streamOps lib (n + 1) ⟨[⟨.reserved, txt "f32.const"⟩, ⟨.integer, w⟩], true⟩).1 =
        if -2 ^ 31 ≤ v ∧ v < 2 ^ 32 then .ok (.f32Const (lib.float32OfInt (BitVec.ofInt 32 v))) else .err := by
      have hh : parseHead streamOps lib (parseInstruction streamOps lib n) n (txt "f32.const") = (do
          let v ← constFloat32 streamOps lib
          pure (.f32Const v)) := by
        unfold parseHead
        rw [show plainWords.lookup (txt "f32.const") = none by decide]
        simp only
        rw [show indexedWords.lookup (txt "f32.const") = none by decide]
        simp only
        rw [if_neg (by decide), if_neg (by decide), if_neg (by decide), if_pos trivial]
      change (parseInstruction streamOps lib (n + 1) ⟨kw (txt "f32.const") :: [⟨.integer, w⟩], true⟩).1 = _
      rw [parseInstruction_cons, hh]
      by_cases hr : -2 ^ 31 ≤ v ∧ v < 2 ^ 32
      · rw [if_pos hr] at k32 ⊢
        rw [SM.bind_ok (SM.bind_ok k32 : (do
            let v ← constFloat32 streamOps lib
            pure (Inst.f32Const v)) _ = (.ok (.f32Const (lib.float32OfInt (BitVec.ofInt 32 v))), ⟨[], true⟩)), parseFolded_end]
      · rw [if_neg hr] at k32 ⊢
        rw [SM.bind_err (SM.bind_err k32)]
    rw [← hs] at e
    have hd : (parseInstruction streamOps lib (n + 1) (significant (txt "f32.const" ++ ch ' ' :: w))).1 ≠ .diverge := by
      rw [e]; split <;> simp
    exact (text_reads (parseInstruction_sim lexOps_sim lib (n + 1) (n + 1) (Nat.le_refl _)) _ hd).trans e
  · have hs := hw (txt "f64.const") (.inr rfl)
    have e : (parseInstruction streamOps lib (n + 1) ⟨[⟨.reserved, txt "f64.const"⟩, ⟨.integer, w⟩], true⟩).1 =
        if -2 ^ 31 ≤ v ∧ v < 2 ^ 32 then .ok (.f64Const (lib.float64OfInt (BitVec.ofInt 64 v))) else .err := by
      have hh : parseHead streamOps lib (parseInstruction streamOps lib n) n (txt "f64.const") = (do
          let v ← constFloat64 streamOps lib
          pure (.f64Const v)) := by
        unfold parseHead
        rw [show plainWords.lookup (txt "f64.const") = none by decide]
        simp only
        rw [show indexedWords.lookup (txt "f64.const") = none by decide]
        simp only
        rw [if_neg (by decide), if_neg (by decide), if_neg (by decide), if_neg (by decide), if_pos trivial]
      change (parseInstruction streamOps lib (n + 1) ⟨kw (txt "f64.const") :: [⟨.integer, w⟩], true⟩).1 = _
      rw [parseInstruction_cons, hh]
      by_cases hr : -2 ^ 31 ≤ v ∧ v < 2 ^ 32
      · rw [if_pos hr] at k64 ⊢
        rw [SM.bind_ok (SM.bind_ok k64 : (do
            let v ← constFloat64 streamOps lib
            pure (Inst.f64Const v)) _ = (.ok (.f64Const (lib.float64OfInt (BitVec.ofInt 64 v))), ⟨[], true⟩)), parseFolded_end]
      · rw [if_neg hr] at k64 ⊢
        rw [SM.bind_err (SM.bind_err k64)]
    rw [← hs] at e
    have hd : (parseInstruction streamOps lib (n + 1) (significant (txt "f64.const" ++ ch ' ' :: w))).1 ≠ .diverge := by
      rw [e]; split <;> simp
    exact (text_reads (parseInstruction_sim lexOps_sim lib (n + 1) (n + 1) (Nat.le_refl _)) _ hd).trans e

/-- C85, for small integers. The floating point constant of an integer literal is the floating point number of the value of the
literal: `lib.float32OfInt` and `lib.float64OfInt` are the conversions of the processor from signed integers. Missing: integers
that are not in these ranges, see `f32_integer_wraps` and `float_integer_refused`, and the sign of zero, see `negative_zero`. -/
theorem float_integer_partial (lib : Lib) (w : List Byte) (v : Int) (h : Literal w v) (hp : NoPadding w) (n : Nat) :
    (-2 ^ 31 ≤ v → v < 2 ^ 31 → ∃ i : U32, i.toInt = v ∧
      (parseInstruction lexOps lib (n + 1) (Lexer.new (txt "f32.const " ++ w))).1 = .ok (.f32Const (lib.float32OfInt i))) ∧
    (-2 ^ 31 ≤ v → v < 2 ^ 32 → ∃ i : U64, i.toInt = v ∧
      (parseInstruction lexOps lib (n + 1) (Lexer.new (txt "f64.const " ++ w))).1 = .ok (.f64Const (lib.float64OfInt i))) := by
  obtain ⟨h1, h2⟩ := float_instruction lib w v h hp n
  constructor
  · intro l u
    refine ⟨BitVec.ofInt 32 v, ?_, by rw [h1, if_pos ⟨l, by omega⟩]⟩
    rw [BitVec.toInt_ofInt, Int.bmod_def]
    split <;> omega
  · intro l u
    refine ⟨BitVec.ofInt 64 v, ?_, by rw [h2, if_pos ⟨l, u⟩]⟩
    rw [BitVec.toInt_ofInt, Int.bmod_def]
    split <;> omega

/-- C85 fails: the 32 bit constant of an integer from 2^31 to 2^32 - 1 is the floating point number of a negative integer, that
less 2^32. -/
theorem f32_integer_wraps (lib : Lib) (w : List Byte) (v : Int) (h : Literal w v) (hp : NoPadding w) (n : Nat) (hl : 2 ^ 31 ≤ v) (hu : v < 2 ^ 32) :
    ∃ i : U32, i.toInt = v - 2 ^ 32 ∧
      (parseInstruction lexOps lib (n + 1) (Lexer.new (txt "f32.const " ++ w))).1 = .ok (.f32Const (lib.float32OfInt i)) := by
  refine ⟨BitVec.ofInt 32 v, ?_, by rw [(float_instruction lib w v h hp n).1, if_pos ⟨by omega, hu⟩]⟩
  rw [BitVec.toInt_ofInt, Int.bmod_def]
  split <;> omega

/-- C85. Integers below -2^31 and from 2^32 on are refused as floating point constants. -/
theorem float_integer_refused (lib : Lib) (w : List Byte) (v : Int) (h : Literal w v) (hp : NoPadding w) (n : Nat) (hr : ¬(-2 ^ 31 ≤ v ∧ v < 2 ^ 32)) :
    (parseInstruction lexOps lib (n + 1) (Lexer.new (txt "f32.const " ++ w))).1 = .err ∧
      (parseInstruction lexOps lib (n + 1) (Lexer.new (txt "f64.const " ++ w))).1 = .err := by
  obtain ⟨h1, h2⟩ := float_instruction lib w v h hp n
  rw [h1, h2, if_neg hr, if_neg hr]
  exact ⟨rfl, rfl⟩

theorem zero_literal : Literal (txt "0") 0 ∧ NoPadding (txt "0") ∧ Literal (txt "-0") 0 ∧ NoPadding (txt "-0") := by
  have hz : Magnitude (txt "0") 0 := Magnitude.decimal (txt "0") (.one _ (by decide))
  refine ⟨.none _ _ hz, ⟨by decide, ?_⟩, ?_, ⟨by decide, ?_⟩⟩
  · rintro body (rfl | e) hb
    · exact .inl rfl
    · have := congrArg List.head? e
      rw [List.head?_cons] at this
      exact absurd this (by decide)
  · have := Literal.minus _ _ hz
    exact this
  · rintro body (rfl | e) hb
    · exact absurd hb (by decide)
    · simp [txt] at e
      exact .inl e.symm

/-- C85 fails for the sign of zero: `-0` is the constant of `0`. -/
theorem negative_zero (lib : Lib) (n : Nat) :
    (parseInstruction lexOps lib (n + 1) (Lexer.new (txt "f32.const -0"))).1 = (parseInstruction lexOps lib (n + 1) (Lexer.new (txt "f32.const 0"))).1 ∧
    (parseInstruction lexOps lib (n + 1) (Lexer.new (txt "f64.const -0"))).1 = (parseInstruction lexOps lib (n + 1) (Lexer.new (txt "f64.const 0"))).1 := by
  obtain ⟨a1, a2, b1, b2⟩ := zero_literal
  obtain ⟨c1, c2⟩ := float_instruction lib _ _ a1 a2 n
  obtain ⟨d1, d2⟩ := float_instruction lib _ _ b1 b2 n
  exact ⟨d1.trans c1.symm, d2.trans c2.symm⟩

example : ∃ w v, Literal w v ∧ NoPadding w ∧ 2 ^ 31 ≤ v ∧ v < 2 ^ 32 := by
  refine ⟨txt "4294967295", 4294967295, ?_, ⟨by decide, ?_⟩, by decide, by decide⟩
  · have k := Literal.none _ _ (.decimal (txt "4294967295") (by numeral))
    rw [show value 10 (txt "4294967295") = 4294967295 by decide] at k
    exact k
  · rintro body (rfl | e) hb
    · exact absurd hb (by decide)
    · have := congrArg List.head? e
      rw [List.head?_cons] at this
      exact absurd this (by decide)

end Verif.Wat
