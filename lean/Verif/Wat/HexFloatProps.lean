import Verif.Wat.FloatProps
import Verif.Wat.GoLib
import Verif.Go.FloatLemmas

/-!
# Floating point constants have the value of their literal: C98
-/

namespace Verif.Wat

open Spec Ieee

namespace Spec

/-- The number of digits; underscores do not count. -/
def digitCount (s : List Byte) : Nat := (s.filter (· ≠ ch '_')).length

/-- The exponent of a float literal. -/
def Lit.power (l : Lit) : Int :=
  match l.exponent with
  | some (_, sg, n) => if sg = txt "-" then -(value 10 n : Int) else value 10 n
  | none => 0

/-- The number a float literal stands for: whole part and fraction, times a power of two if it is hexadecimal, of ten if it
is not. -/
def Lit.value (l : Lit) : ℚ :=
  if l.hex then (Spec.value 16 l.whole + Spec.value 16 l.fraction / 16 ^ digitCount l.fraction) * 2 ^ l.power
  else (Spec.value 10 l.whole + Spec.value 10 l.fraction / 10 ^ digitCount l.fraction) * 10 ^ l.power

end Spec

/-! ## Reading the literal -/

theorem fold_shift (base : Nat) (s : List Byte) (v : Nat) :
    s.foldl (fun n b => if b = ch '_' then n else n * base + digitVal b) v = v * base ^ digitCount s + value base s := by
  induction s generalizing v with
  | nil => simp [value, digitCount]
  | cons b s ih =>
    have hv : value base (b :: s) = s.foldl (fun n b => if b = ch '_' then n else n * base + digitVal b)
        (if b = ch '_' then 0 else 0 * base + digitVal b) := rfl
    rw [hv, List.foldl_cons, ih, ih (if b = ch '_' then 0 else 0 * base + digitVal b)]
    by_cases hb : b = ch '_'
    · subst hb; simp [digitCount]
    · have hd : digitCount (b :: s) = digitCount s + 1 := by simp [digitCount, hb]
      rw [if_neg hb, if_neg hb, hd, Nat.pow_succ]; ring

theorem mantissa_digits (s r : List Byte) (hs : ∀ b ∈ s, hexDigit b = true ∨ b = ch '_') (m : Strconv.Mantissa) :
    Strconv.mantissaLoop true (s ++ r) m = Strconv.mantissaLoop true r
      ⟨s.foldl (fun n b => if b = ch '_' then n else n * 16 + digitVal b) m.value,
        if m.point then m.places + digitCount s else m.places, m.point, m.digits || decide (0 < digitCount s)⟩ := by
  induction s generalizing m with
  | nil =>
    rcases m with ⟨v, p, pt, dg⟩
    cases pt <;> simp [digitCount]
  | cons b s ih =>
    have hs' : ∀ b ∈ s, hexDigit b = true ∨ b = ch '_' := fun c hc => hs c (by simp [hc])
    rw [List.cons_append, Strconv.mantissaLoop, List.foldl_cons]
    by_cases hu : b = ch '_'
    · subst hu
      rw [if_pos rfl, if_pos rfl, ih hs']
      simp [digitCount]
    · have hb := (hs b (by simp)).resolve_right hu
      obtain ⟨-, h2, h3⟩ := digitOf_hex b hb
      have hdot : b ≠ ch '.' := by
        have : ∀ b : Byte, hexDigit b = true → b ≠ ch '.' := by decide
        exact this b hb
      have hdg : digitCount (b :: s) = digitCount s + 1 := by simp [digitCount, hu]
      rw [if_neg hu, if_neg hu, if_neg hdot, h2, hdg]
      simp only
      rw [if_neg (by simp; omega), ih hs']
      rcases m with ⟨v, p, pt, dg⟩
      cases pt <;> simp [Nat.add_assoc, Nat.add_comm 1]

theorem exponent_digits (s : List Byte) (hs : ∀ b ∈ s, digit b = true ∨ b = ch '_') (e : Nat) :
    Strconv.exponentLoop s e = (s.foldl (fun n b => if b = ch '_' then n else n * 10 + digitVal b) e, []) := by
  induction s generalizing e with
  | nil => rfl
  | cons b s ih =>
    have hs' : ∀ b ∈ s, digit b = true ∨ b = ch '_' := fun c hc => hs c (by simp [hc])
    rw [Strconv.exponentLoop, List.foldl_cons]
    by_cases hu : b = ch '_'
    · rw [if_pos hu, if_pos hu, ih hs']
    · have hb := (hs b (by simp)).resolve_right hu
      have h9 : (ch '0' ≤ b ∧ b ≤ ch '9') ∧ digitVal b = b.toNat - 48 := by
        have : ∀ b : Byte, digit b = true → (ch '0' ≤ b ∧ b ≤ ch '9') ∧ digitVal b = b.toNat - 48 := by decide
        exact this b hb
      rw [if_neg hu, if_neg hu, if_pos h9.1, ih hs', h9.2]

theorem numeral_digits (d : Byte → Bool) (hd : d (ch '_') = false) (s : List Byte) (h : Numeral d s) : 0 < digitCount s := by
  obtain ⟨b, r, rfl, hb⟩ := numeral_head d s h
  have : b ≠ ch '_' := by rintro rfl; rw [hd] at hb; cases hb
  simp [digitCount, this]

/-- The exponent of a literal. -/
theorem exponent_lit (sg n : List Byte) (hs : Sign sg) (hn : Numeral digit n) :
    Strconv.exponent (sg ++ n) = some (if sg = txt "-" then -(value 10 n : Int) else value 10 n) := by
  obtain ⟨b, r, rfl, hb⟩ := numeral_head digit n hn
  have h9 : (ch '0' ≤ b ∧ b ≤ ch '9') ∧ b ≠ ch '+' ∧ b ≠ ch '-' := by
    have : ∀ b : Byte, digit b = true → (ch '0' ≤ b ∧ b ≤ ch '9') ∧ b ≠ ch '+' ∧ b ≠ ch '-' := by decide
    exact this b hb
  have he := exponent_digits (b :: r) (numeral_mem _ _ hn) 0
  unfold Strconv.exponent
  rcases hs with rfl | rfl | rfl
  · simp only [List.nil_append, List.head?_cons, Option.some.injEq, h9.2.1, h9.2.2, or_self, if_false]
    rw [if_pos h9.1, he]
    simp [txt, value]
  · have e1 : (txt "+" ++ b :: r).head? = some (ch '+') := rfl
    have e2 : (txt "+" ++ b :: r).drop 1 = b :: r := rfl
    rw [e1, e2]
    simp only [true_or, if_true]
    rw [if_pos h9.1, he]
    simp only [Option.some.injEq]
    rw [if_neg (by decide), if_neg (by decide)]
    rfl
  · have e1 : (txt "-" ++ b :: r).head? = some (ch '-') := rfl
    have e2 : (txt "-" ++ b :: r).drop 1 = b :: r := rfl
    rw [e1, e2]
    simp only [or_true, if_true]
    rw [if_pos h9.1, he]
    simp only [if_true]
    rfl

theorem underLoop_append (hex : Bool) (d : Byte → Bool) (hd : ∀ b, d b = true → digit b = true ∨ (hex = true ∧ hexDigit b = true))
    (s r : List Byte) (h : Numeral d s) (saw : Strconv.Saw) :
    Strconv.underLoop hex (s ++ r) saw = Strconv.underLoop hex r .digit := by
  induction h generalizing saw with
  | one b hb =>
    rw [List.singleton_append, Strconv.underLoop, if_pos (under_digit hex b (hd b hb))]
  | more b s hb _ ih =>
    rw [List.cons_append, Strconv.underLoop, if_pos (under_digit hex b (hd b hb))]
    exact ih _
  | under b s hb _ ih =>
    rw [List.cons_append, List.cons_append, Strconv.underLoop, if_pos (under_digit hex b (hd b hb)), Strconv.underLoop,
      if_neg (by cases hex <;> decide), if_pos rfl, if_pos rfl]
    exact ih _

/-- The rest of a hexadecimal literal after its fraction. -/
theorem underLoop_exponent (c : Byte) (hc : c = ch 'p' ∨ c = ch 'P') (sg n : List Byte) (hs : Sign sg) (hn : Numeral digit n)
    (saw : Strconv.Saw) (h : saw ≠ .under) : Strconv.underLoop true ([c] ++ sg ++ n) saw = true := by
  have hn' : ∀ saw, Strconv.underLoop true n saw = true := fun saw => underLoop_numeral true digit (fun b hb => .inl hb) n hn saw
  have hd : ∀ c : Byte, c = ch 'p' ∨ c = ch 'P' ∨ c = ch '+' ∨ c = ch '-' →
      ¬((ch '0' ≤ c ∧ c ≤ ch '9') ∨ (true = true ∧ ch 'a' ≤ Strconv.lower c ∧ Strconv.lower c ≤ ch 'f')) ∧ c ≠ ch '_' := by decide
  have hc' := hd c (by rcases hc with rfl | rfl <;> simp)
  rw [List.append_assoc, List.singleton_append, Strconv.underLoop, if_neg hc'.1, if_neg hc'.2, if_neg h]
  rcases hs with rfl | rfl | rfl
  · exact hn' _
  · rw [show txt "+" ++ n = ch '+' :: n from rfl, Strconv.underLoop, if_neg (hd _ (by simp)).1, if_neg (hd _ (by simp)).2,
      if_neg (by simp)]
    exact hn' _
  · rw [show txt "-" ++ n = ch '-' :: n from rfl, Strconv.underLoop, if_neg (hd _ (by simp)).1, if_neg (hd _ (by simp)).2,
      if_neg (by simp)]
    exact hn' _

/-- The parts of a hexadecimal literal after `0x`. -/
theorem hex_mantissa (l : Lit) (hv : l.Valid) (hx : l.hex = true) (r : List Byte)
    (hr : ∀ m, Strconv.mantissaLoop true r m = (m, r)) :
    ∃ m : Strconv.Mantissa, Strconv.mantissaLoop true (l.whole ++ (if l.point then txt "." else []) ++ l.fraction ++ r)
        ⟨0, 0, false, false⟩ = (m, r) ∧ m.digits = true ∧ m.places = digitCount l.fraction ∧
      m.value = value 16 l.whole * 16 ^ digitCount l.fraction + value 16 l.fraction := by
  have hw := hv.whole
  rw [hx, if_pos rfl] at hw
  have hd := numeral_digits hexDigit (by decide) _ hw
  by_cases hf : l.fraction = []
  · cases hp : l.point with
    | false =>
      refine ⟨⟨value 16 l.whole, 0, false, true⟩, ?_, rfl, by simp [hf, digitCount], by simp [hf, digitCount, value]⟩
      rw [hf, if_neg (by simp), List.append_nil, List.append_nil, mantissa_digits _ _ (numeral_mem _ _ hw), hr]
      simp [hd, value]
    | true =>
      refine ⟨⟨value 16 l.whole, 0, true, true⟩, ?_, rfl, by simp [hf, digitCount], by simp [hf, digitCount, value]⟩
      rw [hf, if_pos rfl, List.append_nil, List.append_assoc, mantissa_digits _ _ (numeral_mem _ _ hw),
        show txt "." ++ r = ch '.' :: r from rfl, Strconv.mantissaLoop, if_neg (by decide), if_pos rfl]
      simp only [Bool.false_eq_true, if_false, hr]
      simp [hd, value]
  · obtain ⟨hp, hn⟩ := hv.fraction hf
    rw [hx, if_pos rfl] at hn
    refine ⟨⟨value 16 l.whole * 16 ^ digitCount l.fraction + value 16 l.fraction, digitCount l.fraction, true, true⟩, ?_, rfl, rfl, rfl⟩
    rw [hp, if_pos rfl, List.append_assoc, List.append_assoc, mantissa_digits _ _ (numeral_mem _ _ hw),
        show txt "." ++ (l.fraction ++ r) = ch '.' :: (l.fraction ++ r) from rfl, Strconv.mantissaLoop, if_neg (by decide),
        if_pos rfl]
    simp only [Bool.false_eq_true, if_false]
    rw [mantissa_digits _ _ (numeral_mem _ _ hn), hr, fold_shift]
    simp [hd, value]

theorem hex_underscores (l : Lit) (hv : l.Valid) (hx : l.hex = true) (c : Byte) (sg n : List Byte)
    (he : l.exponent = some (c, sg, n)) : Strconv.underscoreOK l.text = true := by
  have hw := hv.whole
  rw [hx, if_pos rfl] at hw
  have hhex : ∀ b, hexDigit b = true → digit b = true ∨ (true = true ∧ hexDigit b = true) := fun b h => .inr ⟨rfl, h⟩
  obtain ⟨h1, h2, h3⟩ := hv.exponent c sg n he
  rw [hx, if_pos rfl] at h1
  have ht : l.text = ch '0' :: ch 'x' :: (l.whole ++ ((if l.point then txt "." else []) ++ (l.fraction ++ ([c] ++ sg ++ n)))) := by
    unfold Lit.text
    rw [hx, he, if_pos rfl]
    simp [txt]
  rw [ht]
  unfold Strconv.underscoreOK
  have e1 : (ch '0' :: ch 'x' :: (l.whole ++ ((if l.point then txt "." else []) ++ (l.fraction ++ ([c] ++ sg ++ n)))))[1]?.map Strconv.lower
      = some (ch 'x') := by rfl
  simp only [e1]
  rw [if_pos (by simp), List.drop_succ_cons, List.drop_succ_cons, List.drop_zero]
  simp only [decide_true]
  rw [underLoop_append true hexDigit hhex _ _ hw]
  by_cases hf : l.fraction = []
  · rw [hf, List.nil_append]
    cases l.point with
    | false => exact underLoop_exponent c h1 sg n h2 h3 _ (by simp)
    | true =>
      rw [if_pos rfl, show ∀ q, txt "." ++ q = ch '.' :: q from fun q => rfl, Strconv.underLoop, if_neg (by decide), if_neg (by decide),
        if_neg (by simp)]
      exact underLoop_exponent c h1 sg n h2 h3 _ (by simp)
  · obtain ⟨hp, hn⟩ := hv.fraction hf
    rw [hx, if_pos rfl] at hn
    rw [hp, if_pos rfl, show ∀ q, txt "." ++ q = ch '.' :: q from fun q => rfl, Strconv.underLoop, if_neg (by decide), if_neg (by decide),
        if_neg (by simp), underLoop_append true hexDigit hhex _ _ hn]
    exact underLoop_exponent c h1 sg n h2 h3 _ (by simp)

/-- The text of a hexadecimal literal after `0x`. -/
theorem hex_text (l : Lit) (hx : l.hex = true) :
    ∃ r, l.text = ch '0' :: ch 'x' :: (l.whole ++ (if l.point then txt "." else []) ++ l.fraction ++ r) ∧
      r = match l.exponent with
        | some (c, sg, n) => [c] ++ sg ++ n
        | none => [] := by
  refine ⟨_, ?_, rfl⟩
  unfold Lit.text
  rw [hx, if_pos rfl]
  cases l.exponent <;> simp [txt]

theorem hex_isHex (l : Lit) (hv : l.Valid) (hx : l.hex = true) : Strconv.isHexFloat l.text = true := by
  obtain ⟨r, ht, -⟩ := hex_text l hx
  have hw := hv.whole
  obtain ⟨b, q, hb, -⟩ := numeral_head _ _ hw
  rw [ht, hb]
  have : ∀ q : List Byte, Strconv.isHexFloat (ch '0' :: ch 'x' :: b :: q) = true := by
    intro q
    unfold Strconv.isHexFloat
    rw [decide_eq_true_iff]
    refine ⟨by simp, rfl, rfl⟩
  simpa using this _

/-- `readFloat` of a hexadecimal literal with an exponent. -/
theorem readFloat_hex (l : Lit) (hv : l.Valid) (hx : l.hex = true) (he : l.exponent ≠ none) :
    ∃ a d, Strconv.readFloat l.text = some (a, d) ∧ 0 < d ∧ (a : ℚ) / d = l.value := by
  obtain ⟨c, sg, n, he⟩ : ∃ c sg n, l.exponent = some (c, sg, n) := by
    cases h : l.exponent with
    | none => exact absurd h he
    | some p => exact ⟨p.1, p.2.1, p.2.2, rfl⟩
  obtain ⟨h1, h2, h3⟩ := hv.exponent c sg n he
  rw [hx, if_pos rfl] at h1
  obtain ⟨r, ht, hr⟩ := hex_text l hx
  rw [he] at hr
  simp only at hr
  have hstop : ∀ m, Strconv.mantissaLoop true r m = (m, r) := by
    intro m
    have hc : c ≠ ch '_' ∧ c ≠ ch '.' ∧ (Strconv.digitOf c = some 25) := by
      rcases h1 with rfl | rfl <;> decide
    rw [hr, List.append_assoc, List.singleton_append, Strconv.mantissaLoop, if_neg hc.1, if_neg hc.2.1, hc.2.2]
    rfl
  obtain ⟨m, hm, hd, hp, hval⟩ := hex_mantissa l hv hx r hstop
  have hu := hex_underscores l hv hx c sg n he
  have hlow : Strconv.lower c = ch 'p' := by rcases h1 with rfl | rfl <;> decide
  have hexp := exponent_lit sg n h2 h3
  have hread : Strconv.readFloat l.text = some (Strconv.scaled 2 m.value (l.power - 4 * m.places)) := by
    unfold Strconv.readFloat
    rw [hex_isHex l hv hx]
    have hdrop : (l.text).drop 2 = l.whole ++ (if l.point then txt "." else []) ++ l.fraction ++ r := by rw [ht]; rfl
    simp only [if_true]
    rw [hdrop, hm]
    simp only
    rw [hr, List.append_assoc, List.singleton_append]
    simp only [hlow, if_true, hexp, hd, hu]
    unfold Lit.power
    rw [he]
    simp
  have hsc : ∀ (m : Nat) (e : Int), 0 < (Strconv.scaled 2 m e).2 ∧
      ((Strconv.scaled 2 m e).1 : ℚ) / (Strconv.scaled 2 m e).2 = m * 2 ^ e := by
    intro m e
    unfold Strconv.scaled
    by_cases h : 0 ≤ e
    · rw [if_pos h]
      refine ⟨Nat.one_pos, ?_⟩
      obtain ⟨k, rfl⟩ := Int.eq_ofNat_of_zero_le h
      simp
    · rw [if_neg h]
      refine ⟨Nat.two_pow_pos _, ?_⟩
      obtain ⟨k, hk⟩ := Int.eq_ofNat_of_zero_le (show 0 ≤ -e by omega)
      obtain rfl : e = -(k : Int) := by omega
      simp [div_eq_mul_inv]
  refine ⟨(Strconv.scaled 2 m.value (l.power - 4 * m.places)).1, (Strconv.scaled 2 m.value (l.power - 4 * m.places)).2,
    hread, (hsc _ _).1, ?_⟩
  rw [(hsc _ _).2, hval, hp]
  unfold Lit.value
  rw [hx, if_pos rfl]
  have e16 : (16 : ℚ) ^ digitCount l.fraction = 2 ^ ((4 * digitCount l.fraction : Nat) : Int) := by
    rw [zpow_natCast, pow_mul]; norm_num
  have hz : (2 : ℚ) ^ (l.power - 4 * (digitCount l.fraction : Int)) = 2 ^ l.power / 16 ^ digitCount l.fraction := by
    rw [zpow_sub₀ (by norm_num), e16]; push_cast; rfl
  rw [hz]
  have h16 : (16 : ℚ) ^ digitCount l.fraction ≠ 0 := by positivity
  push_cast
  field_simp

/-! ## `ParseFloat` of a literal -/

theorem body_of (sg body : List Byte) (hs : Sign sg) (h : body.head? ≠ some (ch '+') ∧ body.head? ≠ some (ch '-')) :
    (if decide ((sg ++ body).head? = some (ch '+') ∨ (sg ++ body).head? = some (ch '-')) = true then (sg ++ body).drop 1
      else sg ++ body) = body ∧ decide ((sg ++ body).head? = some (ch '-')) = decide (sg = txt "-") := by
  rcases hs with rfl | rfl | rfl
  · simp only [List.nil_append]
    rw [if_neg (by simp [h])]
    exact ⟨rfl, by rw [decide_eq_decide]; simp [h, txt]⟩
  · exact ⟨rfl, rfl⟩
  · exact ⟨rfl, rfl⟩

theorem lit_no_name (l : Lit) (hv : l.Valid) (w : List Byte) (hw : w = txt "inf" ∨ w = txt "infinity" ∨ w = txt "nan") :
    Strconv.small l.text ≠ w := by
  obtain ⟨b, r, hb, hd⟩ := lit_head l hv
  rw [hb]
  intro e
  have e1 := congrArg List.head? e
  have e2 : (Strconv.small (b :: r)).head? = some (if ch 'A' ≤ b ∧ b ≤ ch 'Z' then b + 32 else b) := rfl
  rw [e2] at e1
  have : ∀ b : Byte, digit b = true → (if ch 'A' ≤ b ∧ b ≤ ch 'Z' then b + 32 else b) ≠ ch 'i' ∧
      (if ch 'A' ≤ b ∧ b ≤ ch 'Z' then b + 32 else b) ≠ ch 'n' := by decide
  have h2 := this b hd
  rcases hw with rfl | rfl | rfl
  · exact h2.1 (Option.some.inj e1)
  · exact h2.1 (Option.some.inj e1)
  · exact h2.2 (Option.some.inj e1)

/-- What `ParseFloat` makes of a literal is what `readFloat` makes of it without the sign. -/
theorem parseFloat_lit (f : Format) (l : Lit) (hv : l.Valid) (sg : List Byte) (hs : Sign sg) :
    Strconv.parseFloat f (sg ++ l.text) =
      match Strconv.readFloat l.text with
      | none => .err
      | some (a, d) =>
        if Strconv.round f (a * 2 ^ f.scale) d < f.infinity then
          .ok (f.signed (decide (sg = txt "-")) (Strconv.round f (a * 2 ^ f.scale) d)) else .err := by
  have hh : l.text.head? ≠ some (ch '+') ∧ l.text.head? ≠ some (ch '-') := by
    obtain ⟨b, r, hb, hd⟩ := lit_head l hv
    rw [hb, List.head?_cons]
    have := digit_sign b hd
    simpa using this
  obtain ⟨e1, e2⟩ := body_of sg l.text hs hh
  unfold Strconv.parseFloat
  simp only
  rw [e1, e2, if_neg (by
    rintro (h | h)
    · exact lit_no_name l hv _ (.inl rfl) h
    · exact lit_no_name l hv _ (.inr (.inl rfl)) h), if_neg (fun h => lit_no_name l hv _ (.inr (.inr rfl)) h.2)]
  rcases Strconv.readFloat l.text with _ | ⟨a, d⟩ <;> rfl

/-- `ParseFloat` of a hexadecimal literal with an exponent gives the nearest number. -/
theorem parseFloat_hex (f : Format) (l : Lit) (hv : l.Valid) (hx : l.hex = true) (he : l.exponent ≠ none) (sg : List Byte)
    (hs : Sign sg) : ∃ b, f.Nearest l.value b ∧
      Strconv.parseFloat f (sg ++ l.text) = if b < f.infinity then .ok (f.signed (decide (sg = txt "-")) b) else .err := by
  obtain ⟨a, d, h1, h2, h3⟩ := readFloat_hex l hv hx he
  refine ⟨min (Strconv.round f (a * 2 ^ f.scale) d) f.infinity, ?_, ?_⟩
  · have := Strconv.round_nearest f (a * 2 ^ f.scale) d h2
    have hs : (2 : ℚ) ^ f.scale ≠ 0 := by positivity
    have hd : (d : ℚ) ≠ 0 := by exact_mod_cast Nat.ne_of_gt h2
    have e : ((a * 2 ^ f.scale : Nat) : ℚ) / d / 2 ^ f.scale = l.value := by
      rw [← h3]; push_cast; field_simp
    rwa [e] at this
  · rw [parseFloat_lit f l hv sg hs, h1]
    simp only
    by_cases h : Strconv.round f (a * 2 ^ f.scale) d < f.infinity
    · rw [Nat.min_eq_left (Nat.le_of_lt h)]
    · rw [if_neg h, Nat.min_eq_right (by omega), if_neg (Nat.lt_irrefl _)]

/-- `ParseFloat` refuses a hexadecimal literal without an exponent. -/
theorem parseFloat_no_exponent (f : Format) (l : Lit) (hv : l.Valid) (hx : l.hex = true) (he : l.exponent = none)
    (sg : List Byte) (hs : Sign sg) : Strconv.parseFloat f (sg ++ l.text) = .err := by
  obtain ⟨r, ht, hr⟩ := hex_text l hx
  rw [he] at hr
  simp only at hr
  subst hr
  obtain ⟨m, hm, hd, -, -⟩ := hex_mantissa l hv hx [] (fun m => rfl)
  have hread : Strconv.readFloat l.text = none := by
    unfold Strconv.readFloat
    rw [hex_isHex l hv hx]
    have hdrop : (l.text).drop 2 = l.whole ++ (if l.point then txt "." else []) ++ l.fraction ++ [] := by rw [ht]; rfl
    simp only [if_true]
    rw [hdrop, hm]
    simp
  rw [parseFloat_lit f l hv sg hs, hread]

/-! ## Constants -/

/-- An instruction of a word and one more token. -/
theorem two_words (lib : Lib) (n : Nat) (c : List Byte) (hc : Written ⟨.reserved, c⟩) (t : Sig) (ht : Written t)
    (p : SM Stream Inst) (hh : parseHead streamOps lib (parseInstruction streamOps lib n) n c = p) (r : Res Inst)
    (hr : p ⟨[t], true⟩ = (r, ⟨[], true⟩)) (hd : r = .err ∨ ∃ i, r = .ok i) :
    (parseInstruction lexOps lib (n + 1) (Lexer.new (c ++ ch ' ' :: t.capture))).1 = r := by
  have hs : significant (c ++ ch ' ' :: t.capture) = ⟨[⟨.reserved, c⟩, t], true⟩ :=
    significant_sep [⟨.reserved, c⟩, t] (by
      intro u hu
      rcases List.mem_cons.1 hu with rfl | hu
      · exact hc
      · rw [List.mem_singleton] at hu
        rw [hu]; exact ht)
  have e : (parseInstruction streamOps lib (n + 1) ⟨kw c :: [t], true⟩).1 = r := by
    rw [parseInstruction_cons, hh]
    rcases hd with rfl | ⟨i, rfl⟩
    · rw [SM.bind_err hr]
    · rw [SM.bind_ok hr, parseFolded_end]
  have e2 : (parseInstruction streamOps lib (n + 1) (significant (c ++ ch ' ' :: t.capture))).1 = r := by
    rw [hs]; exact e
  have hnd : (parseInstruction streamOps lib (n + 1) (significant (c ++ ch ' ' :: t.capture))).1 ≠ .diverge := by
    rw [e2]
    rcases hd with rfl | ⟨i, rfl⟩ <;> simp
  exact (text_reads (parseInstruction_sim lexOps_sim lib (n + 1) (n + 1) (Nat.le_refl _)) _ hnd).trans e2

theorem head_f32 (lib : Lib) (n : Nat) : parseHead streamOps lib (parseInstruction streamOps lib n) n (txt "f32.const") = (do
    let v ← constFloat32 streamOps lib
    pure (.f32Const v)) := by
  unfold parseHead
  rw [show plainWords.lookup (txt "f32.const") = none by decide]
  simp only
  rw [show indexedWords.lookup (txt "f32.const") = none by decide]
  simp only
  rw [if_neg (by decide), if_neg (by decide), if_neg (by decide), if_pos trivial]

theorem head_f64 (lib : Lib) (n : Nat) : parseHead streamOps lib (parseInstruction streamOps lib n) n (txt "f64.const") = (do
    let v ← constFloat64 streamOps lib
    pure (.f64Const v)) := by
  unfold parseHead
  rw [show plainWords.lookup (txt "f64.const") = none by decide]
  simp only
  rw [show indexedWords.lookup (txt "f64.const") = none by decide]
  simp only
  rw [if_neg (by decide), if_neg (by decide), if_neg (by decide), if_neg (by decide), if_pos trivial]

/-- Constants written as floats. -/
theorem float_const (lib : Lib) (w : List Byte) (hw : Written ⟨.float, w⟩) (n : Nat) :
    (∀ v, float32Value lib w = .ok v →
      (parseInstruction lexOps lib (n + 1) (Lexer.new (txt "f32.const " ++ w))).1 = .ok (.f32Const v)) ∧
    (float32Value lib w = .err → (parseInstruction lexOps lib (n + 1) (Lexer.new (txt "f32.const " ++ w))).1 = .err) ∧
    (∀ v, lib.parseFloat64 w = .ok v →
      (parseInstruction lexOps lib (n + 1) (Lexer.new (txt "f64.const " ++ w))).1 = .ok (.f64Const v)) ∧
    (lib.parseFloat64 w = .err → (parseInstruction lexOps lib (n + 1) (Lexer.new (txt "f64.const " ++ w))).1 = .err) := by
  have h32 := constFloat32_cons lib w [] true
  have h64 := constFloat64_cons lib w [] true
  refine ⟨fun v hv => ?_, fun hv => ?_, fun v hv => ?_, fun hv => ?_⟩
  · rw [hv] at h32
    exact two_words lib n (txt "f32.const") (written_word _ _ (by decide)) ⟨.float, w⟩ hw _ (head_f32 lib n) _
      (SM.bind_ok h32) (.inr ⟨_, rfl⟩)
  · rw [hv] at h32
    exact two_words lib n (txt "f32.const") (written_word _ _ (by decide)) ⟨.float, w⟩ hw _ (head_f32 lib n) _
      (SM.bind_err h32) (.inl rfl)
  · rw [hv] at h64
    exact two_words lib n (txt "f64.const") (written_word _ _ (by decide)) ⟨.float, w⟩ hw _ (head_f64 lib n) _
      (SM.bind_ok h64) (.inr ⟨_, rfl⟩)
  · rw [hv] at h64
    exact two_words lib n (txt "f64.const") (written_word _ _ (by decide)) ⟨.float, w⟩ hw _ (head_f64 lib n) _
      (SM.bind_err h64) (.inl rfl)

/-- A constant that is neither a float nor an integer token is refused. -/
theorem word_const (lib : Lib) (ty : TokenType) (w : List Byte) (hw : Written ⟨ty, w⟩) (h1 : ty ≠ .float) (h2 : ty ≠ .integer)
    (n : Nat) :
    (parseInstruction lexOps lib (n + 1) (Lexer.new (txt "f32.const " ++ w))).1 = .err ∧
    (parseInstruction lexOps lib (n + 1) (Lexer.new (txt "f64.const " ++ w))).1 = .err := by
  have hf : peekFloat streamOps ⟨[⟨ty, w⟩], true⟩ = (.ok false, ⟨[⟨ty, w⟩], true⟩) := by
    have : (ty == TokenType.float) = false := by simpa using h1
    show (Res.ok (ty == TokenType.float), _) = _
    rw [this]
  have k32 : constFloat32 streamOps lib ⟨[⟨ty, w⟩], true⟩ = (.err, ⟨[], true⟩) := by
    unfold constFloat32
    rw [SM.bind_ok hf, if_neg (by simp)]
    apply SM.bind_err
    unfold parseInt32
    rw [SM.bind_ok (show streamOps.next ⟨[⟨ty, w⟩], true⟩ = (.ok ⟨ty, w⟩, ⟨[], true⟩) from rfl), if_pos h2]
    rfl
  have k64 : constFloat64 streamOps lib ⟨[⟨ty, w⟩], true⟩ = (.err, ⟨[], true⟩) := by
    unfold constFloat64
    rw [SM.bind_ok hf, if_neg (by simp)]
    apply SM.bind_err
    unfold parseInt64
    rw [SM.bind_ok (show streamOps.next ⟨[⟨ty, w⟩], true⟩ = (.ok ⟨ty, w⟩, ⟨[], true⟩) from rfl), if_pos h2]
    rfl
  exact ⟨two_words lib n (txt "f32.const") (written_word _ _ (by decide)) ⟨ty, w⟩ hw _ (head_f32 lib n) _
      (SM.bind_err k32) (.inl rfl),
    two_words lib n (txt "f64.const") (written_word _ _ (by decide)) ⟨ty, w⟩ hw _ (head_f64 lib n) _
      (SM.bind_err k64) (.inl rfl)⟩

/-- The word of a float literal. -/
theorem lit_written (l : Lit) (hv : l.Valid) (h : l.point = true ∨ l.exponent ≠ none) (sg : List Byte) (hs : Sign sg) :
    ∃ ty, Written ⟨ty, sg ++ l.text⟩ ∧ ty ≠ .integer ∧
      (ty = .float ↔ l.hex = true ∧ ∀ c sg n, l.exponent = some (c, sg, n) → sg ≠ []) := by
  have hchars : ∀ b ∈ sg ++ l.text, b ∈ litChars := by
    intro b hb
    rcases List.mem_append.1 hb with hb | hb
    · exact sign_chars sg hs b hb
    · exact lit_chars l hv b hb
  obtain ⟨c, q, h1, h2⟩ := lit_head l hv
  have hne : sg ++ l.text ≠ [] := by rw [h1]; simp
  have hwc : ∀ b ∈ sg ++ l.text, b ∈ wordChars := fun b hb => (show ∀ b ∈ litChars, b ∈ wordChars by decide) b (hchars b hb)
  have hdl : (sg ++ l.text).head? ≠ some (ch '$') := by
    intro hd
    have : ch '$' ∈ sg ++ l.text := List.mem_of_mem_head? hd
    exact (show ch '$' ∉ litChars by decide) (hchars _ this)
  obtain ⟨ty, k1, k2⟩ := word_token (sg ++ l.text) hne hwc hdl
  obtain ⟨t, t1, t2, t3, t4⟩ := float_words_partial l hv h sg hs
  rw [t1] at k2
  have e := Res.ok.inj k2
  rw [e] at t3 t4
  exact ⟨ty, .word _ _ hne hwc hdl ((classify_iff _ _).1 k1), t3, t4⟩

end Verif.Wat
