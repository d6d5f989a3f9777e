import Verif.Wat.NumProps

/-!
# Exactly the words the WAT lexer returns as floats: C45
-/

namespace Verif.Wat
namespace Spec

/-- What must follow an exponent letter: a sign, then a digit, then digits and underscores. -/
def LooseExp (s : List Byte) : Prop := ∃ sg n, (sg = txt "+" ∨ sg = txt "-") ∧ Loose digit n ∧ s = sg ++ n

/-- The letters of a hexadecimal exponent. -/
def ExpLetter (c : Byte) : Prop := c = ch 'p' ∨ c = ch 'P'

/-- What may follow the digits of the whole part: a point; or an exponent, possibly after a point; or a byte that is
none of the digits, underscore and exponent letters, then digits, and possibly an exponent. -/
def HexTail (t : List Byte) : Prop :=
  t = txt "." ∨
  (∃ dot c e, (dot = [] ∨ dot = txt ".") ∧ ExpLetter c ∧ LooseExp e ∧ t = dot ++ c :: e) ∨
  ∃ b f e, hexDigit b = false ∧ b ≠ ch '_' ∧ ¬ ExpLetter b ∧ Loose hexDigit f ∧
    (e = [] ∨ ∃ c x, ExpLetter c ∧ LooseExp x ∧ e = c :: x) ∧ t = b :: (f ++ e)

/-- The words returned as floats, without their sign. -/
def TakenFloat (body : List Byte) : Prop :=
  body = txt "inf" ∨ body = txt "nan" ∨ body = txt "nan:arithmetic" ∨ body = txt "nan:canonical" ∨
  (∃ h r, body = txt "nan:0x" ++ h :: r ∧ hexDigit h = true) ∨
  ∃ h t, body = txt "0x" ++ h ++ t ∧ Loose hexDigit h ∧ HexTail t

/-- The words returned as integers. Lack of the lexer: underscores may stand anywhere after the first digit. -/
def IntegerWord (w : List Byte) : Prop :=
  ∃ sg body, Sign sg ∧ w = sg ++ body ∧ (Loose digit body ∨ ∃ h, body = txt "0x" ++ h ∧ Loose hexDigit h)

/-- The words returned as floats. -/
def FloatWord (w : List Byte) : Prop := ∃ sg body, Sign sg ∧ w = sg ++ body ∧ TakenFloat body

/-- The type of the token a word is returned as. -/
inductive WordType (w : List Byte) : TokenType → Prop
  | integer : IntegerWord w → WordType w .integer
  | float : FloatWord w → WordType w .float
  | module : w = txt "module" → WordType w .module
  | component : w = txt "component" → WordType w .component
  | other : ¬ IntegerWord w → ¬ FloatWord w → w ≠ txt "module" → w ≠ txt "component" → WordType w .reserved

end Spec
open Spec

/-- A text begins with no digit, or with the digits up to a byte that is neither digit nor underscore. -/
theorem digits_cut (d : Byte → Bool) (s : List Byte) : (∀ b, s.head? = some b → d b = false) ∨
    ∃ p r, s = p ++ r ∧ Loose d p ∧ ∀ b, r.head? = some b → d b = false ∧ b ≠ ch '_' := by
  cases s with
  | nil => exact .inl (by simp)
  | cons b s =>
    by_cases hb : d b = true
    · refine .inr ?_
      rcases digitsLoop_stop d true s 0 with h | ⟨p, c, r, h1, h2, h3, h4, -⟩
      · exact ⟨b :: s, [], by simp, ⟨b, s, rfl, hb, h⟩, by simp⟩
      · refine ⟨b :: p, c :: r, by rw [h1]; rfl, ⟨b, p, rfl, hb, h2⟩, ?_⟩
        intro x hx; cases hx; exact ⟨h3, h4⟩
    · refine .inl ?_
      intro x hx; cases hx; simpa using hb

/-- There is one way to cut. -/
theorem cut_unique (d : Byte → Bool) (p q r s : List Byte) (h : p ++ r = q ++ s) (hp : Loose d p) (hq : Loose d q)
    (hr : ∀ b, r.head? = some b → d b = false ∧ b ≠ ch '_') (hs : ∀ b, s.head? = some b → d b = false ∧ b ≠ ch '_') :
    p = q ∧ r = s := by
  have key : ∀ p r : List Byte, Loose d p → (∀ b, r.head? = some b → d b = false ∧ b ≠ ch '_') →
      (p ++ r).takeWhile (fun c => d c || c == ch '_') = p := by
    intro p r hp hr
    have all : ∀ c ∈ p, (d c || c == ch '_') = true := by
      obtain ⟨b, q, rfl, hb, hq⟩ := hp
      intro c hc
      rcases List.mem_cons.1 hc with rfl | hc
      · simp [hb]
      · rcases hq c hc with h | h <;> simp [h]
    rw [List.takeWhile_append_of_pos all]
    cases r with
    | nil => simp
    | cons b r => have := hr b rfl; rw [List.takeWhile_cons, if_neg (by simp [this.1, this.2])]; simp
  have e : p = q := by rw [← key p r hp hr, h, key q s hq hs]
  subst e
  exact ⟨rfl, List.append_cancel_left h⟩

theorem digits_none (d : Byte → Bool) (st : Bool) (pre s : List Byte) (h : ∀ b, s.head? = some b → d b = false) :
    digits d st (pre ++ s) pre.length = (pre.length, false) := by
  unfold digits
  cases s with
  | nil => simp
  | cons b s =>
    rw [show (pre ++ b :: s)[pre.length]? = some b by simp]
    simp [h b rfl]

/-- The exponent at the end of a text. -/
theorem exponent_iff (pre e : List Byte) (i : Nat) (hi : i = pre.length) :
    (exponent (pre ++ e) i).2 = true ↔ LooseExp e := by
  subst hi
  have hsg : ∀ b r, b = ch '+' ∨ b = ch '-' → e = b :: r → ((exponent (pre ++ e) pre.length).2 = true ↔ Loose digit r) := by
    intro b r hb he
    subst he
    have es : sign (pre ++ b :: r) pre.length = (pre.length + 1, true) := by
      unfold sign
      rw [show (pre ++ b :: r)[pre.length]? = some b by simp]
      simp [hb]
    unfold exponent
    rw [es]
    simp only [Bool.not_true, Bool.false_eq_true, if_false]
    rw [show pre ++ b :: r = (pre ++ [b]) ++ r by simp, show pre.length + 1 = (pre ++ [b]).length by simp]
    unfold num
    rw [isDigit_eq]
    rcases digits_cut digit r with h | ⟨p, q, rfl, hp, hq⟩
    · rw [digits_none _ _ _ _ h]
      simp only [Bool.false_eq_true, false_iff]
      rintro ⟨c, x, rfl, hc, -⟩
      rw [h c rfl] at hc; cases hc
    · rw [digits_at _ _ _ _ _ hp hq]
      cases q with
      | nil => simp [hp]
      | cons c q =>
        simp only [reduceCtorEq, if_false, Bool.false_eq_true, false_iff]
        intro hl
        have := cut_unique digit (p ++ c :: q) p [] (c :: q) (by simp) hl hp (by simp) hq
        simp at this
  constructor
  · intro h
    cases e with
    | nil =>
      unfold exponent at h
      have es : sign (pre ++ []) pre.length = (pre.length, false) := by unfold sign; simp
      rw [es] at h
      simp at h
    | cons b r =>
      by_cases hb : b = ch '+' ∨ b = ch '-'
      · have hl := (hsg b r hb rfl).1 h
        rcases hb with rfl | rfl
        · exact ⟨txt "+", r, .inl rfl, hl, rfl⟩
        · exact ⟨txt "-", r, .inr rfl, hl, rfl⟩
      · unfold exponent at h
        have es : sign (pre ++ b :: r) pre.length = (pre.length, false) := by
          unfold sign
          rw [show (pre ++ b :: r)[pre.length]? = some b by simp]
          simp [not_or.1 hb]
        rw [es] at h
        simp at h
  · rintro ⟨sg, n, rfl | rfl, hn, rfl⟩
    · exact (hsg (ch '+') n (.inl rfl) rfl).2 hn
    · exact (hsg (ch '-') n (.inr rfl) rfl).2 hn

theorem expLetter_beq (c : Byte) : (c == ch 'P' || c == ch 'p') = true ↔ ExpLetter c := by
  simp [ExpLetter, or_comm]

theorem expLetter_plain (c : Byte) (h : ExpLetter c) : hexDigit c = false ∧ c ≠ ch '_' ∧ c ≠ ch '.' := by
  rcases h with rfl | rfl <;> exact ⟨by decide, by decide, by decide⟩

/-- `hexfloat` on the digits of the whole part and what follows. -/
theorem hexfloat_iff (h r : List Byte) (b : Byte) (hh : Loose hexDigit h) (hb : hexDigit b = false) (hu : b ≠ ch '_') :
    ∃ x, hexfloat (txt "0x" ++ h ++ b :: r) 0 = .ok x ∧ (x.2 = true ↔ HexTail (b :: r)) := by
  have hnum : hexnum (txt "0x" ++ h ++ b :: r) (0 + 2) = ((txt "0x" ++ h).length, true) := by
    have := digits_at hexDigit true (txt "0x") h (b :: r) hh (by intro x hx; cases hx; exact ⟨hb, hu⟩)
    unfold hexnum
    rw [isHex_eq, List.append_assoc, show 0 + 2 = (txt "0x").length from rfl, this]
    simp
  have hpre : (txt "0x").isPrefixOf (txt "0x" ++ h ++ b :: r) = true := by
    rw [List.isPrefixOf_iff_prefix, List.append_assoc]; exact List.prefix_append _ _
  unfold hexfloat
  rw [hpre]
  simp only [Bool.not_true, Bool.false_eq_true, if_false, hnum]
  generalize hP : txt "0x" ++ h = pre
  clear hnum hpre hP hh
  rw [if_neg (by simp), byteAt_at pre r b _ rfl, Res.bind_ok]
  by_cases h1 : b = ch '.' ∧ r = []
  · obtain ⟨rfl, rfl⟩ := h1
    rw [if_pos ⟨rfl, by simp⟩]
    exact ⟨_, rfl, by simp only [true_iff]; exact .inl rfl⟩
  rw [if_neg (by
    rintro ⟨h2, h3⟩
    rw [List.length_append, List.length_cons] at h3
    exact h1 ⟨h2, List.length_eq_zero_iff.1 (by omega)⟩)]
  have hdot : b :: r ≠ txt "." := by
    intro he
    cases he
    exact h1 ⟨rfl, rfl⟩
  by_cases h2 : ExpLetter b
  · -- the exponent follows at once
    have hbd := (expLetter_plain b h2).2.2
    have hen : exponentNext (ch 'p') (ch 'P') (pre ++ b :: r) pre.length = .ok true := by
      unfold exponentNext
      rw [byteAt_at pre r b _ rfl, Res.bind_ok, if_neg hbd]
      rcases h2 with rfl | rfl <;> rfl
    rw [hen, Res.bind_ok, if_pos rfl, if_neg hbd]
    refine ⟨_, rfl, ?_⟩
    rw [show pre ++ b :: r = (pre ++ [b]) ++ r by simp, exponent_iff _ r _ (by simp)]
    constructor
    · intro he; exact .inr (.inl ⟨[], b, r, .inl rfl, h2, he, rfl⟩)
    · rintro (he | ⟨dot, c, e, rfl | rfl, hc, he, ht⟩ | ⟨b', f, e, -, -, hb', -, -, ht⟩)
      · exact absurd he hdot
      · cases ht; exact he
      · exact absurd (List.cons.inj ht).1 hbd
      · cases ht; exact absurd h2 hb'
  by_cases h3 : b = ch '.' ∧ ∃ c q, r = c :: q ∧ ExpLetter c
  · obtain ⟨rfl, c, q, rfl, hc⟩ := h3
    have hb1 : byteAt (pre ++ ch '.' :: c :: q) (pre.length + 1) = .ok c := by
      rw [show pre ++ ch '.' :: c :: q = (pre ++ [ch '.']) ++ c :: q by simp]; exact byteAt_at _ _ _ _ (by simp)
    have hen : exponentNext (ch 'p') (ch 'P') (pre ++ ch '.' :: c :: q) pre.length = .ok true := by
      unfold exponentNext
      rw [byteAt_at pre _ _ _ rfl, Res.bind_ok, if_pos rfl, hb1, Res.bind_ok]
      rcases hc with rfl | rfl <;> rfl
    rw [hen, Res.bind_ok, if_pos rfl, if_pos rfl]
    refine ⟨_, rfl, ?_⟩
    rw [show pre ++ ch '.' :: c :: q = (pre ++ [ch '.', c]) ++ q by simp, exponent_iff _ q _ (by simp)]
    constructor
    · intro he; exact .inr (.inl ⟨txt ".", c, q, .inr rfl, hc, he, rfl⟩)
    · rintro (he | ⟨dot, c', e, rfl | rfl, hc', he, ht⟩ | ⟨b', f, e, -, -, hb', hf, -, ht⟩)
      · exact absurd he hdot
      · have := (List.cons.inj ht).1
        exact absurd hc' (by rw [← this]; exact h2)
      · cases ht; exact he
      · obtain ⟨d, x, rfl, hd, -⟩ := hf
        cases ht
        rw [(expLetter_plain _ hc).1] at hd; cases hd
  -- a fraction follows
  have hen : exponentNext (ch 'p') (ch 'P') (pre ++ b :: r) pre.length = .ok false := by
    unfold exponentNext
    rw [byteAt_at pre r b _ rfl, Res.bind_ok]
    have hb2 : (b == ch 'p' || b == ch 'P') = false := by
      rw [Bool.eq_false_iff, ne_eq, Bool.or_comm, expLetter_beq]; exact h2
    by_cases hbd : b = ch '.'
    · rw [if_pos hbd]
      cases r with
      | nil => exact absurd ⟨hbd, rfl⟩ h1
      | cons c q =>
        have hb1 : byteAt (pre ++ b :: c :: q) (pre.length + 1) = .ok c := by
          rw [show pre ++ b :: c :: q = (pre ++ [b]) ++ c :: q by simp]; exact byteAt_at _ _ _ _ (by simp)
        have hc : (c == ch 'P' || c == ch 'p') = false := by
          rw [Bool.eq_false_iff, ne_eq, expLetter_beq]; exact fun h => h3 ⟨hbd, c, q, rfl, h⟩
        rw [hb1, Res.bind_ok, hc, hb2]; rfl
    · rw [if_neg hbd, hb2]; rfl
  rw [hen, Res.bind_ok]
  simp only [Bool.false_eq_true, if_false]
  have noexp : ∀ dot c e, (dot = [] ∨ dot = txt ".") → ExpLetter c → b :: r = dot ++ c :: e → False := by
    intro dot c e hd hc ht
    rcases hd with rfl | rfl
    · cases ht; exact h2 hc
    · cases ht; exact h3 ⟨rfl, c, e, rfl, hc⟩
  unfold hexfrac
  rw [isHex_eq, show pre ++ b :: r = (pre ++ [b]) ++ r by simp, show pre.length + 1 = (pre ++ [b]).length by simp]
  rcases digits_cut hexDigit r with h | ⟨p, q, rfl, hp, hq⟩
  · rw [digits_none _ _ _ _ h]
    refine ⟨_, rfl, ?_⟩
    simp only [Bool.false_eq_true, false_iff]
    rintro (he | ⟨dot, c', e, hd, hc', he, ht⟩ | ⟨b', f, e, -, -, hb', hf, -, ht⟩)
    · exact hdot he
    · exact noexp _ _ _ hd hc' ht
    · obtain ⟨d, x, rfl, hd, -⟩ := hf
      cases ht
      rw [h d rfl] at hd; cases hd
  · rw [digits_at _ _ _ _ _ hp hq]
    cases q with
    | nil =>
      simp only [if_true, Bool.not_true, Bool.false_eq_true, if_false]
      rw [if_pos (by simp; omega)]
      exact ⟨_, rfl, by simp only [true_iff]; exact .inr (.inr ⟨b, p, [], hb, hu, h2, hp, .inl rfl, rfl⟩)⟩
    | cons c q =>
      simp only [reduceCtorEq, if_false, Bool.not_true, Bool.false_eq_true]
      rw [if_neg (by simp; omega), show pre ++ [b] ++ (p ++ c :: q) = (pre ++ [b] ++ p) ++ c :: q by simp,
        byteAt_at _ _ _ _ (by simp; omega), Res.bind_ok]
      by_cases hc : ExpLetter c
      · rw [if_neg (by rcases hc with rfl | rfl <;> decide)]
        refine ⟨_, rfl, ?_⟩
        rw [show (pre ++ [b] ++ p) ++ c :: q = (pre ++ [b] ++ p ++ [c]) ++ q by simp, exponent_iff _ q _ (by simp; omega)]
        constructor
        · intro he
          exact .inr (.inr ⟨b, p, c :: q, hb, hu, h2, hp, .inr ⟨c, q, hc, he, rfl⟩, rfl⟩)
        · rintro (he | ⟨dot, c', e, hd, hc', he, ht⟩ | ⟨b', f, e, -, -, hb', hf, he, ht⟩)
          · exact absurd he hdot
          · exact (noexp _ _ _ hd hc' ht).elim
          · have hce : ∀ b, e.head? = some b → hexDigit b = false ∧ b ≠ ch '_' := by
              rcases he with rfl | ⟨c', x, hc', hx, rfl⟩
              · simp
              · intro y hy; cases hy; exact ⟨(expLetter_plain _ hc').1, (expLetter_plain _ hc').2.1⟩
            obtain ⟨-, he2⟩ := cut_unique hexDigit p f (c :: q) e (List.cons.inj ht).2 hp hf hq hce
            rcases he with rfl | ⟨c', x, hc', hx, rfl⟩
            · cases he2
            · cases he2; exact hx
      · rw [if_pos (by
          constructor
          · rintro rfl; exact hc (.inl rfl)
          · rintro rfl; exact hc (.inr rfl))]
        refine ⟨_, rfl, ?_⟩
        simp only [Bool.false_eq_true, false_iff]
        rintro (he | ⟨dot, c', e, hd, hc', he, ht⟩ | ⟨b', f, e, -, -, hb', hf, he, ht⟩)
        · exact hdot he
        · exact noexp _ _ _ hd hc' ht
        · have hce : ∀ b, e.head? = some b → hexDigit b = false ∧ b ≠ ch '_' := by
            rcases he with rfl | ⟨c', x, hc', hx, rfl⟩
            · simp
            · intro y hy; cases hy; exact ⟨(expLetter_plain _ hc').1, (expLetter_plain _ hc').2.1⟩
          obtain ⟨-, he2⟩ := cut_unique hexDigit p f (c :: q) e (List.cons.inj ht).2 hp hf hq hce
          rcases he with rfl | ⟨c', x, hc', hx, rfl⟩
          · cases he2
          · cases he2; exact hc hc'

theorem hexTail_head (t : List Byte) (h : HexTail t) : ∃ b r, t = b :: r ∧ hexDigit b = false ∧ b ≠ ch '_' := by
  rcases h with rfl | ⟨dot, c, e, rfl | rfl, hc, he, rfl⟩ | ⟨b, f, e, h1, h2, -, -, -, rfl⟩
  · exact ⟨ch '.', [], rfl, by decide, by decide⟩
  · exact ⟨c, e, rfl, (expLetter_plain c hc).1, (expLetter_plain c hc).2.1⟩
  · exact ⟨ch '.', c :: e, rfl, by decide, by decide⟩
  · exact ⟨b, _, rfl, h1, h2⟩

/-- A word with no digit first is no integer, whatever its sign. -/
theorem taken_head (body : List Byte) (h : TakenFloat body) :
    body ≠ [] ∧ body.head? ≠ some (ch '+') ∧ body.head? ≠ some (ch '-') := by
  rcases h with rfl | rfl | rfl | rfl | ⟨h, r, rfl, -⟩ | ⟨h, t, rfl, -⟩
  · exact ⟨by decide, by decide, by decide⟩
  · exact ⟨by decide, by decide, by decide⟩
  · exact ⟨by decide, by decide, by decide⟩
  · exact ⟨by decide, by decide, by decide⟩
  · exact ⟨by simp [txt], by simp [txt]; decide, by simp [txt]; decide⟩
  · exact ⟨by simp [txt], by simp [txt]; decide, by simp [txt]; decide⟩

/-- The classification of a word that is no integer. -/
theorem isFloat_unsigned (w : List Byte) (hi : isInteger w = false) : isFloat w = .ok true ↔ TakenFloat (unsigned w) := by
  have hint := hi
  rw [Bool.eq_false_iff, ne_eq, isInteger_unsigned] at hi
  unfold isFloat
  by_cases h0 : w.length = 0
  · rw [if_pos h0, List.length_eq_zero_iff.1 h0]
    have : ¬ TakenFloat (unsigned []) := fun h => (taken_head _ h).1 rfl
    simp [this]
  rw [if_neg h0]
  simp only
  generalize hs : unsigned w = s at *
  by_cases h1 : s = txt "inf"
  · rw [if_pos h1]; simp only [true_iff]; exact .inl h1
  rw [if_neg h1]
  by_cases h2 : s = txt "nan"
  · rw [if_pos h2]; simp only [true_iff]; exact .inr (.inl h2)
  rw [if_neg h2]
  by_cases h3 : s = txt "nan:arithmetic"
  · rw [if_pos h3]; simp only [true_iff]; exact .inr (.inr (.inl h3))
  rw [if_neg h3]
  by_cases h4 : s = txt "nan:canonical"
  · rw [if_pos h4]; simp only [true_iff]; exact .inr (.inr (.inr (.inl h4)))
  rw [if_neg h4]
  by_cases h5 : txt "nan:0x" <+: s
  · rw [if_pos (List.isPrefixOf_iff_prefix.2 h5)]
    obtain ⟨x, rfl⟩ := h5
    rw [List.drop_left' (by rfl)]
    have e : ((hexnum x 0).2 = true) ↔ ∃ h r, x = h :: r ∧ hexDigit h = true := by
      unfold hexnum
      rw [isHex_eq]
      rcases digits_cut hexDigit x with h | ⟨p, q, rfl, hp, hq⟩
      · have := digits_none hexDigit true [] x h
        simp only [List.nil_append, List.length_nil] at this
        rw [this]
        simp only [Bool.false_eq_true, false_iff]
        rintro ⟨c, r, rfl, hc⟩
        rw [h c rfl] at hc; cases hc
      · have := digits_at hexDigit true [] p q hp hq
        simp only [List.nil_append, List.length_nil] at this
        rw [this]
        obtain ⟨c, r, rfl, hc, -⟩ := hp
        simp only [ite_self, true_iff]
        exact ⟨c, _, rfl, hc⟩
    constructor
    · intro h
      obtain ⟨c, r, rfl, hc⟩ := e.1 (Res.ok.inj h)
      exact .inr (.inr (.inr (.inr (.inl ⟨c, r, rfl, hc⟩))))
    · rintro (h | h | h | h | ⟨c, r, h, hc⟩ | ⟨h, t, hh, -⟩)
      · exact absurd h h1
      · exact absurd h h2
      · exact absurd h h3
      · exact absurd h h4
      · rw [e.2 ⟨c, r, List.append_cancel_left h, hc⟩]
      · exfalso
        rw [List.append_assoc] at hh
        have := congrArg List.head? hh
        revert this
        simp [txt]; decide
  rw [if_neg (by rw [List.isPrefixOf_iff_prefix]; exact h5)]
  have hn : (num s 0).2 = false := by
    rw [Bool.eq_false_iff, ne_eq, num_iff]; exact fun hl => hi (.inl hl)
  have ef : float s 0 = .ok (0, false) := by unfold float; simp [hn]
  rw [ef, Res.bind_ok]
  simp only [Bool.false_eq_true, if_false]
  have restrict : TakenFloat s → ∃ h t, s = txt "0x" ++ h ++ t ∧ Loose hexDigit h ∧ HexTail t := by
    rintro (h | h | h | h | ⟨c, r, h, hc⟩ | h)
    · exact absurd h h1
    · exact absurd h h2
    · exact absurd h h3
    · exact absurd h h4
    · exact absurd ⟨_, h.symm⟩ h5
    · exact h
  by_cases h6 : txt "0x" <+: s
  · obtain ⟨x, rfl⟩ := h6
    rcases digits_cut hexDigit x with h | ⟨p, q, rfl, hp, hq⟩
    · have hz := digits_none hexDigit true (txt "0x") x h
      have hx : hexfloat (txt "0x" ++ x) 0 = .ok (2, false) := by
        unfold hexfloat hexnum
        rw [isHex_eq, List.isPrefixOf_iff_prefix.2 (List.prefix_append _ _), show 0 + 2 = (txt "0x").length from rfl, hz]
        rfl
      rw [hx, Res.bind_ok]
      simp only [Res.ok.injEq, Bool.false_eq_true, false_iff]
      intro ht
      obtain ⟨g, t, e, hg, -⟩ := restrict ht
      rw [List.append_assoc] at e
      obtain ⟨c, r, rfl, hc, -⟩ := hg
      rw [List.append_cancel_left e] at h
      rw [h c rfl] at hc; cases hc
    · cases q with
      | nil => exact absurd (.inr ⟨p ++ [], rfl, by rw [List.append_nil]; exact hp⟩) hi
      | cons b r =>
        obtain ⟨y, k1, k2⟩ := hexfloat_iff p r b hp (hq b rfl).1 (hq b rfl).2
        rw [← List.append_assoc, k1, Res.bind_ok]
        constructor
        · intro hy
          exact .inr (.inr (.inr (.inr (.inr ⟨p, b :: r, rfl, hp, k2.1 (Res.ok.inj hy)⟩))))
        · intro ht
          obtain ⟨g, t, e, hg, hT⟩ := restrict (by rw [← List.append_assoc]; exact ht)
          obtain ⟨b', r', rfl, hb', hu'⟩ := hexTail_head t hT
          rw [List.append_assoc] at e
          obtain ⟨rfl, e2⟩ := cut_unique hexDigit p g _ _ (List.append_cancel_left e) hp hg hq (by
            intro z hz; cases hz; exact ⟨hb', hu'⟩)
          rw [k2.2 (by rw [e2]; exact hT)]
  · have : (txt "0x").isPrefixOf s = false := by
      rw [Bool.eq_false_iff, ne_eq, List.isPrefixOf_iff_prefix]; exact h6
    unfold hexfloat
    rw [this]
    have hx : ¬ TakenFloat s := by
      intro ht
      obtain ⟨g, t, rfl, -⟩ := restrict ht
      exact h6 (by rw [List.append_assoc]; exact List.prefix_append _ _)
    simp only [hx, iff_false]
    intro h; cases h

/-- A taken word is no integer. -/
theorem taken_not_integer (sg body : List Byte) (hs : Sign sg) (h : TakenFloat body) : isInteger (sg ++ body) = false := by
  obtain ⟨k0, k1, k2⟩ := taken_head body h
  rw [Bool.eq_false_iff, ne_eq, isInteger_unsigned, unsigned_of sg body hs ⟨k1, k2⟩ k0]
  have nodigit : ∀ (c : Byte) (s : List Byte), digit c = false → c ≠ ch '0' →
      ¬ (Loose digit (c :: s) ∨ ∃ h, c :: s = txt "0x" ++ h ∧ Loose hexDigit h) := by
    rintro c s hc h0 (⟨b, r, he, hb, -⟩ | ⟨x, he, -⟩)
    · cases he; rw [hc] at hb; cases hb
    · exact h0 (List.cons.inj he).1
  rcases h with rfl | rfl | rfl | rfl | ⟨h, r, rfl, -⟩ | ⟨h, t, rfl, hh, ht⟩
  · exact nodigit (ch 'i') _ (by decide) (by decide)
  · exact nodigit (ch 'n') _ (by decide) (by decide)
  · exact nodigit (ch 'n') _ (by decide) (by decide)
  · exact nodigit (ch 'n') _ (by decide) (by decide)
  · exact nodigit (ch 'n') _ (by decide) (by decide)
  · rintro (⟨b, r, he, hb, hr⟩ | ⟨x, he, hx⟩)
    · have : ch 'x' ∈ r := by
        rw [← (List.cons.inj (show ch '0' :: (ch 'x' :: (h ++ t)) = b :: r by rw [← he]; simp [txt])).2]; simp
      rcases hr _ this with h | h <;> revert h <;> decide
    · rw [List.append_assoc] at he
      obtain ⟨b, r, rfl, hb, hu⟩ := hexTail_head t ht
      have := (cut_unique hexDigit h x (b :: r) [] (by rw [List.append_cancel_left he]; simp) hh hx
        (by intro z hz; cases hz; exact ⟨hb, hu⟩) (by simp)).2
      cases this

theorem float_word_iff (w : List Byte) : (isInteger w = false ∧ isFloat w = .ok true) ↔ FloatWord w := by
  constructor
  · rintro ⟨hi, hf⟩
    obtain ⟨sg, hs, hsplit⟩ := unsigned_split w
    exact ⟨sg, _, hs, hsplit, (isFloat_unsigned w hi).1 hf⟩
  · rintro ⟨sg, body, hs, rfl, h⟩
    have hi := taken_not_integer sg body hs h
    obtain ⟨q0, q1, q2⟩ := taken_head body h
    exact ⟨hi, (isFloat_unsigned _ hi).2 (by rw [unsigned_of sg body hs ⟨q1, q2⟩ q0]; exact h)⟩

/-- `classify` of a word. -/
theorem classify_iff (w : List Byte) (ty : TokenType) : classify .reserved w = .ok ty ↔ WordType w ty := by
  have hi : isInteger w = true ↔ IntegerWord w := isInteger_iff w
  have hf := float_word_iff w
  obtain ⟨f, e⟩ := isFloat_ok w
  have hm : isInteger (txt "module") = false ∧ isInteger (txt "component") = false := by decide +kernel
  have hn : isFloat (txt "module") = .ok false ∧ isFloat (txt "component") = .ok false := by decide +kernel
  unfold classify
  rw [if_pos rfl]
  by_cases c : isInteger w = true
  · rw [if_pos c]
    constructor
    · intro k; cases k; exact .integer (hi.1 c)
    · intro k
      cases k with
      | integer => rfl
      | float k => rw [(hf.2 k).1] at c; cases c
      | module k => rw [k, hm.1] at c; cases c
      | component k => rw [k, hm.2] at c; cases c
      | other k => exact absurd (hi.1 c) k
  · rw [if_neg c, e, Res.bind_ok]
    have c' : isInteger w = false := by simpa using c
    cases f with
    | true =>
      constructor
      · intro k; cases k; exact .float (hf.1 ⟨c', e⟩)
      · intro k
        cases k with
        | integer k => exact absurd (hi.2 k) c
        | float => rfl
        | module k => rw [k, hn.1] at e; cases e
        | component k => rw [k, hn.2] at e; cases e
        | other _ k => exact absurd (hf.1 ⟨c', e⟩) k
    | false =>
      have k2 : ¬ FloatWord w := fun k => by have := (hf.2 k).2; rw [e] at this; cases this
      have k1 : ¬ IntegerWord w := fun k => c (hi.2 k)
      simp only [Bool.false_eq_true, if_false]
      unfold keyword
      by_cases m1 : w = txt "module"
      · rw [if_pos m1]
        constructor
        · intro k; cases k; exact .module m1
        · intro k
          cases k with
          | integer k => exact absurd k k1
          | float k => exact absurd k k2
          | module => rfl
          | component k => rw [m1] at k; exact absurd k (by decide)
          | other _ _ k => exact absurd m1 k
      rw [if_neg m1]
      by_cases m2 : w = txt "component"
      · rw [if_pos m2]
        constructor
        · intro k; cases k; exact .component m2
        · intro k
          cases k with
          | integer k => exact absurd k k1
          | float k => exact absurd k k2
          | module k => exact absurd k m1
          | component => rfl
          | other _ _ _ k => exact absurd m2 k
      rw [if_neg m2]
      constructor
      · intro k; cases k; exact .other k1 k2 m1 m2
      · intro k
        cases k with
        | integer k => exact absurd k k1
        | float k => exact absurd k k2
        | module k => exact absurd k m1
        | component k => exact absurd k m2
        | other => rfl

/-- C70, the type of the token a word is returned as, for every word. -/
theorem word_types (w : List Byte) (hne : w ≠ []) (hw : ∀ b ∈ w, b ∈ wordChars) (hd : w.head? ≠ some (ch '$')) :
    ∃ t : Token, (nextTok (Lexer.new w)).1 = .ok t ∧ t.capture = w ∧ ∀ ty, t.type = ty ↔ WordType w ty := by
  obtain ⟨ty, k1, k2⟩ := word_token w hne hw hd
  refine ⟨_, k2, rfl, fun ty' => ?_⟩
  rw [← classify_iff, k1]
  exact ⟨fun h => by rw [← h], fun h => Res.ok.inj h⟩

example : txt "module" ≠ [] ∧ (∀ b ∈ txt "module", b ∈ wordChars) ∧ (txt "module").head? ≠ some (ch '$') ∧ WordType (txt "module") .module ∧
    WordType (txt "+1__0") .integer :=
  ⟨by decide, by decide, by decide, .module rfl,
    .integer ⟨txt "+", txt "1__0", .inr (.inl rfl), rfl, .inl ⟨_, _, rfl, by decide, by decide⟩⟩⟩

/-- C45, what is returned as a float: exactly the words whose part after an optional sign is `inf`, one of the NaNs, or
`0x`, digits and one of the tails of `HexTail`. -/
theorem float_words (w : List Byte) (hne : w ≠ []) (hw : ∀ b ∈ w, b ∈ wordChars) (hd : w.head? ≠ some (ch '$')) :
    ∃ t : Token, (nextTok (Lexer.new w)).1 = .ok t ∧ t.capture = w ∧
      (t.type = .float ↔ ∃ sg body, Sign sg ∧ w = sg ++ body ∧ TakenFloat body) := by
  obtain ⟨ty, k1, k2⟩ := word_token w hne hw hd
  refine ⟨_, k2, rfl, ?_⟩
  simp only
  constructor
  · rintro rfl
    have hi : isInteger w = false := by
      rw [Bool.eq_false_iff]
      intro hi
      rw [(classify_integer w).2 hi] at k1
      cases k1
    obtain ⟨sg, hs, hsplit⟩ := unsigned_split w
    exact ⟨sg, _, hs, hsplit, (isFloat_unsigned w hi).1 ((classify_float w hi).1 k1)⟩
  · rintro ⟨sg, body, hs, rfl, h⟩
    have hi := taken_not_integer sg body hs h
    obtain ⟨q0, q1, q2⟩ := taken_head body h
    have := (classify_float _ hi).2 ((isFloat_unsigned _ hi).2 (by rw [unsigned_of sg body hs ⟨q1, q2⟩ q0]; exact h))
    rw [k1] at this
    exact Res.ok.inj this

example : TakenFloat (txt "0x1_f.8p-10") ∧ TakenFloat (txt "0x1.p+3") ∧ TakenFloat (txt "nan:0xfz") ∧ (∀ b ∈ txt "-0x1_f.8p-10", b ∈ wordChars) := by
  refine ⟨.inr (.inr (.inr (.inr (.inr ⟨txt "1_f", txt ".8p-10", rfl, ⟨_, _, rfl, by decide, by decide⟩, ?_⟩)))),
    .inr (.inr (.inr (.inr (.inr ⟨txt "1", txt ".p+3", rfl, ⟨_, _, rfl, by decide, by decide⟩, ?_⟩)))),
    .inr (.inr (.inr (.inr (.inl ⟨ch 'f', txt "z", rfl, by decide⟩)))), by decide⟩
  · exact .inr (.inr ⟨ch '.', txt "8", txt "p-10", by decide, by decide, by unfold ExpLetter; decide,
      ⟨_, _, rfl, by decide, by decide⟩, .inr ⟨ch 'p', txt "-10", .inl rfl, ⟨txt "-", txt "10", .inr rfl,
      ⟨_, _, rfl, by decide, by decide⟩, rfl⟩, rfl⟩, rfl⟩)
  · exact .inr (.inl ⟨txt ".", ch 'p', txt "+3", .inr rfl, .inl rfl, ⟨txt "+", txt "3", .inl rfl,
      ⟨_, _, rfl, by decide, by decide⟩, rfl⟩, rfl⟩)

end Verif.Wat
