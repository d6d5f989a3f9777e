import Verif.Wat.ConstProps

/-!
# `strconv` reads exactly the numbers of the specification
-/

namespace Verif.Wat

open Spec

theorem digitOf_oct (b : Byte) (h : octDigit b = true) :
    b ≠ ch '_' ∧ Strconv.digitOf b = some (digitVal b) ∧ digitVal b < 8 := by
  revert b; decide

theorem digitOf_bin (b : Byte) (h : binDigit b = true) :
    b ≠ ch '_' ∧ Strconv.digitOf b = some (digitVal b) ∧ digitVal b < 2 := by
  revert b; decide

theorem digit_of_value (base : Nat) (d : Byte → Bool)
    (h : (base = 2 ∧ d = binDigit) ∨ (base = 8 ∧ d = octDigit) ∨ (base = 10 ∧ d = digit) ∨ (base = 16 ∧ d = hexDigit))
    (b : Byte) (k : Nat) (e : Strconv.digitOf b = some k) (hk : k < base) : d b = true := by
  have key : ∀ b : Byte, ∀ k ∈ Strconv.digitOf b, (k < 2 → binDigit b = true) ∧ (k < 8 → octDigit b = true) ∧
      (k < 10 → digit b = true) ∧ (k < 16 → hexDigit b = true) := by decide
  have := key b k e
  rcases h with ⟨rfl, rfl⟩ | ⟨rfl, rfl⟩ | ⟨rfl, rfl⟩ | ⟨rfl, rfl⟩
  · exact this.1 hk
  · exact this.2.1 hk
  · exact this.2.2.1 hk
  · exact this.2.2.2 hk

theorem digit_values (base : Nat) (d : Byte → Bool)
    (h : (base = 2 ∧ d = binDigit) ∨ (base = 8 ∧ d = octDigit) ∨ (base = 10 ∧ d = digit) ∨ (base = 16 ∧ d = hexDigit)) :
    ∀ b, d b = true → b ≠ ch '_' ∧ Strconv.digitOf b = some (digitVal b) ∧ digitVal b < base := by
  rcases h with ⟨rfl, rfl⟩ | ⟨rfl, rfl⟩ | ⟨rfl, rfl⟩ | ⟨rfl, rfl⟩
  · exact digitOf_bin
  · exact digitOf_oct
  · exact digitOf_dec
  · exact digitOf_hex

/-- The loop takes digits of the base only, and underscores if they are allowed. -/
theorem digitLoop_only (base max : Nat) (d : Byte → Bool) (under : Bool)
    (hd : ∀ b k, Strconv.digitOf b = some k → k < base → d b = true) (s : List Byte) (n v : Nat)
    (h : Strconv.digitLoop base max under s n = .ok v) : ∀ b ∈ s, d b = true ∨ (under = true ∧ b = ch '_') := by
  induction s generalizing n with
  | nil => intro b hb; cases hb
  | cons c s ih =>
    rw [Strconv.digitLoop] at h
    intro b hb
    by_cases hu : under = true ∧ c = ch '_'
    · rw [if_pos hu] at h
      rcases List.mem_cons.1 hb with rfl | hb
      · exact .inr hu
      · exact ih _ h b hb
    · rw [if_neg hu] at h
      cases e : Strconv.digitOf c with
      | none => rw [e] at h; cases h
      | some k =>
        rw [e] at h
        simp only at h
        split at h
        · cases h
        · split at h
          · cases h
          · rcases List.mem_cons.1 hb with rfl | hb
            · exact .inl (hd _ k e (by omega))
            · exact ih _ h b hb

/-- What the loop gives, exactly. -/
theorem digitLoop_iff (base max : Nat) (d : Byte → Bool)
    (h : (base = 2 ∧ d = binDigit) ∨ (base = 8 ∧ d = octDigit) ∨ (base = 10 ∧ d = digit) ∨ (base = 16 ∧ d = hexDigit))
    (s : List Byte) (v : Nat) : Strconv.digitLoop base max true s 0 = .ok v ↔
      (∀ b ∈ s, d b = true ∨ b = ch '_') ∧ v = value base s ∧ v ≤ max := by
  have hb : 1 ≤ base := by rcases h with ⟨rfl, -⟩ | ⟨rfl, -⟩ | ⟨rfl, -⟩ | ⟨rfl, -⟩ <;> omega
  constructor
  · intro e
    have hs : ∀ b ∈ s, d b = true ∨ b = ch '_' := fun b hbs =>
      (digitLoop_only base max d true (digit_of_value base d h) s 0 v e b hbs).imp id And.right
    rw [digitLoop_value d base max hb (digit_values base d h) s hs 0 (by omega)] at e
    change (if value base s ≤ max then Res.ok (value base s) else Res.err) = _ at e
    split at e
    · cases e; exact ⟨hs, rfl, by assumption⟩
    · cases e
  · rintro ⟨hs, rfl, hm⟩
    rw [digitLoop_value d base max hb (digit_values base d h) s hs 0 (by omega)]
    exact if_pos hm

/-! ## Underscores -/

theorem numeral_cons (d : Byte → Bool) (b : Byte) (s : List Byte) : Numeral d (b :: s) ↔ d b = true ∧ (s = [] ∨ Opened d s) := by
  constructor
  · intro h
    cases h with
    | one _ hb => exact ⟨hb, .inl rfl⟩
    | more _ _ hb h => exact ⟨hb, .inr (.inl h)⟩
    | under _ _ hb h => exact ⟨hb, .inr (.inr ⟨_, rfl, h⟩)⟩
  · rintro ⟨hb, rfl | h | ⟨r, rfl, h⟩⟩
    · exact .one _ hb
    · exact .more _ _ hb h
    · exact .under _ _ hb h

theorem under_is_no_digit (hex : Bool) :
    ¬((ch '0' ≤ ch '_' ∧ ch '_' ≤ ch '9') ∨ (hex = true ∧ ch 'a' ≤ Strconv.lower (ch '_') ∧ Strconv.lower (ch '_') ≤ ch 'f')) := by
  cases hex <;> decide

theorem numeral_not_under (d : Byte → Bool) (hu : d (ch '_') = false) (s : List Byte) : ¬ Numeral d (ch '_' :: s) := by
  rw [numeral_cons, hu]
  simp

/-- `underscoreOK` of digits and underscores. -/
theorem underLoop_iff (hex : Bool) (d : Byte → Bool) (hu : d (ch '_') = false)
    (hd : ∀ b, d b = true → digit b = true ∨ (hex = true ∧ hexDigit b = true)) (s : List Byte)
    (hs : ∀ b ∈ s, d b = true ∨ b = ch '_') :
    (Strconv.underLoop hex s .digit = true ↔ s = [] ∨ Opened d s) ∧
    (Strconv.underLoop hex s .under = true ↔ Numeral d s) ∧
    (Strconv.underLoop hex s .other = true ↔ s = [] ∨ Numeral d s) := by
  induction s with
  | nil =>
    refine ⟨⟨fun _ => .inl rfl, fun _ => rfl⟩, ⟨fun h => (by cases h), fun h => (by cases h)⟩, ⟨fun _ => .inl rfl, fun _ => rfl⟩⟩
  | cons c s ih =>
    obtain ⟨i1, i2, i3⟩ := ih fun b hb => hs b (List.mem_cons_of_mem _ hb)
    rcases hs c List.mem_cons_self with hc | rfl
    · have e : ∀ saw, Strconv.underLoop hex (c :: s) saw = Strconv.underLoop hex s .digit := by
        intro saw
        rw [Strconv.underLoop, if_pos (under_digit hex c (hd c hc))]
      have hn : Numeral d (c :: s) ↔ s = [] ∨ Opened d s := by rw [numeral_cons]; simp [hc]
      rw [e, e, e, i1]
      refine ⟨?_, hn.symm, ?_⟩
      · constructor
        · intro h; exact .inr (.inl (hn.2 h))
        · rintro (h | h | ⟨r, h, -⟩)
          · cases h
          · exact hn.1 h
          · rw [(List.cons.inj h).1, hu] at hc; cases hc
      · rw [hn]; simp
    · have hn := numeral_not_under d hu s
      have e : ∀ saw, Strconv.underLoop hex (ch '_' :: s) saw =
          if saw = .digit then Strconv.underLoop hex s .under else false := by
        intro saw
        rw [Strconv.underLoop, if_neg (under_is_no_digit hex), if_pos rfl]
      rw [e, e, e, if_pos rfl, if_neg (by decide), if_neg (by decide), i2]
      refine ⟨?_, by simp [hn], by simp [hn]⟩
      constructor
      · intro h; exact .inr (.inr ⟨s, rfl, h⟩)
      · rintro (h | h | ⟨r, h, k⟩)
        · cases h
        · exact absurd h hn
        · rw [(List.cons.inj h).2]; exact k

theorem opened_mem (d : Byte → Bool) (s : List Byte) (h : Opened d s) : ∀ b ∈ s, d b = true ∨ b = ch '_' := by
  rcases h with h | ⟨r, rfl, h⟩
  · exact numeral_mem d s h
  · intro b hb
    rcases List.mem_cons.1 hb with rfl | hb
    · exact .inr rfl
    · exact numeral_mem d r h b hb

theorem opened_ne (d : Byte → Bool) (s : List Byte) (h : Opened d s) : s ≠ [] := by
  rcases h with h | ⟨r, rfl, -⟩
  · cases h <;> simp
  · simp

/-! ## `ParseUint` -/

/-- Without underscores there is nothing to check. -/
theorem underLoop_none (hex : Bool) (d : Byte → Bool) (hd : ∀ b, d b = true → digit b = true ∨ (hex = true ∧ hexDigit b = true))
    (s : List Byte) (hs : ∀ b ∈ s, d b = true) (saw : Strconv.Saw) (h : saw ≠ .under) : Strconv.underLoop hex s saw = true := by
  induction s generalizing saw with
  | nil => rw [Strconv.underLoop]; exact decide_eq_true h
  | cons c s ih =>
    rw [Strconv.underLoop, if_pos (under_digit hex c (hd c (hs c List.mem_cons_self)))]
    exact ih (fun b hb => hs b (List.mem_cons_of_mem _ hb)) _ (by decide)

theorem parseUint_unfold (s : List Byte) (bits v : Nat) (hs : s ≠ []) : Strconv.parseUint s bits = .ok v ↔
    Strconv.digitLoop (Strconv.prefixBase s).1 (2 ^ bits - 1) true (Strconv.prefixBase s).2 0 = .ok v ∧
      (ch '_' ∈ s → Strconv.underscoreOK s = true) := by
  unfold Strconv.parseUint
  rw [if_neg hs]
  simp only
  cases e : Strconv.digitLoop (Strconv.prefixBase s).1 (2 ^ bits - 1) true (Strconv.prefixBase s).2 0 with
  | ok n =>
    rw [Res.bind_ok]
    by_cases hc : s.contains (ch '_') = true ∧ ¬ Strconv.underscoreOK s = true
    · rw [if_pos hc]
      constructor
      · intro h; cases h
      · rintro ⟨-, h⟩
        exact absurd (h (List.contains_iff_mem.1 hc.1)) hc.2
    · rw [if_neg hc]
      refine ⟨fun h => ⟨h, fun hm => ?_⟩, fun h => h.1⟩
      by_cases hk : Strconv.underscoreOK s = true
      · exact hk
      · exact absurd ⟨List.contains_iff_mem.2 hm, hk⟩ hc
  | err => exact ⟨fun h => (by cases h), fun h => (by cases h.1)⟩
  | panic => exact ⟨fun h => (by cases h), fun h => (by cases h.1)⟩
  | diverge => exact ⟨fun h => (by cases h), fun h => (by cases h.1)⟩

/-- A number after a prefix of two characters. -/
theorem parseUint_prefixed (base bits v : Nat) (d : Byte → Bool) (hex : Bool)
    (h : (base = 2 ∧ d = binDigit ∧ hex = false) ∨ (base = 8 ∧ d = octDigit ∧ hex = false) ∨ (base = 16 ∧ d = hexDigit ∧ hex = true))
    (c : Byte) (s : List Byte) (hs : s ≠ [])
    (hp : Strconv.prefixBase (ch '0' :: c :: s) = (base, s)) (hcu : c ≠ ch '_')
    (hu : Strconv.underscoreOK (ch '0' :: c :: s) = Strconv.underLoop hex s .digit) :
    Strconv.parseUint (ch '0' :: c :: s) bits = .ok v ↔ Opened d s ∧ v = value base s ∧ v < 2 ^ bits := by
  have hpos : 0 < 2 ^ bits := Nat.two_pow_pos bits
  have hb : (base = 2 ∧ d = binDigit) ∨ (base = 8 ∧ d = octDigit) ∨ (base = 10 ∧ d = digit) ∨ (base = 16 ∧ d = hexDigit) := by
    rcases h with ⟨h1, h2, -⟩ | ⟨h1, h2, -⟩ | ⟨h1, h2, -⟩
    · exact .inl ⟨h1, h2⟩
    · exact .inr (.inl ⟨h1, h2⟩)
    · exact .inr (.inr (.inr ⟨h1, h2⟩))
  have hdu : d (ch '_') = false := by rcases h with ⟨-, rfl, -⟩ | ⟨-, rfl, -⟩ | ⟨-, rfl, -⟩ <;> decide
  have hdd : ∀ b, d b = true → digit b = true ∨ (hex = true ∧ hexDigit b = true) := by
    rcases h with ⟨-, rfl, rfl⟩ | ⟨-, rfl, rfl⟩ | ⟨-, rfl, rfl⟩ <;> decide
  have hm : ch '_' ∈ ch '0' :: c :: s ↔ ch '_' ∈ s := by
    rw [List.mem_cons, List.mem_cons]
    exact ⟨fun h => h.resolve_left (by decide) |>.resolve_left (Ne.symm hcu), fun h => .inr (.inr h)⟩
  rw [parseUint_unfold _ _ _ (by simp), hp, hu, hm]
  simp only
  rw [digitLoop_iff base _ d hb]
  constructor
  · rintro ⟨⟨h1, h2, h3⟩, h4⟩
    refine ⟨?_, h2, by omega⟩
    by_cases hm : ch '_' ∈ s
    · exact ((underLoop_iff hex d hdu hdd s h1).1.1 (h4 hm)).resolve_left hs
    · have h1' : ∀ b ∈ s, d b = true := fun b hb => (h1 b hb).resolve_right fun e => hm (e ▸ hb)
      exact ((underLoop_iff hex d hdu hdd s h1).1.1 (underLoop_none hex d hdd s h1' _ (by decide))).resolve_left hs
  · rintro ⟨h1, h2, h3⟩
    have k := opened_mem d s h1
    exact ⟨⟨k, h2, by omega⟩, fun _ => (underLoop_iff hex d hdu hdd s k).1.2 (.inr h1)⟩

/-- A number with a 0 in front and no letter behind it. -/
theorem parseUint_octal (bits v : Nat) (s : List Byte) (hp : Strconv.prefixBase (ch '0' :: s) = (8, s))
    (hu : (∀ b ∈ s, octDigit b = true ∨ b = ch '_') → Strconv.underscoreOK (ch '0' :: s) = Strconv.underLoop false s .digit) :
    Strconv.parseUint (ch '0' :: s) bits = .ok v ↔ (s = [] ∨ Opened octDigit s) ∧ v = value 8 s ∧ v < 2 ^ bits := by
  have hpos : 0 < 2 ^ bits := Nat.two_pow_pos bits
  have hm : ch '_' ∈ ch '0' :: s ↔ ch '_' ∈ s := by
    rw [List.mem_cons]
    exact ⟨fun h => h.resolve_left (by decide), fun h => .inr h⟩
  have hdd : ∀ b, octDigit b = true → digit b = true ∨ (false = true ∧ hexDigit b = true) := by decide
  rw [parseUint_unfold _ _ _ (by simp), hp, hm]
  simp only
  rw [digitLoop_iff 8 _ octDigit (.inr (.inl ⟨rfl, rfl⟩))]
  constructor
  · rintro ⟨⟨h1, h2, h3⟩, h4⟩
    refine ⟨?_, h2, by omega⟩
    rw [hu h1] at h4
    by_cases hm : ch '_' ∈ s
    · exact (underLoop_iff false octDigit (by decide) hdd s h1).1.1 (h4 hm)
    · have h1' : ∀ b ∈ s, octDigit b = true := fun b hb => (h1 b hb).resolve_right fun e => hm (e ▸ hb)
      exact (underLoop_iff false octDigit (by decide) hdd s h1).1.1 (underLoop_none false octDigit hdd s h1' _ (by decide))
  · rintro ⟨h1, h2, h3⟩
    have k : ∀ b ∈ s, octDigit b = true ∨ b = ch '_' := by
      rcases h1 with rfl | h1
      · intro b hb; cases hb
      · exact opened_mem _ s h1
    refine ⟨⟨k, h2, by omega⟩, fun _ => ?_⟩
    rw [hu k]
    exact (underLoop_iff false octDigit (by decide) hdd s k).1.2 h1

/-- A number that begins with something else. -/
theorem parseUint_decimal (bits v : Nat) (s : List Byte) (hs : s ≠ []) (h0 : s.head? ≠ some (ch '0')) :
    Strconv.parseUint s bits = .ok v ↔ Numeral digit s ∧ v = value 10 s ∧ v < 2 ^ bits := by
  have hpos : 0 < 2 ^ bits := Nat.two_pow_pos bits
  have hp : Strconv.prefixBase s = (10, s) := by rw [Strconv.prefixBase, if_pos h0]
  have hu : Strconv.underscoreOK s = Strconv.underLoop false s .other := by
    unfold Strconv.underscoreOK
    simp only
    rw [if_neg (fun h => h0 h.1)]
  have hdd : ∀ b, digit b = true → digit b = true ∨ (false = true ∧ hexDigit b = true) := fun b h => .inl h
  rw [parseUint_unfold _ _ _ hs, hp, hu]
  simp only
  rw [digitLoop_iff 10 _ digit (.inr (.inr (.inl ⟨rfl, rfl⟩)))]
  constructor
  · rintro ⟨⟨h1, h2, h3⟩, h4⟩
    refine ⟨?_, h2, by omega⟩
    by_cases hm : ch '_' ∈ s
    · exact ((underLoop_iff false digit (by decide) hdd s h1).2.2.1 (h4 hm)).resolve_left hs
    · have h1' : ∀ b ∈ s, digit b = true := fun b hb => (h1 b hb).resolve_right fun e => hm (e ▸ hb)
      exact ((underLoop_iff false digit (by decide) hdd s h1).2.2.1 (underLoop_none false digit hdd s h1' _ (by decide))).resolve_left hs
  · rintro ⟨h1, h2, h3⟩
    have k := numeral_mem digit s h1
    exact ⟨⟨k, h2, by omega⟩, fun _ => (underLoop_iff false digit (by decide) hdd s k).2.2.2 (.inr h1)⟩

theorem lower_letters (c : Byte) : (Strconv.lower c = ch 'x' ↔ c = ch 'x' ∨ c = ch 'X') ∧
    (Strconv.lower c = ch 'o' ↔ c = ch 'o' ∨ c = ch 'O') ∧ (Strconv.lower c = ch 'b' ↔ c = ch 'b' ∨ c = ch 'B') := by
  revert c; decide

theorem letters_no_octal (c : Byte) (h : Strconv.lower c = ch 'x' ∨ Strconv.lower c = ch 'o' ∨ Strconv.lower c = ch 'b') :
    octDigit c = false ∧ c ≠ ch '_' := by
  revert c; decide

/-- `ParseUint` with base 0 reads exactly the numbers of the specification that fit. -/
theorem parseUint_iff (s : List Byte) (bits v : Nat) : Strconv.parseUint s bits = .ok v ↔ GoNat s v ∧ v < 2 ^ bits := by
  by_cases hs : s = []
  · subst hs
    refine ⟨fun h => (by cases h), ?_⟩
    rintro ⟨h, -⟩
    generalize e : ([] : List Byte) = w at h
    cases h with
    | decimal s h => subst e; cases h
    | _ => cases e
  by_cases h0 : s.head? = some (ch '0')
  · obtain ⟨t, rfl⟩ : ∃ t, s = ch '0' :: t := by
      cases s with
      | nil => cases h0
      | cons b t => rw [List.head?_cons] at h0; exact ⟨t, by rw [Option.some.inj h0]⟩
    by_cases hl : ∃ c r, t = c :: r ∧ (Strconv.lower c = ch 'x' ∨ Strconv.lower c = ch 'o' ∨ Strconv.lower c = ch 'b')
    · obtain ⟨c, r, rfl, hc⟩ := hl
      obtain ⟨n1, n2⟩ := letters_no_octal c hc
      have hoct : ¬ Opened octDigit (c :: r) := fun h => by
        rcases opened_mem _ _ h c List.mem_cons_self with h | h
        · rw [n1] at h; cases h
        · exact n2 h
      have hdec : ¬ (Numeral digit (ch '0' :: c :: r) ∧ (ch '0' :: c :: r).head? ≠ some (ch '0')) := fun h => h.2 rfl
      by_cases hr : r = []
      · subst hr
        rw [parseUint_octal bits v [c] (by
          unfold Strconv.prefixBase
          rw [if_neg (by simp), if_neg (by simp), if_neg (by simp), if_neg (by simp)]
          rfl) (fun h => by
            rcases h c List.mem_cons_self with h | h
            · rw [n1] at h; cases h
            · exact absurd h n2)]
        constructor
        · rintro ⟨h | h, -⟩
          · cases h
          · exact absurd h hoct
        · rintro ⟨h, -⟩
          generalize e : ch '0' :: [c] = w at h
          cases h with
          | decimal s h k0 => subst e; exact absurd rfl k0
          | zero => cases e
          | octal s h => cases e; exact absurd h hoct
          | hex c s _ h => cases e; exact absurd rfl (opened_ne _ _ h)
          | lettered c s _ h => cases e; exact absurd rfl (opened_ne _ _ h)
          | binary c s _ h => cases e; exact absurd rfl (opened_ne _ _ h)
      · have h3 : 3 ≤ (ch '0' :: c :: r).length := by
          have := List.length_pos_iff.2 hr
          simp only [List.length_cons]
          omega
        have hg : Option.map Strconv.lower (ch '0' :: c :: r)[1]? = some (Strconv.lower c) := rfl
        obtain ⟨lx, lo, lb⟩ := lower_letters c
        rcases hc with hc | hc | hc
        · rw [parseUint_prefixed 16 bits v hexDigit true (.inr (.inr ⟨rfl, rfl, rfl⟩)) c r hr (by
            unfold Strconv.prefixBase
            rw [hg, hc, if_neg (by simp), if_neg (fun h => absurd h.2 (by decide)), if_neg (fun h => absurd h.2 (by decide)),
              if_pos ⟨h3, rfl⟩]
            rfl) n2 (by
            unfold Strconv.underscoreOK
            simp only
            rw [hg, hc, if_pos ⟨rfl, .inr (.inr rfl)⟩]
            rfl)]
          constructor
          · rintro ⟨h1, rfl, h2⟩
            exact ⟨.hex c r (lx.1 hc) h1, h2⟩
          · rintro ⟨h, h2⟩
            generalize e : ch '0' :: c :: r = w at h
            cases h with
            | decimal s h k0 => subst e; exact absurd rfl k0
            | zero => cases e
            | octal s h => cases e; exact absurd h hoct
            | hex c s k h => cases e; exact ⟨h, rfl, h2⟩
            | lettered c s k h => cases e; exact absurd ((lo.2 k).symm.trans hc) (by decide)
            | binary c s k h => cases e; exact absurd ((lb.2 k).symm.trans hc) (by decide)
        · rw [parseUint_prefixed 8 bits v octDigit false (.inr (.inl ⟨rfl, rfl, rfl⟩)) c r hr (by
            unfold Strconv.prefixBase
            rw [hg, hc, if_neg (by simp), if_neg (fun h => absurd h.2 (by decide)), if_pos ⟨h3, rfl⟩]
            rfl) n2 (by
            unfold Strconv.underscoreOK
            simp only
            rw [hg, hc, if_pos ⟨rfl, .inr (.inl rfl)⟩]
            rfl)]
          constructor
          · rintro ⟨h1, rfl, h2⟩
            exact ⟨.lettered c r (lo.1 hc) h1, h2⟩
          · rintro ⟨h, h2⟩
            generalize e : ch '0' :: c :: r = w at h
            cases h with
            | decimal s h k0 => subst e; exact absurd rfl k0
            | zero => cases e
            | octal s h => cases e; exact absurd h hoct
            | hex c s k h => cases e; exact absurd ((lx.2 k).symm.trans hc) (by decide)
            | lettered c s k h => cases e; exact ⟨h, rfl, h2⟩
            | binary c s k h => cases e; exact absurd ((lb.2 k).symm.trans hc) (by decide)
        · rw [parseUint_prefixed 2 bits v binDigit false (.inl ⟨rfl, rfl, rfl⟩) c r hr (by
            unfold Strconv.prefixBase
            rw [hg, hc, if_neg (by simp), if_pos ⟨h3, rfl⟩]
            rfl) n2 (by
            unfold Strconv.underscoreOK
            simp only
            rw [hg, hc, if_pos ⟨rfl, .inl rfl⟩]
            rfl)]
          constructor
          · rintro ⟨h1, rfl, h2⟩
            exact ⟨.binary c r (lb.1 hc) h1, h2⟩
          · rintro ⟨h, h2⟩
            generalize e : ch '0' :: c :: r = w at h
            cases h with
            | decimal s h k0 => subst e; exact absurd rfl k0
            | zero => cases e
            | octal s h => cases e; exact absurd h hoct
            | hex c s k h => cases e; exact absurd ((lx.2 k).symm.trans hc) (by decide)
            | lettered c s k h => cases e; exact absurd ((lo.2 k).symm.trans hc) (by decide)
            | binary c s k h => cases e; exact ⟨h, rfl, h2⟩
    · have hnl : ∀ l, l = ch 'x' ∨ l = ch 'o' ∨ l = ch 'b' → Option.map Strconv.lower (ch '0' :: t)[1]? ≠ some l := by
        intro l hl' e
        cases t with
        | nil => cases e
        | cons c r =>
          have e' : Strconv.lower c = l := Option.some.inj e
          exact hl ⟨c, r, rfl, by rw [e']; exact hl'⟩
      rw [parseUint_octal bits v t (by
          unfold Strconv.prefixBase
          rw [if_neg (by simp), if_neg (fun h => hnl _ (.inr (.inr rfl)) h.2), if_neg (fun h => hnl _ (.inr (.inl rfl)) h.2),
            if_neg (fun h => hnl _ (.inl rfl) h.2)]
          rfl) (fun _ => by
          unfold Strconv.underscoreOK
          simp only
          rw [if_neg (by
            rintro ⟨-, h | h | h⟩
            · exact hnl _ (.inr (.inr rfl)) h
            · exact hnl _ (.inr (.inl rfl)) h
            · exact hnl _ (.inl rfl) h), Strconv.underLoop, if_pos (.inl (by decide))])]
      obtain ⟨lx, lo, lb⟩ : _ ∧ _ ∧ _ := ⟨fun c => (lower_letters c).1, fun c => (lower_letters c).2.1, fun c => (lower_letters c).2.2⟩
      constructor
      · rintro ⟨rfl | h, rfl, h2⟩
        · exact ⟨.zero, h2⟩
        · exact ⟨.octal t h, h2⟩
      · rintro ⟨h, h2⟩
        generalize e : ch '0' :: t = w at h
        cases h with
        | decimal s h k0 => subst e; exact absurd rfl k0
        | zero => cases e; exact ⟨.inl rfl, rfl, h2⟩
        | octal s h => cases e; exact ⟨.inr h, rfl, h2⟩
        | hex c s k h => cases e; exact absurd ⟨c, s, rfl, .inl ((lx c).2 k)⟩ hl
        | lettered c s k h => cases e; exact absurd ⟨c, s, rfl, .inr (.inl ((lo c).2 k))⟩ hl
        | binary c s k h => cases e; exact absurd ⟨c, s, rfl, .inr (.inr ((lb c).2 k))⟩ hl
  · rw [parseUint_decimal bits v s hs h0]
    constructor
    · rintro ⟨h, rfl, h2⟩
      exact ⟨.decimal s h h0, h2⟩
    · rintro ⟨h, h2⟩
      cases h with
      | decimal s h _ => exact ⟨h, rfl, h2⟩
      | _ => exact absurd rfl h0

theorem goNat_head (s : List Byte) (n : Nat) (h : GoNat s n) : ∃ b r, s = b :: r ∧ digit b = true := by
  cases h with
  | decimal s h => exact numeral_head _ _ h
  | zero => exact ⟨_, _, rfl, by decide⟩
  | octal => exact ⟨_, _, rfl, by decide⟩
  | hex => exact ⟨_, _, rfl, by decide⟩
  | lettered => exact ⟨_, _, rfl, by decide⟩
  | binary => exact ⟨_, _, rfl, by decide⟩

/-- The number of an integer token, exactly. -/
theorem integerValue_iff (w : List Byte) (v : Int) : integerValue w = .ok v ↔ ConstInt w v := by
  unfold ConstInt
  unfold integerValue
  by_cases hm : w.head? = some (ch '-')
  · obtain ⟨t, rfl⟩ : ∃ t, w = ch '-' :: t := by
      cases w with
      | nil => cases hm
      | cons b t => rw [List.head?_cons] at hm; exact ⟨t, by rw [Option.some.inj hm]⟩
    rw [if_pos hm]
    unfold Strconv.parseInt
    simp only [or_true, if_true]
    constructor
    · intro h
      cases e : Strconv.parseUint t 32 with
      | ok n =>
        rw [e, Res.bind_ok] at h
        split at h
        · cases h
        · cases h
          have := (parseUint_iff t 32 n).1 e
          exact ⟨.minus t n this.1, by omega, by omega⟩
      | err => rw [e] at h; cases h
      | panic => rw [e] at h; cases h
      | diverge => rw [e] at h; cases h
    · rintro ⟨h, h1, h2⟩
      generalize e : ch '-' :: t = w at h
      cases h with
      | plain s n h =>
        subst e
        obtain ⟨b, r, e, hb⟩ := goNat_head _ _ h
        rw [← (List.cons.inj e).1] at hb
        exact absurd hb (by decide)
      | minus s n h =>
        cases e
        rw [(parseUint_iff t 32 n).2 ⟨h, by omega⟩, Res.bind_ok, if_neg (by omega)]
  · rw [if_neg hm]
    constructor
    · intro h
      cases e : Strconv.parseUint w 32 with
      | ok n =>
        rw [e, Res.bind_ok] at h
        cases h
        have := (parseUint_iff w 32 n).1 e
        exact ⟨.plain w n this.1, by omega, by omega⟩
      | err => rw [e] at h; cases h
      | panic => rw [e] at h; cases h
      | diverge => rw [e] at h; cases h
    · rintro ⟨h, h1, h2⟩
      cases h with
      | plain s n h => rw [(parseUint_iff w 32 n).2 ⟨h, by omega⟩]; rfl
      | minus s n h => exact absurd rfl hm

/-! ## `Atoi` -/

theorem digitLoop_plain (max : Nat) (s : List Byte) (v : Nat) : Strconv.digitLoop 10 max false s 0 = .ok v ↔
    (∀ b ∈ s, digit b = true) ∧ v = value 10 s ∧ v ≤ max := by
  have hu : ∀ (s : List Byte) (n : Nat), (∀ c ∈ s, c ≠ ch '_') →
      Strconv.digitLoop 10 max false s n = Strconv.digitLoop 10 max true s n := by
    intro s
    induction s with
    | nil => intro n _; rfl
    | cons c s ih =>
      intro n hc
      rw [Strconv.digitLoop, Strconv.digitLoop, if_neg (by simp), if_neg (by simp [hc c (by simp)])]
      cases Strconv.digitOf c with
      | none => rfl
      | some d =>
        simp only
        rw [ih _ (fun x hx => hc x (by simp [hx]))]
  have h10 : (10 = 2 ∧ digit = binDigit) ∨ (10 = 8 ∧ digit = octDigit) ∨ (10 = 10 ∧ digit = digit) ∨ (10 = 16 ∧ digit = hexDigit) :=
    .inr (.inr (.inl ⟨rfl, rfl⟩))
  have hno : (∀ b ∈ s, digit b = true) → ∀ c ∈ s, c ≠ ch '_' := fun h c hc => (digit_values 10 digit h10 c (h c hc)).1
  constructor
  · intro e
    have h1 : ∀ b ∈ s, digit b = true := fun b hb =>
      (digitLoop_only 10 max digit false (digit_of_value 10 digit h10) s 0 v e b hb).resolve_right fun h => (by cases h.1)
    rw [hu s 0 (hno h1), digitLoop_iff 10 max digit h10] at e
    exact ⟨h1, e.2⟩
  · rintro ⟨h1, h2⟩
    rw [hu s 0 (hno h1), digitLoop_iff 10 max digit h10]
    exact ⟨fun b hb => .inl (h1 b hb), h2⟩

/-- `Atoi`, exactly. -/
theorem atoi_iff (w : List Byte) (v : Int) : Strconv.atoi w = .ok v ↔ IndexInt w v := by
  unfold IndexInt
  cases w with
  | nil =>
    refine ⟨fun h => (by cases h), ?_⟩
    rintro ⟨h, -⟩
    generalize e : ([] : List Byte) = w at h
    cases h with
    | none s h => exact absurd e.symm h
    | _ => cases e
  | cons b t =>
    unfold Strconv.atoi
    simp only
    by_cases hm : b = ch '-'
    · subst hm
      rw [if_pos (show ch '-' = ch '+' ∨ ch '-' = ch '-' from .inr rfl)]
      constructor
      · intro h
        split at h
        · cases h
        · rename_i ht
          cases e : Strconv.digitLoop 10 (2 ^ 64 - 1) false t 0 with
          | ok n =>
            rw [e, Res.bind_ok, if_pos rfl] at h
            split at h
            · cases h
            · cases h
              obtain ⟨h1, rfl, h3⟩ := (digitLoop_plain _ t n).1 e
              exact ⟨.minus t ht h1, by omega, by omega⟩
          | err => rw [e] at h; cases h
          | panic => rw [e] at h; cases h
          | diverge => rw [e] at h; cases h
      · rintro ⟨h, h1, h2⟩
        generalize e : ch '-' :: t = w at h
        cases h with
        | none s hs h => subst e; exact absurd (h _ List.mem_cons_self) (by decide)
        | plus s => cases e
        | minus s hs h =>
          cases e
          rw [if_neg hs, (digitLoop_plain _ t _).2 ⟨h, rfl, by omega⟩, Res.bind_ok, if_pos rfl, if_neg (by omega)]
    · by_cases hp : b = ch '+'
      · subst hp
        rw [if_pos (show ch '+' = ch '+' ∨ ch '+' = ch '-' from .inl rfl)]
        constructor
        · intro h
          split at h
          · cases h
          · rename_i ht
            cases e : Strconv.digitLoop 10 (2 ^ 64 - 1) false t 0 with
            | ok n =>
              rw [e, Res.bind_ok] at h
              split at h
              · cases h
              · cases h
                obtain ⟨h1, rfl, h3⟩ := (digitLoop_plain _ t n).1 e
                exact ⟨.plus t ht h1, by omega, by omega⟩
            | err => rw [e] at h; cases h
            | panic => rw [e] at h; cases h
            | diverge => rw [e] at h; cases h
        · rintro ⟨h, h1, h2⟩
          generalize e : ch '+' :: t = w at h
          cases h with
          | none s hs h => subst e; exact absurd (h _ List.mem_cons_self) (by decide)
          | minus s => cases e
          | plus s hs h =>
            cases e
            rw [if_neg hs, (digitLoop_plain _ t _).2 ⟨h, rfl, by omega⟩, Res.bind_ok, if_neg hm, if_neg (by omega)]
      · rw [if_neg (not_or.2 ⟨hp, hm⟩), if_neg (by simp)]
        constructor
        · intro h
          cases e : Strconv.digitLoop 10 (2 ^ 64 - 1) false (b :: t) 0 with
          | ok n =>
            rw [e, Res.bind_ok, if_neg hm] at h
            split at h
            · cases h
            · cases h
              obtain ⟨h1, rfl, h3⟩ := (digitLoop_plain _ _ n).1 e
              exact ⟨.none _ (by simp) h1, by omega, by omega⟩
          | err => rw [e] at h; cases h
          | panic => rw [e] at h; cases h
          | diverge => rw [e] at h; cases h
        · rintro ⟨h, h1, h2⟩
          generalize e : b :: t = w at h
          cases h with
          | minus s => cases e; exact absurd rfl hm
          | plus s => cases e; exact absurd rfl hp
          | none s hs h =>
            rw [(digitLoop_plain _ _ _).2 ⟨h, rfl, by omega⟩, Res.bind_ok, if_neg hm, if_neg (by omega)]

/-! ## Floating point constants -/

theorem isPrefixOf_iff (p s : List Byte) : p.isPrefixOf s = true ↔ p <+: s := List.isPrefixOf_iff_prefix

/-- The bits of a NaN, exactly. -/
theorem nanBits_iff (sg : List Byte) (hsg : sg = [] ∨ sg = txt "-") (s : List Byte) (v : U32) :
    nanBits (sg = txt "-") s = .ok v ↔
      (s.head? ≠ some (ch ':') ∧ v = nanMask sg) ∨ (s = txt ":" ∧ v = nanMask sg) ∨
      (txt ":canonical" <+: s ∧ v = 0xffc00000) ∨ (txt ":arithmetic" <+: s ∧ v = 0xffc00000) ∨
      ∃ t n, s = ch ':' :: t ∧ GoNat t n ∧ n < 2 ^ 32 ∧ v = BitVec.ofNat 32 n ||| nanMask sg := by
  have hmask : (if decide (sg = txt "-") = true then (0xff800000 : U32) else 0x7f800000) = nanMask sg := by
    unfold nanMask
    simp only [decide_eq_true_eq]
  unfold nanBits
  rw [hmask]
  simp only
  by_cases hc : s.head? = some (ch ':')
  · obtain ⟨t, rfl⟩ : ∃ t, s = ch ':' :: t := by
      cases s with
      | nil => cases hc
      | cons b t => rw [List.head?_cons] at hc; exact ⟨t, by rw [Option.some.inj hc]⟩
    rw [if_pos hc, List.drop_one, List.tail_cons]
    have hpre : ∀ p : List Byte, ch ':' :: p <+: ch ':' :: t ↔ p <+: t := fun p => List.cons_prefix_cons.trans (by simp)
    rw [show txt ":canonical" = ch ':' :: txt "canonical" from rfl, show txt ":arithmetic" = ch ':' :: txt "arithmetic" from rfl, hpre, hpre]
    by_cases h0 : t.length = 0
    · have := List.length_eq_zero_iff.1 h0
      subst this
      rw [if_pos List.length_nil]
      constructor
      · intro h; cases h; exact .inr (.inl ⟨rfl, rfl⟩)
      · rintro (⟨h, -⟩ | ⟨-, rfl⟩ | ⟨h, -⟩ | ⟨h, -⟩ | ⟨t, n, e, h, -⟩)
        · exact absurd rfl h
        · rfl
        · exact absurd (List.prefix_nil.1 h) (by decide)
        · exact absurd (List.prefix_nil.1 h) (by decide)
        · cases e
          obtain ⟨b, r, e, -⟩ := goNat_head _ _ h
          cases e
    · rw [if_neg h0]
      have hnil : ch ':' :: t ≠ txt ":" := fun e => h0 (by rw [(List.cons.inj e).2]; rfl)
      have hdig : ∀ n, GoNat t n → ¬ txt "canonical" <+: t ∧ ¬ txt "arithmetic" <+: t := by
        intro n h
        obtain ⟨b, r, rfl, hb⟩ := goNat_head _ _ h
        constructor
        · rintro ⟨q, e⟩
          have : ch 'c' = b := (List.cons.inj e).1
          subst this
          revert hb; decide
        · rintro ⟨q, e⟩
          have : ch 'a' = b := (List.cons.inj e).1
          subst this
          revert hb; decide
      by_cases h1 : txt "canonical" <+: t
      · rw [if_pos ((isPrefixOf_iff _ _).2 h1)]
        constructor
        · intro h; cases h; exact .inr (.inr (.inl ⟨h1, rfl⟩))
        · rintro (⟨h, -⟩ | ⟨h, -⟩ | ⟨-, rfl⟩ | ⟨-, rfl⟩ | ⟨t, n, e, h, -⟩)
          · exact absurd rfl h
          · exact absurd h hnil
          · rfl
          · rfl
          · cases e; exact absurd h1 (hdig n h).1
      · rw [if_neg (fun h => h1 ((isPrefixOf_iff _ _).1 h))]
        by_cases h2 : txt "arithmetic" <+: t
        · rw [if_pos ((isPrefixOf_iff _ _).2 h2)]
          constructor
          · intro h; cases h; exact .inr (.inr (.inr (.inl ⟨h2, rfl⟩)))
          · rintro (⟨h, -⟩ | ⟨h, -⟩ | ⟨-, rfl⟩ | ⟨-, rfl⟩ | ⟨t, n, e, h, -⟩)
            · exact absurd rfl h
            · exact absurd h hnil
            · rfl
            · rfl
            · cases e; exact absurd h2 (hdig n h).2
        · rw [if_neg (fun h => h2 ((isPrefixOf_iff _ _).1 h))]
          constructor
          · intro h
            cases e : Strconv.parseUint t 32 with
            | ok n =>
              rw [e, Res.bind_ok] at h
              cases h
              have := (parseUint_iff t 32 n).1 e
              exact .inr (.inr (.inr (.inr ⟨t, n, rfl, this.1, this.2, rfl⟩)))
            | err => rw [e] at h; cases h
            | panic => rw [e] at h; cases h
            | diverge => rw [e] at h; cases h
          · rintro (⟨h, -⟩ | ⟨h, -⟩ | ⟨h, -⟩ | ⟨h, -⟩ | ⟨t, n, e, h, hn, rfl⟩)
            · exact absurd rfl h
            · exact absurd h hnil
            · exact absurd h h1
            · exact absurd h h2
            · cases e
              rw [(parseUint_iff t 32 n).2 ⟨h, hn⟩, Res.bind_ok]
  · rw [if_neg hc]
    constructor
    · intro h; cases h; exact .inl ⟨hc, rfl⟩
    · rintro (⟨-, rfl⟩ | ⟨rfl, -⟩ | ⟨⟨q, rfl⟩, -⟩ | ⟨⟨q, rfl⟩, -⟩ | ⟨t, n, rfl, -⟩)
      · rfl
      · exact absurd rfl hc
      · exact absurd rfl hc
      · exact absurd rfl hc
      · exact absurd rfl hc

/-- What follows `nan` in the specification. -/
theorem constFloat32_nan (other : List Byte → U32 → Prop) (sg : List Byte) (hsg : sg = [] ∨ sg = txt "-") (s : List Byte) (v : U32) :
    ConstFloat32 other (sg ++ (txt "nan" ++ s)) v ↔
      (s.head? ≠ some (ch ':') ∧ v = nanMask sg) ∨ (s = txt ":" ∧ v = nanMask sg) ∨
      (txt ":canonical" <+: s ∧ v = 0xffc00000) ∨ (txt ":arithmetic" <+: s ∧ v = 0xffc00000) ∨
      ∃ t n, s = ch ':' :: t ∧ GoNat t n ∧ n < 2 ^ 32 ∧ v = BitVec.ofNat 32 n ||| nanMask sg := by
  have inj : ∀ sg' s', (sg' = [] ∨ sg' = txt "-") → sg ++ (txt "nan" ++ s) = sg' ++ (txt "nan" ++ s') → sg = sg' ∧ s = s' := by
    intro sg' s' h' e
    rcases hsg with rfl | rfl <;> rcases h' with rfl | rfl
    · exact ⟨rfl, List.append_cancel_left e⟩
    · cases e
    · cases e
    · exact ⟨rfl, List.append_cancel_left (List.append_cancel_left e)⟩
  constructor
  · intro h
    generalize e : sg ++ (txt "nan" ++ s) = w at h
    cases h with
    | number w v h1 h2 =>
      rcases hsg with rfl | rfl
      · exact absurd ⟨s, e⟩ h1
      · exact absurd ⟨s, e⟩ h2
    | nan sg' r h' hr => obtain ⟨rfl, rfl⟩ := inj sg' r h' e; exact .inl ⟨hr, rfl⟩
    | colon sg' h' => obtain ⟨rfl, rfl⟩ := inj sg' (txt ":") h' e; exact .inr (.inl ⟨rfl, rfl⟩)
    | canonical sg' r h' => obtain ⟨rfl, rfl⟩ := inj sg' (txt ":canonical" ++ r) h' e; exact .inr (.inr (.inl ⟨⟨r, rfl⟩, rfl⟩))
    | arithmetic sg' r h' =>
      obtain ⟨rfl, rfl⟩ := inj sg' (txt ":arithmetic" ++ r) h' e; exact .inr (.inr (.inr (.inl ⟨⟨r, rfl⟩, rfl⟩)))
    | payload sg' t n h' h hn =>
      obtain ⟨rfl, rfl⟩ := inj sg' (ch ':' :: t) h' e; exact .inr (.inr (.inr (.inr ⟨t, n, rfl, h, hn, rfl⟩)))
  · rintro (⟨h, rfl⟩ | ⟨rfl, rfl⟩ | ⟨⟨r, rfl⟩, rfl⟩ | ⟨⟨r, rfl⟩, rfl⟩ | ⟨t, n, rfl, h, hn, rfl⟩)
    · exact .nan sg s hsg h
    · exact .colon sg hsg
    · exact .canonical sg r hsg
    · exact .arithmetic sg r hsg
    · exact .payload sg t n hsg h hn

/-- The bits of a float token, exactly. -/
theorem float32Value_iff (lib : Lib) (w : List Byte) (v : U32) :
    float32Value lib w = .ok v ↔ ConstFloat32 (fun w v => lib.parseFloat32 w = .ok v) w v := by
  have hnan : ∀ sg, sg = [] ∨ sg = txt "-" → ∀ s, float32Value lib (sg ++ (txt "nan" ++ s)) = nanBits (sg = txt "-") s := by
    rintro sg (rfl | rfl) s <;> rfl
  by_cases h1 : txt "nan" <+: w
  · obtain ⟨s, rfl⟩ := h1
    have := hnan [] (.inl rfl) s
    rw [List.nil_append] at this
    rw [this, nanBits_iff [] (.inl rfl), ← constFloat32_nan (fun w v => lib.parseFloat32 w = .ok v) [] (.inl rfl)]
    rfl
  · by_cases h2 : txt "-nan" <+: w
    · obtain ⟨s, rfl⟩ := h2
      rw [show txt "-nan" ++ s = txt "-" ++ (txt "nan" ++ s) from rfl, hnan _ (.inr rfl), nanBits_iff _ (.inr rfl),
        ← constFloat32_nan (fun w v => lib.parseFloat32 w = .ok v) _ (.inr rfl)]
    · have e : float32Value lib w = lib.parseFloat32 w := by
        unfold float32Value
        simp only
        rw [if_neg]
        rw [isPrefixOf_iff]
        by_cases hm : w.head? = some (ch '-')
        · rw [if_pos (decide_eq_true hm)]
          cases w with
          | nil => cases hm
          | cons b t =>
            rw [List.head?_cons] at hm
            rw [Option.some.inj hm] at h2
            intro h
            exact h2 (List.cons_prefix_cons.2 ⟨rfl, h⟩)
        · rw [if_neg (by simpa using hm)]
          exact h1
      rw [e]
      constructor
      · intro h; exact .number w v h1 h2 h
      · intro h
        have key : ∀ sg s, (sg = [] ∨ sg = txt "-") → w ≠ sg ++ (txt "nan" ++ s) := by
          rintro sg s (rfl | rfl) rfl
          · exact h1 ⟨s, rfl⟩
          · exact h2 ⟨s, rfl⟩
        cases h with
        | number w v _ _ h => exact h
        | nan sg r h => exact absurd rfl (key sg r h)
        | colon sg h => exact absurd rfl (key sg (txt ":") h)
        | canonical sg r h => exact absurd rfl (key sg (txt ":canonical" ++ r) h)
        | arithmetic sg r h => exact absurd rfl (key sg (txt ":arithmetic" ++ r) h)
        | payload sg t n h => exact absurd rfl (key sg (txt ":" ++ t) h)

end Verif.Wat
