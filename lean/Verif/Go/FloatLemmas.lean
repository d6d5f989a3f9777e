import Verif.Go.Float
import Mathlib.Tactic.Linarith
import Mathlib.Tactic.FieldSimp
import Mathlib.Tactic.Ring
import Mathlib.Algebra.Order.Field.Basic

/-!
# Rounding gives the nearest number
-/

namespace Verif.Strconv

open Ieee

theorem magnitude_succ (f : Format) (b : Nat) : f.magnitude (b + 1) = f.magnitude b + 2 ^ (b / 2 ^ f.frac - 1) := by
  have hP : 0 < 2 ^ f.frac := Nat.two_pow_pos _
  unfold Format.magnitude
  generalize 2 ^ f.frac = P at *
  have hb := Nat.div_add_mod b P
  have hm := Nat.mod_lt b hP
  generalize b / P = e at *
  generalize b % P = m at *
  subst hb
  by_cases h : m + 1 < P
  · have h1 : (P * e + m + 1) / P = e := by
      rw [Nat.add_assoc, Nat.mul_add_div hP, Nat.div_eq_of_lt h, Nat.add_zero]
    have h2 : (P * e + m + 1) % P = m + 1 := by
      rw [Nat.add_assoc, Nat.mul_add_mod, Nat.mod_eq_of_lt h]
    rw [h1, h2]
    by_cases he : e = 0
    · subst he; simp
    · rw [if_neg he, if_neg he]; ring
  · obtain rfl : P = m + 1 := by omega
    have h1 : ((m + 1) * e + m + 1) / (m + 1) = e + 1 := by
      rw [show (m + 1) * e + m + 1 = (m + 1) * (e + 1) by ring]; exact Nat.mul_div_cancel_left _ hP
    have h2 : ((m + 1) * e + m + 1) % (m + 1) = 0 := by
      rw [show (m + 1) * e + m + 1 = (m + 1) * (e + 1) by ring]; exact Nat.mul_mod_right _ _
    rw [h1, h2, if_neg (by omega), Nat.add_sub_cancel, Nat.add_zero]
    by_cases he : e = 0
    · subst he; simp
    · rw [if_neg he]
      obtain ⟨e, rfl⟩ : ∃ k, e = k + 1 := ⟨e - 1, by omega⟩
      rw [Nat.add_sub_cancel, Nat.pow_succ]; ring

theorem magnitude_lt (f : Format) {b c : Nat} (h : b < c) : f.magnitude b < f.magnitude c := by
  induction c with
  | zero => omega
  | succ c ih =>
    have := magnitude_succ f c
    have hp : 0 < 2 ^ (c / 2 ^ f.frac - 1) := Nat.two_pow_pos _
    rcases Nat.lt_or_eq_of_le (Nat.le_of_lt_succ h) with h | rfl
    · have := ih h; omega
    · omega

theorem magnitude_le (f : Format) {b c : Nat} (h : b ≤ c) : f.magnitude b ≤ f.magnitude c := by
  rcases Nat.lt_or_eq_of_le h with h | rfl
  · exact Nat.le_of_lt (magnitude_lt f h)
  · exact Nat.le_refl _

/-- The number found is the one below, and the distance the one to the next. -/
theorem floorBits_spec (f : Format) (n : Nat) :
    f.magnitude (floorBits f n) = n / step f n * step f n ∧
    f.magnitude (floorBits f n + 1) = n / step f n * step f n + step f n ∧ 0 < step f n := by
  have hP : 0 < 2 ^ f.frac := Nat.two_pow_pos _
  rw [magnitude_succ]
  unfold floorBits step
  by_cases h : n < 2 ^ (f.frac + 1)
  · rw [if_pos h, if_pos h, Nat.div_one, Nat.mul_one]
    rw [Nat.pow_succ] at h
    have h1 : n / 2 ^ f.frac < 2 := by rw [Nat.div_lt_iff_lt_mul hP]; omega
    have hd := Nat.div_add_mod n (2 ^ f.frac)
    unfold Format.magnitude
    generalize n / 2 ^ f.frac = e at *
    match e, h1 with
    | 0, _ => simp at hd ⊢; omega
    | 1, _ => simp at hd ⊢; omega
  · rw [if_neg h, if_neg h]
    have hn : n ≠ 0 := by
      intro h0; subst h0; exact h (Nat.two_pow_pos _)
    have hL : f.frac + 1 ≤ n.log2 := (Nat.le_log2 hn).2 (by omega)
    have h1 := Nat.log2_self_le hn
    have h2 := Nat.lt_log2_self (n := n)
    obtain ⟨k, hk⟩ : ∃ k, n.log2 = f.frac + 1 + k := ⟨n.log2 - (f.frac + 1), by omega⟩
    rw [hk] at h1 h2 ⊢
    rw [show f.frac + 1 + k - f.frac = k + 1 by omega]
    have hq1 : 2 ^ f.frac ≤ n / 2 ^ (k + 1) := by
      rw [Nat.le_div_iff_mul_le (Nat.two_pow_pos _), ← Nat.pow_add]
      rwa [show f.frac + (k + 1) = f.frac + 1 + k by omega]
    have hq2 : n / 2 ^ (k + 1) < 2 ^ f.frac * 2 := by
      rw [Nat.div_lt_iff_lt_mul (Nat.two_pow_pos _), ← Nat.pow_succ, ← Nat.pow_add]
      rwa [show f.frac + 1 + (k + 1) = f.frac + 1 + k + 1 by omega]
    obtain ⟨m, hm⟩ : ∃ m, n / 2 ^ (k + 1) = 2 ^ f.frac + m := ⟨n / 2 ^ (k + 1) - 2 ^ f.frac, by omega⟩
    rw [hm] at hq2 ⊢
    have hm' : m < 2 ^ f.frac := by omega
    have e1 : ((k + 1) * 2 ^ f.frac + (2 ^ f.frac + m)) / 2 ^ f.frac = k + 2 := by
      rw [show (k + 1) * 2 ^ f.frac + (2 ^ f.frac + m) = 2 ^ f.frac * (k + 2) + m by ring, Nat.mul_add_div hP,
        Nat.div_eq_of_lt hm', Nat.add_zero]
    have e2 : ((k + 1) * 2 ^ f.frac + (2 ^ f.frac + m)) % 2 ^ f.frac = m := by
      rw [show (k + 1) * 2 ^ f.frac + (2 ^ f.frac + m) = 2 ^ f.frac * (k + 2) + m by ring, Nat.mul_add_mod,
        Nat.mod_eq_of_lt hm']
    unfold Format.magnitude
    rw [e1, e2, if_neg (by omega)]
    exact ⟨rfl, rfl, Nat.two_pow_pos _⟩

/-- Nearest to `x` smallest positive numbers, among all bits. -/
def Near (f : Format) (x : ℚ) (b : Nat) : Prop :=
  ∀ c, c ≠ b → |(f.magnitude b : ℚ) - x| < |(f.magnitude c : ℚ) - x| ∨ |(f.magnitude b : ℚ) - x| = |(f.magnitude c : ℚ) - x| ∧ b % 2 = 0

theorem round_near (f : Format) (a d : Nat) (hd : 0 < d) : Near f (a / d) (round f a d) := by
  obtain ⟨h1, h2, h3⟩ := floorBits_spec f (a / d)
  unfold round
  simp only
  have hstep := Nat.div_add_mod (a / d) (step f (a / d))
  have hmod := Nat.mod_lt (a / d) h3
  have hn1 : a / d * d ≤ a := Nat.div_mul_le_self a d
  have hn2 : a < (a / d + 1) * d := Nat.lt_mul_of_div_lt (Nat.lt_succ_self _) hd
  generalize floorBits f (a / d) = b at *
  generalize step f (a / d) = s at *
  rw [Nat.mul_comm s] at hstep
  generalize hlow : a / d / s * s = low at *
  have hl1 : low * d ≤ a := Nat.le_trans (Nat.mul_le_mul_right d (by omega)) hn1
  have hl2 : a < (low + s) * d := Nat.lt_of_lt_of_le hn2 (Nat.mul_le_mul_right d (by omega))
  have hd' : (0 : ℚ) < d := by exact_mod_cast hd
  -- the number, between the two
  have x1 : (low : ℚ) ≤ a / d := by rw [le_div_iff₀ hd']; exact_mod_cast hl1
  have x2 : (a : ℚ) / d < low + s := by rw [div_lt_iff₀ hd']; exact_mod_cast hl2
  have hsub : ((a - low * d : Nat) : ℚ) = a - low * d := by rw [Nat.cast_sub hl1]; push_cast; ring
  have below : ∀ c ≤ b, (f.magnitude c : ℚ) ≤ low := by
    intro c hc; rw [← h1]; exact_mod_cast magnitude_le f hc
  have below' : ∀ c < b, (f.magnitude c : ℚ) < low := by
    intro c hc; rw [← h1]; exact_mod_cast magnitude_lt f hc
  have above : ∀ c, b + 1 ≤ c → ((low : ℚ) + s) ≤ f.magnitude c := by
    intro c hc; have := magnitude_le f hc; rw [h2] at this; exact_mod_cast this
  have above' : ∀ c, b + 1 < c → ((low : ℚ) + s) < f.magnitude c := by
    intro c hc; have := magnitude_lt f hc; rw [h2] at this; exact_mod_cast this
  have key : (2 * ((a : ℚ) / d - low) < s ↔ 2 * (a - low * d) < s * d) ∧ ((s : ℚ) < 2 * ((a : ℚ) / d - low) ↔ s * d < 2 * (a - low * d)) := by
    have e : (a : ℚ) / d - low = (a - low * d) / d := by field_simp
    rw [e, ← mul_div_assoc, div_lt_iff₀ hd', lt_div_iff₀ hd', ← hsub]
    constructor <;> norm_cast
  have m1 : (f.magnitude b : ℚ) = low := by exact_mod_cast h1
  have m2 : (f.magnitude (b + 1) : ℚ) = low + s := by exact_mod_cast h2
  generalize (a : ℚ) / d = x at *
  have takeB : 2 * (x - low) < s ∨ 2 * (x - low) = s ∧ b % 2 = 0 → Near f x b := by
    intro hx c hc
    rw [m1, abs_of_nonpos (by linarith : (low : ℚ) - x ≤ 0)]
    rcases Nat.lt_or_gt_of_ne hc with hc | hc
    · have := below' c hc
      left
      rw [abs_of_nonpos (by linarith)]
      linarith
    · have h4 := above c hc
      rw [abs_of_nonneg (by linarith : 0 ≤ (f.magnitude c : ℚ) - x)]
      rcases hx with hx | ⟨hx, he⟩
      · left; linarith
      · rcases Nat.lt_or_eq_of_le (show b + 1 ≤ c from hc) with hc | rfl
        · have := above' c hc
          left; linarith
        · right
          rw [m2]
          exact ⟨by linarith, he⟩
  have takeC : (s : ℚ) < 2 * (x - low) ∨ 2 * (x - low) = s ∧ (b + 1) % 2 = 0 → Near f x (b + 1) := by
    intro hx c hc
    rw [m2, abs_of_nonneg (by linarith : 0 ≤ (low : ℚ) + s - x)]
    rcases Nat.lt_or_gt_of_ne hc with hc | hc
    · have h4 := below c (by omega)
      rw [abs_of_nonpos (by linarith : (f.magnitude c : ℚ) - x ≤ 0)]
      rcases hx with hx | ⟨hx, he⟩
      · left; linarith
      · rcases Nat.lt_or_eq_of_le (show c ≤ b by omega) with hc | rfl
        · have := below' c hc
          left; linarith
        · right
          rw [m1]
          exact ⟨by linarith, he⟩
    · have := above' c hc
      left
      rw [abs_of_nonneg (by linarith)]
      linarith
  by_cases k1 : 2 * (a - low * d) < s * d
  · rw [if_pos k1]
    exact takeB (.inl (key.1.2 k1))
  · rw [if_neg k1]
    by_cases k2 : s * d < 2 * (a - low * d)
    · rw [if_pos k2]
      exact takeC (.inl (key.2.2 k2))
    · rw [if_neg k2]
      have e : 2 * (x - low) = s := le_antisymm (not_lt.1 fun h => k2 (key.2.1 h)) (not_lt.1 fun h => k1 (key.1.1 h))
      rcases Nat.mod_two_eq_zero_or_one b with hb | hb
      · rw [hb]; exact takeB (.inr ⟨e, hb⟩)
      · rw [hb]; exact takeC (.inr ⟨e, by omega⟩)

/-- Rounding gives the nearest number, infinity if that is too large. -/
theorem round_nearest (f : Format) (a d : Nat) (hd : 0 < d) :
    f.Nearest ((a : ℚ) / d / 2 ^ f.scale) (min (round f a d) f.infinity) := by
  have hn := round_near f a d hd
  have hs : (0 : ℚ) < 2 ^ f.scale := by positivity
  have tr : ∀ c, |f.value c - (a : ℚ) / d / 2 ^ f.scale| = |(f.magnitude c : ℚ) - a / d| / 2 ^ f.scale := by
    intro c
    unfold Format.value
    rw [← sub_div, abs_div, abs_of_pos hs]
  refine ⟨Nat.min_le_right _ _, fun c hc hne => ?_⟩
  rw [tr, tr, div_lt_div_iff_of_pos_right hs, div_left_inj' (ne_of_gt hs)]
  by_cases h : round f a d ≤ f.infinity
  · rw [Nat.min_eq_left h] at hne ⊢
    exact hn c hne
  · have h' : f.infinity < round f a d := by omega
    rw [Nat.min_eq_right (by omega)] at hne ⊢
    have h1 := magnitude_lt f (show c < f.infinity by omega)
    have h2 := magnitude_lt f h'
    have h3 := hn f.infinity (by omega)
    have h1' : (f.magnitude c : ℚ) < f.magnitude f.infinity := by exact_mod_cast h1
    have h2' : (f.magnitude f.infinity : ℚ) < f.magnitude (round f a d) := by exact_mod_cast h2
    left
    -- the number is above infinity
    have hx : (f.magnitude f.infinity : ℚ) < a / d := by
      by_contra hx
      rw [not_lt] at hx
      rw [abs_of_nonneg (by linarith), abs_of_nonneg (by linarith)] at h3
      rcases h3 with h3 | ⟨h3, -⟩ <;> linarith
    rw [abs_of_neg (by linarith), abs_of_neg (by linarith)]
    linarith

/-- There is one nearest number only. -/
theorem nearest_unique (f : Format) (q : ℚ) (b c : Nat) (hb : f.Nearest q b) (hc : f.Nearest q c) : b = c := by
  by_contra hne
  wlog hlt : b < c generalizing b c
  · exact this c b hc hb (Ne.symm hne) (by omega)
  rcases hb.2 c hc.1 (Ne.symm hne) with h | ⟨h, h1⟩
  · rcases hc.2 b hb.1 hne with h' | ⟨h', -⟩
    · linarith
    · rw [h'] at h; exact lt_irrefl _ h
  · rcases hc.2 b hb.1 hne with h' | ⟨-, h2⟩
    · rw [h] at h'; exact lt_irrefl _ h'
    · have hs : (0 : ℚ) < 2 ^ f.scale := by positivity
      have mono : ∀ x y, x < y → f.value x < f.value y := by
        intro x y hxy
        unfold Format.value
        rw [div_lt_div_iff_of_pos_right hs]
        exact_mod_cast magnitude_lt f hxy
      have m1 := mono b (b + 1) (by omega)
      have m2 := mono (b + 1) c (by omega)
      have k := hb.2 (b + 1) (by have := hc.1; omega) (by omega)
      have hle : |f.value b - q| ≤ |f.value (b + 1) - q| := by rcases k with k | ⟨k, -⟩ <;> linarith
      rcases le_total q (f.value (b + 1)) with hq | hq
      · rw [abs_of_nonneg (show 0 ≤ f.value c - q by linarith)] at h
        rw [abs_of_nonneg (show 0 ≤ f.value (b + 1) - q by linarith)] at hle
        linarith
      · rw [abs_of_nonpos (show f.value b - q ≤ 0 by linarith)] at hle
        rw [abs_of_nonpos (show f.value (b + 1) - q ≤ 0 by linarith)] at hle
        linarith

/-- A number of the format is nearest to itself. -/
theorem nearest_self (f : Format) (b : Nat) (h : b ≤ f.infinity) : f.Nearest (f.value b) b := by
  have hs : (0 : ℚ) < 2 ^ f.scale := by positivity
  refine ⟨h, fun c _ hne => .inl ?_⟩
  rw [sub_self, abs_zero, abs_pos, sub_ne_zero]
  unfold Format.value
  rw [Ne, div_left_inj' (ne_of_gt hs)]
  intro e
  have e : f.magnitude c = f.magnitude b := by exact_mod_cast e
  rcases Nat.lt_or_gt_of_ne hne with h | h
  · have := magnitude_lt f h; omega
  · have := magnitude_lt f h; omega

/-- What is below infinity is not rounded to more than infinity. -/
theorem round_le (f : Format) (a d : Nat) (hd : 0 < d) (h : a ≤ d * f.magnitude f.infinity) : round f a d ≤ f.infinity := by
  by_contra hlt
  have hn := round_near f a d hd f.infinity (by omega)
  have h2' : (f.magnitude f.infinity : ℚ) < f.magnitude (round f a d) := by exact_mod_cast magnitude_lt f (by omega)
  have hd' : (0 : ℚ) < d := by exact_mod_cast hd
  have hx : (a : ℚ) / d ≤ f.magnitude f.infinity := by
    rw [div_le_iff₀ hd', mul_comm]; exact_mod_cast h
  rw [abs_of_nonneg (by linarith), abs_of_nonneg (by linarith)] at hn
  rcases hn with hn | ⟨hn, -⟩ <;> linarith

/-- A number with no more digits than the format has is rounded to itself. -/
theorem round_exact (f : Format) (m k : Nat) (h : m < 2 ^ (f.frac + 1)) : f.magnitude (round f (m * 2 ^ k) 1) = m * 2 ^ k := by
  obtain ⟨h1, -, h3⟩ := floorBits_spec f (m * 2 ^ k)
  have hdvd : step f (m * 2 ^ k) ∣ m * 2 ^ k := by
    unfold step
    split
    · exact Nat.one_dvd _
    · rename_i hge
      have hne : m * 2 ^ k ≠ 0 := by
        intro h0; rw [h0] at hge; exact hge (Nat.two_pow_pos _)
      have hlog : (m * 2 ^ k).log2 < f.frac + 1 + k := by
        rw [Nat.log2_lt hne, Nat.pow_add]
        exact Nat.mul_lt_mul_of_pos_right h (Nat.two_pow_pos _)
      exact Nat.dvd_trans (Nat.pow_dvd_pow 2 (by omega)) (Nat.dvd_mul_left _ _)
  have e : m * 2 ^ k / step f (m * 2 ^ k) * step f (m * 2 ^ k) = m * 2 ^ k := Nat.div_mul_cancel hdvd
  rw [e] at h1
  unfold round
  simp only [Nat.div_one, Nat.mul_one]
  rw [e, Nat.sub_self, Nat.mul_zero, if_pos h3, h1]

/-- The digits of a number of the format. -/
theorem magnitude_digits (f : Format) (b : Nat) : ∃ m k, f.magnitude b = m * 2 ^ k ∧ m < 2 ^ (f.frac + 1) := by
  have hP : 0 < 2 ^ f.frac := Nat.two_pow_pos _
  have hm := Nat.mod_lt b hP
  unfold Format.magnitude
  rw [Nat.pow_succ]
  split
  · exact ⟨b % 2 ^ f.frac, 0, by simp, by omega⟩
  · exact ⟨_, _, rfl, by omega⟩

/-- Widening keeps the sign and the value. -/
theorem widen_value (negative : Bool) (b : Nat) (h : b < single.infinity) :
    ∃ c, widen (single.signed negative b) = double.signed negative c ∧ c < double.infinity ∧ double.value c = single.value b := by
  have hlt : single.infinity < single.signBit := by decide
  have h1 : decide (single.signBit ≤ single.signed negative b) = negative := by
    unfold Format.signed
    cases negative with
    | false => simp; omega
    | true => simp
  have h2 : single.signed negative b % single.signBit = b := by
    unfold Format.signed
    cases negative with
    | false => simp only [Bool.false_eq_true, if_false]; exact Nat.mod_eq_of_lt (by omega)
    | true => simp only [if_true]; rw [Nat.add_mod_left]; exact Nat.mod_eq_of_lt (by omega)
  have hw : widen (single.signed negative b) =
      double.signed negative (round double (single.magnitude b * 2 ^ (double.scale - single.scale)) 1) := by
    unfold widen
    simp only
    rw [h1, h2, if_pos h]
  obtain ⟨m, k, hm, hk⟩ := magnitude_digits single b
  have hx := round_exact double m (k + (double.scale - single.scale))
    (Nat.lt_of_lt_of_le hk (Nat.pow_le_pow_right (by decide) (by decide)))
  rw [Nat.pow_add, ← Nat.mul_assoc, ← hm] at hx
  refine ⟨_, hw, ?_, ?_⟩
  · by_contra hge
    have g1 := magnitude_le double (not_lt.1 hge)
    rw [hx] at g1
    have g2 := magnitude_lt single h
    have e1 : double.magnitude double.infinity = 2 ^ 2098 := by decide +kernel
    have e2 : single.magnitude single.infinity = 2 ^ 277 := by decide +kernel
    rw [e1] at g1
    rw [e2] at g2
    have g3 : single.magnitude b * 2 ^ (double.scale - single.scale) < 2 ^ 277 * 2 ^ (double.scale - single.scale) :=
      Nat.mul_lt_mul_of_pos_right g2 (Nat.two_pow_pos _)
    have g4 : 2 ^ 277 * 2 ^ (double.scale - single.scale) < 2 ^ 2098 := by decide +kernel
    exact absurd (Nat.lt_of_le_of_lt g1 (Nat.lt_trans g3 g4)) (Nat.lt_irrefl _)
  · unfold Format.value
    rw [hx]
    have e : double.scale = (double.scale - single.scale) + single.scale := by decide
    rw [show (2 : ℚ) ^ double.scale = 2 ^ (double.scale - single.scale) * 2 ^ single.scale by rw [← pow_add, ← e]]
    push_cast
    have p1 : (2 : ℚ) ^ (double.scale - single.scale) ≠ 0 := by positivity
    have p2 : (2 : ℚ) ^ single.scale ≠ 0 := by positivity
    field_simp

/-- The conversion of an integer gives the nearest number. -/
theorem ofInt_nearest (f : Format) (z : Int) (h : z.natAbs * 2 ^ f.scale ≤ f.magnitude f.infinity) :
    ∃ b, f.Nearest (z.natAbs : ℚ) b ∧ ofInt f z = f.signed (z < 0) b := by
  have hr := round_le f (z.natAbs * 2 ^ f.scale) 1 Nat.one_pos (by simpa using h)
  have hn := round_nearest f (z.natAbs * 2 ^ f.scale) 1 Nat.one_pos
  rw [Nat.min_eq_left hr] at hn
  refine ⟨_, ?_, rfl⟩
  have hs : (2 : ℚ) ^ f.scale ≠ 0 := by positivity
  have e : ((z.natAbs * 2 ^ f.scale : Nat) : ℚ) / (1 : Nat) / 2 ^ f.scale = (z.natAbs : ℚ) := by
    push_cast; field_simp
  rwa [e] at hn

theorem parseFloat_returns (f : Format) (s : List Byte) : (∃ b, parseFloat f s = .ok b) ∨ parseFloat f s = .err := by
  unfold parseFloat
  simp only
  repeat' split
  all_goals first | exact .inl ⟨_, rfl⟩ | exact .inr rfl

end Verif.Strconv
