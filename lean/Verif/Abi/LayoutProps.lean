import Verif.Abi.Surface
import Mathlib.Data.Rat.Floor
import Mathlib.Algebra.Order.Floor.Ring
import Mathlib.Tactic.Linarith
import Mathlib.Tactic.NormNum
import Mathlib.Tactic.FieldSimp
import Mathlib.Tactic.Ring

/-!
# Properties of the layout functions (C09 - C13, C16)
-/

namespace Verif.Abi
open Spec

/-! ## C09 -/

/-- C09. `AlignTo(ptr, a)` is the least multiple of `a` not below `ptr`, for every nonzero `a` for which that
multiple is below 2^32. -/
theorem alignTo_least (ptr a : U32) (ha : a ≠ 0) (r : Nat) (hr : r < 2 ^ 32)
    (hdvd : a.toNat ∣ r) (hge : ptr.toNat ≤ r) (hleast : ∀ m, a.toNat ∣ m → ptr.toNat ≤ m → r ≤ m) :
    (alignTo ptr a).toNat = r := by
  have hpos : 0 < a.toNat := by
    rcases Nat.eq_zero_or_pos a.toNat with h | h
    · exact absurd (BitVec.eq_of_toNat_eq h) ha
    · exact h
  have h1 : alignUp ptr.toNat a.toNat ≤ r := alignUp_le hpos hdvd hge
  have h2 : r ≤ alignUp ptr.toNat a.toNat := hleast _ (alignUp_dvd _ _) (le_alignUp hpos)
  rw [alignTo_toNat_of_lt ptr a hpos (by omega)]
  omega

/-- The least multiple exists, so the hypotheses of `alignTo_least` are met at every address at most `2^32 - 8`
with every alignment in use. -/
example (ptr a : U32) (h : IsAl a.toNat) (hp : ptr.toNat ≤ 2 ^ 32 - 8) :
    ∃ r, r < 2 ^ 32 ∧ a.toNat ∣ r ∧ ptr.toNat ≤ r ∧ ∀ m, a.toNat ∣ m → ptr.toNat ≤ m → r ≤ m := by
  refine ⟨alignUp ptr.toNat a.toNat, ?_, alignUp_dvd _ _, le_alignUp h.pos, fun m h1 h2 => alignUp_le h.pos h1 h2⟩
  have h8 : a.toNat ∣ 2 ^ 32 - 8 := by rcases h with h | h | h | h <;> rw [h] <;> decide
  have := alignUp_le h.pos h8 hp
  omega

example : alignTo 13 8 = 16 := by decide

/-- `x` can be written with a 53-bit significand (the exponent range of a float64 is never exceeded here). -/
def Float53 (x : ℚ) : Prop := ∃ m e : ℤ, |m| < 2 ^ 53 ∧ x = m * (2 : ℚ) ^ e

/-- `y` is what rounding `x` to the nearest float64 gives, whatever the rule for ties. -/
def Rounds (x y : ℚ) : Prop := Float53 y ∧ ∀ z, Float53 z → |y - x| ≤ |z - x|

theorem Rounds.exact {x y : ℚ} (h : Rounds x y) (hx : Float53 x) : y = x := by
  have := h.2 x hx
  rw [sub_self, abs_zero] at this
  have := abs_nonpos_iff.1 this
  linarith

/-- C09, floating point. The code divides, rounds up and multiplies in float64. For the alignments in use
(powers of two up to 8) each rounding is exact, and the result is the exact least multiple. -/
theorem alignTo_float (ptr : U32) (j : Nat) (hj : j ≤ 3) (q r : ℚ)
    (hq : Rounds ((ptr.toNat : ℚ) / ((2 ^ j : Nat) : ℚ)) q) (hr : Rounds ((⌈q⌉ : ℚ) * ((2 ^ j : Nat) : ℚ)) r) :
    r = ((alignUp ptr.toNat (2 ^ j) : Nat) : ℚ) := by
  have hp : ptr.toNat < 2 ^ 32 := ptr.isLt
  have hjpos : (0 : ℚ) < ((2 ^ j : Nat) : ℚ) := by positivity
  have hq' : q = (ptr.toNat : ℚ) / ((2 ^ j : Nat) : ℚ) := by
    apply hq.exact
    refine ⟨ptr.toNat, -(j : ℤ), ?_, ?_⟩
    · rw [abs_of_nonneg (by positivity)]
      have : (ptr.toNat : ℤ) < 2 ^ 32 := by exact_mod_cast hp
      linarith [show (2 : ℤ) ^ 32 ≤ 2 ^ 53 by norm_num]
    · rw [zpow_neg, zpow_natCast]
      push_cast
      rw [div_eq_mul_inv]
  have hc : ⌈q⌉ = (((ptr.toNat + (2 ^ j - 1)) / 2 ^ j : Nat) : ℤ) := by
    rw [hq', Int.ceil_eq_iff]
    have h2 : 0 < 2 ^ j := Nat.two_pow_pos j
    have g1 := Nat.div_add_mod (ptr.toNat + (2 ^ j - 1)) (2 ^ j)
    have g2 := Nat.mod_lt (ptr.toNat + (2 ^ j - 1)) h2
    generalize hk : (ptr.toNat + (2 ^ j - 1)) / 2 ^ j = k at *
    generalize ha : 2 ^ j = a at *
    have b1 : a * k < ptr.toNat + a := by omega
    have b2 : ptr.toNat ≤ a * k := by omega
    have c1 : (a : ℚ) * k < ptr.toNat + a := by exact_mod_cast b1
    have c2 : (ptr.toNat : ℚ) ≤ a * k := by exact_mod_cast b2
    constructor
    · rw [lt_div_iff₀ hjpos]
      push_cast
      linarith
    · rw [div_le_iff₀ hjpos]
      push_cast
      linarith
  have hr' := hr.exact (by
    rw [hc]
    refine ⟨((alignUp ptr.toNat (2 ^ j) : Nat) : ℤ), 0, ?_, ?_⟩
    · rw [abs_of_nonneg (by positivity)]
      have h2 : 0 < 2 ^ j := Nat.two_pow_pos j
      have := alignUp_lt (n := ptr.toNat) h2
      have h3 : 2 ^ j ≤ 2 ^ 3 := Nat.pow_le_pow_right (by decide) hj
      have : alignUp ptr.toNat (2 ^ j) < 2 ^ 53 := by omega
      exact_mod_cast this
    · unfold alignUp
      push_cast
      ring)
  rw [hr', hc, Int.cast_natCast]
  unfold alignUp
  rw [Nat.cast_mul]

/-- Exact values are their own roundings, so the hypotheses of `alignTo_float` are met. -/
example : Rounds ((13 : ℚ) / 8) (13 / 8) := by
  refine ⟨⟨13, -3, by norm_num, by norm_num⟩, fun z _ => ?_⟩
  rw [sub_self, abs_zero]; exact abs_nonneg _

/-! ## C10 -/

/-- C10. Whenever `Size` succeeds, `Alignment` succeeds with 1, 2, 4 or 8 and divides the size. -/
theorem size_aligned (t : VT) (s : U32) (h : t.size = .ok s) :
    ∃ a, t.alignment = .ok a ∧ (a.toNat = 1 ∨ a.toNat = 2 ∨ a.toNat = 4 ∨ a.toNat = 8) ∧ a.toNat ∣ s.toNat := by
  rw [VT.size] at h
  rw [VT.alignment]
  generalize t.core = T at *
  have hl := laid_of_size T s h
  refine ⟨_, alignment_eq T hl, ?_, ?_⟩
  · rw [ofNat_toNat_isAl (align_isAl T)]; exact align_isAl T
  · rw [ofNat_toNat_isAl (align_isAl T)]
    cases T with
    | record fs =>
      rw [Abi.size] at h
      obtain ⟨s', -, h⟩ := Res.bind_eq_ok.1 h
      obtain ⟨a, h2, h⟩ := Res.bind_eq_ok.1 h
      have h3 := alignment_eq (.record fs) hl
      rw [Abi.alignment, h2] at h3
      injection h3 with h3
      injection h with h
      have := alignTo_dvd s' a (by rw [h3, ofNat_toNat_isAl (align_isAl _)]; exact align_isAl _)
      rwa [h, h3, ofNat_toNat_isAl (align_isAl _)] at this
    | variant cs =>
      rw [Abi.size] at h
      obtain ⟨dt, -, h⟩ := Res.bind_eq_ok.1 h
      obtain ⟨a, -, h⟩ := Res.bind_eq_ok.1 h
      obtain ⟨m, -, h⟩ := Res.bind_eq_ok.1 h
      obtain ⟨b, h2, h⟩ := Res.bind_eq_ok.1 h
      rw [alignment_eq (.variant cs) hl] at h2
      injection h2 with h2
      injection h with h
      have := alignTo_dvd (alignTo dt.bytes a + m) b
        (by rw [← h2, ofNat_toNat_isAl (align_isAl _)]; exact align_isAl _)
      rwa [h, ← h2, ofNat_toNat_isAl (align_isAl _)] at this
    | flags ls =>
      rw [Abi.size] at h
      injection h with h
      subst h
      rw [align, sizeFlags]
      by_cases h0 : ls.length = 0
      · rw [if_pos h0]; exact Nat.dvd_zero _
      by_cases h8 : ls.length ≤ 8
      · rw [if_pos h8, if_neg h0, if_pos h8]; decide
      by_cases h16 : ls.length ≤ 16
      · rw [if_neg h8, if_pos h16, if_neg h0, if_neg h8, if_pos h16]; decide
      · rw [if_neg h8, if_neg h16, if_neg h0, if_neg h8, if_neg h16, BitVec.toNat_mul]
        exact (Nat.dvd_mod_iff (by decide)).2 ⟨_, rfl⟩
    | nil => simp [Abi.size] at h
    | other => simp [Abi.size] at h
    | _ => simp only [Abi.size, Res.ok.injEq] at h; subst h; simp [align]

/-- A record with padding inside a list inside an option: size 24, alignment 8. -/
def sampleType : VT :=
  .option (.tuple (.cons .u8 (.cons .u64 (.cons (.list .string) .nil))))

example : sampleType.size = .ok 32 ∧ sampleType.alignment = .ok 8 := by decide

/-- C10, consequence: list elements laid end to end from an aligned address are all aligned. -/
theorem elements_aligned (t : VT) (s a ptr i : U32) (hs : t.size = .ok s) (ha : t.alignment = .ok a)
    (hp : a.toNat ∣ ptr.toNat) : a.toNat ∣ (ptr + i * s).toNat := by
  obtain ⟨a', h1, h2, h3⟩ := size_aligned t s hs
  rw [ha] at h1
  injection h1 with h1
  subst h1
  have h32 : a.toNat ∣ 2 ^ 32 := IsAl.dvd_pow32 h2
  rw [BitVec.toNat_add, BitVec.toNat_mul]
  refine (Nat.dvd_mod_iff h32).2 (Nat.dvd_add hp ((Nat.dvd_mod_iff h32).2 (Nat.dvd_mul_left_of_dvd h3 _)))

/-- `Size` succeeds exactly on the types that have a layout, and then returns the size of the specification
whenever that fits in 32 bits. -/
theorem size_refines (t : VT) : (Laid t.core ↔ ∃ s, t.size = .ok s)
    ∧ (Laid t.core → Spec.size t.core < 2 ^ 32 →
        t.size = .ok (BitVec.ofNat 32 (Spec.size t.core)) ∧ t.alignment = .ok (BitVec.ofNat 32 (align t.core))) :=
  ⟨⟨fun h => size_of_laid _ h, fun ⟨s, h⟩ => laid_of_size _ s h⟩,
    fun h1 h2 => ⟨size_eq _ h1 h2, alignment_eq _ h1⟩⟩

example : Laid sampleType.core ∧ Spec.size sampleType.core = 32 := by
  constructor
  · simp [sampleType, VT.core, Laid, LaidCases, LaidFields, VTys.fields, Cases.length]
  · decide

/-- `Alignment` reports success with the value 0 for a variant whose payload cannot be laid out
(alignment.go:80-83 drops the error). -/
theorem alignment_swallows_error : (VT.option .other).alignment = .ok 0 ∧ (VT.option .other).size = .err := by
  decide

/-! ## C11 -/

/-- `os` places the fields in order, each aligned, none overlapping an earlier one, the first at `s` or later. -/
def Placed : Fields → List Nat → Nat → Prop
  | .nil, [], _ => True
  | .cons _ t fs, o :: os, s => align t ∣ o ∧ s ≤ o ∧ Placed fs os (o + Spec.size t)
  | _, _, _ => False

theorem offsets_placed : (fs : Fields) → (s : Nat) → Placed fs (offsets fs s) s
  | .nil, _ => by simp [offsets, Placed]
  | .cons _ t fs, s => by
    rw [offsets, Placed]
    exact ⟨alignUp_dvd _ _, le_alignUp (align_isAl t).pos, offsets_placed fs _⟩

theorem offsets_least : (fs : Fields) → (os : List Nat) → (s s' : Nat) → s ≤ s' → Placed fs os s' →
    List.Forall₂ (· ≤ ·) (offsets fs s) os
  | .nil, [], _, _, _, _ => by rw [offsets]; exact .nil
  | .nil, _ :: _, _, _, _, h => by simp [Placed] at h
  | .cons _ _ _, [], _, _, _, h => by simp [Placed] at h
  | .cons _ t fs, o :: os, s, s', hs, h => by
    rw [Placed] at h
    rw [offsets]
    have h1 := alignUp_le (n := s) (align_isAl t).pos h.1 (by omega)
    exact .cons h1 (offsets_least fs os _ _ (by omega) h.2.2)

theorem fieldsEnd_mono : (fs : Fields) → (s s' : Nat) → s ≤ s' → fieldsEnd fs s ≤ fieldsEnd fs s'
  | .nil, _, _, h => by simpa [fieldsEnd] using h
  | .cons _ t fs, s, s', h => by
    rw [fieldsEnd, fieldsEnd]
    apply fieldsEnd_mono
    have := alignUp_le (n := s) (align_isAl t).pos (alignUp_dvd s' _)
      (Nat.le_trans h (le_alignUp (align_isAl t).pos))
    omega

theorem offsets_length : (fs : Fields) → (s : Nat) → (offsets fs s).length = fs.types.length
  | .nil, _ => rfl
  | .cons _ t fs, s => by simp [offsets, Fields.types, offsets_length fs]

theorem offsets_bounds : (fs : Fields) → (s : Nat) → (i : Nat) → (o : Nat) → (t : Ty) →
    (offsets fs s)[i]? = some o → fs.types[i]? = some t →
    align t ∣ o ∧ s ≤ o ∧ o + Spec.size t ≤ fieldsEnd fs s
      ∧ ∀ j o', i < j → (offsets fs s)[j]? = some o' → o + Spec.size t ≤ o'
  | .nil, _, _, _, _, h, _ => by simp [offsets] at h
  | .cons _ t fs, s, 0, o, t', h, h' => by
    simp only [offsets, Fields.types, List.getElem?_cons_zero, Option.some.injEq] at h h'
    subst h; subst h'
    refine ⟨alignUp_dvd _ _, le_alignUp (align_isAl t).pos, ?_, ?_⟩
    · rw [fieldsEnd]; exact fieldsEnd_ge _ _
    · intro j o' hj ho
      cases j with
      | zero => omega
      | succ j =>
        simp only [offsets, List.getElem?_cons_succ] at ho
        have hl : j < fs.types.length := by
          rw [← offsets_length fs (alignUp s (align t) + Spec.size t)]
          exact (List.getElem?_eq_some_iff.1 ho).1
        have := offsets_bounds fs _ j o' _ ho (List.getElem?_eq_getElem hl)
        exact this.2.1
  | .cons _ t fs, s, i + 1, o, t', h, h' => by
    simp only [offsets, Fields.types, List.getElem?_cons_succ] at h h'
    have := offsets_bounds fs _ i o t' h h'
    refine ⟨this.1, ?_, ?_, ?_⟩
    · have h1 := le_alignUp (n := s) (align_isAl t).pos
      omega
    · rw [fieldsEnd]; exact this.2.2.1
    · intro j o' hj ho
      cases j with
      | zero => omega
      | succ j =>
        simp only [offsets, List.getElem?_cons_succ] at ho
        exact this.2.2.2 j o' (by omega) ho

theorem fieldAddrs_eq : (fs : Fields) → LaidFields fs → (A : Nat) → IsAl A → alignFields fs ≤ A →
    (base s : Nat) → A ∣ base → base + fieldsEnd fs s < 2 ^ 32 →
    fieldAddrs fs (BitVec.ofNat 32 (base + s))
      = .ok ((offsets fs s).map fun o => BitVec.ofNat 32 (base + o))
  | .nil, _, _, _, _, _, _, _, _ => by simp [fieldAddrs, offsets]
  | .cons _ t fs, h, A, hA, hle, base, s, hb, hlt => by
    simp only [LaidFields] at h
    rw [alignFields] at hle
    rw [fieldsEnd] at hlt
    have g := fieldsEnd_ge fs (alignUp s (align t) + Spec.size t)
    have ha := align_isAl t
    have hd : align t ∣ base := Nat.dvd_trans (ha.dvd_of_le hA (by omega)) hb
    rw [fieldAddrs, alignment_eq t h.1, Res.bind_ok, size_eq t h.1 (by omega),
      alignTo_ofNat ha (by rw [alignUp_add ha.pos hd]; omega), Res.bind_ok, alignUp_add ha.pos hd,
      ← BitVec.ofNat_add, Nat.add_assoc, fieldAddrs_eq fs h.2 A hA (by omega) base _ hb hlt, offsets]
    simp

theorem align_le_alignFields : (fs : Fields) → (i : Nat) → (t : Ty) → fs.types[i]? = some t →
    align t ≤ alignFields fs
  | .nil, _, _, h => by simp [Fields.types] at h
  | .cons _ t' fs, 0, t, h => by
    simp only [Fields.types, List.getElem?_cons_zero, Option.some.injEq] at h
    subst h
    rw [alignFields]; omega
  | .cons _ t' fs, i + 1, t, h => by
    simp only [Fields.types, List.getElem?_cons_succ] at h
    have := align_le_alignFields fs i t h
    rw [alignFields]; omega

/-- C11. In a record placed at an aligned address (with its end below 2^32), the fields are visited at
`base + offset`, where the offsets are aligned, in order without overlap, inside the record, and pointwise the
least possible among all such placements.
Missing: records that do not end below `2 ^ 32`. -/
theorem record_fields_placed_partial (fs : Fields) (hl : LaidFields fs) (base : U32)
    (hb : align (.record fs) ∣ base.toNat) (hfit : base.toNat + Spec.size (.record fs) < 2 ^ 32) :
    ∃ os : List Nat,
      fieldAddrs fs base = .ok (os.map fun o => base + BitVec.ofNat 32 o)
      ∧ os.length = fs.types.length
      ∧ (∀ (i : Nat) o t, os[i]? = some o → fs.types[i]? = some t →
          align t ∣ base.toNat + o ∧ o + Spec.size t ≤ Spec.size (.record fs)
          ∧ ∀ (j : Nat) o', i < j → os[j]? = some o' → o + Spec.size t ≤ o')
      ∧ ∀ os', Placed fs os' 0 → List.Forall₂ (· ≤ ·) os os' := by
  rw [align] at hb
  have hA := alignFields_isAl fs
  have hsz : fieldsEnd fs 0 ≤ Spec.size (.record fs) := by rw [Spec.size]; exact le_alignUp hA.pos
  refine ⟨offsets fs 0, ?_, offsets_length fs 0, ?_, fun os' h => offsets_least fs os' 0 0 (Nat.le_refl _) h⟩
  · have := fieldAddrs_eq fs hl _ hA (Nat.le_refl _) base.toNat 0 hb (by omega)
    rw [Nat.add_zero, BitVec.ofNat_toNat, BitVec.setWidth_eq] at this
    rw [this]
    congr 1
    apply List.map_congr_left
    intro o _
    rw [BitVec.ofNat_add, BitVec.ofNat_toNat, BitVec.setWidth_eq]
  · intro i o t h1 h2
    have h := offsets_bounds fs 0 i o t h1 h2
    refine ⟨Nat.dvd_add ?_ h.1, by omega, h.2.2.2⟩
    have hle : align t ≤ alignFields fs := align_le_alignFields fs i t h2
    exact Nat.dvd_trans ((align_isAl t).dvd_of_le hA hle) hb

/-- Fields of alignment 1, 8, 2, 4 at address 64. -/
def sampleFields : Fields := .cons "a" .u8 (.cons "b" .f64 (.cons "c" .u16 (.cons "d" .string .nil)))

example : LaidFields sampleFields ∧ align (.record sampleFields) ∣ (64#32).toNat
    ∧ (64#32).toNat + Spec.size (.record sampleFields) < 2 ^ 32
    ∧ fieldAddrs sampleFields 64 = .ok [64, 72, 80, 84] := by
  refine ⟨?_, by decide, by decide, by decide⟩
  simp [sampleFields, LaidFields, Laid]

/-! ## C12 -/

/-- C12, proved part: up to 2^24 cases the discriminant has the least of 1, 2, 4 bytes that can hold every case
index, and no cases is an error. Missing: between 2^24 + 1 and 2^32 cases the code fails
(`discriminant_too_many_cases`) although four bytes would do. -/
theorem discriminant_minimal_partial (n : Nat) :
    (n = 0 → discriminantType n = .err)
    ∧ (1 ≤ n → n ≤ 2 ^ 24 → ∃ d, discriminantType n = .ok d
        ∧ (∀ i < n, i < 256 ^ d.bytes.toNat)
        ∧ ∀ b, (b = 1 ∨ b = 2 ∨ b = 4) → (∀ i < n, i < 256 ^ b) → d.bytes.toNat ≤ b) := by
  refine ⟨fun h => discriminantType_err n (.inl h), fun h1 h2 => ⟨_, discriminantType_eq n h1 h2, ?_, ?_⟩⟩
  · intro i hi
    split
    · show i < 256 ^ 1; omega
    · split
      · show i < 256 ^ 2; omega
      · show i < 256 ^ 4; omega
  · intro b hb hall
    have := hall (n - 1) (by omega)
    split
    · show 1 ≤ b; omega
    · split
      · show 2 ≤ b
        rcases hb with rfl | rfl | rfl <;> omega
      · show 4 ≤ b
        rcases hb with rfl | rfl | rfl <;> omega

example : discriminantType 257 = .ok .u16 ∧ discriminantType 256 = .ok .u8 := by decide

/-- The full statement of C12 fails: a variant with 2^24 + 1 cases is refused. -/
theorem discriminant_too_many_cases (n : Nat) (h : 2 ^ 24 < n) : discriminantType n = .err :=
  discriminantType_err n (.inr h)

example : (2 : Nat) ^ 24 < 2 ^ 24 + 1 ∧ 2 ^ 24 + 1 ≤ 2 ^ 32 := by decide

/-! ## C13 -/

/-- C13. Alignment, size and flattening of a specialised type are those of its expansion; the expansion is
stable. -/
theorem specialised_as_expansion (t : VT) :
    t.alignment = (despecialize t).alignment
    ∧ t.size = (despecialize t).size
    ∧ t.flatten = (despecialize t).flatten
    ∧ despecialize (despecialize t) = despecialize t := by
  refine ⟨?_, ?_, ?_, despecialize_idem t⟩
  · rw [VT.alignment, VT.alignment, core_despecialize]
  · rw [VT.size, VT.size, core_despecialize]
  · rw [VT.flatten, VT.flatten, core_despecialize]

/-- C13. What the expansions are. -/
theorem expansions (ts : VTys) (ls : List String) (t ok error : VT) :
    despecialize (.tuple ts) = .record (tupleFields 0 ts)
    ∧ despecialize (.union ts) = .variant (unionCases 0 ts)
    ∧ despecialize (.enum ls) = .variant (enumCases ls)
    ∧ despecialize (.option t) = .variant (.cons "none" .nil none (.cons "some" t none .nil))
    ∧ despecialize (.result ok error) = .variant (.cons "ok" ok none (.cons "error" error none .nil)) :=
  ⟨rfl, rfl, rfl, rfl, rfl⟩

/-- C13. The functions obey the equations the code is written with. -/
theorem code_equations (t : VT) :
    t.alignment = alignBody VT.alignment (despecialize t)
    ∧ t.size = sizeBody VT.size (despecialize t)
    ∧ t.flatten = flattenBody VT.flatten (despecialize t) :=
  ⟨alignment_code t, size_code t, flatten_code t⟩

/-! ## C16 -/

/-- Flattening a list of types concatenates the flattenings. -/
theorem flattenTypes_concat (ts : List Ty) (ks : List Kind) :
    flattenTypes ts = .ok ks ↔ ∃ kss : List (List Kind), List.Forall₂ (fun t k => flatten t = .ok k) ts kss ∧ ks = kss.flatten := by
  induction ts generalizing ks with
  | nil =>
    simp only [flattenTypes, Res.ok.injEq]
    constructor
    · rintro rfl; exact ⟨[], .nil, rfl⟩
    · rintro ⟨kss, h, rfl⟩; cases h; rfl
  | cons t ts ih =>
    simp only [flattenTypes, Res.bind_eq_ok, Res.ok.injEq]
    constructor
    · rintro ⟨k, h1, ks', h2, rfl⟩
      obtain ⟨kss, h3, rfl⟩ := (ih ks').1 h2
      exact ⟨k :: kss, .cons h1 h3, rfl⟩
    · rintro ⟨kss, h, rfl⟩
      cases h with
      | cons h1 h2 => exact ⟨_, h1, _, (ih _).2 ⟨_, h2, rfl⟩, rfl⟩

/-- C16. Core signatures of a component function whose types flatten to `ps` and `rs`. -/
theorem flattenFunc_limits (ft : FuncTy) (maxParams maxResults : Nat) (ps rs : List Kind)
    (hp : flattenTypes ft.params = .ok ps) (hr : flattenTypes ft.results = .ok rs) :
    flattenFuncLift ft maxParams maxResults
      = .ok (if ps.length ≤ maxParams then ps else [.u32], if rs.length ≤ maxResults then rs else [.u32])
    ∧ flattenFuncLower ft maxParams maxResults
      = .ok ((if ps.length ≤ maxParams then ps else [.u32]) ++ (if rs.length ≤ maxResults then [] else [.u32]),
             if rs.length ≤ maxResults then rs else [])
    ∧ (rs.length ≤ maxResults → flattenFuncLift ft maxParams maxResults = flattenFuncLower ft maxParams maxResults) := by
  have key : flattenFunc ft maxParams = .ok (if ps.length ≤ maxParams then ps else [.u32], rs) := by
    rw [flattenFunc, hp, Res.bind_ok, hr, Res.bind_ok]
    split <;> split <;> first | omega | rfl
  have hl : flattenFuncLift ft maxParams maxResults
      = .ok (if ps.length ≤ maxParams then ps else [.u32], if rs.length ≤ maxResults then rs else [.u32]) := by
    rw [flattenFuncLift, key]
    simp only [Res.bind_ok]
    by_cases h : rs.length ≤ maxResults
    · rw [if_neg (by omega), if_pos h]
    · rw [if_pos (by omega), if_neg h]
  have hw : flattenFuncLower ft maxParams maxResults
      = .ok ((if ps.length ≤ maxParams then ps else [.u32]) ++ (if rs.length ≤ maxResults then [] else [.u32]),
             if rs.length ≤ maxResults then rs else []) := by
    rw [flattenFuncLower, key]
    simp only [Res.bind_ok]
    by_cases h : rs.length ≤ maxResults
    · rw [if_neg (by omega), if_pos h, if_pos h, List.append_nil]
    · rw [if_pos (by omega), if_neg h, if_neg h]
  refine ⟨hl, hw, fun h => ?_⟩
  rw [hl, hw, if_pos h, if_pos h, if_pos h, List.append_nil]

/-- C16. If some parameter or result type cannot be flattened, neither can the function type. -/
theorem flattenFunc_error (ft : FuncTy) (maxParams maxResults : Nat)
    (h : flattenTypes ft.params = .err ∨ (∃ ps, flattenTypes ft.params = .ok ps) ∧ flattenTypes ft.results = .err) :
    flattenFuncLift ft maxParams maxResults = .err ∧ flattenFuncLower ft maxParams maxResults = .err := by
  have key : flattenFunc ft maxParams = .err := by
    rcases h with h | ⟨⟨ps, h1⟩, h2⟩
    · rw [flattenFunc, h]; rfl
    · rw [flattenFunc, h1, Res.bind_ok, h2]; rfl
  exact ⟨by rw [flattenFuncLift, key]; rfl, by rw [flattenFuncLower, key]; rfl⟩

/-- A function of a string and a variant returning a pair, with limits 16 and 1. -/
example :
    let ft : FuncTy := ⟨[.string, (VT.option .f64).core], [.string]⟩
    flattenTypes ft.params = .ok [.u32, .u32, .u32, .f64] ∧ flattenTypes ft.results = .ok [.u32, .u32]
    ∧ flattenFuncLower ft 16 1 = .ok ([.u32, .u32, .u32, .f64, .u32], []) := by decide

example : flattenTypes [Ty.other] = .err := by decide

end Verif.Abi
