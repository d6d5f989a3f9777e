import Verif.Abi.LayoutSpec

/-! Helper lemmas about layout. -/

namespace Verif.Abi
open Spec

/-- The alignments that occur. -/
def IsAl (a : Nat) : Prop := a = 1 ∨ a = 2 ∨ a = 4 ∨ a = 8

theorem IsAl.pos {a : Nat} (h : IsAl a) : 0 < a := by rcases h with h | h | h | h <;> omega
theorem IsAl.le {a : Nat} (h : IsAl a) : a ≤ 8 := by rcases h with h | h | h | h <;> omega

theorem IsAl.max {a b : Nat} (ha : IsAl a) (hb : IsAl b) : IsAl (max a b) := by
  rcases ha with h | h | h | h <;> rcases hb with h' | h' | h' | h' <;> subst h <;> subst h' <;> simp [IsAl]

theorem IsAl.dvd_max_left {a b : Nat} (ha : IsAl a) (hb : IsAl b) : a ∣ Max.max a b := by
  rcases ha with h | h | h | h <;> rcases hb with h' | h' | h' | h' <;> subst h <;> subst h' <;> decide

theorem IsAl.dvd_max_right {a b : Nat} (ha : IsAl a) (hb : IsAl b) : b ∣ Max.max a b := by
  rw [Nat.max_comm]; exact hb.dvd_max_left ha

theorem IsAl.dvd_of_le {a b : Nat} (ha : IsAl a) (hb : IsAl b) (h : a ≤ b) : a ∣ b := by
  have := ha.dvd_max_left hb
  rwa [Nat.max_eq_right h] at this

theorem IsAl.dvd_pow32 {a : Nat} (h : IsAl a) : a ∣ 2 ^ 32 := by
  rcases h with h | h | h | h <;> subst h <;> decide

/-! ### alignUp -/

theorem alignUp_dvd (n a : Nat) : a ∣ alignUp n a := ⟨(n + (a - 1)) / a, by simp [alignUp, Nat.mul_comm]⟩

theorem le_alignUp {n a : Nat} (h : 0 < a) : n ≤ alignUp n a := by
  have h1 := Nat.div_add_mod (n + (a - 1)) a
  have h2 := Nat.mod_lt (n + (a - 1)) h
  have h3 : (n + (a - 1)) / a * a = a * ((n + (a - 1)) / a) := Nat.mul_comm _ _
  unfold alignUp
  omega

theorem alignUp_lt {n a : Nat} (h : 0 < a) : alignUp n a < n + a := by
  have h1 := Nat.div_add_mod (n + (a - 1)) a
  have h3 : (n + (a - 1)) / a * a = a * ((n + (a - 1)) / a) := Nat.mul_comm _ _
  unfold alignUp
  omega

theorem alignUp_le {n a m : Nat} (h : 0 < a) (hd : a ∣ m) (hm : n ≤ m) : alignUp n a ≤ m := by
  obtain ⟨k, rfl⟩ := hd
  unfold alignUp
  have : (n + (a - 1)) / a < k + 1 := by
    rw [Nat.div_lt_iff_lt_mul h, Nat.succ_mul, Nat.mul_comm k a]
    omega
  rw [Nat.mul_comm a k]
  exact Nat.mul_le_mul_right _ (by omega)

theorem alignUp_of_dvd {n a : Nat} (h : 0 < a) (hd : a ∣ n) : alignUp n a = n :=
  Nat.le_antisymm (alignUp_le h hd (Nat.le_refl n)) (le_alignUp h)

theorem alignUp_add {b n a : Nat} (h : 0 < a) (hb : a ∣ b) : alignUp (b + n) a = b + alignUp n a := by
  obtain ⟨k, rfl⟩ := hb
  unfold alignUp
  have : a * k + n + (a - 1) = n + (a - 1) + a * k := by omega
  rw [this, Nat.add_mul_div_left _ _ h, Nat.add_mul, Nat.mul_comm k a]
  omega

/-! ### alignTo -/

theorem alignTo_toNat (ptr a : U32) (h : 0 < a.toNat) :
    (alignTo ptr a).toNat = alignUp ptr.toNat a.toNat % 2 ^ 32 := by
  unfold alignTo alignUp
  rw [BitVec.toNat_ofNat]
  congr 4
  omega

theorem alignTo_zero (ptr : U32) : alignTo ptr 0 = 0 := by
  simp [alignTo]

theorem alignTo_toNat_of_lt (ptr a : U32) (h : 0 < a.toNat) (hl : alignUp ptr.toNat a.toNat < 2 ^ 32) :
    (alignTo ptr a).toNat = alignUp ptr.toNat a.toNat := by
  rw [alignTo_toNat ptr a h, Nat.mod_eq_of_lt hl]

/-- `ptr != align` in the code is exactly misalignment. -/
theorem alignTo_eq_iff (ptr a : U32) (h : IsAl a.toNat) : ptr = alignTo ptr a ↔ a.toNat ∣ ptr.toNat := by
  constructor
  · intro he
    rw [he, alignTo_toNat ptr a h.pos]
    have h1 := alignUp_dvd ptr.toNat a.toNat
    exact (Nat.dvd_mod_iff h.dvd_pow32).2 h1
  · intro hd
    apply BitVec.eq_of_toNat_eq
    rw [alignTo_toNat ptr a h.pos, alignUp_of_dvd h.pos hd, Nat.mod_eq_of_lt ptr.isLt]

theorem umax_toNat (a b : U32) : (umax a b).toNat = max a.toNat b.toNat := by
  unfold umax; split <;> omega

/-! ### Discriminant -/

theorem ceilLog2_le_iff (n k : Nat) : ceilLog2 n ≤ k ↔ n ≤ 2 ^ k := by
  unfold ceilLog2
  split
  · rename_i h
    have := Nat.one_le_two_pow (n := k)
    constructor <;> intro <;> omega
  · rename_i h
    have h1 : n - 1 ≠ 0 := by omega
    have h2 : Nat.log2 (n - 1) < k ↔ n - 1 < 2 ^ k := Nat.log2_lt h1
    constructor <;> intro h3
    · have := h2.1 (by omega); omega
    · have := h2.2 (by omega); omega

theorem discriminantType_eq (n : Nat) (h1 : 1 ≤ n) (h2 : n ≤ 2 ^ 24) :
    discriminantType n = .ok (if n ≤ 2 ^ 8 then .u8 else if n ≤ 2 ^ 16 then .u16 else .u32) := by
  unfold discriminantType
  have h8 := ceilLog2_le_iff n 8
  have h16 := ceilLog2_le_iff n 16
  have h24 := (ceilLog2_le_iff n 24).2 h2
  have h0 : ¬¬(0 < n ∧ n < 2 ^ 63 - 1) := by omega
  rw [if_neg h0]
  by_cases c8 : n ≤ 2 ^ 8
  · have := h8.2 c8
    rw [if_pos c8]
    have : (ceilLog2 n + 7) / 8 = 0 ∨ (ceilLog2 n + 7) / 8 = 1 := by omega
    rcases this with h | h <;> simp [h]
  · rw [if_neg c8]
    have n8 : ¬ ceilLog2 n ≤ 8 := fun h => c8 (h8.1 h)
    by_cases c16 : n ≤ 2 ^ 16
    · have := h16.2 c16
      rw [if_pos c16]
      have h : (ceilLog2 n + 7) / 8 = 2 := by omega
      simp [h]
    · rw [if_neg c16]
      have n16 : ¬ ceilLog2 n ≤ 16 := fun h => c16 (h16.1 h)
      have h : (ceilLog2 n + 7) / 8 = 3 := by omega
      simp [h]

theorem discriminantType_err (n : Nat) (h : n = 0 ∨ 2 ^ 24 < n) : discriminantType n = .err := by
  unfold discriminantType
  rcases h with h | h
  · subst h; simp
  · split
    · rfl
    · have h24 : ¬ ceilLog2 n ≤ 24 := fun hc => by have := (ceilLog2_le_iff n 24).1 hc; omega
      have : 4 ≤ (ceilLog2 n + 7) / 8 := by omega
      split <;> first | omega | rfl

theorem discriminantType_ok (n : Nat) (d : Disc) (h : discriminantType n = .ok d) : 1 ≤ n ∧ n ≤ 2 ^ 24 := by
  by_cases h1 : n = 0 ∨ 2 ^ 24 < n
  · rw [discriminantType_err n h1] at h; cases h
  · omega

theorem disc_bytes (n : Nat) (d : Disc) (h : discriminantType n = .ok d) : d.bytes.toNat = discBytes n := by
  obtain ⟨h1, h2⟩ := discriminantType_ok n d h
  rw [discriminantType_eq n h1 h2] at h
  injection h with h
  subst h
  unfold discBytes
  split
  · rfl
  · split <;> rfl

theorem discBytes_isAl (n : Nat) : IsAl (discBytes n) := by
  unfold discBytes; split
  · simp [IsAl]
  · split <;> simp [IsAl]

theorem disc_cases (n : Nat) : (∃ d, discriminantType n = .ok d) ∨ discriminantType n = .err := by
  by_cases h : n = 0 ∨ 2 ^ 24 < n
  · exact .inr (discriminantType_err n h)
  · exact .inl ⟨_, discriminantType_eq n (by omega) (by omega)⟩

theorem disc_alignment (d : Disc) : alignment d.ty = .ok d.bytes := by cases d <;> rfl
theorem disc_size (d : Disc) : Abi.size d.ty = .ok d.bytes := by cases d <;> rfl

/-! ### Alignment -/

mutual
theorem align_isAl : (t : Ty) → IsAl (align t)
  | .bool | .u8 | .s8 => by simp [align, IsAl]
  | .u16 | .s16 => by simp [align, IsAl]
  | .u32 | .s32 | .f32 | .char | .string | .own _ | .borrow _ => by simp [align, IsAl]
  | .u64 | .s64 | .f64 => by simp [align, IsAl]
  | .list _ => by simp [align, IsAl]
  | .record fs => by rw [align]; exact alignFields_isAl fs
  | .variant cs => by rw [align]; exact (discBytes_isAl _).max (alignCases_isAl cs)
  | .flags ls => by
    rw [align]; split
    · simp [IsAl]
    · split <;> simp [IsAl]
  | .nil | .other => by simp [align, IsAl]
theorem alignFields_isAl : (fs : Fields) → IsAl (alignFields fs)
  | .nil => by simp [alignFields, IsAl]
  | .cons _ t fs => by rw [alignFields]; exact (align_isAl t).max (alignFields_isAl fs)
theorem alignCases_isAl : (cs : Cases) → IsAl (alignCases cs)
  | .nil => by simp [alignCases, IsAl]
  | .cons _ t _ cs => by rw [alignCases]; exact (align_isAl t).max (alignCases_isAl cs)
end

theorem ofNat_toNat_isAl {a : Nat} (h : IsAl a) : (BitVec.ofNat 32 a).toNat = a := by
  have := h.le
  rw [BitVec.toNat_ofNat, Nat.mod_eq_of_lt (by omega)]

mutual
/-- On types with a layout `alignment` returns the alignment of the specification. -/
theorem alignment_eq : (t : Ty) → Laid t → alignment t = .ok (BitVec.ofNat 32 (align t))
  | .bool, _ => rfl
  | .u8, _ => rfl
  | .s8, _ => rfl
  | .u16, _ => rfl
  | .s16, _ => rfl
  | .u32, _ => rfl
  | .s32, _ => rfl
  | .f32, _ => rfl
  | .char, _ => rfl
  | .string, _ => rfl
  | .own _, _ => rfl
  | .borrow _, _ => rfl
  | .u64, _ => rfl
  | .s64, _ => rfl
  | .f64, _ => rfl
  | .list _, _ => rfl
  | .record fs, h => by
    rw [alignment, alignmentRecord_eq fs (by simpa [Laid] using h) 1 (.inl rfl)]
    congr 2
    rw [align]
    have := (alignFields_isAl fs).pos
    show max 1 _ = _
    omega
  | .variant cs, h => by
    simp only [Laid] at h
    obtain ⟨h1, h2, h3⟩ := h
    rw [alignment]
    obtain ⟨d, hd⟩ : ∃ d, discriminantType cs.length = .ok d := ⟨_, discriminantType_eq _ h1 h2⟩
    rw [hd, maxCaseAlignment_eq cs h3 1 (.inl rfl)]
    simp only [Res.ok.injEq]
    apply BitVec.eq_of_toNat_eq
    rw [umax_toNat, disc_bytes _ _ hd]
    have e1 : max (BitVec.toNat (1 : U32)) (alignCases cs) = alignCases cs := by
      have := (alignCases_isAl cs).pos
      show max 1 _ = _
      omega
    rw [e1, ofNat_toNat_isAl (alignCases_isAl cs), align,
      ofNat_toNat_isAl ((discBytes_isAl _).max (alignCases_isAl cs))]
  | .flags ls, _ => by
    rw [alignment, align, alignmentFlags]
    split
    · rfl
    · split <;> rfl
  | .nil, h => by simp [Laid] at h
  | .other, h => by simp [Laid] at h
theorem alignmentRecord_eq : (fs : Fields) → LaidFields fs → (a : U32) → IsAl a.toNat →
    alignmentRecord fs a = .ok (BitVec.ofNat 32 (max a.toNat (alignFields fs)))
  | .nil, _, a, ha => by
    rw [alignmentRecord, alignFields, Nat.max_eq_left ha.pos, BitVec.ofNat_toNat, BitVec.setWidth_eq]
  | .cons _ t fs, h, a, ha => by
    simp only [LaidFields] at h
    have e : (umax a (BitVec.ofNat 32 (align t))).toNat = max a.toNat (align t) := by
      rw [umax_toNat, ofNat_toNat_isAl (align_isAl t)]
    rw [alignmentRecord, alignment_eq t h.1, Res.bind_ok,
      alignmentRecord_eq fs h.2 _ (by rw [e]; exact ha.max (align_isAl t)), e, alignFields, Nat.max_assoc]
theorem maxCaseAlignment_eq : (cs : Cases) → LaidCases cs → (a : U32) → IsAl a.toNat →
    maxCaseAlignment cs a = .ok (BitVec.ofNat 32 (max a.toNat (alignCases cs)))
  | .nil, _, a, ha => by
    rw [maxCaseAlignment, alignCases, Nat.max_eq_left ha.pos, BitVec.ofNat_toNat, BitVec.setWidth_eq]
  | .cons _ t _ cs, h, a, ha => by
    simp only [LaidCases] at h
    rw [maxCaseAlignment, alignCases]
    split
    · rename_i hn
      subst hn
      rw [maxCaseAlignment_eq cs h.2 a ha]
      have e : align .nil = 1 := rfl
      have := ha.pos
      congr 2
      rw [e]; omega
    · rename_i hn
      have ht : Laid t := h.1.resolve_left hn
      have e : (umax a (BitVec.ofNat 32 (align t))).toNat = max a.toNat (align t) := by
        rw [umax_toNat, ofNat_toNat_isAl (align_isAl t)]
      rw [alignment_eq t ht, Res.bind_ok,
        maxCaseAlignment_eq cs h.2 _ (by rw [e]; exact ha.max (align_isAl t)), e, Nat.max_assoc]
end

/-! ### Size -/

theorem alignUp_fits {n a : Nat} (h : IsAl a) (hn : n < 2 ^ 32) : alignUp n a ≤ 2 ^ 32 :=
  alignUp_le h.pos h.dvd_pow32 (Nat.le_of_lt hn)

theorem alignTo_ofNat {n a : Nat} (ha : IsAl a) (hn : alignUp n a < 2 ^ 32) :
    alignTo (BitVec.ofNat 32 n) (BitVec.ofNat 32 a) = BitVec.ofNat 32 (alignUp n a) := by
  have h1 := le_alignUp (n := n) ha.pos
  apply BitVec.eq_of_toNat_eq
  have hn' : (BitVec.ofNat 32 n).toNat = n := by
    rw [BitVec.toNat_ofNat, Nat.mod_eq_of_lt (by omega)]
  rw [alignTo_toNat_of_lt _ _ (by rw [ofNat_toNat_isAl ha]; exact ha.pos)
    (by rw [ofNat_toNat_isAl ha, hn']; exact hn), ofNat_toNat_isAl ha, hn', BitVec.toNat_ofNat,
    Nat.mod_eq_of_lt hn]

theorem fieldsEnd_ge : (fs : Fields) → (s : Nat) → s ≤ fieldsEnd fs s
  | .nil, s => by simp [fieldsEnd]
  | .cons _ t fs, s => by
    rw [fieldsEnd]
    have h1 := le_alignUp (n := s) (align_isAl t).pos
    have h2 := fieldsEnd_ge fs (alignUp s (align t) + Spec.size t)
    omega

mutual
/-- On types with a layout whose size fits a 32-bit word, `size` returns the size of the specification. -/
theorem size_eq : (t : Ty) → Laid t → Spec.size t < 2 ^ 32 →
    Abi.size t = .ok (BitVec.ofNat 32 (Spec.size t))
  | .bool, _, _ => rfl
  | .u8, _, _ => rfl
  | .s8, _, _ => rfl
  | .u16, _, _ => rfl
  | .s16, _, _ => rfl
  | .u32, _, _ => rfl
  | .s32, _, _ => rfl
  | .f32, _, _ => rfl
  | .char, _, _ => rfl
  | .string, _, _ => rfl
  | .own _, _, _ => rfl
  | .borrow _, _, _ => rfl
  | .u64, _, _ => rfl
  | .s64, _, _ => rfl
  | .f64, _, _ => rfl
  | .list _, _, _ => rfl
  | .record fs, h, hs => by
    simp only [Laid] at h
    rw [Spec.size] at hs ⊢
    have ha := alignFields_isAl fs
    have h1 := le_alignUp (n := fieldsEnd fs 0) ha.pos
    rw [Abi.size, show (0 : U32) = BitVec.ofNat 32 0 from rfl, sizeFields_eq fs h 0 (by omega), Res.bind_ok,
      alignmentRecord_eq fs h 1 (.inl rfl), Res.bind_ok]
    have e : max (BitVec.toNat (1 : U32)) (alignFields fs) = alignFields fs := by
      have := ha.pos
      show max 1 _ = _
      omega
    rw [e, alignTo_ofNat ha hs]
  | .variant cs, h, hs => by
    have hl := h
    simp only [Laid] at h
    obtain ⟨h1, h2, h3⟩ := h
    rw [Spec.size] at hs ⊢
    obtain ⟨d, hd⟩ : ∃ d, discriminantType cs.length = .ok d := ⟨_, discriminantType_eq _ h1 h2⟩
    have ha := alignCases_isAl cs
    have hA := (discBytes_isAl cs.length).max ha
    have e : max (BitVec.toNat (1 : U32)) (alignCases cs) = alignCases cs := by
      have := ha.pos
      show max 1 _ = _
      omega
    have hb : d.bytes = BitVec.ofNat 32 (discBytes cs.length) := by
      apply BitVec.eq_of_toNat_eq
      rw [disc_bytes _ _ hd, ofNat_toNat_isAl (discBytes_isAl _)]
    have g1 := le_alignUp (n := alignUp (discBytes cs.length) (alignCases cs) + sizeCases cs) hA.pos
    have g2 : alignUp (discBytes cs.length) (alignCases cs) < 2 ^ 32 := by omega
    rw [Abi.size, hd, Res.bind_ok, maxCaseAlignment_eq cs h3 1 (.inl rfl), Res.bind_ok, e, hb,
      alignTo_ofNat ha g2, maxCaseSize_eq cs h3 0 (by omega), Res.bind_ok,
      alignment_eq (.variant cs) hl, Res.bind_ok]
    have e0 : max (BitVec.toNat (0 : U32)) (sizeCases cs) = sizeCases cs := by
      show max 0 _ = _
      omega
    rw [e0, ← BitVec.ofNat_add, align, alignTo_ofNat hA hs]
  | .flags ls, _, hs => by
    rw [Abi.size, sizeFlags]
    rw [Spec.size] at hs ⊢
    split
    · rfl
    · split
      · rfl
      · split
        · rfl
        · rename_i g1 g2 g3
          rw [if_neg g1, if_neg g2, if_neg g3] at hs
          congr 1
          apply BitVec.eq_of_toNat_eq
          rw [numI32Flags, BitVec.toNat_mul, BitVec.toNat_ofNat, BitVec.toNat_ofNat]
          have : BitVec.toNat (4 : U32) = 4 := rfl
          rw [this, Nat.mod_eq_of_lt (a := (ls.length + 31) / 32) (by omega)]
  | .nil, h, _ => by simp [Laid] at h
  | .other, h, _ => by simp [Laid] at h
theorem sizeFields_eq : (fs : Fields) → LaidFields fs → (s : Nat) → fieldsEnd fs s < 2 ^ 32 →
    sizeFields fs (BitVec.ofNat 32 s) = .ok (BitVec.ofNat 32 (fieldsEnd fs s))
  | .nil, _, s, _ => by rw [sizeFields, fieldsEnd]
  | .cons _ t fs, h, s, hs => by
    simp only [LaidFields] at h
    rw [fieldsEnd] at hs ⊢
    have g1 := fieldsEnd_ge fs (alignUp s (align t) + Spec.size t)
    rw [sizeFields, alignment_eq t h.1, Res.bind_ok, size_eq t h.1 (by omega),
      alignTo_ofNat (align_isAl t) (by omega), Res.bind_ok, ← BitVec.ofNat_add, sizeFields_eq fs h.2 _ hs]
theorem maxCaseSize_eq : (cs : Cases) → LaidCases cs → (m : U32) → sizeCases cs < 2 ^ 32 →
    maxCaseSize cs m = .ok (BitVec.ofNat 32 (max m.toNat (sizeCases cs)))
  | .nil, _, m, _ => by
    rw [maxCaseSize, sizeCases, Nat.max_eq_left (Nat.zero_le _), BitVec.ofNat_toNat, BitVec.setWidth_eq]
  | .cons _ t _ cs, h, m, hs => by
    simp only [LaidCases] at h
    rw [sizeCases] at hs ⊢
    rw [maxCaseSize]
    split
    · rename_i hn
      subst hn
      rw [maxCaseSize_eq cs h.2 m (by omega)]
      have e : Spec.size .nil = 0 := rfl
      rw [e, Nat.max_eq_right (Nat.zero_le (sizeCases cs))]
    · rename_i hn
      have ht : Laid t := h.1.resolve_left hn
      have hst : Spec.size t < 2 ^ 32 := by omega
      rw [size_eq t ht hst, Res.bind_ok, maxCaseSize_eq cs h.2 _ (by omega), umax_toNat, BitVec.toNat_ofNat,
        Nat.mod_eq_of_lt hst, Nat.max_assoc]
end

/-! ### `Size` succeeds exactly on types with a layout -/

mutual
theorem laid_of_size : (t : Ty) → (s : U32) → Abi.size t = .ok s → Laid t
  | .bool, _, _ | .u8, _, _ | .s8, _, _ | .u16, _, _ | .s16, _, _ | .u32, _, _ | .s32, _, _ | .f32, _, _
  | .char, _, _ | .string, _, _ | .own _, _, _ | .borrow _, _, _ | .u64, _, _ | .s64, _, _ | .f64, _, _
  | .list _, _, _ | .flags _, _, _ => by simp [Laid]
  | .record fs, s, h => by
    rw [Abi.size] at h
    obtain ⟨a, h1, -⟩ := Res.bind_eq_ok.1 h
    simp only [Laid]
    exact laidFields_of_size fs _ _ h1
  | .variant cs, s, h => by
    rw [Abi.size] at h
    obtain ⟨d, h1, h⟩ := Res.bind_eq_ok.1 h
    obtain ⟨a, -, h⟩ := Res.bind_eq_ok.1 h
    obtain ⟨m, h2, -⟩ := Res.bind_eq_ok.1 h
    simp only [Laid]
    exact ⟨(discriminantType_ok _ _ h1).1, (discriminantType_ok _ _ h1).2, laidCases_of_size cs _ _ h2⟩
  | .nil, s, h => by simp [Abi.size] at h
  | .other, s, h => by simp [Abi.size] at h
theorem laidFields_of_size : (fs : Fields) → (s r : U32) → sizeFields fs s = .ok r → LaidFields fs
  | .nil, _, _, _ => by simp [LaidFields]
  | .cons _ t fs, s, r, h => by
    rw [sizeFields] at h
    obtain ⟨a, -, h⟩ := Res.bind_eq_ok.1 h
    obtain ⟨sz, h1, h⟩ := Res.bind_eq_ok.1 h
    simp only [LaidFields]
    exact ⟨laid_of_size t _ h1, laidFields_of_size fs _ _ h⟩
theorem laidCases_of_size : (cs : Cases) → (m r : U32) → maxCaseSize cs m = .ok r → LaidCases cs
  | .nil, _, _, _ => by simp [LaidCases]
  | .cons _ t _ cs, m, r, h => by
    rw [maxCaseSize] at h
    simp only [LaidCases]
    split at h
    · rename_i hn
      exact ⟨.inl hn, laidCases_of_size cs _ _ h⟩
    · obtain ⟨sz, h1, h⟩ := Res.bind_eq_ok.1 h
      exact ⟨.inr (laid_of_size t _ h1), laidCases_of_size cs _ _ h⟩
end

mutual
theorem size_of_laid : (t : Ty) → Laid t → ∃ s, Abi.size t = .ok s
  | .bool, _ | .u8, _ | .s8, _ | .u16, _ | .s16, _ | .u32, _ | .s32, _ | .f32, _
  | .char, _ | .string, _ | .own _, _ | .borrow _, _ | .u64, _ | .s64, _ | .f64, _
  | .list _, _ | .flags _, _ => by simp [Abi.size]
  | .record fs, h => by
    simp only [Laid] at h
    obtain ⟨s, hs⟩ := sizeFields_of_laid fs h 0
    rw [Abi.size, hs, Res.bind_ok, alignmentRecord_eq fs h 1 (.inl rfl)]
    exact ⟨_, rfl⟩
  | .variant cs, h => by
    have hl := h
    simp only [Laid] at h
    obtain ⟨h1, h2, h3⟩ := h
    obtain ⟨s, hs⟩ := maxCaseSize_of_laid cs h3 0
    rw [Abi.size, discriminantType_eq _ h1 h2, Res.bind_ok, maxCaseAlignment_eq cs h3 1 (.inl rfl),
      Res.bind_ok, hs, Res.bind_ok, alignment_eq _ hl]
    exact ⟨_, rfl⟩
  | .nil, h => by simp [Laid] at h
  | .other, h => by simp [Laid] at h
theorem sizeFields_of_laid : (fs : Fields) → LaidFields fs → (s : U32) → ∃ r, sizeFields fs s = .ok r
  | .nil, _, s => ⟨s, by rw [sizeFields]⟩
  | .cons _ t fs, h, s => by
    simp only [LaidFields] at h
    obtain ⟨sz, hsz⟩ := size_of_laid t h.1
    rw [sizeFields, alignment_eq t h.1, Res.bind_ok, hsz, Res.bind_ok]
    exact sizeFields_of_laid fs h.2 _
theorem maxCaseSize_of_laid : (cs : Cases) → LaidCases cs → (m : U32) → ∃ r, maxCaseSize cs m = .ok r
  | .nil, _, m => ⟨m, by rw [maxCaseSize]⟩
  | .cons _ t _ cs, h, m => by
    simp only [LaidCases] at h
    rw [maxCaseSize]
    split
    · exact maxCaseSize_of_laid cs h.2 _
    · rename_i hn
      obtain ⟨sz, hsz⟩ := size_of_laid t (h.1.resolve_left hn)
      rw [hsz, Res.bind_ok]
      exact maxCaseSize_of_laid cs h.2 _
end

/-- The last step of `Size` rounds up, so the result is aligned even when sums wrapped around. -/
theorem alignTo_dvd (s a : U32) (h : IsAl a.toNat) : a.toNat ∣ (alignTo s a).toNat := by
  rw [alignTo_toNat s a h.pos]
  exact (Nat.dvd_mod_iff h.dvd_pow32).2 (alignUp_dvd _ _)

end Verif.Abi
