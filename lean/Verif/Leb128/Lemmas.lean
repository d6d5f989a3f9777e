import Verif.Leb128.Model
import Verif.Leb128.Spec

/-! Helper lemmas for `leb128`. -/

namespace Verif.Leb128

theorem low7 (b : Byte) : (b &&& 0b01111111#8).toNat = b.toNat % 128 := by
  have : (0b01111111#8).toNat = 2 ^ 7 - 1 := by decide
  rw [BitVec.toNat_and, this, Nat.and_two_pow_sub_one_eq_mod]

theorem high_bit (b : Byte) : b &&& 0b10000000#8 = 0#8 ↔ b.toNat < 128 := by
  revert b; decide +kernel

theorem step (v shift : Nat) (hv : v < 2 ^ shift) (b : Byte) :
    (BitVec.ofNat 32 v) ||| ((b &&& 0b01111111#8).zeroExtend 32 <<< shift)
      = BitVec.ofNat 32 (v + (b.toNat % 128) * 2 ^ shift) := by
  apply BitVec.eq_of_toNat_eq
  have h1 : (b &&& 0b01111111#8).toNat = b.toNat % 128 := low7 b
  have h2 : b.toNat % 128 < 2 ^ 32 := by omega
  simp only [BitVec.toNat_or, BitVec.toNat_ofNat, BitVec.toNat_shiftLeft, BitVec.toNat_setWidth, h1,
    Nat.mod_eq_of_lt h2]
  rw [← Nat.or_mod_two_pow, Nat.or_comm, ← Nat.shiftLeft_add_eq_or_of_lt hv, Nat.shiftLeft_eq,
    Nat.add_comm]

theorem step_bound (v shift : Nat) (hv : v < 2 ^ shift) (b : Byte) :
    v + (b.toNat % 128) * 2 ^ shift < 2 ^ (shift + 7) := by
  have : b.toNat % 128 ≤ 127 := by omega
  have h2 : (b.toNat % 128) * 2 ^ shift ≤ 127 * 2 ^ shift := Nat.mul_le_mul_right _ this
  rw [Nat.pow_add]; omega

theorem decodeReaderLoop_eq_decodeLoop (bs : List Byte) (val : U32) (shift total : Nat) :
    decodeReaderLoop val shift total bs = decodeLoop val shift total bs := by
  induction bs generalizing val shift total with
  | nil => rfl
  | cons b bs ih => simp only [decodeReaderLoop, decodeLoop, ih]

theorem decodeReader_eq_decode (bs : List Byte) : decodeReader bs = decode bs :=
  decodeReaderLoop_eq_decodeLoop bs _ _ _

theorem decodeLoop_delimited (pre : List Byte) (last : Byte) (rest : List Byte)
    (hpre : ∀ x ∈ pre, 128 ≤ x.toNat) (hlast : last.toNat < 128)
    (v shift total : Nat) (hv : v < 2 ^ shift) :
    decodeLoop (BitVec.ofNat 32 v) shift total (pre ++ last :: rest)
      = .ok (BitVec.ofNat 32 (v + denotes (pre ++ [last]) * 2 ^ shift), total + pre.length + 1, rest) := by
  induction pre generalizing v shift total with
  | nil =>
    simp only [List.nil_append, decodeLoop, step v shift hv, high_bit, hlast, if_true, denotes]
    simp
  | cons b pre ih =>
    have hb : 128 ≤ b.toNat := hpre b (by simp)
    have hnb : ¬ b.toNat < 128 := by omega
    simp only [List.cons_append, decodeLoop, step v shift hv, high_bit, hnb, if_false]
    rw [ih (fun x hx => hpre x (by simp [hx])) _ _ _ (step_bound v shift hv b)]
    simp only [denotes, List.length_cons]
    congr 2
    · congr 1
      rw [Nat.pow_add, Nat.add_mul, ← Nat.add_assoc]
      congr 1
      rw [Nat.mul_comm 128, Nat.mul_assoc, Nat.mul_comm 128]
    · congr 1; omega

theorem decodeLoop_truncated (bs : List Byte) (h : ∀ x ∈ bs, 128 ≤ x.toNat) (val : U32) (shift total : Nat) :
    decodeLoop val shift total bs = .err := by
  induction bs generalizing val shift total with
  | nil => rfl
  | cons b bs ih =>
    have hnb : ¬ b.toNat < 128 := by have := h b (by simp); omega
    simp only [decodeLoop, high_bit, hnb, if_false]
    exact ih (fun x hx => h x (by simp [hx])) _ _ _

theorem decodeSliceLoop_eq (bs : List Byte) (val : U32) (shift total : Nat) (v : U32) (n : Nat) (rest : List Byte)
    (h : decodeLoop val shift total bs = .ok (v, n, rest)) :
    decodeSliceLoop val shift total bs = (v, n) := by
  induction bs generalizing val shift total with
  | nil => simp [decodeLoop] at h
  | cons b bs ih =>
    simp only [decodeLoop, decodeSliceLoop] at h ⊢
    split
    · rename_i hb
      simp only [hb, if_true, Res.ok.injEq, Prod.mk.injEq] at h
      rw [h.1, h.2.1]
    · rename_i hb
      simp only [hb, if_false] at h
      exact ih _ _ _ h

/-- Running off the end, `DecodeSlice` returns what it has accumulated. -/
theorem decodeSliceLoop_truncated (bs : List Byte) (h : ∀ x ∈ bs, 128 ≤ x.toNat)
    (v shift total : Nat) (hv : v < 2 ^ shift) :
    decodeSliceLoop (BitVec.ofNat 32 v) shift total bs
      = (BitVec.ofNat 32 (v + denotes bs * 2 ^ shift), total + bs.length) := by
  induction bs generalizing v shift total with
  | nil => simp [decodeSliceLoop, denotes]
  | cons b bs ih =>
    have hnb : ¬ b.toNat < 128 := by have := h b (by simp); omega
    simp only [decodeSliceLoop, step v shift hv, high_bit, hnb, if_false]
    rw [ih (fun x hx => h x (by simp [hx])) _ _ _ (step_bound v shift hv b)]
    simp only [denotes, List.length_cons]
    congr 1
    · congr 1
      rw [Nat.pow_add, Nat.add_mul, ← Nat.add_assoc]
      congr 1
      rw [Nat.mul_comm 128, Nat.mul_assoc, Nat.mul_comm 128]
    · omega

/-- Every byte list either has a first byte below 128 or has none. -/
theorem split_first (bs : List Byte) :
    (∃ pre last rest, bs = pre ++ last :: rest ∧ (∀ x ∈ pre, 128 ≤ x.toNat) ∧ last.toNat < 128)
      ∨ (∀ x ∈ bs, 128 ≤ x.toNat) := by
  induction bs with
  | nil => right; simp
  | cons b bs ih =>
    by_cases hb : b.toNat < 128
    · left; exact ⟨[], b, bs, rfl, by simp, hb⟩
    · rcases ih with ⟨pre, last, rest, h1, h2, h3⟩ | h
      · left
        refine ⟨b :: pre, last, rest, by simp [h1], ?_, h3⟩
        intro x hx
        rcases List.mem_cons.1 hx with rfl | hx
        · omega
        · exact h2 x hx
      · right
        intro x hx
        rcases List.mem_cons.1 hx with rfl | hx
        · omega
        · exact h x hx

/-! ### Encoder -/

theorem encode_small (n : U32) (h : n.toNat < 128) : encode n = [n.truncate 8] := by
  rw [encode]
  have h1 : n >>> 7 = 0#32 := by
    apply BitVec.eq_of_toNat_eq
    simp [Nat.shiftRight_eq_div_pow]; omega
  simp only [h1, ne_eq, not_true_eq_false, if_false, List.cons.injEq, and_true]
  apply BitVec.eq_of_toNat_eq
  have : (127#32).toNat = 2 ^ 7 - 1 := by decide
  simp only [BitVec.truncate_eq_setWidth, BitVec.toNat_setWidth, BitVec.toNat_and, this,
    Nat.and_two_pow_sub_one_eq_mod]
  omega

theorem encode_large (n : U32) (h : 128 ≤ n.toNat) :
    ∃ b : Byte, encode n = b :: encode (n >>> 7) ∧ b.toNat = n.toNat % 128 + 128 := by
  refine ⟨(n &&& 0b01111111#32).truncate 8 ||| 0b10000000#8, ?_, ?_⟩
  · conv => lhs; rw [encode]
    have h1 : n >>> 7 ≠ 0#32 := by
      intro h0
      have := congrArg BitVec.toNat h0
      simp [Nat.shiftRight_eq_div_pow] at this
      omega
    simp [h1]
  · have h127 : (127#32).toNat = 2 ^ 7 - 1 := by decide
    have h128 : (128#8).toNat = 1 <<< 7 := by decide
    simp only [BitVec.truncate_eq_setWidth, BitVec.toNat_or, BitVec.toNat_setWidth, BitVec.toNat_and, h127,
      Nat.and_two_pow_sub_one_eq_mod, h128]
    have h2 : n.toNat % 2 ^ 7 % 2 ^ 8 = n.toNat % 128 := by omega
    rw [h2, Nat.or_comm, ← Nat.shiftLeft_add_eq_or_of_lt (by omega)]
    simp [Nat.shiftLeft_eq]; omega

theorem toNat_shiftRight7 (n : U32) : (n >>> 7).toNat = n.toNat / 128 := by
  simp [Nat.shiftRight_eq_div_pow]

/-- Encoding: delimited, denotes the value. -/
theorem encode_spec (n : U32) :
    ∃ init last, encode n = init ++ [last] ∧ (∀ x ∈ init, 128 ≤ x.toNat) ∧ last.toNat < 128
      ∧ denotes (init ++ [last]) = n.toNat
      ∧ (init = [] ∨ last.toNat ≠ 0)
      ∧ 128 ^ init.length ≤ max 1 n.toNat := by
  induction hk : n.toNat using Nat.strongRecOn generalizing n with
  | _ k ih =>
    subst hk
    by_cases h : n.toNat < 128
    · refine ⟨[], n.truncate 8, by rw [encode_small n h]; rfl, by simp, ?_, ?_, .inl rfl, ?_⟩
      · simp; omega
      · simp [denotes]; omega
      · simp only [List.length_nil, Nat.pow_zero]; omega
    · obtain ⟨b, hb, hbv⟩ := encode_large n (by omega)
      obtain ⟨init, last, h1, h2, h3, h4, h5, h6⟩ :=
        ih (n >>> 7).toNat (by rw [toNat_shiftRight7]; omega) (n >>> 7) rfl
      refine ⟨b :: init, last, by rw [hb, h1]; rfl, ?_, h3, ?_, ?_, ?_⟩
      · intro x hx
        rcases List.mem_cons.1 hx with rfl | hx
        · omega
        · exact h2 x hx
      · rw [List.cons_append, denotes, h4, toNat_shiftRight7, hbv]; omega
      · right
        rcases h5 with h5 | h5
        · subst h5
          simp only [List.nil_append, denotes, toNat_shiftRight7] at h4
          omega
        · exact h5
      · rw [toNat_shiftRight7] at h6
        simp only [List.length_cons, Nat.pow_succ]
        have : max 1 n.toNat = n.toNat := by omega
        rw [this]
        have h7 : max 1 (n.toNat / 128) = n.toNat / 128 := by omega
        rw [h7] at h6
        calc 128 ^ init.length * 128 ≤ (n.toNat / 128) * 128 := Nat.mul_le_mul_right _ h6
          _ ≤ n.toNat := by omega

theorem denotes_lt (bs : List Byte) : denotes bs < 128 ^ bs.length := by
  induction bs with
  | nil => simp [denotes]
  | cons b bs ih =>
    simp only [denotes, List.length_cons, Nat.pow_succ]
    omega

end Verif.Leb128
