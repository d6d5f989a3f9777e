import Verif.Abi.SameLemmas

/-!
# Properties of scalars in memory: C18, C23, C24, C25, C26
-/

namespace Verif.Abi
open Spec

variable {σ : Type}

theorem read_succ (m : Mem) (p n : Nat) : m.read p (n + 1) = m.data p :: m.read (p + 1) n := by
  unfold Mem.read
  rw [List.range_succ_eq_map, List.map_cons, List.map_map]
  congr 1
  apply List.map_congr_left
  intro i _
  show m.data (p + (i + 1)) = _
  rw [Nat.add_assoc, Nat.add_comm 1 i]

theorem natAt_eq (m : Mem) : (p n : Nat) → natAt m p n = leNat (m.read p n)
  | _, 0 => rfl
  | p, n + 1 => by rw [natAt, read_succ, leNat, natAt_eq m (p + 1) n]

theorem leBytes_get : (n v i : Nat) → i < n → (leBytes n v)[i]? = some (BitVec.ofNat 8 (v / 256 ^ i))
  | 0, _, _, h => by omega
  | n + 1, v, 0, _ => by simp [leBytes]
  | n + 1, v, i + 1, h => by
    rw [leBytes, List.getElem?_cons_succ, leBytes_get n _ i (by omega), Nat.div_div_eq_div_mul, Nat.pow_succ',
      Nat.mul_comm]

theorem write_get (m : Mem) (p : Nat) (bs : List Byte) (i : Nat) (b : Byte) (h : bs[i]? = some b) :
    (m.write p bs).data (p + i) = b := by
  have := (List.getElem?_eq_some_iff.1 h).1
  unfold Mem.write
  simp only
  rw [if_pos ⟨by omega, by omega⟩, Nat.add_sub_cancel_left, List.getD_eq_getElem?_getD, h]
  rfl

/-! ## C18 -/

theorem byteOf_u64 (x : U64) (z : Int) (hx : (x.toNat : Int) = z % 2 ^ 64) (i : Nat) (hi : i < 8) :
    BitVec.ofNat 8 (x.toNat / 256 ^ i) = byteOf z i := by
  unfold byteOf
  apply BitVec.eq_of_toNat_eq
  rw [BitVec.toNat_ofNat, BitVec.toNat_ofInt]
  have : i = 0 ∨ i = 1 ∨ i = 2 ∨ i = 3 ∨ i = 4 ∨ i = 5 ∨ i = 6 ∨ i = 7 := by omega
  rcases this with rfl | rfl | rfl | rfl | rfl | rfl | rfl | rfl <;>
    simp only [Nat.reducePow, Int.reducePow] at * <;> omega

theorem toNat_of_unsigned {w : Nat} (hw : w ≤ 64) (x : BitVec w) :
    ((x.setWidth 64).toNat : Int) = (x.toNat : Int) % 2 ^ 64 := by
  have : 2 ^ w ≤ 2 ^ 64 := Nat.pow_le_pow_right (by omega) hw
  have := x.isLt
  rw [BitVec.toNat_setWidth]
  omega

theorem toNat_of_signed {w : Nat} (hw : w ≤ 64) (x : BitVec w) :
    ((x.signExtend 64).toNat : Int) = x.toInt % 2 ^ 64 := by
  have h := BitVec.toInt_signExtend_of_le (x := x) hw
  have := (x.signExtend 64).isLt
  rw [← h, BitVec.toInt_eq_toNat_cond]
  split <;> omega

/-- What `StoreInt` leaves behind when it succeeds. -/
structure IntStored (t : Ty) (v : Val) (n : U32) (signed : Bool) (i : IntInfo) : Prop where
  info : intInfo v = .ok i
  sign : i.sign = signed
  width : n = 1 ∨ n = 2 ∨ n = 4 ∨ n = 8
  size : Abi.size t = .ok n
  value : ∃ z, intValue v = some z ∧ (i.u64.toNat : Int) = z % 2 ^ 64
  back : intVal t (i.u64.toNat % 256 ^ n.toNat) = v

theorem intStored (t : Ty) (ht : t ∈ integerTypes) (v : Val) (hv : HasType t v) :
    ∃ n signed i, IntStored t v n signed i ∧
      ∀ (σ : Type) (E : Env σ) ptr, store E t v ptr = (do storeValidate t ptr; storeInt v ptr n signed) := by
  simp only [integerTypes, List.mem_cons, List.not_mem_nil, or_false] at ht
  rcases ht with rfl | rfl | rfl | rfl | rfl | rfl | rfl | rfl <;> simp only [HasType] at hv <;>
    obtain ⟨x, rfl⟩ := hv
  · exact ⟨1, false, _, ⟨rfl, rfl, .inl rfl, rfl, ⟨_, rfl, toNat_of_unsigned (by omega) x⟩,
      congrArg Val.u8 (zext_mod 8 (by omega) x)⟩, fun σ E ptr => by rw [store]⟩
  · exact ⟨2, false, _, ⟨rfl, rfl, .inr (.inl rfl), rfl, ⟨_, rfl, toNat_of_unsigned (by omega) x⟩,
      congrArg Val.u16 (zext_mod 16 (by omega) x)⟩, fun σ E ptr => by rw [store]⟩
  · exact ⟨4, false, _, ⟨rfl, rfl, .inr (.inr (.inl rfl)), rfl, ⟨_, rfl, toNat_of_unsigned (by omega) x⟩,
      congrArg Val.u32 (zext_mod 32 (by omega) x)⟩, fun σ E ptr => by rw [store]⟩
  · exact ⟨8, false, _, ⟨rfl, rfl, .inr (.inr (.inr rfl)), rfl,
      ⟨_, rfl, by simpa using toNat_of_unsigned (w := 64) (by omega) x⟩,
      congrArg Val.u64 (by simpa using zext_mod 64 (by omega) x)⟩, fun σ E ptr => by rw [store]⟩
  · exact ⟨1, true, _, ⟨rfl, rfl, .inl rfl, rfl, ⟨_, rfl, toNat_of_signed (by omega) x⟩,
      congrArg Val.s8 (sext_mod 8 (by omega) x)⟩, fun σ E ptr => by rw [store]⟩
  · exact ⟨2, true, _, ⟨rfl, rfl, .inr (.inl rfl), rfl, ⟨_, rfl, toNat_of_signed (by omega) x⟩,
      congrArg Val.s16 (sext_mod 16 (by omega) x)⟩, fun σ E ptr => by rw [store]⟩
  · exact ⟨4, true, _, ⟨rfl, rfl, .inr (.inr (.inl rfl)), rfl, ⟨_, rfl, toNat_of_signed (by omega) x⟩,
      congrArg Val.s32 (sext_mod 32 (by omega) x)⟩, fun σ E ptr => by rw [store]⟩
  · exact ⟨8, true, _, ⟨rfl, rfl, .inr (.inr (.inr rfl)), rfl,
      ⟨_, rfl, by simpa using toNat_of_signed (w := 64) (by omega) x⟩,
      congrArg Val.s64 (by simpa using zext_mod 64 (by omega) x)⟩, fun σ E ptr => by rw [store]⟩

/-- C18. An integer of any of the eight types, stored at an aligned address inside the memory, is there as its
little-endian two's complement representation, and loading it back gives the same value.
Missing: memories of `2 ^ 32` bytes, where it is false (`full_memory_store_refused`). -/
theorem integers_in_memory_partial (E : Env σ) (t : Ty) (ht : t ∈ integerTypes) (v : Val) (hv : HasType t v) (ptr : U32)
    (s : St σ) (hg : s.mem.len < 2 ^ 32 ∧ s.mem.len ≤ s.mem.cap) (ha : align t ∣ ptr.toNat)
    (hle : ptr.toNat + Spec.size t ≤ s.mem.len) :
    ∃ s' z, store E t v ptr s = (.ok (), s') ∧ intValue v = some z ∧
      (∀ i < Spec.size t, s'.mem.data (ptr.toNat + i) = byteOf z i) ∧
      (∀ x, x < ptr.toNat ∨ ptr.toNat + Spec.size t ≤ x → s'.mem.data x = s.mem.data x) ∧
      load E t ptr s' = (.ok v, s') := by
  obtain ⟨n, signed, i, ⟨h1, h2, h3, h4, ⟨z, h5, h6⟩, h7⟩, hst⟩ := intStored t ht v hv
  have hlaid := laid_of_size t n h4
  have hn : n.toNat = Spec.size t := by
    have := size_eq t hlaid (by omega)
    rw [h4] at this
    injection this with this
    rw [this, toNat_ofNat_lt (by omega)]
  have hn8 : n.toNat ≤ 8 := by rcases h3 with h | h | h | h <;> subst h <;> decide
  have hst' : store E t v ptr s = (.ok (), { s with mem := s.mem.write ptr.toNat (leBytes n.toNat i.u64.toNat) }) := by
    rw [hst, SM.bind_ok (validate_ok t ptr s hlaid hg ha hle), storeInt_eq, h1]
    simp only
    rw [if_pos h2, if_pos h3, put_ok _ _ _ _ (slice_ok _ _ _ (by omega) (by omega))]
  refine ⟨_, z, hst', h5, ?_, ?_, ?_⟩
  · intro k hk
    rw [write_get _ _ _ _ _ (leBytes_get n.toNat _ k (by omega))]
    exact byteOf_u64 _ _ h6 k (by omega)
  · intro x hx
    exact Mem.write_out _ _ _ _ (by rw [leBytes_length]; omega)
  · have hl : load E t ptr = loadInt ptr t := by
      simp only [integerTypes, List.mem_cons, List.not_mem_nil, or_false] at ht
      rcases ht with rfl | rfl | rfl | rfl | rfl | rfl | rfl | rfl <;> rw [load]
    rw [hl, loadInt_ok t n h4 ptr _ (by omega) (by show _ ≤ s.mem.cap; omega)]
    have := Mem.read_write s.mem ptr.toNat (leBytes n.toNat i.u64.toNat)
    rw [leBytes_length] at this
    simp only
    rw [this, leNat_leBytes, h7]

/-- -2 as a signed 16-bit integer is `FE FF`. -/
example : ∃ v, HasType .s16 v ∧ intValue v = some (-2) ∧ byteOf (-2) 0 = 0xFE ∧ byteOf (-2) 1 = 0xFF :=
  ⟨.s16 (BitVec.ofInt 16 (-2)), ⟨_, rfl⟩, by decide, by decide, by decide⟩
/-- A memory of 16 bytes meets the hypotheses at address 6. -/
example : align .s16 ∣ (6 : U32).toNat ∧ (6 : U32).toNat + Spec.size .s16 ≤ 16 := by decide

/-! ## C23 -/

instance (x : BitVec 32) : Decidable (IsScalar x) := inferInstanceAs (Decidable (_ ∨ _))

theorem convert_iff (x : U32) : convertU32ToRune x = (if IsScalar x then .ok x else .err) := by
  unfold convertU32ToRune
  by_cases h1 : x.toNat ≥ 0x110000
  · rw [if_pos h1, if_neg (by unfold IsScalar; omega)]
  · rw [if_neg h1]
    by_cases h2 : 0xD800 ≤ x.toNat ∧ x.toNat ≤ 0xDFFF
    · rw [if_pos h2, if_neg (by unfold IsScalar; omega)]
    · rw [if_neg h2, if_pos (by unfold IsScalar; omega)]

/-- C23, memory: loading a char gives the word at that address if it is a scalar value and an error otherwise. -/
theorem load_char (E : Env σ) (ptr : U32) (s : St σ) (hg : s.mem.len < 2 ^ 32 ∧ s.mem.len ≤ s.mem.cap)
    (hle : ptr.toNat + 4 ≤ s.mem.len) (x : U32) (hx : x.toNat = natAt s.mem ptr.toNat 4) :
    (IsScalar x → load E .char ptr s = (.ok (.s32 x), s)) ∧ (¬ IsScalar x → load E .char ptr s = (.err, s)) := by
  have hx' : BitVec.ofNat 32 (leNat (s.mem.read ptr.toNat 4)) = x := by
    rw [← natAt_eq, ← hx, BitVec.ofNat_toNat, BitVec.setWidth_eq]
  have e : load E .char ptr s = (SM.lift (convertU32ToRune x) >>= fun r => pure (.s32 r)) s := by
    rw [load]
    unfold loadChar
    have : loadIntWithSize ptr 4 false s = (.ok (.u32 x), s) := by
      have h := loadInt_ok .u32 4 rfl ptr s (by show _ + 4 < _; omega) (by show _ + 4 ≤ _; omega)
      have h' : intVal .u32 (leNat (s.mem.read ptr.toNat (4 : U32).toNat)) = .u32 x := congrArg Val.u32 hx'
      rw [h'] at h
      exact h
    rw [SM.bind_ok this]
  rw [e, convert_iff]
  constructor
  · intro h; rw [if_pos h]; rfl
  · intro h; rw [if_neg h]; rfl

example : IsScalar 0x1F600 ∧ ¬ IsScalar 0xDFFF ∧ ¬ IsScalar 0x110000 ∧ IsScalar 0xE000 ∧ IsScalar 0xD7FF := by decide

/-! ## C24 -/

/-- C24, canonicalisation: idempotent, and the identity exactly on what is not a NaN or is the canonical one. -/
theorem canonical_idem (x : BitVec 32) (y : BitVec 64) :
    canonical32 (canonical32 x) = canonical32 x ∧ canonical64 (canonical64 y) = canonical64 y := by
  rw [← canon32_eq, ← canon32_eq, ← canon64_eq, ← canon64_eq]
  exact ⟨canon32_idem x, canon64_idem y⟩

/-- C24, loads: the float loaded is the canonical form of the bits in memory. -/
theorem load_float (E : Env σ) (ptr : U32) (s : St σ) (hg : s.mem.len < 2 ^ 32 ∧ s.mem.len ≤ s.mem.cap) :
    (ptr.toNat + 4 ≤ s.mem.len → load E .f32 ptr s =
      (.ok (.f32 (canonical32 (BitVec.ofNat 32 (natAt s.mem ptr.toNat 4)))), s)) ∧
    (ptr.toNat + 8 ≤ s.mem.len → load E .f64 ptr s =
      (.ok (.f64 (canonical64 (BitVec.ofNat 64 (natAt s.mem ptr.toNat 8)))), s)) := by
  obtain ⟨g1, g2⟩ := hg
  constructor
  · intro h
    rw [load]
    unfold loadFloat32
    rw [SM.bind_ok (loadUInt32_ok ptr s (by omega) (by omega)), canon32_eq, natAt_eq]; rfl
  · intro h
    rw [load]
    unfold loadFloat64
    rw [SM.bind_ok (loadUInt64_ok ptr s (by omega) (by omega)), canon64_eq, natAt_eq]; rfl

/-- C24, stores: the bytes stored are those of the canonical form. -/
theorem store_float (E : Env σ) (ptr : U32) (s : St σ) (hg : s.mem.len < 2 ^ 32 ∧ s.mem.len ≤ s.mem.cap)
    (x : BitVec 32) (y : BitVec 64) :
    (4 ∣ ptr.toNat → ptr.toNat + 4 ≤ s.mem.len → ∃ s', store E .f32 (.f32 x) ptr s = (.ok (), s') ∧
      natAt s'.mem ptr.toNat 4 = (canonical32 x).toNat) ∧
    (8 ∣ ptr.toNat → ptr.toNat + 8 ≤ s.mem.len → ∃ s', store E .f64 (.f64 y) ptr s = (.ok (), s') ∧
      natAt s'.mem ptr.toNat 8 = (canonical64 y).toNat) := by
  constructor
  · intro ha hle
    refine ⟨{ s with mem := s.mem.write ptr.toNat (leBytes 4 (canon32 x).toNat) }, ?_, ?_⟩
    · rw [store, SM.bind_ok (validate_ok .f32 ptr s (by simp [Laid]) hg ha hle)]
      show storeInt _ ptr 4 false s = _
      rw [storeInt_eq]
      have hsl := slice_ok s.mem ptr 4 (by show _ + 4 < _; omega) (by show _ + 4 ≤ _; omega)
      simp only [intInfo, if_true]
      rw [put_ok _ _ _ _ hsl, if_pos (by decide), BitVec.toNat_setWidth,
        Nat.mod_eq_of_lt (by have := (canon32 x).isLt; omega)]
      rfl
    · rw [natAt_eq]
      have := Mem.read_write s.mem ptr.toNat (leBytes 4 (canon32 x).toNat)
      rw [leBytes_length] at this
      simp only
      rw [this, leNat_leBytes, Nat.mod_eq_of_lt (by have := (canon32 x).isLt; omega), canon32_eq]
  · intro ha hle
    refine ⟨{ s with mem := s.mem.write ptr.toNat (leBytes 8 (canon64 y).toNat) }, ?_, ?_⟩
    · rw [store, SM.bind_ok (validate_ok .f64 ptr s (by simp [Laid]) hg ha hle)]
      show storeInt _ ptr 8 false s = _
      rw [storeInt_eq]
      have hsl := slice_ok s.mem ptr 8 (by show _ + 8 < _; omega) (by show _ + 8 ≤ _; omega)
      simp only [intInfo, if_true]
      rw [put_ok _ _ _ _ hsl, if_pos (by decide)]
      rfl
    · rw [natAt_eq]
      have := Mem.read_write s.mem ptr.toNat (leBytes 8 (canon64 y).toNat)
      rw [leBytes_length] at this
      simp only
      rw [this, leNat_leBytes, Nat.mod_eq_of_lt (by have := (canon64 y).isLt; omega), canon64_eq]

example : canonical32 0xFF800001 = 0x7FC00000 ∧ canonical32 0xFF800000 = 0xFF800000 ∧
    canonical64 0x7FF0000000000001 = 0x7FF8000000000000 ∧ canonical64 0x8000000000000000 = 0x8000000000000000 := by
  decide

/-! ## C25 -/

theorem natAt_testBit (m : Mem) : (p n i : Nat) → i < 8 * n → (natAt m p n).testBit i = bitAt m p i
  | _, 0, _, h => by omega
  | p, n + 1, i, h => by
    have hb := (m.data p).isLt
    rw [natAt, show (m.data p).toNat + 256 * natAt m (p + 1) n = 2 ^ 8 * natAt m (p + 1) n + (m.data p).toNat by omega,
      Nat.testBit_two_pow_mul_add _ hb]
    unfold bitAt
    by_cases hi : i < 8
    · rw [if_pos hi, Nat.div_eq_of_lt hi, Nat.mod_eq_of_lt hi]; rfl
    · rw [if_neg hi, natAt_testBit m (p + 1) n (i - 8) (by omega)]
      unfold bitAt
      rw [show p + 1 + (i - 8) / 8 = p + i / 8 by omega, show (i - 8) % 8 = i % 8 by omega]

theorem unpack_keys : (ls : List String) → (x : U64) → (acc : List (String × Val)) → ls.Nodup →
    (∀ l ∈ ls, l ∉ acc.map Prod.fst) → (unpackFlagsOnto ls x acc).map Prod.fst = acc.map Prod.fst ++ ls
  | [], _, acc, _, _ => by simp [unpackFlagsOnto]
  | l :: ls, x, acc, hn, hd => by
    rw [List.nodup_cons] at hn
    have h0 := mapSet_keys acc l (.bool (x &&& 1 == 1)) (hd l (by simp))
    rw [unpackFlagsOnto, unpack_keys ls _ _ hn.2 ?_, h0, List.append_assoc]
    · rfl
    · intro l' hl'
      rw [h0, List.mem_append, List.mem_singleton, not_or]
      exact ⟨hd l' (by simp [hl']), fun e => hn.1 (e ▸ hl')⟩

theorem unpack_out : (ls : List String) → (x : U64) → (acc : List (String × Val)) → (k : String) → k ∉ ls →
    mapGet (unpackFlagsOnto ls x acc) k = mapGet acc k
  | [], _, _, _, _ => rfl
  | l :: ls, x, acc, k, h => by
    rw [List.mem_cons, not_or] at h
    rw [unpackFlagsOnto, unpack_out ls _ _ k h.2, mapGet_mapSet_ne _ _ _ _ h.1]

theorem unpack_get : (ls : List String) → (x : U64) → (acc : List (String × Val)) → ls.Nodup → (i : Nat) → (l : String) →
    ls[i]? = some l → mapGet (unpackFlagsOnto ls x acc) l = .bool (x.getLsbD i)
  | [], _, _, _, i, l, h => by simp at h
  | l' :: ls, x, acc, hn, 0, l, h => by
    rw [List.nodup_cons] at hn
    simp only [List.getElem?_cons_zero, Option.some.injEq] at h
    subst h
    rw [unpackFlagsOnto, unpack_out ls _ _ _ hn.1, mapGet_mapSet, and_one_eq]
  | l' :: ls, x, acc, hn, i + 1, l, h => by
    rw [List.nodup_cons] at hn
    rw [List.getElem?_cons_succ] at h
    rw [unpackFlagsOnto, unpack_get ls _ _ hn.2 i l h, BitVec.getLsbD_ushiftRight, Nat.add_comm]

theorem loadFlagsWord_ok (n : Nat) (hn : n ≤ 64) (ptr : U32) (s : St σ)
    (hg : s.mem.len < 2 ^ 32 ∧ s.mem.len ≤ s.mem.cap) (hle : ptr.toNat + (sizeFlags n).toNat ≤ s.mem.len) :
    ∃ x, loadFlagsWord ptr (sizeFlags n) s = (.ok x, s) ∧ n ≤ 8 * (sizeFlags n).toNat ∧
      x.toNat = natAt s.mem ptr.toNat (sizeFlags n).toNat := by
  have hr : ∀ k, leNat (s.mem.read ptr.toNat k) < 256 ^ k := fun k => by
    have := leNat_lt (s.mem.read ptr.toNat k); rwa [Mem.read_length] at this
  obtain ⟨g1, g2⟩ := hg
  rcases sizeFlags_eq n hn with ⟨h, e⟩ | ⟨_, h, e⟩ | ⟨_, h, e⟩ | ⟨_, h, e⟩ | ⟨_, h, e⟩ <;> rw [e] at hle ⊢
  · exact ⟨0, rfl, by omega, rfl⟩
  · have l := loadInt_ok .u8 1 rfl ptr s (by omega) (by omega)
    have h1 := hr 1
    refine ⟨(BitVec.ofNat 8 (leNat (s.mem.read ptr.toNat 1))).setWidth 64, ?_, by show _ ≤ 8 * 1; omega, ?_⟩
    · unfold loadFlagsWord; exact SM.bind_ok (m := loadInt ptr .u8) l
    · rw [natAt_eq]; simp only [BitVec.toNat_setWidth, BitVec.toNat_ofNat]
      show _ = leNat (s.mem.read ptr.toNat 1)
      omega
  · have l := loadInt_ok .u16 2 rfl ptr s (by omega) (by omega)
    have h1 := hr 2
    refine ⟨(BitVec.ofNat 16 (leNat (s.mem.read ptr.toNat 2))).setWidth 64, ?_, by show _ ≤ 8 * 2; omega, ?_⟩
    · unfold loadFlagsWord; exact SM.bind_ok (m := loadInt ptr .u16) l
    · rw [natAt_eq]; simp only [BitVec.toNat_setWidth, BitVec.toNat_ofNat]
      show _ = leNat (s.mem.read ptr.toNat 2)
      omega
  · have l := loadInt_ok .u32 4 rfl ptr s (by omega) (by omega)
    have h1 := hr 4
    refine ⟨(BitVec.ofNat 32 (leNat (s.mem.read ptr.toNat 4))).setWidth 64, ?_, by show _ ≤ 8 * 4; omega, ?_⟩
    · unfold loadFlagsWord; exact SM.bind_ok (m := loadInt ptr .u32) l
    · rw [natAt_eq]; simp only [BitVec.toNat_setWidth, BitVec.toNat_ofNat]
      show _ = leNat (s.mem.read ptr.toNat 4)
      omega
  · have l := loadInt_ok .u64 8 rfl ptr s (by omega) (by omega)
    have h1 := hr 8
    refine ⟨BitVec.ofNat 64 (leNat (s.mem.read ptr.toNat 8)), ?_, by show _ ≤ 8 * 8; omega, ?_⟩
    · unfold loadFlagsWord; exact SM.bind_ok (m := loadInt ptr .u64) l
    · rw [natAt_eq]; simp only [BitVec.toNat_ofNat]
      show _ = leNat (s.mem.read ptr.toNat 8)
      omega

/-- C25, memory, up to 64 labels: loading flags gives exactly the labels of the type, label `i` the value of bit `i`.
Missing: more than 64 labels, where the code is wrong, see `flags_over_64`. -/
theorem load_flags_partial (E : Env σ) (ls : List String) (hd : ls.Nodup) (hl : ls.length ≤ 64) (ptr : U32) (s : St σ)
    (hg : s.mem.len < 2 ^ 32 ∧ s.mem.len ≤ s.mem.cap) (hle : ptr.toNat + Spec.size (.flags ls) ≤ s.mem.len) :
    ∃ m, load E (.flags ls) ptr s = (.ok (.map m), s) ∧ m.map Prod.fst = ls ∧
      ∀ (i : Nat) l, ls[i]? = some l → mapGet m l = .bool (bitAt s.mem ptr.toNat i) := by
  have hz := size_eq (.flags ls) (by simp [Laid]) (by omega)
  rw [Abi.size] at hz
  injection hz with hz
  have hz' : (sizeFlags ls.length).toNat = Spec.size (.flags ls) := by rw [hz, toNat_ofNat_lt (by omega)]
  obtain ⟨x, h1, h2, h3⟩ := loadFlagsWord_ok ls.length hl ptr s hg (by omega)
  refine ⟨unpackFlagsOnto ls x [], ?_, by rw [unpack_keys ls x [] hd (by simp)]; rfl, ?_⟩
  · rw [load]
    unfold loadFlags
    rw [SM.bind_ok h1]; rfl
  · intro i l hi
    have := (List.getElem?_eq_some_iff.1 hi).1
    rw [unpack_get ls x [] hd i l hi, ← natAt_testBit _ _ (sizeFlags ls.length).toNat _ (by omega), ← h3]; rfl

example : ["a", "b", "c", "d", "e", "f", "g", "h", "i"].Nodup ∧
    Spec.size (.flags ["a", "b", "c", "d", "e", "f", "g", "h", "i"]) = 2 := by decide

theorem sizeFlags_big (n : Nat) (h1 : 64 < n) (h2 : n < 2 ^ 32) :
    12 ≤ (sizeFlags n).toNat ∧ (sizeFlags n).toNat = 4 * ((n + 31) / 32) := by
  have e := size_eq (.flags (List.replicate n "")) (by simp [Laid]) (by
    simp only [Spec.size, List.length_replicate]
    rw [if_neg (by omega), if_neg (by omega), if_neg (by omega)]; omega)
  rw [Abi.size, List.length_replicate] at e
  injection e with e
  simp only [Spec.size, List.length_replicate] at e
  rw [if_neg (by omega), if_neg (by omega), if_neg (by omega)] at e
  rw [e, toNat_ofNat_lt (by omega)]
  omega

/-- Where the code fails C25: with more than 64 labels a store reports success without writing anything, and a load
reports an error. -/
theorem flags_over_64 (E : Env σ) (ls : List String) (h1 : 64 < ls.length) (h2 : ls.length < 2 ^ 32)
    (m : List (String × Val)) (hm : ∀ l ∈ ls, ∃ b, mapGet m l = .bool b) (ptr : U32) (s : St σ)
    (hg : s.mem.len < 2 ^ 32 ∧ s.mem.len ≤ s.mem.cap) (ha : 4 ∣ ptr.toNat)
    (hle : ptr.toNat + Spec.size (.flags ls) ≤ s.mem.len) :
    store E (.flags ls) (.map m) ptr s = (.ok (), s) ∧ load E (.flags ls) ptr s = (.err, s) := by
  obtain ⟨b1, b2⟩ := sizeFlags_big ls.length h1 h2
  have hsz : Spec.size (.flags ls) = 4 * ((ls.length + 31) / 32) := by
    simp only [Spec.size]
    rw [if_neg (by omega), if_neg (by omega), if_neg (by omega)]
  have hne : ∀ k : U32, k.toNat < 12 → ¬ sizeFlags ls.length = k := by
    intro k hk e; rw [e] at b1; omega
  constructor
  · have hal : align (.flags ls) ∣ ptr.toNat := by
      simp only [align]
      rw [if_neg (by omega), if_neg (by omega)]; exact ha
    obtain ⟨x, hx, -⟩ := packFlags_spec m ls 0 hm
    rw [store, SM.bind_ok (validate_ok _ ptr s (by simp [Laid]) hg hal hle)]
    unfold storeFlags
    simp only
    rw [hx, SM.bind_ok (SM.lift_def _ _), storeInt_eq]
    simp only [intInfo, if_true]
    rw [put_ok _ _ _ _ (slice_ok _ _ _ (by omega) (by omega)), if_neg (by
      rintro (h | h | h | h)
      · exact hne 1 (by decide) h
      · exact hne 2 (by decide) h
      · exact hne 4 (by decide) h
      · exact hne 8 (by decide) h)]
    have : s.mem.write ptr.toNat [] = s.mem := by
      have : (fun a => if ptr.toNat ≤ a ∧ a < ptr.toNat + ([] : List Byte).length then
        ([] : List Byte).getD (a - ptr.toNat) 0 else s.mem.data a) = s.mem.data := by
          funext a; rw [if_neg (by simp)]
      unfold Mem.write; rw [this]
    rw [this]
  · rw [load]
    unfold loadFlags
    apply SM.bind_err
    unfold loadFlagsWord
    apply SM.bind_err
    unfold loadIntWithSize
    rw [if_neg (hne 0 (by decide)), if_neg (hne 1 (by decide)), if_neg (hne 2 (by decide)), if_neg (hne 4 (by decide)),
      if_neg (hne 8 (by decide))]
    unfold loadInt
    rw [SM.bind_err]
    rfl

/-- 65 labels, all set. -/
example : 64 < (List.replicate 65 "x").length ∧ ∀ l ∈ List.replicate 65 "x", ∃ b, mapGet [("x", .bool true)] l = .bool b := by
  refine ⟨by simp, fun l hl => ⟨true, ?_⟩⟩
  rw [List.eq_of_mem_replicate hl]; rfl

/-! ## C26 -/

/-- C26. -/
theorem tagged_code_units (n : U32) (utf16 : Bool) (h : n.toNat < 2 ^ 31) :
    (toTagged (TaggedCodeUnits.toU32 ⟨n, utf16⟩)).codeUnits = n ∧
    (toTagged (TaggedCodeUnits.toU32 ⟨n, utf16⟩)).utf16 = utf16 := by
  rw [tagged_roundtrip ⟨n, utf16⟩ h]; exact ⟨rfl, rfl⟩

example : (0x7FFFFFFF : U32).toNat < 2 ^ 31 := by decide

end Verif.Abi
