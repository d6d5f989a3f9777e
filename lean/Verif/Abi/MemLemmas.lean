import Verif.Abi.Store
import Verif.Abi.Load
import Verif.Abi.ValueSpec
import Verif.Abi.LayoutLemmas

/-!
# Facts about bytes, integers, floats and tags
-/

namespace Verif.Abi

variable {σ : Type}

/-! ### Bytes and numbers -/

theorem leBytes_length : (n v : Nat) → (leBytes n v).length = n
  | 0, _ => rfl
  | n + 1, v => by rw [leBytes, List.length_cons, leBytes_length]

theorem leNat_leBytes : (n v : Nat) → leNat (leBytes n v) = v % 256 ^ n
  | 0, v => by simp [leBytes, leNat, Nat.mod_one]
  | n + 1, v => by
    rw [leBytes, leNat, leNat_leBytes n, BitVec.toNat_ofNat, Nat.pow_succ 256 n, Nat.mul_comm (256 ^ n) 256, Nat.mod_mul]

theorem leBytes_mod : (n v : Nat) → leBytes n (v % 256 ^ n) = leBytes n v
  | 0, _ => rfl
  | n + 1, v => by
    have h1 : v % 256 ^ (n + 1) / 256 = v / 256 % 256 ^ n := by
      rw [Nat.pow_succ, Nat.mul_comm (256 ^ n) 256, Nat.mod_mul_right_div_self]
    have h2 : BitVec.ofNat 8 (v % 256 ^ (n + 1)) = BitVec.ofNat 8 v := by
      apply BitVec.eq_of_toNat_eq
      rw [BitVec.toNat_ofNat, BitVec.toNat_ofNat]
      exact Nat.mod_mod_of_dvd v ⟨256 ^ n, by rw [Nat.pow_succ, Nat.mul_comm]⟩
    rw [leBytes, leBytes, h1, h2, leBytes_mod n]

theorem leNat_lt : (bs : List Byte) → leNat bs < 256 ^ bs.length
  | [] => by simp [leNat]
  | b :: bs => by
    have h1 := leNat_lt bs
    have h2 := b.isLt
    rw [leNat, List.length_cons, Nat.pow_succ]
    omega

/-! ### Reading and writing -/

namespace Mem

@[simp] theorem write_len (m : Mem) (p : Nat) (bs : List Byte) : (m.write p bs).len = m.len := rfl
@[simp] theorem write_cap (m : Mem) (p : Nat) (bs : List Byte) : (m.write p bs).cap = m.cap := rfl

theorem write_out (m : Mem) (p : Nat) (bs : List Byte) (x : Nat) (h : ¬ (p ≤ x ∧ x < p + bs.length)) :
    (m.write p bs).data x = m.data x := if_neg h

@[simp] theorem read_length (m : Mem) (p n : Nat) : (m.read p n).length = n := by simp [read]

theorem read_congr (m m' : Mem) (p n : Nat) (h : ∀ x, p ≤ x → x < p + n → m'.data x = m.data x) :
    m'.read p n = m.read p n := by
  unfold read
  apply List.map_congr_left
  intro i hi
  rw [List.mem_range] at hi
  exact h _ (by omega) (by omega)

theorem read_write (m : Mem) (p : Nat) (bs : List Byte) : (m.write p bs).read p bs.length = bs := by
  apply List.ext_getElem
  · simp
  · intro i h1 h2
    simp only [read, List.getElem_map, List.getElem_range, write]
    rw [if_pos (by omega), Nat.add_sub_cancel_left, List.getD_eq_getElem?_getD, List.getElem?_eq_getElem h2, Option.getD_some]

end Mem

/-- What is read from bytes just written is what was written, as long as nobody changes them. -/
theorem read_written (m m' : Mem) (p n v : Nat)
    (h : ∀ x, p ≤ x → x < p + n → m'.data x = (m.write p (leBytes n v)).data x) :
    leNat (m'.read p n) = v % 256 ^ n := by
  have h1 := Mem.read_write m p (leBytes n v)
  rw [leBytes_length] at h1
  rw [Mem.read_congr _ _ p n h, h1, leNat_leBytes]

/-! ### Floats -/

theorem isNaN32_iff (x : BitVec 32) : isNaN32 x = true ↔ Spec.IsNaN32 x := by
  unfold isNaN32 Spec.IsNaN32
  rw [decide_eq_true_eq, ← BitVec.toNat_inj, Ne, ← BitVec.toNat_inj, BitVec.extractLsb'_toNat, BitVec.extractLsb'_toNat]
  simp only [Nat.shiftRight_eq_div_pow, BitVec.toNat_ofNat]
  have := x.isLt
  omega

theorem isNaN64_iff (x : BitVec 64) : isNaN64 x = true ↔ Spec.IsNaN64 x := by
  unfold isNaN64 Spec.IsNaN64
  rw [decide_eq_true_eq, ← BitVec.toNat_inj, Ne, ← BitVec.toNat_inj, BitVec.extractLsb'_toNat, BitVec.extractLsb'_toNat]
  simp only [Nat.shiftRight_eq_div_pow, BitVec.toNat_ofNat]
  have := x.isLt
  omega

theorem canon32_eq (x : BitVec 32) : canon32 x = Spec.canonical32 x := by
  unfold canon32 Spec.canonical32
  by_cases h : isNaN32 x = true
  · rw [if_pos h, if_pos ((isNaN32_iff x).1 h)]; rfl
  · rw [if_neg h, if_neg (fun c => h ((isNaN32_iff x).2 c))]

theorem canon64_eq (x : BitVec 64) : canon64 x = Spec.canonical64 x := by
  unfold canon64 Spec.canonical64
  by_cases h : isNaN64 x = true
  · rw [if_pos h, if_pos ((isNaN64_iff x).1 h)]; rfl
  · rw [if_neg h, if_neg (fun c => h ((isNaN64_iff x).2 c))]

theorem canon32_idem (x : BitVec 32) : canon32 (canon32 x) = canon32 x := by
  unfold canon32
  by_cases h : isNaN32 x = true
  · rw [if_pos h]; decide
  · rw [if_neg h, if_neg h]

theorem canon64_idem (x : BitVec 64) : canon64 (canon64 x) = canon64 x := by
  unfold canon64
  by_cases h : isNaN64 x = true
  · rw [if_pos h]; decide
  · rw [if_neg h, if_neg h]

/-! ### Tags -/

theorem tag_and (x : U32) (h : x.toNat < 2 ^ 31) : x &&& utf16Tag = 0 := by
  apply BitVec.eq_of_getLsbD_eq
  intro i hi
  rw [BitVec.getLsbD_and]
  by_cases e : i = 31
  · subst e
    have : x.getLsbD 31 = false := by
      rw [BitVec.getLsbD, Nat.testBit_lt_two_pow (by omega)]
    rw [this]; simp
  · have : utf16Tag.getLsbD i = false := by
      have : ∀ j : Fin 32, j.val ≠ 31 → utf16Tag.getLsbD j.val = false := by decide
      exact this ⟨i, hi⟩ e
    rw [this]; simp

theorem tag_getLsbD (i : Nat) (hi : i < 32) : utf16Tag.getLsbD i = decide (i = 31) := by
  have : ∀ j : Fin 32, utf16Tag.getLsbD j.val = decide (j.val = 31) := by decide
  exact this ⟨i, hi⟩

theorem top_of_lt (x : U32) (h : x.toNat < 2 ^ 31) : x.getLsbD 31 = false := by
  rw [BitVec.getLsbD, Nat.testBit_lt_two_pow (by omega)]

theorem and_not_tag (n : U32) (h : n.toNat < 2 ^ 31) (b : Bool) :
    (if b then n ||| utf16Tag else n) &&& ~~~utf16Tag = n := by
  apply BitVec.eq_of_getLsbD_eq
  intro i hi
  rw [BitVec.getLsbD_and, BitVec.getLsbD_not, tag_getLsbD i hi]
  by_cases e : i = 31
  · subst e
    rw [top_of_lt n h]; simp
  · cases b
    · simp only [Bool.false_eq_true, if_false, e, decide_false, hi, decide_true, Bool.not_false, Bool.and_self, Bool.and_true]
    · simp only [if_true]
      rw [BitVec.getLsbD_or, tag_getLsbD i hi]
      simp only [e, decide_false, hi, decide_true, Bool.not_false, Bool.and_self, Bool.and_true, Bool.or_false]

theorem and_tag (n : U32) (h : n.toNat < 2 ^ 31) (b : Bool) :
    ((if b then n ||| utf16Tag else n) &&& utf16Tag != 0) = b := by
  cases b
  · simp only [Bool.false_eq_true, if_false]
    rw [tag_and n h]; rfl
  · simp only [if_true]
    rw [bne_iff_ne]
    intro hc
    have h1 : ((n ||| utf16Tag) &&& utf16Tag).getLsbD 31 = (0 : U32).getLsbD 31 := by rw [hc]
    rw [BitVec.getLsbD_and, BitVec.getLsbD_or, tag_getLsbD 31 (by omega)] at h1
    simp only [decide_true, Bool.or_true, Bool.and_self] at h1
    cases h1

/-- Both parts of the tagged word are recovered. -/
theorem tagged_roundtrip (t : TaggedCodeUnits) (h : t.codeUnits.toNat < 2 ^ 31) : toTagged t.toU32 = t := by
  obtain ⟨n, b⟩ := t
  unfold toTagged TaggedCodeUnits.toU32
  rw [and_not_tag n h, and_tag n h]

/-! ### StoreInt -/

/-- The range checks of `StoreInt` never fail: the bounds are those of the value's own Go type. -/
theorem intInfo_range (v : Val) (i : IntInfo) (h : intInfo v = .ok i) :
    (i.sign = false → (i.u64.toNat : Int) ≤ i.max) ∧ (i.sign = true → i.min ≤ i.u64.toInt ∧ i.u64.toInt ≤ i.max) := by
  cases v with
  | u8 x =>
    injection h with h; subst h
    refine ⟨fun _ => ?_, fun c => by cases c⟩
    rw [BitVec.toNat_setWidth_of_le (by omega)]
    have := x.isLt; simp only; omega
  | u16 x =>
    injection h with h; subst h
    refine ⟨fun _ => ?_, fun c => by cases c⟩
    rw [BitVec.toNat_setWidth_of_le (by omega)]
    have := x.isLt; simp only; omega
  | u32 x =>
    injection h with h; subst h
    refine ⟨fun _ => ?_, fun c => by cases c⟩
    rw [BitVec.toNat_setWidth_of_le (by omega)]
    have := x.isLt; simp only; omega
  | u64 x =>
    injection h with h; subst h
    refine ⟨fun _ => ?_, fun c => by cases c⟩
    have := x.isLt; simp only; omega
  | s8 x =>
    injection h with h; subst h
    refine ⟨(fun c => by cases c), fun _ => ?_⟩
    simp only
    rw [BitVec.toInt_signExtend_of_le (by omega)]
    have h1 := BitVec.le_toInt x
    have h2 := BitVec.toInt_lt (x := x)
    simp only [Nat.reduceSub] at h1 h2
    omega
  | s16 x =>
    injection h with h; subst h
    refine ⟨(fun c => by cases c), fun _ => ?_⟩
    simp only
    rw [BitVec.toInt_signExtend_of_le (by omega)]
    have h1 := BitVec.le_toInt x
    have h2 := BitVec.toInt_lt (x := x)
    simp only [Nat.reduceSub] at h1 h2
    omega
  | s32 x =>
    injection h with h; subst h
    refine ⟨(fun c => by cases c), fun _ => ?_⟩
    simp only
    rw [BitVec.toInt_signExtend_of_le (by omega)]
    have h1 := BitVec.le_toInt x
    have h2 := BitVec.toInt_lt (x := x)
    simp only [Nat.reduceSub] at h1 h2
    omega
  | s64 x =>
    injection h with h; subst h
    refine ⟨(fun c => by cases c), fun _ => ?_⟩
    have h1 := BitVec.le_toInt x
    have h2 := BitVec.toInt_lt (x := x)
    simp only [Nat.reduceSub] at h1 h2
    simp only
    omega
  | int _ => cases h
  | uint _ => cases h
  | _ => injection h with h; subst h; exact ⟨fun _ => by decide, fun c => by cases c⟩

/-- A store to memory between two slice bounds. -/
def put (ptr n : U32) (bs : List Byte) : SM (St σ) Unit := fun s =>
  match s.mem.slice ptr (ptr + n) with
  | .ok _ => (.ok (), { s with mem := s.mem.write ptr.toNat bs })
  | _ => (.panic, s)

theorem slice_cases (m : Mem) (lo hi : U32) :
    (m.slice lo hi = .ok () ∧ lo.toNat ≤ hi.toNat ∧ hi.toNat ≤ m.cap) ∨ m.slice lo hi = .panic := by
  unfold Mem.slice
  split
  · rename_i h; exact .inl ⟨rfl, h⟩
  · exact .inr rfl

theorem slice_ok (m : Mem) (p n : U32) (h : p.toNat + n.toNat < 2 ^ 32) (hc : p.toNat + n.toNat ≤ m.cap) :
    m.slice p (p + n) = .ok () := by
  unfold Mem.slice
  rw [BitVec.toNat_add, Nat.mod_eq_of_lt h, if_pos ⟨by omega, hc⟩]

theorem put_ok (ptr n : U32) (bs : List Byte) (s : St σ) (h : s.mem.slice ptr (ptr + n) = .ok ()) :
    put ptr n bs s = (.ok (), { s with mem := s.mem.write ptr.toNat bs }) := by
  unfold put; rw [h]

theorem put_panic (ptr n : U32) (bs : List Byte) (s : St σ) (h : s.mem.slice ptr (ptr + n) = .panic) :
    put ptr n bs s = (.panic, s) := by
  unfold put; rw [h]

/-- `StoreInt` in one equation. -/
theorem storeInt_eq (v : Val) (ptr n : U32) (signed : Bool) (s : St σ) :
    storeInt v ptr n signed s = match intInfo v with
      | .ok i => if i.sign = signed then
          put ptr n (if n = 1 ∨ n = 2 ∨ n = 4 ∨ n = 8 then leBytes n.toNat i.u64.toNat else []) s else (.err, s)
      | _ => (.err, s) := by
  unfold storeInt
  rcases hi : intInfo v with i | _ | _ | _
  · rw [SM.bind_ok (SM.lift_def _ _)]
    obtain ⟨r1, r2⟩ := intInfo_range v i hi
    by_cases hs : i.sign = signed
    · subst hs
      have n1 : ¬ (¬ i.sign = true ∧ (i.u64.toNat : Int) > i.max) := by
        rintro ⟨c1, c2⟩
        have := r1 (by simpa using c1); omega
      have n2 : ¬ (i.sign = true ∧ (i.u64.toInt > i.max ∨ i.u64.toInt < i.min)) := by
        rintro ⟨c1, c2⟩
        have := r2 c1; omega
      rw [SM.ite_app, if_neg (by simp), SM.ite_app, if_neg n1, SM.ite_app, if_neg n2, SM.bind_get]
      show _ = if i.sign = i.sign then _ else _
      rw [if_pos rfl]
      rcases slice_cases s.mem ptr (ptr + n) with ⟨h, -⟩ | h
      · rw [h, SM.bind_ok (SM.lift_def _ _), SM.ite_app, put_ok _ _ _ _ h]
        by_cases hn : n = 1 ∨ n = 2 ∨ n = 4 ∨ n = 8
        · rw [if_pos hn, if_pos hn]; rfl
        · rw [if_neg hn, if_neg hn]
          have : s.mem.write ptr.toNat [] = s.mem := by
            have : (fun a => if ptr.toNat ≤ a ∧ a < ptr.toNat + ([] : List Byte).length then
              ([] : List Byte).getD (a - ptr.toNat) 0 else s.mem.data a) = s.mem.data := by
                funext a; rw [if_neg (by simp)]
            unfold Mem.write; rw [this]
          rw [this]; rfl
      · rw [h, SM.bind_panic (SM.lift_def _ _), put_panic _ _ _ _ h]
    · rw [SM.ite_app, if_pos hs]
      show _ = if i.sign = signed then _ else _
      rw [if_neg hs]; rfl
  · rw [SM.bind_err (SM.lift_def _ _)]
  · cases v <;> cases hi
  · cases v <;> cases hi

theorem storeUInt32_eq (x ptr : U32) (s : St σ) : storeUInt32 x ptr s = put ptr 4 (leBytes 4 x.toNat) s := by
  unfold storeUInt32
  rw [SM.bind_get]
  rcases slice_cases s.mem ptr (ptr + 4) with ⟨h, -⟩ | h
  · rw [h, SM.bind_ok (SM.lift_def _ _), put_ok _ _ _ _ h]; rfl
  · rw [h, SM.bind_panic (SM.lift_def _ _), put_panic _ _ _ _ h]

/-! ### LoadInt -/

theorem loadBytes_eq (ptr n : U32) (s : St σ) : loadBytes ptr n s = match s.mem.slice ptr (ptr + n) with
    | .ok _ => (.ok (leNat (s.mem.read ptr.toNat n.toNat)), s)
    | _ => (.panic, s) := by
  unfold loadBytes
  rw [SM.bind_get]
  rcases slice_cases s.mem ptr (ptr + n) with ⟨h, -⟩ | h
  · rw [h, SM.bind_ok (SM.lift_def _ _)]; rfl
  · rw [h, SM.bind_panic (SM.lift_def _ _)]

theorem loadBytes_ok (ptr n : U32) (s : St σ) (h : ptr.toNat + n.toNat < 2 ^ 32)
    (hc : ptr.toNat + n.toNat ≤ s.mem.cap) :
    loadBytes ptr n s = (.ok (leNat (s.mem.read ptr.toNat n.toNat)), s) := by
  rw [loadBytes_eq, slice_ok _ _ _ h hc]

theorem loadInt_ok (t : Ty) (n : U32) (hn : size t = .ok n) (ptr : U32) (s : St σ)
    (h : ptr.toNat + n.toNat < 2 ^ 32) (hc : ptr.toNat + n.toNat ≤ s.mem.cap) :
    loadInt ptr t s = (.ok (intVal t (leNat (s.mem.read ptr.toNat n.toNat))), s) := by
  unfold loadInt
  rw [hn, SM.bind_ok (SM.lift_def _ _), SM.bind_ok (loadBytes_ok ptr n s h hc)]; rfl

theorem loadUInt32_ok (ptr : U32) (s : St σ) (h : ptr.toNat + 4 < 2 ^ 32) (hc : ptr.toNat + 4 ≤ s.mem.cap) :
    loadUInt32 ptr s = (.ok (BitVec.ofNat 32 (leNat (s.mem.read ptr.toNat 4))), s) := by
  unfold loadUInt32
  rw [SM.bind_ok (loadInt_ok .u32 4 rfl ptr s h hc)]; rfl

theorem loadUInt64_ok (ptr : U32) (s : St σ) (h : ptr.toNat + 8 < 2 ^ 32) (hc : ptr.toNat + 8 ≤ s.mem.cap) :
    loadUInt64 ptr s = (.ok (BitVec.ofNat 64 (leNat (s.mem.read ptr.toNat 8))), s) := by
  unfold loadUInt64
  rw [SM.bind_ok (loadInt_ok .u64 8 rfl ptr s h hc)]; rfl

end Verif.Abi
