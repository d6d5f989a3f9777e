import Verif.Abi.CaseProps
import Verif.Abi.FullMemory

/-!
# Scalars and discriminants in memories of any length (C23, C24, C65, C66)

The theorems of `ScalarProps`, `CaseProps` and `NarrowProps` say what loads and stores come to in memories shorter than
`2 ^ 32` bytes, where an access inside the memory cannot panic. Those here have no hypothesis on the memory and the
address at all: they say what a value that is given can be, in memories of any length, the largest included (C96).
-/

namespace Verif.Abi

open Spec

variable {σ : Type}

/-- A read of `n` bytes, in any memory: it panics, or gives the bytes there. -/
theorem loadInt_any (t : Ty) (n : U32) (hn : Abi.size t = .ok n) (ptr : U32) (s : St σ) :
    loadInt ptr t s = (.ok (intVal t (natAt s.mem ptr.toNat n.toNat)), s) ∨ loadInt ptr t s = (.panic, s) := by
  unfold loadInt
  rw [hn, SM.bind_ok (SM.lift_def _ _)]
  rcases slice_cases s.mem ptr (ptr + n) with ⟨e, -⟩ | e
  · left
    rw [SM.bind_ok (show loadBytes ptr n s = (.ok (leNat (s.mem.read ptr.toNat n.toNat)), s) by rw [loadBytes_eq, e]),
      natAt_eq]; rfl
  · right
    rw [SM.bind_panic (show loadBytes ptr n s = (.panic, s) by rw [loadBytes_eq, e])]

/-- **C23, in every memory.** A char that is loaded is the word at its address, and that is a Unicode scalar value. -/
theorem load_char_any (E : Env σ) (ptr : U32) (s s' : St σ) (v : Val) (h : load E .char ptr s = (.ok v, s')) :
    ∃ x : U32, x.toNat = natAt s.mem ptr.toNat 4 ∧ IsScalar x ∧ v = .s32 x ∧ s' = s := by
  rw [load, loadChar, show loadIntWithSize ptr 4 false = loadInt (σ := σ) ptr .u32 from rfl] at h
  rcases loadInt_any .u32 4 rfl ptr s with e | e
  · rw [SM.bind_ok e] at h
    simp only [intVal] at h
    obtain ⟨r, s1, h1, h2⟩ := SM.bind_eq_ok.1 h
    obtain ⟨h3, rfl⟩ := lift_inv h1
    rw [convert_iff] at h3
    split at h3
    · rename_i hs
      injection h3 with h3
      injection h2 with h2 h4
      injection h2 with h2
      refine ⟨r, ?_, h3 ▸ hs, h2.symm, h4.symm⟩
      rw [← h3, BitVec.toNat_ofNat, show (4 : U32).toNat = 4 from rfl, natAt_eq, Nat.mod_eq_of_lt]
      have := leNat_lt (s1.mem.read ptr.toNat 4)
      rw [Mem.read_length] at this
      omega
    · cases h3
  · rw [SM.bind_panic e] at h; cases h

/-- **C24, in every memory.** A float that is loaded is the canonical form of the bits at its address. -/
theorem load_float_any (E : Env σ) (ptr : U32) (s s' : St σ) (v : Val) :
    (load E .f32 ptr s = (.ok v, s') → v = .f32 (canonical32 (BitVec.ofNat 32 (natAt s.mem ptr.toNat 4))) ∧ s' = s) ∧
    (load E .f64 ptr s = (.ok v, s') → v = .f64 (canonical64 (BitVec.ofNat 64 (natAt s.mem ptr.toNat 8))) ∧ s' = s) := by
  constructor
  · intro h
    rw [load, loadFloat32, loadUInt32] at h
    rcases loadInt_any .u32 4 rfl ptr s with e | e
    · rw [SM.bind_def, SM.bind_ok e] at h
      injection h with h h1
      injection h with h
      exact ⟨by rw [← h, canon32_eq]; rfl, h1.symm⟩
    · rw [SM.bind_def, SM.bind_panic e] at h; cases h
  · intro h
    rw [load, loadFloat64, loadUInt64] at h
    rcases loadInt_any .u64 8 rfl ptr s with e | e
    · rw [SM.bind_def, SM.bind_ok e] at h
      injection h with h h1
      injection h with h
      exact ⟨by rw [← h, canon64_eq]; rfl, h1.symm⟩
    · rw [SM.bind_def, SM.bind_panic e] at h; cases h

/-- A store of a word: where it succeeds, the word is there. -/
theorem storeInt_any (v : Val) (i : IntInfo) (hi : intInfo v = .ok i) (n : U32) (hn : n = 4 ∨ n = 8)
    (hv : i.u64.toNat < 256 ^ n.toNat) (ptr : U32) (s s' : St σ) (h : storeInt v ptr n false s = (.ok (), s')) :
    natAt s'.mem ptr.toNat n.toNat = i.u64.toNat := by
  rw [storeInt_eq, hi] at h
  simp only at h
  split at h
  · rcases slice_cases s.mem ptr (ptr + n) with ⟨e, -⟩ | e
    · rw [put_ok _ _ _ _ e, if_pos (by rcases hn with rfl | rfl <;> decide)] at h
      injection h with _ h
      subst h
      rw [natAt_eq]
      have := Mem.read_write s.mem ptr.toNat (leBytes n.toNat i.u64.toNat)
      rw [leBytes_length] at this
      simp only
      rw [this, leNat_leBytes, Nat.mod_eq_of_lt hv]
    · rw [put_panic _ _ _ _ e] at h; cases h
  · cases h

/-- **C24, in every memory.** A float that is stored leaves the bits of its canonical form at its address. -/
theorem store_float_any (E : Env σ) (ptr : U32) (s s' : St σ) (x : BitVec 32) (y : BitVec 64) :
    (store E .f32 (.f32 x) ptr s = (.ok (), s') → natAt s'.mem ptr.toNat 4 = (canonical32 x).toNat) ∧
    (store E .f64 (.f64 y) ptr s = (.ok (), s') → natAt s'.mem ptr.toNat 8 = (canonical64 y).toNat) := by
  have hx := (canon32 x).isLt
  constructor
  · intro h
    rw [store] at h
    obtain ⟨_, s1, -, h2⟩ := SM.bind_eq_ok.1 h
    have h3 : storeInt (.u32 (canon32 x)) ptr 4 false s1 = (.ok (), s') := h2
    have := storeInt_any _ _ rfl 4 (.inl rfl) (by
      simp only [BitVec.toNat_setWidth]
      exact Nat.lt_of_le_of_lt (Nat.mod_le _ _) hx) ptr s1 s' h3
    rw [← canon32_eq]
    simp only [BitVec.toNat_setWidth] at this
    rw [Nat.mod_eq_of_lt (by omega)] at this
    exact this
  · intro h
    rw [store] at h
    obtain ⟨_, s1, -, h2⟩ := SM.bind_eq_ok.1 h
    have h3 : storeInt (.u64 (canon64 y)) ptr 8 false s1 = (.ok (), s') := h2
    have := storeInt_any _ _ rfl 8 (.inr rfl) (canon64 y).isLt ptr s1 s' h3
    rw [← canon64_eq]
    exact this

/-- **C65, in every memory.** A bool that is loaded is false for zero and true for every other byte. -/
theorem load_bool_any (E : Env σ) (ptr : U32) (s s' : St σ) (v : Val) (h : VT.bool.load E ptr s = (.ok v, s')) :
    v = .bool (decide ((s.mem.data ptr.toNat).toNat ≠ 0)) ∧ s' = s := by
  have h : loadBool ptr s = (.ok v, s') := by rw [VT.load, VT.core, load] at h; exact h
  rw [loadBool] at h
  rcases loadInt_any .u8 1 rfl ptr s with e | e
  · rw [SM.bind_ok e] at h
    injection h with h h1
    injection h with h
    refine ⟨?_, h1.symm⟩
    rw [← h]
    simp only [show (1 : U32).toNat = 1 from rfl, natAt, Nat.mul_zero, Nat.add_zero, BitVec.ofNat_toNat,
      BitVec.setWidth_eq]
    congr 1
    generalize s.mem.data ptr.toNat = b
    by_cases hb : b = 0
    · subst hb; rfl
    · have : b.toNat ≠ 0 := fun c => hb (BitVec.eq_of_toNat_eq c)
      rw [decide_eq_true this]
      exact bne_iff_ne.2 hb
  · rw [SM.bind_panic e] at h; cases h

/-- **C66, in every memory.** A discriminant in memory that is not the number of a case gives no value: an error, or the
panic of an access that leaves the capacity or ends at the last byte of the largest memory. -/
theorem load_discriminant_any (E : Env σ) (t : VT) (n : Nat) (hn : t.caseCount = some n) (h1 : 1 ≤ n) (h2 : n ≤ 2 ^ 24)
    (ptr : U32) (s : St σ) (hd : n ≤ natAt s.mem ptr.toNat (discBytes n)) :
    t.load E ptr s = (.err, s) ∨ t.load E ptr s = (.panic, s) ∧
      (s.mem.cap < ptr.toNat + discBytes n ∨ 2 ^ 32 ≤ ptr.toNat + discBytes n) := by
  obtain ⟨cs, hc, rfl⟩ := t.core_cases n hn
  show Abi.load E t.core ptr s = _ ∨ Abi.load E t.core ptr s = _ ∧ _
  obtain ⟨d, hdt⟩ : ∃ d, discriminantType cs.length = .ok d := ⟨_, discriminantType_eq _ h1 h2⟩
  have hb := disc_bytes _ _ hdt
  rw [hc, load, hdt, SM.bind_ok (SM.lift_def _ _)]
  rcases loadInt_any d.ty d.bytes (disc_size d) ptr s with e | e
  · left
    obtain ⟨x, hx⟩ : ∃ x, loadDisc ptr d s = (.ok x, s) := by
      unfold loadDisc
      rw [SM.bind_ok e]
      cases d <;> exact ⟨_, rfl⟩
    have hxn := (loadDisc_inv _ _ hdt ptr s s x hx).2
    rw [SM.bind_ok hx, disc_size, SM.bind_ok (SM.lift_def _ _), SM.ite_app, if_pos]
    · rfl
    · rw [BitVec.toNat_ofNat, Nat.mod_eq_of_lt (by omega)]; omega
  · right
    rw [SM.bind_panic (show loadDisc ptr d s = (.panic, s) by unfold loadDisc; rw [SM.bind_panic e])]
    refine ⟨rfl, ?_⟩
    rw [← hb]
    rcases Nat.lt_or_ge s.mem.cap (ptr.toNat + d.bytes.toNat) with h | h
    · exact .inl h
    · rcases Nat.lt_or_ge (ptr.toNat + d.bytes.toNat) (2 ^ 32) with h' | h'
      · rw [loadInt_ok d.ty d.bytes (disc_size d) ptr s h' h] at e
        cases e
      · exact .inr h'

/-- The hypotheses are met in a memory of `2 ^ 32` bytes, where the theorems for shorter memories say nothing: a float
that is a NaN, a char, a bool and a discriminant out of range. -/
example : let s : St Unit := ⟨⟨fun p => if p < 2 then 0xC1#8 else if p = 2 then 0xFF#8 else if p = 3 then 0x7F#8 else
      if p = 16 then 65#8 else 0, 2 ^ 32, 2 ^ 32⟩, (), Handles.World.init⟩
    let E : Env Unit := ⟨"utf-8", fun _ _ s => (.err, s), 0, 0, ⟨fun _ => none, fun _ => false⟩⟩
    load E .f32 0 s = (.ok (.f32 0x7FC00000), s) ∧ load E .char 16 s = (.ok (.s32 65), s) ∧
    VT.bool.load E 16 s = (.ok (.bool true), s) ∧ (VT.enum ["a", "b"]).load E 16 s = (.err, s) := by
  exact ⟨rfl, rfl, rfl, rfl⟩

example : let s : St Unit := ⟨⟨fun _ => 0, 16, 16⟩, (), Handles.World.init⟩
    let E : Env Unit := ⟨"utf-8", fun _ _ s => (.err, s), 0, 0, ⟨fun _ => none, fun _ => false⟩⟩
    (store E .f32 (.f32 0xFFC00001) 4 s).1 = .ok () ∧ natAt (store E .f32 (.f32 0xFFC00001) 4 s).2.mem 4 4 = 0x7FC00000 := by
  exact ⟨rfl, rfl⟩

end Verif.Abi
