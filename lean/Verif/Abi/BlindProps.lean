import Verif.Abi.BlindLemmas
import Verif.Abi.CanonProps

/-!
# Property C126: lowering does not look at the guest's memory
-/

namespace Verif.Abi
open Spec

variable {σ : Type}

/-- **C126, `Store`.** Two memories of the same size, different in any bytes the allocator does not look at. `Store` of any
Go value at any type to any address has the same outcome on both, leaves the allocator and the handles in the same state,
and writes the same bytes to the same addresses; every other byte is left as it was. -/
theorem store_ignores_memory (E : Env σ) (K : Nat → Prop) (hE : LooksAt E K) (t : VT) (v : Val) (ptr : U32) (m n : Mem)
    (hm : Twins K m n) (h : σ) (w : Handles.World) :
    (t.store E v ptr ⟨m, h, w⟩).1 = (t.store E v ptr ⟨n, h, w⟩).1 ∧
    (t.store E v ptr ⟨m, h, w⟩).2.heap = (t.store E v ptr ⟨n, h, w⟩).2.heap ∧
    (t.store E v ptr ⟨m, h, w⟩).2.world = (t.store E v ptr ⟨n, h, w⟩).2.world ∧
    SameWrites m n (t.store E v ptr ⟨m, h, w⟩).2.mem (t.store E v ptr ⟨n, h, w⟩).2.mem :=
  (store_blindly hE t.core v ptr).run ⟨m, h, w⟩ ⟨n, h, w⟩ ⟨hm, rfl, rfl⟩

/-- **C126, `LowerFlat`.** So the core values are the same. -/
theorem lower_ignores_memory (E : Env σ) (K : Nat → Prop) (hE : LooksAt E K) (t : VT) (v : Val) (m n : Mem)
    (hm : Twins K m n) (h : σ) (w : Handles.World) :
    (t.lower E v ⟨m, h, w⟩).1 = (t.lower E v ⟨n, h, w⟩).1 ∧
    (t.lower E v ⟨m, h, w⟩).2.heap = (t.lower E v ⟨n, h, w⟩).2.heap ∧
    (t.lower E v ⟨m, h, w⟩).2.world = (t.lower E v ⟨n, h, w⟩).2.world ∧
    SameWrites m n (t.lower E v ⟨m, h, w⟩).2.mem (t.lower E v ⟨n, h, w⟩).2.mem :=
  (lowerFlat_blindly hE t.core v).run ⟨m, h, w⟩ ⟨n, h, w⟩ ⟨hm, rfl, rfl⟩

/-! ## Examples -/

/-- The allocator of the examples looks at no byte of memory. -/
theorem bump_looks (enc : String) (K : Nat → Prop) : LooksAt (bumpEnv enc) K := by
  intro a n m m' h ht
  show (bumpAlloc a n (m, h)).1 = (bumpAlloc a n (m', h)).1 ∧ (bumpAlloc a n (m, h)).2.2 = (bumpAlloc a n (m', h)).2.2 ∧
    SameWrites m m' (bumpAlloc a n (m, h)).2.1 (bumpAlloc a n (m', h)).2.1
  unfold bumpAlloc
  simp only [ht.len]
  split <;> exact ⟨rfl, rfl, .refl ht⟩

/-- An allocator that has its only variable, the first free byte, in the first four bytes of memory. -/
def inMemEnv : Env Unit :=
  ⟨"utf-8", fun a n p =>
    if a = 0 ∨ p.1.len < alignUp (natAt p.1 0 4) a.toNat + n.toNat then (.err, p)
    else (.ok (BitVec.ofNat 32 (alignUp (natAt p.1 0 4) a.toNat)),
      (p.1.write 0 (leBytes 4 (alignUp (natAt p.1 0 4) a.toNat + n.toNat)), ())), 0, 0, ⟨fun _ => none, fun _ => false⟩⟩

/-- It looks at these bytes only. -/
theorem inMem_looks : LooksAt inMemEnv (· < 4) := by
  intro a n m m' h ht
  have hn : natAt m 0 4 = natAt m' 0 4 := by
    simp only [natAt]
    rw [ht.agree 0 (by show 0 < 4; omega), ht.agree (0 + 1) (by show 0 + 1 < 4; omega),
      ht.agree (0 + 1 + 1) (by show 0 + 1 + 1 < 4; omega), ht.agree (0 + 1 + 1 + 1) (by show 0 + 1 + 1 + 1 < 4; omega)]
  simp only [inMemEnv, hn, ht.len]
  split
  · exact ⟨rfl, trivial, .refl ht⟩
  · refine ⟨rfl, trivial, ht.len, ht.cap, fun x => ?_⟩
    unfold Mem.write
    simp only
    split
    · exact .inl rfl
    · exact .inr ⟨rfl, rfl⟩

/-- Two memories that differ everywhere but there; both lowerings succeed, with the same core values. -/
example : Twins (· < 4) ⟨fun x => if x = 0 then 64 else 0, 256, 256⟩ ⟨fun x => if x = 0 then 64 else if x < 4 then 0 else 0xFF, 256, 256⟩ ∧
    (exTy.lower inMemEnv exVal ⟨⟨fun x => if x = 0 then 64 else 0, 256, 256⟩, (), Handles.World.init⟩).1 =
      .ok [.u32 1, .u32 64, .u32 6, .u32 72, .u32 2, .u32 1, .u32 7, .u32 300, .u32 1] ∧
    (exTy.lower inMemEnv exVal ⟨⟨fun x => if x = 0 then 64 else if x < 4 then 0 else 0xFF, 256, 256⟩, (), Handles.World.init⟩).1 =
      .ok [.u32 1, .u32 64, .u32 6, .u32 72, .u32 2, .u32 1, .u32 7, .u32 300, .u32 1] := by
  refine ⟨⟨rfl, rfl, fun x hx => ?_⟩, by decide, by decide⟩
  by_cases h : x = 0
  · simp [h]
  · simp only [if_neg h, if_pos hx]

end Verif.Abi
