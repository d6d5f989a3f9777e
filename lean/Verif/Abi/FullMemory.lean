import Verif.Abi.ScalarProps
import Verif.Abi.FrameProps

/-!
# C96: memories of the largest size

WebAssembly allows a memory of 65536 pages, which is `2 ^ 32` bytes. The code compares addresses with
`uint32(Memory.Len())`, which is 0 for such a memory.
-/

namespace Verif.Abi
open Spec
variable {σ : Type}

/-- **C96, where it fails.** In a memory of `2 ^ 32` bytes every store, of whatever value, is refused although it is
aligned and inside the memory; only a slot that ends at the last byte passes the check (and panics, see
`full_memory_last_word`). -/
theorem full_memory_store_refused (E : Env σ) (t : VT) (v : Val) (ptr : U32) (s : St σ) (hl : Laid t.core)
    (hm : s.mem.len = 2 ^ 32) (hp : 0 < ptr.toNat + Spec.size t.core) (hw : ptr.toNat + Spec.size t.core < 2 ^ 32) :
    t.store E v ptr s = (.err, s) := by
  unfold VT.store
  generalize t.core = t at *
  obtain ⟨m, e⟩ := store_validates E t v ptr
  rw [e]
  apply SM.bind_err
  unfold storeValidate
  rw [alignment_eq t hl, SM.bind_ok (SM.lift_def _ _), SM.ite_app]
  split
  · rfl
  · rw [size_eq t hl (by omega), SM.bind_ok (SM.lift_def _ _), SM.bind_get, SM.ite_app, if_pos]
    · rfl
    · rw [BitVec.toNat_add, toNat_ofNat_lt (by omega), Mem.len32, hm, Nat.mod_eq_of_lt (by omega)]
      simpa using hp

/-- A byte at address 0 and an eight byte integer in the middle of the memory. -/
example : 0 < (0 : U32).toNat + Spec.size VT.u8.core ∧ (0 : U32).toNat + Spec.size VT.u8.core < 2 ^ 32 ∧
    (0x80000000 : U32).toNat + Spec.size VT.u64.core < 2 ^ 32 ∧ align VT.u64.core ∣ (0x80000000 : U32).toNat := by decide

/-- **C96, where it fails.** The last word of a memory of `2 ^ 32` bytes can be neither loaded nor stored: both panic. -/
theorem full_memory_last_word (E : Env σ) (x : U32) (s : St σ) (hm : s.mem.len = 2 ^ 32) :
    (0xFFFFFFFC : U32).toNat + Spec.size VT.u32.core = s.mem.len ∧
    VT.u32.store E (.u32 x) 0xFFFFFFFC s = (.panic, s) ∧ VT.u32.load E 0xFFFFFFFC s = (.panic, s) := by
  refine ⟨by rw [hm]; decide, (store_wrap_panics E x s).1, ?_⟩
  show load E .u32 _ s = _
  rw [load]
  rfl

/-- **C96, part.** What does hold in a memory of `2 ^ 32` bytes: an integer that is there, in a slot that does not end
at the last byte, is loaded. Missing: all stores and the last slot. -/
theorem full_memory_load_partial (E : Env σ) (ptr : U32) (s : St σ) (hm : s.mem.len = 2 ^ 32)
    (hc : s.mem.len ≤ s.mem.cap) (hw : ptr.toNat + 4 < 2 ^ 32) :
    VT.u32.load E ptr s = (.ok (.u32 (BitVec.ofNat 32 (natAt s.mem ptr.toNat 4))), s) := by
  have h := loadInt_ok .u32 4 rfl ptr s (by show _ + 4 < _; omega) (by show _ + 4 ≤ _; omega)
  show load E .u32 ptr s = _
  rw [load, h, natAt_eq]
  rfl

example : (⟨fun _ => 1, 2 ^ 32, 2 ^ 32⟩ : Mem).len = 2 ^ 32 ∧ (64 : U32).toNat + 4 < 2 ^ 32 := by decide

end Verif.Abi
