import Verif.Abi.StoreLoad
import Verif.Abi.Canon
import Verif.Abi.AskLemmas

/-!
# Invariants of `LowerFlat` and of lowering several values

As `store_inv`, for the calls that lower to core values: they write only to blocks handed out during the call.
-/

namespace Verif.Abi
open Spec

variable {σ : Type}

section
variable {E : Env σ} {I : Mem → σ → Prop} {A : σ → Nat → Prop} (V : Inv E I A)
include V

theorem storeListIntoRange_keeps (t : Ty) (v : Val) (hf : ListsFit (.list t) v) (s : St σ) :
    Keeps I A (storeListIntoRange E (store E t) t v) s := by
  unfold storeListIntoRange
  split
  · rename_i vs
    rw [ListsFit] at hf
    obtain ⟨-, f2, f3⟩ := hf vs rfl
    apply Keeps.liftBind
    intro z hz
    apply Keeps.liftBind
    intro a ha
    apply alloc_bind V
    intro p s2 _ _ hb
    apply Keeps.ite
    · intro _; exact Keeps.fail _
    · intro _
      apply Keeps.get
      apply Keeps.ite
      · intro _; exact Keeps.fail _
      · intro _
        apply Keeps.bind
        · apply storeElems_keeps V
          · intro w hw p' s' hA'
            have hlt := size_lt_of_mem_list f2 (List.ne_nil_of_mem hw)
            apply store_inv V t w (f3 w hw) p' s' hlt
            rw [size_eq t (laid_of_size t z hz) hlt] at hz
            injection hz with hz
            rw [← hz, toNat_ofNat_lt hlt] at hA'
            exact hA'
          · intro x h
            apply hb
            rw [Nat.zero_add] at h
            cases vs with
            | nil =>
              obtain ⟨i, hi, -⟩ := h
              simp at hi
            | cons w ws =>
              have hlt := size_lt_of_mem_list f2 (by simp)
              rw [size_eq t (laid_of_size t z hz) hlt] at hz
              injection hz with hz
              rw [← hz, toNat_ofNat_lt hlt] at h ⊢
              rwa [toNat_ofNat_lt f2]
        · intro _ s3 _ _
          exact Keeps.pure _ _
  · exact Keeps.fail _

omit V in
theorem onWorld_keeps {α : Type} (f : SM Handles.World α) (s : St σ) : Keeps I A (onWorld f) s :=
  fun hi => ⟨hi, fun _ hx => hx⟩

mutual
theorem lowerFlat_inv : (t : Ty) → (v : Val) → ListsFit t v → (s : St σ) → Keeps I A (lowerFlat E t v) s
  | .bool, v, _, s | .u8, v, _, s | .u16, v, _, s | .u32, v, _, s | .u64, v, _, s | .s8, v, _, s | .s16, v, _, s
  | .s32, v, _, s | .s64, v, _, s | .f32, v, _, s | .f64, v, _, s => by
    unfold lowerFlat; split
    · exact .pure _ _
    · exact .fail _
  | .char, v, _, s => by
    unfold lowerFlat; split
    · exact .pure _ _
    · exact .crash _
  | .string, v, _, s => by
    unfold lowerFlat; split
    · exact .bind (storeStringIntoRange_keeps V _ _) fun _ _ _ _ => .pure _ _
    · exact .crash _
  | .list t, v, hf, s => by
    unfold lowerFlat
    exact .bind (storeListIntoRange_keeps V t v hf s) fun _ _ _ _ => .pure _ _
  | .record fs, v, hf, s => by
    unfold lowerFlat; split
    · rename_i m
      rw [ListsFit] at hf
      exact lowerFields_inv fs m (hf m rfl) s
    · exact .fail _
  | .variant cs, v, hf, s => by
    unfold lowerFlat
    refine .liftBind fun r hm => .liftBind fun fts hfl => ?_
    split
    · exact .fail _
    · refine .ite (fun _ => .fail _) fun _ => .bind ?_ fun _ _ _ _ => .bind (.lift _ _) fun _ _ _ _ => .pure _ _
      obtain ⟨key, rfl, hsel⟩ := (matchCase_ok v cs (flatten_variant_lt hfl) r.1 r.2).1 hm
      rw [ListsFit] at hf
      exact lowerCase_inv cs _ _ (hf key _ _ rfl hsel) s
  | .flags ls, v, _, s => by unfold lowerFlat; exact .lift _ _
  | .own _, v, _, s | .borrow _, v, _, s => by
    unfold lowerFlat; split
    · exact .bind (onWorld_keeps _ _) fun _ _ _ _ => .pure _ _
    · exact .fail _
  | .nil, v, _, s | .other, v, _, s => by unfold lowerFlat; exact .fail _
theorem lowerFields_inv : (fs : Fields) → (m : List (String × Val)) → ListsFitFields fs m → (s : St σ) →
    Keeps I A (lowerFields E fs m) s
  | .nil, m, _, s => by unfold lowerFields; exact .pure _ _
  | .cons l t fs, m, hf, s => by
    unfold lowerFields
    rw [ListsFitFields] at hf
    exact .bind (lowerFlat_inv t _ hf.1 s) fun _ _ _ _ => .bind (lowerFields_inv fs m hf.2 _) fun _ _ _ _ => .pure _ _
theorem lowerCase_inv : (cs : Cases) → (i : Nat) → (v : Val) → ListsFitPayload cs i v → (s : St σ) →
    Keeps I A (lowerCase E cs i v) s
  | .nil, _, _, _, _ => by unfold lowerCase; exact .crash _
  | .cons l t r cs, 0, v, hf, s => by
    unfold lowerCase
    rw [ListsFitPayload] at hf
    exact .ite (fun _ => .pure _ _) (fun _ => lowerFlat_inv t v hf s)
  | .cons l t r cs, i + 1, v, hf, s => by
    unfold lowerCase
    rw [ListsFitPayload] at hf
    exact lowerCase_inv cs i v hf s
end

end

end Verif.Abi
