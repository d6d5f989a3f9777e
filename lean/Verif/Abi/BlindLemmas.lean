import Verif.Abi.BlindSpec

/-!
# Lemmas: lowering does not look at the guest's memory
-/

namespace Verif.Abi
open Spec Encoding

variable {σ : Type} {α β : Type} {K : Nat → Prop}

theorem Spec.SameWrites.twins {m n m' n' : Mem} (h : Twins K m n) (w : SameWrites m n m' n') : Twins K m' n' :=
  ⟨w.len, w.cap, fun x hx => (w.data x).elim id fun e => by rw [e.1, e.2]; exact h.agree x hx⟩

theorem Spec.SameWrites.refl {m n : Mem} (h : Twins K m n) : SameWrites m n m n := ⟨h.len, h.cap, fun _ => .inr ⟨rfl, rfl⟩⟩

theorem Spec.SameWrites.trans {m n m' n' m'' n'' : Mem} (w : SameWrites m n m' n') (v : SameWrites m' n' m'' n'') :
    SameWrites m n m'' n'' := by
  refine ⟨v.len, v.cap, fun x => ?_⟩
  rcases v.data x with e | ⟨e, f⟩
  · exact .inl e
  · rcases w.data x with g | ⟨g, k⟩
    · exact .inl (by rw [e, f, g])
    · exact .inr ⟨e.trans g, f.trans k⟩

/-- The states before two calls side by side. -/
structure Beside (K : Nat → Prop) (s u : St σ) : Prop where
  mem : Twins K s.mem u.mem
  heap : s.heap = u.heap
  world : s.world = u.world

/-- The call does the same beside. -/
def DoesAlike (m : SM (St σ) α) (s u : St σ) : Prop :=
  (m s).1 = (m u).1 ∧ (m s).2.heap = (m u).2.heap ∧ (m s).2.world = (m u).2.world ∧
    SameWrites s.mem u.mem (m s).2.mem (m u).2.mem

/-- From all states. -/
structure Blindly (K : Nat → Prop) (m : SM (St σ) α) : Prop where
  run : ∀ s u, Beside K s u → DoesAlike m s u

namespace Blindly

theorem same {m : SM (St σ) α} (r : Res α) (h : ∀ s, m s = (r, s)) : Blindly K m := ⟨fun s u b => by
  unfold DoesAlike
  rw [h s, h u]
  exact ⟨rfl, b.heap, b.world, .refl b.mem⟩⟩

theorem pure (a : α) : Blindly K (Pure.pure a : SM (St σ) α) := same _ fun _ => rfl
theorem fail : Blindly K (SM.fail : SM (St σ) α) := same _ fun _ => rfl
theorem crash : Blindly K (SM.crash : SM (St σ) α) := same _ fun _ => rfl
theorem lift (r : Res α) : Blindly K (SM.lift r : SM (St σ) α) := same _ fun _ => rfl
theorem ite {c : Prop} [Decidable c] {m n : SM (St σ) α} (h1 : Blindly K m) (h2 : Blindly K n) :
    Blindly K (if c then m else n) := by split <;> assumption

theorem bind {m : SM (St σ) α} {f : α → SM (St σ) β} (hm : Blindly K m) (hf : ∀ a, Blindly K (f a)) :
    Blindly K (m >>= f) := by
  refine ⟨fun s u b => ?_⟩
  obtain ⟨h1, h2, h3, h4⟩ := hm.run s u b
  unfold DoesAlike
  rw [SM.bind_def, SM.bind_def]
  rcases e : m s with ⟨r, s1⟩
  rcases e' : m u with ⟨r', u1⟩
  rw [e, e'] at h1 h2 h3 h4
  simp only at h1 h2 h3 h4
  subst h1
  cases r with
  | ok a =>
    obtain ⟨k1, k2, k3, k4⟩ := (hf a).run s1 u1 ⟨h4.twins b.mem, h2, h3⟩
    exact ⟨k1, k2, k3, h4.trans k4⟩
  | err => exact ⟨rfl, h2, h3, h4⟩
  | panic => exact ⟨rfl, h2, h3, h4⟩
  | diverge => exact ⟨rfl, h2, h3, h4⟩

/-- Looking at the state is all right if only the size of memory matters. -/
theorem get {f : St σ → SM (St σ) β} (h : ∀ s u, Beside K s u → f s = f u) (hf : ∀ s, Blindly K (f s)) :
    Blindly K (SM.get >>= f) := by
  refine ⟨fun s u b => ?_⟩
  have := (hf s).run s u b
  unfold DoesAlike at this ⊢
  rw [SM.bind_get, SM.bind_get, ← h s u b]
  exact this

end Blindly

theorem slice_twins {m n : Mem} (h : Twins K m n) (lo hi : U32) : m.slice lo hi = n.slice lo hi := by
  unfold Mem.slice
  rw [h.cap]

theorem len32_twins {m n : Mem} (h : Twins K m n) : m.len32 = n.len32 := by
  unfold Mem.len32
  rw [h.len]

theorem writeAt_blindly (p : U32) (bs : List Byte) : Blindly K (writeAt p bs : SM (St σ) Unit) := by
  refine ⟨fun s u b => ?_⟩
  refine ⟨rfl, b.heap, b.world, b.mem.len, b.mem.cap, fun x => ?_⟩
  show (s.mem.write p.toNat bs).data x = (u.mem.write p.toNat bs).data x ∨ _
  unfold Mem.write
  simp only
  by_cases hx : p.toNat ≤ x ∧ x < p.toNat + bs.length
  · left; simp [hx]
  · right
    constructor
    · show (s.mem.write p.toNat bs).data x = _
      unfold Mem.write; simp only; rw [if_neg hx]
    · show (u.mem.write p.toNat bs).data x = _
      unfold Mem.write; simp only; rw [if_neg hx]

theorem onWorld_blindly (f : SM Handles.World α) : Blindly K (onWorld f : SM (St σ) α) := by
  refine ⟨fun s u b => ?_⟩
  unfold DoesAlike onWorld
  simp only
  rw [b.world]
  exact ⟨rfl, b.heap, rfl, .refl b.mem⟩

theorem slicePut_blindly (p q : U32) {m : SM (St σ) α} (h : Blindly K m) :
    Blindly K (SM.get >>= fun st => SM.lift (st.mem.slice p q) >>= fun _ => m) :=
  .get (fun s u b => by rw [slice_twins b.mem]) fun _ => .bind (.lift _) fun _ => h

theorem storeValidate_blindly (t : Ty) (p : U32) : Blindly K (storeValidate t p : SM (St σ) Unit) := by
  unfold storeValidate
  exact .bind (.lift _) fun _ => .ite .fail (.bind (.lift _) fun _ =>
    .get (fun s u b => by rw [len32_twins b.mem]) fun _ => .ite .fail (.pure _))

theorem storeInt_blindly (v : Val) (p n : U32) (b : Bool) : Blindly K (storeInt v p n b : SM (St σ) Unit) := by
  unfold storeInt
  exact .bind (.lift _) fun _ => .ite .fail (.ite .fail (.ite .fail
    (slicePut_blindly _ _ (.ite (writeAt_blindly ..) (.pure _)))))

theorem storeUInt32_blindly (x p : U32) : Blindly K (storeUInt32 x p : SM (St σ) Unit) := by
  unfold storeUInt32
  exact slicePut_blindly _ _ (writeAt_blindly ..)

theorem storeFloat32_blindly (v : Val) (p : U32) : Blindly K (storeFloat32 v p : SM (St σ) Unit) := by
  unfold storeFloat32; split
  · exact storeInt_blindly ..
  · exact .crash
theorem storeFloat64_blindly (v : Val) (p : U32) : Blindly K (storeFloat64 v p : SM (St σ) Unit) := by
  unfold storeFloat64; split
  · exact storeInt_blindly ..
  · exact .crash
theorem storeFlags_blindly (v : Val) (p : U32) (ls : List String) : Blindly K (storeFlags v p ls : SM (St σ) Unit) := by
  unfold storeFlags; split
  · exact .bind (.lift _) fun _ => storeInt_blindly ..
  · exact .crash

section
variable {E : Env σ} (hE : LooksAt E K)
include hE

theorem alloc_blindly (a n : U32) : Blindly K (alloc E a n) := by
  refine ⟨fun s u b => ?_⟩
  unfold DoesAlike alloc
  simp only
  rw [← b.heap]
  obtain ⟨h1, h2, h3⟩ := hE a n s.mem u.mem s.heap b.mem
  exact ⟨h1, h2, b.world, h3⟩

theorem storeStringIntoRange_blindly (str : String) : Blindly K (storeStringIntoRange E str) := by
  have hd : ∀ c, Blindly K (storeStringDynamic E str c) := fun c => by
    unfold storeStringDynamic
    exact .bind (.lift _) fun _ => .bind (alloc_blindly hE _ _) fun _ =>
      slicePut_blindly _ _ (.bind (writeAt_blindly ..) fun _ => .pure _)
  unfold storeStringIntoRange
  exact .bind (.lift _) fun _ => .ite (hd _) (.bind (.lift _) fun _ => .bind (hd _) fun _ => .pure _)

omit hE in
theorem storeElems_blindly {f : Val → U32 → SM (St σ) Unit} (hf : ∀ v p, Blindly K (f v p)) (p z : U32) :
    (vs : List Val) → (i : Nat) → Blindly K (storeElems f p z vs i)
  | [], _ => .pure _
  | v :: vs, i => by
    rw [storeElems]
    exact .bind (hf _ _) fun _ => storeElems_blindly hf p z vs (i + 1)

theorem storeListIntoRange_blindly {f : Val → U32 → SM (St σ) Unit} (hf : ∀ v p, Blindly K (f v p)) (t : Ty) (v : Val) :
    Blindly K (storeListIntoRange E f t v) := by
  unfold storeListIntoRange
  split
  · exact .bind (.lift _) fun _ => .bind (.lift _) fun _ => .bind (alloc_blindly hE _ _) fun _ => .ite .fail
      (.get (fun s u b => by rw [len32_twins b.mem]) fun _ => .ite .fail
        (.bind (storeElems_blindly hf _ _ _ _) fun _ => .pure _))
  · exact .fail

mutual
theorem store_blindly : (t : Ty) → (v : Val) → (p : U32) → Blindly K (store E t v p)
  | .bool, v, p => by
    unfold store
    refine .bind (storeValidate_blindly ..) fun _ => ?_
    split
    · exact storeInt_blindly ..
    · exact .fail
  | .u8, v, p | .u16, v, p | .u32, v, p | .u64, v, p | .s8, v, p | .s16, v, p | .s32, v, p | .s64, v, p => by
    unfold store
    exact .bind (storeValidate_blindly ..) fun _ => storeInt_blindly ..
  | .f32, v, p => by unfold store; exact .bind (storeValidate_blindly ..) fun _ => storeFloat32_blindly ..
  | .f64, v, p => by unfold store; exact .bind (storeValidate_blindly ..) fun _ => storeFloat64_blindly ..
  | .char, v, p => by
    unfold store
    refine .bind (storeValidate_blindly ..) fun _ => ?_
    split
    · exact storeInt_blindly ..
    · exact .fail
  | .string, v, p => by
    unfold store
    refine .bind (storeValidate_blindly ..) fun _ => ?_
    split
    · exact .bind (storeStringIntoRange_blindly hE _) fun _ => .bind (storeUInt32_blindly ..) fun _ => storeUInt32_blindly ..
    · exact .fail
  | .list t, v, p => by
    unfold store
    exact .bind (storeValidate_blindly ..) fun _ => .bind (storeListIntoRange_blindly hE (store_blindly t) _ _) fun _ =>
      .bind (storeUInt32_blindly ..) fun _ => storeUInt32_blindly ..
  | .record fs, v, p => by
    unfold store
    refine .bind (storeValidate_blindly ..) fun _ => ?_
    split
    · exact storeFields_blindly fs _ p
    · exact .fail
  | .variant cs, v, p => by
    unfold store
    exact .bind (storeValidate_blindly ..) fun _ => .bind (.lift _) fun _ => .bind (.lift _) fun _ => .bind (.lift _) fun _ =>
      .bind (storeInt_blindly ..) fun _ => .bind (.lift _) fun _ => storeCase_blindly cs _ _ _
  | .flags ls, v, p => by unfold store; exact .bind (storeValidate_blindly ..) fun _ => storeFlags_blindly ..
  | .own _, v, p | .borrow _, v, p | .nil, v, p | .other, v, p => by
    unfold store; exact .bind (storeValidate_blindly ..) fun _ => .fail
theorem storeFields_blindly : (fs : Fields) → (m : List (String × Val)) → (p : U32) → Blindly K (storeFields E fs m p)
  | .nil, m, p => by unfold storeFields; exact .pure _
  | .cons l t fs, m, p => by
    unfold storeFields
    exact .bind (.lift _) fun _ => .bind (store_blindly t _ _) fun _ => .bind (.lift _) fun _ => storeFields_blindly fs m _
theorem storeCase_blindly : (cs : Cases) → (i : Nat) → (v : Val) → (p : U32) → Blindly K (storeCase E cs i v p)
  | .nil, _, _, _ => by unfold storeCase; exact .crash
  | .cons l t r cs, 0, v, p => by unfold storeCase; exact .ite (.pure _) (store_blindly t v p)
  | .cons l t r cs, i + 1, v, p => by unfold storeCase; exact storeCase_blindly cs i v p
end

mutual
theorem lowerFlat_blindly : (t : Ty) → (v : Val) → Blindly K (lowerFlat E t v)
  | .bool, v | .u8, v | .u16, v | .u32, v | .u64, v | .s8, v | .s16, v | .s32, v | .s64, v | .f32, v | .f64, v => by
    unfold lowerFlat; split
    · exact .pure _
    · exact .fail
  | .char, v => by
    unfold lowerFlat; split
    · exact .pure _
    · exact .crash
  | .string, v => by
    unfold lowerFlat; split
    · exact .bind (storeStringIntoRange_blindly hE _) fun _ => .pure _
    · exact .crash
  | .list t, v => by
    unfold lowerFlat
    exact .bind (storeListIntoRange_blindly hE (store_blindly hE t) _ _) fun _ => .pure _
  | .record fs, v => by
    unfold lowerFlat; split
    · exact lowerFields_blindly fs _
    · exact .fail
  | .variant cs, v => by
    unfold lowerFlat
    refine .bind (.lift _) fun _ => .bind (.lift _) fun _ => ?_
    split
    · exact .fail
    · exact .ite .fail (.bind (lowerCase_blindly cs _ _) fun _ => .bind (.lift _) fun _ => .pure _)
  | .flags ls, v => by unfold lowerFlat; exact .lift _
  | .own _, v | .borrow _, v => by
    unfold lowerFlat; split
    · exact .bind (onWorld_blindly _) fun _ => .pure _
    · exact .fail
  | .nil, v | .other, v => by unfold lowerFlat; exact .fail
theorem lowerFields_blindly : (fs : Fields) → (m : List (String × Val)) → Blindly K (lowerFields E fs m)
  | .nil, m => by unfold lowerFields; exact .pure _
  | .cons l t fs, m => by
    unfold lowerFields
    exact .bind (lowerFlat_blindly t _) fun _ => .bind (lowerFields_blindly fs m) fun _ => .pure _
theorem lowerCase_blindly : (cs : Cases) → (i : Nat) → (v : Val) → Blindly K (lowerCase E cs i v)
  | .nil, _, _ => by unfold lowerCase; exact .crash
  | .cons l t r cs, 0, v => by unfold lowerCase; exact .ite (.pure _) (lowerFlat_blindly t v)
  | .cons l t r cs, i + 1, v => by unfold lowerCase; exact lowerCase_blindly cs i v
end

end

end Verif.Abi
