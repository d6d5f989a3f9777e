import Verif.Abi.GrowSpec
import Verif.Abi.LoadLemmas
import Verif.Abi.BoundLemmas
import Verif.Abi.FlagsKept

/-!
# What succeeds goes on succeeding when a memory grows
-/

namespace Verif.Abi
open Encoding Spec

set_option linter.unusedSectionVars false

variable {σ : Type}

/-- `GoesOn`, to be put together. -/
structure Up {S α : Type} (R : S → S → Prop) (f : SM S α) : Prop where
  run : GoesOn R f

namespace Up
variable {S α β : Type} {R : S → S → Prop}

theorem pure (a : α) : Up R (Pure.pure a) := ⟨fun s u h b s1 e => by
  simp only [SM.pure_def, Prod.mk.injEq] at e
  obtain ⟨e, rfl⟩ := e
  exact ⟨u, by simp only [SM.pure_def, e], h⟩⟩
theorem fail : Up R (SM.fail : SM S α) := ⟨fun s u h b s1 e => by cases e⟩
theorem crash : Up R (SM.crash : SM S α) := ⟨fun s u h b s1 e => by cases e⟩
theorem lift (r : Res α) : Up R (SM.lift r) := ⟨fun s u h b s1 e => by
  simp only [SM.lift_def, Prod.mk.injEq] at e
  obtain ⟨e, rfl⟩ := e
  exact ⟨u, by simp only [SM.lift_def, e], h⟩⟩
theorem bind {m : SM S α} {k : α → SM S β} (h1 : Up R m) (h2 : ∀ a, Up R (k a)) : Up R (m >>= k) :=
  ⟨fun s u h b s1 e => by
    obtain ⟨a, s2, e1, e2⟩ := SM.bind_eq_ok.1 e
    obtain ⟨u2, f1, g⟩ := h1.run s u h a s2 e1
    obtain ⟨u1, f2, g⟩ := (h2 a).run s2 u2 g b s1 e2
    exact ⟨u1, SM.bind_eq_ok.2 ⟨a, u2, f1, f2⟩, g⟩⟩
/-- The same, when something is known of what the first part can return. -/
theorem bindOn {m : SM S α} {k : α → SM S β} (h1 : Up R m) (h2 : ∀ s a t, m s = (.ok a, t) → Up R (k a)) : Up R (m >>= k) :=
  ⟨fun s u h b s1 e => by
    obtain ⟨a, s2, e1, e2⟩ := SM.bind_eq_ok.1 e
    obtain ⟨u2, f1, g⟩ := h1.run s u h a s2 e1
    obtain ⟨u1, f2, g⟩ := (h2 s a s2 e1).run s2 u2 g b s1 e2
    exact ⟨u1, SM.bind_eq_ok.2 ⟨a, u2, f1, f2⟩, g⟩⟩
theorem ite {c : Prop} [Decidable c] {m n : SM S α} (h1 : Up R m) (h2 : Up R n) : Up R (if c then m else n) := by
  split
  · exact h1
  · exact h2

end Up

theorem grown_len32 {m m' : Mem} (h : Grown m m') : m.len32.toNat ≤ m'.len32.toNat := by
  have := h.len
  have := h.small
  simp only [Mem.len32, BitVec.toNat_ofNat]
  omega

theorem grown_slice {m m' : Mem} (h : Grown m m') {a b : U32} {x : Unit} (e : m.slice a b = .ok x) : m'.slice a b = .ok x := by
  have := slice_inv e
  have := h.cap
  unfold Mem.slice
  rw [if_pos (by omega)]

theorem grown_read {m m' : Mem} (h : Grown m m') {a n : U32} {x : Unit} (e : m.slice a (a + n) = .ok x) :
    m'.read a.toNat n.toNat = m.read a.toNat n.toNat := by
  have hs := slice_inv e
  refine Mem.read_congr _ _ _ _ fun y _ h2 => h.data y ?_
  rw [BitVec.toNat_add] at hs
  have := a.isLt
  have := n.isLt
  omega

theorem grown_write {m m' : Mem} (h : Grown m m') (p : Nat) (bs : List Byte) : Grown (m.write p bs) (m'.write p bs) :=
  ⟨h.len, h.cap, h.small, fun x hx => by
    unfold Mem.write
    simp only
    split
    · rfl
    · exact h.data x hx⟩

/-! ### States with one memory -/

theorem onWorld_up {α : Type} (f : SM Handles.World α) : Up GrownSt (onWorld f : SM (St σ) α) := ⟨fun s u h a s1 e => by
  unfold onWorld at e ⊢
  simp only [Prod.mk.injEq] at e
  obtain ⟨e, rfl⟩ := e
  refine ⟨{ u with world := (f u.world).2 }, by rw [h.world, e], h.mem, h.heap, ?_⟩
  show (f u.world).2 = (f s.world).2
  rw [h.world]⟩

theorem alloc_up (E : Env σ) (hE : Unharmed E) (a n : U32) : Up GrownSt (alloc E a n) := ⟨fun s u h p s1 e => by
  unfold alloc at e ⊢
  simp only [Prod.mk.injEq] at e
  obtain ⟨e, rfl⟩ := e
  obtain ⟨m1', e1, g⟩ := hE a n s.mem u.mem s.heap p _ _ h.mem (Prod.ext e (Prod.ext rfl rfl))
  rw [h.heap, e1]
  exact ⟨_, rfl, g, rfl, h.world⟩⟩

theorem writeAt_up (p : U32) (bs : List Byte) : Up GrownSt (writeAt p bs : SM (St σ) Unit) := ⟨fun s u h a s1 e => by
  cases e
  exact ⟨_, rfl, grown_write h.mem _ _, h.heap, h.world⟩⟩

/-- A comparison with the length, and what comes after it. -/
theorem room_up {α : Type} (c : Nat) {m : SM (St σ) α} (hm : Up GrownSt m) :
    Up GrownSt (SM.get >>= fun st : St σ => if c > st.mem.len32.toNat then SM.fail else m) := ⟨fun s u h a s1 e => by
  rw [SM.bind_get] at e ⊢
  simp only [SM.ite_app] at e ⊢
  have := grown_len32 h.mem
  split at e
  · cases e
  · rw [if_neg (by omega)]
    exact hm.run s u h a s1 e⟩

/-- A slice, and what comes after it. -/
theorem slice_up {α : Type} (a b : U32) {m : SM (St σ) α} (hm : Up GrownSt m) :
    Up GrownSt (SM.get >>= fun st : St σ => SM.lift (st.mem.slice a b) >>= fun _ => m) := ⟨fun s u h x s1 e => by
  rw [SM.bind_get] at e ⊢
  obtain ⟨y, s2, e1, e2⟩ := SM.bind_eq_ok.1 e
  simp only [SM.lift_def, Prod.mk.injEq] at e1
  obtain ⟨e1, rfl⟩ := e1
  rw [grown_slice h.mem e1, SM.bind_ok (SM.lift_def _ _)]
  exact hm.run s u h x s1 e2⟩

/-- A slice, and what is made of the bytes in it. -/
theorem sliceRead_up {α : Type} (a n : U32) {k : List Byte → SM (St σ) α} (hk : ∀ bs, Up GrownSt (k bs)) :
    Up GrownSt (SM.get >>= fun st : St σ => SM.lift (st.mem.slice a (a + n)) >>= fun _ =>
      k (st.mem.read a.toNat n.toNat)) := ⟨fun s u h x s1 e => by
  rw [SM.bind_get] at e ⊢
  obtain ⟨y, s2, e1, e2⟩ := SM.bind_eq_ok.1 e
  simp only [SM.lift_def, Prod.mk.injEq] at e1
  obtain ⟨e1, rfl⟩ := e1
  rw [grown_slice h.mem e1, SM.bind_ok (SM.lift_def _ _), grown_read h.mem e1]
  exact (hk _).run s u h x s1 e2⟩

/-! ### Loading -/

theorem loadBytes_up (ptr n : U32) : Up GrownSt (loadBytes ptr n : SM (St σ) Nat) :=
  sliceRead_up ptr n (k := fun bs => Pure.pure (leNat bs)) fun _ => .pure _
theorem loadInt_up (ptr : U32) (t : Ty) : Up GrownSt (loadInt ptr t : SM (St σ) Val) :=
  .bind (.lift _) fun _ => .bind (loadBytes_up ..) fun _ => .pure _
theorem loadIntWithSize_up (ptr n : U32) (b : Bool) : Up GrownSt (loadIntWithSize ptr n b : SM (St σ) Val) :=
  .ite (.pure _) (.ite (loadInt_up ..) (.ite (loadInt_up ..) (.ite (loadInt_up ..) (.ite (loadInt_up ..)
    (loadInt_up ..)))))
theorem loadUInt32_up (ptr : U32) : Up GrownSt (loadUInt32 ptr : SM (St σ) U32) :=
  .bind (loadInt_up ..) fun _ => by
    split
    · exact .pure _
    · exact .fail
theorem loadUInt64_up (ptr : U32) : Up GrownSt (loadUInt64 ptr : SM (St σ) U64) :=
  .bind (loadInt_up ..) fun _ => by
    split
    · exact .pure _
    · exact .fail
theorem loadBool_up (ptr : U32) : Up GrownSt (loadBool ptr : SM (St σ) Val) :=
  .bind (loadInt_up ..) fun _ => by
    split
    · exact .pure _
    · exact .fail
theorem loadChar_up (ptr : U32) : Up GrownSt (loadChar ptr : SM (St σ) Val) :=
  .bind (loadIntWithSize_up ..) fun _ => by
    split
    · exact .bind (.lift _) fun _ => .pure _
    · exact .fail
theorem loadStringFromRange_up (E : Env σ) (ptr n : U32) : Up GrownSt (loadStringFromRange E ptr n) := by
  unfold loadStringFromRange
  refine .bind (.lift _) fun c => .ite .fail ⟨fun s u h x s1 e => ?_⟩
  rw [SM.bind_get] at e ⊢
  simp only [SM.ite_app] at e ⊢
  have := grown_len32 h.mem
  split at e
  · cases e
  · rw [if_neg (by omega)]
    exact (sliceRead_up ptr _ (k := fun bs => SM.lift (c.enc.decode bs)) fun _ => .lift _).run s u h x s1 e
theorem loadString_up (E : Env σ) (ptr : U32) : Up GrownSt (loadString E ptr) :=
  .bind (loadUInt32_up ..) fun _ => .bind (loadUInt32_up ..) fun _ => loadStringFromRange_up ..
theorem loadElems_up {f : U32 → SM (St σ) Val} (hf : ∀ p, Up GrownSt (f p)) (ptr sz : U32) :
    (n i : Nat) → Up GrownSt (loadElems f ptr sz n i)
  | 0, _ => .pure _
  | n + 1, i => .bind (hf _) fun _ => .bind (loadElems_up hf ptr sz n (i + 1)) fun _ => .pure _
theorem loadListFromRange_up {f : U32 → SM (St σ) Val} (hf : ∀ p, Up GrownSt (f p)) (t : Ty) (ptr n : U32) :
    Up GrownSt (loadListFromRange f t ptr n) := by
  unfold loadListFromRange
  exact .bind (.lift _) fun _ => .ite .fail (.bind (.lift _) fun _ => room_up _ (loadElems_up hf ..))
theorem loadList_up {f : U32 → SM (St σ) Val} (hf : ∀ p, Up GrownSt (f p)) (t : Ty) (ptr : U32) :
    Up GrownSt (loadList f t ptr) :=
  .bind (loadUInt32_up ..) fun _ => .bind (loadUInt32_up ..) fun _ => loadListFromRange_up hf ..
theorem loadFlagsWord_up (ptr n : U32) : Up GrownSt (loadFlagsWord ptr n : SM (St σ) U64) := by
  unfold loadFlagsWord
  refine .bind (loadIntWithSize_up ..) fun _ => ?_
  refine .ite ?_ (.ite ?_ (.ite ?_ (.ite ?_ (.pure _))))
  all_goals (split <;> first | exact .pure _ | exact .crash)
theorem loadFlags_up (ptr : U32) (ls : List String) : Up GrownSt (loadFlags ptr ls : SM (St σ) Val) :=
  .bind (loadFlagsWord_up ..) fun _ => .pure _
theorem loadDisc_up (ptr : U32) (d : Disc) : Up GrownSt (loadDisc ptr d : SM (St σ) U32) := by
  unfold loadDisc
  refine .bind (loadInt_up ..) fun _ => ?_
  split <;> first | exact .pure _ | exact .crash

mutual
theorem load_up (E : Env σ) : (t : Ty) → (ptr : U32) → Up GrownSt (load E t ptr)
  | .bool, ptr => by rw [load]; exact loadBool_up _
  | .u8, ptr | .u16, ptr | .u32, ptr | .u64, ptr | .s8, ptr | .s16, ptr | .s32, ptr | .s64, ptr => by
    rw [load]; exact loadInt_up ..
  | .f32, ptr => by rw [load]; exact .bind (loadUInt32_up _) fun _ => .pure _
  | .f64, ptr => by rw [load]; exact .bind (loadUInt64_up _) fun _ => .pure _
  | .char, ptr => by rw [load]; exact loadChar_up _
  | .string, ptr => by rw [load]; exact .bind (loadString_up ..) fun _ => .pure _
  | .list t, ptr => by rw [load]; exact .bind (loadList_up (load_up E t) ..) fun _ => .pure _
  | .record fs, ptr => by rw [load]; exact loadFields_up E fs ..
  | .variant cs, ptr => by
    rw [load]
    refine .bind (.lift _) fun _ => .bind (loadDisc_up ..) fun _ => .bind (.lift _) fun _ => .ite .fail ?_
    exact .bind (.lift _) fun _ => loadCase_up E cs cs ..
  | .flags ls, ptr => by rw [load]; exact loadFlags_up ..
  | .own rt, ptr => by
    rw [load]
    exact .bind (loadUInt32_up _) fun _ => .bind (onWorld_up _) fun _ => .pure _
  | .borrow rt, ptr => by
    rw [load]
    exact .bind (loadUInt32_up _) fun _ => .bind (onWorld_up _) fun _ => .pure _
  | .nil, ptr => by rw [load]; exact .fail
  | .other, ptr => by rw [load]; exact .fail
theorem loadFields_up (E : Env σ) : (fs : Fields) → (ptr : U32) → (acc : List (String × Val)) →
    Up GrownSt (loadFields E fs ptr acc)
  | .nil, _, _ => by rw [loadFields]; exact .pure _
  | .cons l t fs, ptr, acc => by
    rw [loadFields]
    exact .bind (.lift _) fun _ => .bind (load_up E t ..) fun _ => .bind (.lift _) fun _ => loadFields_up E fs ..
theorem loadCase_up (E : Env σ) (all : Cases) : (cs : Cases) → (i : Nat) → (ptr : U32) →
    Up GrownSt (loadCase E all cs i ptr)
  | .nil, _, _ => by rw [loadCase]; exact .crash
  | .cons l t r cs, 0, ptr => by
    rw [loadCase]
    exact .bind (.lift _) fun _ => .ite (.pure _) (.bind (load_up E t ..) fun _ => .pure _)
  | .cons l t r cs, i + 1, ptr => by rw [loadCase]; exact loadCase_up E all cs ..
end

/-! ### Storing and lowering -/

theorem storeValidate_up (t : Ty) (ptr : U32) : Up GrownSt (storeValidate t ptr : SM (St σ) Unit) := by
  unfold storeValidate
  exact .bind (.lift _) fun _ => .ite .fail (.bind (.lift _) fun _ => room_up _ (.pure _))
theorem storeInt_up (v : Val) (ptr n : U32) (b : Bool) : Up GrownSt (storeInt v ptr n b : SM (St σ) Unit) := by
  unfold storeInt
  refine .bind (.lift _) fun _ => .ite .fail (.ite .fail (.ite .fail (slice_up _ _ (.ite (writeAt_up ..) (.pure _)))))
theorem storeUInt32_up (x ptr : U32) : Up GrownSt (storeUInt32 x ptr : SM (St σ) Unit) :=
  slice_up _ _ (writeAt_up ..)
theorem storeFloat32_up (v : Val) (ptr : U32) : Up GrownSt (storeFloat32 v ptr : SM (St σ) Unit) := by
  unfold storeFloat32; split
  · exact storeInt_up ..
  · exact .crash
theorem storeFloat64_up (v : Val) (ptr : U32) : Up GrownSt (storeFloat64 v ptr : SM (St σ) Unit) := by
  unfold storeFloat64; split
  · exact storeInt_up ..
  · exact .crash

section
variable (E : Env σ) (hE : Unharmed E)
include hE

theorem storeStringDynamic_up (s : String) (c : Codec) : Up GrownSt (storeStringDynamic E s c) := by
  unfold storeStringDynamic
  exact .bind (.lift _) fun _ => .bind (alloc_up E hE ..) fun _ => slice_up _ _ (.bind (writeAt_up ..) fun _ => .pure _)
theorem storeStringIntoRange_up (s : String) : Up GrownSt (storeStringIntoRange E s) := by
  unfold storeStringIntoRange
  refine .bind (.lift _) fun _ => .ite (storeStringDynamic_up E hE ..) ?_
  exact .bind (.lift _) fun _ => .bind (storeStringDynamic_up E hE ..) fun _ => .pure _
theorem storeString_up (s : String) (ptr : U32) : Up GrownSt (storeString E s ptr) :=
  .bind (storeStringIntoRange_up E hE ..) fun _ => .bind (storeUInt32_up ..) fun _ => storeUInt32_up ..
omit hE in
theorem storeElems_up {f : Val → U32 → SM (St σ) Unit} (hf : ∀ v p, Up GrownSt (f v p)) (ptr sz : U32) :
    (vs : List Val) → (i : Nat) → Up GrownSt (storeElems f ptr sz vs i)
  | [], _ => .pure _
  | _ :: vs, i => .bind (hf _ _) fun _ => storeElems_up hf ptr sz vs (i + 1)
theorem storeListIntoRange_up {f : Val → U32 → SM (St σ) Unit} (hf : ∀ v p, Up GrownSt (f v p)) (t : Ty)
    (v : Val) : Up GrownSt (storeListIntoRange E f t v) := by
  unfold storeListIntoRange
  split
  · refine .bind (.lift _) fun _ => .bind (.lift _) fun _ => .bind (alloc_up E hE ..) fun _ => .ite .fail ?_
    exact room_up _ (.bind (storeElems_up hf ..) fun _ => .pure _)
  · exact .fail
theorem storeList_up {f : Val → U32 → SM (St σ) Unit} (hf : ∀ v p, Up GrownSt (f v p)) (t : Ty)
    (v : Val) (ptr : U32) : Up GrownSt (storeList E f t v ptr) :=
  .bind (storeListIntoRange_up E hE hf ..) fun _ => .bind (storeUInt32_up ..) fun _ => storeUInt32_up ..
omit hE in
theorem storeFlags_up (v : Val) (ptr : U32) (ls : List String) : Up GrownSt (storeFlags v ptr ls : SM (St σ) Unit) := by
  unfold storeFlags
  split
  · exact .bind (.lift _) fun _ => storeInt_up ..
  · exact .crash

mutual
theorem store_up : (t : Ty) → (v : Val) → (ptr : U32) → Up GrownSt (store E t v ptr)
  | .bool, v, ptr => by
    rw [store_bool]; refine .bind (storeValidate_up ..) fun _ => ?_
    split
    · exact storeInt_up ..
    · exact .fail
  | .u8, v, ptr | .u16, v, ptr | .u32, v, ptr | .u64, v, ptr | .s8, v, ptr | .s16, v, ptr | .s32, v, ptr
  | .s64, v, ptr => by
    rw [store]; exact .bind (storeValidate_up ..) fun _ => storeInt_up ..
  | .f32, v, ptr => by rw [store]; exact .bind (storeValidate_up ..) fun _ => storeFloat32_up ..
  | .f64, v, ptr => by rw [store]; exact .bind (storeValidate_up ..) fun _ => storeFloat64_up ..
  | .char, v, ptr => by
    rw [store_char]; refine .bind (storeValidate_up ..) fun _ => ?_
    split
    · exact storeInt_up ..
    · exact .fail
  | .string, v, ptr => by
    rw [store_string]; refine .bind (storeValidate_up ..) fun _ => ?_
    split
    · exact storeString_up E hE ..
    · exact .fail
  | .list t, v, ptr => by
    rw [store]; exact .bind (storeValidate_up ..) fun _ => storeList_up E hE (store_up t) ..
  | .record fs, v, ptr => by
    rw [store_record]; refine .bind (storeValidate_up ..) fun _ => ?_
    split
    · exact storeFields_up fs ..
    · exact .fail
  | .variant cs, v, ptr => by
    rw [store]
    refine .bind (storeValidate_up ..) fun _ => .bind (.lift _) fun _ => .bind (.lift _) fun _ => .bind (.lift _) fun _ => ?_
    exact .bind (storeInt_up ..) fun _ => .bind (.lift _) fun _ => storeCase_up cs ..
  | .flags ls, v, ptr => by rw [store]; exact .bind (storeValidate_up ..) fun _ => storeFlags_up ..
  | .own rt, v, ptr | .borrow rt, v, ptr | .nil, v, ptr | .other, v, ptr => by
    rw [store]; exact .bind (storeValidate_up ..) fun _ => .fail
theorem storeFields_up : (fs : Fields) → (m : List (String × Val)) → (ptr : U32) →
    Up GrownSt (storeFields E fs m ptr)
  | .nil, m, ptr => by rw [storeFields]; exact .pure _
  | .cons l t fs, m, ptr => by
    rw [storeFields]
    exact .bind (.lift _) fun _ => .bind (store_up t ..) fun _ => .bind (.lift _) fun _ => storeFields_up fs ..
theorem storeCase_up : (cs : Cases) → (i : Nat) → (v : Val) → (ptr : U32) → Up GrownSt (storeCase E cs i v ptr)
  | .nil, _, _, _ => by rw [storeCase]; exact .crash
  | .cons l t r cs, 0, v, ptr => by rw [storeCase]; exact .ite (.pure _) (store_up t ..)
  | .cons l t r cs, i + 1, v, ptr => by rw [storeCase]; exact storeCase_up cs ..
end

mutual
theorem lowerFlat_up : (t : Ty) → (v : Val) → Up GrownSt (lowerFlat E t v)
  | .bool, v | .u8, v | .u16, v | .u32, v | .u64, v | .s8, v | .s16, v | .s32, v | .s64, v | .f32, v | .f64, v => by
    unfold lowerFlat
    split
    · exact .pure _
    · exact .fail
  | .char, v => by
    unfold lowerFlat
    split
    · exact .pure _
    · exact .crash
  | .string, v => by
    unfold lowerFlat
    split
    · exact .bind (storeStringIntoRange_up E hE ..) fun _ => .pure _
    · exact .crash
  | .list t, v => by
    unfold lowerFlat
    exact .bind (storeListIntoRange_up E hE (store_up E hE _) ..) fun _ => .pure _
  | .record fs, v => by
    unfold lowerFlat
    split
    · exact lowerFields_up fs _
    · exact .fail
  | .variant cs, v => by
    unfold lowerFlat
    refine .bind (.lift _) fun _ => .bind (.lift _) fun _ => ?_
    split
    · exact .fail
    · exact .ite .fail (.bind (lowerCase_up cs ..) fun _ => .bind (.lift _) fun _ => .pure _)
  | .flags ls, v => by unfold lowerFlat; exact .lift _
  | .own rt, v => by
    unfold lowerFlat
    split
    · exact .bind (onWorld_up _) fun _ => .pure _
    · exact .fail
  | .borrow rt, v => by
    unfold lowerFlat
    split
    · exact .bind (onWorld_up _) fun _ => .pure _
    · exact .fail
  | .nil, v => by unfold lowerFlat; exact .fail
  | .other, v => by unfold lowerFlat; exact .fail
theorem lowerFields_up : (fs : Fields) → (m : List (String × Val)) → Up GrownSt (lowerFields E fs m)
  | .nil, _ => by unfold lowerFields; exact .pure _
  | .cons l t fs, m => by
    unfold lowerFields
    exact .bind (lowerFlat_up t _) fun _ => .bind (lowerFields_up fs m) fun _ => .pure _
theorem lowerCase_up : (cs : Cases) → (i : Nat) → (v : Val) → Up GrownSt (lowerCase E cs i v)
  | .nil, _, _ => by unfold lowerCase; exact .crash
  | .cons l t r cs, 0, v => by unfold lowerCase; exact .ite (.pure _) (lowerFlat_up t v)
  | .cons l t r cs, i + 1, v => by unfold lowerCase; exact lowerCase_up cs i v
end

theorem lowerEach_up : (ts : List Ty) → (vs : List Val) → Up GrownSt (lowerEach E ts vs)
  | ts, [] => by unfold lowerEach; exact .pure _
  | [], _ :: _ => .crash
  | t :: ts, v :: vs => .bind (lowerFlat_up E hE t v) fun _ => .bind (lowerEach_up ts vs) fun _ => .pure _

end

/-! ### Lifting -/

theorem onSt_up {α : Type} {m : SM (St σ) α} (h : Up GrownSt m) : Up GrownLSt (onSt m) := ⟨fun s u g a s1 e => by
  unfold onSt at e ⊢
  simp only [Prod.mk.injEq] at e
  obtain ⟨e, rfl⟩ := e
  obtain ⟨u1, e1, g1⟩ := h.run s.st u.st g.st a _ (Prod.ext e rfl)
  rw [e1]
  exact ⟨_, rfl, g1, g.it⟩⟩
/-- A step that concerns the iterator only. -/
theorem iter_up {α : Type} (f : Iter → Res α × Iter) :
    Up GrownLSt (fun s : LSt σ => ((f s.it).1, { s with it := (f s.it).2 })) := ⟨fun s u g a s1 e => by
  simp only [Prod.mk.injEq] at e
  obtain ⟨e, rfl⟩ := e
  refine ⟨{ u with it := (f u.it).2 }, by rw [g.it, e], g.st, ?_⟩
  show (f u.it).2 = (f s.it).2
  rw [g.it]⟩
theorem next_up (k : Kind) : Up GrownLSt (next k : SM (LSt σ) Val) := iter_up fun it => it.next k
theorem nextU32_up : Up GrownLSt (nextU32 : SM (LSt σ) U32) :=
  .bind (next_up _) fun _ => by
    split
    · exact .pure _
    · exact .fail
theorem nextU64_up : Up GrownLSt (nextU64 : SM (LSt σ) U64) :=
  .bind (next_up _) fun _ => by
    split
    · exact .pure _
    · exact .fail
theorem nextF32_up : Up GrownLSt (nextF32 : SM (LSt σ) U32) :=
  .bind (next_up _) fun _ => by
    split
    · exact .pure _
    · exact .fail
theorem nextF64_up : Up GrownLSt (nextF64 : SM (LSt σ) U64) :=
  .bind (next_up _) fun _ => by
    split
    · exact .pure _
    · exact .fail
theorem liftFlagWords_up : (n k : Nat) → (x : U64) → Up GrownLSt (liftFlagWords n k x : SM (LSt σ) U64)
  | 0, _, _ => .pure _
  | n + 1, k, x => .bind nextU32_up fun _ => liftFlagWords_up n (k + 32) _
theorem pushFlat_up (fts : List Kind) : Up GrownLSt (pushFlat fts : SM (LSt σ) Unit) :=
  iter_up fun it => (.ok (), { it with stack := fts :: it.stack })
theorem popFlat_up : Up GrownLSt (popFlat : SM (LSt σ) (List Kind)) := ⟨fun s u g a s1 e => by
  unfold popFlat at e ⊢
  rw [g.it]
  split at e
  · cases e
  · simp only [Prod.mk.injEq, Res.ok.injEq] at e
    obtain ⟨rfl, rfl⟩ := e
    exact ⟨_, rfl, g.st, rfl⟩⟩
theorem skipFlat_up : (fts : List Kind) → Up GrownLSt (skipFlat fts : SM (LSt σ) Unit)
  | [] => .pure _
  | _ :: fts => .bind (next_up _) fun _ => skipFlat_up fts

mutual
theorem liftFlat_up (E : Env σ) : (t : Ty) → Up GrownLSt (liftFlat E t)
  | .bool | .u8 | .u16 | .u32 | .s8 | .s16 | .s32 => by unfold liftFlat; exact .bind nextU32_up fun _ => .pure _
  | .u64 | .s64 => by unfold liftFlat; exact .bind nextU64_up fun _ => .pure _
  | .f32 => by unfold liftFlat; exact .bind nextF32_up fun _ => .pure _
  | .f64 => by unfold liftFlat; exact .bind nextF64_up fun _ => .pure _
  | .char => by unfold liftFlat; exact .bind nextU32_up fun _ => .bind (.lift _) fun _ => .pure _
  | .string => by
    unfold liftFlat
    exact .bind nextU32_up fun _ => .bind nextU32_up fun _ => .bind (onSt_up (loadStringFromRange_up ..)) fun _ => .pure _
  | .list t => by
    unfold liftFlat
    exact .bind nextU32_up fun _ => .bind nextU32_up fun _ =>
      .bind (onSt_up (loadListFromRange_up (load_up E t) ..)) fun _ => .pure _
  | .record fs => by unfold liftFlat; exact liftFields_up E fs _
  | .variant cs => by
    unfold liftFlat
    refine .bind (.lift _) fun _ => ?_
    split
    · exact .fail
    · exact .ite .fail (.bind nextU32_up fun _ => .ite .fail (liftCase_up E cs cs ..))
  | .flags ls => by unfold liftFlat; exact .bind (liftFlagWords_up ..) fun _ => .pure _
  | .own rt => by
    unfold liftFlat
    exact .bind nextU32_up fun _ => .bind (onSt_up (onWorld_up _)) fun _ => .pure _
  | .borrow rt => by
    unfold liftFlat
    exact .bind nextU32_up fun _ => .bind (onSt_up (onWorld_up _)) fun _ => .pure _
  | .nil => by unfold liftFlat; exact .fail
  | .other => by unfold liftFlat; exact .fail
theorem liftFields_up (E : Env σ) : (fs : Fields) → (acc : List (String × Val)) → Up GrownLSt (liftFields E fs acc)
  | .nil, _ => by unfold liftFields; exact .pure _
  | .cons l t fs, acc => by
    unfold liftFields
    exact .bind (liftFlat_up E t) fun _ => liftFields_up E fs _
theorem liftCase_up (E : Env σ) (all : Cases) : (cs : Cases) → (i : Nat) → (fts : List Kind) →
    Up GrownLSt (liftCase E all cs i fts)
  | .nil, _, _ => by unfold liftCase; exact .crash
  | .cons l t r cs, 0, fts => by
    unfold liftCase
    exact .ite (.bind (skipFlat_up _) fun _ => .bind (.lift _) fun _ => .pure _)
      (.bind (pushFlat_up _) fun _ => .bind (liftFlat_up E t) fun _ => .bind popFlat_up fun _ =>
        .bind (skipFlat_up _) fun _ => .bind (.lift _) fun _ => .pure _)
  | .cons l t r cs, i + 1, fts => by unfold liftCase; exact liftCase_up E all cs i fts
end

theorem liftEach_up (E : Env σ) : (ts : List Ty) → Up GrownLSt (liftEach E ts)
  | [] => .pure _
  | t :: ts => .bind (liftFlat_up E t) fun _ => .bind (liftEach_up E ts) fun _ => .pure _

theorem liftValues_up (E : Env σ) (ord : List (String × Val) → List (String × Val)) (n : Nat) (ts : List Ty) :
    Up GrownLSt (liftValues E ord n ts) := by
  unfold liftValues
  refine .bind (.lift _) fun _ => .ite (liftEach_up E ts) ?_
  refine .bind nextU32_up fun p => .bind (.lift _) fun _ => .ite .fail ?_
  refine .bind (.lift _) fun z => ⟨fun s u h a s1 e => ?_⟩
  rw [SM.bind_get] at e ⊢
  simp only [SM.ite_app] at e ⊢
  have := grown_len32 h.st.mem
  split at e
  · cases e
  · rw [if_neg (by omega)]
    refine (Up.bind (onSt_up (load_up E _ _)) fun v => ?_).run s u h a s1 e
    split
    · exact .pure _
    · exact .fail

/-! ### Calls -/

theorem grown_put {s u : Sys σ} (h : GrownSys s u) (o : Nat) {t v : St σ} (g : GrownSt t v) : GrownSys (s.put o t) (u.put o v) := by
  refine ⟨fun k => ?_, ?_, g.world⟩
  · show Grown (Handles.upd s.mems o t.mem k) (Handles.upd u.mems o v.mem k)
    unfold Handles.upd
    split
    · exact g.mem
    · exact h.mems k
  · show Handles.upd u.heaps o v.heap = Handles.upd s.heaps o t.heap
    rw [h.heaps, g.heap]

theorem grown_view {s u : Sys σ} (h : GrownSys s u) (o : Nat) : GrownSt (s.view o) (u.view o) :=
  ⟨h.mems o, by show u.heaps o = s.heaps o; rw [h.heaps], h.world⟩

theorem inMem_up {α : Type} (o : Nat) {m : SM (St σ) α} (h : Up GrownSt m) : Up GrownSys (inMem o m) := ⟨fun s u g a s1 e => by
  unfold inMem at e ⊢
  simp only [Prod.mk.injEq] at e
  obtain ⟨e, rfl⟩ := e
  obtain ⟨u1, e1, g1⟩ := h.run _ _ (grown_view g o) a _ (Prod.ext e rfl)
  rw [e1]
  exact ⟨_, rfl, grown_put g o g1⟩⟩

theorem withIter_up {α : Type} (o : Nat) (it : Iter) {m : SM (LSt σ) α} (h : Up GrownLSt m) :
    Up GrownSys (withIter o it m) := ⟨fun s u g a s1 e => by
  unfold withIter at e ⊢
  rcases e2 : m ⟨s.view o, it⟩ with ⟨r, t⟩
  rw [e2] at e
  cases r with
  | ok x =>
    simp only [Prod.mk.injEq, Res.ok.injEq] at e
    obtain ⟨rfl, rfl⟩ := e
    obtain ⟨u1, e1, g1⟩ := h.run ⟨s.view o, it⟩ ⟨u.view o, it⟩ ⟨grown_view g o, rfl⟩ x t e2
    rw [e1]
    exact ⟨_, by simp only [g1.it], grown_put g o g1.st⟩
  | err => cases e
  | panic => cases e
  | diverge => cases e⟩

theorem lowerTuple_up (E : Env σ) (hE : Unharmed E) (o : Nat) (ts : List Ty) (out : Option Iter) :
    Up GrownSys (lowerTuple E o ts out) := by
  unfold lowerTuple
  refine .bind (.lift _) fun _ => .bind (.lift _) fun _ => .bind ?_ fun _ => .ite .fail ?_
  · unfold tuplePtr
    split
    · exact inMem_up o (alloc_up E hE ..)
    · exact .bind (withIter_up o _ nextU32_up) fun _ => .pure _
  · refine ⟨fun s u h a s1 e => ?_⟩
    rw [SM.bind_get] at e ⊢
    simp only [SM.ite_app] at e ⊢
    have := grown_len32 (h.mems o)
    split at e
    · cases e
    · rw [if_neg (by omega)]
      exact (Up.pure _).run s u h a s1 e

theorem lowerValues_up (E : Env σ) (hE : Unharmed E) (o n : Nat) (vs : List Val) (ts : List Ty) (out : Option Iter) :
    Up GrownSys (lowerValues E o n vs ts out) := by
  unfold lowerValues
  refine .bind (.lift _) fun _ => .ite ?_ (lowerTuple_up E hE ..)
  exact .bind (inMem_up o (lowerEach_up E hE ..)) fun _ => .pure _

/-- A step that concerns the handles and flags only. -/
theorem world_up {α : Type} (f : Handles.World → Res α × Handles.World) :
    Up GrownSys (fun s : Sys σ => ((f s.world).1, { s with world := (f s.world).2 })) := ⟨fun s u g a s1 e => by
  simp only [Prod.mk.injEq] at e
  obtain ⟨e, rfl⟩ := e
  refine ⟨{ u with world := (f u.world).2 }, by rw [g.world, e], g.mems, g.heaps, ?_⟩
  show (f u.world).2 = (f s.world).2
  rw [g.world]⟩

theorem newCtx_up (S : Side σ) : Up GrownSys (newCtx S) := world_up fun w => (.ok (), w.setCtx S.E.cx ⟨[], 0⟩)
theorem setLeave_up (S : Side σ) (b : Bool) : Up GrownSys (setLeave S b) :=
  world_up fun w => (.ok (), { w with mayLeave := Handles.upd w.mayLeave S.E.inst b })
theorem setEnter_up (S : Side σ) (b : Bool) : Up GrownSys (setEnter S b) :=
  world_up fun w => (.ok (), { w with mayEnter := Handles.upd w.mayEnter S.E.inst b })
theorem exitIgnored_up (S : Side σ) : Up GrownSys (exitIgnored S) := by
  refine ⟨fun s u g a s1 e => ?_⟩
  unfold exitIgnored at e ⊢
  rw [g.world]
  split at e
  · cases e
    exact ⟨_, rfl, g.mems, g.heaps, rfl⟩
  · cases e
    exact ⟨_, rfl, g.mems, g.heaps, rfl⟩
theorem postResult_up (S : Side σ) (hp : ∀ p, S.post = some p → GoesOn GrownSys p) : Up GrownSys (postResult S) := by
  unfold postResult
  split
  · rename_i p e
    exact .bind ⟨hp p e⟩ fun _ => exitIgnored_up S
  · exact exitIgnored_up S

/-- A look at the handles and flags. -/
theorem look_up {α : Type} (c : Handles.World → Prop) [∀ w, Decidable (c w)] (d : Handles.World → Prop) [∀ w, Decidable (d w)]
    {m : SM (Sys σ) α} (hm : Up GrownSys m) :
    Up GrownSys (SM.get >>= fun s : Sys σ => if c s.world then SM.fail else if d s.world then SM.fail else m) :=
  ⟨fun s u h a s1 e => by
    rw [SM.bind_get] at e ⊢
    rw [h.world]
    by_cases h1 : c s.world
    · rw [if_pos h1] at e; cases e
    · rw [if_neg h1] at e ⊢
      by_cases h2 : d s.world
      · rw [if_pos h2] at e; cases e
      · rw [if_neg h2] at e ⊢
        exact hm.run s u h a s1 e⟩

theorem canonLift_up (S : Side σ) (hE : Unharmed S.E) (ord : List (String × Val) → List (String × Val))
    (callee : List Core → SM (Sys σ) (Option (List Core))) (hc : ∀ cs, GoesOn GrownSys (callee cs)) (ft : FuncTy)
    (args : List Val) (mp mr : Nat) : Up GrownSys (canonLift S ord callee ft args mp mr) := by
  unfold canonLift
  refine look_up (fun w => w.mayEnter S.E.inst = false) (fun w => w.mayLeave S.E.inst = false) ?_
  refine .bind (newCtx_up S) fun _ => .bind (setLeave_up ..) fun _ => .bind (lowerValues_up S.E hE ..) fun fs => ?_
  refine .bind (setLeave_up ..) fun _ => .bind ⟨hc fs⟩ fun r => ?_
  split
  · exact .fail
  · exact .bind (.lift _) fun _ => .bind (withIter_up _ _ (liftValues_up ..)) fun _ => .pure _

theorem canonLower_up (S : Side σ) (hE : Unharmed S.E) (ord : List (String × Val) → List (String × Val))
    (callee : List Val → SM (Sys σ) (List Val × Option (SM (Sys σ) Unit))) (hc : ∀ vs, GoesOn GrownSys (callee vs))
    (hp : ∀ vs s rs p u, callee vs s = (.ok (rs, some p), u) → GoesOn GrownSys p)
    (imp : Bool) (ft : FuncTy) (flat : List Core) (mp mr : Nat) :
    Up GrownSys (canonLower S ord callee imp ft flat mp mr) := by
  unfold canonLower
  refine .bind (newCtx_up S) fun _ => look_up (fun w => w.mayLeave S.E.inst = false) (fun w => w.mayEnter S.E.inst = false) ?_
  refine .bind (.lift _) fun vs => .bind (withIter_up _ _ (liftValues_up ..)) fun args => ?_
  refine .bindOn ⟨hc args.1⟩ fun s r t e => ?_
  obtain ⟨rs, p⟩ := r
  refine .bind (setLeave_up ..) fun _ => .bind (lowerValues_up S.E hE ..) fun fs => .bind (setLeave_up ..) fun _ => ?_
  cases p with
  | none => exact .crash
  | some p =>
    refine .bind ⟨hp args.1 s rs p t e⟩ fun _ => .bind (exitIgnored_up S) fun _ => ?_
    exact .ite (.bind (setEnter_up ..) fun _ => .pure _) (.pure _)

end Verif.Abi
