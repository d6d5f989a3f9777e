import Verif.Abi.Canon
import Verif.Abi.StoreInv

/-!
# Storing, loading, lowering and lifting do not touch the enter and leave flags
-/

namespace Verif

/-- A call that leaves a part of the state alone, whatever its outcome. -/
structure Pres {S B α : Type} (f : S → B) (m : SM S α) : Prop where
  keep : ∀ s, f (m s).2 = f s

namespace Pres
variable {S B α β : Type} {f : S → B}

theorem bind {m : SM S α} {g : α → SM S β} (h1 : Pres f m) (h2 : ∀ a, Pres f (g a)) : Pres f (m >>= g) := by
  refine ⟨fun s => ?_⟩
  rw [SM.bind_def]
  have := h1.keep s
  rcases e : m s with ⟨r, s1⟩
  rw [e] at this
  cases r with
  | ok a => exact ((h2 a).keep s1).trans this
  | err => exact this
  | panic => exact this
  | diverge => exact this

theorem pure (a : α) : Pres f (Pure.pure a : SM S α) := ⟨fun _ => rfl⟩
theorem fail : Pres f (SM.fail : SM S α) := ⟨fun _ => rfl⟩
theorem crash : Pres f (SM.crash : SM S α) := ⟨fun _ => rfl⟩
theorem get : Pres f (SM.get : SM S S) := ⟨fun _ => rfl⟩
theorem lift (r : Res α) : Pres f (SM.lift r : SM S α) := ⟨fun _ => rfl⟩
theorem ite {c : Prop} [Decidable c] {m n : SM S α} (h1 : Pres f m) (h2 : Pres f n) :
    Pres f (if c then m else n) := by
  split
  · exact h1
  · exact h2
theorem modify {g : S → S} (h : ∀ s, f (g s) = f s) : Pres f (SM.modify g : SM S Unit) := ⟨h⟩

end Pres

namespace Handles

/-- The flags of all instances. -/
def World.flags (w : World) : (InstId → Bool) × (InstId → Bool) := (w.mayEnter, w.mayLeave)

theorem alloc_flags (e : Elem) : Pres World.flags (alloc e) := ⟨fun _ => rfl⟩
theorem add_flags (inst : InstId) (rt : Abi.RT) (h : ElemId) : Pres World.flags (add inst rt h) := by
  refine ⟨fun w => ?_⟩
  unfold add
  simp only
  split
  · split <;> rfl
  all_goals rfl
theorem get_flags (inst : InstId) (rt : Abi.RT) (i : U32) : Pres World.flags (get inst rt i) := ⟨fun _ => rfl⟩
theorem remove_flags (inst : InstId) (rt : Abi.RT) (i : U32) : Pres World.flags (remove inst rt i) := by
  refine ⟨fun w => ?_⟩
  unfold remove
  simp only
  split
  · split <;> rfl
  all_goals rfl
theorem liftBorrowFrom_flags (cx : CtxId) (h : ElemId) : Pres World.flags (liftBorrowFrom cx h) := ⟨fun _ => rfl⟩
theorem liftOwn_flags (inst : InstId) (rt : Abi.RT) (i : U32) : Pres World.flags (liftOwn inst rt i) :=
  .bind (remove_flags ..) fun _ => .bind .get fun _ => .pure _
theorem liftBorrow_flags (inst : InstId) (cx : CtxId) (rt : Abi.RT) (i : U32) : Pres World.flags (liftBorrow inst cx rt i) :=
  .bind (get_flags ..) fun _ => .bind (liftBorrowFrom_flags ..) fun _ => .bind .get fun _ => .pure _
theorem lowerOwn_flags (inst : InstId) (rt : Abi.RT) (rep : U32) : Pres World.flags (lowerOwn inst rt rep) :=
  .bind (alloc_flags _) fun _ => add_flags ..
theorem lowerBorrow_flags (info : RTInfo) (inst : InstId) (cx : CtxId) (rt : Abi.RT) (rep : U32) :
    Pres World.flags (lowerBorrow info inst cx rt rep) :=
  .ite (.pure _) (.bind (alloc_flags _) fun _ => add_flags ..)
theorem exitCall_flags (cx : CtxId) : Pres World.flags (exitCall cx) := by
  refine ⟨fun w => ?_⟩
  unfold exitCall
  split <;> rfl

end Handles

namespace Abi
open Encoding

variable {σ : Type}

/-- The flags of all instances. -/
def St.flags (s : St σ) : (Handles.InstId → Bool) × (Handles.InstId → Bool) := s.world.flags
/-- The flags of all instances. -/
def LSt.flags (s : LSt σ) : (Handles.InstId → Bool) × (Handles.InstId → Bool) := s.st.world.flags
/-- The flags of all instances. -/
def Sys.flags (s : Sys σ) : (Handles.InstId → Bool) × (Handles.InstId → Bool) := s.world.flags

theorem onWorld_flags {α : Type} {f : SM Handles.World α} (h : Pres Handles.World.flags f) :
    Pres St.flags (onWorld f : SM (St σ) α) := ⟨fun s => h.keep s.world⟩
/-- What leaves the tables alone leaves the flags alone. -/
theorem _root_.Verif.Pres.flags {α : Type} {m : SM (St σ) α} (h : Pres St.world m) : Pres St.flags m :=
  ⟨fun s => congrArg Handles.World.flags (h.keep s)⟩

/-! Storing does not touch the tables at all. -/

theorem alloc_world (E : Env σ) (a n : U32) : Pres St.world (alloc E a n) := ⟨fun _ => rfl⟩
theorem writeAt_world (p : U32) (bs : List Byte) : Pres St.world (writeAt p bs : SM (St σ) Unit) := ⟨fun _ => rfl⟩

/-- One step of the search. -/
macro "pres_step" : tactic => `(tactic| first
  | with_reducible exact Pres.pure _
  | with_reducible exact Pres.fail
  | with_reducible exact Pres.crash
  | with_reducible exact Pres.lift _
  | with_reducible exact Pres.get
  | exact alloc_world ..
  | exact writeAt_world ..
  | with_reducible apply Pres.ite
  | with_reducible refine Pres.bind ?_ (fun _ => ?_)
  | split)

theorem storeValidate_world (t : Ty) (ptr : U32) : Pres St.world (storeValidate t ptr : SM (St σ) Unit) := by
  unfold storeValidate; repeat pres_step
theorem storeInt_world (v : Val) (ptr n : U32) (b : Bool) : Pres St.world (storeInt v ptr n b : SM (St σ) Unit) := by
  unfold storeInt; repeat pres_step
theorem storeUInt32_world (x ptr : U32) : Pres St.world (storeUInt32 x ptr : SM (St σ) Unit) := by
  unfold storeUInt32; repeat pres_step
theorem storeFloat32_world (v : Val) (ptr : U32) : Pres St.world (storeFloat32 v ptr : SM (St σ) Unit) := by
  unfold storeFloat32; split
  · exact storeInt_world ..
  · exact .crash
theorem storeFloat64_world (v : Val) (ptr : U32) : Pres St.world (storeFloat64 v ptr : SM (St σ) Unit) := by
  unfold storeFloat64; split
  · exact storeInt_world ..
  · exact .crash
theorem storeStringDynamic_world (E : Env σ) (s : String) (c : Codec) : Pres St.world (storeStringDynamic E s c) := by
  unfold storeStringDynamic; repeat pres_step
theorem storeStringIntoRange_world (E : Env σ) (s : String) : Pres St.world (storeStringIntoRange E s) := by
  unfold storeStringIntoRange
  refine .bind (.lift _) fun _ => .ite (storeStringDynamic_world ..) ?_
  exact .bind (.lift _) fun _ => .bind (storeStringDynamic_world ..) fun _ => .pure _
theorem storeString_world (E : Env σ) (s : String) (ptr : U32) : Pres St.world (storeString E s ptr) :=
  .bind (storeStringIntoRange_world ..) fun _ => .bind (storeUInt32_world ..) fun _ => storeUInt32_world ..
theorem storeElems_world {f : Val → U32 → SM (St σ) Unit} (hf : ∀ v p, Pres St.world (f v p)) (ptr sz : U32) :
    (vs : List Val) → (i : Nat) → Pres St.world (storeElems f ptr sz vs i)
  | [], _ => .pure _
  | _ :: vs, i => .bind (hf _ _) fun _ => storeElems_world hf ptr sz vs (i + 1)
theorem storeListIntoRange_world (E : Env σ) {f : Val → U32 → SM (St σ) Unit} (hf : ∀ v p, Pres St.world (f v p)) (t : Ty)
    (v : Val) : Pres St.world (storeListIntoRange E f t v) := by
  unfold storeListIntoRange
  split
  · refine .bind (.lift _) fun _ => .bind (.lift _) fun _ => .bind (alloc_world ..) fun _ => .ite .fail ?_
    exact .bind .get fun _ => .ite .fail (.bind (storeElems_world hf ..) fun _ => .pure _)
  · exact .fail
theorem storeList_world (E : Env σ) {f : Val → U32 → SM (St σ) Unit} (hf : ∀ v p, Pres St.world (f v p)) (t : Ty)
    (v : Val) (ptr : U32) : Pres St.world (storeList E f t v ptr) :=
  .bind (storeListIntoRange_world E hf ..) fun _ => .bind (storeUInt32_world ..) fun _ => storeUInt32_world ..
theorem storeFlags_world (v : Val) (ptr : U32) (ls : List String) : Pres St.world (storeFlags v ptr ls : SM (St σ) Unit) := by
  unfold storeFlags
  split
  · exact .bind (.lift _) fun _ => storeInt_world ..
  · exact .crash

mutual
theorem store_world (E : Env σ) : (t : Ty) → (v : Val) → (ptr : U32) → Pres St.world (store E t v ptr)
  | .bool, v, ptr => by
    rw [store_bool]; refine .bind (storeValidate_world ..) fun _ => ?_
    split
    · exact storeInt_world ..
    · exact .fail
  | .u8, v, ptr | .u16, v, ptr | .u32, v, ptr | .u64, v, ptr | .s8, v, ptr | .s16, v, ptr | .s32, v, ptr
  | .s64, v, ptr => by
    rw [store]; exact .bind (storeValidate_world ..) fun _ => storeInt_world ..
  | .f32, v, ptr => by rw [store]; exact .bind (storeValidate_world ..) fun _ => storeFloat32_world ..
  | .f64, v, ptr => by rw [store]; exact .bind (storeValidate_world ..) fun _ => storeFloat64_world ..
  | .char, v, ptr => by
    rw [store_char]; refine .bind (storeValidate_world ..) fun _ => ?_
    split
    · exact storeInt_world ..
    · exact .fail
  | .string, v, ptr => by
    rw [store_string]; refine .bind (storeValidate_world ..) fun _ => ?_
    split
    · exact storeString_world ..
    · exact .fail
  | .list t, v, ptr => by
    rw [store]; exact .bind (storeValidate_world ..) fun _ => storeList_world E (store_world E t) ..
  | .record fs, v, ptr => by
    rw [store_record]; refine .bind (storeValidate_world ..) fun _ => ?_
    split
    · exact storeFields_world E fs ..
    · exact .fail
  | .variant cs, v, ptr => by
    rw [store]
    refine .bind (storeValidate_world ..) fun _ => .bind (.lift _) fun _ => .bind (.lift _) fun _ => .bind (.lift _) fun _ => ?_
    exact .bind (storeInt_world ..) fun _ => .bind (.lift _) fun _ => storeCase_world E cs ..
  | .flags ls, v, ptr => by rw [store]; exact .bind (storeValidate_world ..) fun _ => storeFlags_world ..
  | .own rt, v, ptr | .borrow rt, v, ptr | .nil, v, ptr | .other, v, ptr => by
    rw [store]; exact .bind (storeValidate_world ..) fun _ => .fail
theorem storeFields_world (E : Env σ) : (fs : Fields) → (m : List (String × Val)) → (ptr : U32) →
    Pres St.world (storeFields E fs m ptr)
  | .nil, m, ptr => by rw [storeFields]; exact .pure _
  | .cons l t fs, m, ptr => by
    rw [storeFields]
    exact .bind (.lift _) fun _ => .bind (store_world E t ..) fun _ => .bind (.lift _) fun _ => storeFields_world E fs ..
theorem storeCase_world (E : Env σ) : (cs : Cases) → (i : Nat) → (v : Val) → (ptr : U32) →
    Pres St.world (storeCase E cs i v ptr)
  | .nil, _, _, _ => by rw [storeCase]; exact .crash
  | .cons l t r cs, 0, v, ptr => by rw [storeCase]; exact .ite (.pure _) (store_world E t ..)
  | .cons l t r cs, i + 1, v, ptr => by rw [storeCase]; exact storeCase_world E cs ..
end

theorem alloc_flags (E : Env σ) (a n : U32) : Pres St.flags (alloc E a n) := (alloc_world E a n).flags
theorem storeStringIntoRange_flags (E : Env σ) (s : String) : Pres St.flags (storeStringIntoRange E s) :=
  (storeStringIntoRange_world E s).flags
theorem storeListIntoRange_flags (E : Env σ) (t' t : Ty) (v : Val) :
    Pres St.flags (storeListIntoRange E (store E t') t v) :=
  (storeListIntoRange_world E (store_world E t') t v).flags

theorem loadBytes_flags (ptr n : U32) : Pres St.flags (loadBytes ptr n : SM (St σ) Nat) :=
  .bind .get fun _ => .bind (.lift _) fun _ => .pure _
theorem loadInt_flags (ptr : U32) (t : Ty) : Pres St.flags (loadInt ptr t : SM (St σ) Val) :=
  .bind (.lift _) fun _ => .bind (loadBytes_flags ..) fun _ => .pure _
theorem loadIntWithSize_flags (ptr n : U32) (b : Bool) : Pres St.flags (loadIntWithSize ptr n b : SM (St σ) Val) :=
  .ite (.pure _) (.ite (loadInt_flags ..) (.ite (loadInt_flags ..) (.ite (loadInt_flags ..) (.ite (loadInt_flags ..)
    (loadInt_flags ..)))))
theorem loadUInt32_flags (ptr : U32) : Pres St.flags (loadUInt32 ptr : SM (St σ) U32) :=
  .bind (loadInt_flags ..) fun _ => by
    split
    · exact .pure _
    · exact .fail
theorem loadUInt64_flags (ptr : U32) : Pres St.flags (loadUInt64 ptr : SM (St σ) U64) :=
  .bind (loadInt_flags ..) fun _ => by
    split
    · exact .pure _
    · exact .fail
theorem loadBool_flags (ptr : U32) : Pres St.flags (loadBool ptr : SM (St σ) Val) :=
  .bind (loadInt_flags ..) fun _ => by
    split
    · exact .pure _
    · exact .fail
theorem loadChar_flags (ptr : U32) : Pres St.flags (loadChar ptr : SM (St σ) Val) :=
  .bind (loadIntWithSize_flags ..) fun _ => by
    split
    · exact .bind (.lift _) fun _ => .pure _
    · exact .fail
theorem loadStringFromRange_flags (E : Env σ) (ptr n : U32) : Pres St.flags (loadStringFromRange E ptr n) := by
  unfold loadStringFromRange
  exact .bind (.lift _) fun _ => .ite .fail (.bind .get fun _ => .ite .fail (.bind (.lift _) fun _ => .lift _))
theorem loadString_flags (E : Env σ) (ptr : U32) : Pres St.flags (loadString E ptr) :=
  .bind (loadUInt32_flags ..) fun _ => .bind (loadUInt32_flags ..) fun _ => loadStringFromRange_flags ..
theorem loadElems_flags {f : U32 → SM (St σ) Val} (hf : ∀ p, Pres St.flags (f p)) (ptr sz : U32) :
    (n i : Nat) → Pres St.flags (loadElems f ptr sz n i)
  | 0, _ => .pure _
  | n + 1, i => .bind (hf _) fun _ => .bind (loadElems_flags hf ptr sz n (i + 1)) fun _ => .pure _
theorem loadListFromRange_flags {f : U32 → SM (St σ) Val} (hf : ∀ p, Pres St.flags (f p)) (t : Ty) (ptr n : U32) :
    Pres St.flags (loadListFromRange f t ptr n) := by
  unfold loadListFromRange
  exact .bind (.lift _) fun _ => .ite .fail (.bind (.lift _) fun _ => .bind .get fun _ => .ite .fail (loadElems_flags hf ..))
theorem loadList_flags {f : U32 → SM (St σ) Val} (hf : ∀ p, Pres St.flags (f p)) (t : Ty) (ptr : U32) :
    Pres St.flags (loadList f t ptr) :=
  .bind (loadUInt32_flags ..) fun _ => .bind (loadUInt32_flags ..) fun _ => loadListFromRange_flags hf ..
theorem loadFlagsWord_flags (ptr n : U32) : Pres St.flags (loadFlagsWord ptr n : SM (St σ) U64) := by
  unfold loadFlagsWord
  refine .bind (loadIntWithSize_flags ..) fun _ => ?_
  refine .ite ?_ (.ite ?_ (.ite ?_ (.ite ?_ (.pure _))))
  all_goals (split <;> first | exact .pure _ | exact .crash)
theorem loadFlags_flags (ptr : U32) (ls : List String) : Pres St.flags (loadFlags ptr ls : SM (St σ) Val) :=
  .bind (loadFlagsWord_flags ..) fun _ => .pure _
theorem loadDisc_flags (ptr : U32) (d : Disc) : Pres St.flags (loadDisc ptr d : SM (St σ) U32) := by
  unfold loadDisc
  refine .bind (loadInt_flags ..) fun _ => ?_
  split <;> first | exact .pure _ | exact .crash

mutual
theorem load_flags (E : Env σ) : (t : Ty) → (ptr : U32) → Pres St.flags (load E t ptr)
  | .bool, ptr => by rw [load]; exact loadBool_flags _
  | .u8, ptr | .u16, ptr | .u32, ptr | .u64, ptr | .s8, ptr | .s16, ptr | .s32, ptr | .s64, ptr => by
    rw [load]; exact loadInt_flags ..
  | .f32, ptr => by rw [load]; exact .bind (loadUInt32_flags _) fun _ => .pure _
  | .f64, ptr => by rw [load]; exact .bind (loadUInt64_flags _) fun _ => .pure _
  | .char, ptr => by rw [load]; exact loadChar_flags _
  | .string, ptr => by rw [load]; exact .bind (loadString_flags ..) fun _ => .pure _
  | .list t, ptr => by rw [load]; exact .bind (loadList_flags (load_flags E t) ..) fun _ => .pure _
  | .record fs, ptr => by rw [load]; exact loadFields_flags E fs ..
  | .variant cs, ptr => by
    rw [load]
    refine .bind (.lift _) fun _ => .bind (loadDisc_flags ..) fun _ => .bind (.lift _) fun _ => .ite .fail ?_
    exact .bind (.lift _) fun _ => loadCase_flags E cs cs ..
  | .flags ls, ptr => by rw [load]; exact loadFlags_flags ..
  | .own rt, ptr => by
    rw [load]
    exact .bind (loadUInt32_flags _) fun _ => .bind (onWorld_flags (Handles.liftOwn_flags ..)) fun _ => .pure _
  | .borrow rt, ptr => by
    rw [load]
    exact .bind (loadUInt32_flags _) fun _ => .bind (onWorld_flags (Handles.liftBorrow_flags ..)) fun _ => .pure _
  | .nil, ptr => by rw [load]; exact .fail
  | .other, ptr => by rw [load]; exact .fail
theorem loadFields_flags (E : Env σ) : (fs : Fields) → (ptr : U32) → (acc : List (String × Val)) →
    Pres St.flags (loadFields E fs ptr acc)
  | .nil, _, _ => by rw [loadFields]; exact .pure _
  | .cons l t fs, ptr, acc => by
    rw [loadFields]
    exact .bind (.lift _) fun _ => .bind (load_flags E t ..) fun _ => .bind (.lift _) fun _ => loadFields_flags E fs ..
theorem loadCase_flags (E : Env σ) (all : Cases) : (cs : Cases) → (i : Nat) → (ptr : U32) →
    Pres St.flags (loadCase E all cs i ptr)
  | .nil, _, _ => by rw [loadCase]; exact .crash
  | .cons l t r cs, 0, ptr => by
    rw [loadCase]
    exact .bind (.lift _) fun _ => .ite (.pure _) (.bind (load_flags E t ..) fun _ => .pure _)
  | .cons l t r cs, i + 1, ptr => by rw [loadCase]; exact loadCase_flags E all cs ..
end

mutual
theorem lowerFlat_flags (E : Env σ) : (t : Ty) → (v : Val) → Pres St.flags (lowerFlat E t v)
  | .bool, v | .u8, v | .u16, v | .u32, v | .u64, v | .s8, v | .s16, v | .s32, v | .s64, v | .f32, v | .f64, v => by
    unfold lowerFlat
    split
    · exact .pure _
    · exact .fail
  | .char, v => by
    unfold lowerFlat
    split
    · exact .pure _
    · exact .crash
  | .string, v => by
    unfold lowerFlat
    split
    · exact .bind (storeStringIntoRange_flags ..) fun _ => .pure _
    · exact .crash
  | .list t, v => by
    unfold lowerFlat
    exact .bind (storeListIntoRange_flags E ..) fun _ => .pure _
  | .record fs, v => by
    unfold lowerFlat
    split
    · exact lowerFields_flags E fs _
    · exact .fail
  | .variant cs, v => by
    unfold lowerFlat
    refine .bind (.lift _) fun _ => .bind (.lift _) fun _ => ?_
    split
    · exact .fail
    · exact .ite .fail (.bind (lowerCase_flags E cs ..) fun _ => .bind (.lift _) fun _ => .pure _)
  | .flags ls, v => by unfold lowerFlat; exact .lift _
  | .own rt, v => by
    unfold lowerFlat
    split
    · exact .bind (onWorld_flags (Handles.lowerOwn_flags ..)) fun _ => .pure _
    · exact .fail
  | .borrow rt, v => by
    unfold lowerFlat
    split
    · exact .bind (onWorld_flags (Handles.lowerBorrow_flags ..)) fun _ => .pure _
    · exact .fail
  | .nil, v => by unfold lowerFlat; exact .fail
  | .other, v => by unfold lowerFlat; exact .fail
theorem lowerFields_flags (E : Env σ) : (fs : Fields) → (m : List (String × Val)) → Pres St.flags (lowerFields E fs m)
  | .nil, _ => by unfold lowerFields; exact .pure _
  | .cons l t fs, m => by
    unfold lowerFields
    exact .bind (lowerFlat_flags E t _) fun _ => .bind (lowerFields_flags E fs m) fun _ => .pure _
theorem lowerCase_flags (E : Env σ) : (cs : Cases) → (i : Nat) → (v : Val) → Pres St.flags (lowerCase E cs i v)
  | .nil, _, _ => by unfold lowerCase; exact .crash
  | .cons l t r cs, 0, v => by unfold lowerCase; exact .ite (.pure _) (lowerFlat_flags E t v)
  | .cons l t r cs, i + 1, v => by unfold lowerCase; exact lowerCase_flags E cs i v
end

theorem onSt_flags {α : Type} {m : SM (St σ) α} (h : Pres St.flags m) : Pres LSt.flags (onSt m) := ⟨fun s => h.keep s.st⟩
theorem next_flags (k : Kind) : Pres LSt.flags (next k : SM (LSt σ) Val) := ⟨fun _ => rfl⟩
theorem nextU32_flags : Pres LSt.flags (nextU32 : SM (LSt σ) U32) :=
  .bind (next_flags _) fun _ => by
    split
    · exact .pure _
    · exact .fail
theorem nextU64_flags : Pres LSt.flags (nextU64 : SM (LSt σ) U64) :=
  .bind (next_flags _) fun _ => by
    split
    · exact .pure _
    · exact .fail
theorem nextF32_flags : Pres LSt.flags (nextF32 : SM (LSt σ) U32) :=
  .bind (next_flags _) fun _ => by
    split
    · exact .pure _
    · exact .fail
theorem nextF64_flags : Pres LSt.flags (nextF64 : SM (LSt σ) U64) :=
  .bind (next_flags _) fun _ => by
    split
    · exact .pure _
    · exact .fail
theorem liftFlagWords_flags : (n k : Nat) → (x : U64) → Pres LSt.flags (liftFlagWords n k x : SM (LSt σ) U64)
  | 0, _, _ => .pure _
  | n + 1, k, x => .bind nextU32_flags fun _ => liftFlagWords_flags n (k + 32) _
theorem pushFlat_flags (fts : List Kind) : Pres LSt.flags (pushFlat fts : SM (LSt σ) Unit) := ⟨fun _ => rfl⟩
theorem popFlat_flags : Pres LSt.flags (popFlat : SM (LSt σ) (List Kind)) := by
  refine ⟨fun s => ?_⟩
  unfold popFlat
  split <;> rfl
theorem skipFlat_flags : (fts : List Kind) → Pres LSt.flags (skipFlat fts : SM (LSt σ) Unit)
  | [] => .pure _
  | _ :: fts => .bind (next_flags _) fun _ => skipFlat_flags fts

mutual
theorem liftFlat_flags (E : Env σ) : (t : Ty) → Pres LSt.flags (liftFlat E t)
  | .bool | .u8 | .u16 | .u32 | .s8 | .s16 | .s32 => by unfold liftFlat; exact .bind nextU32_flags fun _ => .pure _
  | .u64 | .s64 => by unfold liftFlat; exact .bind nextU64_flags fun _ => .pure _
  | .f32 => by unfold liftFlat; exact .bind nextF32_flags fun _ => .pure _
  | .f64 => by unfold liftFlat; exact .bind nextF64_flags fun _ => .pure _
  | .char => by unfold liftFlat; exact .bind nextU32_flags fun _ => .bind (.lift _) fun _ => .pure _
  | .string => by
    unfold liftFlat
    exact .bind nextU32_flags fun _ => .bind nextU32_flags fun _ =>
      .bind (onSt_flags (loadStringFromRange_flags ..)) fun _ => .pure _
  | .list t => by
    unfold liftFlat
    exact .bind nextU32_flags fun _ => .bind nextU32_flags fun _ =>
      .bind (onSt_flags (loadListFromRange_flags (load_flags E t) ..)) fun _ => .pure _
  | .record fs => by unfold liftFlat; exact liftFields_flags E fs _
  | .variant cs => by
    unfold liftFlat
    refine .bind (.lift _) fun _ => ?_
    split
    · exact .fail
    · exact .ite .fail (.bind nextU32_flags fun _ => .ite .fail (liftCase_flags E cs cs ..))
  | .flags ls => by unfold liftFlat; exact .bind (liftFlagWords_flags ..) fun _ => .pure _
  | .own rt => by
    unfold liftFlat
    exact .bind nextU32_flags fun _ => .bind (onSt_flags (onWorld_flags (Handles.liftOwn_flags ..))) fun _ => .pure _
  | .borrow rt => by
    unfold liftFlat
    exact .bind nextU32_flags fun _ => .bind (onSt_flags (onWorld_flags (Handles.liftBorrow_flags ..))) fun _ => .pure _
  | .nil => by unfold liftFlat; exact .fail
  | .other => by unfold liftFlat; exact .fail
theorem liftFields_flags (E : Env σ) : (fs : Fields) → (acc : List (String × Val)) → Pres LSt.flags (liftFields E fs acc)
  | .nil, _ => by unfold liftFields; exact .pure _
  | .cons l t fs, acc => by
    unfold liftFields
    exact .bind (liftFlat_flags E t) fun _ => liftFields_flags E fs _
theorem liftCase_flags (E : Env σ) (all : Cases) : (cs : Cases) → (i : Nat) → (fts : List Kind) →
    Pres LSt.flags (liftCase E all cs i fts)
  | .nil, _, _ => by unfold liftCase; exact .crash
  | .cons l t r cs, 0, fts => by
    unfold liftCase
    exact .ite (.bind (skipFlat_flags _) fun _ => .bind (.lift _) fun _ => .pure _)
      (.bind (pushFlat_flags _) fun _ => .bind (liftFlat_flags E t) fun _ => .bind popFlat_flags fun _ =>
        .bind (skipFlat_flags _) fun _ => .bind (.lift _) fun _ => .pure _)
  | .cons l t r cs, i + 1, fts => by unfold liftCase; exact liftCase_flags E all cs i fts
end

/-! ## In a system -/

theorem inMem_flags {α : Type} (o : Nat) {m : SM (St σ) α} (h : Pres St.flags m) : Pres Sys.flags (inMem o m) :=
  ⟨fun s => h.keep (s.view o)⟩

theorem withIter_flags {α : Type} (o : Nat) (it : Iter) {m : SM (LSt σ) α} (h : Pres LSt.flags m) :
    Pres Sys.flags (withIter o it m) := by
  refine ⟨fun s => ?_⟩
  have := h.keep ⟨s.view o, it⟩
  unfold withIter
  rcases e : m ⟨s.view o, it⟩ with ⟨r, t⟩
  rw [e] at this
  cases r <;> exact this

theorem liftEach_flags (E : Env σ) : (ts : List Ty) → Pres LSt.flags (liftEach E ts)
  | [] => .pure _
  | t :: ts => .bind (liftFlat_flags E t) fun _ => .bind (liftEach_flags E ts) fun _ => .pure _

theorem liftValues_flags (E : Env σ) (ord : List (String × Val) → List (String × Val)) (n : Nat) (ts : List Ty) :
    Pres LSt.flags (liftValues E ord n ts) := by
  unfold liftValues
  refine .bind (.lift _) fun _ => .ite (liftEach_flags E ts) ?_
  refine .bind nextU32_flags fun _ => .bind (.lift _) fun _ => .ite .fail ?_
  refine .bind (.lift _) fun _ => .bind .get fun _ => .ite .fail ?_
  refine .bind (onSt_flags (load_flags E _ _)) fun _ => ?_
  split
  · exact .pure _
  · exact .fail

theorem lowerEach_flags (E : Env σ) : (ts : List Ty) → (vs : List Val) → Pres St.flags (lowerEach E ts vs)
  | ts, [] => by unfold lowerEach; exact .pure _
  | [], _ :: _ => .crash
  | t :: ts, v :: vs => .bind (lowerFlat_flags E t v) fun _ => .bind (lowerEach_flags E ts vs) fun _ => .pure _

theorem lowerTuple_flags (E : Env σ) (o : Nat) (ts : List Ty) (out : Option Iter) :
    Pres Sys.flags (lowerTuple E o ts out) := by
  unfold lowerTuple
  refine .bind (.lift _) fun _ => .bind (.lift _) fun _ => .bind ?_ fun _ => .ite .fail ?_
  · unfold tuplePtr
    split
    · exact inMem_flags o (alloc_flags ..)
    · exact .bind (withIter_flags o _ nextU32_flags) fun _ => .pure _
  · exact .bind .get fun _ => .ite .fail (.pure _)

theorem lowerValues_flags (E : Env σ) (o n : Nat) (vs : List Val) (ts : List Ty) (out : Option Iter) :
    Pres Sys.flags (lowerValues E o n vs ts out) := by
  unfold lowerValues
  refine .bind (.lift _) fun _ => .ite ?_ (lowerTuple_flags ..)
  exact .bind (inMem_flags o (lowerEach_flags ..)) fun _ => .pure _

theorem exitIgnored_flags (S : Side σ) : Pres Sys.flags (exitIgnored S) := by
  refine ⟨fun s => ?_⟩
  have := (Handles.exitCall_flags S.E.cx).keep s.world
  unfold exitIgnored
  rcases e : Handles.exitCall S.E.cx s.world with ⟨r, w⟩
  rw [e] at this
  cases r <;> exact this

end Abi
end Verif
