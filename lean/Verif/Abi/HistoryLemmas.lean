import Verif.Abi.HistorySpec
import Verif.Abi.FlagsKept
import Verif.Abi.ConfineLemmas
import Verif.Handles.HistoryLemmas

/-!
# Loading, lowering and lifting do nothing to handles but the operations of the histories
-/

namespace Verif.Abi
open Spec Encoding
open Handles (RTInfo Op World CtxId InstId)

variable {σ : Type}

/-- The handles. -/
def LSt.world (s : LSt σ) : World := s.st.world

theorem handledBy_refl {info : RTInfo} {L : Op → Prop} (w : World) : HandledBy info L w w := ⟨[], by simp, rfl⟩
theorem handledBy_trans {info : RTInfo} {L : Op → Prop} {a b c : World} (h1 : HandledBy info L a b) (h2 : HandledBy info L b c) :
    HandledBy info L a c := by
  obtain ⟨o1, k1, rfl⟩ := h1
  obtain ⟨o2, k2, rfl⟩ := h2
  refine ⟨o1 ++ o2, fun op h => ?_, (Handles.then_append ..).symm⟩
  rcases List.mem_append.1 h with h | h
  · exact k1 op h
  · exact k2 op h

/-- Whatever the outcome, only operations out of `L` happen to the handles. -/
structure Acts (info : RTInfo) (L : Op → Prop) {S α : Type} (f : S → World) (m : SM S α) : Prop where
  run : ∀ s, HandledBy info L (f s) (f (m s).2)

namespace Acts
variable {S α β : Type} {f : S → World} {info : RTInfo} {L : Op → Prop}

theorem bind {m : SM S α} {g : α → SM S β} (h1 : Acts info L f m) (h2 : ∀ a, Acts info L f (g a)) :
    Acts info L f (m >>= g) := by
  refine ⟨fun s => ?_⟩
  rw [SM.bind_def]
  have := h1.run s
  rcases e : m s with ⟨r, s1⟩
  rw [e] at this
  cases r with
  | ok a => exact handledBy_trans this ((h2 a).run s1)
  | err => exact this
  | panic => exact this
  | diverge => exact this

theorem ofPres {m : SM S α} (h : Pres f m) : Acts info L f m := ⟨fun s => by rw [h.keep]; exact handledBy_refl _⟩
theorem pure (a : α) : Acts info L f (Pure.pure a : SM S α) := .ofPres (.pure a)
theorem fail : Acts info L f (SM.fail : SM S α) := .ofPres .fail
theorem crash : Acts info L f (SM.crash : SM S α) := .ofPres .crash
theorem get : Acts info L f (SM.get : SM S S) := .ofPres .get
theorem lift (r : Res α) : Acts info L f (SM.lift r : SM S α) := .ofPres (.lift r)
theorem ite {c : Prop} [Decidable c] {m n : SM S α} (h1 : Acts info L f m) (h2 : Acts info L f n) :
    Acts info L f (if c then m else n) := by
  split
  · exact h1
  · exact h2

end Acts

variable {info : RTInfo} {L : Op → Prop}

theorem onWorld_acts {α : Type} {f : SM World α} (h : ∀ w, HandledBy info L w (f w).2) :
    Acts info L St.world (onWorld f : SM (St σ) α) := ⟨fun s => h s.world⟩

theorem liftOwn_handled (E : Env σ) (rt : RT) (i : U32) (w : World) :
    HandledBy E.info (LiftsFor E) w (Handles.liftOwn E.inst rt i w).2 :=
  ⟨[.liftOwn E.inst rt i], by simp [LiftsFor], rfl⟩
theorem liftBorrow_handled (E : Env σ) (rt : RT) (i : U32) (w : World) :
    HandledBy E.info (LiftsFor E) w (Handles.liftBorrow E.inst E.cx rt i w).2 :=
  ⟨[.liftBorrow E.inst E.cx rt i], by simp [LiftsFor], rfl⟩
theorem lowerOwn_handled (E : Env σ) (rt : RT) (rep : U32) (w : World) :
    HandledBy E.info (LowersFor E) w (Handles.lowerOwn E.inst rt rep w).2 :=
  ⟨[.lowerOwn E.inst rt rep], by simp [LowersFor], rfl⟩
theorem lowerBorrow_handled (E : Env σ) (rt : RT) (rep : U32) (w : World) :
    HandledBy E.info (LowersFor E) w (Handles.lowerBorrow E.info E.inst E.cx rt rep w).2 :=
  ⟨[.lowerBorrow E.inst E.cx rt rep], by simp [LowersFor], rfl⟩

theorem loadBytes_acts (ptr n : U32) : Acts info L St.world (loadBytes ptr n : SM (St σ) Nat) :=
  .bind .get fun _ => .bind (.lift _) fun _ => .pure _
theorem loadInt_acts (ptr : U32) (t : Ty) : Acts info L St.world (loadInt ptr t : SM (St σ) Val) :=
  .bind (.lift _) fun _ => .bind (loadBytes_acts ..) fun _ => .pure _
theorem loadIntWithSize_acts (ptr n : U32) (b : Bool) : Acts info L St.world (loadIntWithSize ptr n b : SM (St σ) Val) :=
  .ite (.pure _) (.ite (loadInt_acts ..) (.ite (loadInt_acts ..) (.ite (loadInt_acts ..) (.ite (loadInt_acts ..)
    (loadInt_acts ..)))))
theorem loadUInt32_acts (ptr : U32) : Acts info L St.world (loadUInt32 ptr : SM (St σ) U32) :=
  .bind (loadInt_acts ..) fun _ => by
    split
    · exact .pure _
    · exact .fail
theorem loadUInt64_acts (ptr : U32) : Acts info L St.world (loadUInt64 ptr : SM (St σ) U64) :=
  .bind (loadInt_acts ..) fun _ => by
    split
    · exact .pure _
    · exact .fail
theorem loadBool_acts (ptr : U32) : Acts info L St.world (loadBool ptr : SM (St σ) Val) :=
  .bind (loadInt_acts ..) fun _ => by
    split
    · exact .pure _
    · exact .fail
theorem loadChar_acts (ptr : U32) : Acts info L St.world (loadChar ptr : SM (St σ) Val) :=
  .bind (loadIntWithSize_acts ..) fun _ => by
    split
    · exact .bind (.lift _) fun _ => .pure _
    · exact .fail
theorem loadStringFromRange_acts (E : Env σ) (ptr n : U32) : Acts info L St.world (loadStringFromRange E ptr n) := by
  unfold loadStringFromRange
  exact .bind (.lift _) fun _ => .ite .fail (.bind .get fun _ => .ite .fail (.bind (.lift _) fun _ => .lift _))
theorem loadString_acts (E : Env σ) (ptr : U32) : Acts info L St.world (loadString E ptr) :=
  .bind (loadUInt32_acts ..) fun _ => .bind (loadUInt32_acts ..) fun _ => loadStringFromRange_acts ..
theorem loadElems_acts {f : U32 → SM (St σ) Val} (hf : ∀ p, Acts info L St.world (f p)) (ptr sz : U32) :
    (n i : Nat) → Acts info L St.world (loadElems f ptr sz n i)
  | 0, _ => .pure _
  | n + 1, i => .bind (hf _) fun _ => .bind (loadElems_acts hf ptr sz n (i + 1)) fun _ => .pure _
theorem loadListFromRange_acts {f : U32 → SM (St σ) Val} (hf : ∀ p, Acts info L St.world (f p)) (t : Ty) (ptr n : U32) :
    Acts info L St.world (loadListFromRange f t ptr n) := by
  unfold loadListFromRange
  exact .bind (.lift _) fun _ => .ite .fail (.bind (.lift _) fun _ => .bind .get fun _ => .ite .fail (loadElems_acts hf ..))
theorem loadList_acts {f : U32 → SM (St σ) Val} (hf : ∀ p, Acts info L St.world (f p)) (t : Ty) (ptr : U32) :
    Acts info L St.world (loadList f t ptr) :=
  .bind (loadUInt32_acts ..) fun _ => .bind (loadUInt32_acts ..) fun _ => loadListFromRange_acts hf ..
theorem loadFlagsWord_acts (ptr n : U32) : Acts info L St.world (loadFlagsWord ptr n : SM (St σ) U64) := by
  unfold loadFlagsWord
  refine .bind (loadIntWithSize_acts ..) fun _ => ?_
  refine .ite ?_ (.ite ?_ (.ite ?_ (.ite ?_ (.pure _))))
  all_goals (split <;> first | exact .pure _ | exact .crash)
theorem loadFlags_acts (ptr : U32) (ls : List String) : Acts info L St.world (loadFlags ptr ls : SM (St σ) Val) :=
  .bind (loadFlagsWord_acts ..) fun _ => .pure _
theorem loadDisc_acts (ptr : U32) (d : Disc) : Acts info L St.world (loadDisc ptr d : SM (St σ) U32) := by
  unfold loadDisc
  refine .bind (loadInt_acts ..) fun _ => ?_
  split <;> first | exact .pure _ | exact .crash

mutual
theorem load_acts (E : Env σ) : (t : Ty) → (ptr : U32) → Acts E.info (LiftsFor E) St.world (load E t ptr)
  | .bool, ptr => by rw [load]; exact loadBool_acts _
  | .u8, ptr | .u16, ptr | .u32, ptr | .u64, ptr | .s8, ptr | .s16, ptr | .s32, ptr | .s64, ptr => by
    rw [load]; exact loadInt_acts ..
  | .f32, ptr => by rw [load]; exact .bind (loadUInt32_acts _) fun _ => .pure _
  | .f64, ptr => by rw [load]; exact .bind (loadUInt64_acts _) fun _ => .pure _
  | .char, ptr => by rw [load]; exact loadChar_acts _
  | .string, ptr => by rw [load]; exact .bind (loadString_acts ..) fun _ => .pure _
  | .list t, ptr => by rw [load]; exact .bind (loadList_acts (load_acts E t) ..) fun _ => .pure _
  | .record fs, ptr => by rw [load]; exact loadFields_acts E fs ..
  | .variant cs, ptr => by
    rw [load]
    refine .bind (.lift _) fun _ => .bind (loadDisc_acts ..) fun _ => .bind (.lift _) fun _ => .ite .fail ?_
    exact .bind (.lift _) fun _ => loadCase_acts E cs cs ..
  | .flags ls, ptr => by rw [load]; exact loadFlags_acts ..
  | .own rt, ptr => by
    rw [load]
    exact .bind (loadUInt32_acts _) fun _ => .bind (onWorld_acts fun _ => liftOwn_handled ..) fun _ => .pure _
  | .borrow rt, ptr => by
    rw [load]
    exact .bind (loadUInt32_acts _) fun _ => .bind (onWorld_acts fun _ => liftBorrow_handled ..) fun _ => .pure _
  | .nil, ptr => by rw [load]; exact .fail
  | .other, ptr => by rw [load]; exact .fail
theorem loadFields_acts (E : Env σ) : (fs : Fields) → (ptr : U32) → (acc : List (String × Val)) →
    Acts E.info (LiftsFor E) St.world (loadFields E fs ptr acc)
  | .nil, _, _ => by rw [loadFields]; exact .pure _
  | .cons l t fs, ptr, acc => by
    rw [loadFields]
    exact .bind (.lift _) fun _ => .bind (load_acts E t ..) fun _ => .bind (.lift _) fun _ => loadFields_acts E fs ..
theorem loadCase_acts (E : Env σ) (all : Cases) : (cs : Cases) → (i : Nat) → (ptr : U32) →
    Acts E.info (LiftsFor E) St.world (loadCase E all cs i ptr)
  | .nil, _, _ => by rw [loadCase]; exact .crash
  | .cons l t r cs, 0, ptr => by
    rw [loadCase]
    exact .bind (.lift _) fun _ => .ite (.pure _) (.bind (load_acts E t ..) fun _ => .pure _)
  | .cons l t r cs, i + 1, ptr => by rw [loadCase]; exact loadCase_acts E all cs ..
end

mutual
theorem lowerFlat_acts (E : Env σ) : (t : Ty) → (v : Val) → Acts E.info (LowersFor E) St.world (lowerFlat E t v)
  | .bool, v | .u8, v | .u16, v | .u32, v | .u64, v | .s8, v | .s16, v | .s32, v | .s64, v | .f32, v | .f64, v => by
    unfold lowerFlat
    split
    · exact .pure _
    · exact .fail
  | .char, v => by
    unfold lowerFlat
    split
    · exact .pure _
    · exact .crash
  | .string, v => by
    unfold lowerFlat
    split
    · exact .bind (.ofPres (storeStringIntoRange_world ..)) fun _ => .pure _
    · exact .crash
  | .list t, v => by
    unfold lowerFlat
    exact .bind (.ofPres (storeListIntoRange_world E (store_world E _) ..)) fun _ => .pure _
  | .record fs, v => by
    unfold lowerFlat
    split
    · exact lowerFields_acts E fs _
    · exact .fail
  | .variant cs, v => by
    unfold lowerFlat
    refine .bind (.lift _) fun _ => .bind (.lift _) fun _ => ?_
    split
    · exact .fail
    · exact .ite .fail (.bind (lowerCase_acts E cs ..) fun _ => .bind (.lift _) fun _ => .pure _)
  | .flags ls, v => by unfold lowerFlat; exact .lift _
  | .own rt, v => by
    unfold lowerFlat
    split
    · exact .bind (onWorld_acts fun _ => lowerOwn_handled ..) fun _ => .pure _
    · exact .fail
  | .borrow rt, v => by
    unfold lowerFlat
    split
    · exact .bind (onWorld_acts fun _ => lowerBorrow_handled ..) fun _ => .pure _
    · exact .fail
  | .nil, v => by unfold lowerFlat; exact .fail
  | .other, v => by unfold lowerFlat; exact .fail
theorem lowerFields_acts (E : Env σ) : (fs : Fields) → (m : List (String × Val)) → Acts E.info (LowersFor E) St.world (lowerFields E fs m)
  | .nil, _ => by unfold lowerFields; exact .pure _
  | .cons l t fs, m => by
    unfold lowerFields
    exact .bind (lowerFlat_acts E t _) fun _ => .bind (lowerFields_acts E fs m) fun _ => .pure _
theorem lowerCase_acts (E : Env σ) : (cs : Cases) → (i : Nat) → (v : Val) → Acts E.info (LowersFor E) St.world (lowerCase E cs i v)
  | .nil, _, _ => by unfold lowerCase; exact .crash
  | .cons l t r cs, 0, v => by unfold lowerCase; exact .ite (.pure _) (lowerFlat_acts E t v)
  | .cons l t r cs, i + 1, v => by unfold lowerCase; exact lowerCase_acts E cs i v
end

theorem onSt_acts {α : Type} {m : SM (St σ) α} (h : Acts info L St.world m) : Acts info L LSt.world (onSt m) := ⟨fun s => h.run s.st⟩
theorem next_acts (k : Kind) : Acts info L LSt.world (next k : SM (LSt σ) Val) := ⟨fun _ => handledBy_refl _⟩
theorem nextU32_acts : Acts info L LSt.world (nextU32 : SM (LSt σ) U32) :=
  .bind (next_acts _) fun _ => by
    split
    · exact .pure _
    · exact .fail
theorem nextU64_acts : Acts info L LSt.world (nextU64 : SM (LSt σ) U64) :=
  .bind (next_acts _) fun _ => by
    split
    · exact .pure _
    · exact .fail
theorem nextF32_acts : Acts info L LSt.world (nextF32 : SM (LSt σ) U32) :=
  .bind (next_acts _) fun _ => by
    split
    · exact .pure _
    · exact .fail
theorem nextF64_acts : Acts info L LSt.world (nextF64 : SM (LSt σ) U64) :=
  .bind (next_acts _) fun _ => by
    split
    · exact .pure _
    · exact .fail
theorem liftFlagWords_acts : (n k : Nat) → (x : U64) → Acts info L LSt.world (liftFlagWords n k x : SM (LSt σ) U64)
  | 0, _, _ => .pure _
  | n + 1, k, x => .bind nextU32_acts fun _ => liftFlagWords_acts n (k + 32) _
theorem pushFlat_acts (fts : List Kind) : Acts info L LSt.world (pushFlat fts : SM (LSt σ) Unit) := ⟨fun _ => handledBy_refl _⟩
theorem popFlat_acts : Acts info L LSt.world (popFlat : SM (LSt σ) (List Kind)) := by
  refine ⟨fun s => ?_⟩
  unfold popFlat
  split <;> exact handledBy_refl _
theorem skipFlat_acts : (fts : List Kind) → Acts info L LSt.world (skipFlat fts : SM (LSt σ) Unit)
  | [] => .pure _
  | _ :: fts => .bind (next_acts _) fun _ => skipFlat_acts fts

mutual
theorem liftFlat_acts (E : Env σ) : (t : Ty) → Acts E.info (LiftsFor E) LSt.world (liftFlat E t)
  | .bool | .u8 | .u16 | .u32 | .s8 | .s16 | .s32 => by unfold liftFlat; exact .bind nextU32_acts fun _ => .pure _
  | .u64 | .s64 => by unfold liftFlat; exact .bind nextU64_acts fun _ => .pure _
  | .f32 => by unfold liftFlat; exact .bind nextF32_acts fun _ => .pure _
  | .f64 => by unfold liftFlat; exact .bind nextF64_acts fun _ => .pure _
  | .char => by unfold liftFlat; exact .bind nextU32_acts fun _ => .bind (.lift _) fun _ => .pure _
  | .string => by
    unfold liftFlat
    exact .bind nextU32_acts fun _ => .bind nextU32_acts fun _ =>
      .bind (onSt_acts (loadStringFromRange_acts ..)) fun _ => .pure _
  | .list t => by
    unfold liftFlat
    exact .bind nextU32_acts fun _ => .bind nextU32_acts fun _ =>
      .bind (onSt_acts (loadListFromRange_acts (load_acts E t) ..)) fun _ => .pure _
  | .record fs => by unfold liftFlat; exact liftFields_acts E fs _
  | .variant cs => by
    unfold liftFlat
    refine .bind (.lift _) fun _ => ?_
    split
    · exact .fail
    · exact .ite .fail (.bind nextU32_acts fun _ => .ite .fail (liftCase_acts E cs cs ..))
  | .flags ls => by unfold liftFlat; exact .bind (liftFlagWords_acts ..) fun _ => .pure _
  | .own rt => by
    unfold liftFlat
    exact .bind nextU32_acts fun _ => .bind (onSt_acts (onWorld_acts fun _ => liftOwn_handled ..)) fun _ => .pure _
  | .borrow rt => by
    unfold liftFlat
    exact .bind nextU32_acts fun _ => .bind (onSt_acts (onWorld_acts fun _ => liftBorrow_handled ..)) fun _ => .pure _
  | .nil => by unfold liftFlat; exact .fail
  | .other => by unfold liftFlat; exact .fail
theorem liftFields_acts (E : Env σ) : (fs : Fields) → (acc : List (String × Val)) → Acts E.info (LiftsFor E) LSt.world (liftFields E fs acc)
  | .nil, _ => by unfold liftFields; exact .pure _
  | .cons l t fs, acc => by
    unfold liftFields
    exact .bind (liftFlat_acts E t) fun _ => liftFields_acts E fs _
theorem liftCase_acts (E : Env σ) (all : Cases) : (cs : Cases) → (i : Nat) → (fts : List Kind) →
    Acts E.info (LiftsFor E) LSt.world (liftCase E all cs i fts)
  | .nil, _, _ => by unfold liftCase; exact .crash
  | .cons l t r cs, 0, fts => by
    unfold liftCase
    exact .ite (.bind (skipFlat_acts _) fun _ => .bind (.lift _) fun _ => .pure _)
      (.bind (pushFlat_acts _) fun _ => .bind (liftFlat_acts E t) fun _ => .bind popFlat_acts fun _ =>
        .bind (skipFlat_acts _) fun _ => .bind (.lift _) fun _ => .pure _)
  | .cons l t r cs, i + 1, fts => by unfold liftCase; exact liftCase_acts E all cs i fts
end

theorem inMem_acts {α : Type} (o : Nat) {m : SM (St σ) α} (h : Acts info L St.world m) : Acts info L Sys.world (inMem o m) :=
  ⟨fun s => h.run (s.view o)⟩

theorem withIter_acts {α : Type} (o : Nat) (it : Iter) {m : SM (LSt σ) α} (h : Acts info L LSt.world m) :
    Acts info L Sys.world (withIter o it m) := by
  refine ⟨fun s => ?_⟩
  have := h.run ⟨s.view o, it⟩
  unfold withIter
  rcases e : m ⟨s.view o, it⟩ with ⟨r, t⟩
  rw [e] at this
  cases r <;> exact this

theorem liftEach_acts (E : Env σ) : (ts : List Ty) → Acts E.info (LiftsFor E) LSt.world (liftEach E ts)
  | [] => .pure _
  | t :: ts => .bind (liftFlat_acts E t) fun _ => .bind (liftEach_acts E ts) fun _ => .pure _

theorem liftValues_acts (E : Env σ) (ord : List (String × Val) → List (String × Val)) (n : Nat) (ts : List Ty) :
    Acts E.info (LiftsFor E) LSt.world (liftValues E ord n ts) := by
  unfold liftValues
  refine .bind (.lift _) fun _ => .ite (liftEach_acts E ts) ?_
  refine .bind nextU32_acts fun _ => .bind (.lift _) fun _ => .ite .fail ?_
  refine .bind (.lift _) fun _ => .bind .get fun _ => .ite .fail ?_
  refine .bind (onSt_acts (load_acts E _ _)) fun _ => ?_
  split
  · exact .pure _
  · exact .fail

theorem lowerEach_acts (E : Env σ) : (ts : List Ty) → (vs : List Val) → Acts E.info (LowersFor E) St.world (lowerEach E ts vs)
  | ts, [] => by unfold lowerEach; exact .pure _
  | [], _ :: _ => .crash
  | t :: ts, v :: vs => .bind (lowerFlat_acts E t v) fun _ => .bind (lowerEach_acts E ts vs) fun _ => .pure _

theorem lowerTuple_acts (E : Env σ) (o : Nat) (ts : List Ty) (out : Option Iter) :
    Acts E.info (LowersFor E) Sys.world (lowerTuple E o ts out) := by
  unfold lowerTuple
  refine .bind (.lift _) fun _ => .bind (.lift _) fun _ => .bind ?_ fun _ => .ite .fail ?_
  · unfold tuplePtr
    split
    · exact inMem_acts o (.ofPres (alloc_world ..))
    · exact .bind (withIter_acts o _ nextU32_acts) fun _ => .pure _
  · exact .bind .get fun _ => .ite .fail (.pure _)

theorem lowerValues_acts (E : Env σ) (o n : Nat) (vs : List Val) (ts : List Ty) (out : Option Iter) :
    Acts E.info (LowersFor E) Sys.world (lowerValues E o n vs ts out) := by
  unfold lowerValues
  refine .bind (.lift _) fun _ => .ite ?_ (lowerTuple_acts ..)
  exact .bind (inMem_acts o (lowerEach_acts ..)) fun _ => .pure _


/-! ## Putting histories together -/

theorem inTurn_nil : (Ls : List (Op → Prop)) → InTurn Ls []
  | [] => rfl
  | _ :: Ls => ⟨[], [], rfl, by simp, inTurn_nil Ls⟩

theorem inTurn_append {Ls Ls' : List (Op → Prop)} {a b : List Op} (h1 : InTurn Ls a) (h2 : InTurn Ls' b) :
    InTurn (Ls ++ Ls') (a ++ b) := by
  induction Ls generalizing a with
  | nil => unfold InTurn at h1; subst h1; exact h2
  | cons L Ls ih =>
    obtain ⟨x, y, rfl, hx, hy⟩ := h1
    exact ⟨x, y ++ b, List.append_assoc .., hx, ih hy⟩

theorem inTurn_one {L : Op → Prop} {a : List Op} (h : ∀ op ∈ a, L op) : InTurn [L] a := ⟨a, [], by simp, h, rfl⟩

/-- An operation of one of the kinds. -/
def Among (Ls : List (Op → Prop)) (op : Op) : Prop := ∃ L ∈ Ls, L op

theorem inTurn_among {Ls : List (Op → Prop)} {a : List Op} (h : InTurn Ls a) (op : Op) (ho : op ∈ a) : Among Ls op := by
  induction Ls generalizing a with
  | nil => unfold InTurn at h; subst h; simp at ho
  | cons L Ls ih =>
    obtain ⟨x, y, rfl, hx, hy⟩ := h
    rcases List.mem_append.1 ho with h | h
    · exact ⟨L, by simp, hx op h⟩
    · obtain ⟨M, hM, h⟩ := ih hy h
      exact ⟨M, by simp [hM], h⟩

theorem among_cons {L : Op → Prop} {Ls : List (Op → Prop)} {op : Op} : Among (L :: Ls) op ↔ L op ∨ Among Ls op := by
  unfold Among
  simp
theorem among_nil {op : Op} : ¬ Among [] op := by simp [Among]

/-- `Operates`, to be put together. -/
structure Oper (info : RTInfo) (N : CtxId → Prop) (Ls : List (Op → Prop)) {α : Type} (m : SM (Sys σ) α) : Prop where
  run : Operates info N Ls m

/-- No operation out of `Ls` uses one of the calls `N`. -/
def Clear (Ls : List (Op → Prop)) (N : CtxId → Prop) : Prop := ∀ c, N c → ∀ op, Among Ls op → op.ctx ≠ some c
/-- No operation out of `Ls'` uses a call that one out of `Ls` ends. -/
def Ends (Ls Ls' : List (Op → Prop)) : Prop := ∀ c, Among Ls (.exit c) → ∀ op, Among Ls' op → op.ctx ≠ some c

namespace Oper
variable {α β : Type} {N N' : CtxId → Prop} {Ls Ls' : List (Op → Prop)}

theorem weaken {m : SM (Sys σ) α} (h : Oper info N Ls m) (hN : ∀ c, N c → N' c) : Oper info N' Ls m :=
  ⟨fun s hs => h.run s fun c hc => hs c (hN c hc)⟩

theorem same {m : SM (Sys σ) α} (h : ∀ s, (∀ c, N c → s.world.Fresh c) → Handles.SameHandles s.world (m s).2.world) :
    Oper info N Ls m := ⟨fun s hs => ⟨[], inTurn_nil _, Handles.noneAfterExit_nil, h s hs⟩⟩

/-- One after the other. -/
theorem bindOn {m : SM (Sys σ) α} {k : α → SM (Sys σ) β} (h1 : Oper info N Ls m)
    (h2 : ∀ s a t, m s = (.ok a, t) → Oper info N' Ls' (k a)) (hc : Clear Ls N') (he : Ends Ls Ls') :
    Oper info (fun c => N c ∨ N' c) (Ls ++ Ls') (m >>= k) := by
  refine ⟨fun s hs => ?_⟩
  obtain ⟨o1, k1, k2, k3⟩ := h1.run s fun c h => hs c (.inl h)
  rw [SM.bind_def]
  rcases e : m s with ⟨r, t⟩
  rw [e] at k3
  have stop : ∃ ops, InTurn (Ls ++ Ls') ops ∧ Handles.NoneAfterExit ops ∧
      Handles.SameHandles (s.world.then info ops) t.world :=
    ⟨o1, by simpa using inTurn_append k1 (inTurn_nil Ls'), k2, k3⟩
  cases r with
  | ok a =>
    obtain ⟨o2, j1, j2, j3⟩ := (h2 s a t e).run t fun c h =>
      (Handles.fresh_same k3).2 (Handles.then_fresh info o1 (hs c (.inr h)) fun op ho => hc c h op (inTurn_among k1 op ho))
    refine ⟨o1 ++ o2, inTurn_append k1 j1, Handles.noneAfterExit_append k2 j2 fun c h op ho =>
      he c (inTurn_among k1 _ h) op (inTurn_among j1 op ho), ?_⟩
    rw [Handles.then_append]
    obtain ⟨f, hf⟩ := k3
    obtain ⟨g, hg⟩ := j3
    refine ⟨g, ?_⟩
    show (k a t).2.world = _
    rw [hg, hf, Handles.then_leave]
  | err => exact stop
  | panic => exact stop
  | diverge => exact stop

theorem bind {m : SM (Sys σ) α} {k : α → SM (Sys σ) β} (h1 : Oper info N Ls m) (h2 : ∀ a, Oper info N' Ls' (k a))
    (hc : Clear Ls N') (he : Ends Ls Ls') : Oper info (fun c => N c ∨ N' c) (Ls ++ Ls') (m >>= k) :=
  h1.bindOn (fun _ a _ _ => h2 a) hc he

/-- Something that leaves the handles alone, first. -/
theorem skip {m : SM (Sys σ) α} {k : α → SM (Sys σ) β} (h1 : ∀ s, Handles.SameHandles s.world (m s).2.world)
    (h2 : ∀ a, Oper info N Ls (k a)) : Oper info N Ls (m >>= k) :=
  (bind (N := fun _ => False) (Ls := []) (same fun s _ => h1 s) h2 (fun _ _ _ h => absurd h among_nil)
    (fun _ h => absurd h among_nil)).weaken (fun _ h => h.elim False.elim id)

/-- Something that leaves the handles alone, last. -/
theorem last {m : SM (Sys σ) α} {k : α → SM (Sys σ) β} (h1 : Oper info N Ls m)
    (h2 : ∀ a s, Handles.SameHandles s.world (k a s).2.world) : Oper info N Ls (m >>= k) := by
  have := (bind h1 (N' := fun _ => False) (Ls' := []) (fun a => same fun s _ => h2 a s) (fun _ h => h.elim)
    (fun _ _ _ h => absurd h among_nil)).weaken (N' := N) (fun _ h => h.elim id False.elim)
  rwa [List.append_nil] at this

theorem ofActs {L : Op → Prop} {m : SM (Sys σ) α} (h : Acts info L Sys.world m) (he : ∀ c, ¬ L (.exit c)) :
    Oper info (fun _ => False) [L] m := by
  refine ⟨fun s _ => ?_⟩
  obtain ⟨ops, h1, h2⟩ := h.run s
  refine ⟨ops, inTurn_one h1, fun l c r e => ?_, by rw [h2]; exact .refl _⟩
  exact absurd (h1 (.exit c) (by rw [e]; simp)) (he c)

theorem fail : Oper info N Ls (SM.fail : SM (Sys σ) α) := same fun _ _ => .refl _
theorem crash : Oper info N Ls (SM.crash : SM (Sys σ) α) := same fun _ _ => .refl _
theorem pure (a : α) : Oper info N Ls (Pure.pure a : SM (Sys σ) α) := same fun _ _ => .refl _
theorem ite {c : Prop} [Decidable c] {m n : SM (Sys σ) α} (h1 : Oper info N Ls m) (h2 : Oper info N Ls n) :
    Oper info N Ls (if c then m else n) := by
  split
  · exact h1
  · exact h2

end Oper

theorem newCtx_oper (S : Side σ) : Oper info (· = S.E.cx) [] (newCtx S) :=
  .same fun s hs => by
    refine ⟨s.world.mayLeave, ?_⟩
    show s.world.setCtx S.E.cx ⟨[], 0⟩ = s.world
    have := (hs _ rfl).empty
    unfold Handles.World.setCtx
    rw [show Handles.upd s.world.ctxs S.E.cx ⟨[], 0⟩ = s.world.ctxs from ?_]
    funext x
    by_cases hx : x = S.E.cx
    · rw [hx, Handles.upd_same, this]
    · rw [Handles.upd_other _ _ hx]

theorem setLeave_same (S : Side σ) (b : Bool) (s : Sys σ) : Handles.SameHandles s.world (setLeave S b s).2.world := ⟨_, rfl⟩
theorem get_same (s : Sys σ) : Handles.SameHandles s.world ((SM.get : SM (Sys σ) (Sys σ)) s).2.world := .refl _
theorem lift_same {α : Type} (r : Res α) (s : Sys σ) : Handles.SameHandles s.world ((SM.lift r : SM (Sys σ) α) s).2.world := .refl _

theorem exitIgnored_oper (S : Side σ) : Oper info (fun _ => False) [(· = .exit S.E.cx)] (exitIgnored S) := by
  refine ⟨fun s _ => ⟨[.exit S.E.cx], inTurn_one (by simp), fun l c r e op ho => ?_, ?_⟩⟩
  · cases l with
    | nil => simp at e; rw [e.2] at ho; simp at ho
    | cons x l => simp at e
  · show Handles.SameHandles (Handles.unitRes (Handles.exitCall S.E.cx s.world)).2 _
    unfold exitIgnored
    rcases Handles.exitCall S.E.cx s.world with ⟨r, w⟩
    cases r <;> exact .refl _

theorem lifts_ctx {E : Env σ} {op : Op} (h : LiftsFor E op) {c : CtxId} (hc : c ≠ E.cx) : op.ctx ≠ some c := by
  obtain ⟨rt, i, rfl | rfl⟩ := h
  · simp [Op.ctx]
  · simpa [Op.ctx] using hc.symm
theorem lowers_ctx {E : Env σ} {op : Op} (h : LowersFor E op) {c : CtxId} (hc : c ≠ E.cx) : op.ctx ≠ some c := by
  obtain ⟨rt, i, rfl | rfl⟩ := h
  · simp [Op.ctx]
  · simpa [Op.ctx] using hc.symm
theorem lifts_noExit (E : Env σ) (c : CtxId) : ¬ LiftsFor E (.exit c) := by rintro ⟨rt, i, h | h⟩ <;> cases h
theorem lowers_noExit (E : Env σ) (c : CtxId) : ¬ LowersFor E (.exit c) := by rintro ⟨rt, i, h | h⟩ <;> cases h

theorem among_one {L : Op → Prop} {op : Op} : Among [L] op ↔ L op := by simp [Among]

theorem lowerValues_oper {E : Env σ} (hE : E.info = info) (o n : Nat) (vs : List Val) (ts : List Ty) (out : Option Iter) :
    Oper info (fun _ => False) [LowersFor E] (lowerValues E o n vs ts out) := by
  subst hE
  exact .ofActs (lowerValues_acts ..) (lowers_noExit E)

theorem liftValues_oper {E : Env σ} (hE : E.info = info) (o : Nat) (it : Iter) (ord : List (String × Val) → List (String × Val))
    (n : Nat) (ts : List Ty) : Oper info (fun _ => False) [LiftsFor E] (withIter o it (liftValues E ord n ts)) := by
  subst hE
  exact .ofActs (withIter_acts _ _ (liftValues_acts ..)) (lifts_noExit E)

theorem clear_false (Ls : List (Op → Prop)) : Clear Ls (fun _ => False) := fun _ h => h.elim

theorem canonLift_oper {S : Side σ} (hS : S.E.info = info) (ord : List (String × Val) → List (String × Val))
    {callee : List Core → SM (Sys σ) (Option (List Core))} {N : CtxId → Prop} {Ls : List (Op → Prop)}
    (hc : ∀ fs, Oper info N Ls (callee fs)) (hN : ¬ N S.E.cx) (hL : ¬ Among Ls (.exit S.E.cx)) (ft : FuncTy) (args : List Val)
    (mp mr : Nat) :
    Oper info (fun c => c = S.E.cx ∨ N c) (LowersFor S.E :: (Ls ++ [LiftsFor S.E])) (canonLift S ord callee ft args mp mr) := by
  unfold canonLift
  refine .skip get_same fun _ => .ite .fail (.ite .fail ?_)
  refine (Oper.bind (newCtx_oper S) (N' := N) (Ls' := LowersFor S.E :: (Ls ++ [LiftsFor S.E])) (fun _ => ?_)
    (fun _ _ _ h => absurd h among_nil) (fun _ h => absurd h among_nil) : _)
  refine .skip (setLeave_same S _) fun _ => ?_
  refine (Oper.bind (lowerValues_oper hS ..) (N' := N) (Ls' := Ls ++ [LiftsFor S.E]) (fun _ => ?_) ?_ ?_).weaken
    (fun _ h => h.elim False.elim id)
  · refine .skip (setLeave_same S _) fun _ => ?_
    refine (Oper.bind (hc _) (N' := fun _ => False) (Ls' := [LiftsFor S.E]) (fun rs => ?_) (clear_false _) ?_).weaken
      (fun _ h => h.elim id False.elim)
    · cases rs with
      | none => exact .fail
      | some rs => exact .skip (lift_same _) fun _ => .last (liftValues_oper hS ..) fun _ _ => .refl _
    · intro c hx op ho
      exact lifts_ctx (among_one.1 ho) fun e => hL (e ▸ hx)
  · intro c hx op ho
    exact lowers_ctx (among_one.1 ho) fun e => hN (e ▸ hx)
  · intro c hx
    exact absurd (among_one.1 hx) (lowers_noExit _ _)

theorem setEnter_oper (S : Side σ) : Oper info (fun _ => False) [(· = .flag S.E.inst true)] (setEnter S true) :=
  ⟨fun s _ => ⟨[.flag S.E.inst true], inTurn_one (by simp), fun l c r e => by
    cases l with
    | nil => simp at e
    | cons x l => simp at e, .refl _⟩⟩

theorem postResult_oper (S : Side σ) {L : Op → Prop} (hp : ∀ p, S.post = some p → Oper info (fun _ => False) [L] p)
    (hL : ∀ op, L op → op.ctx = none) :
    Oper info (fun _ => False) [L, (· = .exit S.E.cx)] (postResult S) := by
  unfold postResult
  split
  · rename_i p e
    refine (Oper.bind (hp p e) (fun _ => exitIgnored_oper S) (clear_false _) ?_).weaken (fun _ h => h.elim id id)
    intro c hx
    have := hL _ (among_one.1 hx)
    simp [Op.ctx] at this
  · exact (Oper.bind (Oper.pure () : Oper info (fun _ => False) [L] _) (fun _ => exitIgnored_oper S) (clear_false _)
      (fun c hx => by have := hL _ (among_one.1 hx); simp [Op.ctx] at this)).weaken (fun _ h => h.elim id id)

theorem canonLower_oper {S : Side σ} (hS : S.E.info = info) (ord : List (String × Val) → List (String × Val))
    {callee : List Val → SM (Sys σ) (List Val × Option (SM (Sys σ) Unit))} {N : CtxId → Prop} {Ls Ps : List (Op → Prop)}
    (hc : ∀ vs, Oper info N Ls (callee vs)) (hN : ¬ N S.E.cx) (hL : ¬ Among Ls (.exit S.E.cx))
    (hp : ∀ vs s rs p u, callee vs s = (.ok (rs, some p), u) → Oper info (fun _ => False) Ps p)
    (hP : ¬ Among Ps (.exit S.E.cx))
    (hLP : Ends Ls Ps) (imp : Bool) (ft : FuncTy) (flat : List Core) (mp mr : Nat) :
    Oper info (fun c => c = S.E.cx ∨ N c)
      (LiftsFor S.E :: (Ls ++ LowersFor S.E :: (Ps ++ [(· = .exit S.E.cx), fun op => imp = true ∧ op = .flag S.E.inst true])))
      (canonLower S ord callee imp ft flat mp mr) := by
  unfold canonLower
  refine (Oper.bind (newCtx_oper S) (N' := N) (Ls' := LiftsFor S.E :: (Ls ++ LowersFor S.E :: (Ps ++ [(· = .exit S.E.cx),
      fun op => imp = true ∧ op = .flag S.E.inst true]))) (fun _ => ?_) (fun _ _ _ h => absurd h among_nil)
      (fun _ h => absurd h among_nil) : _)
  refine .skip get_same fun _ => .ite .fail (.ite .fail ?_)
  refine .skip (lift_same _) fun _ => ?_
  refine (Oper.bind (liftValues_oper hS ..) (N' := N) (Ls' := Ls ++ LowersFor S.E :: (Ps ++ [(· = .exit S.E.cx),
      fun op => imp = true ∧ op = .flag S.E.inst true])) (fun args => ?_)
    (fun c (hx : N c) op ho => lifts_ctx (among_one.1 ho) fun e => hN (by rw [← e]; exact hx))
    (fun c hx => absurd (among_one.1 hx) (lifts_noExit _ _))).weaken (fun _ h => h.elim False.elim id)
  have hq : ∀ op, Among [(· = .exit S.E.cx), fun op => imp = true ∧ op = .flag S.E.inst true] op →
      op = .exit S.E.cx ∨ op = .flag S.E.inst true := by
    intro op h
    rw [among_cons, among_one] at h
    exact h.imp id And.right
  refine (Oper.bindOn (hc _) (N' := fun _ => False) (Ls' := LowersFor S.E :: (Ps ++ [(· = .exit S.E.cx),
      fun op => imp = true ∧ op = .flag S.E.inst true])) (fun s r u e => ?_) (clear_false _) ?_).weaken
    (fun _ h => h.elim id False.elim)
  · obtain ⟨rs, q⟩ := r
    refine .skip (setLeave_same S _) fun _ => ?_
    refine (Oper.bind (lowerValues_oper hS ..) (N' := fun _ => False) (Ls' := Ps ++ [(· = .exit S.E.cx),
      fun op => imp = true ∧ op = .flag S.E.inst true]) (fun fl => ?_) (clear_false _)
      (fun c hx => absurd (among_one.1 hx) (lowers_noExit _ _))).weaken (fun _ h => h.elim id id)
    refine .skip (setLeave_same S _) fun _ => ?_
    cases q with
    | none => exact .crash
    | some p =>
      refine (Oper.bind (hp _ _ _ _ _ e) (N' := fun _ => False) (fun _ => ?_) (clear_false _) ?_).weaken
        (fun _ h => h.elim id id)
      · refine (Oper.bind (exitIgnored_oper S) (N' := fun _ => False) (Ls' := [fun op =>
            imp = true ∧ op = .flag S.E.inst true]) (fun _ => ?_) (clear_false _) ?_).weaken (fun _ h => h.elim id id)
        · cases imp with
          | false => exact .pure _
          | true =>
            have := (Oper.last (setEnter_oper (info := info) S) (k := fun _ => (Pure.pure fl : SM (Sys σ) _)) fun _ _ => .refl _)
            simpa using this
        · intro c hx op ho
          obtain ⟨-, rfl⟩ := among_one.1 ho
          simp [Op.ctx]
      · intro c hx op ho
        rcases hq op ho with rfl | rfl
        · intro h
          simp only [Op.ctx, Option.some.injEq] at h
          exact hP (h ▸ hx)
        · simp [Op.ctx]
  · intro c hx op ho
    rw [among_cons] at ho
    rcases ho with h | ⟨L, hL', h⟩
    · exact lowers_ctx h fun e => hL (e ▸ hx)
    · rcases List.mem_append.1 hL' with hm | hm
      · exact hLP c hx op ⟨L, hm, h⟩
      · rcases hq op ⟨L, hm, h⟩ with rfl | rfl
        · intro h
          simp only [Op.ctx, Option.some.injEq] at h
          exact hL (h ▸ hx)
        · simp [Op.ctx]

end Verif.Abi
