import Verif.Abi.HandleTrace

/-!
# `LiftFlat` changes nothing but handles
-/

namespace Verif.Abi
open Spec

variable {σ : Type} {α β : Type} {D : Prop}

/-- Memory and allocator state stay; so do the handle tables if `D`. -/
def LTame (D : Prop) (m : SM (LSt σ) α) : Prop := ∀ s, ∃ w, (m s).2.st = { s.st with world := w } ∧ (D → w = s.st.world)

theorem LTame.bind {m : SM (LSt σ) α} {f : α → SM (LSt σ) β} (h1 : LTame D m) (h2 : ∀ a, LTame D (f a)) : LTame D (m >>= f) := by
  intro s
  obtain ⟨w, e, hw⟩ := h1 s
  rw [SM.bind_def]
  rcases hm : m s with ⟨r, s1⟩
  rw [hm] at e
  simp only at e
  cases r with
  | ok a =>
    obtain ⟨w', e', hw'⟩ := h2 a s1
    rw [e] at e' hw'
    exact ⟨w', e', fun d => (hw' d).trans (hw d)⟩
  | err => exact ⟨w, e, hw⟩
  | panic => exact ⟨w, e, hw⟩
  | diverge => exact ⟨w, e, hw⟩

theorem LTame.st {m : SM (LSt σ) α} (h : Pres LSt.st m) : LTame D m := fun s => ⟨s.st.world, h.keep s, fun _ => rfl⟩
theorem LTame.lift (r : Res α) : LTame D (SM.lift r : SM (LSt σ) α) := fun s => ⟨s.st.world, rfl, fun _ => rfl⟩
theorem LTame.pure (a : α) : LTame D (Pure.pure a : SM (LSt σ) α) := fun s => ⟨s.st.world, rfl, fun _ => rfl⟩
theorem LTame.fail : LTame D (SM.fail : SM (LSt σ) α) := fun s => ⟨s.st.world, rfl, fun _ => rfl⟩
theorem LTame.crash : LTame D (SM.crash : SM (LSt σ) α) := fun s => ⟨s.st.world, rfl, fun _ => rfl⟩
theorem LTame.ite {c : Prop} [Decidable c] {m n : SM (LSt σ) α} (h1 : LTame D m) (h2 : LTame D n) :
    LTame D (if c then m else n) := by split <;> assumption
theorem LTame.imp {D' : Prop} {m : SM (LSt σ) α} (h : LTame D m) (hd : D' → D) : LTame D' m := by
  intro s
  obtain ⟨w, e, hw⟩ := h s
  exact ⟨w, e, fun d => hw (hd d)⟩
theorem LTame.onSt {C : Prop} {m : SM (St σ) α} (h : Tame C D m) : LTame D (onSt m) := fun s => (h s.st).1
theorem LTame.push (fts : List Kind) : LTame D (pushFlat fts : SM (LSt σ) Unit) := fun s => ⟨s.st.world, rfl, fun _ => rfl⟩
theorem LTame.world {m : SM Handles.World α} : LTame False (Abi.onSt (onWorld m) : SM (LSt σ) α) :=
  fun _ => ⟨_, rfl, fun d => d.elim⟩

mutual
theorem liftFlat_tame (E : Env σ) : (t : Ty) → LTame (Plain t) (liftFlat E t)
  | .bool | .u8 | .u16 | .u32 | .s8 | .s16 | .s32 => by unfold liftFlat; exact .bind (.st nextU32_st) fun _ => .pure _
  | .u64 | .s64 => by unfold liftFlat; exact .bind (.st nextU64_st) fun _ => .pure _
  | .f32 => by unfold liftFlat; exact .bind (.st nextF32_st) fun _ => .pure _
  | .f64 => by unfold liftFlat; exact .bind (.st nextF64_st) fun _ => .pure _
  | .char => by unfold liftFlat; exact .bind (.st nextU32_st) fun _ => .bind (.lift _) fun _ => .pure _
  | .string => by
    unfold liftFlat
    exact .bind (.st nextU32_st) fun _ => .bind (.st nextU32_st) fun _ =>
      .bind (.onSt (C := False) (loadStringFromRange_tame _ _ _)) fun _ => .pure _
  | .list t => by
    unfold liftFlat
    exact .bind (.st nextU32_st) fun _ => .bind (.st nextU32_st) fun _ =>
      .bind (.imp (.onSt (loadListFromRange_tame (load_tame E t) _ _ _)) (fun h => by rwa [Plain] at h)) fun _ => .pure _
  | .record fs => by unfold liftFlat; exact .imp (liftFields_tame E fs _) (fun h => by rwa [Plain] at h)
  | .variant cs => by
    unfold liftFlat
    refine .bind (.lift _) fun _ => ?_
    split
    · exact .fail
    · exact .ite .fail (.bind (.st nextU32_st) fun _ => .ite .fail (.imp (liftCase_tame E cs cs _ _) (fun h => by rwa [Plain] at h)))
  | .flags ls => by unfold liftFlat; exact .bind (.st (liftFlagWords_st ..)) fun _ => .pure _
  | .own rt => by
    unfold liftFlat
    exact .imp (.bind (.st nextU32_st) fun _ => .bind .world fun _ => .pure _) (fun h => by rwa [Plain] at h)
  | .borrow rt => by
    unfold liftFlat
    exact .imp (.bind (.st nextU32_st) fun _ => .bind .world fun _ => .pure _) (fun h => by rwa [Plain] at h)
  | .nil => by unfold liftFlat; exact .fail
  | .other => by unfold liftFlat; exact .fail
theorem liftFields_tame (E : Env σ) : (fs : Fields) → (acc : List (String × Val)) → LTame (PlainFields fs) (liftFields E fs acc)
  | .nil, _ => by unfold liftFields; exact .pure _
  | .cons l t fs, acc => by
    unfold liftFields
    exact .bind (.imp (liftFlat_tame E t) fun h => by rw [PlainFields] at h; exact h.1) fun _ =>
      .imp (liftFields_tame E fs _) fun h => by rw [PlainFields] at h; exact h.2
theorem liftCase_tame (E : Env σ) (all : Cases) : (cs : Cases) → (i : Nat) → (fts : List Kind) →
    LTame (PlainCases cs) (liftCase E all cs i fts)
  | .nil, _, _ => by unfold liftCase; exact .crash
  | .cons l t r cs, 0, fts => by
    unfold liftCase
    exact .ite (.bind (.st (skipFlat_st _)) fun _ => .bind (.lift _) fun _ => .pure _)
      (.bind (.push _) fun _ => .bind (.imp (liftFlat_tame E t) fun h => by rw [PlainCases] at h; exact h.1) fun _ =>
        .bind (.st popFlat_st) fun _ => .bind (.st (skipFlat_st _)) fun _ => .bind (.lift _) fun _ => .pure _)
  | .cons l t r cs, i + 1, fts => by
    unfold liftCase
    exact .imp (liftCase_tame E all cs i fts) fun h => by rw [PlainCases] at h; exact h.2
end

end Verif.Abi
