import Verif.Abi.BareLoad
import Verif.Abi.FlatMeansLower

/-!
# `LowerFlat` at a type with handles, beside the type with `u32` instead
-/

namespace Verif.Abi
open Spec Encoding

variable {σ : Type} {E : Env σ} {S : Type} {P : Put S}

/-! ## The type with `u32` instead of handles -/

mutual
theorem plain_bare : (t : Ty) → Plain (bare t)
  | .bool | .u8 | .u16 | .u32 | .u64 | .s8 | .s16 | .s32 | .s64 | .f32 | .f64 | .char | .string | .flags _ | .own _
  | .borrow _ | .nil | .other => by simp only [bare, Plain]
  | .list t => by rw [bare, Plain]; exact plain_bare t
  | .record fs => by rw [bare, Plain]; exact plainFields_bare fs
  | .variant cs => by rw [bare, Plain]; exact plainCases_bare cs
theorem plainFields_bare : (fs : Fields) → PlainFields (bareFields fs)
  | .nil => by simp only [bareFields, PlainFields]
  | .cons _ t fs => by rw [bareFields, PlainFields]; exact ⟨plain_bare t, plainFields_bare fs⟩
theorem plainCases_bare : (cs : Cases) → PlainCases (bareCases cs)
  | .nil => by simp only [bareCases, PlainCases]
  | .cons _ t _ cs => by rw [bareCases, PlainCases]; exact ⟨plain_bare t, plainCases_bare cs⟩
end

mutual
theorem align_bare : (t : Ty) → align (bare t) = align t
  | .bool | .u8 | .u16 | .u32 | .u64 | .s8 | .s16 | .s32 | .s64 | .f32 | .f64 | .char | .string | .flags _ | .own _
  | .borrow _ | .nil | .other | .list _ => by simp only [bare, align]
  | .record fs => by rw [bare, align, align, alignFields_bare]
  | .variant cs => by rw [bare, align, align, alignCases_bare, bareCases_length]
theorem alignFields_bare : (fs : Fields) → alignFields (bareFields fs) = alignFields fs
  | .nil => rfl
  | .cons _ t fs => by rw [bareFields, alignFields, alignFields, align_bare, alignFields_bare]
theorem alignCases_bare : (cs : Cases) → alignCases (bareCases cs) = alignCases cs
  | .nil => rfl
  | .cons _ t _ cs => by rw [bareCases, alignCases, alignCases, align_bare, alignCases_bare]
end

mutual
theorem specSize_bare : (t : Ty) → Spec.size (bare t) = Spec.size t
  | .bool | .u8 | .u16 | .u32 | .u64 | .s8 | .s16 | .s32 | .s64 | .f32 | .f64 | .char | .string | .flags _ | .own _
  | .borrow _ | .nil | .other | .list _ => by simp only [bare, Spec.size]
  | .record fs => by rw [bare, Spec.size, Spec.size, fieldsEnd_bare, alignFields_bare]
  | .variant cs => by rw [bare, Spec.size, Spec.size, sizeCases_bare, alignCases_bare, bareCases_length]
theorem fieldsEnd_bare : (fs : Fields) → (n : Nat) → fieldsEnd (bareFields fs) n = fieldsEnd fs n
  | .nil, _ => rfl
  | .cons _ t fs, n => by rw [bareFields, fieldsEnd, fieldsEnd, align_bare, specSize_bare, fieldsEnd_bare]
theorem sizeCases_bare : (cs : Cases) → sizeCases (bareCases cs) = sizeCases cs
  | .nil => rfl
  | .cons _ t _ cs => by rw [bareCases, sizeCases, sizeCases, specSize_bare, sizeCases_bare]
end

mutual
theorem coreTypes_bare : (t : Ty) → coreTypes (bare t) = coreTypes t
  | .bool | .u8 | .u16 | .u32 | .u64 | .s8 | .s16 | .s32 | .s64 | .f32 | .f64 | .char | .string | .flags _ | .own _
  | .borrow _ | .nil | .other | .list _ => by simp only [bare, coreTypes]
  | .record fs => by rw [bare, coreTypes, coreTypes, coreFields_bare]
  | .variant cs => by rw [bare, coreTypes, coreTypes, coreCases_bare]
theorem coreFields_bare : (fs : Fields) → coreFields (bareFields fs) = coreFields fs
  | .nil => rfl
  | .cons _ t fs => by rw [bareFields, coreFields, coreFields, coreTypes_bare, coreFields_bare]
theorem coreCases_bare : (cs : Cases) → coreCases (bareCases cs) = coreCases cs
  | .nil => rfl
  | .cons _ t _ cs => by rw [bareCases, coreCases, coreCases, coreTypes_bare, coreCases_bare]
end

mutual
theorem laid_of_bare : (t : Ty) → Laid t → Laid (bare t)
  | .bool, _ | .u8, _ | .u16, _ | .u32, _ | .u64, _ | .s8, _ | .s16, _ | .s32, _ | .s64, _ | .f32, _ | .f64, _ | .char, _
  | .string, _ | .flags _, _ | .own _, _ | .borrow _, _ | .list _, _ => by simp only [bare, Laid]
  | .nil, h | .other, h => by simp only [bare]; exact h
  | .record fs, h => by rw [Laid] at h; rw [bare, Laid]; exact laidFields_of_bare fs h
  | .variant cs, h => by
    rw [Laid] at h
    rw [bare, Laid, bareCases_length]
    exact ⟨h.1, h.2.1, laidCases_of_bare cs h.2.2⟩
theorem laidFields_of_bare : (fs : Fields) → LaidFields fs → LaidFields (bareFields fs)
  | .nil, _ => by simp [bareFields, LaidFields]
  | .cons l t fs, h => by
    rw [LaidFields] at h
    rw [bareFields, LaidFields]
    exact ⟨laid_of_bare t h.1, laidFields_of_bare fs h.2⟩
theorem laidCases_of_bare : (cs : Cases) → LaidCases cs → LaidCases (bareCases cs)
  | .nil, _ => by simp [bareCases, LaidCases]
  | .cons l t r cs, h => by
    rw [LaidCases] at h
    rw [bareCases, LaidCases, bare_nil]
    exact ⟨h.1.imp_right (laid_of_bare t), laidCases_of_bare cs h.2⟩
end

theorem chain_of_bare {cs : Cases} {l : String} {r : Option String} {ls : List String} (h : Chain cs l r ls) :
    Chain (bareCases cs) l r ls := by
  induction h with
  | stop l => exact .stop l
  | dangling l r h => exact .dangling l r (by rwa [bareCases_labels])
  | step l r i t r' ls hg hm _ ih =>
    exact .step l _ i (bare t) _ ls (by rw [bareCases_get, hg]; rfl) (by rwa [bareCases_labels]) ih

mutual
theorem wf_of_bare : (t : Ty) → Wf t → Wf (bare t)
  | .bool, _ | .u8, _ | .u16, _ | .u32, _ | .u64, _ | .s8, _ | .s16, _ | .s32, _ | .s64, _ | .f32, _ | .f64, _ | .char, _
  | .string, _ | .own _, _ | .borrow _, _ | .nil, _ | .other, _ => by simp only [bare, Wf]
  | .flags _, h => by simpa only [bare] using h
  | .list t, h => by rw [Wf] at h; rw [bare, Wf]; exact ⟨laid_of_bare t h.1, wf_of_bare t h.2⟩
  | .record fs, h => by
    rw [Wf] at h
    rw [bare, Wf, bareFields_labels]
    exact ⟨h.1, wfFields_of_bare fs h.2⟩
  | .variant cs, h => by
    rw [Wf] at h
    rw [bare, Wf, bareCases_labels]
    refine ⟨h.1, h.2.1, ?_, wfCases_of_bare cs h.2.2.2⟩
    intro i l t r hg
    rw [bareCases_get] at hg
    rcases e : cs.get? i with _ | ⟨a, b, c⟩
    · rw [e] at hg; cases hg
    · rw [e] at hg
      simp only [Option.map_some, Option.some.injEq, Prod.mk.injEq] at hg
      obtain ⟨rfl, rfl, rfl⟩ := hg
      obtain ⟨ls, hc⟩ := h.2.2.1 i _ _ _ e
      exact ⟨ls, chain_of_bare hc⟩
theorem wfFields_of_bare : (fs : Fields) → WfFields fs → WfFields (bareFields fs)
  | .nil, _ => by simp [bareFields, WfFields]
  | .cons l t fs, h => by
    rw [WfFields] at h
    rw [bareFields, WfFields]
    exact ⟨wf_of_bare t h.1, wfFields_of_bare fs h.2⟩
theorem wfCases_of_bare : (cs : Cases) → WfCases cs → WfCases (bareCases cs)
  | .nil, _ => by simp [bareCases, WfCases]
  | .cons l t r cs, h => by
    rw [WfCases] at h
    rw [bareCases, WfCases]
    exact ⟨wf_of_bare t h.1, wfCases_of_bare cs h.2⟩
end

theorem labelIndex_bare : (cs : Cases) → (i : Nat) → (k : String) → labelIndex (bareCases cs) i k = labelIndex cs i k
  | .nil, _, _ => rfl
  | .cons _ _ _ cs, i, k => by rw [bareCases, labelIndex, labelIndex, labelIndex_bare]

theorem firstLabel_bare (cs : Cases) : (ls : List String) → firstLabel (bareCases cs) ls = firstLabel cs ls
  | [] => rfl
  | l :: ls => by rw [firstLabel, firstLabel, labelIndex_bare, firstLabel_bare cs ls]

theorem matchCase_bare (cs : Cases) (v : Val) : matchCase v (bareCases cs) = matchCase v cs := by
  unfold matchCase
  split
  · rw [firstLabel_bare]
  · rfl

/-! ## Storing has nothing to do with handles -/

theorem memGet_blind {α : Type} {f : Mem → SM (St σ) α} (h : ∀ m, Blind (stPut σ) (f m)) :
    Blind (stPut σ) (SM.get >>= fun st => f st.mem) :=
  .bind (m := memOf) (f := f) memOf_blind h

theorem storeValidate_blind (t : Ty) (p : U32) : Blind (stPut σ) (storeValidate t p) := by
  unfold storeValidate
  refine .bind (.lift _) fun a => .ite .fail (.bind (.lift _) fun z => ?_)
  exact memGet_blind (f := fun m => if (p + z).toNat > m.len32.toNat then SM.fail else pure ()) fun _ => .ite .fail (.pure _)

theorem writeAt_blind (p : U32) (bs : List Byte) : Blind (stPut σ) (writeAt p bs) := fun _ _ => rfl
theorem alloc_blind (a n : U32) : Blind (stPut σ) (alloc E a n) := fun _ _ => rfl

theorem storeInt_blind (v : Val) (p n : U32) (b : Bool) : Blind (stPut σ) (storeInt v p n b) := by
  unfold storeInt
  refine .bind (.lift _) fun i => .ite .fail (.ite .fail (.ite .fail ?_))
  exact memGet_blind (f := fun m => SM.lift (m.slice p (p + n)) >>= fun _ =>
    if n = 1 ∨ n = 2 ∨ n = 4 ∨ n = 8 then writeAt p (leBytes n.toNat i.u64.toNat) else pure ())
    fun _ => .bind (.lift _) fun _ => .ite (writeAt_blind _ _) (.pure _)

theorem storeUInt32_blind (x p : U32) : Blind (stPut σ) (storeUInt32 x p) :=
  memGet_blind (f := fun m => SM.lift (m.slice p (p + 4)) >>= fun _ => writeAt p (leBytes 4 x.toNat))
    fun _ => .bind (.lift _) fun _ => writeAt_blind _ _

theorem storeStringDynamic_blind (s : String) (c : Codec) : Blind (stPut σ) (storeStringDynamic E s c) := by
  unfold storeStringDynamic
  refine .bind (.lift _) fun bs => .bind (alloc_blind _ _) fun p => ?_
  exact memGet_blind (f := fun m => SM.lift (m.slice p (p + BitVec.ofNat 32 bs.length)) >>= fun _ =>
    writeAt p (bs.take (BitVec.ofNat 32 bs.length).toNat) >>= fun _ =>
    pure (p, BitVec.ofNat 32 ((BitVec.ofNat 32 bs.length).toNat / c.runeSize)))
    fun _ => .bind (.lift _) fun _ => .bind (writeAt_blind _ _) fun _ => .pure _

theorem storeStringIntoRange_blind (s : String) : Blind (stPut σ) (storeStringIntoRange E s) := by
  unfold storeStringIntoRange
  exact .bind (.lift _) fun _ => .ite (storeStringDynamic_blind _ _) (.bind (.lift _) fun _ =>
    .bind (storeStringDynamic_blind _ _) fun _ => .pure _)

theorem storeElems_blind {f : Val → U32 → SM (St σ) Unit} (hf : ∀ v p, Blind (stPut σ) (f v p)) (p z : U32) :
    (vs : List Val) → (i : Nat) → Blind (stPut σ) (storeElems f p z vs i)
  | [], _ => .pure _
  | _ :: vs, _ => .bind (hf _ _) fun _ => storeElems_blind hf p z vs _

theorem storeListIntoRange_blind {f : Val → U32 → SM (St σ) Unit} (hf : ∀ v p, Blind (stPut σ) (f v p)) (t : Ty) (v : Val) :
    Blind (stPut σ) (storeListIntoRange E f t v) := by
  unfold storeListIntoRange
  split
  · rename_i vs
    refine .bind (.lift _) fun z => .bind (.lift _) fun a => .bind (alloc_blind _ _) fun p => .ite .fail ?_
    exact memGet_blind (f := fun m => if (p + BitVec.ofNat 32 (vs.length * z.toNat)).toNat > m.len32.toNat then SM.fail
      else storeElems f p z vs 0 >>= fun _ => pure (p, BitVec.ofNat 32 vs.length))
      fun _ => .ite .fail (.bind (storeElems_blind hf _ _ _ _) fun _ => .pure _)
  · exact .fail

mutual
theorem store_blind : (t : Ty) → (v : Val) → (p : U32) → Blind (stPut σ) (store E t v p)
  | .bool, v, p => by
    unfold store
    refine .bind (storeValidate_blind _ _) fun _ => ?_
    split
    · exact storeInt_blind _ _ _ _
    · exact .fail
  | .u8, v, p | .u16, v, p | .u32, v, p | .u64, v, p | .s8, v, p | .s16, v, p | .s32, v, p | .s64, v, p => by
    unfold store; exact .bind (storeValidate_blind _ _) fun _ => storeInt_blind _ _ _ _
  | .f32, v, p => by
    unfold store storeFloat32
    refine .bind (storeValidate_blind _ _) fun _ => ?_
    split
    · exact storeInt_blind _ _ _ _
    · exact .crash
  | .f64, v, p => by
    unfold store storeFloat64
    refine .bind (storeValidate_blind _ _) fun _ => ?_
    split
    · exact storeInt_blind _ _ _ _
    · exact .crash
  | .char, v, p => by
    unfold store
    refine .bind (storeValidate_blind _ _) fun _ => ?_
    split
    · exact storeInt_blind _ _ _ _
    · exact .fail
  | .string, v, p => by
    unfold store
    refine .bind (storeValidate_blind _ _) fun _ => ?_
    split
    · exact .bind (storeStringIntoRange_blind _) fun _ => .bind (storeUInt32_blind _ _) fun _ => storeUInt32_blind _ _
    · exact .fail
  | .list t, v, p => by
    unfold store
    exact .bind (storeValidate_blind _ _) fun _ => .bind (storeListIntoRange_blind (fun v p => store_blind t v p) _ _)
      fun _ => .bind (storeUInt32_blind _ _) fun _ => storeUInt32_blind _ _
  | .record fs, v, p => by
    unfold store
    refine .bind (storeValidate_blind _ _) fun _ => ?_
    split
    · exact storeFields_blind fs _ _
    · exact .fail
  | .variant cs, v, p => by
    unfold store
    exact .bind (storeValidate_blind _ _) fun _ => .bind (.lift _) fun _ => .bind (.lift _) fun _ => .bind (.lift _) fun _ =>
      .bind (storeInt_blind _ _ _ _) fun _ => .bind (.lift _) fun _ => storeCase_blind cs _ _ _
  | .flags ls, v, p => by
    unfold store storeFlags
    refine .bind (storeValidate_blind _ _) fun _ => ?_
    split
    · exact .bind (.lift _) fun _ => storeInt_blind _ _ _ _
    · exact .crash
  | .own _, v, p | .borrow _, v, p | .nil, v, p | .other, v, p => by
    unfold store; exact .bind (storeValidate_blind _ _) fun _ => .fail
theorem storeFields_blind : (fs : Fields) → (m : List (String × Val)) → (p : U32) → Blind (stPut σ) (storeFields E fs m p)
  | .nil, _, _ => by unfold storeFields; exact .pure _
  | .cons _ t fs, m, p => by
    unfold storeFields
    exact .bind (.lift _) fun _ => .bind (store_blind t _ _) fun _ => .bind (.lift _) fun _ => storeFields_blind fs _ _
theorem storeCase_blind : (cs : Cases) → (i : Nat) → (v : Val) → (p : U32) → Blind (stPut σ) (storeCase E cs i v p)
  | .nil, _, _, _ => by unfold storeCase; exact .crash
  | .cons _ t _ _, 0, v, p => by
    unfold storeCase
    exact .ite (.pure _) (store_blind t _ _)
  | .cons _ _ _ cs, i + 1, v, p => by unfold storeCase; exact storeCase_blind cs i v p
end

/-! ## What is stored, is stored in the same way with `u32` instead of handles -/

/-- What the first call does when it succeeds, the second does. -/
def Below {α : Type} (m m0 : SM S α) : Prop := ∀ s a s', m s = (.ok a, s') → m0 s = (.ok a, s')

namespace Below
variable {α β : Type}
theorem refl (m : SM S α) : Below m m := fun _ _ _ h => h
theorem bind {m m0 : SM S α} {f f0 : α → SM S β} (h1 : Below m m0) (h2 : ∀ a, Below (f a) (f0 a)) :
    Below (m >>= f) (m0 >>= f0) := by
  intro s b s' h
  obtain ⟨a, s1, e1, e2⟩ := SM.bind_eq_ok.1 h
  exact SM.bind_eq_ok.2 ⟨a, s1, h1 _ _ _ e1, h2 _ _ _ _ e2⟩
theorem ite {c : Prop} [Decidable c] {m n m0 n0 : SM S α} (h1 : Below m m0) (h2 : Below n n0) :
    Below (if c then m else n) (if c then m0 else n0) := by
  split
  · exact h1
  · exact h2
end Below

theorem storeElems_below {f f0 : Val → U32 → SM (St σ) Unit} (hf : ∀ v p, Below (f v p) (f0 v p)) (p z : U32) :
    (vs : List Val) → (i : Nat) → Below (storeElems f p z vs i) (storeElems f0 p z vs i)
  | [], _ => .refl _
  | _ :: vs, _ => .bind (hf _ _) fun _ => storeElems_below hf p z vs _

theorem storeListIntoRange_below {f f0 : Val → U32 → SM (St σ) Unit} (hf : ∀ v p, Below (f v p) (f0 v p)) (t : Ty) (v : Val) :
    Below (storeListIntoRange E f t v) (storeListIntoRange E f0 (bare t) v) := by
  unfold storeListIntoRange
  rw [alignment_bare, size_bare]
  split
  · exact .bind (.refl _) fun _ => .bind (.refl _) fun _ => .bind (.refl _) fun _ => .ite (.refl _) (.bind (.refl _) fun _ =>
      .ite (.refl _) (.bind (storeElems_below hf _ _ _ _) fun _ => .refl _))
  · exact .refl _

theorem storeValidate_bare (t : Ty) (p : U32) : (storeValidate (bare t) p : SM (St σ) Unit) = storeValidate t p := by
  unfold storeValidate
  rw [alignment_bare, size_bare]

mutual
theorem store_below : (t : Ty) → (v : Val) → (p : U32) → Below (store E t v p) (store E (bare t) v p)
  | .bool, v, p | .u8, v, p | .u16, v, p | .u32, v, p | .u64, v, p | .s8, v, p | .s16, v, p | .s32, v, p | .s64, v, p
  | .f32, v, p | .f64, v, p | .char, v, p | .string, v, p | .flags _, v, p | .nil, v, p | .other, v, p => by
    simp only [bare]; exact .refl _
  | .own _, v, p | .borrow _, v, p => by
    intro s a s' h
    rw [store] at h
    obtain ⟨_, _, _, h⟩ := SM.bind_eq_ok.1 h
    cases h
  | .list t, v, p => by
    have := storeValidate_bare (σ := σ) (.list t) p
    rw [bare] at this
    rw [bare, store, store, this]
    exact .bind (.refl _) fun _ => .bind (storeListIntoRange_below (fun v p => store_below t v p) _ _) fun _ => .refl _
  | .record fs, v, p => by
    have := storeValidate_bare (σ := σ) (.record fs) p
    rw [bare] at this
    simp only [bare, store, this]
    refine .bind (.refl _) fun _ => ?_
    split
    · exact storeFields_below fs _ _
    · exact .refl _
  | .variant cs, v, p => by
    have := storeValidate_bare (σ := σ) (.variant cs) p
    rw [bare] at this
    rw [bare, store, store, this, matchCase_bare, bareCases_length, maxCaseAlignment_bare]
    exact .bind (.refl _) fun _ => .bind (.refl _) fun _ => .bind (.refl _) fun _ => .bind (.refl _) fun _ =>
      .bind (.refl _) fun _ => .bind (.refl _) fun _ => storeCase_below cs _ _ _
theorem storeFields_below : (fs : Fields) → (m : List (String × Val)) → (p : U32) →
    Below (storeFields E fs m p) (storeFields E (bareFields fs) m p)
  | .nil, _, _ => .refl _
  | .cons _ t fs, m, p => by
    rw [bareFields, storeFields, storeFields, alignment_bare, size_bare]
    exact .bind (.refl _) fun _ => .bind (store_below t _ _) fun _ => .bind (.refl _) fun _ => storeFields_below fs _ _
theorem storeCase_below : (cs : Cases) → (i : Nat) → (v : Val) → (p : U32) →
    Below (storeCase E cs i v p) (storeCase E (bareCases cs) i v p)
  | .nil, _, _, _ => .refl _
  | .cons _ t _ _, 0, v, p => by
    rw [bareCases, storeCase, storeCase]
    simp only [bare_nil]
    exact .ite (.refl _) (store_below t _ _)
  | .cons _ _ _ cs, i + 1, v, p => by rw [bareCases, storeCase, storeCase]; exact storeCase_below cs i v p
end

end Verif.Abi
