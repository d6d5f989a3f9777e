import Verif.Abi.BareSpec
import Verif.Abi.HandleTrace
import Verif.Abi.MeansLemmas

/-!
# Types with `u32` instead of handles: layout, labels and cases are the same
-/

namespace Verif.Abi
open Spec

theorem bare_nil (t : Ty) : bare t = .nil ↔ t = .nil := by
  cases t <;> simp [bare]

theorem bareCases_length : (cs : Cases) → (bareCases cs).length = cs.length
  | .nil => rfl
  | .cons _ _ _ cs => by rw [bareCases, Cases.length, Cases.length, bareCases_length cs]

theorem bareCases_labels : (cs : Cases) → (bareCases cs).labels = cs.labels
  | .nil => rfl
  | .cons _ _ _ cs => by rw [bareCases, Cases.labels, Cases.labels, bareCases_labels cs]

theorem bareFields_labels : (fs : Fields) → (bareFields fs).labels = fs.labels
  | .nil => rfl
  | .cons _ _ fs => by rw [bareFields, Fields.labels, Fields.labels, bareFields_labels fs]

theorem bareCases_get : (cs : Cases) → (i : Nat) →
    (bareCases cs).get? i = (cs.get? i).map fun q => (q.1, bare q.2.1, q.2.2)
  | .nil, _ => rfl
  | .cons _ _ _ _, 0 => rfl
  | .cons _ _ _ cs, i + 1 => bareCases_get cs i

mutual
theorem alignment_bare : (t : Ty) → alignment (bare t) = alignment t
  | .bool | .u8 | .u16 | .u32 | .u64 | .s8 | .s16 | .s32 | .s64 | .f32 | .f64 | .char | .string | .flags _ | .own _
  | .borrow _ | .nil | .other | .list _ => by simp only [bare, alignment]
  | .record fs => by rw [bare, alignment, alignment, alignmentRecord_bare]
  | .variant cs => by rw [bare, alignment, alignment, maxCaseAlignment_bare, bareCases_length]
theorem alignmentRecord_bare : (fs : Fields) → (a : U32) → alignmentRecord (bareFields fs) a = alignmentRecord fs a
  | .nil, _ => rfl
  | .cons _ t fs, a => by
    rw [bareFields, alignmentRecord, alignmentRecord, alignment_bare]
    simp only [alignmentRecord_bare]
theorem maxCaseAlignment_bare : (cs : Cases) → (a : U32) → maxCaseAlignment (bareCases cs) a = maxCaseAlignment cs a
  | .nil, _ => rfl
  | .cons _ t _ cs, a => by
    rw [bareCases, maxCaseAlignment, maxCaseAlignment, alignment_bare]
    simp only [maxCaseAlignment_bare, bare_nil]
end

mutual
theorem size_bare : (t : Ty) → Abi.size (bare t) = Abi.size t
  | .bool | .u8 | .u16 | .u32 | .u64 | .s8 | .s16 | .s32 | .s64 | .f32 | .f64 | .char | .string | .flags _ | .own _
  | .borrow _ | .nil | .other | .list _ => by simp only [bare, Abi.size]
  | .record fs => by rw [bare, Abi.size, Abi.size, sizeFields_bare, alignmentRecord_bare]
  | .variant cs => by
    have := alignment_bare (.variant cs)
    rw [bare] at this
    rw [bare, Abi.size, Abi.size, maxCaseAlignment_bare, maxCaseSize_bare, bareCases_length, this]
theorem sizeFields_bare : (fs : Fields) → (a : U32) → sizeFields (bareFields fs) a = sizeFields fs a
  | .nil, _ => rfl
  | .cons _ t fs, a => by
    rw [bareFields, sizeFields, sizeFields, alignment_bare, size_bare]
    simp only [sizeFields_bare]
theorem maxCaseSize_bare : (cs : Cases) → (a : U32) → maxCaseSize (bareCases cs) a = maxCaseSize cs a
  | .nil, _ => rfl
  | .cons _ t _ cs, a => by
    rw [bareCases, maxCaseSize, maxCaseSize, size_bare]
    simp only [maxCaseSize_bare, bare_nil]
end

mutual
theorem flatten_bare : (t : Ty) → flatten (bare t) = flatten t
  | .bool | .u8 | .u16 | .u32 | .u64 | .s8 | .s16 | .s32 | .s64 | .f32 | .f64 | .char | .string | .flags _ | .own _
  | .borrow _ | .nil | .other | .list _ => by simp only [bare, flatten]
  | .record fs => by rw [bare, flatten, flatten, flattenFields_bare]
  | .variant cs => by rw [bare, flatten, flatten, flattenCases_bare, bareCases_length]
theorem flattenFields_bare : (fs : Fields) → flattenFields (bareFields fs) = flattenFields fs
  | .nil => rfl
  | .cons _ t fs => by rw [bareFields, flattenFields, flattenFields, flatten_bare, flattenFields_bare]
theorem flattenCases_bare : (cs : Cases) → (a : List Kind) → flattenCases (bareCases cs) a = flattenCases cs a
  | .nil, _ => rfl
  | .cons _ t _ cs, a => by
    rw [bareCases, flattenCases, flattenCases, flatten_bare]
    simp only [flattenCases_bare, bare_nil]
end

theorem findCaseIndex_bare : (cs : Cases) → (k : String) → findCaseIndex (bareCases cs) k = findCaseIndex cs k
  | .nil, _ => rfl
  | .cons _ _ _ cs, k => by rw [bareCases, findCaseIndex, findCaseIndex, findCaseIndex_bare cs]

theorem labelLoop_bare (cs : Cases) : (n : Nat) → (l : String) → (r : Option String) →
    labelLoop (bareCases cs) n l r = labelLoop cs n l r
  | 0, _, _ => rfl
  | _ + 1, _, none => rfl
  | n + 1, l, some r => by
    rw [labelLoop, labelLoop, findCaseIndex_bare]
    rcases findCaseIndex cs r with _ | i
    · rfl
    · simp only [bareCases_get]
      rcases cs.get? i with _ | ⟨a, b, c⟩
      · rfl
      · exact labelLoop_bare cs n _ _

theorem caseLabel_bare (cs : Cases) (l : String) (r : Option String) :
    caseLabelWithRefinements (bareCases cs) l r = caseLabelWithRefinements cs l r := by
  rw [caseLabelWithRefinements, caseLabelWithRefinements, labelLoop_bare, bareCases_length]

theorem selects_bare (cs : Cases) (k : String) (i : Nat) : Selects (bareCases cs) k i ↔ Selects cs k i := by
  rw [Selects, Selects, bareCases_labels]

theorem chain_bare {cs : Cases} {l : String} {r : Option String} {ls : List String} (h : Chain (bareCases cs) l r ls) :
    Chain cs l r ls := by
  induction h with
  | stop l => exact .stop l
  | dangling l r h => exact .dangling l r (by rwa [bareCases_labels] at h)
  | step l r i t r' ls hg hm _ ih =>
    rw [bareCases_get] at hg
    rcases e : cs.get? i with _ | ⟨a, b, c⟩
    · rw [e] at hg; cases hg
    · rw [e] at hg
      simp only [Option.map_some, Option.some.injEq, Prod.mk.injEq] at hg
      obtain ⟨rfl, rfl, rfl⟩ := hg
      exact .step l _ i b _ ls e (by rwa [bareCases_labels] at hm) ih

mutual
theorem laid_bare : (t : Ty) → Laid (bare t) → Laid t
  | .bool, _ | .u8, _ | .u16, _ | .u32, _ | .u64, _ | .s8, _ | .s16, _ | .s32, _ | .s64, _ | .f32, _ | .f64, _ | .char, _
  | .string, _ | .flags _, _ | .own _, _ | .borrow _, _ | .list _, _ => by simp only [Laid]
  | .nil, h | .other, h => by simp only [bare] at h; exact h
  | .record fs, h => by rw [bare, Laid] at h; rw [Laid]; exact laidFields_bare fs h
  | .variant cs, h => by
    rw [bare, Laid, bareCases_length] at h
    rw [Laid]
    exact ⟨h.1, h.2.1, laidCases_bare cs h.2.2⟩
theorem laidFields_bare : (fs : Fields) → LaidFields (bareFields fs) → LaidFields fs
  | .nil, _ => by simp [LaidFields]
  | .cons l t fs, h => by
    rw [bareFields, LaidFields] at h
    rw [LaidFields]
    exact ⟨laid_bare t h.1, laidFields_bare fs h.2⟩
theorem laidCases_bare : (cs : Cases) → LaidCases (bareCases cs) → LaidCases cs
  | .nil, _ => by simp [LaidCases]
  | .cons l t r cs, h => by
    rw [bareCases, LaidCases, bare_nil] at h
    rw [LaidCases]
    exact ⟨h.1.imp_right (laid_bare t), laidCases_bare cs h.2⟩
end

mutual
theorem wf_bare : (t : Ty) → Wf (bare t) → Wf t
  | .bool, _ | .u8, _ | .u16, _ | .u32, _ | .u64, _ | .s8, _ | .s16, _ | .s32, _ | .s64, _ | .f32, _ | .f64, _ | .char, _
  | .string, _ | .own _, _ | .borrow _, _ | .nil, _ | .other, _ => by simp only [Wf]
  | .flags _, h => by simpa only [bare] using h
  | .list t, h => by rw [bare, Wf] at h; rw [Wf]; exact ⟨laid_bare t h.1, wf_bare t h.2⟩
  | .record fs, h => by
    rw [bare, Wf, bareFields_labels] at h
    rw [Wf]
    exact ⟨h.1, wfFields_bare fs h.2⟩
  | .variant cs, h => by
    rw [bare, Wf, bareCases_labels] at h
    rw [Wf]
    refine ⟨h.1, h.2.1, ?_, wfCases_bare cs h.2.2.2⟩
    intro i l t r hg
    obtain ⟨ls, hc⟩ := h.2.2.1 i l (bare t) r (by rw [bareCases_get, hg]; rfl)
    exact ⟨ls, chain_bare hc⟩
theorem wfFields_bare : (fs : Fields) → WfFields (bareFields fs) → WfFields fs
  | .nil, _ => by simp [WfFields]
  | .cons l t fs, h => by
    rw [bareFields, WfFields] at h
    rw [WfFields]
    exact ⟨wf_bare t h.1, wfFields_bare fs h.2⟩
theorem wfCases_bare : (cs : Cases) → WfCases (bareCases cs) → WfCases cs
  | .nil, _ => by simp [WfCases]
  | .cons l t r cs, h => by
    rw [bareCases, WfCases] at h
    rw [WfCases]
    exact ⟨wf_bare t h.1, wfCases_bare cs h.2⟩
end

end Verif.Abi
