import Verif.Abi.HandleLemmas
import Verif.Abi.HandleWordsSpec
import Verif.Abi.FlatRound

/-!
# The words for the handles of a value are determined
-/

namespace Verif.Abi
open Spec

theorem words_list {vs : List Val} {xss yss : List (List U32)} (n1 : xss.length = vs.length) (n2 : yss.length = vs.length)
    (h : ∀ (j : Nat) x y z, vs[j]? = some x → xss[j]? = some y → yss[j]? = some z → y = z) : xss = yss := by
  apply List.ext_getElem?
  intro j
  rcases Nat.lt_or_ge j vs.length with hj | hj
  · rw [List.getElem?_eq_getElem (n1 ▸ hj), List.getElem?_eq_getElem (n2 ▸ hj)]
    exact congrArg _ (h j vs[j] _ _ (List.getElem?_eq_getElem hj) (List.getElem?_eq_getElem _) (List.getElem?_eq_getElem _))
  · rw [List.getElem?_eq_none (n1 ▸ hj), List.getElem?_eq_none (n2 ▸ hj)]

mutual
theorem wordsAt_unique (m : Mem) : (t : Ty) → Laid t → Wf t → (v : Val) → (p : U32) → (a b : List U32) → WordsAt m t v p a →
    WordsAt m t v p b → a = b
  | .bool, _, _, _, _, _, _, h1, h2 | .u8, _, _, _, _, _, _, h1, h2 | .u16, _, _, _, _, _, _, h1, h2 | .u32, _, _, _, _, _, _, h1, h2
  | .u64, _, _, _, _, _, _, h1, h2 | .s8, _, _, _, _, _, _, h1, h2 | .s16, _, _, _, _, _, _, h1, h2 | .s32, _, _, _, _, _, _, h1, h2
  | .s64, _, _, _, _, _, _, h1, h2 | .f32, _, _, _, _, _, _, h1, h2 | .f64, _, _, _, _, _, _, h1, h2 | .char, _, _, _, _, _, _, h1, h2
  | .string, _, _, _, _, _, _, h1, h2 | .flags _, _, _, _, _, _, _, h1, h2 | .nil, _, _, _, _, _, _, h1, h2 | .other, _, _, _, _, _, _, h1, h2 => by
    simp only [WordsAt] at h1 h2
    rw [h1, h2]
  | .own _, _, _, _, _, _, _, h1, h2 | .borrow _, _, _, _, _, _, _, h1, h2 => by
    rw [WordsAt] at h1 h2
    rw [h1, h2]
  | .list t, _, hw, _, _, _, _, h1, h2 => by
    rw [Wf] at hw
    obtain ⟨z, hs⟩ := size_of_laid t hw.1
    rw [WordsAt] at h1 h2
    obtain ⟨vs, xss, rfl, n1, rfl, k1⟩ := h1
    obtain ⟨vs', yss, e, n2, rfl, k2⟩ := h2
    injection e with e
    subst e
    exact congrArg _ (words_list n1 n2 fun j x y z hx hy hz => wordsAt_unique m t hw.1 hw.2 x _ _ _
      (k1 _ hs j x y hx hy) (k2 _ hs j x z hx hz))
  | .record fs, hl, hw, _, _, _, _, h1, h2 => by
    rw [Laid] at hl
    rw [Wf] at hw
    rw [WordsAt] at h1 h2
    obtain ⟨mm, rfl, h3⟩ := h1
    obtain ⟨mm', e, h4⟩ := h2
    injection e with e
    subst e
    exact wordsAtFields_unique m fs hl hw.2 _ _ _ _ h3 h4
  | .variant cs, hl, hw, _, _, _, _, h1, h2 => by
    rw [Laid] at hl
    rw [Wf] at hw
    rw [WordsAt] at h1 h2
    obtain ⟨k, q, i, rfl, h3, h4⟩ := h1
    obtain ⟨k', q', i', e, h5, h6⟩ := h2
    simp only [Val.map.injEq, List.cons.injEq, Prod.mk.injEq, and_true] at e
    obtain ⟨rfl, rfl⟩ := e
    obtain rfl := h3.unique h5
    exact wordsAtPayload_unique m cs hl.2.2 hw.2.2.2 _ _ _ _ _ h4 h6
theorem wordsAtFields_unique (m : Mem) : (fs : Fields) → LaidFields fs → WfFields fs → (mm : List (String × Val)) → (p : U32) →
    (a b : List U32) → WordsAtFields m fs mm p a → WordsAtFields m fs mm p b → a = b
  | .nil, _, _, _, _, _, _, h1, h2 => by simp only [WordsAtFields] at h1 h2; rw [h1, h2]
  | .cons l t fs, hl, hw, mm, p, _, _, h1, h2 => by
    rw [LaidFields] at hl
    rw [WfFields] at hw
    rw [WordsAtFields] at h1 h2
    obtain ⟨a, b, h3, h4, rfl⟩ := h1
    obtain ⟨c, d, h5, h6, rfl⟩ := h2
    obtain ⟨z, hz⟩ := size_of_laid t hl.1
    rw [wordsAt_unique m t hl.1 hw.1 _ _ _ _ h3 h5, wordsAtFields_unique m fs hl.2 hw.2 _ _ _ _ (h4 z hz) (h6 z hz)]
theorem wordsAtPayload_unique (m : Mem) : (cs : Cases) → LaidCases cs → WfCases cs → (i : Nat) → (q : Val) → (p : U32) →
    (a b : List U32) → WordsAtPayload m cs i q p a → WordsAtPayload m cs i q p b → a = b
  | .nil, _, _, _, _, _, _, _, h1, _ => by simp [WordsAtPayload] at h1
  | .cons l t r cs, hl, hw, 0, q, p, _, _, h1, h2 => by
    rw [LaidCases] at hl
    rw [WfCases] at hw
    rw [WordsAtPayload] at h1 h2
    rcases h1 with ⟨e, rfl⟩ | ⟨e, h1⟩
    · rcases h2 with ⟨-, rfl⟩ | ⟨e', -⟩
      · rfl
      · exact absurd e e'
    · rcases h2 with ⟨e', -⟩ | ⟨-, h2⟩
      · exact absurd e' e
      · exact wordsAt_unique m t (hl.1.resolve_left e) hw.1 _ _ _ _ h1 h2
  | .cons l t r cs, hl, hw, i + 1, q, p, _, _, h1, h2 => by
    rw [LaidCases] at hl
    rw [WfCases] at hw
    rw [WordsAtPayload] at h1 h2
    exact wordsAtPayload_unique m cs hl.2 hw.2 i q p _ _ h1 h2
end

mutual
theorem wordsIn_unique (m : Mem) : (t : Ty) → Laid t → Wf t → (v : Val) → (p : List FV) → (a b : List U32) → WordsIn m t v p a →
    WordsIn m t v p b → a = b
  | .bool, _, _, _, _, _, _, h1, h2 | .u8, _, _, _, _, _, _, h1, h2 | .u16, _, _, _, _, _, _, h1, h2 | .u32, _, _, _, _, _, _, h1, h2
  | .u64, _, _, _, _, _, _, h1, h2 | .s8, _, _, _, _, _, _, h1, h2 | .s16, _, _, _, _, _, _, h1, h2 | .s32, _, _, _, _, _, _, h1, h2
  | .s64, _, _, _, _, _, _, h1, h2 | .f32, _, _, _, _, _, _, h1, h2 | .f64, _, _, _, _, _, _, h1, h2 | .char, _, _, _, _, _, _, h1, h2
  | .string, _, _, _, _, _, _, h1, h2 | .flags _, _, _, _, _, _, _, h1, h2 | .nil, _, _, _, _, _, _, h1, h2 | .other, _, _, _, _, _, _, h1, h2 => by
    simp only [WordsIn] at h1 h2
    rw [h1, h2]
  | .own _, _, _, _, _, _, _, h1, h2 | .borrow _, _, _, _, _, _, _, h1, h2 => by
    rw [WordsIn] at h1 h2
    obtain ⟨f, e, rfl⟩ := h1
    obtain ⟨g, e', rfl⟩ := h2
    rw [e] at e'
    rw [Option.some.inj e']
  | .list t, _, hw, _, _, _, _, h1, h2 => by
    rw [Wf] at hw
    obtain ⟨z, hs⟩ := size_of_laid t hw.1
    rw [WordsIn] at h1 h2
    obtain ⟨f, vs, xss, f1, rfl, n1, rfl, k1⟩ := h1
    obtain ⟨f', vs', yss, f2, e, n2, rfl, k2⟩ := h2
    injection e with e
    subst e
    rw [f1] at f2
    obtain rfl := Option.some.inj f2
    exact congrArg _ (words_list n1 n2 fun j x y z hx hy hz => wordsAt_unique m t hw.1 hw.2 x _ _ _
      (k1 _ hs j x y hx hy) (k2 _ hs j x z hx hz))
  | .record fs, hl, hw, _, _, _, _, h1, h2 => by
    rw [Laid] at hl
    rw [Wf] at hw
    rw [WordsIn] at h1 h2
    obtain ⟨mm, rfl, h3⟩ := h1
    obtain ⟨mm', e, h4⟩ := h2
    injection e with e
    subst e
    exact wordsInFields_unique m fs hl hw.2 _ _ _ _ h3 h4
  | .variant cs, hl, hw, _, _, _, _, h1, h2 => by
    rw [Laid] at hl
    rw [Wf] at hw
    rw [WordsIn] at h1 h2
    obtain ⟨k, q, i, rfl, h3, h4⟩ := h1
    obtain ⟨k', q', i', e, h5, h6⟩ := h2
    simp only [Val.map.injEq, List.cons.injEq, Prod.mk.injEq, and_true] at e
    obtain ⟨rfl, rfl⟩ := e
    obtain rfl := h3.unique h5
    exact wordsInPayload_unique m cs hl.2.2 hw.2.2.2 _ _ _ _ _ h4 h6
theorem wordsInFields_unique (m : Mem) : (fs : Fields) → LaidFields fs → WfFields fs → (mm : List (String × Val)) → (p : List FV) →
    (a b : List U32) → WordsInFields m fs mm p a → WordsInFields m fs mm p b → a = b
  | .nil, _, _, _, _, _, _, h1, h2 => by simp only [WordsInFields] at h1 h2; rw [h1, h2]
  | .cons l t fs, hl, hw, mm, p, _, _, h1, h2 => by
    rw [LaidFields] at hl
    rw [WfFields] at hw
    rw [WordsInFields] at h1 h2
    obtain ⟨a, b, h3, h4, rfl⟩ := h1
    obtain ⟨c, d, h5, h6, rfl⟩ := h2
    obtain ⟨z, hz⟩ := flatten_of_laid t hl.1
    rw [wordsIn_unique m t hl.1 hw.1 _ _ _ _ h3 h5, wordsInFields_unique m fs hl.2 hw.2 _ _ _ _ (h4 z hz) (h6 z hz)]
theorem wordsInPayload_unique (m : Mem) : (cs : Cases) → LaidCases cs → WfCases cs → (i : Nat) → (q : Val) → (p : List FV) →
    (a b : List U32) → WordsInPayload m cs i q p a → WordsInPayload m cs i q p b → a = b
  | .nil, _, _, _, _, _, _, _, h1, _ => by simp [WordsInPayload] at h1
  | .cons l t r cs, hl, hw, 0, q, p, _, _, h1, h2 => by
    rw [LaidCases] at hl
    rw [WfCases] at hw
    rw [WordsInPayload] at h1 h2
    rcases h1 with ⟨e, rfl⟩ | ⟨e, h1⟩
    · rcases h2 with ⟨-, rfl⟩ | ⟨e', -⟩
      · rfl
      · exact absurd e e'
    · rcases h2 with ⟨e', -⟩ | ⟨-, h2⟩
      · exact absurd e' e
      · exact wordsIn_unique m t (hl.1.resolve_left e) hw.1 _ _ _ _ h1 h2
  | .cons l t r cs, hl, hw, i + 1, q, p, _, _, h1, h2 => by
    rw [LaidCases] at hl
    rw [WfCases] at hw
    rw [WordsInPayload] at h1 h2
    exact wordsInPayload_unique m cs hl.2 hw.2 i q p _ _ h1 h2
end

end Verif.Abi
