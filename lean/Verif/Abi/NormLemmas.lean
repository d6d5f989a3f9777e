import Verif.Abi.SameLemmas

/-!
# The value that comes back can be sent again
-/

namespace Verif.Abi
open Spec

/-- What the round trips ask of a value. -/
structure Sendable (enc : String) (t : Ty) (v : Val) : Prop where
  typed : HasType t v
  lists : ListsFit t v
  strings : StringsFit enc t v

/-- The fields as a list. -/
def Fields.toList : Fields → List (String × Ty)
  | .nil => []
  | .cons l t fs => (l, t) :: fs.toList

theorem canon32_canon32 (x : BitVec 32) : canon32 (canon32 x) = canon32 x := by
  rw [canon32_eq, canon32_eq]
  unfold canonical32
  by_cases h : IsNaN32 x
  · rw [if_pos h]; decide
  · rw [if_neg h, if_neg h]

theorem canon64_canon64 (x : BitVec 64) : canon64 (canon64 x) = canon64 x := by
  rw [canon64_eq, canon64_eq]
  unfold canonical64
  by_cases h : IsNaN64 x
  · rw [if_pos h]; decide
  · rw [if_neg h, if_neg h]

/-- Two maps that agree on the labels give the same flags. -/
theorem normFlags_congr (m n : List (String × Val)) : (ls : List String) → (acc : List (String × Val)) →
    (∀ l ∈ ls, mapGet n l = mapGet m l) → normFlags n ls acc = normFlags m ls acc
  | [], _, _ => rfl
  | l :: ls, acc, h => by
    rw [normFlags, normFlags, h l (by simp), normFlags_congr m n ls _ fun k hk => h k (by simp [hk])]

/-- The record that comes back has the values that come back. -/
theorem normFields_at : (fs : Fields) → (m acc : List (String × Val)) → fs.labels.Nodup →
    ∀ l t, (l, t) ∈ fs.toList → mapGet (normFields fs m acc) l = norm t (mapGet m l)
  | .nil, _, _, _, _, _, h => by simp [Fields.toList] at h
  | .cons l' t' fs, m, acc, hn, l, t, h => by
    rw [Fields.labels, List.nodup_cons] at hn
    rw [Fields.toList, List.mem_cons] at h
    rw [normFields]
    rcases h with h | h
    · injection h with h1 h2
      subst h1 h2
      rw [normFields_get fs m _ l hn.1, mapGet_mapSet]
    · exact normFields_at fs m _ hn.2 l t h

mutual
theorem norm_sendable (enc : String) : (t : Ty) → (v : Val) → Wf t → HasType t v → ListsFit t v → StringsFit enc t v →
    Sendable enc t (norm t v) ∧ norm t (norm t v) = norm t v
  | .f32, v, _, hv, _, _ => by
    simp only [HasType] at hv
    obtain ⟨x, rfl⟩ := hv
    simp only [norm]
    exact ⟨⟨by simp [HasType], by simp [ListsFit], by simp [StringsFit]⟩, by rw [canon32_canon32]⟩
  | .f64, v, _, hv, _, _ => by
    simp only [HasType] at hv
    obtain ⟨x, rfl⟩ := hv
    simp only [norm]
    exact ⟨⟨by simp [HasType], by simp [ListsFit], by simp [StringsFit]⟩, by rw [canon64_canon64]⟩
  | .list t, v, hw, hv, hl, hs => by
    rw [HasType] at hv
    obtain ⟨vs, rfl, hv⟩ := hv
    rw [ListsFit] at hl
    rw [StringsFit] at hs
    rw [Wf] at hw
    have hl := hl vs rfl
    have hs := hs vs rfl
    have ih : ∀ x ∈ vs, Sendable enc t (norm t x) ∧ norm t (norm t x) = norm t x := fun x hx =>
      norm_sendable enc t x hw.2 (hv x hx) (hl.2.2 x hx) (hs x hx)
    simp only [norm]
    refine ⟨⟨?_, ?_, ?_⟩, ?_⟩
    · rw [HasType]
      refine ⟨_, rfl, ?_⟩
      intro x hx
      obtain ⟨y, hy, rfl⟩ := List.mem_map.1 hx
      exact (ih y hy).1.typed
    · rw [ListsFit]
      rintro ws e
      injection e with e
      subst e
      refine ⟨by rw [List.length_map]; exact hl.1, by rw [List.length_map]; exact hl.2.1, ?_⟩
      intro x hx
      obtain ⟨y, hy, rfl⟩ := List.mem_map.1 hx
      exact (ih y hy).1.lists
    · rw [StringsFit]
      rintro ws e
      injection e with e
      subst e
      intro x hx
      obtain ⟨y, hy, rfl⟩ := List.mem_map.1 hx
      exact (ih y hy).1.strings
    · rw [List.map_map]
      congr 1
      apply List.map_congr_left
      intro x hx
      exact (ih x hx).2
  | .record fs, v, hw, hv, hl, hs => by
    rw [HasType] at hv
    obtain ⟨m, rfl, hv⟩ := hv
    rw [ListsFit] at hl
    rw [StringsFit] at hs
    rw [Wf] at hw
    simp only [norm]
    obtain ⟨h1, h2, h3, h4⟩ := normFields_sendable enc fs m (normFields fs m []) hw.1 hw.2 hv (hl m rfl) (hs m rfl)
      (normFields_at fs m [] hw.1)
    refine ⟨⟨?_, ?_, ?_⟩, ?_⟩
    · rw [HasType]; exact ⟨_, rfl, h1⟩
    · rw [ListsFit]; rintro n e; injection e with e; subst e; exact h2
    · rw [StringsFit]; rintro n e; injection e with e; subst e; exact h3
    · rw [h4 []]
  | .variant cs, v, hw, hv, hl, hs => by
    rw [HasType] at hv
    obtain ⟨key, p, i, rfl, hsel, hv⟩ := hv
    rw [ListsFit] at hl
    rw [StringsFit] at hs
    rw [Wf] at hw
    obtain ⟨⟨l, t, r⟩, hg⟩ := get?_of_lt cs i hsel.lt
    obtain ⟨ls, hls⟩ := hw.2.2.1 i l t r hg
    have hsel' := chain_selects hw.1 hw.2.1 hg hls
    obtain ⟨p', e, hp1, hp2, hp3, hp4⟩ := normCase_sendable enc cs cs i p l t r ls hg hls hw.2.2.2 hv
      (hl key p i rfl hsel) (hs key p i rfl hsel)
    have e0 : norm (.variant cs) (.map [(key, p)]) = .map [(bars ls, p')] := by
      simp only [norm]; rw [(firstLabel_iff cs key i).2 hsel]; exact e
    rw [e0]
    refine ⟨⟨?_, ?_, ?_⟩, ?_⟩
    · rw [HasType]; exact ⟨_, _, i, rfl, hsel', hp1⟩
    · rw [ListsFit]
      rintro k q j e1 hj
      injection e1 with e1
      injection e1 with e1
      injection e1 with e1 e2
      subst e1 e2
      rw [hj.unique hsel']; exact hp2
    · rw [StringsFit]
      rintro k q j e1 hj
      injection e1 with e1
      injection e1 with e1
      injection e1 with e1 e2
      subst e1 e2
      rw [hj.unique hsel']; exact hp3
    · simp only [norm]; rw [(firstLabel_iff cs _ i).2 hsel']; exact hp4
  | .flags ls, v, hw, hv, _, _ => by
    rw [HasType] at hv
    obtain ⟨m, rfl, hv⟩ := hv
    rw [Wf] at hw
    simp only [norm]
    refine ⟨⟨?_, by simp [ListsFit], by simp [StringsFit]⟩, ?_⟩
    · rw [HasType]
      refine ⟨_, rfl, ?_⟩
      intro l hl
      rw [normFlags_get m ls [] hw.1 l hl]
      exact hv l hl
    · rw [normFlags_congr m _ ls [] fun l hl => normFlags_get m ls [] hw.1 l hl]
  | .bool, v, _, hv, hl, hs | .u8, v, _, hv, hl, hs | .u16, v, _, hv, hl, hs | .u32, v, _, hv, hl, hs
  | .u64, v, _, hv, hl, hs | .s8, v, _, hv, hl, hs | .s16, v, _, hv, hl, hs | .s32, v, _, hv, hl, hs
  | .s64, v, _, hv, hl, hs | .char, v, _, hv, hl, hs | .string, v, _, hv, hl, hs | .own _, v, _, hv, hl, hs
  | .borrow _, v, _, hv, hl, hs | .nil, v, _, hv, hl, hs | .other, v, _, hv, hl, hs => by
    simp only [norm]
    exact ⟨⟨hv, hl, hs⟩, trivial⟩
theorem normFields_sendable (enc : String) : (fs : Fields) → (m n : List (String × Val)) → fs.labels.Nodup → WfFields fs →
    HasFields fs m → ListsFitFields fs m → StringsFitFields enc fs m →
    (∀ l t, (l, t) ∈ fs.toList → mapGet n l = norm t (mapGet m l)) →
    HasFields fs n ∧ ListsFitFields fs n ∧ StringsFitFields enc fs n ∧ ∀ acc, normFields fs n acc = normFields fs m acc
  | .nil, _, _, _, _, _, _, _, _ => by simp [HasFields, ListsFitFields, StringsFitFields, normFields]
  | .cons l t fs, m, n, hn, hw, hv, hl, hs, h => by
    rw [Fields.labels, List.nodup_cons] at hn
    rw [WfFields] at hw
    rw [HasFields] at hv
    rw [ListsFitFields] at hl
    rw [StringsFitFields] at hs
    have h0 := h l t (by simp [Fields.toList])
    obtain ⟨h1, h2⟩ := norm_sendable enc t _ hw.1 hv.1 hl.1 hs.1
    obtain ⟨h3, h4, h5, h6⟩ := normFields_sendable enc fs m n hn.2 hw.2 hv.2 hl.2 hs.2
      fun l' t' hm => h l' t' (by simp [Fields.toList, hm])
    rw [HasFields, ListsFitFields, StringsFitFields, h0]
    refine ⟨⟨h1.typed, h3⟩, ⟨h1.lists, h4⟩, ⟨h1.strings, h5⟩, ?_⟩
    intro acc
    rw [normFields, normFields, h0, h2, h6]
theorem normCase_sendable (enc : String) (all : Cases) : (cs : Cases) → (i : Nat) → (p : Val) → (l : String) → (t : Ty) →
    (r : Option String) → (ls : List String) → cs.get? i = some (l, t, r) → Chain all l r ls → WfCases cs →
    HasPayload cs i p → ListsFitPayload cs i p → StringsFitPayload enc cs i p →
    ∃ p', normCase all cs i p = .map [(bars ls, p')] ∧ HasPayload cs i p' ∧ ListsFitPayload cs i p' ∧
      StringsFitPayload enc cs i p' ∧ normCase all cs i p' = .map [(bars ls, p')]
  | .nil, _, _, _, _, _, _, hg, _, _, _, _, _ => by simp [Cases.get?] at hg
  | .cons l' t' r' cs, 0, p, l, t, r, ls, hg, hc, hw, hv, hl, hs => by
    simp only [Cases.get?, Option.some.injEq, Prod.mk.injEq] at hg
    obtain ⟨rfl, rfl, rfl⟩ := hg
    rw [HasPayload] at hv
    rw [ListsFitPayload] at hl
    rw [StringsFitPayload] at hs
    rw [WfCases] at hw
    simp only [normCase, caseLabel_chain hc, HasPayload, ListsFitPayload, StringsFitPayload]
    by_cases h : t' = .nil
    · subst h
      rw [if_pos rfl]
      exact ⟨_, rfl, .inl rfl, by simp [ListsFit], by simp [StringsFit], by simp⟩
    · rw [if_neg h]
      obtain ⟨h1, h2⟩ := norm_sendable enc t' p hw.1 (hv.resolve_left h) hl hs
      exact ⟨_, rfl, .inr h1.typed, h1.lists, h1.strings, by rw [if_neg h, h2]⟩
  | .cons l' t' r' cs, i + 1, p, l, t, r, ls, hg, hc, hw, hv, hl, hs => by
    rw [Cases.get?] at hg
    rw [HasPayload] at hv
    rw [ListsFitPayload] at hl
    rw [StringsFitPayload] at hs
    rw [WfCases] at hw
    obtain ⟨p', e, h⟩ := normCase_sendable enc all cs i p l t r ls hg hc hw.2 hv hl hs
    simp only [normCase, HasPayload, ListsFitPayload, StringsFitPayload]
    exact ⟨p', e, h⟩
end

end Verif.Abi
