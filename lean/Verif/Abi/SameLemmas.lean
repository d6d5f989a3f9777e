import Verif.Abi.RoundTrip

/-!
# The value `Load` returns is the same value
-/

namespace Verif.Abi
open Spec

theorem mapGet_mapSet : (m : List (String × Val)) → (k : String) → (v : Val) → mapGet (mapSet m k v) k = v
  | [], k, v => by simp [mapSet, mapGet]
  | (l, w) :: m, k, v => by
    rw [mapSet]
    split
    · rename_i h; subst h; simp [mapGet]
    · rename_i h; rw [mapGet, if_neg h, mapGet_mapSet m k v]

theorem mapGet_mapSet_ne : (m : List (String × Val)) → (k k' : String) → (v : Val) → k' ≠ k →
    mapGet (mapSet m k v) k' = mapGet m k'
  | [], k, k', v, h => by simp [mapSet, mapGet, h]
  | (l, w) :: m, k, k', v, h => by
    rw [mapSet]
    split
    · rename_i e; subst e; simp [mapGet, h]
    · rw [mapGet, mapGet, mapGet_mapSet_ne m k k' v h]

theorem mapSet_keys : (m : List (String × Val)) → (k : String) → (v : Val) → k ∉ m.map Prod.fst →
    (mapSet m k v).map Prod.fst = m.map Prod.fst ++ [k]
  | [], k, v, _ => rfl
  | (l, w) :: m, k, v, h => by
    simp only [List.map_cons, List.mem_cons, not_or] at h
    rw [mapSet, if_neg h.1, List.map_cons, mapSet_keys m k v h.2]
    rfl

theorem normFields_keys : (fs : Fields) → (m acc : List (String × Val)) → fs.labels.Nodup →
    (∀ l ∈ fs.labels, l ∉ acc.map Prod.fst) → (normFields fs m acc).map Prod.fst = acc.map Prod.fst ++ fs.labels
  | .nil, m, acc, _, _ => by simp [normFields, Fields.labels]
  | .cons l t fs, m, acc, hn, hd => by
    rw [Fields.labels, List.nodup_cons] at hn
    rw [Fields.labels] at hd
    have h0 := mapSet_keys acc l (norm t (mapGet m l)) (hd l (by simp))
    rw [normFields, normFields_keys fs m _ hn.2 ?_, h0, Fields.labels, List.append_assoc]
    · rfl
    · intro l' hl'
      rw [h0, List.mem_append, List.mem_singleton, not_or]
      exact ⟨hd l' (by simp [hl']), fun e => hn.1 (e ▸ hl')⟩

theorem normFields_get : (fs : Fields) → (m acc : List (String × Val)) → (k : String) → k ∉ fs.labels →
    mapGet (normFields fs m acc) k = mapGet acc k
  | .nil, m, acc, k, _ => by simp [normFields]
  | .cons l t fs, m, acc, k, h => by
    rw [Fields.labels, List.mem_cons, not_or] at h
    rw [normFields, normFields_get fs m _ k h.2, mapGet_mapSet_ne _ _ _ _ h.1]

theorem normFlags_keys (m : List (String × Val)) : (ls : List String) → (acc : List (String × Val)) → ls.Nodup →
    (∀ l ∈ ls, l ∉ acc.map Prod.fst) → (normFlags m ls acc).map Prod.fst = acc.map Prod.fst ++ ls
  | [], acc, _, _ => by simp [normFlags]
  | l :: ls, acc, hn, hd => by
    rw [List.nodup_cons] at hn
    have h0 := mapSet_keys acc l (mapGet m l) (hd l (by simp))
    rw [normFlags, normFlags_keys m ls _ hn.2 ?_, h0, List.append_assoc]
    · rfl
    · intro l' hl'
      rw [h0, List.mem_append, List.mem_singleton, not_or]
      exact ⟨hd l' (by simp [hl']), fun e => hn.1 (e ▸ hl')⟩

theorem normFlags_out (m : List (String × Val)) : (ls : List String) → (acc : List (String × Val)) → (k : String) → k ∉ ls →
    mapGet (normFlags m ls acc) k = mapGet acc k
  | [], _, _, _ => rfl
  | l :: ls, acc, k, h => by
    rw [List.mem_cons, not_or] at h
    rw [normFlags, normFlags_out m ls _ k h.2, mapGet_mapSet_ne _ _ _ _ h.1]

theorem normFlags_get (m : List (String × Val)) : (ls : List String) → (acc : List (String × Val)) → ls.Nodup →
    ∀ k ∈ ls, mapGet (normFlags m ls acc) k = mapGet m k
  | [], _, _, k, h => by simp at h
  | l :: ls, acc, hn, k, h => by
    rw [List.nodup_cons] at hn
    rw [normFlags]
    rcases List.mem_cons.1 h with rfl | h
    · rw [normFlags_out m ls _ k hn.1, mapGet_mapSet]
    · exact normFlags_get m ls _ hn.2 k h

mutual
/-- The value `Load` returns is the value stored. -/
theorem same_norm : (t : Ty) → (v : Val) → HasType t v → Wf t → Same t v (norm t v)
  | .f32, v, hv, _ => by
    simp only [HasType] at hv
    obtain ⟨x, rfl⟩ := hv
    rw [Same, norm]
    exact ⟨x, rfl, by rw [canon32_eq]⟩
  | .f64, v, hv, _ => by
    simp only [HasType] at hv
    obtain ⟨x, rfl⟩ := hv
    rw [Same, norm]
    exact ⟨x, rfl, by rw [canon64_eq]⟩
  | .list t, v, hv, hw => by
    rw [HasType] at hv
    obtain ⟨vs, rfl, hv⟩ := hv
    rw [Wf] at hw
    rw [Same, norm]
    refine ⟨vs, _, rfl, rfl, by simp, ?_⟩
    intro i a b ha hb
    rw [List.getElem?_map, ha] at hb
    injection hb with hb
    subst hb
    exact same_norm t a (hv a (List.mem_of_getElem? ha)) hw.2
  | .record fs, v, hv, hw => by
    rw [HasType] at hv
    obtain ⟨m, rfl, hv⟩ := hv
    rw [Wf] at hw
    rw [Same, norm]
    refine ⟨m, _, rfl, rfl, ?_, same_normFields fs m [] hw.1 hv hw.2⟩
    rw [normFields_keys fs m [] hw.1 (by simp)]; rfl
  | .variant cs, v, hv, hw => by
    rw [HasType] at hv
    obtain ⟨key, p, i, rfl, hsel, hv⟩ := hv
    rw [Wf] at hw
    rw [Same, norm]
    rw [(firstLabel_iff cs key i).2 hsel]
    obtain ⟨⟨l, t, r⟩, hg⟩ := get?_of_lt cs i hsel.lt
    obtain ⟨ls, hls⟩ := hw.2.2.1 i l t r hg
    obtain ⟨p', e, hp⟩ := same_normCase cs cs i p l t r ls hg hls hv hw.2.2.2
    exact ⟨key, p, i, l, t, r, ls, p', rfl, hsel, hg, hls, e, hp⟩
  | .flags ls, v, hv, hw => by
    rw [HasType] at hv
    obtain ⟨m, rfl, hv⟩ := hv
    rw [Wf] at hw
    rw [Same, norm]
    refine ⟨m, _, rfl, rfl, ?_, fun l hl => normFlags_get m ls [] hw.1 l hl⟩
    rw [normFlags_keys m ls [] hw.1 (by simp)]; rfl
  | .bool, v, _, _ | .u8, v, _, _ | .u16, v, _, _ | .u32, v, _, _ | .u64, v, _, _ | .s8, v, _, _ | .s16, v, _, _
  | .s32, v, _, _ | .s64, v, _, _ | .char, v, _, _ | .string, v, _, _ | .own _, v, _, _ | .borrow _, v, _, _
  | .nil, v, _, _ | .other, v, _, _ => by
    simp [Same, norm]
theorem same_normFields : (fs : Fields) → (m acc : List (String × Val)) → fs.labels.Nodup → HasFields fs m →
    WfFields fs → SameFields fs m (normFields fs m acc)
  | .nil, _, _, _, _, _ => by simp [SameFields]
  | .cons l t fs, m, acc, hn, hv, hw => by
    rw [Fields.labels, List.nodup_cons] at hn
    rw [HasFields] at hv
    rw [WfFields] at hw
    rw [SameFields, normFields, normFields_get fs m _ l hn.1, mapGet_mapSet]
    exact ⟨same_norm t _ hv.1 hw.1, same_normFields fs m _ hn.2 hv.2 hw.2⟩
theorem same_normCase (all : Cases) : (cs : Cases) → (i : Nat) → (p : Val) → (l : String) → (t : Ty) → (r : Option String) →
    (ls : List String) → cs.get? i = some (l, t, r) → Chain all l r ls → HasPayload cs i p → WfCases cs →
    ∃ p', normCase all cs i p = .map [(bars ls, p')] ∧ SamePayload cs i p p'
  | .nil, _, _, _, _, _, _, _, _, hv, _ => by simp [HasPayload] at hv
  | .cons l' t' r' cs, 0, p, l, t, r, ls, hg, hc, hv, hw => by
    simp only [Cases.get?, Option.some.injEq, Prod.mk.injEq] at hg
    obtain ⟨rfl, rfl, rfl⟩ := hg
    rw [HasPayload] at hv
    rw [WfCases] at hw
    rw [normCase, caseLabel_chain hc]
    refine ⟨_, rfl, ?_⟩
    rw [SamePayload]
    by_cases h : t' = .nil
    · rw [if_pos h]; exact .inl ⟨h, rfl⟩
    · rw [if_neg h]
      exact .inr ⟨h, same_norm t' p (hv.resolve_left h) hw.1⟩
  | .cons l' t' r' cs, i + 1, p, l, t, r, ls, hg, hc, hv, hw => by
    rw [Cases.get?] at hg
    rw [HasPayload] at hv
    rw [WfCases] at hw
    obtain ⟨p', e, h⟩ := same_normCase all cs i p l t r ls hg hc hv hw.2
    exact ⟨p', by rw [normCase]; exact e, by rw [SamePayload]; exact h⟩
end

end Verif.Abi
