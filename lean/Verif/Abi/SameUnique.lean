import Verif.Abi.Typed

/-!
# There is one canonical form of a value
-/

namespace Verif.Abi
open Spec

theorem mapGet_cons_self (k : String) (v : Val) (m : List (String × Val)) : mapGet ((k, v) :: m) k = v := by
  simp [mapGet]

theorem mapGet_cons_ne (k k' : String) (v : Val) (m : List (String × Val)) (h : k ≠ k') :
    mapGet ((k, v) :: m) k' = mapGet m k' := by
  rw [mapGet, if_neg (Ne.symm h)]

theorem map_ext : (m n : List (String × Val)) → m.map Prod.fst = n.map Prod.fst → (m.map Prod.fst).Nodup →
    (∀ k ∈ m.map Prod.fst, mapGet m k = mapGet n k) → m = n
  | [], [], _, _, _ => rfl
  | [], _ :: _, h, _, _ => by cases h
  | _ :: _, [], h, _, _ => by cases h
  | (k, v) :: m, (k', v') :: n, h, hd, hg => by
    rw [List.map_cons, List.map_cons, List.cons.injEq] at h
    obtain ⟨h1, h2⟩ := h
    simp only at h1
    subst h1
    rw [List.map_cons, List.nodup_cons] at hd
    have h0 := hg k (by simp)
    rw [mapGet_cons_self, mapGet_cons_self] at h0
    subst h0
    rw [map_ext m n h2 hd.2 fun x hx => by
      have hne : k ≠ x := fun e => hd.1 (e ▸ hx)
      have := hg x (by simp only [List.map_cons, List.mem_cons]; exact .inr hx)
      rwa [mapGet_cons_ne _ _ _ _ hne, mapGet_cons_ne _ _ _ _ hne] at this]

mutual
theorem same_unique : (t : Ty) → Named t → (v w w' : Val) → Same t v w → Same t v w' → w = w'
  | .f32, _, v, w, w', h, h' => by
    rw [Same] at h h'
    obtain ⟨x, rfl, rfl⟩ := h
    obtain ⟨y, e, rfl⟩ := h'
    cases e
    rfl
  | .f64, _, v, w, w', h, h' => by
    rw [Same] at h h'
    obtain ⟨x, rfl, rfl⟩ := h
    obtain ⟨y, e, rfl⟩ := h'
    cases e
    rfl
  | .list t, hn, v, w, w', h, h' => by
    rw [Named] at hn
    rw [Same] at h h'
    obtain ⟨vs, ws, rfl, rfl, hl, hs⟩ := h
    obtain ⟨vs', ws', e, rfl, hl', hs'⟩ := h'
    cases e
    congr 1
    apply List.ext_getElem?
    intro i
    by_cases hi : i < vs.length
    · have a1 := List.getElem?_eq_getElem hi
      have a2 := List.getElem?_eq_getElem (hl ▸ hi)
      have a3 := List.getElem?_eq_getElem (hl' ▸ hi)
      rw [a2, a3, same_unique t hn _ _ _ (hs i _ _ a1 a2) (hs' i _ _ a1 a3)]
    · rw [List.getElem?_eq_none (by omega), List.getElem?_eq_none (by omega)]
  | .record fs, hn, v, w, w', h, h' => by
    rw [Named] at hn
    rw [Same] at h h'
    obtain ⟨m, n, rfl, rfl, hk, hs⟩ := h
    obtain ⟨m', n', e, rfl, hk', hs'⟩ := h'
    cases e
    congr 1
    refine map_ext n n' (hk.trans hk'.symm) (hk ▸ hn.1) ?_
    rw [hk]
    exact sameFields_unique fs hn.2 m n n' hs hs'
  | .variant cs, hn, v, w, w', h, h' => by
    rw [Named] at hn
    rw [Same] at h h'
    obtain ⟨key, p, i, l, t, r, ls, q, rfl, hs, hg, hc, rfl, hp⟩ := h
    obtain ⟨key', p', i', l', t', r', ls', q', e, hs', hg', hc', rfl, hp'⟩ := h'
    cases e
    obtain rfl := hs.unique hs'
    rw [hg] at hg'
    cases hg'
    rw [hc.unique hc', samePayload_unique cs hn.2.2 i p q q' hp hp']
  | .flags ls, hn, v, w, w', h, h' => by
    rw [Named] at hn
    rw [Same] at h h'
    obtain ⟨m, n, rfl, rfl, hk, hs⟩ := h
    obtain ⟨m', n', e, rfl, hk', hs'⟩ := h'
    cases e
    congr 1
    refine map_ext n n' (hk.trans hk'.symm) (hk ▸ hn) ?_
    rw [hk]
    intro k hk
    rw [hs k hk, hs' k hk]
  | .bool, _, v, w, w', h, h' | .u8, _, v, w, w', h, h' | .u16, _, v, w, w', h, h' | .u32, _, v, w, w', h, h'
  | .u64, _, v, w, w', h, h' | .s8, _, v, w, w', h, h' | .s16, _, v, w, w', h, h' | .s32, _, v, w, w', h, h'
  | .s64, _, v, w, w', h, h' | .char, _, v, w, w', h, h' | .string, _, v, w, w', h, h' | .own _, _, v, w, w', h, h'
  | .borrow _, _, v, w, w', h, h' | .nil, _, v, w, w', h, h' | .other, _, v, w, w', h, h' => by
    simp only [Same] at h h'
    rw [h, h']
theorem sameFields_unique : (fs : Fields) → NamedFields fs → (m n n' : List (String × Val)) → SameFields fs m n →
    SameFields fs m n' → ∀ k ∈ fs.labels, mapGet n k = mapGet n' k
  | .nil, _, _, _, _, _, _ => by simp [Fields.labels]
  | .cons l t fs, hn, m, n, n', h, h' => by
    rw [NamedFields] at hn
    rw [SameFields] at h h'
    intro k hk
    rw [Fields.labels, List.mem_cons] at hk
    rcases hk with rfl | hk
    · exact same_unique t hn.1 _ _ _ h.1 h'.1
    · exact sameFields_unique fs hn.2 m n n' h.2 h'.2 k hk
theorem samePayload_unique : (cs : Cases) → NamedCases cs → (i : Nat) → (p q q' : Val) → SamePayload cs i p q →
    SamePayload cs i p q' → q = q'
  | .nil, _, _, _, _, _, h, _ => by rw [SamePayload] at h; exact h.elim
  | .cons _ t _ _, hn, 0, p, q, q', h, h' => by
    rw [NamedCases] at hn
    rw [SamePayload] at h h'
    rcases h with ⟨e, rfl⟩ | ⟨e, h⟩ <;> rcases h' with ⟨e', rfl⟩ | ⟨e', h'⟩
    · rfl
    · exact absurd e e'
    · exact absurd e' e
    · exact same_unique t hn.1 _ _ _ h h'
  | .cons _ _ _ cs, hn, i + 1, p, q, q', h, h' => by
    rw [NamedCases] at hn
    rw [SamePayload] at h h'
    exact samePayload_unique cs hn.2 i p q q' h h'
end

end Verif.Abi
