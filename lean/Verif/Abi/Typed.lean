import Verif.Abi.ScalarProps
import Verif.Abi.HandleTrace
import Verif.Abi.SameLemmas

/-!
# What `Load` and `LiftFlat` return is a value of the type
-/

namespace Verif.Abi
open Spec

variable {σ : Type} {E : Env σ}

namespace Spec

mutual
/-- The labels of every record, variant and flags type in the type differ, and no case label contains a `|`. -/
def Named : Ty → Prop
  | .list t => Named t
  | .record fs => fs.labels.Nodup ∧ NamedFields fs
  | .variant cs => cs.labels.Nodup ∧ (∀ l ∈ cs.labels, NoBar l) ∧ NamedCases cs
  | .flags ls => ls.Nodup
  | _ => True
/-- In every field type. -/
def NamedFields : Fields → Prop
  | .nil => True
  | .cons _ t fs => Named t ∧ NamedFields fs
/-- In every payload type. -/
def NamedCases : Cases → Prop
  | .nil => True
  | .cons _ t _ cs => Named t ∧ NamedCases cs
end

/-- `v` is a value of the type in the form in which values come back (`Same`): every NaN is the canonical one, records and
flags have exactly the declared labels, in order, and a variant value is named by the label of its case followed by the
labels it refines. -/
def Canonical (t : Ty) (v : Val) : Prop := HasType t v ∧ Same t v v

end Spec

mutual
theorem named_of_wf : (t : Ty) → Wf t → Named t
  | .list t, h => by rw [Wf] at h; rw [Named]; exact named_of_wf t h.2
  | .record fs, h => by rw [Wf] at h; rw [Named]; exact ⟨h.1, namedFields_of_wf fs h.2⟩
  | .variant cs, h => by rw [Wf] at h; rw [Named]; exact ⟨h.1, h.2.1, namedCases_of_wf cs h.2.2.2⟩
  | .flags ls, h => by rw [Wf] at h; rw [Named]; exact h.1
  | .bool, _ | .u8, _ | .u16, _ | .u32, _ | .u64, _ | .s8, _ | .s16, _ | .s32, _ | .s64, _ | .f32, _ | .f64, _
  | .char, _ | .string, _ | .own _, _ | .borrow _, _ | .nil, _ | .other, _ => by simp [Named]
theorem namedFields_of_wf : (fs : Fields) → WfFields fs → NamedFields fs
  | .nil, _ => by simp [NamedFields]
  | .cons _ t fs, h => by rw [WfFields] at h; rw [NamedFields]; exact ⟨named_of_wf t h.1, namedFields_of_wf fs h.2⟩
theorem namedCases_of_wf : (cs : Cases) → WfCases cs → NamedCases cs
  | .nil, _ => by simp [NamedCases]
  | .cons _ t _ cs, h => by rw [WfCases] at h; rw [NamedCases]; exact ⟨named_of_wf t h.1, namedCases_of_wf cs h.2⟩
end

theorem canonical_scalar {t : Ty} {v : Val} (h : HasType t v) (h' : Same t v v) : Canonical t v := ⟨h, h'⟩

theorem canonical_f32 (x : BitVec 32) : Canonical .f32 (.f32 (canon32 x)) := by
  refine ⟨by simp [HasType], ?_⟩
  rw [Same]
  refine ⟨_, rfl, ?_⟩
  rw [canon32_eq]
  unfold canonical32
  by_cases h : IsNaN32 x
  · rw [if_pos h, ite_self]
  · rw [if_neg h, if_neg h]

theorem canonical_f64 (x : BitVec 64) : Canonical .f64 (.f64 (canon64 x)) := by
  refine ⟨by simp [HasType], ?_⟩
  rw [Same]
  refine ⟨_, rfl, ?_⟩
  rw [canon64_eq]
  unfold canonical64
  by_cases h : IsNaN64 x
  · rw [if_pos h, ite_self]
  · rw [if_neg h, if_neg h]

theorem canonical_char {x r : U32} (h : convertU32ToRune x = .ok r) : Canonical .char (.s32 r) := by
  rw [convert_iff] at h
  split at h
  · rename_i hs
    cases h
    refine ⟨?_, by simp [Same]⟩
    rw [HasType]
    have hv : x.toNat.isValidChar := by
      unfold Nat.isValidChar
      unfold IsScalar at hs
      omega
    refine ⟨Char.ofNat x.toNat, ?_⟩
    congr 1
    rw [show (Char.ofNat x.toNat).toNat = x.toNat from by
      unfold Char.ofNat
      rw [dif_pos hv]
      rfl]
    rw [BitVec.ofNat_toNat, BitVec.setWidth_eq]
  · cases h

theorem canonical_flags {ls : List String} (h : ls.Nodup) (x : U64) :
    Canonical (.flags ls) (.map (unpackFlagsOnto ls x [])) := by
  refine ⟨?_, ?_⟩
  · rw [HasType]
    refine ⟨_, rfl, fun l hl => ?_⟩
    obtain ⟨i, hi⟩ := List.mem_iff_getElem?.1 hl
    exact ⟨_, unpack_get ls x [] h i l hi⟩
  · rw [Same]
    refine ⟨_, _, rfl, rfl, ?_, fun _ _ => rfl⟩
    rw [unpack_keys ls x [] h (by simp)]
    rfl

theorem canonical_list {t : Ty} {vs : List Val} (h : ∀ v ∈ vs, Canonical t v) : Canonical (.list t) (.list vs) := by
  refine ⟨?_, ?_⟩
  · rw [HasType]
    exact ⟨vs, rfl, fun v hv => (h v hv).1⟩
  · rw [Same]
    refine ⟨vs, vs, rfl, rfl, rfl, fun i a b ha hb => ?_⟩
    rw [ha] at hb
    cases hb
    exact (h a (List.mem_of_getElem? ha)).2

/-- What the field loops keep: the fields done are there. -/
theorem canonical_fields {fs : Fields} {m : List (String × Val)} (hk : m.map Prod.fst = fs.labels) (h : HasFields fs m)
    (h' : SameFields fs m m) : Canonical (.record fs) (.map m) :=
  ⟨by rw [HasType]; exact ⟨m, rfl, h⟩, by rw [Same]; exact ⟨m, m, rfl, rfl, hk, h'⟩⟩

theorem loadElems_all {f : U32 → SM (St σ) Val} {P : Val → Prop} (hf : ∀ p s v s', f p s = (.ok v, s') → P v) (ptr sz : U32) :
    (n i : Nat) → (s : St σ) → (vs : List Val) → (s' : St σ) → loadElems f ptr sz n i s = (.ok vs, s') → ∀ v ∈ vs, P v
  | 0, _, s, vs, s', h => by cases h; simp
  | n + 1, i, s, vs, s', h => by
    rw [loadElems] at h
    obtain ⟨v, s1, h1, g1⟩ := SM.bind_eq_ok.1 h
    obtain ⟨vs', s2, h2, g2⟩ := SM.bind_eq_ok.1 g1
    cases g2
    intro x hx
    rcases List.mem_cons.1 hx with rfl | hx
    · exact hf _ _ _ _ h1
    · exact loadElems_all hf ptr sz n (i + 1) _ _ _ h2 x hx

theorem loadListFromRange_all {f : U32 → SM (St σ) Val} {P : Val → Prop} (hf : ∀ p s v s', f p s = (.ok v, s') → P v)
    {t : Ty} {ptr n : U32} {s s' : St σ} {vs : List Val} (h : loadListFromRange f t ptr n s = (.ok vs, s')) :
    ∀ v ∈ vs, P v := by
  unfold loadListFromRange at h
  obtain ⟨a, s1, h1, g1⟩ := SM.bind_eq_ok.1 h
  rw [SM.ite_app] at g1
  split at g1
  · cases g1
  · obtain ⟨z, s2, h2, g2⟩ := SM.bind_eq_ok.1 g1
    obtain ⟨st, s3, h3, g3⟩ := SM.bind_eq_ok.1 g2
    rw [SM.ite_app] at g3
    split at g3
    · cases g3
    · exact loadElems_all hf _ _ _ _ _ _ _ g3

theorem caseLabel_chain' {cs : Cases} {l : String} {r : Option String} {a : String}
    (e : caseLabelWithRefinements cs l r = .ok a) : ∃ ls, Chain cs l r ls ∧ a = bars ls := by
  by_cases h : ∃ ls, Chain cs l r ls
  · obtain ⟨ls, h⟩ := h
    exact ⟨ls, h, caseLabel_ok h e⟩
  · rw [caseLabel_diverges cs l r h] at e
    cases e

/-- A payload in canonical form; nil if the case has none. -/
def CanonicalPayload : Cases → Nat → Val → Prop
  | cs, i, p => HasPayload cs i p ∧ SamePayload cs i p p

theorem canonical_variant {cs : Cases} (h1 : cs.labels.Nodup) (h2 : ∀ l ∈ cs.labels, NoBar l) {i : Nat} {l : String} {t : Ty}
    {r : Option String} {ls : List String} {p : Val} (hg : cs.get? i = some (l, t, r)) (hc : Chain cs l r ls)
    (hp : CanonicalPayload cs i p) : Canonical (.variant cs) (.map [(bars ls, p)]) := by
  have hs := chain_selects h1 h2 hg hc
  refine ⟨?_, ?_⟩
  · rw [HasType]; exact ⟨_, p, i, rfl, hs, hp.1⟩
  · rw [Same]; exact ⟨_, p, i, l, t, r, ls, p, rfl, hs, hg, hc, rfl, hp.2⟩

theorem intVal_canonical {ptr : U32} {t : Ty} {s s' : St σ} {v : Val} (ht : t ∈ integerTypes)
    (h : loadInt ptr t s = (.ok v, s')) : Canonical t v := by
  unfold loadInt at h
  obtain ⟨z, s1, h1, g1⟩ := SM.bind_eq_ok.1 h
  obtain ⟨x, s2, h2, g2⟩ := SM.bind_eq_ok.1 g1
  cases g2
  simp only [integerTypes, List.mem_cons, List.not_mem_nil, or_false] at ht
  rcases ht with rfl | rfl | rfl | rfl | rfl | rfl | rfl | rfl <;> exact ⟨by simp [HasType, intVal], by simp [Same]⟩

mutual
theorem load_canonical : (t : Ty) → Named t → (ptr : U32) → (s : St σ) → (v : Val) → (s' : St σ) →
    load E t ptr s = (.ok v, s') → Canonical t v
  | .bool, _, ptr, s, v, s', h => by
    rw [load, loadBool] at h
    obtain ⟨x, s1, h1, g1⟩ := SM.bind_eq_ok.1 h
    split at g1
    · cases g1; exact ⟨by simp [HasType], by simp [Same]⟩
    · cases g1
  | .u8, _, ptr, s, v, s', h | .u16, _, ptr, s, v, s', h | .u32, _, ptr, s, v, s', h | .u64, _, ptr, s, v, s', h
  | .s8, _, ptr, s, v, s', h | .s16, _, ptr, s, v, s', h | .s32, _, ptr, s, v, s', h | .s64, _, ptr, s, v, s', h => by
    rw [load] at h
    exact intVal_canonical (by simp [integerTypes]) h
  | .f32, _, ptr, s, v, s', h => by
    rw [load, loadFloat32] at h
    obtain ⟨x, s1, h1, g1⟩ := SM.bind_eq_ok.1 h
    cases g1
    exact canonical_f32 x
  | .f64, _, ptr, s, v, s', h => by
    rw [load, loadFloat64] at h
    obtain ⟨x, s1, h1, g1⟩ := SM.bind_eq_ok.1 h
    cases g1
    exact canonical_f64 x
  | .char, _, ptr, s, v, s', h => by
    rw [load, loadChar] at h
    obtain ⟨x, s1, h1, g1⟩ := SM.bind_eq_ok.1 h
    split at g1
    · obtain ⟨r, s2, h2, g2⟩ := SM.bind_eq_ok.1 g1
      cases g2
      exact canonical_char (Prod.mk.inj h2).1
    · cases g1
  | .string, _, ptr, s, v, s', h => by
    rw [load] at h
    obtain ⟨x, s1, h1, g1⟩ := SM.bind_eq_ok.1 h
    cases g1
    exact ⟨by simp [HasType], by simp [Same]⟩
  | .flags ls, hn, ptr, s, v, s', h => by
    rw [Named] at hn
    rw [load, loadFlags] at h
    obtain ⟨x, s1, h1, g1⟩ := SM.bind_eq_ok.1 h
    cases g1
    exact canonical_flags hn x
  | .own rt, _, ptr, s, v, s', h | .borrow rt, _, ptr, s, v, s', h => by
    rw [load] at h
    obtain ⟨i, s1, h1, g1⟩ := SM.bind_eq_ok.1 h
    obtain ⟨r, s2, h2, g2⟩ := SM.bind_eq_ok.1 g1
    cases g2
    exact ⟨by simp [HasType], by simp [Same]⟩
  | .nil, _, ptr, s, v, s', h => by rw [load] at h; cases h
  | .other, _, ptr, s, v, s', h => by rw [load] at h; cases h
  | .list t, hn, ptr, s, v, s', h => by
    rw [Named] at hn
    rw [load] at h
    obtain ⟨vs, s1, h1, g1⟩ := SM.bind_eq_ok.1 h
    cases g1
    unfold loadList at h1
    obtain ⟨b, s2, h2, g2⟩ := SM.bind_eq_ok.1 h1
    obtain ⟨n, s3, h3, g3⟩ := SM.bind_eq_ok.1 g2
    exact canonical_list (loadListFromRange_all (fun p s v s' => load_canonical t hn p s v s') g3)
  | .record fs, hn, ptr, s, v, s', h => by
    rw [Named] at hn
    rw [load] at h
    obtain ⟨m, rfl, hk, -, hf, hs⟩ := loadFields_canonical fs hn.1 hn.2 ptr [] (by simp) s v s' h
    exact canonical_fields (by rw [hk]; rfl) hf hs
  | .variant cs, hn, ptr, s, v, s', h => by
    rw [Named] at hn
    rw [load] at h
    obtain ⟨d, s1, h1, g1⟩ := SM.bind_eq_ok.1 h
    obtain ⟨i, s2, h2, g2⟩ := SM.bind_eq_ok.1 g1
    obtain ⟨z, s3, h3, g3⟩ := SM.bind_eq_ok.1 g2
    rw [SM.ite_app] at g3
    split at g3
    · cases g3
    · obtain ⟨a, s4, h4, g4⟩ := SM.bind_eq_ok.1 g3
      obtain ⟨l, t, r, ls, p, hg, hc, rfl, hp⟩ := loadCase_canonical cs cs i.toNat hn.2.2 _ _ v s' g4
      exact canonical_variant hn.1 hn.2.1 hg hc hp
theorem loadFields_canonical : (fs : Fields) → fs.labels.Nodup → NamedFields fs → (ptr : U32) → (acc : List (String × Val)) →
    (∀ l ∈ fs.labels, l ∉ acc.map Prod.fst) → (s : St σ) → (v : Val) → (s' : St σ) →
    loadFields E fs ptr acc s = (.ok v, s') → ∃ m, v = .map m ∧ m.map Prod.fst = acc.map Prod.fst ++ fs.labels ∧
      (∀ k, k ∉ fs.labels → mapGet m k = mapGet acc k) ∧ HasFields fs m ∧ SameFields fs m m
  | .nil, _, _, ptr, acc, _, s, v, s', h => by
    rw [loadFields] at h
    cases h
    exact ⟨acc, rfl, by simp [Fields.labels], fun _ _ => rfl, by simp [HasFields], by simp [SameFields]⟩
  | .cons l t fs, hn, hw, ptr, acc, hd, s, v, s', h => by
    rw [Fields.labels, List.nodup_cons] at hn
    rw [NamedFields] at hw
    rw [loadFields] at h
    obtain ⟨a, s1, h1, g1⟩ := SM.bind_eq_ok.1 h
    obtain ⟨x, s2, h2, g2⟩ := SM.bind_eq_ok.1 g1
    obtain ⟨z, s3, h3, g3⟩ := SM.bind_eq_ok.1 g2
    have hx := load_canonical t hw.1 _ _ _ _ h2
    have h0 := mapSet_keys acc l x (hd l (by simp [Fields.labels]))
    obtain ⟨m, rfl, hk, hm, hf, hs⟩ := loadFields_canonical fs hn.2 hw.2 _ _ (by
      intro k hk
      rw [h0, List.mem_append, List.mem_singleton, not_or]
      exact ⟨hd k (by simp [Fields.labels, hk]), fun e => hn.1 (e ▸ hk)⟩) _ _ _ g3
    have hl : mapGet m l = x := by rw [hm l hn.1, mapGet_mapSet]
    refine ⟨m, rfl, by rw [hk, h0]; simp [Fields.labels], ?_, ?_, ?_⟩
    · intro k hk
      rw [Fields.labels, List.mem_cons, not_or] at hk
      rw [hm k hk.2, mapGet_mapSet_ne _ _ _ _ hk.1]
    · rw [HasFields, hl]; exact ⟨hx.1, hf⟩
    · rw [SameFields, hl]; exact ⟨hx.2, hs⟩
theorem loadCase_canonical (all : Cases) : (cs : Cases) → (i : Nat) → NamedCases cs → (ptr : U32) → (s : St σ) → (v : Val) →
    (s' : St σ) → loadCase E all cs i ptr s = (.ok v, s') → ∃ l t r ls p, cs.get? i = some (l, t, r) ∧ Chain all l r ls ∧
      v = .map [(bars ls, p)] ∧ CanonicalPayload cs i p
  | .nil, _, _, ptr, s, v, s', h => by rw [loadCase] at h; cases h
  | .cons l t r cs, 0, hw, ptr, s, v, s', h => by
    rw [NamedCases] at hw
    rw [loadCase] at h
    obtain ⟨lb, s1, h1, g1⟩ := SM.bind_eq_ok.1 h
    obtain ⟨ls, hc, rfl⟩ := caseLabel_chain' (Prod.mk.inj h1).1
    rw [SM.ite_app] at g1
    by_cases ht : t = .nil
    · rw [if_pos ht] at g1
      cases g1
      exact ⟨l, t, r, ls, _, rfl, hc, rfl, by rw [HasPayload]; exact .inl ht, by rw [SamePayload]; exact .inl ⟨ht, rfl⟩⟩
    · rw [if_neg ht] at g1
      obtain ⟨x, s2, h2, g2⟩ := SM.bind_eq_ok.1 g1
      cases g2
      have hx := load_canonical t hw.1 _ _ _ _ h2
      exact ⟨l, t, r, ls, x, rfl, hc, rfl, by rw [HasPayload]; exact .inr hx.1, by rw [SamePayload]; exact .inr ⟨ht, hx.2⟩⟩
  | .cons l t r cs, i + 1, hw, ptr, s, v, s', h => by
    rw [NamedCases] at hw
    rw [loadCase] at h
    obtain ⟨l', t', r', ls, p, hg, h2, h3, h4, h5⟩ := loadCase_canonical all cs i hw.2 ptr s v s' h
    exact ⟨l', t', r', ls, p, hg, h2, h3, by rw [HasPayload]; exact h4, by rw [SamePayload]; exact h5⟩
end

mutual
theorem liftFlat_canonical : (t : Ty) → Named t → (s : LSt σ) → (v : Val) → (s' : LSt σ) →
    liftFlat E t s = (.ok v, s') → Canonical t v
  | .bool, _, s, v, s', h | .u8, _, s, v, s', h | .u16, _, s, v, s', h | .u32, _, s, v, s', h | .u64, _, s, v, s', h
  | .s8, _, s, v, s', h | .s16, _, s, v, s', h | .s32, _, s, v, s', h | .s64, _, s, v, s', h => by
    rw [liftFlat] at h
    obtain ⟨x, s1, h1, g1⟩ := SM.bind_eq_ok.1 h
    cases g1
    exact ⟨by simp [HasType], by simp [Same]⟩
  | .f32, _, s, v, s', h => by
    rw [liftFlat] at h
    obtain ⟨x, s1, h1, g1⟩ := SM.bind_eq_ok.1 h
    cases g1
    exact canonical_f32 x
  | .f64, _, s, v, s', h => by
    rw [liftFlat] at h
    obtain ⟨x, s1, h1, g1⟩ := SM.bind_eq_ok.1 h
    cases g1
    exact canonical_f64 x
  | .char, _, s, v, s', h => by
    rw [liftFlat] at h
    obtain ⟨x, s1, h1, g1⟩ := SM.bind_eq_ok.1 h
    obtain ⟨r, s2, h2, g2⟩ := SM.bind_eq_ok.1 g1
    cases g2
    exact canonical_char (Prod.mk.inj h2).1
  | .string, _, s, v, s', h => by
    rw [liftFlat] at h
    obtain ⟨p, s1, h1, g1⟩ := SM.bind_eq_ok.1 h
    obtain ⟨n, s2, h2, g2⟩ := SM.bind_eq_ok.1 g1
    obtain ⟨x, s3, h3, g3⟩ := SM.bind_eq_ok.1 g2
    cases g3
    exact ⟨by simp [HasType], by simp [Same]⟩
  | .flags ls, hn, s, v, s', h => by
    rw [Named] at hn
    rw [liftFlat] at h
    obtain ⟨x, s1, h1, g1⟩ := SM.bind_eq_ok.1 h
    cases g1
    exact canonical_flags hn x
  | .own rt, _, s, v, s', h | .borrow rt, _, s, v, s', h => by
    rw [liftFlat] at h
    obtain ⟨i, s1, h1, g1⟩ := SM.bind_eq_ok.1 h
    obtain ⟨r, s2, h2, g2⟩ := SM.bind_eq_ok.1 g1
    cases g2
    exact ⟨by simp [HasType], by simp [Same]⟩
  | .nil, _, s, v, s', h => by rw [liftFlat] at h; cases h
  | .other, _, s, v, s', h => by rw [liftFlat] at h; cases h
  | .list t, hn, s, v, s', h => by
    rw [Named] at hn
    rw [liftFlat] at h
    obtain ⟨p, s1, h1, g1⟩ := SM.bind_eq_ok.1 h
    obtain ⟨n, s2, h2, g2⟩ := SM.bind_eq_ok.1 g1
    obtain ⟨vs, s3, h3, g3⟩ := SM.bind_eq_ok.1 g2
    cases g3
    exact canonical_list (loadListFromRange_all (fun p s v s' => load_canonical t hn p s v s') (onSt_ok h3))
  | .record fs, hn, s, v, s', h => by
    rw [Named] at hn
    rw [liftFlat] at h
    obtain ⟨m, rfl, hk, -, hf, hs⟩ := liftFields_canonical fs hn.1 hn.2 [] (by simp) s v s' h
    exact canonical_fields (by rw [hk]; rfl) hf hs
  | .variant cs, hn, s, v, s', h => by
    rw [Named] at hn
    rw [liftFlat] at h
    obtain ⟨fts, s1, h1, g1⟩ := SM.bind_eq_ok.1 h
    split at g1
    · cases g1
    · rw [SM.ite_app] at g1
      split at g1
      · cases g1
      · obtain ⟨i, s2, h2, g2⟩ := SM.bind_eq_ok.1 g1
        rw [SM.ite_app] at g2
        split at g2
        · cases g2
        · obtain ⟨l, t, r, ls, p, hg, hc, rfl, hp⟩ := liftCase_canonical cs cs i.toNat hn.2.2 _ _ v s' g2
          exact canonical_variant hn.1 hn.2.1 hg hc hp
theorem liftFields_canonical : (fs : Fields) → fs.labels.Nodup → NamedFields fs → (acc : List (String × Val)) →
    (∀ l ∈ fs.labels, l ∉ acc.map Prod.fst) → (s : LSt σ) → (v : Val) → (s' : LSt σ) →
    liftFields E fs acc s = (.ok v, s') → ∃ m, v = .map m ∧ m.map Prod.fst = acc.map Prod.fst ++ fs.labels ∧
      (∀ k, k ∉ fs.labels → mapGet m k = mapGet acc k) ∧ HasFields fs m ∧ SameFields fs m m
  | .nil, _, _, acc, _, s, v, s', h => by
    rw [liftFields] at h
    cases h
    exact ⟨acc, rfl, by simp [Fields.labels], fun _ _ => rfl, by simp [HasFields], by simp [SameFields]⟩
  | .cons l t fs, hn, hw, acc, hd, s, v, s', h => by
    rw [Fields.labels, List.nodup_cons] at hn
    rw [NamedFields] at hw
    rw [liftFields] at h
    obtain ⟨x, s2, h2, g3⟩ := SM.bind_eq_ok.1 h
    have hx := liftFlat_canonical t hw.1 _ _ _ h2
    have h0 := mapSet_keys acc l x (hd l (by simp [Fields.labels]))
    obtain ⟨m, rfl, hk, hm, hf, hs⟩ := liftFields_canonical fs hn.2 hw.2 _ (by
      intro k hk
      rw [h0, List.mem_append, List.mem_singleton, not_or]
      exact ⟨hd k (by simp [Fields.labels, hk]), fun e => hn.1 (e ▸ hk)⟩) _ _ _ g3
    have hl : mapGet m l = x := by rw [hm l hn.1, mapGet_mapSet]
    refine ⟨m, rfl, by rw [hk, h0]; simp [Fields.labels], ?_, ?_, ?_⟩
    · intro k hk
      rw [Fields.labels, List.mem_cons, not_or] at hk
      rw [hm k hk.2, mapGet_mapSet_ne _ _ _ _ hk.1]
    · rw [HasFields, hl]; exact ⟨hx.1, hf⟩
    · rw [SameFields, hl]; exact ⟨hx.2, hs⟩
theorem liftCase_canonical (all : Cases) : (cs : Cases) → (i : Nat) → NamedCases cs → (fts : List Kind) → (s : LSt σ) → (v : Val) →
    (s' : LSt σ) → liftCase E all cs i fts s = (.ok v, s') → ∃ l t r ls p, cs.get? i = some (l, t, r) ∧ Chain all l r ls ∧
      v = .map [(bars ls, p)] ∧ CanonicalPayload cs i p
  | .nil, _, _, fts, s, v, s', h => by rw [liftCase] at h; cases h
  | .cons l t r cs, 0, hw, fts, s, v, s', h => by
    rw [NamedCases] at hw
    rw [liftCase, SM.ite_app] at h
    by_cases ht : t = .nil
    · rw [if_pos ht] at h
      obtain ⟨_, s1, h1, g1⟩ := SM.bind_eq_ok.1 h
      obtain ⟨lb, s2, h2, g2⟩ := SM.bind_eq_ok.1 g1
      obtain ⟨ls, hc, rfl⟩ := caseLabel_chain' (Prod.mk.inj h2).1
      cases g2
      exact ⟨l, t, r, ls, _, rfl, hc, rfl, by rw [HasPayload]; exact .inl ht, by rw [SamePayload]; exact .inl ⟨ht, rfl⟩⟩
    · rw [if_neg ht] at h
      obtain ⟨_, s1, h1, g1⟩ := SM.bind_eq_ok.1 h
      obtain ⟨x, s2, h2, g2⟩ := SM.bind_eq_ok.1 g1
      obtain ⟨_, s3, h3, g3⟩ := SM.bind_eq_ok.1 g2
      obtain ⟨_, s4, h4, g4⟩ := SM.bind_eq_ok.1 g3
      obtain ⟨lb, s5, h5, g5⟩ := SM.bind_eq_ok.1 g4
      obtain ⟨ls, hc, rfl⟩ := caseLabel_chain' (Prod.mk.inj h5).1
      cases g5
      have hx := liftFlat_canonical t hw.1 _ _ _ h2
      exact ⟨l, t, r, ls, x, rfl, hc, rfl, by rw [HasPayload]; exact .inr hx.1, by rw [SamePayload]; exact .inr ⟨ht, hx.2⟩⟩
  | .cons l t r cs, i + 1, hw, fts, s, v, s', h => by
    rw [NamedCases] at hw
    rw [liftCase] at h
    obtain ⟨l', t', r', ls, p, hg, h2, h3, h4, h5⟩ := liftCase_canonical all cs i hw.2 fts s v s' h
    exact ⟨l', t', r', ls, p, hg, h2, h3, by rw [HasPayload]; exact h4, by rw [SamePayload]; exact h5⟩
end

end Verif.Abi
