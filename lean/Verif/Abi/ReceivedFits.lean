import Verif.Abi.Typed
import Verif.Abi.BoundProps

/-!
# Values that come out of a memory fit into one
-/

namespace Verif.Abi
open Spec

variable {σ : Type} {E : Env σ}

namespace Spec

mutual
/-- The elements of every list in the type take up fewer bytes than there are addresses beyond the memory's `cap`
bytes. -/
def Roomy (cap : Nat) : Ty → Prop
  | .list t => cap + size t < 2 ^ 32 ∧ Roomy cap t
  | .record fs => RoomyFields cap fs
  | .variant cs => RoomyCases cap cs
  | _ => True
/-- Over fields. -/
def RoomyFields (cap : Nat) : Fields → Prop
  | .nil => True
  | .cons _ t fs => Roomy cap t ∧ RoomyFields cap fs
/-- Over cases. -/
def RoomyCases (cap : Nat) : Cases → Prop
  | .nil => True
  | .cons _ t _ cs => Roomy cap t ∧ RoomyCases cap cs
end

end Spec

/-- Lists fit, and strings if `Q`. -/
def FitsIn (Q : Prop) (enc : String) (t : Ty) (v : Val) : Prop := ListsFit t v ∧ (Q → StringsFit enc t v)
/-- The same for fields. -/
def FitsFields (Q : Prop) (enc : String) (fs : Fields) (m : List (String × Val)) : Prop :=
  ListsFitFields fs m ∧ (Q → StringsFitFields enc fs m)
/-- The same for payloads. -/
def FitsPayload (Q : Prop) (enc : String) (cs : Cases) (i : Nat) (p : Val) : Prop :=
  ListsFitPayload cs i p ∧ (Q → StringsFitPayload enc cs i p)

theorem loadList_fits {t : Ty} {p n : U32} {s s' : St σ} {vs : List Val} (hc : s.mem.cap + Spec.size t < 2 ^ 32)
    (h : loadListFromRange (load E t) t p n s = (.ok vs, s')) :
    vs.length < 2 ^ 32 ∧ vs.length * Spec.size t < 2 ^ 32 := by
  have hz : ∃ z, size t = .ok z := by
    unfold loadListFromRange at h
    obtain ⟨a, _, -, h⟩ := SM.bind_eq_ok.1 h
    rw [SM.ite_app] at h
    split at h
    · cases h
    · obtain ⟨z, _, h2, -⟩ := SM.bind_eq_ok.1 h
      exact ⟨z, (Prod.mk.inj h2).1⟩
  obtain ⟨z, hz⟩ := hz
  have hs : z.toNat = Spec.size t := by
    have := size_eq t (laid_of_size t z hz) (by omega)
    rw [hz] at this
    injection this with this
    rw [this, toNat_ofNat_lt (by omega)]
  rw [← hs] at hc ⊢
  rcases Nat.eq_zero_or_pos z.toNat with h0 | h0
  · have := loadElems_length _ _ _ _ _ _ _ (loadListFromRange_elems hz h).2
    rw [h0, Nat.mul_zero, this]
    exact ⟨n.isLt, by decide⟩
  · have h1 := loadListFromRange_length hz h0 (by omega) h
    have h2 := loadListFromRange_count hz h0 (by omega) h
    refine ⟨by omega, ?_⟩
    rcases vs with _ | ⟨v, vs⟩
    · simp
    · have := h1 (by simp)
      omega

theorem loadElems_all_cap {c : Nat} {f : U32 → SM (St σ) Val} {P : Val → Prop}
    (hf : ∀ p s v s', s.mem.cap = c → f p s = (.ok v, s') → P v ∧ s'.mem.cap = c) (ptr sz : U32) :
    (n i : Nat) → (s : St σ) → (vs : List Val) → (s' : St σ) → s.mem.cap = c → loadElems f ptr sz n i s = (.ok vs, s') →
    ∀ v ∈ vs, P v
  | 0, _, s, vs, s', _, h => by cases h; simp
  | n + 1, i, s, vs, s', hc, h => by
    rw [loadElems] at h
    obtain ⟨v, s1, h1, g1⟩ := SM.bind_eq_ok.1 h
    obtain ⟨vs', s2, h2, g2⟩ := SM.bind_eq_ok.1 g1
    cases g2
    have hv := hf _ _ _ _ hc h1
    intro x hx
    rcases List.mem_cons.1 hx with rfl | hx
    · exact hv.1
    · exact loadElems_all_cap hf ptr sz n (i + 1) _ _ _ hv.2 h2 x hx

section
variable {Q : Prop} {enc : String} {c : Nat}

theorem fits_list {t : Ty} (hc : c + Spec.size t < 2 ^ 32)
    (hf : ∀ p s v s', s.mem.cap = c → load E t p s = (.ok v, s') → FitsIn Q enc t v) {ptr n : U32} {s s' : St σ} {vs : List Val}
    (hs : s.mem.cap = c) (h : loadListFromRange (load E t) t ptr n s = (.ok vs, s')) : FitsIn Q enc (.list t) (.list vs) := by
  have h1 := loadList_fits (by rw [hs]; exact hc) h
  have h2 : ∀ v ∈ vs, FitsIn Q enc t v := by
    unfold loadListFromRange at h
    obtain ⟨a, s1, e1, g1⟩ := SM.bind_eq_ok.1 h
    obtain rfl := (Prod.mk.inj e1).2
    rw [SM.ite_app] at g1
    split at g1
    · cases g1
    · obtain ⟨z, s2, e2, g2⟩ := SM.bind_eq_ok.1 g1
      obtain rfl := (Prod.mk.inj e2).2
      rw [SM.bind_get, SM.ite_app] at g2
      split at g2
      · cases g2
      · exact loadElems_all_cap (c := c) (fun p s v s' hs hv => ⟨hf p s v s' hs hv, by rw [load_mem hv]; exact hs⟩) _ _ _ _ _ _ _ hs g2
  refine ⟨?_, fun q => ?_⟩
  · rw [ListsFit]
    intro ws e
    cases e
    exact ⟨h1.1, h1.2, fun x hx => (h2 x hx).1⟩
  · rw [StringsFit]
    intro ws e
    cases e
    exact fun x hx => (h2 x hx).2 q

theorem fits_record {fs : Fields} {m : List (String × Val)} (h : FitsFields Q enc fs m) : FitsIn Q enc (.record fs) (.map m) := by
  refine ⟨?_, fun q => ?_⟩
  · rw [ListsFit]; intro m' e; cases e; exact h.1
  · rw [StringsFit]; intro m' e; cases e; exact h.2 q

theorem fits_variant {cs : Cases} (h1 : cs.labels.Nodup) (h2 : ∀ l ∈ cs.labels, NoBar l) {i : Nat} {l : String} {t : Ty}
    {r : Option String} {ls : List String} {p : Val} (hg : cs.get? i = some (l, t, r)) (hc : Chain cs l r ls)
    (hp : FitsPayload Q enc cs i p) : FitsIn Q enc (.variant cs) (.map [(bars ls, p)]) := by
  have hs := chain_selects h1 h2 hg hc
  refine ⟨?_, fun q => ?_⟩
  · rw [ListsFit]
    intro key p' j e hj
    cases e
    rw [hj.unique hs]; exact hp.1
  · rw [StringsFit]
    intro key p' j e hj
    cases e
    rw [hj.unique hs]; exact hp.2 q

theorem fits_string (hQ : Q → ∀ x : String, x.length ≤ c → codeUnits enc x < 2 ^ 31 ∧
    (enc = "latin1" → ∀ a ∈ x.toList, a.toNat < 256)) {x : String} (hx : x.length ≤ c) : FitsIn Q enc .string (.str x) := by
  refine ⟨by simp [ListsFit], fun q => ?_⟩
  rw [StringsFit]
  intro s e
  cases e
  exact hQ q x hx

theorem fits_nil (cs : Cases) (l : String) (r : Option String) (v : Val) : FitsPayload Q enc (.cons l .nil r cs) 0 v :=
  ⟨by simp [ListsFitPayload, ListsFit], fun _ => by simp [StringsFitPayload, StringsFit]⟩

mutual
theorem load_fits (hQ : Q → ∀ x : String, x.length ≤ c → codeUnits enc x < 2 ^ 31 ∧
    (enc = "latin1" → ∀ a ∈ x.toList, a.toNat < 256)) : (t : Ty) → Named t → Roomy c t → (ptr : U32) → (s : St σ) →
    (v : Val) → (s' : St σ) → s.mem.cap = c → load E t ptr s = (.ok v, s') → FitsIn Q enc t v
  | .bool, _, _, ptr, s, v, s', _, _ | .u8, _, _, ptr, s, v, s', _, _ | .u16, _, _, ptr, s, v, s', _, _
  | .u32, _, _, ptr, s, v, s', _, _ | .u64, _, _, ptr, s, v, s', _, _ | .s8, _, _, ptr, s, v, s', _, _
  | .s16, _, _, ptr, s, v, s', _, _ | .s32, _, _, ptr, s, v, s', _, _ | .s64, _, _, ptr, s, v, s', _, _
  | .f32, _, _, ptr, s, v, s', _, _ | .f64, _, _, ptr, s, v, s', _, _ | .char, _, _, ptr, s, v, s', _, _
  | .flags _, _, _, ptr, s, v, s', _, _ | .own _, _, _, ptr, s, v, s', _, _ | .borrow _, _, _, ptr, s, v, s', _, _
  | .nil, _, _, ptr, s, v, s', _, _ | .other, _, _, ptr, s, v, s', _, _ =>
    ⟨by simp [ListsFit], fun _ => by simp [StringsFit]⟩
  | .string, _, _, ptr, s, v, s', hc, h => by
    rw [load] at h
    obtain ⟨x, s1, h1, g1⟩ := SM.bind_eq_ok.1 h
    cases g1
    unfold loadString at h1
    obtain ⟨b, s2, e1, h1⟩ := SM.bind_eq_ok.1 h1
    obtain ⟨n, s3, e2, h1⟩ := SM.bind_eq_ok.1 h1
    have k1 := (tame_mem (C := False) (D := False) (loadUInt32_tame (σ := σ) ptr)).keep s
    have k2 := (tame_mem (C := False) (D := False) (loadUInt32_tame (σ := σ) (ptr + 4))).keep s2
    rw [e1] at k1
    rw [e2] at k2
    have := loadStringFromRange_bound h1
    rw [k2, k1, hc] at this
    exact fits_string hQ this
  | .list t, hn, hr, ptr, s, v, s', hc, h => by
    rw [Named] at hn
    rw [Roomy] at hr
    rw [load] at h
    obtain ⟨vs, s1, h1, g1⟩ := SM.bind_eq_ok.1 h
    cases g1
    unfold loadList at h1
    obtain ⟨b, s2, e1, h1⟩ := SM.bind_eq_ok.1 h1
    obtain ⟨n, s3, e2, h1⟩ := SM.bind_eq_ok.1 h1
    have k1 := (tame_mem (C := False) (D := False) (loadUInt32_tame (σ := σ) ptr)).keep s
    have k2 := (tame_mem (C := False) (D := False) (loadUInt32_tame (σ := σ) (ptr + 4))).keep s2
    rw [e1] at k1
    rw [e2] at k2
    exact fits_list hr.1 (fun p s v s' hs hv => load_fits hQ t hn hr.2 p s v s' hs hv) (by rw [k2, k1, hc]) h1
  | .record fs, hn, hr, ptr, s, v, s', hc, h => by
    rw [Named] at hn
    rw [Roomy] at hr
    rw [load] at h
    obtain ⟨m, rfl, -, hf⟩ := loadFields_fits hQ fs hn.1 hn.2 hr ptr [] s v s' hc h
    exact fits_record hf
  | .variant cs, hn, hr, ptr, s, v, s', hc, h => by
    rw [Named] at hn
    rw [Roomy] at hr
    rw [load] at h
    obtain ⟨d, s1, h1, g1⟩ := SM.bind_eq_ok.1 h
    obtain rfl := (Prod.mk.inj h1).2
    obtain ⟨i, s2, h2, g2⟩ := SM.bind_eq_ok.1 g1
    obtain ⟨z, s3, h3, g3⟩ := SM.bind_eq_ok.1 g2
    obtain rfl := (Prod.mk.inj h3).2
    rw [SM.ite_app] at g3
    split at g3
    · cases g3
    · obtain ⟨a, s4, h4, g4⟩ := SM.bind_eq_ok.1 g3
      obtain rfl := (Prod.mk.inj h4).2
      have k1 := (tame_mem (C := False) (D := False) (loadDisc_tame (σ := σ) ptr d)).keep s
      rw [h2] at k1
      obtain ⟨l, t, r, ls, p, hg, hc, rfl, hp⟩ := loadCase_fits hQ cs cs i.toNat hn.2.2 hr _ _ v s' (by rw [k1, hc]) g4
      exact fits_variant hn.1 hn.2.1 hg hc hp
theorem loadFields_fits (hQ : Q → ∀ x : String, x.length ≤ c → codeUnits enc x < 2 ^ 31 ∧
    (enc = "latin1" → ∀ a ∈ x.toList, a.toNat < 256)) : (fs : Fields) → fs.labels.Nodup → NamedFields fs → RoomyFields c fs →
    (ptr : U32) → (acc : List (String × Val)) → (s : St σ) → (v : Val) → (s' : St σ) → s.mem.cap = c →
    loadFields E fs ptr acc s = (.ok v, s') → ∃ m, v = .map m ∧ (∀ k, k ∉ fs.labels → mapGet m k = mapGet acc k) ∧
      FitsFields Q enc fs m
  | .nil, _, _, _, ptr, acc, s, v, s', _, h => by
    rw [loadFields] at h
    cases h
    exact ⟨acc, rfl, fun _ _ => rfl, by simp [ListsFitFields], fun _ => by simp [StringsFitFields]⟩
  | .cons l t fs, hn, hw, hr, ptr, acc, s, v, s', hc, h => by
    rw [Fields.labels, List.nodup_cons] at hn
    rw [NamedFields] at hw
    rw [RoomyFields] at hr
    rw [loadFields] at h
    obtain ⟨a, s1, h1, g1⟩ := SM.bind_eq_ok.1 h
    obtain rfl := (Prod.mk.inj h1).2
    obtain ⟨x, s2, h2, g2⟩ := SM.bind_eq_ok.1 g1
    obtain ⟨z, s3, h3, g3⟩ := SM.bind_eq_ok.1 g2
    obtain rfl := (Prod.mk.inj h3).2
    have hx := load_fits hQ t hw.1 hr.1 _ _ _ _ hc h2
    obtain ⟨m, rfl, hm, hf⟩ := loadFields_fits hQ fs hn.2 hw.2 hr.2 _ _ _ _ _ (by rw [load_mem h2, hc]) g3
    have hl : mapGet m l = x := by rw [hm l hn.1, mapGet_mapSet]
    refine ⟨m, rfl, ?_, ?_, fun q => ?_⟩
    · intro k hk
      rw [Fields.labels, List.mem_cons, not_or] at hk
      rw [hm k hk.2, mapGet_mapSet_ne _ _ _ _ hk.1]
    · rw [ListsFitFields, hl]; exact ⟨hx.1, hf.1⟩
    · rw [StringsFitFields, hl]; exact ⟨hx.2 q, hf.2 q⟩
theorem loadCase_fits (hQ : Q → ∀ x : String, x.length ≤ c → codeUnits enc x < 2 ^ 31 ∧
    (enc = "latin1" → ∀ a ∈ x.toList, a.toNat < 256)) (all : Cases) : (cs : Cases) → (i : Nat) → NamedCases cs →
    RoomyCases c cs → (ptr : U32) → (s : St σ) → (v : Val) → (s' : St σ) → s.mem.cap = c →
    loadCase E all cs i ptr s = (.ok v, s') → ∃ l t r ls p, cs.get? i = some (l, t, r) ∧ Chain all l r ls ∧
      v = .map [(bars ls, p)] ∧ FitsPayload Q enc cs i p
  | .nil, _, _, _, ptr, s, v, s', _, h => by rw [loadCase] at h; cases h
  | .cons l t r cs, 0, hw, hr, ptr, s, v, s', hc, h => by
    rw [NamedCases] at hw
    rw [RoomyCases] at hr
    rw [loadCase] at h
    obtain ⟨lb, s1, h1, g1⟩ := SM.bind_eq_ok.1 h
    obtain rfl := (Prod.mk.inj h1).2
    obtain ⟨ls, hc', rfl⟩ := caseLabel_chain' (Prod.mk.inj h1).1
    rw [SM.ite_app] at g1
    by_cases ht : t = .nil
    · rw [if_pos ht] at g1
      cases g1
      subst ht
      exact ⟨l, _, r, ls, _, rfl, hc', rfl, fits_nil _ _ _ _⟩
    · rw [if_neg ht] at g1
      obtain ⟨x, s2, h2, g2⟩ := SM.bind_eq_ok.1 g1
      cases g2
      have hx := load_fits hQ t hw.1 hr.1 _ _ _ _ hc h2
      exact ⟨l, t, r, ls, x, rfl, hc', rfl, by rw [ListsFitPayload]; exact hx.1, fun q => by rw [StringsFitPayload]; exact hx.2 q⟩
  | .cons l t r cs, i + 1, hw, hr, ptr, s, v, s', hc, h => by
    rw [NamedCases] at hw
    rw [RoomyCases] at hr
    rw [loadCase] at h
    obtain ⟨l', t', r', ls, p, hg, h2, h3, h4, h5⟩ := loadCase_fits hQ all cs i hw.2 hr.2 ptr s v s' hc h
    exact ⟨l', t', r', ls, p, hg, h2, h3, by rw [ListsFitPayload]; exact h4, fun q => by rw [StringsFitPayload]; exact h5 q⟩
end

theorem liftPtr_cap {s s1 s2 : LSt σ} {p n : U32} (e1 : nextU32 s = (.ok p, s1)) (e2 : nextU32 s1 = (.ok n, s2)) :
    s2.st.mem.cap = s.st.mem.cap := by rw [st_keeps nextU32_st e2, st_keeps nextU32_st e1]

mutual
theorem liftFlat_fits (hQ : Q → ∀ x : String, x.length ≤ c → codeUnits enc x < 2 ^ 31 ∧
    (enc = "latin1" → ∀ a ∈ x.toList, a.toNat < 256)) : (t : Ty) → Named t → Roomy c t → (s : LSt σ) →
    (v : Val) → (s' : LSt σ) → s.st.mem.cap = c → liftFlat E t s = (.ok v, s') → FitsIn Q enc t v
  | .bool, _, _, s, v, s', _, _ | .u8, _, _, s, v, s', _, _ | .u16, _, _, s, v, s', _, _
  | .u32, _, _, s, v, s', _, _ | .u64, _, _, s, v, s', _, _ | .s8, _, _, s, v, s', _, _
  | .s16, _, _, s, v, s', _, _ | .s32, _, _, s, v, s', _, _ | .s64, _, _, s, v, s', _, _
  | .f32, _, _, s, v, s', _, _ | .f64, _, _, s, v, s', _, _ | .char, _, _, s, v, s', _, _
  | .flags _, _, _, s, v, s', _, _ | .own _, _, _, s, v, s', _, _ | .borrow _, _, _, s, v, s', _, _
  | .nil, _, _, s, v, s', _, _ | .other, _, _, s, v, s', _, _ =>
    ⟨by simp [ListsFit], fun _ => by simp [StringsFit]⟩
  | .string, _, _, s, v, s', hc, h => by
    rw [liftFlat] at h
    obtain ⟨p, s1, e1, h⟩ := SM.bind_eq_ok.1 h
    obtain ⟨n, s2, e2, h⟩ := SM.bind_eq_ok.1 h
    obtain ⟨x, s3, e3, g1⟩ := SM.bind_eq_ok.1 h
    cases g1
    have := loadStringFromRange_bound (onSt_ok e3)
    rw [liftPtr_cap e1 e2, hc] at this
    exact fits_string hQ this
  | .list t, hn, hr, s, v, s', hc, h => by
    rw [Named] at hn
    rw [Roomy] at hr
    rw [liftFlat] at h
    obtain ⟨p, s1, e1, h⟩ := SM.bind_eq_ok.1 h
    obtain ⟨n, s2, e2, h⟩ := SM.bind_eq_ok.1 h
    obtain ⟨x, s3, e3, g1⟩ := SM.bind_eq_ok.1 h
    cases g1
    exact fits_list hr.1 (fun p s v s' hs hv => load_fits hQ t hn hr.2 p s v s' hs hv)
      (by rw [liftPtr_cap e1 e2, hc]) (onSt_ok e3)
  | .record fs, hn, hr, s, v, s', hc, h => by
    rw [Named] at hn
    rw [Roomy] at hr
    rw [liftFlat] at h
    obtain ⟨m, rfl, -, hf⟩ := liftFields_fits hQ fs hn.1 hn.2 hr [] s v s' hc h
    exact fits_record hf
  | .variant cs, hn, hr, s, v, s', hc, h => by
    rw [Named] at hn
    rw [Roomy] at hr
    rw [liftFlat] at h
    obtain ⟨fts, s1, h1, g1⟩ := SM.bind_eq_ok.1 h
    obtain rfl := (Prod.mk.inj h1).2
    split at g1
    · cases g1
    · rw [SM.ite_app] at g1
      split at g1
      · cases g1
      · obtain ⟨i, s2, h2, g2⟩ := SM.bind_eq_ok.1 g1
        rw [SM.ite_app] at g2
        split at g2
        · cases g2
        · obtain ⟨l, t, r, ls, p, hg, hc', rfl, hp⟩ := liftCase_fits hQ cs cs i.toNat hn.2.2 hr _ _ v s'
            (by rw [st_keeps nextU32_st h2, hc]) g2
          exact fits_variant hn.1 hn.2.1 hg hc' hp
theorem liftFields_fits (hQ : Q → ∀ x : String, x.length ≤ c → codeUnits enc x < 2 ^ 31 ∧
    (enc = "latin1" → ∀ a ∈ x.toList, a.toNat < 256)) : (fs : Fields) → fs.labels.Nodup → NamedFields fs → RoomyFields c fs →
    (acc : List (String × Val)) → (s : LSt σ) → (v : Val) → (s' : LSt σ) → s.st.mem.cap = c →
    liftFields E fs acc s = (.ok v, s') → ∃ m, v = .map m ∧ (∀ k, k ∉ fs.labels → mapGet m k = mapGet acc k) ∧
      FitsFields Q enc fs m
  | .nil, _, _, _, acc, s, v, s', _, h => by
    rw [liftFields] at h
    cases h
    exact ⟨acc, rfl, fun _ _ => rfl, by simp [ListsFitFields], fun _ => by simp [StringsFitFields]⟩
  | .cons l t fs, hn, hw, hr, acc, s, v, s', hc, h => by
    rw [Fields.labels, List.nodup_cons] at hn
    rw [NamedFields] at hw
    rw [RoomyFields] at hr
    rw [liftFields] at h
    obtain ⟨x, s2, h2, g3⟩ := SM.bind_eq_ok.1 h
    have hx := liftFlat_fits hQ t hw.1 hr.1 _ _ _ hc h2
    obtain ⟨m, rfl, hm, hf⟩ := liftFields_fits hQ fs hn.2 hw.2 hr.2 _ _ _ _ (by rw [lift_mem h2, hc]) g3
    have hl : mapGet m l = x := by rw [hm l hn.1, mapGet_mapSet]
    refine ⟨m, rfl, ?_, ?_, fun q => ?_⟩
    · intro k hk
      rw [Fields.labels, List.mem_cons, not_or] at hk
      rw [hm k hk.2, mapGet_mapSet_ne _ _ _ _ hk.1]
    · rw [ListsFitFields, hl]; exact ⟨hx.1, hf.1⟩
    · rw [StringsFitFields, hl]; exact ⟨hx.2 q, hf.2 q⟩
theorem liftCase_fits (hQ : Q → ∀ x : String, x.length ≤ c → codeUnits enc x < 2 ^ 31 ∧
    (enc = "latin1" → ∀ a ∈ x.toList, a.toNat < 256)) (all : Cases) : (cs : Cases) → (i : Nat) → NamedCases cs →
    RoomyCases c cs → (fts : List Kind) → (s : LSt σ) → (v : Val) → (s' : LSt σ) → s.st.mem.cap = c →
    liftCase E all cs i fts s = (.ok v, s') → ∃ l t r ls p, cs.get? i = some (l, t, r) ∧ Chain all l r ls ∧
      v = .map [(bars ls, p)] ∧ FitsPayload Q enc cs i p
  | .nil, _, _, _, fts, s, v, s', _, h => by rw [liftCase] at h; cases h
  | .cons l t r cs, 0, hw, hr, fts, s, v, s', hc, h => by
    rw [NamedCases] at hw
    rw [RoomyCases] at hr
    rw [liftCase, SM.ite_app] at h
    by_cases ht : t = .nil
    · rw [if_pos ht] at h
      obtain ⟨_, s1, h1, g1⟩ := SM.bind_eq_ok.1 h
      obtain ⟨lb, s2, h2, g2⟩ := SM.bind_eq_ok.1 g1
      obtain ⟨ls, hc', rfl⟩ := caseLabel_chain' (Prod.mk.inj h2).1
      cases g2
      subst ht
      exact ⟨l, _, r, ls, _, rfl, hc', rfl, fits_nil _ _ _ _⟩
    · rw [if_neg ht] at h
      obtain ⟨_, s1, h1, g1⟩ := SM.bind_eq_ok.1 h
      obtain ⟨x, s2, h2, g2⟩ := SM.bind_eq_ok.1 g1
      obtain ⟨_, s3, h3, g3⟩ := SM.bind_eq_ok.1 g2
      obtain ⟨_, s4, h4, g4⟩ := SM.bind_eq_ok.1 g3
      obtain ⟨lb, s5, h5, g5⟩ := SM.bind_eq_ok.1 g4
      obtain ⟨ls, hc', rfl⟩ := caseLabel_chain' (Prod.mk.inj h5).1
      cases g5
      have hx := liftFlat_fits hQ t hw.1 hr.1 _ _ _ (by have k0 := (pushFlat_mem' (σ := σ) fts).keep s; rw [h1] at k0; rw [show s1.st.mem = s.st.mem from k0, hc]) h2
      exact ⟨l, t, r, ls, x, rfl, hc', rfl, by rw [ListsFitPayload]; exact hx.1, fun q => by rw [StringsFitPayload]; exact hx.2 q⟩
  | .cons l t r cs, i + 1, hw, hr, fts, s, v, s', hc, h => by
    rw [NamedCases] at hw
    rw [RoomyCases] at hr
    rw [liftCase] at h
    obtain ⟨l', t', r', ls, p, hg, h2, h3, h4, h5⟩ := liftCase_fits hQ all cs i hw.2 hr.2 fts s v s' hc h
    exact ⟨l', t', r', ls, p, hg, h2, h3, by rw [ListsFitPayload]; exact h4, fun q => by rw [StringsFitPayload]; exact h5 q⟩
end

end

mutual
theorem roomy_mono {c d : Nat} (h : c ≤ d) : (t : Ty) → Roomy d t → Roomy c t
  | .list t, hr => by rw [Roomy] at hr ⊢; exact ⟨by omega, roomy_mono h t hr.2⟩
  | .record fs, hr => by rw [Roomy] at hr ⊢; exact roomyFields_mono h fs hr
  | .variant cs, hr => by rw [Roomy] at hr ⊢; exact roomyCases_mono h cs hr
  | .bool, _ | .u8, _ | .u16, _ | .u32, _ | .u64, _ | .s8, _ | .s16, _ | .s32, _ | .s64, _ | .f32, _ | .f64, _
  | .char, _ | .string, _ | .flags _, _ | .own _, _ | .borrow _, _ | .nil, _ | .other, _ => by simp [Roomy]
theorem roomyFields_mono {c d : Nat} (h : c ≤ d) : (fs : Fields) → RoomyFields d fs → RoomyFields c fs
  | .nil, _ => by simp [RoomyFields]
  | .cons _ t fs, hr => by rw [RoomyFields] at hr ⊢; exact ⟨roomy_mono h t hr.1, roomyFields_mono h fs hr.2⟩
theorem roomyCases_mono {c d : Nat} (h : c ≤ d) : (cs : Cases) → RoomyCases d cs → RoomyCases c cs
  | .nil, _ => by simp [RoomyCases]
  | .cons _ t _ cs, hr => by rw [RoomyCases] at hr ⊢; exact ⟨roomy_mono h t hr.1, roomyCases_mono h cs hr.2⟩
end

theorem codeUnits_le (enc x : String) : codeUnits enc x ≤ 4 * x.length := by
  have h : ∀ (f : Char → Nat), (∀ a, f a ≤ 4) → (x.toList.map f).sum ≤ 4 * x.length := by
    intro f hf
    rw [← String.length_toList]
    induction x.toList with
    | nil => simp
    | cons a l ih =>
      have := hf a
      simp only [List.map_cons, List.sum_cons, List.length_cons]
      omega
  unfold codeUnits
  split
  · exact h _ fun a => by split <;> (try split) <;> (try split) <;> omega
  · split
    · omega
    · exact h _ fun a => by split <;> omega

end Verif.Abi
