import Verif.Abi.FlatMeansSpec
import Verif.Abi.MeansLemmas
import Verif.Abi.CoreProps

/-!
# `LiftFlat` against what the core values stand for
-/

namespace Verif.Abi

open Encoding Spec

variable {σ : Type}

/-- How many bits a core type has. -/
def wid : Kind → Nat
  | .u32 | .f32 => 32
  | .u64 | .f64 => 64

/-! ## Core values that agree on the bits in use -/

def Cong : List Kind → List Nat → List Nat → Prop
  | [], [], [] => True
  | k :: ks, a :: as, b :: bs => a % 2 ^ wid k = b % 2 ^ wid k ∧ Cong ks as bs
  | _, _, _ => False

theorem Cong.symm : {ks : List Kind} → {as bs : List Nat} → Cong ks as bs → Cong ks bs as
  | [], [], [], _ => trivial
  | _ :: _, _ :: _, _ :: _, h => ⟨h.1.symm, h.2.symm⟩
  | [], [], _ :: _, h | [], _ :: _, _, h | _ :: _, [], _, h | _ :: _, _ :: _, [], h => h.elim

theorem Cong.split : (ks : List Kind) → {ls : List Kind} → {as bs : List Nat} → Cong (ks ++ ls) as bs →
    Cong ks (as.take ks.length) (bs.take ks.length) ∧ Cong ls (as.drop ks.length) (bs.drop ks.length)
  | [], _, _, _, h => ⟨by simp [Cong], h⟩
  | _ :: ks, _, _ :: _, _ :: _, h => ⟨⟨h.1, (Cong.split ks h.2).1⟩, (Cong.split ks h.2).2⟩
  | _ :: _, _, [], _, h => h.elim
  | _ :: _, _, _ :: _, [], h => h.elim

theorem wid_fits {k w : Kind} (h : Fits k w) (a b : Nat) (e : a % 2 ^ wid w = b % 2 ^ wid w) :
    a % 2 ^ wid k = b % 2 ^ wid k := by
  revert h e
  cases k <;> cases w <;> simp [Fits, wid] <;> omega

theorem Cong.carried : {ks ws : List Kind} → {as bs : List Nat} → Carries ks ws → Cong ws as bs →
    Cong ks (as.take ks.length) (bs.take ks.length)
  | [], _, _, _, _, _ => by simp [Cong]
  | _ :: _, [], _, _, h, _ => h.elim
  | _ :: _, _ :: _, [], _, _, h => h.elim
  | _ :: _, _ :: _, _ :: _, [], _, h => h.elim
  | _ :: _, _ :: _, _ :: _, _ :: _, h, h' => ⟨wid_fits h.1 _ _ h'.1, Cong.carried h.2 h'.2⟩

theorem Cong.one {k : Kind} {as bs : List Nat} (h : Cong [k] as bs) :
    ∃ a b, as = [a] ∧ bs = [b] ∧ a % 2 ^ wid k = b % 2 ^ wid k := by
  rcases as with _ | ⟨a, _ | ⟨_, _⟩⟩ <;> rcases bs with _ | ⟨b, _ | ⟨_, _⟩⟩ <;> simp [Cong] at h
  exact ⟨a, b, rfl, rfl, h⟩

theorem Cong.two {k l : Kind} {as bs : List Nat} (h : Cong [k, l] as bs) :
    ∃ a b a' b', as = [a, a'] ∧ bs = [b, b'] ∧ a % 2 ^ wid k = b % 2 ^ wid k ∧ a' % 2 ^ wid l = b' % 2 ^ wid l := by
  rcases as with _ | ⟨a, _ | ⟨a', _ | ⟨_, _⟩⟩⟩ <;> rcases bs with _ | ⟨b, _ | ⟨b', _ | ⟨_, _⟩⟩⟩ <;> simp [Cong] at h
  exact ⟨a, b, a', b', rfl, rfl, h⟩

theorem Cong.word : (n : Nat) → {as bs : List Nat} → Cong (List.replicate n .u32) as bs → (j : Nat) →
    as.getD j 0 % 2 ^ 32 = bs.getD j 0 % 2 ^ 32
  | 0, [], [], _, _ => rfl
  | _ + 1, _ :: _, _ :: _, h, 0 => h.1
  | n + 1, _ :: _, _ :: _, h, j + 1 => Cong.word n h.2 j
  | 0, [], _ :: _, h, _ | 0, _ :: _, _, h, _ | _ + 1, [], _, h, _ | _ + 1, _ :: _, [], h, _ => h.elim

theorem testBit_of_mod {a b : Nat} (h : a % 2 ^ 32 = b % 2 ^ 32) {i : Nat} (hi : i < 32) : a.testBit i = b.testBit i := by
  have h1 := Nat.testBit_mod_two_pow a 32 i
  have h2 := Nat.testBit_mod_two_pow b 32 i
  rw [h, h2] at h1
  simpa [hi] using h1.symm

mutual
theorem few_of_wf : (t : Ty) → Wf t → Laid t → FewLabels t
  | .list t, h, h' => by
    rw [Wf] at h
    rw [FewLabels]; exact few_of_wf t h.2 h.1
  | .record fs, h, h' => by
    rw [Wf] at h
    simp only [Laid] at h'
    rw [FewLabels]; exact fewFields_of_wf fs h.2 h'
  | .variant cs, h, h' => by
    rw [Wf] at h
    simp only [Laid] at h'
    rw [FewLabels]; exact fewCases_of_wf cs h.2.2.2 h'.2.2
  | .flags ls, h, _ => by
    rw [Wf] at h
    rw [FewLabels]; omega
  | .bool, _, _ | .u8, _, _ | .s8, _, _ | .u16, _, _ | .s16, _, _ | .u32, _, _ | .s32, _, _ | .f32, _, _ | .char, _, _
  | .own _, _, _ | .borrow _, _, _ | .u64, _, _ | .s64, _, _ | .f64, _, _ | .string, _, _ | .nil, _, _ | .other, _, _ => by
    simp [FewLabels]
theorem fewFields_of_wf : (fs : Fields) → WfFields fs → LaidFields fs → FewLabelsFields fs
  | .nil, _, _ => by simp [FewLabelsFields]
  | .cons _ t fs, h, h' => by
    rw [WfFields] at h
    simp only [LaidFields] at h'
    rw [FewLabelsFields]; exact ⟨few_of_wf t h.1 h'.1, fewFields_of_wf fs h.2 h'.2⟩
theorem fewCases_of_wf : (cs : Cases) → WfCases cs → LaidCases cs → FewLabelsCases cs
  | .nil, _, _ => by simp [FewLabelsCases]
  | .cons _ t _ cs, h, h' => by
    rw [WfCases] at h
    simp only [LaidCases] at h'
    rw [FewLabelsCases]
    refine ⟨?_, fewCases_of_wf cs h.2 h'.2⟩
    rcases h'.1 with rfl | h'
    · simp [FewLabels]
    · exact few_of_wf t h.1 h'
end

theorem flatten_core_wf (t : Ty) (h : Laid t) (hw : Wf t) : flatten t = .ok (coreTypes t) :=
  flatten_coreTypes t h (few_of_wf t hw h)

/-- The slots of a variant carry each payload. -/
theorem payload_carried (cs : Cases) (h : Laid (.variant cs)) (hw : Wf (.variant cs)) (i : Nat) (l : String) (t : Ty)
    (r : Option String) (hg : cs.get? i = some (l, t, r)) (ht : t ≠ .nil) (hl : Laid t) (hwt : Wf t) :
    Carries (coreTypes t) (slots (coreCases cs)) := by
  have e := flatten_core_wf _ h hw
  rw [coreTypes] at e
  obtain ⟨ws, e1, e2⟩ := flatten_variant e
  cases e1
  obtain ⟨ks, e3, e4⟩ := (flattenCases_carries cs [] _ e2).2 i l t r hg ht
  rw [flatten_core_wf t hl hwt] at e3
  cases e3
  exact e4

theorem wf_get : (cs : Cases) → LaidCases cs → WfCases cs → (i : Nat) → (l : String) → (t : Ty) → (r : Option String) →
    cs.get? i = some (l, t, r) → t ≠ .nil → Laid t ∧ Wf t
  | .nil, _, _, _, _, _, _, h, _ => by simp [Cases.get?] at h
  | .cons _ _ _ _, hl, hw, 0, _, _, _, h, ht => by
    simp only [LaidCases] at hl
    rw [WfCases] at hw
    cases h
    exact ⟨hl.1.resolve_left ht, hw.1⟩
  | .cons _ _ _ cs, hl, hw, i + 1, l, t, r, h, ht => by
    simp only [LaidCases] at hl
    rw [WfCases] at hw
    exact wf_get cs hl.2 hw.2 i l t r h ht

/-- The payloads of a variant are carried by the slots `ws`. -/
def AllCarried (cs : Cases) (ws : List Kind) : Prop :=
  ∀ i l t r, cs.get? i = some (l, t, r) → t ≠ .nil → Carries (coreTypes t) ws

theorem allCarried (cs : Cases) (h : Laid (.variant cs)) (hw : Wf (.variant cs)) :
    AllCarried cs (slots (coreCases cs)) := by
  intro i l t r hg ht
  have h' := h
  have hw' := hw
  simp only [Laid] at h'
  rw [Wf] at hw'
  obtain ⟨h1, h2⟩ := wf_get cs h'.2.2 hw'.2.2.2 i l t r hg ht
  exact payload_carried cs h hw i l t r hg ht h1 h2

section
variable (R : Reading) (hR : ¬ R.neat) (enc : String) (m : Mem)
include hR

mutual
theorem flat_cong : (t : Ty) → Laid t → Wf t → (as bs : List Nat) → Cong (coreTypes t) as bs → (v : Val) →
    FlatMeans R enc m t as v → FlatMeans R enc m t bs v
  | .bool, _, _, as, bs, h, v, hv => by
    rw [coreTypes] at h
    obtain ⟨a, b, rfl, rfl, e⟩ := h.one
    rw [FlatMeans] at hv ⊢
    obtain ⟨_, h1, h2, -⟩ := hv
    cases h1
    exact ⟨b, rfl, by rw [h2, show a % 2 ^ 32 = b % 2 ^ 32 from e], fun h => absurd h hR⟩
  | .u8, _, _, as, bs, h, v, hv | .u16, _, _, as, bs, h, v, hv | .u32, _, _, as, bs, h, v, hv
  | .s8, _, _, as, bs, h, v, hv | .s16, _, _, as, bs, h, v, hv | .s32, _, _, as, bs, h, v, hv
  | .u64, _, _, as, bs, h, v, hv | .s64, _, _, as, bs, h, v, hv => by
    rw [coreTypes] at h
    obtain ⟨a, b, rfl, rfl, e⟩ := h.one
    rw [FlatMeans] at hv ⊢
    obtain ⟨_, h1, h2, -⟩ := hv
    cases h1
    refine ⟨b, rfl, ?_, fun h => absurd h hR⟩
    rw [h2]
    congr 1
    apply BitVec.eq_of_toNat_eq
    simp only [BitVec.toNat_ofNat]
    simp only [wid] at e
    omega
  | .f32, _, _, as, bs, h, v, hv | .f64, _, _, as, bs, h, v, hv => by
    rw [coreTypes] at h
    obtain ⟨a, b, rfl, rfl, e⟩ := h.one
    rw [FlatMeans] at hv ⊢
    obtain ⟨_, h1, h2, -⟩ := hv
    cases h1
    refine ⟨b, rfl, ?_, fun h => absurd h hR⟩
    rw [h2]
    congr 2
    apply BitVec.eq_of_toNat_eq
    simp only [BitVec.toNat_ofNat]
    simp only [wid] at e
    omega
  | .char, _, _, as, bs, h, v, hv => by
    rw [coreTypes] at h
    obtain ⟨a, b, rfl, rfl, e⟩ := h.one
    rw [FlatMeans] at hv ⊢
    obtain ⟨_, h1, h2, -⟩ := hv
    cases h1
    rw [show a % 2 ^ 32 = b % 2 ^ 32 from e] at h2
    exact ⟨b, rfl, h2, fun h => absurd h hR⟩
  | .string, _, _, as, bs, h, v, hv | .list t, _, _, as, bs, h, v, hv => by
    rw [coreTypes] at h
    obtain ⟨a, b, a', b', rfl, rfl, e, e'⟩ := h.two
    rw [FlatMeans] at hv ⊢
    obtain ⟨_, _, h1, h2, -⟩ := hv
    cases h1
    rw [show a % 2 ^ 32 = b % 2 ^ 32 from e, show a' % 2 ^ 32 = b' % 2 ^ 32 from e'] at h2
    exact ⟨b, b', rfl, h2, fun h => absurd h hR⟩
  | .record fs, hl, hw, as, bs, h, v, hv => by
    rw [coreTypes] at h
    simp only [Laid] at hl
    rw [Wf] at hw
    rw [FlatMeans] at hv ⊢
    obtain ⟨es, h1, h2⟩ := hv
    exact ⟨es, h1, flatFields_cong fs hl hw.2 as bs h es h2⟩
  | .variant cs, hl, hw, as, bs, h, v, hv => by
    have hc := allCarried cs hl hw
    rw [coreTypes] at h
    simp only [Laid] at hl
    rw [Wf] at hw
    rw [FlatMeans] at hv ⊢
    obtain ⟨d, rest, rfl, ⟨l, t, r, ls, w, h1, h2, h3, h4⟩, -⟩ := hv
    cases bs with
    | nil => exact h.elim
    | cons b bs =>
      have e : d % 2 ^ 32 = b % 2 ^ 32 := h.1
      rw [e] at h1 h4
      exact ⟨b, bs, rfl, ⟨l, t, r, ls, w, h1, h2, h3, flatCase_cong cs hl.2.2 hw.2.2.2 _ hc rest bs h.2 _ w h4⟩,
        fun h => absurd h hR⟩
  | .flags ls, _, _, as, bs, h, v, hv => by
    rw [coreTypes] at h
    rw [FlatMeans] at hv ⊢
    refine ⟨?_, fun h => absurd h hR⟩
    rw [hv.1]
    congr 1
    apply List.map_congr_left
    intro q _
    rw [testBit_of_mod (Cong.word _ h _) (Nat.mod_lt _ (by omega))]
  | .own _, _, _, _, _, _, _, hv | .borrow _, _, _, _, _, _, _, hv | .nil, _, _, _, _, _, _, hv
  | .other, _, _, _, _, _, _, hv => by simp [FlatMeans] at hv
theorem flatFields_cong : (fs : Fields) → LaidFields fs → WfFields fs → (as bs : List Nat) → Cong (coreFields fs) as bs →
    (es : List (String × Val)) → FlatMeansFields R enc m fs as es → FlatMeansFields R enc m fs bs es
  | .nil, _, _, _, _, _, _, hv => by
    rw [FlatMeansFields] at hv ⊢
    exact hv
  | .cons l t fs, hl, hw, as, bs, h, es, hv => by
    rw [coreFields] at h
    simp only [LaidFields] at hl
    rw [WfFields] at hw
    rw [FlatMeansFields] at hv ⊢
    obtain ⟨x, es', h1, h2, h3⟩ := hv
    obtain ⟨c1, c2⟩ := h.split
    exact ⟨x, es', h1, flat_cong t hl.1 hw.1 _ _ c1 x h2, flatFields_cong fs hl.2 hw.2 _ _ c2 es' h3⟩
theorem flatCase_cong : (cs : Cases) → LaidCases cs → WfCases cs → (ws : List Kind) → AllCarried cs ws →
    (as bs : List Nat) → Cong ws as bs → (i : Nat) → (w : Val) → FlatMeansCase R enc m cs i as w →
    FlatMeansCase R enc m cs i bs w
  | .nil, _, _, _, _, _, _, _, _, _, hv => by simp [FlatMeansCase] at hv
  | .cons l t r cs, hl, hw, ws, hc, as, bs, h, 0, w, hv => by
    simp only [LaidCases] at hl
    rw [WfCases] at hw
    rw [FlatMeansCase] at hv ⊢
    refine ⟨?_, fun h => absurd h hR⟩
    rcases hv.1 with h1 | ⟨h1, h2⟩
    · exact .inl h1
    · exact .inr ⟨h1, flat_cong t (hl.1.resolve_left h1) hw.1 _ _ (h.carried (hc 0 l t r rfl h1)) w h2⟩
  | .cons l t r cs, hl, hw, ws, hc, as, bs, h, i + 1, w, hv => by
    simp only [LaidCases] at hl
    rw [WfCases] at hw
    rw [FlatMeansCase] at hv ⊢
    exact flatCase_cong cs hl.2 hw.2 ws (fun j => hc (j + 1)) as bs h i w hv
end
end

section
variable (enc : String) (m : Mem)

mutual
theorem orderly_cong : (t : Ty) → Laid t → Wf t → (as bs : List Nat) → Cong (coreTypes t) as bs →
    FlatOrderly enc m t as → FlatOrderly enc m t bs
  | .string, _, _, as, bs, h, hv | .list t, _, _, as, bs, h, hv => by
    rw [coreTypes] at h
    obtain ⟨a, b, a', b', rfl, rfl, e, e'⟩ := h.two
    rw [FlatOrderly] at hv ⊢
    intro p n h1
    cases h1
    have := hv a a' rfl
    rwa [show a % 2 ^ 32 = b % 2 ^ 32 from e, show a' % 2 ^ 32 = b' % 2 ^ 32 from e'] at this
  | .record fs, hl, hw, as, bs, h, hv => by
    rw [coreTypes] at h
    simp only [Laid] at hl
    rw [Wf] at hw
    rw [FlatOrderly] at hv ⊢
    exact orderlyFields_cong fs hl hw.2 as bs h hv
  | .variant cs, hl, hw, as, bs, h, hv => by
    have hc := allCarried cs hl hw
    rw [coreTypes] at h
    simp only [Laid] at hl
    rw [Wf] at hw
    rw [FlatOrderly] at hv ⊢
    rintro b bs' rfl
    cases as with
    | nil => exact h.elim
    | cons a as =>
      have e : a % 2 ^ 32 = b % 2 ^ 32 := h.1
      have := hv a as rfl
      rw [e] at this
      exact orderlyCase_cong cs hl.2.2 hw.2.2.2 _ hc as bs' h.2 _ this
  | .bool, _, _, _, _, _, _ | .u8, _, _, _, _, _, _ | .s8, _, _, _, _, _, _ | .u16, _, _, _, _, _, _
  | .s16, _, _, _, _, _, _ | .u32, _, _, _, _, _, _ | .s32, _, _, _, _, _, _ | .f32, _, _, _, _, _, _
  | .char, _, _, _, _, _, _ | .own _, _, _, _, _, _, _ | .borrow _, _, _, _, _, _, _ | .u64, _, _, _, _, _, _
  | .s64, _, _, _, _, _, _ | .f64, _, _, _, _, _, _ | .flags _, _, _, _, _, _, _ | .nil, _, _, _, _, _, _
  | .other, _, _, _, _, _, _ => by simp [FlatOrderly]
theorem orderlyFields_cong : (fs : Fields) → LaidFields fs → WfFields fs → (as bs : List Nat) →
    Cong (coreFields fs) as bs → FlatOrderlyFields enc m fs as → FlatOrderlyFields enc m fs bs
  | .nil, _, _, _, _, _, _ => by simp [FlatOrderlyFields]
  | .cons l t fs, hl, hw, as, bs, h, hv => by
    rw [coreFields] at h
    simp only [LaidFields] at hl
    rw [WfFields] at hw
    rw [FlatOrderlyFields] at hv ⊢
    obtain ⟨c1, c2⟩ := h.split
    exact ⟨orderly_cong t hl.1 hw.1 _ _ c1 hv.1, orderlyFields_cong fs hl.2 hw.2 _ _ c2 hv.2⟩
theorem orderlyCase_cong : (cs : Cases) → LaidCases cs → WfCases cs → (ws : List Kind) → AllCarried cs ws →
    (as bs : List Nat) → Cong ws as bs → (i : Nat) → FlatOrderlyCase enc m cs i as → FlatOrderlyCase enc m cs i bs
  | .nil, _, _, _, _, _, _, _, _, _ => by simp [FlatOrderlyCase]
  | .cons l t r cs, hl, hw, ws, hc, as, bs, h, 0, hv => by
    simp only [LaidCases] at hl
    rw [WfCases] at hw
    rw [FlatOrderlyCase] at hv ⊢
    by_cases ht : t = .nil
    · subst ht; simp [FlatOrderly]
    · exact orderly_cong t (hl.1.resolve_left ht) hw.1 _ _ (h.carried (hc 0 l t r rfl ht)) hv
  | .cons l t r cs, hl, hw, ws, hc, as, bs, h, i + 1, hv => by
    simp only [LaidCases] at hl
    rw [WfCases] at hw
    rw [FlatOrderlyCase] at hv ⊢
    exact orderlyCase_cong cs hl.2 hw.2 ws (fun j => hc (j + 1)) as bs h i hv
end
end

end Verif.Abi
