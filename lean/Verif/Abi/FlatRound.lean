import Verif.Abi.FlatLift

/-!
# `LowerFlat` then `LiftFlat`
-/

namespace Verif.Abi
open Spec

variable {σ : Type}

/-- Asking the iterator for the kinds of the values, one after the other, gives the values. -/
inductive Feeds : Iter → List FV → Iter → Prop where
  | nil (it) : Feeds it [] it
  | cons {it it1 it' : Iter} {v : FV} {vs : List FV} : it.next v.kind = (.ok v.val, it1) → Feeds it1 vs it' →
      Feeds it (v :: vs) it'

theorem Feeds.split : {a b : List FV} → {it it' : Iter} → Feeds it (a ++ b) it' → ∃ mid, Feeds it a mid ∧ Feeds mid b it'
  | [], _, it, _, h => ⟨it, .nil it, h⟩
  | _ :: _, _, _, _, .cons h1 h2 => by
    obtain ⟨mid, h3, h4⟩ := Feeds.split h2
    exact ⟨mid, .cons h1 h3, h4⟩

/-- A plain iterator feeds what its list has next. -/
theorem feeds_base : (fs before rest : List FV) →
    Feeds ⟨before ++ fs ++ rest, before.length, []⟩ fs ⟨before ++ fs ++ rest, before.length + fs.length, []⟩
  | [], before, rest => .nil _
  | v :: fs, before, rest => by
    have ih := feeds_base fs (before ++ [v]) rest
    have e : before ++ [v] ++ fs ++ rest = before ++ v :: fs ++ rest := by simp
    rw [e] at ih
    refine .cons (it1 := ⟨before ++ v :: fs ++ rest, (before ++ [v]).length, []⟩) ?_ ?_
    · unfold Iter.next nextOn baseNext
      simp only
      have h0 : (before ++ v :: fs ++ rest).length ≠ 0 := by simp
      have h1 : (before ++ v :: fs ++ rest)[before.length]? = some v := by simp
      rw [if_neg h0, h1]
      simp
    · have e2 : (before ++ [v]).length + fs.length = before.length + (v :: fs).length := by simp; omega
      rw [e2] at ih
      exact ih

/-- The iterator inside a wrapper. -/
def Iter.push (it : Iter) (fts : List Kind) : Iter := { it with stack := fts :: it.stack }

theorem next_push {it it1 : Iter} {w k : Kind} {x : Val} {fts : List Kind} (h : it.next w = (.ok x, it1)) :
    (it.push (w :: fts)).next k = (uncoerce w k x, it1.push fts) := by
  unfold Iter.next Iter.push at *
  simp only at h ⊢
  rw [nextOn]
  rcases e : nextOn it.values it.index it.stack w with ⟨r, i, st⟩
  rw [e] at h
  simp only at h ⊢
  injection h with h1 h2
  subst h1 h2
  rfl

/-- What a wrapper gives is what was coerced into its flat types. -/
theorem feeds_push : (vs : List FV) → (ws : List Kind) → Carries (vs.map FV.kind) ws → {it it' : Iter} →
    Feeds it (List.zipWith coerceTo vs ws) it' → Feeds (it.push ws) vs (it'.push (ws.drop vs.length))
  | [], ws, _, it, it', h => by
    cases h
    exact .nil _
  | _ :: _, [], hc, _, _, _ => hc.elim
  | v :: vs, w :: ws, hc, it, it', h => by
    rw [List.zipWith_cons_cons] at h
    cases h with
    | cons h1 h2 =>
      rw [coerce_kind v w hc.1] at h1
      refine .cons ?_ (feeds_push vs ws hc.2 h2)
      rw [next_push h1, coerce_back v w hc.1]

theorem skip_feeds : (ks : List Kind) → {it it' : Iter} → Feeds it (ks.map zero) it' → (s : St σ) →
    skipFlat ks ⟨s, it⟩ = (.ok (), ⟨s, it'⟩)
  | [], it, it', h, s => by cases h; rfl
  | k :: ks, it, it', h, s => by
    rw [List.map_cons] at h
    cases h with
    | @cons _ it1 _ _ _ h1 h2 =>
      rw [zero_kind] at h1
      rw [skipFlat]
      have : next k (⟨s, it⟩ : LSt σ) = (.ok (zero k).val, ⟨s, it1⟩) := by unfold next; rw [h1]
      rw [SM.bind_ok this]
      exact skip_feeds ks h2 s

theorem nextU32_feeds {x : U32} {fs : List FV} {it it' : Iter} (h : Feeds it (.u32 x :: fs) it') (s : St σ) :
    ∃ it1, nextU32 (⟨s, it⟩ : LSt σ) = (.ok x, ⟨s, it1⟩) ∧ Feeds it1 fs it' := by
  cases h with
  | @cons _ it1 _ _ _ h1 h2 =>
    refine ⟨it1, ?_, h2⟩
    have : next .u32 (⟨s, it⟩ : LSt σ) = (.ok (.u32 x), ⟨s, it1⟩) := by
      unfold next; rw [show it.next .u32 = _ from h1]; rfl
    unfold nextU32
    rw [SM.bind_ok this]; rfl

theorem nextU64_feeds {x : U64} {fs : List FV} {it it' : Iter} (h : Feeds it (.u64 x :: fs) it') (s : St σ) :
    ∃ it1, nextU64 (⟨s, it⟩ : LSt σ) = (.ok x, ⟨s, it1⟩) ∧ Feeds it1 fs it' := by
  cases h with
  | @cons _ it1 _ _ _ h1 h2 =>
    refine ⟨it1, ?_, h2⟩
    have : next .u64 (⟨s, it⟩ : LSt σ) = (.ok (.u64 x), ⟨s, it1⟩) := by
      unfold next; rw [show it.next .u64 = _ from h1]; rfl
    unfold nextU64
    rw [SM.bind_ok this]; rfl

theorem nextF32_feeds {x : U32} {fs : List FV} {it it' : Iter} (h : Feeds it (.f32 x :: fs) it') (s : St σ) :
    ∃ it1, nextF32 (⟨s, it⟩ : LSt σ) = (.ok x, ⟨s, it1⟩) ∧ Feeds it1 fs it' := by
  cases h with
  | @cons _ it1 _ _ _ h1 h2 =>
    refine ⟨it1, ?_, h2⟩
    have : next .f32 (⟨s, it⟩ : LSt σ) = (.ok (.f32 x), ⟨s, it1⟩) := by
      unfold next; rw [show it.next .f32 = _ from h1]; rfl
    unfold nextF32
    rw [SM.bind_ok this]; rfl

theorem nextF64_feeds {x : U64} {fs : List FV} {it it' : Iter} (h : Feeds it (.f64 x :: fs) it') (s : St σ) :
    ∃ it1, nextF64 (⟨s, it⟩ : LSt σ) = (.ok x, ⟨s, it1⟩) ∧ Feeds it1 fs it' := by
  cases h with
  | @cons _ it1 _ _ _ h1 h2 =>
    refine ⟨it1, ?_, h2⟩
    have : next .f64 (⟨s, it⟩ : LSt σ) = (.ok (.f64 x), ⟨s, it1⟩) := by
      unfold next; rw [show it.next .f64 = _ from h1]; rfl
    unfold nextF64
    rw [SM.bind_ok this]; rfl

/-! ## Flags -/

theorem packFlags_norm (m : List (String × Val)) (ls : List String) (hl : ls.length ≤ 64)
    (hm : ∀ l ∈ ls, ∃ b, mapGet m l = .bool b) : ∃ x, packFlagsFrom m ls 0 = .ok x ∧ x.toNat < 2 ^ ls.length ∧
      unpackFlagsOnto ls x [] = normFlags m ls [] := by
  obtain ⟨x, hx, hb⟩ := packFlags_spec m ls 0 hm
  refine ⟨x, hx, packed_lt x ls.length ?_, ?_⟩
  · intro j hj h
    obtain ⟨-, l, h1, -⟩ := (hb j hj).1 h
    exact (List.getElem?_eq_some_iff.1 h1).1
  · apply unpackFlags_norm m ls x [] hl
    intro j l hj
    have hj' := (List.getElem?_eq_some_iff.1 hj).1
    obtain ⟨b, e⟩ := hm l (List.mem_of_getElem? hj)
    have := hb j (by omega)
    rw [e]
    congr 1
    cases b with
    | true => exact (this.2 ⟨by omega, l, hj, e⟩).symm
    | false =>
      rcases hg : x.getLsbD j with _ | _
      · rfl
      · obtain ⟨-, l', h1, h2⟩ := this.1 hg
        rw [Nat.sub_zero, hj] at h1
        injection h1 with h1
        subst h1
        rw [e] at h2; cases h2

theorem words_one (x : U64) (h : x.toNat < 2 ^ 32) : (0 : U64) ||| ((x.setWidth 32).setWidth 64 <<< 0) = x := by
  apply BitVec.eq_of_toNat_eq
  simp only [BitVec.toNat_or, BitVec.toNat_shiftLeft, BitVec.toNat_setWidth]
  simp
  omega

theorem words_two (x : U64) :
    ((0 : U64) ||| ((x.setWidth 32).setWidth 64 <<< 0)) ||| (((x >>> 32).setWidth 32).setWidth 64 <<< 32) = x := by
  apply BitVec.eq_of_getLsbD_eq
  intro i hi
  simp only [BitVec.getLsbD_or, BitVec.getLsbD_shiftLeft, BitVec.getLsbD_setWidth, BitVec.getLsbD_ushiftRight]
  by_cases h : i < 32
  · simp [h, hi]
  · have : 32 + (i - 32) = i := by omega
    simp [h, hi, this, show i - 32 < 32 by omega, show i - 32 < 64 by omega]

theorem lowerFlags_lift (m : List (String × Val)) (ls : List String) (hl : ls.length ≤ 64)
    (hm : ∀ l ∈ ls, ∃ b, mapGet m l = .bool b) : ∃ fs, lowerFlags (.map m) ls = .ok fs ∧
      ∀ (E : Env σ) (it it' : Iter) (s : St σ), Feeds it fs it' →
        liftFlat E (.flags ls) ⟨s, it⟩ = (.ok (.map (normFlags m ls [])), ⟨s, it'⟩) := by
  obtain ⟨x, hx, hlt, hn⟩ := packFlags_norm m ls hl hm
  have hw : (numI32Flags ls.length).toNat = (ls.length + 31) / 32 := by
    rw [numI32Flags, toNat_ofNat_lt (by omega)]
  have hsh : x >>> (32 * ((ls.length + 31) / 32)) = 0 := by
    apply BitVec.eq_of_toNat_eq
    rw [BitVec.toNat_ushiftRight, Nat.shiftRight_eq_div_pow]
    apply Nat.div_eq_of_lt
    exact Nat.lt_of_lt_of_le hlt (Nat.pow_le_pow_right (by omega) (by omega))
  refine ⟨flagWords (numI32Flags ls.length).toNat x, ?_, ?_⟩
  · unfold lowerFlags
    simp only
    rw [hx, Res.bind_ok, hw, hsh, if_neg (by simp)]
  · intro E it it' s hf
    rw [← hn]
    unfold liftFlat
    have hlw : liftFlagWords (numI32Flags ls.length).toNat 0 0 (⟨s, it⟩ : LSt σ) = (.ok x, ⟨s, it'⟩) := by
      rw [hw] at hf ⊢
      rcases Nat.eq_zero_or_pos ls.length with h0 | h0
      · rw [h0] at hf hlt ⊢
        cases hf
        have : x = 0 := BitVec.eq_of_toNat_eq (by simpa using hlt)
        rw [this]; rfl
      · rcases Nat.lt_or_ge 32 ls.length with h1 | h1
        · have : (ls.length + 31) / 32 = 2 := by omega
          rw [this] at hf ⊢
          obtain ⟨i1, e1, f1⟩ := nextU32_feeds hf s
          obtain ⟨i2, e2, f2⟩ := nextU32_feeds f1 s
          cases f2
          rw [liftFlagWords, SM.bind_ok e1, liftFlagWords, SM.bind_ok e2, liftFlagWords, Nat.zero_add, words_two]
          rfl
        · have : (ls.length + 31) / 32 = 1 := by omega
          rw [this] at hf ⊢
          obtain ⟨i1, e1, f1⟩ := nextU32_feeds hf s
          cases f1
          rw [liftFlagWords, SM.bind_ok e1, liftFlagWords, words_one x
            (Nat.lt_of_lt_of_le hlt (Nat.pow_le_pow_right (by omega) h1))]
          rfl
    rw [SM.bind_ok hlw]; rfl

/-! ## All types -/

mutual
theorem flatten_of_laid : (t : Ty) → Laid t → ∃ ks, flatten t = .ok ks
  | .bool, _ | .u8, _ | .s8, _ | .u16, _ | .s16, _ | .u32, _ | .s32, _ | .f32, _ | .char, _ | .own _, _ | .borrow _, _
  | .u64, _ | .s64, _ | .f64, _ | .string, _ | .list _, _ | .flags _, _ => ⟨_, by rw [flatten]⟩
  | .record fs, h => by
    simp only [Laid] at h
    rw [flatten]; exact flattenFields_of_laid fs h
  | .variant cs, h => by
    simp only [Laid] at h
    obtain ⟨ks, e⟩ := flattenCases_of_laid cs h.2.2 []
    rw [flatten, e, Res.bind_ok, discriminantType_eq cs.length h.1 h.2.1]
    exact ⟨_, rfl⟩
  | .nil, h => by simp [Laid] at h
  | .other, h => by simp [Laid] at h
theorem flattenFields_of_laid : (fs : Fields) → LaidFields fs → ∃ ks, flattenFields fs = .ok ks
  | .nil, _ => ⟨_, by rw [flattenFields]⟩
  | .cons l t fs, h => by
    simp only [LaidFields] at h
    obtain ⟨k1, e1⟩ := flatten_of_laid t h.1
    obtain ⟨k2, e2⟩ := flattenFields_of_laid fs h.2
    exact ⟨k1 ++ k2, by rw [flattenFields, e1, Res.bind_ok, e2, Res.bind_ok]⟩
theorem flattenCases_of_laid : (cs : Cases) → LaidCases cs → (flat : List Kind) → ∃ ks, flattenCases cs flat = .ok ks
  | .nil, _, flat => ⟨_, by rw [flattenCases]⟩
  | .cons l t r cs, h, flat => by
    simp only [LaidCases] at h
    rw [flattenCases]
    by_cases ht : t = .nil
    · rw [if_pos ht]; exact flattenCases_of_laid cs h.2 flat
    · rw [if_neg ht]
      obtain ⟨k1, e1⟩ := flatten_of_laid t (h.1.resolve_left ht)
      rw [e1, Res.bind_ok]
      exact flattenCases_of_laid cs h.2 _
end

theorem Does.eqn {α : Type} {R : σ → Prop} {m : SM (St σ) α} {s : St σ} {Q : α → St σ → Prop} (h : Does R m s Q) :
    Does R m s (fun a s' => m s = (.ok a, s') ∧ Q a s') := by
  rcases h with ⟨a, s', e, q⟩ | r
  · exact .inl ⟨a, s', e, e, q⟩
  · exact .inr r

theorem Wrote.nothing {used : σ → Nat → Prop} {P : St σ → Prop} {s : St σ} (hg : Good s.mem) (h : ∀ s'', P s'') :
    Wrote used (fun _ => False) P s s :=
  ⟨Step.refl hg _, fun _ => False, fun _ h => h.elim, fun s'' _ _ _ => h s''⟩

section
variable {E : Env σ} {used : σ → Nat → Prop} (G : GoodAlloc E used) {R : σ → Prop}
  (hR : ∀ a n m h, (∃ p, (E.realloc a n (m, h)).1 = .ok p) ∨ R (E.realloc a n (m, h)).2.2)
include G hR

mutual
/-- `LowerFlat` succeeds unless the allocator refuses, and then `LiftFlat` returns the value from any iterator that
hands out the lowered values, and no more of them. -/
theorem lower_does (henc : E.enc ∈ Spec.encodings) : (t : Ty) → (v : Val) → HasType t v → Wf t → Laid t → Plain t →
    ListsFit t v → StringsFit E.enc t v → (s : St σ) → Good s.mem →
    Does R (lowerFlat E t v) s fun fs s' => Wrote used (fun _ => False)
      (fun s'' => ∀ it it', Feeds it fs it' → liftFlat E t ⟨s'', it⟩ = (.ok (norm t v), ⟨s'', it'⟩)) s s'
  | .bool, v, hv, _, _, _, _, _, s, hg => by
    simp only [HasType] at hv
    obtain ⟨b, rfl⟩ := hv
    unfold lowerFlat
    refine .pure (.nothing hg ?_)
    intro s'' it it' hf
    obtain ⟨it1, e, f⟩ := nextU32_feeds hf s''
    cases f
    rw [liftFlat, SM.bind_ok e]
    cases b <;> rfl
  | .u8, v, hv, _, _, _, _, _, s, hg => by
    simp only [HasType] at hv
    obtain ⟨x, rfl⟩ := hv
    unfold lowerFlat
    refine .pure (.nothing hg ?_)
    intro s'' it it' hf
    obtain ⟨it1, e, f⟩ := nextU32_feeds hf s''
    cases f
    rw [liftFlat, SM.bind_ok e, BitVec.setWidth_setWidth_of_le _ (by omega), BitVec.setWidth_eq]
    rfl
  | .u16, v, hv, _, _, _, _, _, s, hg => by
    simp only [HasType] at hv
    obtain ⟨x, rfl⟩ := hv
    unfold lowerFlat
    refine .pure (.nothing hg ?_)
    intro s'' it it' hf
    obtain ⟨it1, e, f⟩ := nextU32_feeds hf s''
    cases f
    rw [liftFlat, SM.bind_ok e, BitVec.setWidth_setWidth_of_le _ (by omega), BitVec.setWidth_eq]
    rfl
  | .u32, v, hv, _, _, _, _, _, s, hg => by
    simp only [HasType] at hv
    obtain ⟨x, rfl⟩ := hv
    unfold lowerFlat
    refine .pure (.nothing hg ?_)
    intro s'' it it' hf
    obtain ⟨it1, e, f⟩ := nextU32_feeds hf s''
    cases f
    rw [liftFlat, SM.bind_ok e]
    rfl
  | .u64, v, hv, _, _, _, _, _, s, hg => by
    simp only [HasType] at hv
    obtain ⟨x, rfl⟩ := hv
    unfold lowerFlat
    refine .pure (.nothing hg ?_)
    intro s'' it it' hf
    obtain ⟨it1, e, f⟩ := nextU64_feeds hf s''
    cases f
    rw [liftFlat, SM.bind_ok e]
    rfl
  | .s8, v, hv, _, _, _, _, _, s, hg => by
    simp only [HasType] at hv
    obtain ⟨x, rfl⟩ := hv
    unfold lowerFlat
    refine .pure (.nothing hg ?_)
    intro s'' it it' hf
    obtain ⟨it1, e, f⟩ := nextU32_feeds hf s''
    cases f
    have hx : (x.signExtend 32).setWidth 8 = x := by
      apply BitVec.eq_of_getLsbD_eq
      intro i hi
      rw [BitVec.getLsbD_setWidth, BitVec.getLsbD_signExtend]
      simp [hi, show i < 32 by omega]
    rw [liftFlat, SM.bind_ok e, hx]
    rfl
  | .s16, v, hv, _, _, _, _, _, s, hg => by
    simp only [HasType] at hv
    obtain ⟨x, rfl⟩ := hv
    unfold lowerFlat
    refine .pure (.nothing hg ?_)
    intro s'' it it' hf
    obtain ⟨it1, e, f⟩ := nextU32_feeds hf s''
    cases f
    have hx : (x.signExtend 32).setWidth 16 = x := by
      apply BitVec.eq_of_getLsbD_eq
      intro i hi
      rw [BitVec.getLsbD_setWidth, BitVec.getLsbD_signExtend]
      simp [hi, show i < 32 by omega]
    rw [liftFlat, SM.bind_ok e, hx]
    rfl
  | .s32, v, hv, _, _, _, _, _, s, hg => by
    simp only [HasType] at hv
    obtain ⟨x, rfl⟩ := hv
    unfold lowerFlat
    refine .pure (.nothing hg ?_)
    intro s'' it it' hf
    obtain ⟨it1, e, f⟩ := nextU32_feeds hf s''
    cases f
    rw [liftFlat, SM.bind_ok e]
    rfl
  | .s64, v, hv, _, _, _, _, _, s, hg => by
    simp only [HasType] at hv
    obtain ⟨x, rfl⟩ := hv
    unfold lowerFlat
    refine .pure (.nothing hg ?_)
    intro s'' it it' hf
    obtain ⟨it1, e, f⟩ := nextU64_feeds hf s''
    cases f
    rw [liftFlat, SM.bind_ok e]
    rfl
  | .f32, v, hv, _, _, _, _, _, s, hg => by
    simp only [HasType] at hv
    obtain ⟨x, rfl⟩ := hv
    unfold lowerFlat
    refine .pure (.nothing hg ?_)
    intro s'' it it' hf
    obtain ⟨it1, e, f⟩ := nextF32_feeds hf s''
    cases f
    rw [liftFlat, SM.bind_ok e, canon32_idem]
    rfl
  | .f64, v, hv, _, _, _, _, _, s, hg => by
    simp only [HasType] at hv
    obtain ⟨x, rfl⟩ := hv
    unfold lowerFlat
    refine .pure (.nothing hg ?_)
    intro s'' it it' hf
    obtain ⟨it1, e, f⟩ := nextF64_feeds hf s''
    cases f
    rw [liftFlat, SM.bind_ok e, canon64_idem]
    rfl
  | .char, v, hv, _, _, _, _, _, s, hg => by
    simp only [HasType] at hv
    obtain ⟨c, rfl⟩ := hv
    obtain ⟨-, hc⟩ := char_u32 c
    unfold lowerFlat
    refine .pure (.nothing hg ?_)
    intro s'' it it' hf
    obtain ⟨it1, e, f⟩ := nextU32_feeds hf s''
    cases f
    rw [liftFlat, SM.bind_ok e, hc, SM.bind_ok (SM.lift_def _ _)]
    rfl
  | .string, v, hv, _, _, _, _, hsf, s, hg => by
    simp only [HasType] at hv
    obtain ⟨str, rfl⟩ := hv
    rw [StringsFit] at hsf
    obtain ⟨hs1, hs2⟩ := hsf str rfl
    unfold lowerFlat
    apply Does.bind (storeStringIntoRange_does G hR str henc hs1 hs2 s hg)
    rintro ⟨p, n⟩ s1 ⟨w, -, -⟩
    apply Does.pure
    refine w.imp (fun _ h => h) ?_
    intro s'' _ _ hs it it' hf
    obtain ⟨it1, e1, f1⟩ := nextU32_feeds hf s''
    obtain ⟨it2, e2, f2⟩ := nextU32_feeds f1 s''
    cases f2
    have : onSt (loadStringFromRange E p n) (⟨s'', it'⟩ : LSt σ) = (.ok str, ⟨s'', it'⟩) := by
      unfold onSt
      simp only at hs ⊢
      rw [hs]
    rw [liftFlat, SM.bind_ok e1, SM.bind_ok e2, SM.bind_ok this]
    rfl
  | .list t, v, hv, hw, _, hp, hlf, hsf, s, hg => by
    rw [HasType] at hv
    obtain ⟨vs, rfl, hv⟩ := hv
    rw [StringsFit] at hsf
    have hsf := hsf vs rfl
    rw [ListsFit] at hlf
    obtain ⟨hf1, hf2, hf3⟩ := hlf vs rfl
    rw [Wf] at hw
    unfold lowerFlat
    apply Does.bind (storeListIntoRange_does G hR t hw.1 vs hf1 hf2 s hg (fun v hm p' s' g' a' l' u' =>
      store_does G hR henc t v (hv v hm) hw.2 hw.1 (.inl (by simpa [Plain] using hp)) (hf3 v hm)
        (hsf v hm) p' s' g' a' l' u'))
    rintro ⟨p, n⟩ s1 w
    apply Does.pure
    refine w.imp (fun _ h => h) ?_
    intro s'' _ _ hs it it' hf
    obtain ⟨it1, e1, f1⟩ := nextU32_feeds hf s''
    obtain ⟨it2, e2, f2⟩ := nextU32_feeds f1 s''
    cases f2
    have : onSt (loadListFromRange (load E t) t p n) (⟨s'', it'⟩ : LSt σ) = (.ok (vs.map (norm t)), ⟨s'', it'⟩) := by
      unfold onSt
      simp only at hs ⊢
      rw [hs]
    rw [liftFlat, SM.bind_ok e1, SM.bind_ok e2, SM.bind_ok this, norm]
    rfl
  | .record fs, v, hv, hw, hl, hp, hlf, hsf, s, hg => by
    rw [HasType] at hv
    obtain ⟨m, rfl, hv⟩ := hv
    rw [StringsFit] at hsf
    have hsf := hsf m rfl
    rw [ListsFit] at hlf
    have hlf := hlf m rfl
    rw [Wf] at hw
    simp only [Laid] at hl
    simp only [Plain] at hp
    unfold lowerFlat
    apply (lowerFields_does henc fs m hv hw.2 hl hp hlf hsf s hg).imp
    intro as s' w
    refine w.imp (fun _ h => h) ?_
    intro s'' _ _ h it it' hf
    rw [liftFlat, norm]
    exact h [] it it' hf
  | .variant cs, v, hv, hw, hl, hp, hlf, hsf, s, hg => by
    obtain ⟨fts, hfl⟩ := flatten_of_laid _ hl
    obtain ⟨ws, rfl, hws⟩ := flatten_variant hfl
    rw [HasType] at hv
    obtain ⟨key, p, i, rfl, hsel, hv⟩ := hv
    rw [StringsFit] at hsf
    have hsf := hsf key p i rfl hsel
    rw [ListsFit] at hlf
    have hlf := hlf key p i rfl hsel
    rw [Wf] at hw
    obtain ⟨hw1, hw2, hw3, hw4⟩ := hw
    simp only [Laid] at hl
    simp only [Plain] at hp
    have hil := hsel.lt
    have hi32 := toNat_ofNat_lt (n := i) (by omega)
    have hmc : matchCase (.map [(key, p)]) cs = .ok (BitVec.ofNat 32 i, p) :=
      (matchCase_ok _ cs (by omega) _ _).2 ⟨key, rfl, by rw [hi32]; exact hsel⟩
    unfold lowerFlat
    refine .liftBind hmc ?_
    refine .liftBind hfl ?_
    simp only [ne_eq, not_true_eq_false, if_false]
    rw [hi32]
    apply Does.bind (lowerCase_does henc cs cs i p hv hw4 hl.2.2 hp hlf hsf s hg (fun k l t r hk => hw3 k l t r hk)).eqn
    intro payload s1 ⟨he, w⟩
    have hc : Carries (payload.map FV.kind) ws := by
      rcases lowerCase_kinds E cs _ _ _ _ _ he with rfl | ⟨l, t, q, ks, e1, e2, e3, e4⟩
      · trivial
      · obtain ⟨-, hall⟩ := flattenCases_carries cs [] ws hws
        obtain ⟨ks', e5, e6⟩ := hall _ _ _ _ e1 e2
        rw [e3] at e5
        injection e5 with e5
        subst e5
        rw [e4]; exact e6
    obtain ⟨p', rest, g1, g2, g3, g4⟩ := coercePayload_ok payload ws hc
    have hrest : rest = ws.drop payload.length := by
      rw [g2, ← g3, List.drop_append_of_le_length (by simp)]
      simp
    refine .liftBind g1 ?_
    apply Does.pure
    refine w.imp (fun _ h => h) ?_
    intro s'' _ _ h it it' hf
    obtain ⟨it1, e1, f1⟩ := nextU32_feeds hf s''
    simp only at f1
    rw [liftFlat, hfl, SM.bind_ok (SM.lift_def _ _)]
    simp only [ne_eq, not_true_eq_false, if_false]
    rw [SM.bind_ok e1, SM.ite_app, if_neg (by rw [hi32]; omega), hi32, norm, (firstLabel_iff cs key i).2 hsel]
    apply h it1 it' ws hc
    rw [← g4, ← hrest]
    exact f1
  | .flags ls, v, hv, hw, _, _, _, _, s, hg => by
    rw [HasType] at hv
    obtain ⟨m, rfl, hv⟩ := hv
    rw [Wf] at hw
    obtain ⟨fs, e, h⟩ := lowerFlags_lift (σ := σ) m ls hw.2 hv
    unfold lowerFlat
    rw [e]
    refine .pure (.nothing hg ?_)
    intro s'' it it' hf
    rw [norm]
    exact h E it it' s'' hf
  | .own rt, _, _, _, _, hp, _, _, _, _ => by simp [Plain] at hp
  | .borrow rt, _, _, _, _, hp, _, _, _, _ => by simp [Plain] at hp
  | .nil, _, hv, _, _, _, _, _, _, _ => by simp [HasType] at hv
  | .other, _, hv, _, _, _, _, _, _, _ => by simp [HasType] at hv
theorem lowerFields_does (henc : E.enc ∈ Spec.encodings) : (fs : Fields) → (m : List (String × Val)) → HasFields fs m →
    WfFields fs → LaidFields fs → PlainFields fs → ListsFitFields fs m → StringsFitFields E.enc fs m → (s : St σ) →
    Good s.mem → Does R (lowerFields E fs m) s fun xs s' => Wrote used (fun _ => False)
      (fun s'' => ∀ acc it it', Feeds it xs it' →
        liftFields E fs acc ⟨s'', it⟩ = (.ok (.map (normFields fs m acc)), ⟨s'', it'⟩)) s s'
  | .nil, m, _, _, _, _, _, _, s, hg => by
    unfold lowerFields
    refine .pure (.nothing hg ?_)
    intro s'' acc it it' hf
    cases hf
    rw [liftFields, normFields]; rfl
  | .cons l t fs, m, hv, hw, hl, hp, hlf, hsf, s, hg => by
    rw [HasFields] at hv
    rw [ListsFitFields] at hlf
    rw [StringsFitFields] at hsf
    rw [WfFields] at hw
    simp only [LaidFields] at hl
    simp only [PlainFields] at hp
    unfold lowerFields
    apply Does.bind (lower_does henc t _ hv.1 hw.1 hl.1 hp.1 hlf.1 hsf.1 s hg)
    intro a s1 w1
    apply Does.bind (lowerFields_does henc fs m hv.2 hw.2 hl.2 hp.2 hlf.2 hsf.2 s1 w1.step.good)
    intro b s2 w2
    apply Does.pure
    refine (w1.seq w2 (fun _ h => h.elim) (fun _ h => h.elim) (fun _ h => h.elim)).imp (fun _ h => h.elim id id) ?_
    intro s'' _ _ ⟨p1, p2⟩ acc it it' hf
    obtain ⟨mid, f1, f2⟩ := hf.split
    rw [liftFields, normFields, SM.bind_ok (p1 it mid f1)]
    exact p2 _ mid it' f2
theorem lowerCase_does (henc : E.enc ∈ Spec.encodings) (all : Cases) : (cs : Cases) → (i : Nat) → (p : Val) →
    HasPayload cs i p → WfCases cs → LaidCases cs → PlainCases cs → ListsFitPayload cs i p →
    StringsFitPayload E.enc cs i p → (s : St σ) → Good s.mem →
    (∀ k l t r, cs.get? k = some (l, t, r) → ∃ ls, Chain all l r ls) →
    Does R (lowerCase E cs i p) s fun xs s' => Wrote used (fun _ => False)
      (fun s'' => ∀ it it' ws, Carries (xs.map FV.kind) ws →
        Feeds it (List.zipWith coerceTo xs ws ++ (ws.drop xs.length).map zero) it' →
        liftCase E all cs i ws ⟨s'', it⟩ = (.ok (normCase all cs i p), ⟨s'', it'⟩)) s s'
  | .nil, _, _, hv, _, _, _, _, _, _, _, _ => by simp [HasPayload] at hv
  | .cons l t r cs, 0, p, hv, hw, hl, hp, hlf, hsf, s, hg, hch => by
    rw [HasPayload] at hv
    rw [ListsFitPayload] at hlf
    rw [StringsFitPayload] at hsf
    rw [WfCases] at hw
    simp only [LaidCases] at hl
    simp only [PlainCases] at hp
    obtain ⟨ls, hls⟩ := hch 0 l t r rfl
    have hlab := caseLabel_chain hls
    unfold lowerCase
    by_cases ht : t = .nil
    · rw [if_pos ht]
      refine .pure (.nothing hg ?_)
      intro s'' it it' ws _ hf
      simp only [List.zipWith_nil_left, List.nil_append, List.length_nil, List.drop_zero] at hf
      rw [liftCase, normCase, if_pos ht, SM.bind_ok (skip_feeds ws hf s''), hlab, SM.bind_ok (SM.lift_def _ _)]
      simp only
      rw [if_pos ht]; rfl
    · rw [if_neg ht]
      apply (lower_does henc t p (hv.resolve_left ht) hw.1 (hl.1.resolve_left ht) hp.1 hlf hsf s hg).imp
      intro xs s' w
      refine w.imp (fun _ h => h) ?_
      intro s'' _ _ h it it' ws hc hf
      obtain ⟨mid, f1, f2⟩ := hf.split
      have e1 : pushFlat ws (⟨s'', it⟩ : LSt σ) = (.ok (), ⟨s'', it.push ws⟩) := rfl
      have e2 := h _ _ (feeds_push xs ws hc f1)
      have e3 : popFlat (⟨s'', mid.push (ws.drop xs.length)⟩ : LSt σ) = (.ok (ws.drop xs.length), ⟨s'', mid⟩) := rfl
      rw [liftCase, normCase, if_neg ht, SM.bind_ok e1, SM.bind_ok e2, SM.bind_ok e3, SM.bind_ok (skip_feeds _ f2 s''),
        hlab, SM.bind_ok (SM.lift_def _ _)]
      simp only
      rw [if_neg ht]; rfl
  | .cons l t r cs, i + 1, p, hv, hw, hl, hp, hlf, hsf, s, hg, hch => by
    rw [HasPayload] at hv
    rw [ListsFitPayload] at hlf
    rw [StringsFitPayload] at hsf
    rw [WfCases] at hw
    simp only [LaidCases] at hl
    simp only [PlainCases] at hp
    unfold lowerCase
    apply (lowerCase_does henc all cs i p hv hw.2 hl.2 hp.2 hlf hsf s hg
      (fun k l' t' r' hk => hch (k + 1) l' t' r' hk)).imp
    intro xs s' w
    refine w.imp (fun _ h => h) ?_
    intro s'' _ _ h it it' ws hc hf
    rw [liftCase, normCase]
    exact h it it' ws hc hf
end

end

end Verif.Abi
