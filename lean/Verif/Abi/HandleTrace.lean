import Verif.Abi.HandleLemmas
import Verif.Abi.HandleWordsSpec
import Verif.Abi.LoadProps

/-!
# Loading, lifting and lowering a value is loading, lifting and lowering its handles in order
-/

namespace Verif.Abi
open Spec

variable {σ : Type} {E : Env σ}

theorem tame_same {α : Type} {m : SM (St σ) α} (h : Tame False True m) {s s' : St σ} {r : Res α} (e : m s = (r, s')) :
    s' = s := by
  obtain ⟨⟨w, h1, h2⟩, -⟩ := h s
  rw [e, h2 trivial] at h1
  exact h1

theorem tame_plain {t : Ty} (hp : Plain t) (ptr : U32) {s s' : St σ} {r : Res Val} (e : load E t ptr s = (r, s')) :
    s' = s := by
  obtain ⟨⟨w, h1, h2⟩, -⟩ := load_tame E t ptr s
  rw [e, h2 hp] at h1
  exact h1

theorem carried_plain_scalar {t : Ty} (h : ∀ v, Carried t v []) {w w' : Handles.World} (e : w' = w) (v : Val) {m : Mem}
    {p : U32} (h' : WordsAt m t v p []) :
    ∃ hs is, Carried t v hs ∧ Lifts E w hs is w' ∧ (Laid t → WordsAt m t v p is) := by
  subst e
  exact ⟨[], [], h v, .nil _, fun _ => h'⟩

theorem word_eq {ptr : U32} {s s1 : St σ} {x : U32} (h : loadUInt32 ptr s = (.ok x, s1)) :
    s1 = s ∧ x = BitVec.ofNat 32 (natAt s.mem ptr.toNat 4) := by
  obtain ⟨h1, h2, -⟩ := loadUInt32_inv ptr s s1 x h
  exact ⟨h1, by rw [← h2, BitVec.ofNat_toNat, BitVec.setWidth_eq]⟩

theorem load_mem {t : Ty} {ptr : U32} {s s' : St σ} {r : Res Val} (e : load E t ptr s = (r, s')) : s'.mem = s.mem := by
  obtain ⟨⟨w, h1, -⟩, -⟩ := load_tame E t ptr s
  rw [e] at h1
  simp only at h1
  rw [h1]

theorem alignTo_spec (p : U32) {a : Nat} (ha : IsAl a) : alignTo p (BitVec.ofNat 32 a) = BitVec.ofNat 32 (alignUp p.toNat a) := by
  apply BitVec.eq_of_toNat_eq
  have ha' := ofNat_toNat_isAl ha
  rw [alignTo_toNat _ _ (by rw [ha']; exact ha.pos), ha', BitVec.toNat_ofNat]

theorem step_liftOwn {w w1 : Handles.World} {rt : RT} {i r : U32}
    (h : Handles.liftOwn E.inst rt i w = (.ok r, w1)) :
    Handles.step E.info w (liftOp E ⟨true, rt, r⟩ i) = (.ok r, w1) := h

theorem step_liftBorrow {w w1 : Handles.World} {rt : RT} {i r : U32}
    (h : Handles.liftBorrow E.inst E.cx rt i w = (.ok r, w1)) :
    Handles.step E.info w (liftOp E ⟨false, rt, r⟩ i) = (.ok r, w1) := h

theorem onWorld_ok {α : Type} {f : SM Handles.World α} {s s' : St σ} {a : α} (h : onWorld f s = (.ok a, s')) :
    f s.world = (.ok a, s'.world) := by
  unfold onWorld at h
  injection h with h1 h2
  subst h2
  exact Prod.ext h1 rfl

theorem onSt_ok {α : Type} {m : SM (St σ) α} {s s' : LSt σ} {a : α} (h : onSt m s = (.ok a, s')) :
    m s.st = (.ok a, s'.st) := by
  unfold onSt at h
  injection h with h1 h2
  subst h2
  exact Prod.ext h1 rfl

theorem loadElems_lifts {f : U32 → SM (St σ) Val} {t : Ty} {m : Mem} {W : Val → U32 → List U32 → Prop}
    (hf : ∀ p s v s', s.mem = m → f p s = (.ok v, s') → s'.mem = m ∧
      ∃ hs is, Carried t v hs ∧ Lifts E s.world hs is s'.world ∧ W v p is) (ptr sz : U32) : (n i : Nat) → (s : St σ) →
    s.mem = m → (vs : List Val) → (s' : St σ) → loadElems f ptr sz n i s = (.ok vs, s') →
    ∃ hss, ∃ iss : List (List U32), List.Forall₂ (fun x h => Carried t x h) vs hss ∧
      Lifts E s.world hss.flatten iss.flatten s'.world ∧ iss.length = vs.length ∧
      ∀ (j : Nat) x w, vs[j]? = some x → iss[j]? = some w → W x (ptr + BitVec.ofNat 32 (i + j) * sz) w
  | 0, _, s, _, vs, s', h => by
    cases h
    exact ⟨[], [], .nil, .nil _, rfl, by simp⟩
  | n + 1, i, s, hm, vs, s', h => by
    rw [loadElems] at h
    obtain ⟨v, s1, h1, g1⟩ := SM.bind_eq_ok.1 h
    obtain ⟨vs', s2, h2, g2⟩ := SM.bind_eq_ok.1 g1
    cases g2
    obtain ⟨hm1, hs, is, c1, l1, w1⟩ := hf _ _ _ _ hm h1
    obtain ⟨hss, iss, c2, l2, n2, w2⟩ := loadElems_lifts hf ptr sz n (i + 1) _ hm1 _ _ h2
    refine ⟨hs :: hss, is :: iss, .cons c1 c2, l1.append l2, by simp [n2], ?_⟩
    intro j x w hx hw
    cases j with
    | zero =>
      simp only [List.getElem?_cons_zero, Option.some.injEq] at hx hw
      subst hx hw
      exact w1
    | succ j =>
      simp only [List.getElem?_cons_succ] at hx hw
      have := w2 j x w hx hw
      rwa [show i + 1 + j = i + (j + 1) by omega] at this

theorem loadListFromRange_lifts {f : U32 → SM (St σ) Val} {t : Ty} {m : Mem} {W : Val → U32 → List U32 → Prop}
    (hf : ∀ p s v s', s.mem = m → f p s = (.ok v, s') → s'.mem = m ∧
      ∃ hs is, Carried t v hs ∧ Lifts E s.world hs is s'.world ∧ W v p is) {ptr n : U32} {s s' : St σ} {vs : List Val}
    (hm : s.mem = m) (h : loadListFromRange f t ptr n s = (.ok vs, s')) : ∃ hs, ∃ iss : List (List U32),
      Carried (.list t) (.list vs) hs ∧ Lifts E s.world hs iss.flatten s'.world ∧ iss.length = vs.length ∧
      ∀ z, Abi.size t = .ok z → ∀ (j : Nat) x w, vs[j]? = some x → iss[j]? = some w → W x (ptr + BitVec.ofNat 32 j * z) w := by
  unfold loadListFromRange at h
  obtain ⟨a, s1, h1, g1⟩ := SM.bind_eq_ok.1 h
  have e1 : s1 = s := (Prod.mk.inj h1).2.symm
  rw [SM.ite_app] at g1
  split at g1
  · cases g1
  · obtain ⟨z, s2, h2, g2⟩ := SM.bind_eq_ok.1 g1
    have e2 : s2 = s1 := (Prod.mk.inj h2).2.symm
    have ez : Abi.size t = .ok z := (Prod.mk.inj h2).1
    obtain ⟨st, s3, h3, g3⟩ := SM.bind_eq_ok.1 g2
    have e3 : s3 = s2 := (Prod.mk.inj h3).2.symm
    rw [SM.ite_app] at g3
    split at g3
    · cases g3
    · rw [e3, e2, e1] at g3
      obtain ⟨hss, iss, c, l, n, w⟩ := loadElems_lifts hf _ _ _ _ _ hm _ _ g3
      refine ⟨_, iss, ?_, l, n, ?_⟩
      · rw [Carried]
        exact ⟨vs, hss, rfl, c, rfl⟩
      · intro z' hz j x y hx hy
        rw [ez] at hz
        cases hz
        have := w j x y hx hy
        rwa [Nat.zero_add] at this

theorem caseLabel_ok {cs : Cases} {l : String} {r : Option String} {ls : List String} (h : Chain cs l r ls) {a : String}
    (e : caseLabelWithRefinements cs l r = .ok a) : a = bars ls := by
  rw [caseLabel_chain h] at e
  injection e with e
  exact e.symm

theorem elem_lifts {t : Ty} {m : Mem} (hl : Laid t) (h : ∀ p (s : St σ) v s', load E t p s = (.ok v, s') →
      ∃ hs is, Carried t v hs ∧ Lifts E s.world hs is s'.world ∧ (Laid t → WordsAt s.mem t v p is)) (p : U32) (s : St σ)
    (v : Val) (s' : St σ) (hm : s.mem = m) (e : load E t p s = (.ok v, s')) : s'.mem = m ∧
      ∃ hs is, Carried t v hs ∧ Lifts E s.world hs is s'.world ∧ WordsAt m t v p is := by
  obtain ⟨hs, is, c, l, w⟩ := h p s v s' e
  exact ⟨(load_mem e).trans hm, hs, is, c, l, hm ▸ w hl⟩

mutual
/-- Loading a value lifts the handles it has, in order, and does nothing else to the tables. -/
theorem load_lifts : (t : Ty) → Wf t → (ptr : U32) → (s : St σ) → (v : Val) → (s' : St σ) →
    load E t ptr s = (.ok v, s') → ∃ hs is, Carried t v hs ∧ Lifts E s.world hs is s'.world ∧
      (Laid t → WordsAt s.mem t v ptr is)
  | .bool, _, ptr, s, v, s', h | .u8, _, ptr, s, v, s', h | .u16, _, ptr, s, v, s', h | .u32, _, ptr, s, v, s', h
  | .u64, _, ptr, s, v, s', h | .s8, _, ptr, s, v, s', h | .s16, _, ptr, s, v, s', h | .s32, _, ptr, s, v, s', h
  | .s64, _, ptr, s, v, s', h | .f32, _, ptr, s, v, s', h | .f64, _, ptr, s, v, s', h | .char, _, ptr, s, v, s', h
  | .string, _, ptr, s, v, s', h | .flags _, _, ptr, s, v, s', h | .nil, _, ptr, s, v, s', h
  | .other, _, ptr, s, v, s', h =>
    carried_plain_scalar (by simp [Carried]) (congrArg St.world (tame_plain (by simp [Plain]) ptr h)) v
      (by simp [WordsAt])
  | .own rt, _, ptr, s, v, s', h => by
    rw [load] at h
    obtain ⟨i, s1, h1, g1⟩ := SM.bind_eq_ok.1 h
    obtain ⟨r, s2, h2, g2⟩ := SM.bind_eq_ok.1 g1
    obtain ⟨rfl, e1⟩ := word_eq h1
    cases g2
    exact ⟨[⟨true, rt, r⟩], [i], by simp [Carried], .cons (step_liftOwn (onWorld_ok h2)) (.nil _),
      fun _ => by rw [WordsAt, e1]⟩
  | .borrow rt, _, ptr, s, v, s', h => by
    rw [load] at h
    obtain ⟨i, s1, h1, g1⟩ := SM.bind_eq_ok.1 h
    obtain ⟨r, s2, h2, g2⟩ := SM.bind_eq_ok.1 g1
    obtain ⟨rfl, e1⟩ := word_eq h1
    cases g2
    exact ⟨[⟨false, rt, r⟩], [i], by simp [Carried], .cons (step_liftBorrow (onWorld_ok h2)) (.nil _),
      fun _ => by rw [WordsAt, e1]⟩
  | .list t, hw, ptr, s, v, s', h => by
    rw [Wf] at hw
    rw [load] at h
    obtain ⟨vs, s1, h1, g1⟩ := SM.bind_eq_ok.1 h
    cases g1
    unfold loadList at h1
    obtain ⟨b, s2, h2, g2⟩ := SM.bind_eq_ok.1 h1
    obtain ⟨n, s3, h3, g3⟩ := SM.bind_eq_ok.1 g2
    obtain ⟨rfl, eb⟩ := word_eq h2
    obtain rfl := tame_same (loadUInt32_tame _) h3
    obtain ⟨hs, iss, c, l, n, w⟩ := loadListFromRange_lifts (elem_lifts hw.1 (fun p s v s' => load_lifts t hw.2 p s v s')) rfl g3
    refine ⟨hs, _, c, l, fun _ => ?_⟩
    rw [WordsAt]
    exact ⟨vs, iss, rfl, n, rfl, by rw [← eb]; exact w⟩
  | .record fs, hw, ptr, s, v, s', h => by
    rw [Wf] at hw
    rw [load] at h
    obtain ⟨m, hs, is, rfl, -, c, l, w⟩ := loadFields_lifts fs hw.1 hw.2 ptr [] s v s' h
    exact ⟨hs, is, by rw [Carried]; exact ⟨m, rfl, c⟩, l, fun _ => by rw [WordsAt]; exact ⟨m, rfl, w⟩⟩
  | .variant cs, hw, ptr, s, v, s', h => by
    rw [Wf] at hw
    obtain ⟨hw1, hw2, hw3, hw4⟩ := hw
    rw [load] at h
    obtain ⟨d, s1, h1, g1⟩ := SM.bind_eq_ok.1 h
    obtain ⟨i, s2, h2, g2⟩ := SM.bind_eq_ok.1 g1
    obtain ⟨z, s3, h3, g3⟩ := SM.bind_eq_ok.1 g2
    rw [SM.ite_app] at g3
    split at g3
    · cases g3
    · obtain ⟨a, s4, h4, g4⟩ := SM.bind_eq_ok.1 g3
      have e1 : s1 = s := (Prod.mk.inj h1).2.symm
      obtain rfl := tame_same (loadDisc_tame ptr d) h2
      have e3 : s3 = s2 := (Prod.mk.inj h3).2.symm
      have e4 : s4 = s3 := (Prod.mk.inj h4).2.symm
      have q1 : discriminantType cs.length = .ok d := (Prod.mk.inj h1).1
      have q3 : Abi.size d.ty = .ok z := (Prod.mk.inj h3).1
      have q4 : maxCaseAlignment cs 1 = .ok a := (Prod.mk.inj h4).1
      rw [e4, e3, e1] at g4
      obtain ⟨l, t, r, ls, p, hs, is, hg, hc, rfl, c, hl, w⟩ := loadCase_lifts cs cs i.toNat hw4
        (fun l t r hg => hw3 _ l t r hg) _ s v s' g4
      refine ⟨hs, is, ?_, hl, fun hL => ?_⟩
      · rw [Carried]
        exact ⟨_, p, _, rfl, chain_selects hw1 hw2 hg hc, c⟩
      · rw [WordsAt]
        refine ⟨_, p, _, rfl, chain_selects hw1 hw2 hg hc, ?_⟩
        rw [Laid] at hL
        rw [maxCaseAlignment_eq cs hL.2.2 1 (.inl rfl)] at q4
        injection q4 with q4
        have ez : z = BitVec.ofNat 32 (discBytes cs.length) := by
          have hb := disc_bytes _ _ q1
          have e : Abi.size d.ty = .ok d.bytes := by cases d <;> rfl
          rw [q3] at e
          injection e with e
          rw [e, ← hb, BitVec.ofNat_toNat, BitVec.setWidth_eq]
        have w := w hL.2.2
        have hm : max (1 : U32).toNat (alignCases cs) = alignCases cs := Nat.max_eq_right (alignCases_isAl cs).pos
        rw [← q4, ez, hm, alignTo_spec _ (alignCases_isAl cs)] at w
        exact w
theorem loadFields_lifts : (fs : Fields) → fs.labels.Nodup → WfFields fs → (ptr : U32) → (acc : List (String × Val)) →
    (s : St σ) → (v : Val) → (s' : St σ) → loadFields E fs ptr acc s = (.ok v, s') → ∃ m hs is, v = .map m ∧
      (∀ k, k ∉ fs.labels → mapGet m k = mapGet acc k) ∧ CarriedFields fs m hs ∧ Lifts E s.world hs is s'.world ∧
      WordsAtFields s.mem fs m ptr is
  | .nil, _, _, ptr, acc, s, v, s', h => by
    rw [loadFields] at h
    cases h
    exact ⟨acc, [], [], rfl, fun _ _ => rfl, by simp [CarriedFields], .nil _, by simp [WordsAtFields]⟩
  | .cons l t fs, hn, hw, ptr, acc, s, v, s', h => by
    rw [Fields.labels, List.nodup_cons] at hn
    rw [WfFields] at hw
    rw [loadFields] at h
    obtain ⟨a, s1, h1, g1⟩ := SM.bind_eq_ok.1 h
    obtain ⟨x, s2, h2, g2⟩ := SM.bind_eq_ok.1 g1
    obtain ⟨z, s3, h3, g3⟩ := SM.bind_eq_ok.1 g2
    have e1 : s1 = s := (Prod.mk.inj h1).2.symm
    have e3 : s3 = s2 := (Prod.mk.inj h3).2.symm
    rw [e1] at h2
    rw [e3] at g3
    obtain ⟨hs, is, c1, l1, w1⟩ := load_lifts t hw.1 _ _ _ _ h2
    obtain ⟨m, ks, js, rfl, hm, c2, l2, w2⟩ := loadFields_lifts fs hn.2 hw.2 _ _ _ _ _ g3
    refine ⟨m, hs ++ ks, is ++ js, rfl, ?_, ?_, l1.append l2, ?_⟩
    · intro k hk
      rw [Fields.labels, List.mem_cons, not_or] at hk
      rw [hm k hk.2, mapGet_mapSet_ne _ _ _ _ hk.1]
    · rw [CarriedFields]
      refine ⟨hs, ks, ?_, c2, rfl⟩
      rw [hm l hn.1, mapGet_mapSet]; exact c1
    · have ha : alignment t = .ok a := (Prod.mk.inj h1).1
      have hz : Abi.size t = .ok z := (Prod.mk.inj h3).1
      have hL := laid_of_size t z hz
      rw [alignment_eq t hL] at ha
      injection ha with ha
      have hp := alignTo_spec ptr (align_isAl t)
      rw [ha] at hp
      rw [WordsAtFields, ← hp]
      refine ⟨is, js, ?_, ?_, rfl⟩
      · rw [hm l hn.1, mapGet_mapSet]; exact w1 hL
      · intro z' hz'
        rw [hz] at hz'
        cases hz'
        rw [← load_mem h2]; exact w2
theorem loadCase_lifts (all : Cases) : (cs : Cases) → (i : Nat) → WfCases cs →
    (∀ l t r, cs.get? i = some (l, t, r) → ∃ ls, Chain all l r ls) → (ptr : U32) → (s : St σ) → (v : Val) → (s' : St σ) →
    loadCase E all cs i ptr s = (.ok v, s') → ∃ l t r ls p hs is, cs.get? i = some (l, t, r) ∧ Chain all l r ls ∧
      v = .map [(bars ls, p)] ∧ CarriedPayload cs i p hs ∧ Lifts E s.world hs is s'.world ∧
      (LaidCases cs → WordsAtPayload s.mem cs i p ptr is)
  | .nil, _, _, _, ptr, s, v, s', h => by rw [loadCase] at h; cases h
  | .cons l t r cs, 0, hw, hc, ptr, s, v, s', h => by
    rw [WfCases] at hw
    obtain ⟨ls, hch⟩ := hc l t r rfl
    rw [loadCase] at h
    obtain ⟨lb, s1, h1, g1⟩ := SM.bind_eq_ok.1 h
    have e1 : s1 = s := (Prod.mk.inj h1).2.symm
    obtain rfl := caseLabel_ok hch (Prod.mk.inj h1).1
    rw [e1, SM.ite_app] at g1
    by_cases ht : t = .nil
    · rw [if_pos ht] at g1
      cases g1
      exact ⟨l, t, r, ls, _, [], [], rfl, hch, rfl, by rw [CarriedPayload]; exact .inl ⟨ht, rfl⟩, .nil _,
        fun _ => by rw [WordsAtPayload]; exact .inl ⟨ht, rfl⟩⟩
    · rw [if_neg ht] at g1
      obtain ⟨x, s2, h2, g2⟩ := SM.bind_eq_ok.1 g1
      cases g2
      obtain ⟨hs, is, c, hl, w⟩ := load_lifts t hw.1 _ _ _ _ h2
      exact ⟨l, t, r, ls, x, hs, is, rfl, hch, rfl, by rw [CarriedPayload]; exact .inr ⟨ht, c⟩, hl,
        fun hL => by rw [LaidCases] at hL; rw [WordsAtPayload]; exact .inr ⟨ht, w (hL.1.resolve_left ht)⟩⟩
  | .cons l t r cs, i + 1, hw, hc, ptr, s, v, s', h => by
    rw [WfCases] at hw
    rw [loadCase] at h
    obtain ⟨l', t', r', ls, p, hs, is, hg, h2, h3, h4, h5, h6⟩ :=
      loadCase_lifts all cs i hw.2 (fun l t r hg => hc l t r hg) ptr s v s' h
    exact ⟨l', t', r', ls, p, hs, is, hg, h2, h3, by rw [CarriedPayload]; exact h4, h5,
      fun hL => by rw [LaidCases] at hL; rw [WordsAtPayload]; exact h6 hL.2⟩
end

/-! ## Lifting -/

theorem next_st (k : Kind) : Pres LSt.st (next k : SM (LSt σ) Val) := ⟨fun _ => rfl⟩
theorem nextU32_st : Pres LSt.st (nextU32 : SM (LSt σ) U32) :=
  .bind (next_st _) fun _ => by
    split
    · exact .pure _
    · exact .fail
theorem nextU64_st : Pres LSt.st (nextU64 : SM (LSt σ) U64) :=
  .bind (next_st _) fun _ => by
    split
    · exact .pure _
    · exact .fail
theorem nextF32_st : Pres LSt.st (nextF32 : SM (LSt σ) U32) :=
  .bind (next_st _) fun _ => by
    split
    · exact .pure _
    · exact .fail
theorem nextF64_st : Pres LSt.st (nextF64 : SM (LSt σ) U64) :=
  .bind (next_st _) fun _ => by
    split
    · exact .pure _
    · exact .fail
theorem liftFlagWords_st : (n k : Nat) → (x : U64) → Pres LSt.st (liftFlagWords n k x : SM (LSt σ) U64)
  | 0, _, _ => .pure _
  | n + 1, k, x => .bind nextU32_st fun _ => liftFlagWords_st n (k + 32) _
theorem popFlat_st : Pres LSt.st (popFlat : SM (LSt σ) (List Kind)) := by
  refine ⟨fun s => ?_⟩
  unfold popFlat
  split <;> rfl
theorem skipFlat_st : (fts : List Kind) → Pres LSt.st (skipFlat fts : SM (LSt σ) Unit)
  | [] => .pure _
  | _ :: fts => .bind (next_st _) fun _ => skipFlat_st fts

theorem pres_ok {S B α : Type} {f : S → B} {m : SM S α} (h : Pres f m) {s s' : S} {r : Res α} (e : m s = (r, s')) :
    f s' = f s := by
  have := h.keep s
  rw [e] at this
  exact this

theorem lifts_scalar {t : Ty} (h : ∀ v, Carried t v []) (h' : ∀ m v fs, WordsIn m t v fs []) {m : SM (LSt σ) Val}
    (hm : Pres LSt.st m) {s s' : LSt σ} {v : Val} (e : m s = (.ok v, s')) : ∃ hs is, Carried t v hs ∧
      Lifts E s.st.world hs is s'.st.world ∧ WordsIn s.st.mem t v (s.it.values.drop s.it.index) is := by
  rw [pres_ok hm e]
  exact ⟨[], [], h v, .nil _, h' _ _ _⟩

/-- The low 32 bits of a Go number of one of the four flat kinds. -/
def lowVal : Val → Option U32
  | .u32 x => some x
  | .f32 x => some x
  | .u64 x => some (x.setWidth 32)
  | .f64 x => some (x.setWidth 32)
  | _ => none

theorem lowVal_val (f : FV) : lowVal f.val = some (low32 f) := by cases f <;> rfl

theorem uncoerce_low {a b : Kind} {x y : Val} (h : uncoerce a b x = .ok y) : lowVal y = lowVal x := by
  unfold uncoerce at h
  split at h
  all_goals first
    | (cases h; rfl)
    | (split at h
       · cases h; rfl
       · cases h)

theorem nextOn_low (vs : List FV) (i : Nat) : (st : List (List Kind)) → (k : Kind) → (v : Val) → (i' : Nat) →
    (st' : List (List Kind)) → nextOn vs i st k = (.ok v, i', st') → ∃ f, vs[i]? = some f ∧ lowVal v = some (low32 f)
  | [], k, v, i', st', h => by
    unfold nextOn baseNext at h
    by_cases h0 : vs.length = 0
    · rw [if_pos h0] at h; cases h
    · rw [if_neg h0] at h
      cases e : vs[i]? with
      | none => rw [e] at h; cases h
      | some x =>
        rw [e] at h
        simp only at h
        split at h
        · cases h
        · injection h with h1 h2
          injection h1 with h1
          exact ⟨x, rfl, by rw [← h1, lowVal_val]⟩
  | [] :: st, k, v, i', st', h => by unfold nextOn at h; cases h
  | (w :: fts) :: st, k, v, i', st', h => by
    unfold nextOn at h
    rcases e : nextOn vs i st w with ⟨r, i1, st1⟩
    rw [e] at h
    simp only at h
    injection h with h1 h2
    cases r with
    | ok x =>
      obtain ⟨f, e1, e2⟩ := nextOn_low vs i st w x i1 st1 e
      exact ⟨f, e1, by rw [uncoerce_low h1, e2]⟩
    | err => cases h1
    | panic => cases h1
    | diverge => cases h1

theorem nextU32_low {s s' : LSt σ} {x : U32} (h : nextU32 s = (.ok x, s')) :
    ∃ f, (s.it.values.drop s.it.index)[0]? = some f ∧ x = low32 f := by
  unfold nextU32 at h
  obtain ⟨v, s1, h1, h2⟩ := SM.bind_eq_ok.1 h
  unfold next Iter.next at h1
  rcases e : nextOn s.it.values s.it.index s.it.stack .u32 with ⟨r, i, st⟩
  rw [e] at h1
  simp only at h1
  injection h1 with h1
  subst h1
  obtain ⟨f, e1, e2⟩ := nextOn_low _ _ _ _ _ _ _ e
  refine ⟨f, by rw [List.getElem?_drop, Nat.add_zero]; exact e1, ?_⟩
  cases v <;> first
    | (cases h2; done)
    | (obtain ⟨h3, -⟩ := pure_inv h2; subst h3; exact Option.some.inj e2)

theorem took_drop {it it' : Iter} {n : Nat} (h : Took it n it') :
    it'.values.drop it'.index = (it.values.drop it.index).drop n := by
  rw [h.eq, List.drop_drop]
  rfl

/-- The memory of a lifting. -/
def LSt.mem (s : LSt σ) : Mem := s.st.mem

theorem st_mem {α : Type} {m : SM (LSt σ) α} (h : Pres LSt.st m) : Pres LSt.mem m := ⟨fun s => congrArg St.mem (h.keep s)⟩
theorem onSt_mem' {α : Type} {m : SM (St σ) α} (h : Pres St.mem m) : Pres LSt.mem (onSt m) := ⟨fun s => h.keep s.st⟩
theorem onWorld_mem' {α : Type} {m : SM Handles.World α} : Pres St.mem (onWorld m : SM (St σ) α) := ⟨fun _ => rfl⟩
theorem tame_mem {α : Type} {C D : Prop} {m : SM (St σ) α} (h : Tame C D m) : Pres St.mem m := by
  refine ⟨fun s => ?_⟩
  obtain ⟨⟨w, h1, -⟩, -⟩ := h s
  rw [h1]
theorem pushFlat_mem' (fts : List Kind) : Pres LSt.mem (pushFlat fts : SM (LSt σ) Unit) := ⟨fun _ => rfl⟩

mutual
theorem liftFlat_mem' (E : Env σ) : (t : Ty) → Pres LSt.mem (liftFlat E t)
  | .bool | .u8 | .u16 | .u32 | .s8 | .s16 | .s32 => by unfold liftFlat; exact .bind (st_mem nextU32_st) fun _ => .pure _
  | .u64 | .s64 => by unfold liftFlat; exact .bind (st_mem nextU64_st) fun _ => .pure _
  | .f32 => by unfold liftFlat; exact .bind (st_mem nextF32_st) fun _ => .pure _
  | .f64 => by unfold liftFlat; exact .bind (st_mem nextF64_st) fun _ => .pure _
  | .char => by unfold liftFlat; exact .bind (st_mem nextU32_st) fun _ => .bind (.lift _) fun _ => .pure _
  | .string => by
    unfold liftFlat
    exact .bind (st_mem nextU32_st) fun _ => .bind (st_mem nextU32_st) fun _ =>
      .bind (onSt_mem' (tame_mem (C := False) (D := True) (loadStringFromRange_tame _ _ _))) fun _ => .pure _
  | .list t => by
    unfold liftFlat
    exact .bind (st_mem nextU32_st) fun _ => .bind (st_mem nextU32_st) fun _ =>
      .bind (onSt_mem' (tame_mem (loadListFromRange_tame (load_tame E t) _ _ _))) fun _ => .pure _
  | .record fs => by unfold liftFlat; exact liftFields_mem' E fs _
  | .variant cs => by
    unfold liftFlat
    refine .bind (.lift _) fun _ => ?_
    split
    · exact .fail
    · exact .ite .fail (.bind (st_mem nextU32_st) fun _ => .ite .fail (liftCase_mem' E cs cs ..))
  | .flags ls => by unfold liftFlat; exact .bind (st_mem (liftFlagWords_st ..)) fun _ => .pure _
  | .own rt => by
    unfold liftFlat
    exact .bind (st_mem nextU32_st) fun _ => .bind (onSt_mem' onWorld_mem') fun _ => .pure _
  | .borrow rt => by
    unfold liftFlat
    exact .bind (st_mem nextU32_st) fun _ => .bind (onSt_mem' onWorld_mem') fun _ => .pure _
  | .nil => by unfold liftFlat; exact .fail
  | .other => by unfold liftFlat; exact .fail
theorem liftFields_mem' (E : Env σ) : (fs : Fields) → (acc : List (String × Val)) → Pres LSt.mem (liftFields E fs acc)
  | .nil, _ => by unfold liftFields; exact .pure _
  | .cons l t fs, acc => by
    unfold liftFields
    exact .bind (liftFlat_mem' E t) fun _ => liftFields_mem' E fs _
theorem liftCase_mem' (E : Env σ) (all : Cases) : (cs : Cases) → (i : Nat) → (fts : List Kind) →
    Pres LSt.mem (liftCase E all cs i fts)
  | .nil, _, _ => by unfold liftCase; exact .crash
  | .cons l t r cs, 0, fts => by
    unfold liftCase
    exact .ite (.bind (st_mem (skipFlat_st _)) fun _ => .bind (.lift _) fun _ => .pure _)
      (.bind (pushFlat_mem' _) fun _ => .bind (liftFlat_mem' E t) fun _ => .bind (st_mem popFlat_st) fun _ =>
        .bind (st_mem (skipFlat_st _)) fun _ => .bind (.lift _) fun _ => .pure _)
  | .cons l t r cs, i + 1, fts => by unfold liftCase; exact liftCase_mem' E all cs i fts
end

/-- Lifting writes no memory. -/
theorem liftFlat_mem {t : Ty} {s s' : LSt σ} {v : Val} (h : liftFlat E t s = (.ok v, s')) : s'.st.mem = s.st.mem :=
  pres_ok (liftFlat_mem' E t) h

mutual
/-- Lifting a value lifts the handles it has, in order, and does nothing else to the tables. -/
theorem liftFlat_lifts : (t : Ty) → Wf t → (s : LSt σ) → (v : Val) → (s' : LSt σ) →
    liftFlat E t s = (.ok v, s') → ∃ hs is, Carried t v hs ∧ Lifts E s.st.world hs is s'.st.world ∧
      WordsIn s.st.mem t v (s.it.values.drop s.it.index) is
  | .bool, _, s, v, s', h | .u8, _, s, v, s', h | .u16, _, s, v, s', h | .u32, _, s, v, s', h
  | .s8, _, s, v, s', h | .s16, _, s, v, s', h | .s32, _, s, v, s', h => by
    rw [liftFlat] at h
    exact lifts_scalar (by simp [Carried]) (by simp [WordsIn]) (.bind nextU32_st fun _ => .pure _) h
  | .u64, _, s, v, s', h | .s64, _, s, v, s', h => by
    rw [liftFlat] at h
    exact lifts_scalar (by simp [Carried]) (by simp [WordsIn]) (.bind nextU64_st fun _ => .pure _) h
  | .f32, _, s, v, s', h => by
    rw [liftFlat] at h
    exact lifts_scalar (by simp [Carried]) (by simp [WordsIn]) (.bind nextF32_st fun _ => .pure _) h
  | .f64, _, s, v, s', h => by
    rw [liftFlat] at h
    exact lifts_scalar (by simp [Carried]) (by simp [WordsIn]) (.bind nextF64_st fun _ => .pure _) h
  | .char, _, s, v, s', h => by
    rw [liftFlat] at h
    exact lifts_scalar (by simp [Carried]) (by simp [WordsIn]) (.bind nextU32_st fun _ => .bind (.lift _) fun _ => .pure _) h
  | .flags ls, _, s, v, s', h => by
    rw [liftFlat] at h
    exact lifts_scalar (by simp [Carried]) (by simp [WordsIn]) (.bind (liftFlagWords_st ..) fun _ => .pure _) h
  | .nil, _, s, v, s', h => by rw [liftFlat] at h; cases h
  | .other, _, s, v, s', h => by rw [liftFlat] at h; cases h
  | .string, _, s, v, s', h => by
    rw [liftFlat] at h
    obtain ⟨p, s1, h1, g1⟩ := SM.bind_eq_ok.1 h
    obtain ⟨n, s2, h2, g2⟩ := SM.bind_eq_ok.1 g1
    obtain ⟨x, s3, h3, g3⟩ := SM.bind_eq_ok.1 g2
    cases g3
    have e := tame_same (loadStringFromRange_tame E p n) (onSt_ok h3)
    rw [e, pres_ok nextU32_st h2, pres_ok nextU32_st h1]
    exact ⟨[], [], by simp [Carried], .nil _, by simp [WordsIn]⟩
  | .own rt, _, s, v, s', h => by
    rw [liftFlat] at h
    obtain ⟨i, s1, h1, g1⟩ := SM.bind_eq_ok.1 h
    obtain ⟨r, s2, h2, g2⟩ := SM.bind_eq_ok.1 g1
    cases g2
    obtain ⟨f, f1, f2⟩ := nextU32_low h1
    rw [← pres_ok nextU32_st h1]
    exact ⟨[⟨true, rt, r⟩], [i], by simp [Carried], .cons (step_liftOwn (onWorld_ok (onSt_ok h2))) (.nil _),
      by rw [WordsIn]; exact ⟨f, f1, by rw [f2]⟩⟩
  | .borrow rt, _, s, v, s', h => by
    rw [liftFlat] at h
    obtain ⟨i, s1, h1, g1⟩ := SM.bind_eq_ok.1 h
    obtain ⟨r, s2, h2, g2⟩ := SM.bind_eq_ok.1 g1
    cases g2
    obtain ⟨f, f1, f2⟩ := nextU32_low h1
    rw [← pres_ok nextU32_st h1]
    exact ⟨[⟨false, rt, r⟩], [i], by simp [Carried], .cons (step_liftBorrow (onWorld_ok (onSt_ok h2))) (.nil _),
      by rw [WordsIn]; exact ⟨f, f1, by rw [f2]⟩⟩
  | .list t, hw, s, v, s', h => by
    rw [Wf] at hw
    rw [liftFlat] at h
    obtain ⟨p, s1, h1, g1⟩ := SM.bind_eq_ok.1 h
    obtain ⟨n, s2, h2, g2⟩ := SM.bind_eq_ok.1 g1
    obtain ⟨vs, s3, h3, g3⟩ := SM.bind_eq_ok.1 g2
    cases g3
    obtain ⟨f, f1, f2⟩ := nextU32_low h1
    have e : s2.st = s.st := by rw [pres_ok nextU32_st h2, pres_ok nextU32_st h1]
    obtain ⟨hs, iss, c, l, n, w⟩ := loadListFromRange_lifts
      (elem_lifts hw.1 (fun p s v s' => load_lifts t hw.2 p s v s')) rfl (onSt_ok h3)
    rw [e] at l w
    refine ⟨hs, _, c, l, ?_⟩
    rw [WordsIn]
    exact ⟨f, vs, iss, f1, rfl, n, rfl, by rw [← f2]; exact w⟩
  | .record fs, hw, s, v, s', h => by
    rw [Wf] at hw
    rw [liftFlat] at h
    obtain ⟨m, hs, is, rfl, -, c, l, w⟩ := liftFields_lifts fs hw.1 hw.2 [] s v s' h
    exact ⟨hs, is, by rw [Carried]; exact ⟨m, rfl, c⟩, l, by rw [WordsIn]; exact ⟨m, rfl, w⟩⟩
  | .variant cs, hw, s, v, s', h => by
    rw [Wf] at hw
    obtain ⟨hw1, hw2, hw3, hw4⟩ := hw
    rw [liftFlat] at h
    obtain ⟨fts, s1, h1, g1⟩ := SM.bind_eq_ok.1 h
    have e1 : s1 = s := (Prod.mk.inj h1).2.symm
    subst e1
    clear h h1
    split at g1
    · cases g1
    · rw [SM.ite_app] at g1
      split at g1
      · cases g1
      · obtain ⟨i, s2, h2, g2⟩ := SM.bind_eq_ok.1 g1
        rw [SM.ite_app] at g2
        split at g2
        · cases g2
        · obtain ⟨l, t, r, ls, p, hs, is, hg, hc, rfl, c, hl, w⟩ := liftCase_lifts cs cs i.toNat hw4
            (fun l t r hg => hw3 _ l t r hg) _ s2 v s' g2
          rw [pres_ok nextU32_st h2] at hl w
          rw [took_drop (nextU32_took h2).2] at w
          refine ⟨hs, is, ?_, hl, ?_⟩
          · rw [Carried]
            exact ⟨_, p, _, rfl, chain_selects hw1 hw2 hg hc, c⟩
          · rw [WordsIn]
            exact ⟨_, p, _, rfl, chain_selects hw1 hw2 hg hc, w⟩
theorem liftFields_lifts : (fs : Fields) → fs.labels.Nodup → WfFields fs → (acc : List (String × Val)) →
    (s : LSt σ) → (v : Val) → (s' : LSt σ) → liftFields E fs acc s = (.ok v, s') → ∃ m hs is, v = .map m ∧
      (∀ k, k ∉ fs.labels → mapGet m k = mapGet acc k) ∧ CarriedFields fs m hs ∧ Lifts E s.st.world hs is s'.st.world ∧
      WordsInFields s.st.mem fs m (s.it.values.drop s.it.index) is
  | .nil, _, _, acc, s, v, s', h => by
    rw [liftFields] at h
    cases h
    exact ⟨acc, [], [], rfl, fun _ _ => rfl, by simp [CarriedFields], .nil _, by simp [WordsInFields]⟩
  | .cons l t fs, hn, hw, acc, s, v, s', h => by
    rw [Fields.labels, List.nodup_cons] at hn
    rw [WfFields] at hw
    rw [liftFields] at h
    obtain ⟨x, s2, h2, g2⟩ := SM.bind_eq_ok.1 h
    obtain ⟨hs, is, c1, l1, w1⟩ := liftFlat_lifts t hw.1 _ _ _ h2
    obtain ⟨m, ks, js, rfl, hm, c2, l2, w2⟩ := liftFields_lifts fs hn.2 hw.2 _ _ _ _ g2
    refine ⟨m, hs ++ ks, is ++ js, rfl, ?_, ?_, l1.append l2, ?_⟩
    · intro k hk
      rw [Fields.labels, List.mem_cons, not_or] at hk
      rw [hm k hk.2, mapGet_mapSet_ne _ _ _ _ hk.1]
    · rw [CarriedFields]
      refine ⟨hs, ks, ?_, c2, rfl⟩
      rw [hm l hn.1, mapGet_mapSet]; exact c1
    · rw [WordsInFields]
      refine ⟨is, js, ?_, ?_, rfl⟩
      · rw [hm l hn.1, mapGet_mapSet]; exact w1
      · intro ks hk
        obtain ⟨ks', hk', tk⟩ := lift_took E t _ _ _ h2
        rw [hk] at hk'
        cases hk'
        rw [← took_drop tk, ← liftFlat_mem h2]; exact w2
theorem liftCase_lifts (all : Cases) : (cs : Cases) → (i : Nat) → WfCases cs →
    (∀ l t r, cs.get? i = some (l, t, r) → ∃ ls, Chain all l r ls) → (fts : List Kind) → (s : LSt σ) → (v : Val) →
    (s' : LSt σ) → liftCase E all cs i fts s = (.ok v, s') → ∃ l t r ls p hs is, cs.get? i = some (l, t, r) ∧
      Chain all l r ls ∧ v = .map [(bars ls, p)] ∧ CarriedPayload cs i p hs ∧ Lifts E s.st.world hs is s'.st.world ∧
      WordsInPayload s.st.mem cs i p (s.it.values.drop s.it.index) is
  | .nil, _, _, _, fts, s, v, s', h => by rw [liftCase] at h; cases h
  | .cons l t r cs, 0, hw, hc, fts, s, v, s', h => by
    rw [WfCases] at hw
    obtain ⟨ls, hch⟩ := hc l t r rfl
    rw [liftCase, SM.ite_app] at h
    by_cases ht : t = .nil
    · rw [if_pos ht] at h
      obtain ⟨_, s1, h1, g1⟩ := SM.bind_eq_ok.1 h
      obtain ⟨lb, s2, h2, g2⟩ := SM.bind_eq_ok.1 g1
      obtain rfl := caseLabel_ok hch (Prod.mk.inj h2).1
      have e2 : s2 = s1 := (Prod.mk.inj h2).2.symm
      cases g2
      rw [e2, pres_ok (skipFlat_st _) h1]
      exact ⟨l, t, r, ls, _, [], [], rfl, hch, rfl, by rw [CarriedPayload]; exact .inl ⟨ht, rfl⟩, .nil _,
        by rw [WordsInPayload]; exact .inl ⟨ht, rfl⟩⟩
    · rw [if_neg ht] at h
      obtain ⟨_, s1, h1, g1⟩ := SM.bind_eq_ok.1 h
      obtain ⟨x, s2, h2, g2⟩ := SM.bind_eq_ok.1 g1
      obtain ⟨fts', s3, h3, g3⟩ := SM.bind_eq_ok.1 g2
      obtain ⟨_, s4, h4, g4⟩ := SM.bind_eq_ok.1 g3
      obtain ⟨lb, s5, h5, g5⟩ := SM.bind_eq_ok.1 g4
      obtain rfl := caseLabel_ok hch (Prod.mk.inj h5).1
      have e1 : s1.st = s.st := by cases h1; rfl
      have e5 : s5 = s4 := (Prod.mk.inj h5).2.symm
      cases g5
      obtain ⟨hs, is, c, hl, w⟩ := liftFlat_lifts t hw.1 _ _ _ h2
      have e2 : s1.it.values.drop s1.it.index = s.it.values.drop s.it.index := by cases h1; rfl
      rw [e2] at w
      rw [e5, pres_ok (skipFlat_st _) h4, pres_ok popFlat_st h3, ← e1]
      exact ⟨l, t, r, ls, x, hs, is, rfl, hch, rfl, by rw [CarriedPayload]; exact .inr ⟨ht, c⟩, hl,
        by rw [WordsInPayload]; exact .inr ⟨ht, w⟩⟩
  | .cons l t r cs, i + 1, hw, hc, fts, s, v, s', h => by
    rw [WfCases] at hw
    rw [liftCase] at h
    obtain ⟨l', t', r', ls, p, hs, is, hg, h2, h3, h4, h5, h6⟩ :=
      liftCase_lifts all cs i hw.2 (fun l t r hg => hc l t r hg) fts s v s' h
    exact ⟨l', t', r', ls, p, hs, is, hg, h2, h3, by rw [CarriedPayload]; exact h4, h5,
      by rw [WordsInPayload]; exact h6⟩
end

/-! ## Lowering -/

/-- Every value of the second list has the low bits of the one at its place in the first. -/
def LowPrefix (xs ys : List FV) : Prop := ∀ (j : Nat) x, xs[j]? = some x → ∃ y, ys[j]? = some y ∧ low32 y = low32 x

theorem LowPrefix.refl (xs : List FV) : LowPrefix xs xs := fun _ x h => ⟨x, h, rfl⟩

theorem LowPrefix.left {a b ys : List FV} (h : LowPrefix (a ++ b) ys) : LowPrefix a ys := fun j x hx =>
  h j x (by rw [List.getElem?_append_left (List.getElem?_eq_some_iff.1 hx).1]; exact hx)

theorem LowPrefix.right {a b ys : List FV} (h : LowPrefix (a ++ b) ys) : LowPrefix b (ys.drop a.length) := fun j x hx => by
  rw [List.getElem?_drop]
  exact h _ x (by rw [List.getElem?_append_right (Nat.le_add_right _ _), Nat.add_sub_cancel_left]; exact hx)

theorem LowPrefix.trans {a b c : List FV} (h1 : LowPrefix a b) (h2 : LowPrefix b c) : LowPrefix a c := fun j x hx => by
  obtain ⟨y, hy, e1⟩ := h1 j x hx
  obtain ⟨z, hz, e2⟩ := h2 j y hy
  exact ⟨z, hz, e2.trans e1⟩

theorem coerceTo_low (f : FV) (k : Kind) : low32 (coerceTo f k) = low32 f := by
  cases f <;> cases k <;> simp [coerceTo, low32]

theorem coercePayload_low : (vs : List FV) → (fts : List Kind) → (r : List FV × List Kind) →
    coercePayload vs fts = .ok r → LowPrefix vs r.1
  | [], fts, r, h => by intro j x hx; simp at hx
  | _ :: _, [], r, h => by rw [coercePayload] at h; cases h
  | v :: vs, k :: fts, r, h => by
    rw [coercePayload] at h
    obtain ⟨q, h1, h2⟩ := Res.bind_eq_ok.1 h
    cases h2
    intro j x hx
    cases j with
    | zero =>
      simp only [List.getElem?_cons_zero, Option.some.injEq] at hx ⊢
      subst hx
      exact ⟨_, rfl, coerceTo_low _ _⟩
    | succ j => exact coercePayload_low vs fts q h1 j x hx

theorem forall₂_get {α β : Type} {R : α → β → Prop} {as : List α} {bs : List β} (h : List.Forall₂ R as bs) {j : Nat} {x : α}
    (hx : as[j]? = some x) : ∃ y, bs[j]? = some y ∧ R x y := by
  induction h generalizing j with
  | nil => simp at hx
  | cons h _ ih =>
    cases j with
    | zero => simp only [List.getElem?_cons_zero, Option.some.injEq] at hx; subst hx; exact ⟨_, rfl, h⟩
    | succ j => exact ih hx

mutual
/-- A value with no handles has no words for handles. -/
theorem carried_none_at (m : Mem) : (t : Ty) → (v : Val) → Carried t v [] → (p : U32) → WordsAt m t v p []
  | .bool, _, _, _ | .u8, _, _, _ | .u16, _, _, _ | .u32, _, _, _ | .u64, _, _, _ | .s8, _, _, _ | .s16, _, _, _
  | .s32, _, _, _ | .s64, _, _, _ | .f32, _, _, _ | .f64, _, _, _ | .char, _, _, _ | .string, _, _, _
  | .flags _, _, _, _ | .nil, _, _, _ | .other, _, _, _ => by simp [WordsAt]
  | .own _, v, h, p | .borrow _, v, h, p => by
    rw [Carried] at h
    obtain ⟨r, -, h⟩ := h
    cases h
  | .list t, v, h, p => by
    rw [Carried] at h
    obtain ⟨vs, hss, rfl, h1, h2⟩ := h
    rw [WordsAt]
    refine ⟨vs, vs.map fun _ => [], rfl, by simp, by simp, ?_⟩
    intro z _ j x w hx hw
    obtain rfl : w = [] := by
      rw [List.getElem?_map, hx] at hw
      exact (Option.some.inj hw).symm
    refine carried_none_at m t x ?_ _
    have hn : ∀ a ∈ hss, a = [] := fun a ha => by
      have : hss.flatten = [] := h2.symm
      rw [List.flatten_eq_nil_iff] at this
      exact this a ha
    obtain ⟨h, hh, hc⟩ := forall₂_get h1 hx
    rwa [hn h (List.mem_of_getElem? hh)] at hc
  | .record fs, v, h, p => by
    rw [Carried] at h
    obtain ⟨mm, rfl, h⟩ := h
    rw [WordsAt]
    exact ⟨mm, rfl, carried_none_fields m fs mm h p⟩
  | .variant cs, v, h, p => by
    rw [Carried] at h
    obtain ⟨key, q, i, rfl, h1, h2⟩ := h
    rw [WordsAt]
    exact ⟨key, q, i, rfl, h1, carried_none_payload m cs i q h2 _⟩
theorem carried_none_fields (m : Mem) : (fs : Fields) → (mm : List (String × Val)) → CarriedFields fs mm [] → (p : U32) →
    WordsAtFields m fs mm p []
  | .nil, _, _, _ => by simp [WordsAtFields]
  | .cons l t fs, mm, h, p => by
    rw [CarriedFields] at h
    obtain ⟨a, b, h1, h2, h3⟩ := h
    obtain ⟨rfl, rfl⟩ := List.append_eq_nil_iff.1 h3.symm
    rw [WordsAtFields]
    exact ⟨[], [], carried_none_at m t _ h1 _, fun z _ => carried_none_fields m fs mm h2 _, rfl⟩
theorem carried_none_payload (m : Mem) : (cs : Cases) → (i : Nat) → (q : Val) → CarriedPayload cs i q [] → (p : U32) →
    WordsAtPayload m cs i q p []
  | .nil, _, _, h, _ => by rw [CarriedPayload] at h; exact h.elim
  | .cons l t r cs, 0, q, h, p => by
    rw [CarriedPayload] at h
    rw [WordsAtPayload]
    rcases h with ⟨h1, -⟩ | ⟨h1, h2⟩
    · exact .inl ⟨h1, rfl⟩
    · exact .inr ⟨h1, carried_none_at m t q h2 p⟩
  | .cons l t r cs, i + 1, q, h, p => by
    rw [CarriedPayload] at h
    rw [WordsAtPayload]
    exact carried_none_payload m cs i q h p
end

theorem lowers_none {t : Ty} {v : Val} (h : Carried t v []) {α : Type} {m : SM (St σ) α} (hm : Pres St.world m)
    {s s' : St σ} {a : α} {xs : List FV} (h' : ∀ m ys, LowPrefix xs ys → WordsIn m t v ys []) (e : m s = (.ok a, s')) :
    ∃ hs is, Carried t v hs ∧ Lowers E s.world hs is s'.world ∧ ∀ m ys, LowPrefix xs ys → WordsIn m t v ys is := by
  rw [pres_ok hm e]
  exact ⟨[], [], h, .nil _, h'⟩

theorem flatten_variant_lt {cs : Cases} {ks : List Kind} (h : flatten (.variant cs) = .ok ks) : cs.length < 2 ^ 32 := by
  rw [flatten] at h
  obtain ⟨fl, -, h2⟩ := Res.bind_eq_ok.1 h
  obtain ⟨d, h3, -⟩ := Res.bind_eq_ok.1 h2
  exact discriminantType_lt h3

mutual
/-- Lowering a value lowers the handles it has, in order, and does nothing else to the tables. -/
theorem lowerFlat_lowers : (t : Ty) → (v : Val) → (s : St σ) → (fs : List FV) → (s' : St σ) →
    lowerFlat E t v s = (.ok fs, s') → ∃ hs is, Carried t v hs ∧ Lowers E s.world hs is s'.world ∧
      ∀ m ys, LowPrefix fs ys → WordsIn m t v ys is
  | .bool, v, s, fs, s', h | .u8, v, s, fs, s', h | .u16, v, s, fs, s', h | .u32, v, s, fs, s', h
  | .u64, v, s, fs, s', h | .s8, v, s, fs, s', h | .s16, v, s, fs, s', h | .s32, v, s, fs, s', h
  | .s64, v, s, fs, s', h | .f32, v, s, fs, s', h | .f64, v, s, fs, s', h => by
    refine lowers_none (by simp [Carried]) ?_ (by simp [WordsIn]) h
    unfold lowerFlat
    split
    · exact .pure _
    · exact .fail
  | .char, v, s, fs, s', h => by
    refine lowers_none (by simp [Carried]) ?_ (by simp [WordsIn]) h
    unfold lowerFlat
    split
    · exact .pure _
    · exact .crash
  | .string, v, s, fs, s', h => by
    refine lowers_none (by simp [Carried]) ?_ (by simp [WordsIn]) h
    unfold lowerFlat
    split
    · exact .bind (storeStringIntoRange_world ..) fun _ => .pure _
    · exact .crash
  | .flags ls, v, s, fs, s', h => by
    refine lowers_none (by simp [Carried]) ?_ (by simp [WordsIn]) h
    unfold lowerFlat
    exact .lift _
  | .nil, v, s, fs, s', h | .other, v, s, fs, s', h => by unfold lowerFlat at h; cases h
  | .list t, v, s, fs, s', h => by
    unfold lowerFlat at h
    have hc : ∃ vs, v = .list vs ∧ ∀ x ∈ vs, Carried t x [] := by
      obtain ⟨r, s1, h1, -⟩ := SM.bind_eq_ok.1 h
      obtain ⟨vs, rfl, he⟩ := storeListIntoRange_each h1
      refine ⟨vs, rfl, fun x hx => ?_⟩
      obtain ⟨p, a, b, hx⟩ := he x hx
      exact store_carries t x p a b hx
    have hfs : ∃ f g, fs = [f, g] := by
      obtain ⟨r, s1, -, g1⟩ := SM.bind_eq_ok.1 h
      obtain ⟨g2, -⟩ := pure_inv g1
      exact ⟨_, _, g2.symm⟩
    obtain ⟨vs, rfl, hc⟩ := hc
    obtain ⟨f, g, rfl⟩ := hfs
    refine lowers_none (xs := [f, g]) ?_ (.bind (storeListIntoRange_world E (store_world E t) ..) fun _ => .pure _) ?_ h
    · rw [Carried]
      obtain ⟨hss, h1, h2⟩ := carried_each (t := t) vs hc
      exact ⟨vs, hss, rfl, h1, h2⟩
    · intro m ys hy
      obtain ⟨y, h1, -⟩ := hy 0 f rfl
      rw [WordsIn]
      refine ⟨y, vs, vs.map fun _ => [], h1, rfl, by simp, by simp, ?_⟩
      intro z _ j x w hx hw
      obtain rfl : w = [] := by
        rw [List.getElem?_map, hx] at hw
        exact (Option.some.inj hw).symm
      exact carried_none_at m t x (hc x (List.mem_of_getElem? hx)) _
  | .own rt, v, s, fs, s', h => by
    unfold lowerFlat at h
    split at h
    · rename_i rep
      obtain ⟨i, s1, h1, g1⟩ := SM.bind_eq_ok.1 h
      cases g1
      exact ⟨[⟨true, rt, rep⟩], [i], by simp [Carried], .cons (onWorld_ok h1) (.nil _), fun m ys hy => by
        obtain ⟨y, h1, h2⟩ := hy 0 _ rfl
        rw [WordsIn]
        exact ⟨y, h1, by rw [h2]; rfl⟩⟩
    · cases h
  | .borrow rt, v, s, fs, s', h => by
    unfold lowerFlat at h
    split at h
    · rename_i rep
      obtain ⟨i, s1, h1, g1⟩ := SM.bind_eq_ok.1 h
      cases g1
      exact ⟨[⟨false, rt, rep⟩], [i], by simp [Carried], .cons (onWorld_ok h1) (.nil _), fun m ys hy => by
        obtain ⟨y, h1, h2⟩ := hy 0 _ rfl
        rw [WordsIn]
        exact ⟨y, h1, by rw [h2]; rfl⟩⟩
    · cases h
  | .record fs, v, s, xs, s', h => by
    unfold lowerFlat at h
    split at h
    · rename_i m
      obtain ⟨hs, is, c, l, w⟩ := lowerFields_lowers fs m s xs s' h
      exact ⟨hs, is, by rw [Carried]; exact ⟨m, rfl, c⟩, l, fun k ys hy => by rw [WordsIn]; exact ⟨m, rfl, w k ys hy⟩⟩
    · cases h
  | .variant cs, v, s, xs, s', h => by
    unfold lowerFlat at h
    obtain ⟨⟨i, p⟩, s1, h1, g1⟩ := SM.bind_eq_ok.1 h
    obtain ⟨fts, s2, h2, g2⟩ := SM.bind_eq_ok.1 g1
    have e1 : s1 = s := (Prod.mk.inj h1).2.symm
    have e2 : s2 = s1 := (Prod.mk.inj h2).2.symm
    have hm : matchCase v cs = .ok (i, p) := (Prod.mk.inj h1).1
    have hlt := flatten_variant_lt (Prod.mk.inj h2).1
    subst e2 e1
    clear h g1 h1 h2
    split at g2
    · cases g2
    · rw [SM.ite_app] at g2
      split at g2
      · cases g2
      · obtain ⟨pl, s3, h3, g3⟩ := SM.bind_eq_ok.1 g2
        obtain ⟨q, s4, h4, g4⟩ := SM.bind_eq_ok.1 g3
        have e4 : s4 = s3 := (Prod.mk.inj h4).2.symm
        obtain ⟨key, rfl, hsel⟩ := (matchCase_ok v cs hlt i p).1 hm
        obtain ⟨hs, is, c, l, w⟩ := lowerCase_lowers cs i.toNat p _ _ _ h3
        have e5 : s' = s4 := (Prod.mk.inj g4).2.symm
        rw [e5, e4]
        refine ⟨hs, is, ?_, l, fun m ys hy => ?_⟩
        · rw [Carried]
          exact ⟨key, p, _, rfl, hsel, c⟩
        · rw [WordsIn]
          refine ⟨key, p, _, rfl, hsel, w m _ ((coercePayload_low _ _ _ (Prod.mk.inj h4).1).trans ?_)⟩
          obtain rfl := (Res.ok.inj (Prod.mk.inj g4).1).symm
          exact LowPrefix.right (a := [_]) (LowPrefix.left (b := _) hy)
theorem lowerFields_lowers : (fs : Fields) → (m : List (String × Val)) → (s : St σ) → (xs : List FV) → (s' : St σ) →
    lowerFields E fs m s = (.ok xs, s') → ∃ hs is, CarriedFields fs m hs ∧ Lowers E s.world hs is s'.world ∧
      ∀ k ys, LowPrefix xs ys → WordsInFields k fs m ys is
  | .nil, m, s, xs, s', h => by
    unfold lowerFields at h
    cases h
    exact ⟨[], [], by simp [CarriedFields], .nil _, by simp [WordsInFields]⟩
  | .cons l t fs, m, s, xs, s', h => by
    unfold lowerFields at h
    obtain ⟨a, s1, h1, g1⟩ := SM.bind_eq_ok.1 h
    obtain ⟨b, s2, h2, g2⟩ := SM.bind_eq_ok.1 g1
    cases g2
    obtain ⟨hs, is, c1, l1, w1⟩ := lowerFlat_lowers t _ _ _ _ h1
    obtain ⟨ks, js, c2, l2, w2⟩ := lowerFields_lowers fs m _ _ _ h2
    refine ⟨hs ++ ks, is ++ js, by rw [CarriedFields]; exact ⟨hs, ks, c1, c2, rfl⟩, l1.append l2, fun k ys hy => ?_⟩
    rw [WordsInFields]
    refine ⟨is, js, w1 k ys hy.left, fun kinds hk => ?_, rfl⟩
    have hk' := lower_kinds E t _ _ _ _ h1
    rw [hk] at hk'
    obtain rfl := Res.ok.inj hk'
    rw [List.length_map]
    exact w2 k _ hy.right
theorem lowerCase_lowers : (cs : Cases) → (i : Nat) → (p : Val) → (s : St σ) → (xs : List FV) → (s' : St σ) →
    lowerCase E cs i p s = (.ok xs, s') → ∃ hs is, CarriedPayload cs i p hs ∧ Lowers E s.world hs is s'.world ∧
      ∀ k ys, LowPrefix xs ys → WordsInPayload k cs i p ys is
  | .nil, _, _, s, xs, s', h => by unfold lowerCase at h; cases h
  | .cons l t r cs, 0, p, s, xs, s', h => by
    unfold lowerCase at h
    by_cases ht : t = .nil
    · rw [if_pos ht] at h
      cases h
      exact ⟨[], [], by rw [CarriedPayload]; exact .inl ⟨ht, rfl⟩, .nil _,
        fun k ys _ => by rw [WordsInPayload]; exact .inl ⟨ht, rfl⟩⟩
    · rw [if_neg ht] at h
      obtain ⟨hs, is, c, l, w⟩ := lowerFlat_lowers t p _ _ _ h
      exact ⟨hs, is, by rw [CarriedPayload]; exact .inr ⟨ht, c⟩, l,
        fun k ys hy => by rw [WordsInPayload]; exact .inr ⟨ht, w k ys hy⟩⟩
  | .cons l t r cs, i + 1, p, s, xs, s', h => by
    unfold lowerCase at h
    obtain ⟨hs, is, c, hl, w⟩ := lowerCase_lowers cs i p s xs s' h
    exact ⟨hs, is, by rw [CarriedPayload]; exact c, hl, fun k ys hy => by rw [WordsInPayload]; exact w k ys hy⟩
end

end Verif.Abi
