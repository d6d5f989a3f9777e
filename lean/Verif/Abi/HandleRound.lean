import Verif.Abi.HandleTrace

/-!
# `LowerFlat` then `LiftFlat`, with handles
-/

namespace Verif.Abi
open Spec

variable {σ : Type}

theorem Wrote.anyWorld {used : σ → Nat → Prop} {D : Nat → Prop} {P : St σ → Prop} {s s' : St σ} (h : Wrote used D P s s') :
    Wrote used D (fun s'' => ∀ w, P { s'' with world := w }) s s' := by
  refine ⟨h.step, ?_⟩
  obtain ⟨F, h1, h2⟩ := h.foot
  exact ⟨F, h1, fun s'' g1 g2 g3 w => h2 { s'' with world := w } g1 g2 g3⟩

/-- What is known of a lowered value `fs` with handles `hs`, which are now at the indices `is`: from any iterator that
hands out `fs`, and any tables where lifting those indices gives those handles, lifting gives the value. -/
def Returns (E : Env σ) (m : SM (LSt σ) Val) (v : Val) (fs : List FV) (hs : List Held) (is : List U32) (s : St σ) : Prop :=
  ∀ w w' it it', Feeds it fs it' → Lifts E w hs is w' →
    m ⟨{ s with world := w }, it⟩ = (.ok v, ⟨{ s with world := w' }, it'⟩)

section
variable {E : Env σ} {used : σ → Nat → Prop} (G : GoodAlloc E used)
include G

/-- Without handles nothing new happens. -/
theorem moves_plain (henc : E.enc ∈ Spec.encodings) (t : Ty) (v : Val) (hv : HasType t v) (hw : Wf t) (hl : Laid t)
    (hp : Plain t) (hlf : ListsFit t v) (hsf : StringsFit E.enc t v) (hc : Carried t v [])
    (hk : Pres St.world (lowerFlat E t v)) (s : St σ) (hg : Good s.mem) :
    Does (fun _ => True) (lowerFlat E t v) s fun fs s' => ∃ hs is, Carried t v hs ∧ Lowers E s.world hs is s'.world ∧
      Wrote used (fun _ => False) (Returns E (liftFlat E t) (norm t v) fs hs is) s s' := by
  refine (lower_does G (fun _ _ _ _ => .inr trivial) henc t v hv hw hl hp hlf hsf s hg).eqn.imp ?_
  rintro fs s' ⟨e, w⟩
  refine ⟨[], [], hc, by rw [pres_ok hk e]; exact .nil _, w.anyWorld.imp (fun _ h => h) ?_⟩
  intro s'' _ _ h w w' it it' hf hL
  cases hL
  exact h w it it' hf

mutual
theorem lower_moves (henc : E.enc ∈ Spec.encodings) : (t : Ty) → (v : Val) → HasType t v → Wf t → Laid t →
    ListsFit t v → StringsFit E.enc t v → (s : St σ) → Good s.mem →
    Does (fun _ => True) (lowerFlat E t v) s fun fs s' => ∃ hs is, Carried t v hs ∧ Lowers E s.world hs is s'.world ∧
      Wrote used (fun _ => False) (Returns E (liftFlat E t) (norm t v) fs hs is) s s'
  | .bool, v, hv, hw, hl, hlf, hsf, s, hg | .u8, v, hv, hw, hl, hlf, hsf, s, hg
  | .u16, v, hv, hw, hl, hlf, hsf, s, hg | .u32, v, hv, hw, hl, hlf, hsf, s, hg
  | .u64, v, hv, hw, hl, hlf, hsf, s, hg | .s8, v, hv, hw, hl, hlf, hsf, s, hg
  | .s16, v, hv, hw, hl, hlf, hsf, s, hg | .s32, v, hv, hw, hl, hlf, hsf, s, hg
  | .s64, v, hv, hw, hl, hlf, hsf, s, hg | .f32, v, hv, hw, hl, hlf, hsf, s, hg
  | .f64, v, hv, hw, hl, hlf, hsf, s, hg => by
    refine moves_plain G henc _ v hv hw hl (by simp [Plain]) hlf hsf (by simp [Carried]) ?_ s hg
    unfold lowerFlat
    split
    · exact .pure _
    · exact .fail
  | .char, v, hv, hw, hl, hlf, hsf, s, hg => by
    refine moves_plain G henc _ v hv hw hl (by simp [Plain]) hlf hsf (by simp [Carried]) ?_ s hg
    unfold lowerFlat
    split
    · exact .pure _
    · exact .crash
  | .string, v, hv, hw, hl, hlf, hsf, s, hg => by
    refine moves_plain G henc _ v hv hw hl (by simp [Plain]) hlf hsf (by simp [Carried]) ?_ s hg
    unfold lowerFlat
    split
    · exact .bind (storeStringIntoRange_world ..) fun _ => .pure _
    · exact .crash
  | .flags ls, v, hv, hw, hl, hlf, hsf, s, hg => by
    refine moves_plain G henc _ v hv hw hl (by simp [Plain]) hlf hsf (by simp [Carried]) ?_ s hg
    unfold lowerFlat
    exact .lift _
  | .list t, v, hv, hw, _, hlf, hsf, s, hg => by
    rw [HasType] at hv
    obtain ⟨vs, rfl, hv⟩ := hv
    rw [StringsFit] at hsf
    have hsf := hsf vs rfl
    rw [ListsFit] at hlf
    obtain ⟨hf1, hf2, hf3⟩ := hlf vs rfl
    rw [Wf] at hw
    unfold lowerFlat
    apply Does.bind (storeListIntoRange_does G (R := fun _ => True) (fun _ _ _ _ => .inr trivial) t hw.1 vs hf1 hf2 s hg
      (fun v hm p' s' g' a' l' u' => store_does G (fun _ _ _ _ => .inr trivial) henc t v (hv v hm) hw.2 hw.1
        (.inr fun _ => trivial) (hf3 v hm) (hsf v hm) p' s' g' a' l' u')).eqn
    rintro ⟨p, n⟩ s1 ⟨he, w⟩
    apply Does.pure
    obtain ⟨vs', e, hall⟩ := storeListIntoRange_each he
    injection e with e
    subst e
    refine ⟨[], [], ?_, by rw [pres_ok (storeListIntoRange_world E (store_world E t) ..) he]; exact .nil _,
      w.anyWorld.imp (fun _ h => h) ?_⟩
    · rw [Carried]
      obtain ⟨hss, h1, h2⟩ := carried_each (t := t) vs fun x hx => by
        obtain ⟨p, a, b, hx⟩ := hall x hx
        exact store_carries t x p a b hx
      exact ⟨vs, hss, rfl, h1, h2⟩
    · intro s'' _ _ hs w w' it it' hf hL
      cases hL
      have hs := hs w
      obtain ⟨it1, e1, f1⟩ := nextU32_feeds hf { s'' with world := w }
      obtain ⟨it2, e2, f2⟩ := nextU32_feeds f1 { s'' with world := w }
      cases f2
      have : onSt (loadListFromRange (load E t) t p n) (⟨{ s'' with world := w }, it'⟩ : LSt σ) =
          (.ok (vs.map (norm t)), ⟨{ s'' with world := w }, it'⟩) := by
        unfold onSt
        simp only at hs ⊢
        rw [hs]
      rw [liftFlat, SM.bind_ok e1, SM.bind_ok e2, SM.bind_ok this, norm]
      rfl
  | .record fs, v, hv, hw, hl, hlf, hsf, s, hg => by
    rw [HasType] at hv
    obtain ⟨m, rfl, hv⟩ := hv
    rw [StringsFit] at hsf
    have hsf := hsf m rfl
    rw [ListsFit] at hlf
    have hlf := hlf m rfl
    rw [Wf] at hw
    simp only [Laid] at hl
    unfold lowerFlat
    apply (lowerFields_moves henc fs m hv hw.2 hl hlf hsf s hg).imp
    rintro as s' ⟨hs, is, c, l, w⟩
    refine ⟨hs, is, by rw [Carried]; exact ⟨m, rfl, c⟩, l, w.imp (fun _ h => h) ?_⟩
    intro s'' _ _ h
    rw [liftFlat, norm]
    exact h []
  | .variant cs, v, hv, hw, hl, hlf, hsf, s, hg => by
    obtain ⟨fts, hfl⟩ := flatten_of_laid _ hl
    obtain ⟨ws, rfl, hws⟩ := flatten_variant hfl
    rw [HasType] at hv
    obtain ⟨key, p, i, rfl, hsel, hv⟩ := hv
    rw [StringsFit] at hsf
    have hsf := hsf key p i rfl hsel
    rw [ListsFit] at hlf
    have hlf := hlf key p i rfl hsel
    rw [Wf] at hw
    obtain ⟨hw1, hw2, hw3, hw4⟩ := hw
    simp only [Laid] at hl
    have hil := hsel.lt
    have hi32 := toNat_ofNat_lt (n := i) (by omega)
    have hmc : matchCase (.map [(key, p)]) cs = .ok (BitVec.ofNat 32 i, p) :=
      (matchCase_ok _ cs (by omega) _ _).2 ⟨key, rfl, by rw [hi32]; exact hsel⟩
    unfold lowerFlat
    refine .liftBind hmc ?_
    refine .liftBind hfl ?_
    simp only [ne_eq, not_true_eq_false, if_false]
    rw [hi32]
    apply Does.bind (lowerCase_moves henc cs cs i p hv hw4 hl.2.2 hlf hsf s hg (fun k l t r hk => hw3 k l t r hk)).eqn
    rintro payload s1 ⟨he, hs, is, c, l, w⟩
    have hc : Carries (payload.map FV.kind) ws := by
      rcases lowerCase_kinds E cs _ _ _ _ _ he with rfl | ⟨l, t, q, ks, e1, e2, e3, e4⟩
      · trivial
      · obtain ⟨-, hall⟩ := flattenCases_carries cs [] ws hws
        obtain ⟨ks', e5, e6⟩ := hall _ _ _ _ e1 e2
        rw [e3] at e5
        injection e5 with e5
        subst e5
        rw [e4]; exact e6
    obtain ⟨p', rest, g1, g2, g3, g4⟩ := coercePayload_ok payload ws hc
    have hrest : rest = ws.drop payload.length := by
      rw [g2, ← g3, List.drop_append_of_le_length (by simp)]
      simp
    refine .liftBind g1 ?_
    apply Does.pure
    refine ⟨hs, is, by rw [Carried]; exact ⟨key, p, i, rfl, hsel, c⟩, l, w.imp (fun _ h => h) ?_⟩
    intro s'' _ _ h w w' it it' hf hL
    obtain ⟨it1, e1, f1⟩ := nextU32_feeds hf { s'' with world := w }
    simp only at f1
    rw [liftFlat, hfl, SM.bind_ok (SM.lift_def _ _)]
    simp only [ne_eq, not_true_eq_false, if_false]
    rw [SM.bind_ok e1, SM.ite_app, if_neg (by rw [hi32]; omega), hi32, norm, (firstLabel_iff cs key i).2 hsel]
    apply h ws hc w w' it1 it' _ hL
    rw [← g4, ← hrest]
    exact f1
  | .own rt, v, hv, _, _, _, _, s, hg => by
    rw [HasType] at hv
    obtain ⟨x, rfl⟩ := hv
    unfold lowerFlat
    simp only
    apply Does.bind (Q := fun i s' => Handles.lowerOwn E.inst rt x s.world = (.ok i, s'.world) ∧ s'.mem = s.mem ∧
      s'.heap = s.heap) (Does.any (fun _ => trivial) fun i s' h => ⟨onWorld_ok h, by rw [← (Prod.mk.inj h).2]; exact ⟨rfl, rfl⟩⟩)
    rintro i s' ⟨h, hm, hh⟩
    apply Does.pure
    refine ⟨[⟨true, rt, x⟩], [i], by simp [Carried], .cons h (.nil _), ⟨?_, fun _ => False, fun _ h => h.elim, ?_⟩⟩
    · exact ⟨by rw [hm]; exact hg, by rw [hm], fun _ h => by rw [hh]; exact h, fun _ _ _ => by rw [hm]⟩
    · intro s'' _ _ _ w w' it it' hf hL
      obtain ⟨it1, e1, f1⟩ := nextU32_feeds hf { s'' with world := w }
      cases f1
      cases hL with
      | cons h1 h2 =>
        cases h2
        have : onSt (onWorld (Handles.liftOwn E.inst rt i)) (⟨{ s'' with world := w }, it'⟩ : LSt σ) =
            (.ok x, ⟨{ s'' with world := w' }, it'⟩) := by
          unfold onSt onWorld
          simp only
          rw [show Handles.liftOwn E.inst rt i w = (.ok x, w') from h1]
        rw [liftFlat, SM.bind_ok e1, SM.bind_ok this]
        rfl
  | .borrow rt, v, hv, _, _, _, _, s, hg => by
    rw [HasType] at hv
    obtain ⟨x, rfl⟩ := hv
    unfold lowerFlat
    simp only
    apply Does.bind (Q := fun i s' => Handles.lowerBorrow E.info E.inst E.cx rt x s.world = (.ok i, s'.world) ∧
      s'.mem = s.mem ∧ s'.heap = s.heap)
      (Does.any (fun _ => trivial) fun i s' h => ⟨onWorld_ok h, by rw [← (Prod.mk.inj h).2]; exact ⟨rfl, rfl⟩⟩)
    rintro i s' ⟨h, hm, hh⟩
    apply Does.pure
    refine ⟨[⟨false, rt, x⟩], [i], by simp [Carried], .cons h (.nil _), ⟨?_, fun _ => False, fun _ h => h.elim, ?_⟩⟩
    · exact ⟨by rw [hm]; exact hg, by rw [hm], fun _ h => by rw [hh]; exact h, fun _ _ _ => by rw [hm]⟩
    · intro s'' _ _ _ w w' it it' hf hL
      obtain ⟨it1, e1, f1⟩ := nextU32_feeds hf { s'' with world := w }
      cases f1
      cases hL with
      | cons h1 h2 =>
        cases h2
        have : onSt (onWorld (Handles.liftBorrow E.inst E.cx rt i)) (⟨{ s'' with world := w }, it'⟩ : LSt σ) =
            (.ok x, ⟨{ s'' with world := w' }, it'⟩) := by
          unfold onSt onWorld
          simp only
          rw [show Handles.liftBorrow E.inst E.cx rt i w = (.ok x, w') from h1]
        rw [liftFlat, SM.bind_ok e1, SM.bind_ok this]
        rfl
  | .nil, _, hv, _, _, _, _, _, _ => by simp [HasType] at hv
  | .other, _, hv, _, _, _, _, _, _ => by simp [HasType] at hv
theorem lowerFields_moves (henc : E.enc ∈ Spec.encodings) : (fs : Fields) → (m : List (String × Val)) → HasFields fs m →
    WfFields fs → LaidFields fs → ListsFitFields fs m → StringsFitFields E.enc fs m →
    (s : St σ) → Good s.mem → Does (fun _ => True) (lowerFields E fs m) s fun xs s' => ∃ hs is, CarriedFields fs m hs ∧
      Lowers E s.world hs is s'.world ∧ Wrote used (fun _ => False)
      (fun s'' => ∀ acc, Returns E (liftFields E fs acc) (.map (normFields fs m acc)) xs hs is s'') s s'
  | .nil, m, _, _, _, _, _, s, hg => by
    unfold lowerFields
    refine .pure ⟨[], [], by simp [CarriedFields], .nil _, .nothing hg ?_⟩
    intro s'' acc w w' it it' hf hL
    cases hf
    cases hL
    rw [liftFields, normFields]; rfl
  | .cons l t fs, m, hv, hw, hl, hlf, hsf, s, hg => by
    rw [HasFields] at hv
    rw [ListsFitFields] at hlf
    rw [StringsFitFields] at hsf
    rw [WfFields] at hw
    simp only [LaidFields] at hl
    unfold lowerFields
    apply Does.bind (lower_moves henc t _ hv.1 hw.1 hl.1 hlf.1 hsf.1 s hg)
    rintro a s1 ⟨hs, is, c1, l1, w1⟩
    apply Does.bind (lowerFields_moves henc fs m hv.2 hw.2 hl.2 hlf.2 hsf.2 s1 w1.step.good)
    rintro b s2 ⟨ks, js, c2, l2, w2⟩
    apply Does.pure
    refine ⟨hs ++ ks, is ++ js, by rw [CarriedFields]; exact ⟨hs, ks, c1, c2, rfl⟩, l1.append l2,
      (w1.seq w2 (fun _ h => h.elim) (fun _ h => h.elim) (fun _ h => h.elim)).imp (fun _ h => h.elim id id) ?_⟩
    intro s'' _ _ ⟨p1, p2⟩ acc w w' it it' hf hL
    obtain ⟨mid, f1, f2⟩ := hf.split
    obtain ⟨wm, L1, L2⟩ := hL.split l1.length
    rw [liftFields, normFields, SM.bind_ok (p1 w wm it mid f1 L1)]
    exact p2 _ wm w' mid it' f2 L2
theorem lowerCase_moves (henc : E.enc ∈ Spec.encodings) (all : Cases) : (cs : Cases) → (i : Nat) → (p : Val) →
    HasPayload cs i p → WfCases cs → LaidCases cs → ListsFitPayload cs i p →
    StringsFitPayload E.enc cs i p → (s : St σ) → Good s.mem →
    (∀ k l t r, cs.get? k = some (l, t, r) → ∃ ls, Chain all l r ls) →
    Does (fun _ => True) (lowerCase E cs i p) s fun xs s' => ∃ hs is, CarriedPayload cs i p hs ∧
      Lowers E s.world hs is s'.world ∧ Wrote used (fun _ => False)
      (fun s'' => ∀ ws, Carries (xs.map FV.kind) ws →
        Returns E (liftCase E all cs i ws) (normCase all cs i p)
          (List.zipWith coerceTo xs ws ++ (ws.drop xs.length).map zero) hs is s'') s s'
  | .nil, _, _, hv, _, _, _, _, _, _, _ => by simp [HasPayload] at hv
  | .cons l t r cs, 0, p, hv, hw, hl, hlf, hsf, s, hg, hch => by
    rw [HasPayload] at hv
    rw [ListsFitPayload] at hlf
    rw [StringsFitPayload] at hsf
    rw [WfCases] at hw
    simp only [LaidCases] at hl
    obtain ⟨ls, hls⟩ := hch 0 l t r rfl
    have hlab := caseLabel_chain hls
    unfold lowerCase
    by_cases ht : t = .nil
    · rw [if_pos ht]
      refine .pure ⟨[], [], by rw [CarriedPayload]; exact .inl ⟨ht, rfl⟩, .nil _, .nothing hg ?_⟩
      intro s'' ws _ w w' it it' hf hL
      cases hL
      simp only [List.zipWith_nil_left, List.nil_append, List.length_nil, List.drop_zero] at hf
      rw [liftCase, normCase, if_pos ht, SM.bind_ok (skip_feeds ws hf _), hlab, SM.bind_ok (SM.lift_def _ _)]
      simp only
      rw [if_pos ht]; rfl
    · rw [if_neg ht]
      apply (lower_moves henc t p (hv.resolve_left ht) hw.1 (hl.1.resolve_left ht) hlf hsf s hg).imp
      rintro xs s' ⟨hs, is, c, L, w⟩
      refine ⟨hs, is, by rw [CarriedPayload]; exact .inr ⟨ht, c⟩, L, w.imp (fun _ h => h) ?_⟩
      intro s'' _ _ h ws hc w w' it it' hf hL
      obtain ⟨mid, f1, f2⟩ := hf.split
      have e1 : pushFlat ws (⟨{ s'' with world := w }, it⟩ : LSt σ) = (.ok (), ⟨{ s'' with world := w }, it.push ws⟩) := rfl
      have e2 := h w w' _ _ (feeds_push xs ws hc f1) hL
      have e3 : popFlat (⟨{ s'' with world := w' }, mid.push (ws.drop xs.length)⟩ : LSt σ) =
          (.ok (ws.drop xs.length), ⟨{ s'' with world := w' }, mid⟩) := rfl
      rw [liftCase, normCase, if_neg ht, SM.bind_ok e1, SM.bind_ok e2, SM.bind_ok e3, SM.bind_ok (skip_feeds _ f2 _),
        hlab, SM.bind_ok (SM.lift_def _ _)]
      simp only
      rw [if_neg ht]; rfl
  | .cons l t r cs, i + 1, p, hv, hw, hl, hlf, hsf, s, hg, hch => by
    rw [HasPayload] at hv
    rw [ListsFitPayload] at hlf
    rw [StringsFitPayload] at hsf
    rw [WfCases] at hw
    simp only [LaidCases] at hl
    unfold lowerCase
    apply (lowerCase_moves henc all cs i p hv hw.2 hl.2 hlf hsf s hg
      (fun k l' t' r' hk => hch (k + 1) l' t' r' hk)).imp
    rintro xs s' ⟨hs, is, c, L, w⟩
    refine ⟨hs, is, by rw [CarriedPayload]; exact c, L, w.imp (fun _ h => h) ?_⟩
    intro s'' _ _ h ws hc w w' it it' hf hL
    rw [liftCase, normCase]
    exact h ws hc w w' it it' hf hL
end

end

end Verif.Abi
