import Verif.Abi.HandleRound
import Verif.Handles.Props

/-!
# What sequences of lowered and lifted handles mean
-/

namespace Verif.Abi
open Spec Handles

variable {σ : Type} {E : Env σ}

theorem lift_tables (info : RTInfo) (w : World) (h : Held) (i : U32) (hf : w.Fits) :
    (step info w (liftOp E h i)).2.Fits := by
  unfold liftOp
  split
  · intro inst rt
    have key : ((remove E.inst h.rt i w).2.tables inst rt).array.length = (w.tables inst rt).array.length := by
      have hl := remove_length (w.tables E.inst h.rt) (fun e => (w.elems e).lendCount) i
      simp only [Handles.remove]
      rcases hadd : (w.tables E.inst h.rt).remove (fun e => (w.elems e).lendCount) i with ⟨r1, t1⟩
      rw [hadd] at hl
      have : ((w.setTable E.inst h.rt t1).tables inst rt).array.length = (w.tables inst rt).array.length := by
        unfold World.setTable
        simp only
        by_cases h1 : inst = E.inst
        · subst h1
          by_cases h2 : rt = h.rt
          · subst h2; simpa using hl
          · rw [upd_same, upd_other _ _ h2]
        · rw [upd_other _ _ h1]
      rcases r1 with _ | _ | _ | _
      · simp only
        split <;> exact this
      all_goals exact this
    have : ((liftOwn E.inst h.rt i w).2.tables inst rt).array.length = (w.tables inst rt).array.length := by
      rw [← key]
      unfold liftOwn
      rw [SM.bind_def]
      rcases remove E.inst h.rt i w with ⟨r, w1⟩
      cases r <;> rfl
    show ((liftOwn E.inst h.rt i w).2.tables inst rt).array.length < 2 ^ 32
    rw [this]; exact hf inst rt
  · intro inst rt
    have : (step info w (.liftBorrow E.inst E.cx h.rt i)).2.tables = w.tables := by
      simp only [step, liftBorrow, SM.bind_def, Handles.get]
      cases (w.tables E.inst h.rt).get i <;> rfl
    rw [this]; exact hf inst rt

theorem lowerOp_ctx (h : Held) (c : CtxId) (hc : (lowerOp E h).ctx = some c) : h.own = false ∧ c = E.cx := by
  unfold lowerOp at hc
  cases ho : h.own <;> simp [ho, Op.ctx] at hc ⊢
  exact hc.symm

theorem liftOp_ctx (h : Held) (i : U32) (c : CtxId) (hc : (liftOp E h i).ctx = some c) : h.own = false ∧ c = E.cx := by
  unfold liftOp at hc
  cases ho : h.own <;> simp [ho, Op.ctx] at hc ⊢
  exact hc.symm

theorem lowers_fits {w w' : World} {hs : List Held} {is : List U32} (hL : Lowers E w hs is w') (hf : w'.Fits) : w.Fits := by
  induction hL with
  | nil => exact hf
  | @cons w w1 w2 h i hs is h1 _ ih =>
    intro inst rt
    have := step_tables_le E.info w (lowerOp E h) inst rt
    rw [h1] at this
    exact Nat.lt_of_le_of_lt this (ih hf inst rt)

/-- One lowered handle. -/
theorem lower_step {w w1 : World} {a : State} (hR : R w a) {h : Held} {i : U32}
    (h1 : step E.info w (lowerOp E h) = (.ok i, w1)) (hf : w1.Fits) (hw : w.Fits)
    (hx : h.own = false → a.exited E.cx = false) :
    R w1 (a.next E.info (lowerOp E h) (.ok i)) ∧
    (a.next E.info (lowerOp E h) (.ok i)).lends = a.lends ∧
    (a.next E.info (lowerOp E h) (.ok i)).exited = a.exited ∧
    (a.next E.info (lowerOp E h) (.ok i)).mayEnter = a.mayEnter ∧
    (Enters E h → a.live (placeOf E (h, i)) = none ∧
      (a.next E.info (lowerOp E h) (.ok i)).live = upd a.live (placeOf E (h, i)) (some (handleOf E h))) ∧
    (¬ Enters E h → i = h.rep ∧ (a.next E.info (lowerOp E h) (.ok i)).live = a.live) := by
  obtain ⟨calls, -, hA, hR'⟩ := step_ok hR E.info (lowerOp E h) (by rw [h1]; exact hf) hw fun c hc => by
    obtain ⟨h2, rfl⟩ := lowerOp_ctx h c hc
    exact hx h2
  rw [h1] at hA hR'
  refine ⟨hR', ?_⟩
  clear hR' h1
  unfold lowerOp at hA ⊢
  cases ho : h.own with
  | true =>
    simp only [ho, if_true, State.Allowed, State.AddAllowed, State.next, State.added] at hA ⊢
    refine ⟨trivial, trivial, trivial, fun _ => ⟨?_, ?_⟩, fun hn => absurd (.inl ho) hn⟩
    · obtain ⟨-, h2 | ⟨j, h2, h3⟩⟩ := hA
      · cases h2
      · injection h2 with h2
        subst h2; exact h3
    · simp [placeOf, handleOf, ho]
  | false =>
    simp only [ho, State.Allowed, State.AddAllowed, State.next, State.added, Bool.false_eq_true, if_false] at hA ⊢
    by_cases hi : E.info.impl h.rt = some E.inst
    · simp only [if_pos hi] at hA ⊢
      refine ⟨trivial, trivial, trivial, fun hn => ?_, fun _ => ⟨?_, trivial⟩⟩
      · rcases hn with hn | hn
        · rw [ho] at hn; cases hn
        · exact absurd hi hn
      · obtain ⟨-, h2⟩ := hA
        injection h2
    · simp only [if_neg hi] at hA ⊢
      refine ⟨trivial, trivial, trivial, fun _ => ⟨?_, ?_⟩, fun hn => absurd (.inr hi) hn⟩
      · obtain ⟨-, h2 | ⟨j, h2, h3⟩⟩ := hA
        · cases h2
        · injection h2 with h2
          subst h2; exact h3
      · simp [placeOf, handleOf, ho]

/-- A sequence of lowered handles: the operations it is, and their meaning. -/
theorem lowers_spec {w w' : World} {hs : List Held} {is : List U32} (hL : Lowers E w hs is w') : (a : State) → R w a →
    w'.Fits → ((∃ h ∈ hs, h.own = false) → a.exited E.cx = false) →
    (run E.info w a (hs.map (lowerOp E))).1 = w' ∧ Proper E.info w a (hs.map (lowerOp E)) ∧
    R w' (run E.info w a (hs.map (lowerOp E))).2 ∧
    (run E.info w a (hs.map (lowerOp E))).2.lends = a.lends ∧
    (run E.info w a (hs.map (lowerOp E))).2.exited = a.exited ∧
    (run E.info w a (hs.map (lowerOp E))).2.mayEnter = a.mayEnter ∧
    (∀ p ∈ hs.zip is, Enters E p.1 → a.live (placeOf E p) = none ∧
      (run E.info w a (hs.map (lowerOp E))).2.live (placeOf E p) = some (handleOf E p.1)) ∧
    (∀ p ∈ hs.zip is, ¬ Enters E p.1 → p.2 = p.1.rep) ∧
    (∀ l, (∀ p ∈ hs.zip is, Enters E p.1 → placeOf E p ≠ l) →
      (run E.info w a (hs.map (lowerOp E))).2.live l = a.live l) ∧
    ((∀ h ∈ hs, Enters E h) → ((hs.zip is).map (placeOf E)).Nodup) := by
  induction hL with
  | nil w =>
    intro a hR _ _
    simp [run, Proper, hR]
  | @cons w w1 w2 h i hs is h1 hL' ih =>
    intro a hR hf hx
    have hw1 := lowers_fits hL' hf
    have hw := lowers_fits (.cons h1 hL') hf
    obtain ⟨k1, k2, k3, k4, k5, k6⟩ := lower_step hR h1 hw1 hw fun ho => hx ⟨h, by simp, ho⟩
    obtain ⟨g1, g2, g3, g4, g5, g6, g7, g8, g9, g10⟩ := ih _ k1 hf fun ⟨x, hm, ho⟩ => by
      rw [k3]; exact hx ⟨x, by simp [hm], ho⟩
    have e : run E.info w a ((h :: hs).map (lowerOp E)) =
        run E.info w1 (a.next E.info (lowerOp E h) (.ok i)) (hs.map (lowerOp E)) := by
      rw [List.map_cons, run, h1]
    rw [e]
    have old : ∀ l, (a.next E.info (lowerOp E h) (.ok i)).live l = none → a.live l = none := by
      intro l hl
      by_cases he : Enters E h
      · rw [(k5 he).2] at hl
        by_cases hpl : l = placeOf E (h, i)
        · rw [hpl]; exact (k5 he).1
        · rw [upd_other _ _ hpl] at hl; exact hl
      · rw [(k6 he).2] at hl; exact hl
    have fresh : Enters E h → ∀ p ∈ hs.zip is, Enters E p.1 → placeOf E p ≠ placeOf E (h, i) := by
      intro he p hp hpe heq
      have := (g7 p hp hpe).1
      rw [(k5 he).2, heq, upd_same] at this
      cases this
    refine ⟨g1, ⟨?_, by rw [h1]; exact g2⟩, g3, g4.trans k2, g5.trans k3, g6.trans k4, ?_, ?_, ?_, ?_⟩
    · intro c hc
      obtain ⟨h2, rfl⟩ := lowerOp_ctx h c hc
      exact hx ⟨h, by simp, h2⟩
    · intro p hp he
      rw [List.zip_cons_cons, List.mem_cons] at hp
      rcases hp with rfl | hp
      · refine ⟨(k5 he).1, ?_⟩
        rw [g9 _ (fresh he), (k5 he).2, upd_same]
      · exact ⟨old _ (g7 p hp he).1, (g7 p hp he).2⟩
    · intro p hp he
      rw [List.zip_cons_cons, List.mem_cons] at hp
      rcases hp with rfl | hp
      · exact (k6 he).1
      · exact g8 p hp he
    · intro l hl
      rw [g9 l fun p hp => hl p (by simp [hp])]
      by_cases he : Enters E h
      · rw [(k5 he).2, upd_other _ _ (Ne.symm (hl (h, i) (by simp) he))]
      · rw [(k6 he).2]
    · intro hall
      rw [List.zip_cons_cons, List.map_cons, List.nodup_cons]
      refine ⟨?_, g10 fun x hx => hall x (by simp [hx])⟩
      intro hm
      obtain ⟨p, hp, heq⟩ := List.mem_map.1 hm
      exact fresh (hall h (by simp)) p hp (hall p.1 (by simp [(List.of_mem_zip hp).1])) heq

/-- One lifted handle. -/
theorem lift_step {w w1 : World} {a : State} (hR : R w a) {h : Held} {i r : U32}
    (h1 : step E.info w (liftOp E h i) = (.ok r, w1)) (hf : w1.Fits) (hw : w.Fits)
    (hx : h.own = false → a.exited E.cx = false) :
    R w1 (a.next E.info (liftOp E h i) (.ok r)) ∧
    (a.next E.info (liftOp E h i) (.ok r)).exited = a.exited ∧
    (∃ hd, a.live (placeOf E (h, i)) = some hd ∧ hd.rep = r) ∧
    (h.own = true → ¬ a.Lent (placeOf E (h, i)) ∧ (a.next E.info (liftOp E h i) (.ok r)).lends = a.lends ∧
      (a.next E.info (liftOp E h i) (.ok r)).live = upd a.live (placeOf E (h, i)) none) ∧
    (h.own = false → (a.next E.info (liftOp E h i) (.ok r)).live = a.live ∧
      (a.next E.info (liftOp E h i) (.ok r)).lends = (E.cx, placeOf E (h, i)) :: a.lends) := by
  obtain ⟨calls, -, hA, hR'⟩ := step_ok hR E.info (liftOp E h i) (by rw [h1]; exact hf) hw fun c hc => by
    obtain ⟨h2, rfl⟩ := liftOp_ctx h i c hc
    exact hx h2
  rw [h1] at hA hR'
  refine ⟨hR', ?_⟩
  clear hR' h1
  unfold liftOp at hA ⊢
  cases ho : h.own with
  | true =>
    simp only [ho, if_true, State.Allowed, State.next] at hA ⊢
    obtain ⟨-, hA⟩ := hA
    rcases hl : a.live ⟨E.inst, h.rt, i⟩ with _ | hd
    · rw [hl] at hA; cases hA
    · rw [hl] at hA
      simp only at hA
      split at hA
      · cases hA
      · rename_i hn
        injection hA with hA
        unfold State.removed
        rw [if_neg hn]
        refine ⟨rfl, ⟨hd, hl, hA.symm⟩, fun _ => ⟨hn, rfl, rfl⟩, fun h => by cases h⟩
  | false =>
    simp only [ho, Bool.false_eq_true, if_false, State.Allowed, State.next] at hA ⊢
    obtain ⟨-, hA⟩ := hA
    rcases hl : a.live ⟨E.inst, h.rt, i⟩ with _ | hd
    · rw [hl] at hA; cases hA
    · rw [hl] at hA
      injection hA with hA
      exact ⟨trivial, ⟨hd, hl, hA.symm⟩, fun h => h.elim, fun _ => ⟨trivial, rfl⟩⟩

/-- A sequence of lifted handles: the operations it is, and their meaning. -/
theorem lifts_spec {w w' : World} {hs : List Held} {is : List U32} (hL : Lifts E w hs is w') : (a : State) → R w a →
    w.Fits → ((∃ h ∈ hs, h.own = false) → a.exited E.cx = false) →
    (run E.info w a (List.zipWith (liftOp E) hs is)).1 = w' ∧ Proper E.info w a (List.zipWith (liftOp E) hs is) ∧
    w'.Fits ∧ R w' (run E.info w a (List.zipWith (liftOp E) hs is)).2 ∧
    (run E.info w a (List.zipWith (liftOp E) hs is)).2.exited = a.exited ∧
    (∀ p ∈ hs.zip is, ∃ hd, a.live (placeOf E p) = some hd ∧ hd.rep = p.1.rep) ∧
    (∀ p ∈ hs.zip is, p.1.own = true → (run E.info w a (List.zipWith (liftOp E) hs is)).2.live (placeOf E p) = none) ∧
    (∀ l, (∀ p ∈ hs.zip is, p.1.own = true → placeOf E p ≠ l) →
      (run E.info w a (List.zipWith (liftOp E) hs is)).2.live l = a.live l) ∧
    (∀ q, q ∈ (run E.info w a (List.zipWith (liftOp E) hs is)).2.lends ↔ q ∈ a.lends ∨
      ∃ p ∈ hs.zip is, p.1.own = false ∧ q = (E.cx, placeOf E p)) := by
  induction hL with
  | nil w =>
    intro a hR hf _
    simp [run, Proper, hR, hf]
  | @cons w w1 w2 h i hs is h1 hL' ih =>
    intro a hR hw hx
    have hw1 : w1.Fits := by
      have := lift_tables (E := E) E.info w h i hw
      rw [h1] at this; exact this
    obtain ⟨k1, k2, k3, k4, k5⟩ := lift_step hR h1 hw1 hw fun ho => hx ⟨h, by simp, ho⟩
    obtain ⟨g1, g2, g3, g4, g5, g6, g7, g8, g9⟩ := ih _ k1 hw1 fun ⟨x, hm, ho⟩ => by
      rw [k2]; exact hx ⟨x, by simp [hm], ho⟩
    have e : run E.info w a (List.zipWith (liftOp E) (h :: hs) (i :: is)) =
        run E.info w1 (a.next E.info (liftOp E h i) (.ok h.rep)) (List.zipWith (liftOp E) hs is) := by
      rw [List.zipWith_cons_cons, run, h1]
    rw [e]
    have keep : ∀ l hd, (a.next E.info (liftOp E h i) (.ok h.rep)).live l = some hd → a.live l = some hd := by
      intro l hd hl
      cases ho : h.own with
      | true =>
        rw [(k4 ho).2.2] at hl
        by_cases hpl : l = placeOf E (h, i)
        · rw [hpl, upd_same] at hl; cases hl
        · rw [upd_other _ _ hpl] at hl; exact hl
      | false => rw [(k5 ho).1] at hl; exact hl
    refine ⟨g1, ⟨?_, by rw [h1]; exact g2⟩, g3, g4, g5.trans k2, ?_, ?_, ?_, ?_⟩
    · intro c hc
      obtain ⟨h2, rfl⟩ := liftOp_ctx h i c hc
      exact hx ⟨h, by simp, h2⟩
    · intro p hp
      rw [List.zip_cons_cons, List.mem_cons] at hp
      rcases hp with rfl | hp
      · exact k3
      · obtain ⟨hd, h2, h3⟩ := g6 p hp
        exact ⟨hd, keep _ _ h2, h3⟩
    · intro p hp ho
      rw [List.zip_cons_cons, List.mem_cons] at hp
      rcases hp with rfl | hp
      · by_cases hq : ∃ q ∈ hs.zip is, q.1.own = true ∧ placeOf E q = placeOf E (h, i)
        · obtain ⟨q, hq, hqo, heq⟩ := hq
          rw [← heq]; exact g7 q hq hqo
        · rw [g8 _ fun q hq' hqo heq => hq ⟨q, hq', hqo, heq⟩, (k4 ho).2.2, upd_same]
      · exact g7 p hp ho
    · intro l hl
      rw [g8 l fun p hp => hl p (by simp [hp])]
      cases ho : h.own with
      | true => rw [(k4 ho).2.2, upd_other _ _ (Ne.symm (hl (h, i) (by simp) ho))]
      | false => rw [(k5 ho).1]
    · intro q
      rw [g9 q, List.zip_cons_cons]
      cases ho : h.own with
      | true =>
        rw [(k4 ho).2.1]
        simp only [List.mem_cons, exists_eq_or_imp, ho]
        simp
      | false =>
        rw [(k5 ho).2]
        simp only [List.mem_cons, exists_eq_or_imp, ho]
        simp only [true_and]
        constructor
        · rintro ((h | h) | h)
          · exact .inr (.inl h)
          · exact .inl h
          · exact .inr (.inr h)
        · rintro (h | (h | h))
          · exact .inl (.inr h)
          · exact .inl (.inl h)
          · exact .inr h

/-- Handles that are there, at different places and not lent, can be lifted. -/
theorem lifts_exist : (hs : List Held) → (is : List U32) → hs.length = is.length → (w : World) → (a : State) → R w a →
    w.Fits → ((∃ h ∈ hs, h.own = false) → a.exited E.cx = false) → ((hs.zip is).map (placeOf E)).Nodup →
    (∀ p ∈ hs.zip is, ∃ hd, a.live (placeOf E p) = some hd ∧ hd.rep = p.1.rep ∧
      (p.1.own = true → ¬ a.Lent (placeOf E p))) → ∃ w', Lifts E w hs is w'
  | [], [], _, w, _, _, _, _, _, _ => ⟨w, .nil w⟩
  | h :: hs, i :: is, hlen, w, a, hR, hw, hx, hn, hlive => by
    have hw1 := lift_tables (E := E) E.info w h i hw
    rcases e : step E.info w (liftOp E h i) with ⟨r, w1⟩
    rw [e] at hw1
    obtain ⟨calls, -, hA, -⟩ := step_ok hR E.info (liftOp E h i) (by rw [e]; exact hw1) hw fun c hc => by
      obtain ⟨h2, rfl⟩ := liftOp_ctx h i c hc
      exact hx ⟨h, by simp, h2⟩
    rw [e] at hA
    obtain ⟨hd, l1, l2, l3⟩ := hlive (h, i) (by simp)
    have hr : r = .ok h.rep := by
      unfold liftOp at hA
      have l1' : a.live ⟨E.inst, h.rt, i⟩ = some hd := l1
      cases ho : h.own with
      | true =>
        have l3' : ¬ a.Lent ⟨E.inst, h.rt, i⟩ := l3 ho
        simp only [ho, if_true, State.Allowed, l1', if_neg l3'] at hA
        rw [hA.2, l2]
      | false =>
        simp only [ho, Bool.false_eq_true, if_false, State.Allowed, l1'] at hA
        rw [hA.2, l2]
    subst hr
    obtain ⟨k1, k2, k3, k4, k5⟩ := lift_step hR e hw1 hw fun ho => hx ⟨h, by simp, ho⟩
    rw [List.zip_cons_cons, List.map_cons, List.nodup_cons] at hn
    have hne : ∀ p ∈ hs.zip is, placeOf E p ≠ placeOf E (h, i) := fun p hp heq =>
      hn.1 (List.mem_map.2 ⟨p, hp, heq⟩)
    obtain ⟨w', hL⟩ := lifts_exist hs is (by simpa using hlen) w1 _ k1 hw1
      (fun ⟨x, hm, ho⟩ => by rw [k2]; exact hx ⟨x, by simp [hm], ho⟩) hn.2 fun p hp => by
        obtain ⟨hd, l1, l2, l3⟩ := hlive p (by simp [hp])
        cases ho : h.own with
        | true =>
          refine ⟨hd, by rw [(k4 ho).2.2, upd_other _ _ (hne p hp)]; exact l1, l2, fun hpo ⟨c, hc⟩ => ?_⟩
          rw [(k4 ho).2.1] at hc
          exact l3 hpo ⟨c, hc⟩
        | false =>
          refine ⟨hd, by rw [(k5 ho).1]; exact l1, l2, fun hpo ⟨c, hc⟩ => ?_⟩
          rw [(k5 ho).2, List.mem_cons] at hc
          rcases hc with hc | hc
          · exact hne p hp (Prod.mk.inj hc).2
          · exact l3 hpo ⟨c, hc⟩
    exact ⟨w', .cons e hL⟩

end Verif.Abi
