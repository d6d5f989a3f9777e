import Verif.Abi.HandleBooks
import Verif.Abi.CanonHandles

/-!
# Properties C22 (handles), C88, C90 and C91 after every history

The same claims as in `HandleProps` and `CanonHandles`, after histories that may use calls after their end, and for calls
that may have ended: what matters is only that no table has `2 ^ 32` slots. What happened is said by the books (`Ledger`) or
by what the operations return.
-/

namespace Verif.Abi
open Spec Handles

variable {σ : Type}

/-! ## C88 -/

/-- **C88, lowering, after every history.** If `LowerFlat` of a value succeeds, the receiving instance got exactly the
handles in the value, one each and from left to right, and no other handle of any instance changed. Their indices are the
words for the handles among the flat values returned.
Missing, because it is false: tables with `2 ^ 32` slots (`Handles.add_returns_live`). -/
theorem lower_gives_any_partial (E : Env σ) (ops : List Op) (t : VT) (v : Val) (s s' : St σ)
    (hs : s.world = World.after E.info ops) (fs : List FV) (h : t.lower E v s = (.ok fs, s')) (hf : s'.world.Fits) :
    ∃ hs is, Carried t.core v hs ∧ s'.world = World.after E.info (ops ++ hs.map (lowerOp E)) ∧
      Entered E hs is (Ledger.after E.info ops) (Ledger.after E.info (ops ++ hs.map (lowerOp E))) ∧
      WordsIn s'.mem t.core v fs is := by
  obtain ⟨hl, is, c, L, w⟩ := lowerFlat_lowers t.core v s fs s' h
  rw [hs] at L
  obtain ⟨k1, k2⟩ := lowers_books_history ops L hf
  exact ⟨hl, is, c, k1, k2, w _ _ (.refl _)⟩

/-- **C88, lifting, after every history.** Likewise `LiftFlat`: the handles in the value it returns were those at the
indices given; the owned ones were taken out and the borrowed ones have a loan more, taken by the call; no other handle
changed. Missing: tables with `2 ^ 32` slots, and types with repeated labels (`repeated_label_two_owners`: false there)
or otherwise not `Wf`. -/
theorem lift_takes_any_partial (E : Env σ) (ops : List Op) (hf : (World.after E.info ops).Fits) (t : VT) (hw : Wf t.core)
    (v : Val) (s s' : LSt σ) (hs : s.st.world = World.after E.info ops) (h : t.lift E s = (.ok v, s')) :
    ∃ hs is, Carried t.core v hs ∧ s'.st.world = World.after E.info (ops ++ List.zipWith (liftOp E) hs is) ∧
      Left E hs is (Ledger.after E.info ops) (Ledger.after E.info (ops ++ List.zipWith (liftOp E) hs is)) ∧
      WordsIn s.st.mem t.core v (s.it.values.drop s.it.index) is := by
  obtain ⟨hl, is, c, L, w⟩ := liftFlat_lifts t.core hw s v s' h
  rw [hs] at L
  obtain ⟨k1, -, k2⟩ := lifts_books_history ops hf L
  exact ⟨hl, is, c, k1, k2, w⟩

/-- **C88, loading, after every history.** Likewise `Load`; the indices are the words for the handles in memory, for a type
that has a layout. Missing: tables with `2 ^ 32` slots, and types with repeated labels (`repeated_label_two_owners`: false
there) or otherwise not `Wf`. -/
theorem load_takes_any_partial (E : Env σ) (ops : List Op) (hf : (World.after E.info ops).Fits) (t : VT) (hw : Wf t.core)
    (v : Val) (ptr : U32) (s s' : St σ) (hs : s.world = World.after E.info ops) (h : t.load E ptr s = (.ok v, s')) :
    ∃ hs is, Carried t.core v hs ∧ s'.world = World.after E.info (ops ++ List.zipWith (liftOp E) hs is) ∧
      Left E hs is (Ledger.after E.info ops) (Ledger.after E.info (ops ++ List.zipWith (liftOp E) hs is)) ∧
      (Laid t.core → WordsAt s.mem t.core v ptr is) := by
  obtain ⟨hl, is, c, L, w⟩ := load_lifts t.core hw ptr s v s' h
  rw [hs] at L
  obtain ⟨k1, -, k2⟩ := lifts_books_history ops hf L
  exact ⟨hl, is, c, k1, k2, w⟩

/-! ## C90 -/

/-- **C90, after every history**, said by what `resource.rep` and lifting return. A value is lifted out of one instance and
then lowered into another. For each owned handle in it, `resource.rep` at its index returned its representation in the first
instance and now fails there; in the second instance the index it got was refused before, `resource.rep` returns the
representation there now, lifting it as an owned handle would succeed, and the books have it as owned.
The indices are the words for the handles among the flat values lifted and returned.
Missing: tables with `2 ^ 32` slots, and types with repeated labels (`repeated_label_two_owners`: false there) or otherwise
not `Wf`. -/
theorem pass_moves_owned_any_partial (A B : Env σ) (hi : A.info = B.info) (hab : A.inst ≠ B.inst) (ops : List Op)
    (t : VT) (hw : Wf t.core) (v : Val) (sA sA' : LSt σ) (hs : sA.st.world = World.after A.info ops)
    (h1 : t.lift A sA = (.ok v, sA')) (sB sB' : St σ) (hB : sB.world = sA'.st.world) (fs : List FV)
    (h2 : t.lower B v sB = (.ok fs, sB')) (hf0 : sA.st.world.Fits) (hf : sB'.world.Fits) :
    ∃ hs is js, Carried t.core v hs ∧ is.length = hs.length ∧ js.length = hs.length ∧
      WordsIn sA.st.mem t.core v (sA.it.values.drop sA.it.index) is ∧ WordsIn sB'.mem t.core v fs js ∧
      (∀ p ∈ hs.zip is, p.1.own = true →
        (step A.info sA.st.world (.rep A.inst p.1.rt p.2)).1 = .ok p.1.rep ∧
        (step A.info sB'.world (.rep A.inst p.1.rt p.2)).1 = .err) ∧
      (∀ p ∈ hs.zip js, p.1.own = true →
        (step A.info sA.st.world (.rep B.inst p.1.rt p.2)).1 = .err ∧
        (step A.info sB'.world (.rep B.inst p.1.rt p.2)).1 = .ok p.1.rep ∧
        (step A.info sB'.world (.liftOwn B.inst p.1.rt p.2)).1 = .ok p.1.rep ∧
        ∃ ops' n, sB'.world = World.after A.info ops' ∧ (Ledger.after A.info ops').stands (placeOf B p) = some n ∧
          ((Ledger.after A.info ops').handle n).own = true) := by
  obtain ⟨hl, is, c1, L1, w1⟩ := liftFlat_lifts t.core hw sA v sA' h1
  rw [hs] at L1 hf0
  obtain ⟨k1, k2, k4⟩ := lifts_books_history ops hf0 L1
  obtain ⟨hl', js, c2, L2, w2⟩ := lowerFlat_lowers t.core v sB fs sB' h2
  obtain rfl := carried_unique _ _ _ _ c1 c2
  rw [hB, k1, hi] at L2
  obtain ⟨m1, m4⟩ := lowers_books_history _ L2 hf
  have hfB : (World.after A.info ((ops ++ List.zipWith (liftOp A) hl is) ++ hl.map (lowerOp B))).Fits := by
    rw [hi, ← m1]; exact hf
  refine ⟨hl, is, js, c1, k4.length, m4.length, w1, w2 _ _ (.refl _), ?_, ?_⟩
  · intro p hp ho
    constructor
    · obtain ⟨n, n1, n2⟩ := k4.had p hp
      have := ((uses_by_books A.info ops hf0 (placeOf A p) 0).2 n n1).1
      rw [hs, ← n2]; exact this
    · have e : (Ledger.after A.info ((ops ++ List.zipWith (liftOp A) hl is) ++ hl.map (lowerOp B))).stands (placeOf A p) = none := by
        rw [hi, m4.others _ fun q _ _ heq => hab ?_, ← hi]
        · exact k4.gone p hp ho
        · exact (congrArg Loc.inst heq).symm
      have := ((uses_by_books A.info _ hfB (placeOf A p) 0).1 e).1
      rw [m1, ← hi]; exact this
  · intro p hp ho
    obtain ⟨n1, n, n2, -, n3, n4⟩ := m4.new p hp (.inl ho)
    rw [← hi, k4.others _ fun q _ _ heq => hab ?_] at n1
    · rw [← hi] at n2 n3 n4
      have u := (uses_by_books A.info _ hfB (placeOf B p) 0).2 n n2
      rw [n3, if_pos n4] at u
      refine ⟨?_, ?_, ?_, _, n, by rw [m1, ← hi], n2, by rw [n3]; simp [handleOf, ho]⟩
      · rw [hs]; exact ((uses_by_books A.info ops hf0 (placeOf B p) 0).1 n1).1
      · rw [m1, ← hi]; exact u.1
      · rw [m1, ← hi]; exact u.2.2
    · exact congrArg Loc.inst heq

/-! ## C22 -/

/-- **C22, with handles, after every history**: as `lower_lift_handles_partial`, without asking how the tables came to be
or whether the call has ended. Missing: more than 64 flags (`lower_flags_over_64`: false there); borrowed handles lowered
into the instance that implements them (`borrow_home_not_lifted`: false there); tables with `2 ^ 32` slots. -/
theorem lower_lift_handles_any_partial (E : Env σ) (used : σ → Nat → Prop) (G : GoodAlloc E used)
    (henc : E.enc ∈ Spec.encodings) (ops : List Op)
    (t : VT) (v : Val) (ht : HasType t.core v) (hw : Wf t.core) (hlf : ListsFit t.core v)
    (hsf : StringsFit E.enc t.core v) (hs : List Held) (hc : Carried t.core v hs) (hen : ∀ h ∈ hs, Enters E h)
    (s s' : St σ) (hsw : s.world = World.after E.info ops) (hg : s.mem.len < 2 ^ 32 ∧ s.mem.len ≤ s.mem.cap)
    (fs : List FV) (h : t.lower E v s = (.ok fs, s')) (hf : s'.world.Fits) (before rest : List FV) :
    ∃ w is w2 ops', t.lift E ⟨s', itAt (before ++ fs ++ rest) before.length⟩ =
        (.ok w, ⟨{ s' with world := w2 }, itAt (before ++ fs ++ rest) (before.length + fs.length)⟩) ∧
      Same t.core v w ∧ is.length = hs.length ∧ w2 = World.after E.info (ops ++ ops') ∧
      (∀ p ∈ hs.zip is, (Ledger.after E.info ops).stands (placeOf E p) = none ∧
        if p.1.own then (Ledger.after E.info (ops ++ ops')).stands (placeOf E p) = none
        else ∃ n, (Ledger.after E.info (ops ++ ops')).stands (placeOf E p) = some n ∧
          (Ledger.after E.info (ops ++ ops')).handle n = ⟨p.1.rep, false, some E.cx⟩ ∧
          (Ledger.after E.info (ops ++ ops')).loans n = 1) ∧
      (∀ l, (∀ p ∈ hs.zip is, placeOf E p ≠ l) →
        (Ledger.after E.info (ops ++ ops')).stands l = (Ledger.after E.info ops).stands l) ∧
      (∀ n, n < (Ledger.after E.info ops).count →
        (Ledger.after E.info (ops ++ ops')).handle n = (Ledger.after E.info ops).handle n ∧
        (Ledger.after E.info (ops ++ ops')).loans n = (Ledger.after E.info ops).loans n) := by
  unfold VT.lower at h
  unfold VT.lift
  generalize t.core = t at *
  have hl := laid_of_flatten t _ (lower_kinds E t v s s' fs h)
  rcases lower_moves G henc t v ht hw hl hlf hsf s hg with ⟨fs', s2, e, hs', is, c, L, w⟩ | ⟨e, -⟩
  · rw [h] at e
    injection e with e1 e
    injection e1 with e1
    subst e e1
    obtain rfl := carried_unique _ _ _ _ hc c
    obtain ⟨F, -, hF⟩ := w.foot
    have ret := hF s' (Nat.le_refl _) w.step.good (fun _ _ => rfl)
    rw [hsw] at L
    obtain ⟨k1, k4⟩ := lowers_books_history ops L hf
    have nodup := k4.apart hen
    have hfw : (World.after E.info (ops ++ hs.map (lowerOp E))).Fits := by rw [← k1]; exact hf
    have isnew : ∀ p ∈ hs.zip is, _ := fun p hp => k4.new p hp (hen _ (List.of_mem_zip hp).1)
    have diff : ∀ p ∈ hs.zip is, ∀ q ∈ hs.zip is, p ≠ q →
        (Ledger.after E.info (ops ++ hs.map (lowerOp E))).stands (placeOf E p) ≠
        (Ledger.after E.info (ops ++ hs.map (lowerOp E))).stands (placeOf E q) := fun p hp q hq hpq =>
      k4.differ p hp q hq (hen _ (List.of_mem_zip hp).1) (hen _ (List.of_mem_zip hq).1) fun heq =>
        hpq (List.inj_on_of_nodup_map nodup hp hq heq)
    obtain ⟨w2, L2⟩ := lifts_exist_books (E := E) hs is k4.length.symm _ _ (books_ok E.info _ hfw) hfw nodup (fun p hp => by
        obtain ⟨-, n, n1, -, n2, n3⟩ := isnew p hp
        exact ⟨n, n1, by rw [n2]; rfl, fun _ => n3⟩) diff
    obtain ⟨m1, -, m4⟩ := lifts_books_history _ hfw L2
    rw [← k1] at L2
    have old : ∀ n, (∀ p ∈ hs.zip is, p.1.own = false →
        (Ledger.after E.info (ops ++ hs.map (lowerOp E))).stands (placeOf E p) ≠ some n) →
        lentOf E (Ledger.after E.info (ops ++ hs.map (lowerOp E))) hs is n = 0 := by
      intro n hn
      unfold lentOf
      rw [List.countP_eq_zero]
      intro p hp
      cases ho : p.1.own with
      | true => simp
      | false => simpa using hn p hp ho
    refine ⟨norm t v, is, w2, hs.map (lowerOp E) ++ List.zipWith (liftOp E) hs is, ?_, same_norm t v ht hw, k4.length, ?_⟩
    · exact ret _ _ _ _ (feeds_base fs before rest) L2
    · rw [← List.append_assoc]
      refine ⟨m1, ?_, ?_, ?_⟩
      · intro p hp
        obtain ⟨n0, n, n1, n2, n3, n4⟩ := isnew p hp
        refine ⟨n0, ?_⟩
        cases ho : p.1.own with
        | true => exact m4.gone p hp ho
        | false =>
          refine ⟨n, ?_, ?_, ?_⟩
          · rw [m4.others _ fun q hq hqo heq => ?_, n1]
            have : q = p := List.inj_on_of_nodup_map nodup hq hp heq
            rw [this, ho] at hqo; cases hqo
          · rw [m4.same, n3]; simp [handleOf, ho]
          · rw [m4.loans, n4]
            have hone : lentOf E (Ledger.after E.info (ops ++ hs.map (lowerOp E))) hs is n = 1 := by
              unfold lentOf
              rw [List.countP_eq_length_filter]
              have hnd : (hs.zip is).Nodup := List.Nodup.of_map _ nodup
              have hsub : (hs.zip is).filter (fun p => !p.1.own &&
                  (Ledger.after E.info (ops ++ hs.map (lowerOp E))).stands (placeOf E p) == some n) = [p] := by
                have h1 := hnd.filter (fun p => !p.1.own &&
                  (Ledger.after E.info (ops ++ hs.map (lowerOp E))).stands (placeOf E p) == some n)
                refine List.perm_singleton.1 ((List.perm_ext_iff_of_nodup h1 (List.nodup_singleton p)).2 fun q => ?_)
                rw [List.mem_filter, List.mem_singleton]
                constructor
                · rintro ⟨hq, hq2⟩
                  simp only [Bool.and_eq_true, beq_iff_eq] at hq2
                  exact Classical.byContradiction fun hqp => diff q hq p hp hqp (hq2.2.trans n1.symm)
                · rintro rfl
                  exact ⟨hp, by simp [ho, n1]⟩
              rw [hsub]; rfl
            rw [hone]; rfl
      · intro l hne
        rw [m4.others l fun p hp _ => hne p hp, k4.others l fun p hp _ => hne p hp]
      · intro n hn
        obtain ⟨j1, j2⟩ := k4.same n hn
        rw [m4.same, m4.loans, j1, j2, old n fun p hp ho heq => ?_]
        · exact ⟨rfl, by simp⟩
        · obtain ⟨-, n', n1, n2, -⟩ := isnew p hp
          rw [n1] at heq
          injection heq with heq
          omega
  · rw [h] at e; exact absurd rfl (e fs)

/-! ## C91 -/

/-- The number stands for a call that has taken no loans and has no borrowed handles. -/
structure Spec.Unused (g : Ledger) (c : CtxId) : Prop where
  taken : g.taken c = []
  held : g.held c = 0

theorem Spec.HandlesAfter.fits {info : RTInfo} {ops : List Op} {w : World} (h : HandlesAfter info ops w)
    (hf : (World.after info ops).Fits) : w.Fits := by
  obtain ⟨g, rfl⟩ := h
  exact hf

theorem Spec.HandlesAfter.newCtx_any {info : RTInfo} {ops : List Op} {w : World} (h : HandlesAfter info ops w)
    (hfit : (World.after info ops).Fits) {c : CtxId} (hf : Unused (Ledger.after info ops) c) :
    HandlesAfter info ops (w.setCtx c ⟨[], 0⟩) := by
  obtain ⟨g, rfl⟩ := h
  refine ⟨g, ?_⟩
  have hQ := books_ok info ops hfit
  have this : (World.after info ops).ctxs c = ⟨[], 0⟩ := by
    have h1 := hQ.taken c
    have h2 := hQ.held c
    rw [hf.taken] at h1
    rw [hf.held] at h2
    rcases hx : (World.after info ops).ctxs c with ⟨ls, n⟩
    rw [hx] at h1 h2
    simp only at h1 h2
    rw [h1, h2]
  unfold World.setCtx
  congr 1
  funext x
  by_cases hx : x = c
  · rw [hx, upd_same]; exact this.symm
  · rw [upd_other _ _ hx]

theorem Spec.HandlesAfter.lowers_any {E : Env σ} {ops : List Op} {w w' : World} (h : HandlesAfter E.info ops w)
    {hs : List Held} {is : List U32} (hL : Lowers E w hs is w') (hf : w'.Fits) :
    HandlesAfter E.info (ops ++ hs.map (lowerOp E)) w' ∧
    Entered E hs is (Ledger.after E.info ops) (Ledger.after E.info (ops ++ hs.map (lowerOp E))) := by
  obtain ⟨g, rfl⟩ := h
  have hL' := lowers_leave hL (World.after E.info ops).mayLeave
  obtain ⟨k1, k4⟩ := lowers_books_history ops hL' hf
  exact ⟨⟨w'.mayLeave, by rw [← k1]⟩, k4⟩

theorem Spec.HandlesAfter.lifts_any {E : Env σ} {ops : List Op} {w w' : World} (h : HandlesAfter E.info ops w)
    (hf : w.Fits) {hs : List Held} {is : List U32} (hL : Lifts E w hs is w') :
    HandlesAfter E.info (ops ++ List.zipWith (liftOp E) hs is) w' ∧
    Left E hs is (Ledger.after E.info ops) (Ledger.after E.info (ops ++ List.zipWith (liftOp E) hs is)) := by
  obtain ⟨g, rfl⟩ := h
  have hL' := lifts_leave hL (World.after E.info ops).mayLeave
  obtain ⟨k1, -, k4⟩ := lifts_books_history ops hf hL'
  exact ⟨⟨w'.mayLeave, by rw [← k1]⟩, k4⟩

/-- **C91, the called side, after every history**, for arguments and results passed flat. A call through `CanonLift` that succeeds has called
the function once; before, the instance was given exactly the handles in the arguments, and after, whatever the function
did to handles meanwhile, exactly the handles in the results were taken from it. Their indices are the words for the handles among the flat values
the function got and returned. Missing: spilled arguments and
results, which do not arrive at all (`canonLift_spilled_fails`, `spilled_results_lost`); tables with `2 ^ 32` slots. -/
theorem canonLift_handles_any_partial (S : Side σ) (ord : List (String × Val) → List (String × Val))
    (callee : List Core → SM (Sys σ) (Option (List Core))) (ft : FuncTy) (args : List Val) (mp mr : Nat)
    (kp kr : List Kind) (hkp : flattenTypes ft.params = .ok kp) (hkr : flattenTypes ft.results = .ok kr)
    (hlp : kp.length ≤ mp) (hlr : kr.length ≤ mr) (hw : ∀ t ∈ ft.results, Wf t)
    (ops : List Op) (hfit0 : (World.after S.E.info ops).Fits) (s s' : Sys σ) (hs : HandlesAfter S.E.info ops s.world)
    (hf : Unused (Ledger.after S.E.info ops) S.E.cx) (vs : List Val) (post : Option (SM (Sys σ) Unit))
    (h : canonLift S ord callee ft args mp mr s = (.ok (vs, post), s')) :
    ∃ xs s1 rs s2, callee (xs.map .fv) s1 = (.ok (some (rs.map .fv)), s2) ∧
      (s1.world.Fits → ∃ hs is, CarriedAll ft.params args hs ∧
        HandlesAfter S.E.info (ops ++ hs.map (lowerOp S.E)) s1.world ∧
        Entered S.E hs is (Ledger.after S.E.info ops) (Ledger.after S.E.info (ops ++ hs.map (lowerOp S.E))) ∧
        WordsInAll (s1.mems S.o) ft.params args xs is) ∧
      ∀ ops2, HandlesAfter S.E.info ops2 s2.world → s2.world.Fits →
        ∃ hs is, CarriedAll ft.results vs hs ∧
          HandlesAfter S.E.info (ops2 ++ List.zipWith (liftOp S.E) hs is) s'.world ∧
          Left S.E hs is (Ledger.after S.E.info ops2) (Ledger.after S.E.info (ops2 ++ List.zipWith (liftOp S.E) hs is)) ∧
          WordsInAll (s2.mems S.o) ft.results vs rs is := by
  unfold canonLift at h
  rw [SM.bind_get, SM.ite_app] at h
  split at h
  · cases h
  · rw [SM.ite_app] at h
    split at h
    · cases h
    · obtain ⟨_, t1, e1, h1⟩ := SM.bind_eq_ok.1 h
      obtain ⟨_, t2, e2, h2⟩ := SM.bind_eq_ok.1 h1
      obtain ⟨xs, t3, e3, h3⟩ := SM.bind_eq_ok.1 h2
      obtain ⟨_, t4, e4, h4⟩ := SM.bind_eq_ok.1 h3
      obtain ⟨rs, t5, e5, h5⟩ := SM.bind_eq_ok.1 h4
      clear h h1 h2 h3 h4
      obtain rfl := (Prod.mk.inj e1).2
      obtain rfl := (Prod.mk.inj e2).2
      obtain rfl := (Prod.mk.inj e4).2
      cases rs with
      | none => cases h5
      | some rs =>
        simp only at h5
        obtain ⟨ws, t6, e6, h6⟩ := SM.bind_eq_ok.1 h5
        obtain ⟨r, t7, e7, h7⟩ := SM.bind_eq_ok.1 h6
        clear h5 h6
        obtain rfl := castValues_ok (Prod.mk.inj e6).1
        obtain rfl := (Prod.mk.inj e6).2
        obtain rfl := (Prod.mk.inj h7).2
        have hr := (Prod.mk.inj h7).1
        injection hr with hr
        obtain ⟨rfl, -⟩ := Prod.mk.inj hr
        obtain ⟨fs, hl, is, rfl, c, L, w⟩ := lowerValues_lowers hkp hlp e3
        refine ⟨fs, _, ws, _, e5, ?_, ?_⟩
        · intro hfit
          have hin := (hs.newCtx_any hfit0 hf).leave (upd s.world.mayLeave S.E.inst false)
          obtain ⟨k1, k2⟩ := HandlesAfter.lowers_any hin L hfit
          exact ⟨hl, is, c, k1.leave _, k2, w _⟩
        · intro ops2 hs2 hf2
          obtain ⟨hl, is, c, L, w⟩ := liftValues_lifts hw hkr hlr e7
          obtain ⟨k1, k2⟩ := hs2.lifts_any hf2 L
          exact ⟨hl, is, c, k1, k2, w⟩

/-- **C91, the calling side, after every history**, for arguments and results passed flat. A call through `CanonLower` that succeeds has called
the function once; before, exactly the handles in the arguments were taken from the instance, after, whatever the
function did to handles meanwhile, it was given exactly the handles in the results, and at last the call was ended. Their indices are the words for the handles
among the flat values given and returned.
Missing: spilled arguments and results, which do not arrive at all; tables with `2 ^ 32` slots. -/
theorem canonLower_handles_any_partial (S : Side σ) (ord : List (String × Val) → List (String × Val))
    (callee : List Val → SM (Sys σ) (List Val × Option (SM (Sys σ) Unit))) (imp : Bool) (ft : FuncTy)
    (flatArgs out : List Core) (mp mr : Nat)
    (kp kr : List Kind) (hkp : flattenTypes ft.params = .ok kp) (hkr : flattenTypes ft.results = .ok kr)
    (hlp : kp.length ≤ mp) (hlr : kr.length ≤ mr) (hw : ∀ t ∈ ft.params, Wf t)
    (ops : List Op) (hfit0 : (World.after S.E.info ops).Fits) (s s' : Sys σ) (hs : HandlesAfter S.E.info ops s.world)
    (hf : Unused (Ledger.after S.E.info ops) S.E.cx)
    (h : canonLower S ord callee imp ft flatArgs mp mr s = (.ok out, s')) :
    ∃ fs gs args s1 rs p s2 s3 s4, flatArgs = fs.map .fv ∧ out = gs.map .fv ∧
      callee args s1 = (.ok (rs, some p), s2) ∧ p s3 = (.ok (), s4) ∧
      (∃ hs is, CarriedAll ft.params args hs ∧
        HandlesAfter S.E.info (ops ++ List.zipWith (liftOp S.E) hs is) s1.world ∧
        Left S.E hs is (Ledger.after S.E.info ops) (Ledger.after S.E.info (ops ++ List.zipWith (liftOp S.E) hs is)) ∧
        WordsInAll (s.mems S.o) ft.params args fs is) ∧
      (∀ ops2, HandlesAfter S.E.info ops2 s2.world → s3.world.Fits →
        ∃ hs is, CarriedAll ft.results rs hs ∧
          HandlesAfter S.E.info (ops2 ++ hs.map (lowerOp S.E)) s3.world ∧
          Entered S.E hs is (Ledger.after S.E.info ops2) (Ledger.after S.E.info (ops2 ++ hs.map (lowerOp S.E))) ∧
          WordsInAll (s3.mems S.o) ft.results rs gs is) ∧
      ∀ ops3, HandlesAfter S.E.info ops3 s4.world →
        HandlesAfter S.E.info (ops3 ++ .exit S.E.cx :: if imp then [.flag S.E.inst true] else []) s'.world := by
  unfold canonLower at h
  obtain ⟨_, t1, e1, h1⟩ := SM.bind_eq_ok.1 h
  obtain rfl := (Prod.mk.inj e1).2
  rw [SM.bind_get, SM.ite_app] at h1
  split at h1
  · cases h1
  rw [SM.ite_app] at h1
  split at h1
  · cases h1
  obtain ⟨vs, t2, e2, h2⟩ := SM.bind_eq_ok.1 h1
  obtain ⟨args, t3, e3, h3⟩ := SM.bind_eq_ok.1 h2
  obtain ⟨r, t4, e4, h4⟩ := SM.bind_eq_ok.1 h3
  obtain ⟨_, t5, e5, h5⟩ := SM.bind_eq_ok.1 h4
  obtain ⟨flat, t6, e6, h6⟩ := SM.bind_eq_ok.1 h5
  obtain ⟨_, t7, e7, h7⟩ := SM.bind_eq_ok.1 h6
  clear h h1 h2 h3 h4 h5 h6
  obtain rfl := castValues_ok (Prod.mk.inj e2).1
  obtain rfl := (Prod.mk.inj e2).2
  obtain rfl := (Prod.mk.inj e5).2
  obtain rfl := (Prod.mk.inj e7).2
  rcases r with ⟨rs, _ | p⟩
  · cases h7
  simp only at h7
  obtain ⟨_, t8, e8, h8⟩ := SM.bind_eq_ok.1 h7
  obtain ⟨_, t9, e9, h9⟩ := SM.bind_eq_ok.1 h8
  clear h7 h8
  obtain ⟨gs, hl', is', rfl, c', L', w'⟩ := lowerValues_lowers hkr hlr e6
  have hout : out = gs.map .fv := by
    cases imp with
    | false =>
      rw [if_neg (by simp)] at h9
      exact (Res.ok.inj (Prod.mk.inj h9).1).symm
    | true =>
      rw [if_pos rfl] at h9
      obtain ⟨_, t10, e10, h10⟩ := SM.bind_eq_ok.1 h9
      exact (Res.ok.inj (Prod.mk.inj h10).1).symm
  refine ⟨vs, gs, args.1, t3, rs, p, t4, _, t8, rfl, hout, e4, e8, ?_, ?_, ?_⟩
  · obtain ⟨hl, is, c, L, w⟩ := liftValues_lifts hw hkp hlp e3
    have hin := hs.newCtx_any hfit0 hf
    obtain ⟨k1, k2⟩ := hin.lifts_any (hin.fits hfit0) L
    exact ⟨hl, is, c, k1, k2, w⟩
  · intro ops2 hs2 hfit
    obtain ⟨k1, k2⟩ := Spec.HandlesAfter.lowers_any (hs2.leave _) L' hfit
    exact ⟨hl', is', c', k1.leave _, k2, w' _⟩
  · intro ops3 hs3
    have k := hs3.exit e9
    cases imp with
    | false =>
      rw [if_neg (by simp)] at h9
      obtain rfl := (Prod.mk.inj h9).2
      exact k
    | true =>
      rw [if_pos rfl] at h9
      obtain ⟨_, t10, e10, h10⟩ := SM.bind_eq_ok.1 h9
      obtain rfl := (Prod.mk.inj e10).2
      obtain rfl := (Prod.mk.inj h10).2
      obtain ⟨g, hg⟩ := k
      refine ⟨g, ?_⟩
      rw [if_pos rfl, ← List.singleton_append, ← List.append_assoc, (after_snoc _ _ _).1]
      show { t9.world with mayEnter := upd t9.world.mayEnter S.E.inst true } = _
      rw [hg]; rfl


/-! ## A borrowed handle at home -/

/-- Instance 0, which implements resource type 5. -/
def exHome : Env Nat := { bumpEnv "utf-8" with inst := 0, cx := 1, info := demoInfo }

/-- **C22 is false for a borrowed handle lowered into the instance that implements its resource.** The instance gets the
representation itself, as the component model says, and `LiftFlat` takes that for an index: with nothing there it fails, and
when the instance has a handle at that index it returns another resource. -/
theorem borrow_home_not_lifted :
    ((VT.borrow 5).lower exHome (.u32 1) bumpSt).1 = .ok [.u32 1] ∧
    ((VT.borrow 5).lift exHome ⟨bumpSt, itAt [.u32 1] 0⟩).1 = .err ∧
    (let s := { bumpSt with world := World.after demoInfo [.new 0 5 42, .new 0 5 43] }
     ((VT.borrow 5).lower exHome (.u32 1) s).1 = .ok [.u32 1] ∧
     ((VT.borrow 5).lift exHome ⟨s, itAt [.u32 1] 0⟩).1 = .ok (.u32 43)) := ⟨rfl, rfl, rfl, rfl⟩

/-! ## Examples -/

/-- A history that is not `Valid`: call 1 has ended, and a handle is lent to it afterwards. -/
def exLate : List Op := [.exit 1, .new 0 5 42, .new 0 6 77, .liftBorrow 0 1 6 0, .exit 1, .exit 1]

example : ¬ Valid demoInfo exLate := by
  intro h
  have := h.1
  simp only [exLate, Proper] at this
  exact absurd (this.2.2.2.1 1 rfl) (by decide)

/-- The hypotheses of C88, C90 and C22 hold after it: the value of `HandleProps` is lifted out of instance 0 during the
ended call, and then lowered into instance 2. -/
example :
    let s : St Nat := { bumpSt with world := World.after demoInfo exLate }
    let l := exHTy.lift exHA ⟨s, itAt [.u32 0, .u32 7, .u32 1, .u32 0, .u32 0] 0⟩
    l.1 = .ok exHVal ∧ (exHTy.lower exHB exHVal l.2.st).1 = .ok [.u32 0, .u32 7, .u32 1, .u32 0, .u32 0] ∧
    (World.after demoInfo exLate).Fits := by
  refine ⟨rfl, rfl, fun inst rt => ?_⟩
  have := run_tables_length demoInfo .init .init exLate inst rt
  have e1 : exLate.length = 6 := rfl
  have e2 : (World.init.tables inst rt).array.length = 0 := rfl
  show ((run demoInfo .init .init exLate).1.tables inst rt).array.length < 2 ^ 32
  omega

/-- The hypotheses of C91 about the call hold after it: call 7 has not been used. -/
example : Unused (Ledger.after demoInfo exLate) 7 := ⟨by decide, by decide⟩

end Verif.Abi
