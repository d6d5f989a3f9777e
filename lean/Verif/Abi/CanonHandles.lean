import Verif.Abi.HandleProps
import Verif.Abi.CanonProps

/-!
# Properties C91 and C92: what calls between components do to handles
-/

namespace Verif.Abi
open Spec Handles

variable {σ : Type}

/-! ## Specification -/

namespace Spec

/-- The handles and calls are as after the history; nothing is said about who may leave. -/
def HandlesAfter (info : RTInfo) (ops : List Op) (w : World) : Prop := ∃ f, w = { World.after info ops with mayLeave := f }

/-- The handles in a list of values; values may be missing at the end. -/
inductive CarriedAll : List Ty → List Val → List Held → Prop where
  | nil (ts) : CarriedAll ts [] []
  | cons {t : Ty} {ts : List Ty} {v : Val} {vs : List Val} {a b : List Held} :
      Carried t v a → CarriedAll ts vs b → CarriedAll (t :: ts) (v :: vs) (a ++ b)

/-- The number stands for a call that has not been used. -/
structure Fresh (a : State) (c : CtxId) : Prop where
  active : a.exited c = false
  lends : ∀ p ∈ a.lends, p.1 ≠ c
  scopes : ∀ l h, a.live l = some h → h.scope ≠ some c

end Spec

/-! ## Lemmas -/

/-- The operations on handles do not look at who may leave. -/
theorem step_leave (info : RTInfo) (w : World) (f : InstId → Bool) (op : Op) :
    step info { w with mayLeave := f } op = ((step info w op).1, { (step info w op).2 with mayLeave := f }) := by
  have hadd : ∀ inst rt h (w : World), Handles.add inst rt h { w with mayLeave := f } =
      ((Handles.add inst rt h w).1, { (Handles.add inst rt h w).2 with mayLeave := f }) := by
    intro inst rt h w
    simp only [Handles.add, World.setTable]
    rcases (w.tables inst rt).add h with ⟨r, t⟩
    cases r with
    | ok i => simp only; cases (w.elems h).scope <;> rfl
    | _ => rfl
  have hrem : ∀ inst rt i (w : World), Handles.remove inst rt i { w with mayLeave := f } =
      ((Handles.remove inst rt i w).1, { (Handles.remove inst rt i w).2 with mayLeave := f }) := by
    intro inst rt i w
    simp only [Handles.remove, World.setTable]
    rcases (w.tables inst rt).remove (fun e => (w.elems e).lendCount) i with ⟨r, t⟩
    cases r with
    | ok h => simp only; cases (w.elems h).scope <;> rfl
    | _ => rfl
  have hmake : ∀ e inst rt (w : World), (do let h ← Handles.alloc e; Handles.add inst rt h : SM World U32)
      { w with mayLeave := f } = (((do let h ← Handles.alloc e; Handles.add inst rt h : SM World U32) w).1,
        { ((do let h ← Handles.alloc e; Handles.add inst rt h : SM World U32) w).2 with mayLeave := f }) :=
    fun e inst rt w => hadd inst rt w.next { w with elems := upd w.elems w.next e, next := w.next + 1 }
  cases op with
  | new inst rt rep => exact hmake _ _ _ _
  | rep inst rt i =>
    simp only [step, canonResourceRep, SM.bind_def, Handles.get]
    cases (w.tables inst rt).get i <;> rfl
  | drop inst rt i =>
    simp only [step, canonResourceDrop]
    rw [SM.bind_def, SM.bind_def, hrem]
    rcases Handles.remove inst rt i w with ⟨r, w1⟩
    cases r with
    | ok h =>
      simp only [SM.bind_get]
      cases (w1.elems h).own with
      | false => rfl
      | true =>
        simp only [Bool.not_true, Bool.false_eq_true, if_false]
        cases info.impl rt with
        | none => rfl
        | some impl =>
          simp only [SM.ite_app]
          split
          · rfl
          · split <;> rfl
    | _ => rfl
  | liftOwn inst rt i =>
    simp only [step, liftOwn]
    rw [SM.bind_def, SM.bind_def, hrem]
    rcases Handles.remove inst rt i w with ⟨r, w1⟩
    cases r <;> rfl
  | liftBorrow inst cx rt i =>
    simp only [step, liftBorrow, SM.bind_def, Handles.get]
    cases (w.tables inst rt).get i <;> rfl
  | lowerOwn inst rt rep => exact hmake _ _ _ _
  | lowerBorrow inst cx rt rep =>
    simp only [step, lowerBorrow, SM.ite_app]
    split
    · rfl
    · exact hmake _ _ _ _
  | exit cx =>
    simp only [step, exitCall]
    split <;> rfl
  | flag inst b => rfl

theorem lowers_leave {E : Env σ} {w w' : World} {hs : List Held} {is : List U32} (h : Lowers E w hs is w')
    (f : InstId → Bool) : Lowers E { w with mayLeave := f } hs is { w' with mayLeave := f } := by
  induction h with
  | nil w => exact .nil _
  | cons h1 _ ih =>
    refine .cons ?_ ih
    rw [step_leave, h1]

theorem lifts_leave {E : Env σ} {w w' : World} {hs : List Held} {is : List U32} (h : Lifts E w hs is w')
    (f : InstId → Bool) : Lifts E { w with mayLeave := f } hs is { w' with mayLeave := f } := by
  induction h with
  | nil w => exact .nil _
  | cons h1 _ ih =>
    refine .cons ?_ ih
    rw [step_leave, h1]

/-- The context of an unused call is empty. -/
theorem fresh_ctx {w : World} {a : State} (hR : R w a) {c : CtxId} (h : Fresh a c) : w.ctxs c = ⟨[], 0⟩ := by
  have h1 := hR.lenders c h.active
  have h2 : a.lends.filter (fun p => p.1 = c) = [] := by
    rw [List.filter_eq_nil_iff]
    intro p hp
    simpa using h.lends p hp
  rw [h2] at h1
  obtain ⟨bl, -, hbl, hc⟩ := hR.borrows
  have h3 : bl.countP (fun p => p.1 = c) = 0 := by
    rw [List.countP_eq_zero]
    rintro ⟨c', l⟩ hp
    simp only [decide_eq_true_eq]
    rintro rfl
    obtain ⟨e, he, hsc⟩ := (hbl c' l).1 hp
    have hlive := hR.live l
    rw [he] at hlive
    exact h.scopes l _ hlive hsc
  have h4 := hc c
  rw [h3] at h4
  rcases hx : w.ctxs c with ⟨ls, n⟩
  rw [hx] at h1 h4
  cases h1
  simp only at h4
  rw [h4]; rfl

theorem Spec.HandlesAfter.leave {info : RTInfo} {ops : List Op} {w : World} (h : HandlesAfter info ops w) (f : InstId → Bool) :
    HandlesAfter info ops { w with mayLeave := f } := by
  obtain ⟨g, rfl⟩ := h
  exact ⟨f, rfl⟩

theorem Spec.HandlesAfter.newCtx {info : RTInfo} {ops : List Op} {w : World} (h : HandlesAfter info ops w)
    (hv : Valid info ops) {c : CtxId} (hf : Fresh (State.after info ops) c) :
    HandlesAfter info ops (w.setCtx c ⟨[], 0⟩) := by
  obtain ⟨g, rfl⟩ := h
  refine ⟨g, ?_⟩
  have := fresh_ctx hv.rel hf
  unfold World.setCtx
  congr 1
  funext x
  by_cases hx : x = c
  · rw [hx, upd_same]; exact this.symm
  · rw [upd_other _ _ hx]

theorem Spec.HandlesAfter.lowers {E : Env σ} {ops : List Op} {w w' : World} (h : HandlesAfter E.info ops w)
    (hv : Valid E.info ops) {hs : List Held} {is : List U32} (hL : Lowers E w hs is w') (hf : w'.Fits)
    (hx : (State.after E.info ops).exited E.cx = false) :
    HandlesAfter E.info (ops ++ hs.map (lowerOp E)) w' ∧ Valid E.info (ops ++ hs.map (lowerOp E)) ∧
    Given E hs is (State.after E.info ops) (State.after E.info (ops ++ hs.map (lowerOp E))) := by
  obtain ⟨g, rfl⟩ := h
  have hL' := lowers_leave hL (World.after E.info ops).mayLeave
  obtain ⟨k1, k2, -, k4⟩ := lowers_history hv hL' hf fun _ => hx
  exact ⟨⟨w'.mayLeave, by rw [← k1]⟩, k2, k4⟩

theorem Spec.HandlesAfter.lifts {E : Env σ} {ops : List Op} {w w' : World} (h : HandlesAfter E.info ops w)
    (hv : Valid E.info ops) {hs : List Held} {is : List U32} (hL : Lifts E w hs is w')
    (hx : (State.after E.info ops).exited E.cx = false) :
    HandlesAfter E.info (ops ++ List.zipWith (liftOp E) hs is) w' ∧ Valid E.info (ops ++ List.zipWith (liftOp E) hs is) ∧
    Taken E hs is (State.after E.info ops) (State.after E.info (ops ++ List.zipWith (liftOp E) hs is)) := by
  obtain ⟨g, rfl⟩ := h
  have hL' := lifts_leave hL (World.after E.info ops).mayLeave
  obtain ⟨k1, k2, -, k4⟩ := lifts_history hv hL' fun _ => hx
  exact ⟨⟨w'.mayLeave, by rw [← k1]⟩, k2, k4⟩

theorem lowerEach_lowers {E : Env σ} : (ts : List Ty) → (vs : List Val) → (s s' : St σ) → (fs : List FV) →
    lowerEach E ts vs s = (.ok fs, s') → ∃ hs is, CarriedAll ts vs hs ∧ Lowers E s.world hs is s'.world ∧
      ∀ m ys, LowPrefix fs ys → WordsInAll m ts vs ys is
  | ts, [], s, s', fs, h => by
    rw [lowerEach] at h
    cases h
    exact ⟨[], [], .nil _, .nil _, fun _ _ _ => by rw [WordsInAll]⟩
  | [], _ :: _, s, s', fs, h => by rw [lowerEach] at h; cases h
  | t :: ts, v :: vs, s, s', fs, h => by
    rw [lowerEach] at h
    obtain ⟨a, s1, e1, h1⟩ := SM.bind_eq_ok.1 h
    obtain ⟨b, s2, e2, h2⟩ := SM.bind_eq_ok.1 h1
    cases h2
    obtain ⟨hs, is, c1, L1, w1⟩ := lowerFlat_lowers t v s a s1 e1
    obtain ⟨ks, js, c2, L2, w2⟩ := lowerEach_lowers ts vs s1 _ b e2
    refine ⟨hs ++ ks, is ++ js, .cons c1 c2, L1.append L2, fun m ys hy => ?_⟩
    rw [WordsInAll]
    refine ⟨is, js, w1 m ys hy.left, fun kinds hk => ?_, rfl⟩
    have hk' := lower_kinds E t _ _ _ _ e1
    rw [hk] at hk'
    obtain rfl := Res.ok.inj hk'
    rw [List.length_map]
    exact w2 m _ hy.right

theorem liftEach_lifts {E : Env σ} : (ts : List Ty) → (∀ t ∈ ts, Wf t) → (s s' : LSt σ) → (vs : List Val) →
    liftEach E ts s = (.ok vs, s') → ∃ hs is, CarriedAll ts vs hs ∧ Lifts E s.st.world hs is s'.st.world ∧
      WordsInAll s.st.mem ts vs (s.it.values.drop s.it.index) is
  | [], _, s, s', vs, h => by
    rw [liftEach] at h
    cases h
    exact ⟨[], [], .nil _, .nil _, by rw [WordsInAll]⟩
  | t :: ts, hw, s, s', vs, h => by
    rw [liftEach] at h
    obtain ⟨a, s1, e1, h1⟩ := SM.bind_eq_ok.1 h
    obtain ⟨b, s2, e2, h2⟩ := SM.bind_eq_ok.1 h1
    cases h2
    obtain ⟨hs, is, c1, L1, w1⟩ := liftFlat_lifts t (hw t (by simp)) s a s1 e1
    obtain ⟨ks, js, c2, L2, w2⟩ := liftEach_lifts ts (fun x hx => hw x (by simp [hx])) s1 _ b e2
    refine ⟨hs ++ ks, is ++ js, .cons c1 c2, L1.append L2, ?_⟩
    rw [WordsInAll]
    refine ⟨is, js, w1, fun ks hk => ?_, rfl⟩
    obtain ⟨ks', hk', tk⟩ := lift_took E t _ _ _ e1
    rw [hk] at hk'
    cases hk'
    rw [← took_drop tk, ← liftFlat_mem e1]; exact w2

theorem lowerValues_lowers {E : Env σ} {o mx : Nat} {vs : List Val} {ts : List Ty} {out : Option Iter} {ks : List Kind}
    (hk : flattenTypes ts = .ok ks) (hl : ks.length ≤ mx) {s s' : Sys σ} {r : List Core}
    (h : lowerValues E o mx vs ts out s = (.ok r, s')) :
    ∃ fs hs is, r = fs.map .fv ∧ CarriedAll ts vs hs ∧ Lowers E s.world hs is s'.world ∧
      ∀ m, WordsInAll m ts vs fs is := by
  unfold lowerValues at h
  rw [hk, SM.bind_ok (SM.lift_def _ _), SM.ite_app, if_pos hl] at h
  obtain ⟨fs, s1, e1, h1⟩ := SM.bind_eq_ok.1 h
  cases h1
  unfold inMem at e1
  rcases e : lowerEach E ts vs (s.view o) with ⟨x, t⟩
  rw [e] at e1
  have hx := (Prod.mk.inj e1).1
  have hs := (Prod.mk.inj e1).2
  simp only at hx
  subst hx
  obtain ⟨hs', is, c, L, w⟩ := lowerEach_lowers ts vs _ _ _ e
  refine ⟨_, hs', is, rfl, c, ?_, fun m => w m _ (.refl _)⟩
  rw [← hs]
  exact L

theorem liftValues_lifts {E : Env σ} {o mx : Nat} {ts : List Ty} {ks : List Kind} {it : Iter}
    {ord : List (String × Val) → List (String × Val)} (hw : ∀ t ∈ ts, Wf t)
    (hk : flattenTypes ts = .ok ks) (hl : ks.length ≤ mx) {s s' : Sys σ} {r : List Val × Iter}
    (h : withIter o it (liftValues E ord mx ts) s = (.ok r, s')) :
    ∃ hs is, CarriedAll ts r.1 hs ∧ Lifts E s.world hs is s'.world ∧
      WordsInAll (s.mems o) ts r.1 (it.values.drop it.index) is := by
  unfold withIter at h
  rcases e : liftValues E ord mx ts ⟨s.view o, it⟩ with ⟨x, t⟩
  rw [e] at h
  cases x with
  | ok vs =>
    have hr := (Prod.mk.inj h).1
    have hs := (Prod.mk.inj h).2
    injection hr with hr
    subst hr hs
    unfold liftValues at e
    rw [hk, SM.bind_ok (SM.lift_def _ _), SM.ite_app, if_pos hl] at e
    exact liftEach_lifts ts hw _ _ _ e
  | err => cases (Prod.mk.inj h).1
  | panic => cases (Prod.mk.inj h).1
  | diverge => cases (Prod.mk.inj h).1

theorem castValues_ok : {cs : List Core} → {fs : List FV} → castValues cs = .ok fs → cs = fs.map .fv
  | [], fs, h => by rw [castValues] at h; cases h; rfl
  | .fv x :: cs, fs, h => by
    rw [castValues] at h
    obtain ⟨xs, h1, h2⟩ := Res.bind_eq_ok.1 h
    cases h2
    rw [List.map_cons, castValues_ok h1]
  | .raw _ :: _, fs, h => by rw [castValues] at h; cases h

/-! ## C91: calls move exactly the handles in their arguments and results -/

/-- **C91, the called side**, for arguments and results passed flat. A call through `CanonLift` that succeeds has called
the function once; before, the instance was given exactly the handles in the arguments, and after, whatever the function
did to handles meanwhile, exactly the handles in the results were taken from it. Their indices are the words for the handles among the flat values
the function got and returned. Missing: spilled arguments and
results, which do not arrive at all (`canonLift_spilled_fails`, `spilled_results_lost`). -/
theorem canonLift_handles_partial (S : Side σ) (ord : List (String × Val) → List (String × Val))
    (callee : List Core → SM (Sys σ) (Option (List Core))) (ft : FuncTy) (args : List Val) (mp mr : Nat)
    (kp kr : List Kind) (hkp : flattenTypes ft.params = .ok kp) (hkr : flattenTypes ft.results = .ok kr)
    (hlp : kp.length ≤ mp) (hlr : kr.length ≤ mr) (hw : ∀ t ∈ ft.results, Wf t)
    (ops : List Op) (hv : Valid S.E.info ops) (s s' : Sys σ) (hs : HandlesAfter S.E.info ops s.world)
    (hf : Fresh (State.after S.E.info ops) S.E.cx) (vs : List Val) (post : Option (SM (Sys σ) Unit))
    (h : canonLift S ord callee ft args mp mr s = (.ok (vs, post), s')) :
    ∃ xs s1 rs s2, callee (xs.map .fv) s1 = (.ok (some (rs.map .fv)), s2) ∧
      (s1.world.Fits → ∃ hs is, CarriedAll ft.params args hs ∧
        HandlesAfter S.E.info (ops ++ hs.map (lowerOp S.E)) s1.world ∧ Valid S.E.info (ops ++ hs.map (lowerOp S.E)) ∧
        Given S.E hs is (State.after S.E.info ops) (State.after S.E.info (ops ++ hs.map (lowerOp S.E))) ∧
        WordsInAll (s1.mems S.o) ft.params args xs is) ∧
      ∀ ops2, Valid S.E.info ops2 → HandlesAfter S.E.info ops2 s2.world →
        (State.after S.E.info ops2).exited S.E.cx = false →
        ∃ hs is, CarriedAll ft.results vs hs ∧
          HandlesAfter S.E.info (ops2 ++ List.zipWith (liftOp S.E) hs is) s'.world ∧
          Valid S.E.info (ops2 ++ List.zipWith (liftOp S.E) hs is) ∧
          Taken S.E hs is (State.after S.E.info ops2) (State.after S.E.info (ops2 ++ List.zipWith (liftOp S.E) hs is)) ∧
          WordsInAll (s2.mems S.o) ft.results vs rs is := by
  unfold canonLift at h
  rw [SM.bind_get, SM.ite_app] at h
  split at h
  · cases h
  · rw [SM.ite_app] at h
    split at h
    · cases h
    · obtain ⟨_, t1, e1, h1⟩ := SM.bind_eq_ok.1 h
      obtain ⟨_, t2, e2, h2⟩ := SM.bind_eq_ok.1 h1
      obtain ⟨xs, t3, e3, h3⟩ := SM.bind_eq_ok.1 h2
      obtain ⟨_, t4, e4, h4⟩ := SM.bind_eq_ok.1 h3
      obtain ⟨rs, t5, e5, h5⟩ := SM.bind_eq_ok.1 h4
      clear h h1 h2 h3 h4
      obtain rfl := (Prod.mk.inj e1).2
      obtain rfl := (Prod.mk.inj e2).2
      obtain rfl := (Prod.mk.inj e4).2
      cases rs with
      | none => cases h5
      | some rs =>
        simp only at h5
        obtain ⟨ws, t6, e6, h6⟩ := SM.bind_eq_ok.1 h5
        obtain ⟨r, t7, e7, h7⟩ := SM.bind_eq_ok.1 h6
        clear h5 h6
        obtain rfl := castValues_ok (Prod.mk.inj e6).1
        obtain rfl := (Prod.mk.inj e6).2
        obtain rfl := (Prod.mk.inj h7).2
        have hr := (Prod.mk.inj h7).1
        injection hr with hr
        obtain ⟨rfl, -⟩ := Prod.mk.inj hr
        obtain ⟨fs, hl, is, rfl, c, L, w⟩ := lowerValues_lowers hkp hlp e3
        refine ⟨fs, _, ws, _, e5, ?_, ?_⟩
        · intro hfit
          have hin := (hs.newCtx hv hf).leave (upd s.world.mayLeave S.E.inst false)
          obtain ⟨k1, k2, k3⟩ := HandlesAfter.lowers hin hv L hfit hf.active
          exact ⟨hl, is, c, k1.leave _, k2, k3, w _⟩
        · intro ops2 hv2 hs2 hx2
          obtain ⟨hl, is, c, L, w⟩ := liftValues_lifts hw hkr hlr e7
          obtain ⟨k1, k2, k3⟩ := hs2.lifts hv2 L hx2
          exact ⟨hl, is, c, k1, k2, k3, w⟩

/-- `ExitCall` as an operation of the history; its error is dropped. -/
theorem Spec.HandlesAfter.exit {S : Side σ} {ops : List Op} {t t' : Sys σ} (h : HandlesAfter S.E.info ops t.world)
    (e : exitIgnored S t = (.ok (), t')) : HandlesAfter S.E.info (ops ++ [.exit S.E.cx]) t'.world := by
  obtain ⟨g, hg⟩ := h
  have h1 := step_leave S.E.info (World.after S.E.info ops) g (.exit S.E.cx)
  rw [← hg] at h1
  refine ⟨g, ?_⟩
  rw [(after_snoc S.E.info ops (.exit S.E.cx)).1]
  have h2 : (step S.E.info t.world (.exit S.E.cx)).2 = t'.world := by
    simp only [step]
    unfold exitIgnored at e
    rcases ex : exitCall S.E.cx t.world with ⟨r, w⟩
    rw [ex] at e
    cases r <;> (rw [← (Prod.mk.inj e).2]; rfl)
  rw [← h2, h1]

/-- **C91, the calling side**, for arguments and results passed flat. A call through `CanonLower` that succeeds has called
the function once; before, exactly the handles in the arguments were taken from the instance, after, whatever the
function did to handles meanwhile, it was given exactly the handles in the results, and at last the call was ended. Their indices are the words for the handles
among the flat values given and returned.
Missing: spilled arguments and results, which do not arrive at all. -/
theorem canonLower_handles_partial (S : Side σ) (ord : List (String × Val) → List (String × Val))
    (callee : List Val → SM (Sys σ) (List Val × Option (SM (Sys σ) Unit))) (imp : Bool) (ft : FuncTy)
    (flatArgs out : List Core) (mp mr : Nat)
    (kp kr : List Kind) (hkp : flattenTypes ft.params = .ok kp) (hkr : flattenTypes ft.results = .ok kr)
    (hlp : kp.length ≤ mp) (hlr : kr.length ≤ mr) (hw : ∀ t ∈ ft.params, Wf t)
    (ops : List Op) (hv : Valid S.E.info ops) (s s' : Sys σ) (hs : HandlesAfter S.E.info ops s.world)
    (hf : Fresh (State.after S.E.info ops) S.E.cx)
    (h : canonLower S ord callee imp ft flatArgs mp mr s = (.ok out, s')) :
    ∃ fs gs args s1 rs p s2 s3 s4, flatArgs = fs.map .fv ∧ out = gs.map .fv ∧
      callee args s1 = (.ok (rs, some p), s2) ∧ p s3 = (.ok (), s4) ∧
      (∃ hs is, CarriedAll ft.params args hs ∧
        HandlesAfter S.E.info (ops ++ List.zipWith (liftOp S.E) hs is) s1.world ∧
        Valid S.E.info (ops ++ List.zipWith (liftOp S.E) hs is) ∧
        Taken S.E hs is (State.after S.E.info ops) (State.after S.E.info (ops ++ List.zipWith (liftOp S.E) hs is)) ∧
        WordsInAll (s.mems S.o) ft.params args fs is) ∧
      (∀ ops2, Valid S.E.info ops2 → HandlesAfter S.E.info ops2 s2.world →
        (State.after S.E.info ops2).exited S.E.cx = false → s3.world.Fits →
        ∃ hs is, CarriedAll ft.results rs hs ∧
          HandlesAfter S.E.info (ops2 ++ hs.map (lowerOp S.E)) s3.world ∧
          Valid S.E.info (ops2 ++ hs.map (lowerOp S.E)) ∧
          Given S.E hs is (State.after S.E.info ops2) (State.after S.E.info (ops2 ++ hs.map (lowerOp S.E))) ∧
          WordsInAll (s3.mems S.o) ft.results rs gs is) ∧
      ∀ ops3, HandlesAfter S.E.info ops3 s4.world →
        HandlesAfter S.E.info (ops3 ++ .exit S.E.cx :: if imp then [.flag S.E.inst true] else []) s'.world := by
  unfold canonLower at h
  obtain ⟨_, t1, e1, h1⟩ := SM.bind_eq_ok.1 h
  obtain rfl := (Prod.mk.inj e1).2
  rw [SM.bind_get, SM.ite_app] at h1
  split at h1
  · cases h1
  rw [SM.ite_app] at h1
  split at h1
  · cases h1
  obtain ⟨vs, t2, e2, h2⟩ := SM.bind_eq_ok.1 h1
  obtain ⟨args, t3, e3, h3⟩ := SM.bind_eq_ok.1 h2
  obtain ⟨r, t4, e4, h4⟩ := SM.bind_eq_ok.1 h3
  obtain ⟨_, t5, e5, h5⟩ := SM.bind_eq_ok.1 h4
  obtain ⟨flat, t6, e6, h6⟩ := SM.bind_eq_ok.1 h5
  obtain ⟨_, t7, e7, h7⟩ := SM.bind_eq_ok.1 h6
  clear h h1 h2 h3 h4 h5 h6
  obtain rfl := castValues_ok (Prod.mk.inj e2).1
  obtain rfl := (Prod.mk.inj e2).2
  obtain rfl := (Prod.mk.inj e5).2
  obtain rfl := (Prod.mk.inj e7).2
  rcases r with ⟨rs, _ | p⟩
  · cases h7
  simp only at h7
  obtain ⟨_, t8, e8, h8⟩ := SM.bind_eq_ok.1 h7
  obtain ⟨_, t9, e9, h9⟩ := SM.bind_eq_ok.1 h8
  clear h7 h8
  obtain ⟨gs, hl', is', rfl, c', L', w'⟩ := lowerValues_lowers hkr hlr e6
  have hout : out = gs.map .fv := by
    cases imp with
    | false =>
      rw [if_neg (by simp)] at h9
      exact (Res.ok.inj (Prod.mk.inj h9).1).symm
    | true =>
      rw [if_pos rfl] at h9
      obtain ⟨_, t10, e10, h10⟩ := SM.bind_eq_ok.1 h9
      exact (Res.ok.inj (Prod.mk.inj h10).1).symm
  refine ⟨vs, gs, args.1, t3, rs, p, t4, _, t8, rfl, hout, e4, e8, ?_, ?_, ?_⟩
  · obtain ⟨hl, is, c, L, w⟩ := liftValues_lifts hw hkp hlp e3
    obtain ⟨k1, k2, k3⟩ := (hs.newCtx hv hf).lifts hv L hf.active
    exact ⟨hl, is, c, k1, k2, k3, w⟩
  · intro ops2 hv2 hs2 hx2 hfit
    obtain ⟨k1, k2, k3⟩ := Spec.HandlesAfter.lowers (hs2.leave _) hv2 L' hfit hx2
    exact ⟨hl', is', c', k1.leave _, k2, k3, w' _⟩
  · intro ops3 hs3
    have k := hs3.exit e9
    cases imp with
    | false =>
      rw [if_neg (by simp)] at h9
      obtain rfl := (Prod.mk.inj h9).2
      exact k
    | true =>
      rw [if_pos rfl] at h9
      obtain ⟨_, t10, e10, h10⟩ := SM.bind_eq_ok.1 h9
      obtain rfl := (Prod.mk.inj e10).2
      obtain rfl := (Prod.mk.inj h10).2
      obtain ⟨g, hg⟩ := k
      refine ⟨g, ?_⟩
      rw [if_pos rfl, ← List.singleton_append, ← List.append_assoc, (after_snoc _ _ _).1]
      show { t9.world with mayEnter := upd t9.world.mayEnter S.E.inst true } = _
      rw [hg]; rfl

/-! ## C92: borrowed handles do not outlive the call -/

/-- Instance 0 implements resource type 5 and calls instance 1, which keeps what it was lent. -/
def exCaller : Side Nat := ⟨{ bumpEnv "utf-8" with inst := 0, cx := 7, info := demoInfo }, 0, none⟩
/-- The called instance. -/
def exKeeper : Side Nat := ⟨{ bumpEnv "utf-8" with inst := 1, cx := 8, info := demoInfo }, 1, none⟩
/-- The caller has a handle to resource 42. -/
def exOwner : Sys Nat := ⟨fun _ => bumpSt.mem, fun _ => bumpSt.heap, World.after demoInfo [.new 0 5 42]⟩
/-- Calling a function of one borrowed parameter that does nothing, with the handle at index 0. -/
def exKeep : Res (List Core) × Sys Nat :=
  canonLower exCaller id (fun vs => canonLift exKeeper id (fun _ => pure (some [])) ⟨[.borrow 5], []⟩ vs 16 1) false
    ⟨[.borrow 5], []⟩ [.fv (.u32 0)] 16 1 exOwner

/-- **C92 is false of the code.** The function returns without dropping the handle it borrowed, and the call succeeds all
the same. Afterwards the owner may drop the resource, whose destructor runs, and the called instance still has the
borrowed handle and gets the representation of the destroyed resource from it. -/
theorem borrow_outlives_call :
    exKeep.1 = .ok [] ∧
    (step demoInfo exKeep.2.world (.rep 1 5 0)).1 = .ok 42 ∧
    (step demoInfo exKeep.2.world (.drop 0 5 0)).1 = .ok 0 ∧
    (step demoInfo exKeep.2.world (.drop 0 5 0)).2.dtors = [(5, 42)] ∧
    (step demoInfo (step demoInfo exKeep.2.world (.drop 0 5 0)).2 (.rep 1 5 0)).1 = .ok 42 := by
  refine ⟨rfl, by decide, by decide, by decide, by decide⟩

/-- **C92, when the function drops what it borrowed.** If at the end of the call no instance has a handle borrowed for it,
then after it all handles are as they were, and nothing is lent to it any more. Missing: the call fails otherwise, which
is false (`borrow_outlives_call`). -/
theorem call_end_partial (info : RTInfo) (ops : List Op) (c : CtxId) (h : Valid info (ops ++ [.exit c]))
    (hn : ∀ l hd, (State.after info ops).live l = some hd → hd.scope ≠ some c) :
    (step info (World.after info ops) (.exit c)).1 = .ok 0 ∧
    (State.after info (ops ++ [.exit c])).live = (State.after info ops).live ∧
    ∀ p, p ∈ (State.after info (ops ++ [.exit c])).lends ↔ p ∈ (State.after info ops).lends ∧ p.1 ≠ c := by
  obtain ⟨h1, -, h3⟩ := exit_fails_iff_partial info ops c h
  have h4 := h3 fun he => by
    obtain ⟨l, hd, h5, h6⟩ := h1.1 he
    exact hn l hd h5 h6
  refine ⟨h4, ?_⟩
  rw [(after_snoc info ops (.exit c)).2, h4]
  refine ⟨rfl, fun p => ?_⟩
  simp [State.next]

/-! ## Examples -/

/-- A function with an owned parameter and a borrowed one, which drops the second and returns the first. -/
def exReturns : List Core → SM (Sys Nat) (Option (List Core)) := fun xs => do
  SM.modify fun s => { s with world := (step demoInfo s.world (.drop 1 5 0)).2 }
  pure (some (xs.take 1))

/-- Two resources of type 6 and 5 in instance 0. -/
def exTwo : Sys Nat := { exOwner with world := World.after demoInfo [.new 0 6 77, .new 0 5 42] }

/-- A call that takes one and borrows the other; it returns the one it took, at an index of the caller again. -/
def exPass : Res (List Core) × Sys Nat :=
  canonLower exCaller id (fun vs => canonLift exKeeper id exReturns ⟨[.own 6, .borrow 5], [.own 6]⟩ vs 16 1) false
    ⟨[.own 6, .borrow 5], [.own 6]⟩ [.fv (.u32 0), .fv (.u32 0)] 16 1 exTwo

/-- The hypotheses of C91 hold of a call that succeeds. -/
example : exPass.1 = .ok [.fv (.u32 0)] ∧ HandlesAfter demoInfo [.new 0 6 77, .new 0 5 42] exTwo.world ∧
    Valid demoInfo [.new 0 6 77, .new 0 5 42] ∧ Fresh (State.after demoInfo [.new 0 6 77, .new 0 5 42]) 7 ∧
    flattenTypes [.own 6, .borrow 5] = .ok [.u32, .u32] ∧ (∀ t ∈ [Ty.own 6, .borrow 5], Wf t) := by
  refine ⟨rfl, ⟨_, rfl⟩, ?_, ⟨by decide, ?_, ?_⟩, by decide, ?_⟩
  · refine valid_of_short _ _ ?_ (by decide)
    refine ⟨?_, ?_, trivial⟩ <;> intro c h <;> cases h
  · intro p hp; cases hp
  · intro l h hl
    have e : (State.after demoInfo [.new 0 6 77, .new 0 5 42]).live =
        upd (upd (fun _ => none) ⟨0, 6, 0⟩ (some ⟨77, true, none⟩)) ⟨0, 5, 0⟩ (some ⟨42, true, none⟩) := rfl
    rw [e] at hl
    unfold upd at hl
    split at hl
    · injection hl with hl; rw [← hl]; simp
    · split at hl
      · injection hl with hl; rw [← hl]; simp
      · cases hl
  · simp [Wf]

/-- The hypotheses of `call_end_partial` hold when the borrowed handle was dropped. -/
example : (State.after demoInfo [.lowerBorrow 2 3 5 42, .drop 2 5 0]).live ⟨2, 5, 0⟩ = none ∧
    (step demoInfo (World.after demoInfo [.lowerBorrow 2 3 5 42, .drop 2 5 0]) (.exit 3)).1 = .ok 0 := by decide

end Verif.Abi
