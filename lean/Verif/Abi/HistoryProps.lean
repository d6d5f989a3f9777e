import Verif.Abi.HistoryLemmas
import Verif.Abi.CanonHandles
import Verif.Abi.ConfineProps

/-!
# C131: calls between components do nothing to handles but the operations of the histories

# C132: calls between components leave the handles of the other instances alone
-/

namespace Verif.Abi
open Spec
open Handles (RTInfo Op World State CtxId InstId Loc SameHandles NoneAfterExit Valid demoInfo)

variable {σ : Type}

/-! ## Values -/

/-- **C131, `Load`.** Whatever the bytes and the outcome, handles are taken from the instance, and nothing else happens to
handles. -/
theorem load_is_lifts (E : Env σ) (t : VT) (ptr : U32) (s : St σ) :
    HandledBy E.info (LiftsFor E) s.world (t.load E ptr s).2.world := (load_acts E t.core ptr).run s

/-- **C131, `LiftFlat`.** Whatever the core values and the outcome, handles are taken from the instance, and nothing else
happens to handles. -/
theorem lift_is_lifts (E : Env σ) (t : VT) (s : LSt σ) :
    HandledBy E.info (LiftsFor E) s.st.world (t.lift E s).2.st.world := (liftFlat_acts E t.core).run s

/-- **C131, `LowerFlat`.** Whatever the value and the outcome, handles are given to the instance, and nothing else happens
to handles. -/
theorem lower_is_lowers (E : Env σ) (t : VT) (v : Val) (s : St σ) :
    HandledBy E.info (LowersFor E) s.world (t.lower E v s).2.world := (lowerFlat_acts E t.core v).run s

/-- **C131, `Store`.** Whatever the value and the outcome, nothing happens to handles. -/
theorem store_keeps_handles (E : Env σ) (t : VT) (v : Val) (ptr : U32) (s : St σ) :
    (t.store E v ptr s).2.world = s.world := (store_world E t.core v ptr).keep s

/-! ## Calls -/

/-- **C131, one call.** Whatever the outcome, all that happens to handles while a call is made is what `Job.phases` says,
in this order, and no call is used after its end. -/
theorem compCall_operates (info : RTInfo) (j : Job σ) (h : j.Sound info) : Operates info j.Makes j.phases j.call.run := by
  have hc : ∀ vs, Oper info (fun c => c = j.call.B.E.cx ∨ j.own c)
      (LowersFor j.call.B.E :: ([j.acts] ++ [LiftsFor j.call.B.E]))
      (canonLift j.call.B j.call.ord' j.call.f j.call.ft vs j.call.mpB j.call.mrB) := fun vs =>
    canonLift_oper h.infoB _ (fun fs => ⟨h.code fs⟩) h.ownB
      (fun hx => h.ownB (h.actsOwn _ _ (among_one.1 hx) rfl)) _ _ _ _
  have hne : ∀ c, Among (LowersFor j.call.B.E :: ([j.acts] ++ [LiftsFor j.call.B.E])) (.exit c) → j.own c := by
    intro c hx
    rcases among_cons.1 hx with hx | hx
    · exact absurd hx (lowers_noExit _ _)
    · rcases among_cons.1 hx with hx | hx
      · exact h.actsOwn _ _ hx rfl
      · exact absurd (among_one.1 hx) (lifts_noExit _ _)
  have hpost : ∀ vs s rs p u, canonLift j.call.B j.call.ord' j.call.f j.call.ft vs j.call.mpB j.call.mrB s =
      (.ok (rs, some p), u) → Oper info (fun _ => False)
        [fun op => j.acts op ∧ op.ctx = none, (· = .exit j.call.B.E.cx)] p := by
    intro vs s rs p u e
    obtain ⟨hq, -⟩ := canonLift_returns j.call.B j.call.ord' j.call.f j.call.ft vs j.call.mpB j.call.mrB s u rs (some p) e
    cases hq
    exact postResult_oper j.call.B (fun p hp => ⟨h.post p hp⟩) fun op ho => ho.2
  have := canonLower_oper h.infoA j.call.ord hc (fun hx => hx.elim h.sides h.ownA) (fun hx => h.ownA (hne _ hx)) hpost
    (fun hx => by
      rcases among_cons.1 hx with hx | hx
      · exact absurd hx.2 (by simp [Op.ctx])
      · have := among_one.1 hx
        injection this with this
        exact h.sides this)
    (fun c hx op ho => by
      have hown := hne c hx
      rcases among_cons.1 ho with ho | ho
      · rw [ho.2]; simp
      · rw [among_one.1 ho]
        intro e
        simp only [Op.ctx, Option.some.injEq] at e
        exact h.ownB (e ▸ hown))
    j.call.imp j.call.ft j.call.flat j.call.mpA j.call.mrA
  exact this.run

/-- No two of the calls are the same one. -/
def Spec.Distinct (js : List (Job σ)) : Prop := js.Pairwise fun a b => ∀ c, a.Makes c → ¬ b.Makes c

theorem phases_ctx {info : RTInfo} {j : Job σ} (h : j.Sound info) {op : Op} (ho : Among j.phases op) {c : CtxId}
    (hc : op.ctx = some c) : j.Makes c := by
  obtain ⟨L, hL, ho⟩ := ho
  simp only [Job.phases, List.mem_cons, List.not_mem_nil, or_false] at hL
  unfold Job.Makes
  rcases hL with rfl | rfl | rfl | rfl | rfl | rfl | rfl | rfl | rfl
  · exact .inl (Decidable.byContradiction fun e => lifts_ctx ho e hc)
  · exact .inr (.inl (Decidable.byContradiction fun e => lowers_ctx ho e hc))
  · exact .inr (.inr (h.actsOwn _ _ ho hc))
  · exact .inr (.inl (Decidable.byContradiction fun e => lifts_ctx ho e hc))
  · exact .inl (Decidable.byContradiction fun e => lowers_ctx ho e hc)
  · rw [ho.2] at hc; cases hc
  · rw [ho] at hc; injection hc with hc; exact .inr (.inl hc.symm)
  · rw [ho] at hc; injection hc with hc; exact .inl hc.symm
  · rw [ho.2] at hc; cases hc

theorem callAll_operates (info : RTInfo) (js : List (Job σ)) (hj : ∀ j ∈ js, j.Sound info) (hd : Distinct js) (s : Sys σ)
    (hs : ∀ j ∈ js, ∀ c, j.Makes c → s.world.Fresh c) :
    ∃ ops, InTurn (js.flatMap Job.phases) ops ∧ NoneAfterExit ops ∧
      SameHandles (s.world.then info ops) (callAll (js.map Job.call) s).2.world := by
  induction js generalizing s with
  | nil => exact ⟨[], rfl, Handles.noneAfterExit_nil, .refl _⟩
  | cons j js ih =>
    obtain ⟨o1, h1, h2, h3⟩ := compCall_operates info j (hj j (by simp)) s (hs j (by simp))
    have hd' := List.pairwise_cons.1 hd
    obtain ⟨o2, k1, k2, k3⟩ := ih (fun i hi => hj i (by simp [hi])) hd'.2 (j.call.run s).2 fun i hi c hc =>
      (Handles.fresh_same h3).2 (Handles.then_fresh info o1 (hs i (by simp [hi]) c hc) fun op ho e =>
        hd'.1 i hi c (phases_ctx (hj j (by simp)) (inTurn_among h1 op ho) e) hc)
    refine ⟨o1 ++ o2, inTurn_append h1 k1, Handles.noneAfterExit_append h2 k2 fun c hx op ho e => ?_, ?_⟩
    · obtain ⟨L, hL, hop⟩ := inTurn_among k1 op ho
      obtain ⟨i, hi, hL⟩ := List.mem_flatMap.1 hL
      exact hd'.1 i hi c (phases_ctx (hj j (by simp)) (inTurn_among h1 _ hx) rfl)
        (phases_ctx (hj i (by simp [hi])) ⟨L, hL, hop⟩ e)
    · obtain ⟨f, hf⟩ := h3
      obtain ⟨g, hg⟩ := k3
      refine ⟨g, ?_⟩
      show (callAll (js.map Job.call) (j.call.run s).2).2.world = _
      rw [hg, hf, Handles.then_leave, Handles.then_append]

/-- **C131, any sequence of calls.** Let the handles be as after some history, and let the calls be new. Whatever comes of
the calls, the handles afterwards are as after a longer history, in which each call in turn has added what `Job.phases`
says; and if no call was used after its end before, none is. So all that is proved about histories of operations on handles
holds after calls between components. -/
theorem calls_are_history (info : RTInfo) (js : List (Job σ)) (hj : ∀ j ∈ js, j.Sound info) (hd : Distinct js)
    (past : List Op) (hp : NoneAfterExit past) (hn : ∀ j ∈ js, ∀ c, j.Makes c → ∀ op ∈ past, op.ctx ≠ some c) (s : Sys σ)
    (hs : SameHandles (World.after info past) s.world) :
    ∃ ops, InTurn (js.flatMap Job.phases) ops ∧ NoneAfterExit (past ++ ops) ∧
      SameHandles (World.after info (past ++ ops)) (callAll (js.map Job.call) s).2.world := by
  have hw : World.after info past = World.init.then info past := by
    have := Handles.after_then info [] past
    rwa [List.nil_append] at this
  obtain ⟨ops, h1, h2, h3⟩ := callAll_operates info js hj hd s fun j hj' c hc => (Handles.fresh_same hs).2 (by
    rw [hw]
    exact Handles.then_fresh info past (Handles.fresh_init c) (hn j hj' c hc))
  refine ⟨ops, h1, Handles.noneAfterExit_append hp h2 fun c hx op ho e => ?_, ?_⟩
  · obtain ⟨L, hL, hop⟩ := inTurn_among h1 op ho
    obtain ⟨i, hi, hL⟩ := List.mem_flatMap.1 hL
    exact hn i hi c (phases_ctx (hj i hi) ⟨L, hL, hop⟩ e) _ hx rfl
  · obtain ⟨f, hf⟩ := hs
    obtain ⟨g, hg⟩ := h3
    exact ⟨g, by rw [hg, hf, Handles.then_leave, Handles.after_then]⟩

/-- **C131, C36 for calls.** After any sequence of calls, whatever came of them, no resource has been destroyed more often
than it was created or given to an instance. -/
theorem calls_destroy_at_most_once (info : RTInfo) (js : List (Job σ)) (hj : ∀ j ∈ js, j.Sound info) (hd : Distinct js)
    (past : List Op) (hp : NoneAfterExit past) (hn : ∀ j ∈ js, ∀ c, j.Makes c → ∀ op ∈ past, op.ctx ≠ some c) (s : Sys σ)
    (hs : SameHandles (World.after info past) s.world) (hf : (callAll (js.map Job.call) s).2.world.Fits) :
    ∃ ops, InTurn (js.flatMap Job.phases) ops ∧ ∀ rt rep, (callAll (js.map Job.call) s).2.world.dtors.count (rt, rep) ≤
      (past ++ ops).countP (fun op => op.creates rt rep) := by
  obtain ⟨ops, h1, h2, f, h3⟩ := calls_are_history info js hj hd past hp hn s hs
  refine ⟨ops, h1, fun rt rep => ?_⟩
  have hv := Handles.valid_of_noneAfterExit info (past ++ ops) h2 (by rw [h3] at hf; exact hf)
  rw [h3]
  exact Handles.destructs_at_most_once_partial info _ hv rt rep

/-- **C131, destructors.** Calls whose code drops no handles destroy nothing, whatever comes of them. -/
theorem calls_destroy_nothing (info : RTInfo) (js : List (Job σ)) (hj : ∀ j ∈ js, j.Sound info) (hd : Distinct js)
    (s : Sys σ) (hs : ∀ j ∈ js, ∀ c, j.Makes c → s.world.Fresh c)
    (hno : ∀ j ∈ js, ∀ inst rt i, ¬ j.acts (.drop inst rt i)) :
    (callAll (js.map Job.call) s).2.world.dtors = s.world.dtors := by
  obtain ⟨ops, h1, -, f, h3⟩ := callAll_operates info js hj hd s hs
  rw [h3]
  refine Handles.then_dtors info ops s.world fun op ho inst rt i e => ?_
  subst e
  obtain ⟨L, hL, hop⟩ := inTurn_among h1 _ ho
  obtain ⟨j, hj', hL⟩ := List.mem_flatMap.1 hL
  simp only [Job.phases, List.mem_cons, List.not_mem_nil, or_false] at hL
  rcases hL with rfl | rfl | rfl | rfl | rfl | rfl | rfl | rfl | rfl
  · obtain ⟨_, _, h | h⟩ := hop <;> cases h
  · obtain ⟨_, _, h | h⟩ := hop <;> cases h
  · exact hno j hj' _ _ _ hop
  · obtain ⟨_, _, h | h⟩ := hop <;> cases h
  · obtain ⟨_, _, h | h⟩ := hop <;> cases h
  · exact hno j hj' _ _ _ hop.1
  · cases hop
  · cases hop
  · cases hop.2

/-- What an index stands for, as seen by asking for the representation. -/
theorem rep_live {info : RTInfo} {ops : List Op} (hv : Valid info ops) (k : InstId) (rt : RT) (i : U32) :
    (Handles.canonResourceRep k rt i (World.after info ops)).1 =
      match (State.after info ops).live ⟨k, rt, i⟩ with | some h => .ok h.rep | none => .err := by
  have hw : World.after info (ops ++ [.rep k rt i]) = World.after info ops := by
    rw [(Handles.after_snoc info ops _).1]
    exact (Pres.bind (f := id) (⟨fun _ => rfl⟩ : Pres id (Handles.get k rt i)) fun _ => .bind .get fun _ => .pure _).keep _
  have h : Valid info (ops ++ [.rep k rt i]) :=
    ⟨(Handles.proper_append ..).2 ⟨hv.1, by simp [Op.ctx], trivial⟩, by rw [hw]; exact hv.2⟩
  obtain ⟨_, -, -, h⟩ := Handles.history_spec_partial info ops _ h
  exact h

/-- What an index stands for, as seen by taking it out. -/
theorem liftOwn_live {info : RTInfo} {ops : List Op} (hv : Valid info ops) (k : InstId) (rt : RT) (i : U32) :
    (Handles.liftOwn k rt i (World.after info ops)).1 =
      match (State.after info ops).live ⟨k, rt, i⟩ with
      | some h => if (State.after info ops).Lent ⟨k, rt, i⟩ then .err else .ok h.rep
      | none => .err := by
  rcases hrm : Handles.remove k rt i (World.after info ops) with ⟨r, w'⟩
  obtain ⟨-, -, h5, -, h4⟩ := Handles.removeHandle hv.rel k rt i hv.2 r w' hrm
  rcases h4 with ⟨rfl, -, h | h⟩ | ⟨e, rfl, h1, h2⟩
  · rw [h]; unfold Handles.liftOwn; rw [SM.bind_err hrm]
  · unfold Handles.liftOwn
    rw [SM.bind_err hrm]
    split
    · rw [if_pos h]
    · rfl
  · simp only [h2, if_neg h1]
    unfold Handles.liftOwn
    rw [SM.bind_ok hrm, SM.bind_get]
    show Res.ok (w'.elems e).rep = _
    rw [h5]
    rfl

theorem rep_leave (k : InstId) (rt : RT) (i : U32) (w : World) (f : InstId → Bool) :
    (Handles.canonResourceRep k rt i { w with mayLeave := f }).1 = (Handles.canonResourceRep k rt i w).1 :=
  by have h := congrArg Prod.fst (Handles.step_leave demoInfo (.rep k rt i) w f); exact h

/-- **C132.** Let instance `k` be on neither side of any of the calls, and let their code do nothing to its handles. Then,
whatever comes of the calls, each index of `k` stands for the resource it stood for or for none as before, and a handle can
be taken out if and only if it could be before. -/
theorem calls_leave_handles (info : RTInfo) (js : List (Job σ)) (hj : ∀ j ∈ js, j.Sound info) (hd : Distinct js)
    (past : List Op) (hp : NoneAfterExit past) (hn : ∀ j ∈ js, ∀ c, j.Makes c → ∀ op ∈ past, op.ctx ≠ some c) (s : Sys σ)
    (hs : SameHandles (World.after info past) s.world) (hf : (callAll (js.map Job.call) s).2.world.Fits) (k : InstId)
    (hk : ∀ j ∈ js, k ≠ j.call.A.E.inst ∧ k ≠ j.call.B.E.inst ∧ ∀ op, j.acts op → op.inst ≠ some k) (rt : RT) (i : U32) :
    (Handles.canonResourceRep k rt i (callAll (js.map Job.call) s).2.world).1 = (Handles.canonResourceRep k rt i s.world).1 ∧
    (Handles.liftOwn k rt i (callAll (js.map Job.call) s).2.world).1 = (Handles.liftOwn k rt i s.world).1 := by
  obtain ⟨ops, h1, h2, g, h3⟩ := calls_are_history info js hj hd past hp hn s hs
  obtain ⟨f, hs⟩ := hs
  have hv := Handles.valid_of_noneAfterExit info (past ++ ops) h2 (by rw [h3] at hf; exact hf)
  have hinst : ∀ op ∈ ops, op.inst ≠ some k := by
    intro op ho e
    obtain ⟨L, hL, hop⟩ := inTurn_among h1 _ ho
    obtain ⟨j, hj', hL⟩ := List.mem_flatMap.1 hL
    obtain ⟨ka, kb, kc⟩ := hk j hj'
    simp only [Job.phases, List.mem_cons, List.not_mem_nil, or_false] at hL
    rcases hL with rfl | rfl | rfl | rfl | rfl | rfl | rfl | rfl | rfl
    · obtain ⟨_, _, rfl | rfl⟩ := hop <;> exact ka (Option.some.inj e).symm
    · obtain ⟨_, _, rfl | rfl⟩ := hop <;> exact kb (Option.some.inj e).symm
    · exact kc op hop e
    · obtain ⟨_, _, rfl | rfl⟩ := hop <;> exact kb (Option.some.inj e).symm
    · obtain ⟨_, _, rfl | rfl⟩ := hop <;> exact ka (Option.some.inj e).symm
    · exact kc op hop.1 e
    · rw [hop] at e; cases e
    · rw [hop] at e; cases e
    · rw [hop.2] at e; cases e
  have hctx : ∀ op ∈ ops, ∀ c, op.ctx = some c → ∀ o ∈ past, o.ctx ≠ some c := by
    intro op ho c e
    obtain ⟨L, hL, hop⟩ := inTurn_among h1 op ho
    obtain ⟨j, hj', hL⟩ := List.mem_flatMap.1 hL
    exact hn j hj' c (phases_ctx (hj j hj') ⟨L, hL, hop⟩ e)
  obtain ⟨k1, k2⟩ := Handles.after_elsewhere info past ops k hinst hctx ⟨k, rt, i⟩ rfl
  have hv0 : Valid info past := hv.prefix
  constructor
  · have e1 := rep_live hv k rt i
    have e2 := rep_live hv0 k rt i
    rw [h3, hs, rep_leave _ _ _ (World.after info (past ++ ops)), rep_leave _ _ _ (World.after info past), e1, e2, k1]
  · have e1 := liftOwn_live hv k rt i
    have e2 := liftOwn_live hv0 k rt i
    have l1 : ∀ (w : World) f, (Handles.liftOwn k rt i { w with mayLeave := f }).1 = (Handles.liftOwn k rt i w).1 :=
      fun w f => by have h := congrArg Prod.fst (Handles.step_leave info (.liftOwn k rt i) w f); exact h
    rw [h3, hs, l1 (World.after info (past ++ ops)), l1 (World.after info past), e1, e2, k1]
    simp only [k2]

/-! ## Examples -/

/-- The call of C91's example, made in the calls `c` and `d`: it takes an owned handle and borrows another, drops the
borrowed one and returns the owned one. -/
def passJob (c d : CtxId) : Job Nat where
  call := { A := { exCaller with E := { exCaller.E with cx := c } }, B := { exKeeper with E := { exKeeper.E with cx := d } },
            ord := id, ord' := id, f := exReturns, imp := true, ft := ⟨[.own 6, .borrow 5], [.own 6]⟩,
            flat := [.fv (.u32 0), .fv (.u32 0)], mpA := 16, mrA := 1, mpB := 16, mrB := 1 }
  own := fun _ => False
  acts := fun op => op = .drop 1 5 0

theorem passJob_sound (c d : CtxId) (h : c ≠ d) : (passJob c d).Sound demoInfo where
  infoA := rfl
  infoB := rfl
  sides := h
  ownA := id
  ownB := id
  actsOwn := by rintro op x rfl h; cases h
  code := fun fs s _ => by
    refine ⟨[.drop 1 5 0], ⟨[.drop 1 5 0], [], rfl, by simp [passJob], rfl⟩, fun l c r e => ?_, .refl _⟩
    cases l with
    | nil => simp at e
    | cons x l => simp at e
  post := fun p hp => by cases hp

/-- Two resources in instance 0 and one in instance 2. -/
def exPast : List Op := [.new 0 6 77, .new 0 5 42, .new 2 5 99]

/-- The system with these. -/
def exThree : Sys Nat := { exOwner with world := World.after demoInfo exPast }

/-- The hypotheses of `calls_are_history` and of `calls_leave_handles` are met by two calls that succeed and an instance
that has a handle. -/
example : (∀ j ∈ [passJob 7 8, passJob 9 10], j.Sound demoInfo) ∧ Distinct [passJob 7 8, passJob 9 10] ∧
    NoneAfterExit exPast ∧ (∀ j ∈ [passJob 7 8, passJob 9 10], ∀ c, j.Makes c → ∀ op ∈ exPast, op.ctx ≠ some c) ∧
    SameHandles (World.after demoInfo exPast) exThree.world ∧
    (∀ j ∈ [passJob 7 8, passJob 9 10], (2 : InstId) ≠ j.call.A.E.inst ∧ (2 : InstId) ≠ j.call.B.E.inst ∧
      ∀ op, j.acts op → op.inst ≠ some 2) ∧
    (callAll ([passJob 7 8, passJob 9 10].map Job.call) exThree).1 = [.ok [.fv (.u32 0)], .ok [.fv (.u32 0)]] ∧
    (Handles.canonResourceRep 2 5 0 exThree.world).1 = .ok 99 := by
  refine ⟨?_, ?_, ?_, ?_, .refl _, ?_, rfl, by decide⟩
  · intro j hj
    simp only [List.mem_cons, List.not_mem_nil, or_false] at hj
    rcases hj with rfl | rfl
    · exact passJob_sound 7 8 (by decide)
    · exact passJob_sound 9 10 (by decide)
  · unfold Distinct
    simp only [List.pairwise_cons, List.mem_cons, List.not_mem_nil, or_false, false_implies, implies_true, and_true,
      List.Pairwise.nil, forall_eq]
    rintro c (h | h | h) (k | k | k)
    · exact absurd (h.symm.trans k) (by decide)
    · exact absurd (h.symm.trans k) (by decide)
    · exact k
    · exact absurd (h.symm.trans k) (by decide)
    · exact absurd (h.symm.trans k) (by decide)
    · exact k
    all_goals exact h
  · intro l c r e
    have : Op.exit c ∈ exPast := by rw [e]; simp
    simp [exPast] at this
  · intro j _ c _ op ho
    simp only [exPast, List.mem_cons, List.not_mem_nil, or_false] at ho
    rcases ho with rfl | rfl | rfl <;> simp [Op.ctx]
  · intro j hj
    simp only [List.mem_cons, List.not_mem_nil, or_false] at hj
    rcases hj with rfl | rfl <;> refine ⟨by decide, by decide, ?_⟩ <;> rintro op rfl <;> simp [Op.inst]

/-- The two calls have destroyed nothing, but the borrowed handles were dropped; both resources are where they were. -/
example : (callAll ([passJob 7 8, passJob 9 10].map Job.call) exThree).2.world.dtors = [] ∧
    (Handles.canonResourceRep 0 6 0 (callAll ([passJob 7 8, passJob 9 10].map Job.call) exThree).2.world).1 = .ok 77 ∧
    (Handles.canonResourceRep 1 5 0 (callAll ([passJob 7 8, passJob 9 10].map Job.call) exThree).2.world).1 = .err := by
  decide +kernel

/-- A job that drops nothing, for `calls_destroy_nothing`: the function of `exKeep` keeps what it borrowed. -/
example : (⟨⟨exCaller, exKeeper, id, id, fun _ => pure (some []), false, ⟨[.borrow 5], []⟩, [.fv (.u32 0)], 16, 1, 16, 1⟩,
    fun _ => False, fun _ => False⟩ : Job Nat).Sound demoInfo ∧ exOwner.world.Fresh 7 ∧ exOwner.world.Fresh 8 := by
  refine ⟨⟨rfl, rfl, by decide, id, id, fun _ _ h => h.elim, fun fs s _ => ?_, fun p hp => by cases hp⟩, ?_, ?_⟩
  · exact ⟨[], inTurn_nil _, Handles.noneAfterExit_nil, .refl _⟩
  · exact Handles.then_fresh demoInfo [.new 0 5 42] (Handles.fresh_init 7) (by simp [Op.ctx])
  · exact Handles.then_fresh demoInfo [.new 0 5 42] (Handles.fresh_init 8) (by simp [Op.ctx])

end Verif.Abi
