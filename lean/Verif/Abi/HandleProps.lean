import Verif.Abi.HandleSteps
import Verif.Abi.HandleWords
import Verif.Abi.FlatProps

/-!
# Properties C22 (handles), C88, C89 and C90: what becomes of the handles in a value
-/

namespace Verif.Abi
open Spec Handles

variable {σ : Type}

/-- The histories of the two lemmas, from the beginning. -/
theorem lowers_history {E : Env σ} {ops : List Op} (h : Valid E.info ops) {hs : List Held} {is : List U32} {w' : World}
    (hL : Lowers E (World.after E.info ops) hs is w') (hf : w'.Fits)
    (hx : (∃ h ∈ hs, h.own = false) → (State.after E.info ops).exited E.cx = false) :
    w' = World.after E.info (ops ++ hs.map (lowerOp E)) ∧ Valid E.info (ops ++ hs.map (lowerOp E)) ∧
    (State.after E.info (ops ++ hs.map (lowerOp E))).exited = (State.after E.info ops).exited ∧
    Given E hs is (State.after E.info ops) (State.after E.info (ops ++ hs.map (lowerOp E))) := by
  obtain ⟨g1, g2, g3, g4, g5, g6, g7, g8, g9, g10⟩ := lowers_spec hL _ h.rel hf hx
  have e1 : World.after E.info (ops ++ hs.map (lowerOp E)) = w' := by
    rw [World.after, run_append]; exact g1
  have e2 : State.after E.info (ops ++ hs.map (lowerOp E)) =
      (run E.info (World.after E.info ops) (State.after E.info ops) (hs.map (lowerOp E))).2 := by
    rw [State.after, run_append]; rfl
  refine ⟨e1.symm, ⟨(proper_append ..).2 ⟨h.1, g2⟩, by rw [e1]; exact hf⟩, ?_⟩
  rw [e2]
  exact ⟨g5, hL.length.symm, g7, g8, g10, g9, g4⟩

theorem Spec.Lifts.length {E : Env σ} {w w' : World} {hs : List Held} {is : List U32} (h : Lifts E w hs is w') :
    is.length = hs.length := by
  induction h with
  | nil => rfl
  | cons _ _ ih => simp [ih]

theorem lifts_history {E : Env σ} {ops : List Op} (h : Valid E.info ops) {hs : List Held} {is : List U32} {w' : World}
    (hL : Lifts E (World.after E.info ops) hs is w')
    (hx : (∃ h ∈ hs, h.own = false) → (State.after E.info ops).exited E.cx = false) :
    w' = World.after E.info (ops ++ List.zipWith (liftOp E) hs is) ∧
    Valid E.info (ops ++ List.zipWith (liftOp E) hs is) ∧
    (State.after E.info (ops ++ List.zipWith (liftOp E) hs is)).exited = (State.after E.info ops).exited ∧
    Taken E hs is (State.after E.info ops) (State.after E.info (ops ++ List.zipWith (liftOp E) hs is)) := by
  obtain ⟨g1, g2, g3, g4, g5, g6, g7, g8, g9⟩ := lifts_spec hL _ h.rel h.2 hx
  have e1 : World.after E.info (ops ++ List.zipWith (liftOp E) hs is) = w' := by
    rw [World.after, run_append]; exact g1
  have e2 : State.after E.info (ops ++ List.zipWith (liftOp E) hs is) =
      (run E.info (World.after E.info ops) (State.after E.info ops) (List.zipWith (liftOp E) hs is)).2 := by
    rw [State.after, run_append]; rfl
  refine ⟨e1.symm, ⟨(proper_append ..).2 ⟨h.1, g2⟩, by rw [e1]; exact g3⟩, ?_⟩
  rw [e2]
  exact ⟨g5, hL.length, g6, g7, g8, g9⟩

/-- A table grows by at most one slot for each handle in the value. -/
theorem lowers_tables {E : Env σ} {w w' : World} {hs : List Held} {is : List U32} (hL : Lowers E w hs is w')
    (inst : InstId) (rt : RT) :
    (w'.tables inst rt).array.length ≤ (w.tables inst rt).array.length + hs.length := by
  induction hL with
  | nil => exact Nat.le_refl _
  | @cons w w1 w2 h i hs is h1 _ ih =>
    have := step_tables_succ E.info w (lowerOp E h) inst rt
    rw [h1] at this
    simp only [List.length_cons] at this ⊢
    omega

/-! ## C88: lowering gives, lifting takes, exactly the handles in the value -/

/-- **C88, lowering.** In any state reached by a valid history, if `LowerFlat` of a value succeeds during a call that has
not ended, then the receiving instance got exactly the handles in the value, one each and from left to right, and no
other handle of any instance changed. Their indices are the words for the handles among the flat values returned.
Missing: histories that are not `Valid`, where it is false (`Handles.lent_taken_after_second_exit`, `Handles.add_returns_live`). -/
theorem lower_gives_partial (E : Env σ) (ops : List Op) (hv : Valid E.info ops)
    (hx : (State.after E.info ops).exited E.cx = false) (t : VT) (v : Val) (s s' : St σ)
    (hs : s.world = World.after E.info ops) (fs : List FV) (h : t.lower E v s = (.ok fs, s')) (hf : s'.world.Fits) :
    ∃ hs is, Carried t.core v hs ∧ s'.world = World.after E.info (ops ++ hs.map (lowerOp E)) ∧
      Valid E.info (ops ++ hs.map (lowerOp E)) ∧
      Given E hs is (State.after E.info ops) (State.after E.info (ops ++ hs.map (lowerOp E))) ∧
      WordsIn s'.mem t.core v fs is := by
  obtain ⟨hl, is, c, L, w⟩ := lowerFlat_lowers t.core v s fs s' h
  rw [hs] at L
  obtain ⟨k1, k2, -, k4⟩ := lowers_history hv L hf fun _ => hx
  exact ⟨hl, is, c, k1, k2, k4, w _ _ (.refl _)⟩

/-- **C88, lifting.** Likewise `LiftFlat`: the handles in the value it returns were those at the indices given, which are
the words for the handles among the flat values not yet consumed and, for elements of lists, in memory; the owned
ones were taken out of the instance and the borrowed ones are lent to the call; no other handle changed.
Missing: histories that are not `Valid`, and types with repeated labels (`repeated_label_two_owners`: false there) or otherwise not `Wf`. -/
theorem lift_takes_partial (E : Env σ) (ops : List Op) (hv : Valid E.info ops)
    (hx : (State.after E.info ops).exited E.cx = false) (t : VT) (hw : Wf t.core) (v : Val) (s s' : LSt σ)
    (hs : s.st.world = World.after E.info ops) (h : t.lift E s = (.ok v, s')) :
    ∃ hs is, Carried t.core v hs ∧ s'.st.world = World.after E.info (ops ++ List.zipWith (liftOp E) hs is) ∧
      Valid E.info (ops ++ List.zipWith (liftOp E) hs is) ∧
      Taken E hs is (State.after E.info ops) (State.after E.info (ops ++ List.zipWith (liftOp E) hs is)) ∧
      WordsIn s.st.mem t.core v (s.it.values.drop s.it.index) is := by
  obtain ⟨hl, is, c, L, w⟩ := liftFlat_lifts t.core hw s v s' h
  rw [hs] at L
  obtain ⟨k1, k2, -, k4⟩ := lifts_history hv L fun _ => hx
  exact ⟨hl, is, c, k1, k2, k4, w⟩

/-- **C88, loading.** Likewise `Load`; the indices are the words for the handles in memory, for a type that has a layout.
Missing: histories that are not `Valid`, and types with repeated labels (`repeated_label_two_owners`: false there) or otherwise not `Wf`. -/
theorem load_takes_partial (E : Env σ) (ops : List Op) (hv : Valid E.info ops)
    (hx : (State.after E.info ops).exited E.cx = false) (t : VT) (hw : Wf t.core) (v : Val) (ptr : U32) (s s' : St σ)
    (hs : s.world = World.after E.info ops) (h : t.load E ptr s = (.ok v, s')) :
    ∃ hs is, Carried t.core v hs ∧ s'.world = World.after E.info (ops ++ List.zipWith (liftOp E) hs is) ∧
      Valid E.info (ops ++ List.zipWith (liftOp E) hs is) ∧
      Taken E hs is (State.after E.info ops) (State.after E.info (ops ++ List.zipWith (liftOp E) hs is)) ∧
      (Laid t.core → WordsAt s.mem t.core v ptr is) := by
  obtain ⟨hl, is, c, L, w⟩ := load_lifts t.core hw ptr s v s' h
  rw [hs] at L
  obtain ⟨k1, k2, -, k4⟩ := lifts_history hv L fun _ => hx
  exact ⟨hl, is, c, k1, k2, k4, w⟩

/-- The handles in a value are determined by it. -/
theorem carried_once (t : VT) (v : Val) (a b : List Held) (h1 : Carried t.core v a) (h2 : Carried t.core v b) : a = b :=
  carried_unique t.core v a b h1 h2

/-- The words for its handles among flat values are determined by type, value and flat values. -/
theorem words_in_once (m : Mem) (t : VT) (hl : Laid t.core) (hw : Wf t.core) (v : Val) (fs : List FV) (a b : List U32)
    (h1 : WordsIn m t.core v fs a) (h2 : WordsIn m t.core v fs b) : a = b :=
  wordsIn_unique m t.core hl hw v fs a b h1 h2

/-- The words for its handles in memory are determined by type, value and address. -/
theorem words_at_once (m : Mem) (t : VT) (hl : Laid t.core) (hw : Wf t.core) (v : Val) (p : U32) (a b : List U32)
    (h1 : WordsAt m t.core v p a) (h2 : WordsAt m t.core v p b) : a = b :=
  wordsAt_unique m t.core hl hw v p a b h1 h2

/-! ## C89: values with handles cannot be stored -/

/-- **C89 is false of the code.** A value with a handle in it is never stored, although `Load` reads such values: `Store`
has no case for handles. -/
theorem store_with_handle_fails (E : Env σ) (t : VT) (v : Val) (hs : List Held) (hc : Carried t.core v hs) (hn : hs ≠ [])
    (ptr : U32) (s : St σ) : (t.store E v ptr s).1 ≠ .ok () := by
  intro h
  have := store_carries (E := E) t.core v ptr s (t.store E v ptr s).2 (by
    show t.store E v ptr s = _
    rw [← h])
  exact hn (carried_unique _ _ _ _ hc this)

/-- So a list with handles in it, which is passed in memory, cannot be lowered either. -/
theorem lower_list_with_handle_fails (E : Env σ) (t : VT) (v : Val) (hs : List Held) (hc : Carried (VT.list t).core v hs)
    (hn : hs ≠ []) (s : St σ) (fs : List FV) : ((VT.list t).lower E v s).1 ≠ .ok fs := by
  intro h
  rw [VT.lower] at h
  simp only [VT.core] at h hc
  rcases e : lowerFlat E (.list t.core) v s with ⟨r, s'⟩
  rw [e] at h
  simp only at h
  subst h
  rw [lowerFlat] at e
  obtain ⟨⟨p, n⟩, s1, e1, -⟩ := SM.bind_eq_ok.1 e
  obtain ⟨vs, rfl, hall⟩ := storeListIntoRange_each e1
  obtain ⟨hss, h1, h2⟩ := carried_each (t := t.core) vs fun x hx => by
    obtain ⟨p, s1, s2, h⟩ := hall x hx
    exact store_carries t.core x p s1 s2 h
  exact hn (carried_unique (.list t.core) _ _ _ hc (by rw [Carried]; exact ⟨vs, hss, rfl, h1, h2⟩))

/-! ## C90: passing a value moves its handles -/

/-- **C90.** A value is lifted out of one instance during a call and then lowered into another, as the arguments and
results of every call between components are. Each owned handle in it was in the first instance, is no longer there, and
the second instance has, at an index that was free, an owned handle to the same resource. The indices are the words for
the handles among the flat values lifted and returned.
Missing: histories that are not `Valid`, and types with repeated labels (`repeated_label_two_owners`: false there) or otherwise not `Wf`. -/
theorem pass_moves_owned_partial (A B : Env σ) (hi : A.info = B.info) (hab : A.inst ≠ B.inst) (ops : List Op)
    (hv : Valid A.info ops) (hxA : (State.after A.info ops).exited A.cx = false)
    (hxB : (State.after A.info ops).exited B.cx = false) (t : VT) (hw : Wf t.core) (v : Val)
    (sA sA' : LSt σ) (hs : sA.st.world = World.after A.info ops) (h1 : t.lift A sA = (.ok v, sA'))
    (sB sB' : St σ) (hB : sB.world = sA'.st.world) (fs : List FV) (h2 : t.lower B v sB = (.ok fs, sB'))
    (hf : sB'.world.Fits) :
    ∃ hs is js, Carried t.core v hs ∧ is.length = hs.length ∧ js.length = hs.length ∧
      WordsIn sA.st.mem t.core v (sA.it.values.drop sA.it.index) is ∧ WordsIn sB'.mem t.core v fs js ∧
      ∃ ops', sB'.world = World.after A.info (ops ++ ops') ∧ Valid A.info (ops ++ ops') ∧
        (∀ p ∈ hs.zip is, p.1.own = true →
          (∃ h, (State.after A.info ops).live (placeOf A p) = some h ∧ h.rep = p.1.rep) ∧
          (State.after A.info (ops ++ ops')).live (placeOf A p) = none) ∧
        (∀ p ∈ hs.zip js, p.1.own = true →
          (State.after A.info ops).live (placeOf B p) = none ∧
          (State.after A.info (ops ++ ops')).live (placeOf B p) = some ⟨p.1.rep, true, none⟩) := by
  obtain ⟨hl, is, c1, L1, w1⟩ := liftFlat_lifts t.core hw sA v sA' h1
  rw [hs] at L1
  obtain ⟨k1, k2, k3, k4⟩ := lifts_history hv L1 fun _ => hxA
  obtain ⟨hl', js, c2, L2, w2⟩ := lowerFlat_lowers t.core v sB fs sB' h2
  obtain rfl := carried_unique _ _ _ _ c1 c2
  rw [hB, k1, hi] at L2
  rw [hi] at k2 k3
  obtain ⟨m1, m2, -, m4⟩ := lowers_history k2 L2 hf fun _ => by rw [k3, ← hi]; exact hxB
  refine ⟨hl, is, js, c1, k4.length, m4.length, w1, w2 _ _ (.refl _), _, by rw [← List.append_assoc, hi]; exact m1,
    by rw [← List.append_assoc, hi]; exact m2, ?_, ?_⟩
  · intro p hp ho
    refine ⟨k4.had p hp, ?_⟩
    rw [← List.append_assoc, hi, m4.others _ fun q _ _ heq => hab ?_, ← hi]
    · exact k4.gone p hp ho
    · exact (congrArg Loc.inst heq).symm
  · intro p hp ho
    obtain ⟨n1, n2⟩ := m4.new p hp (.inl ho)
    rw [← hi, k4.others _ fun q _ _ heq => hab ?_] at n1
    · refine ⟨n1, ?_⟩
      rw [← List.append_assoc, hi, n2, handleOf, ho]; rfl
    · exact congrArg Loc.inst heq

/-! ## C22: lifting what was lowered, with handles -/

/-- **C22, with handles**, for types with at most 64 flags, values whose strings and lists fit a 32-bit memory, and
borrowed handles of resource types the instance does not implement itself. After any valid history and during a call that
has not ended, if the allocator keeps its promises and `LowerFlat` succeeds, then `LiftFlat`, given the lowered values
among any others, returns the same value, reads exactly the lowered values and changes no memory; the owned handles the
lowering made are gone again, the borrowed ones are still there and lent to the call, and every other handle is as it was
before. Missing: more than 64 flags (`lower_flags_over_64`: false there); borrowed handles lowered into the instance
that implements them, where by design no handle is made. -/
theorem lower_lift_handles_partial (E : Env σ) (used : σ → Nat → Prop) (G : GoodAlloc E used)
    (henc : E.enc ∈ Spec.encodings) (ops : List Op) (hv : Valid E.info ops)
    (hx : (State.after E.info ops).exited E.cx = false)
    (t : VT) (v : Val) (ht : HasType t.core v) (hw : Wf t.core) (hlf : ListsFit t.core v)
    (hsf : StringsFit E.enc t.core v) (hs : List Held) (hc : Carried t.core v hs) (hen : ∀ h ∈ hs, Enters E h)
    (s s' : St σ) (hsw : s.world = World.after E.info ops) (hg : s.mem.len < 2 ^ 32 ∧ s.mem.len ≤ s.mem.cap)
    (fs : List FV) (h : t.lower E v s = (.ok fs, s')) (hf : s'.world.Fits) (before rest : List FV) :
    ∃ w is w2 ops', t.lift E ⟨s', itAt (before ++ fs ++ rest) before.length⟩ =
        (.ok w, ⟨{ s' with world := w2 }, itAt (before ++ fs ++ rest) (before.length + fs.length)⟩) ∧
      Same t.core v w ∧ is.length = hs.length ∧
      w2 = World.after E.info (ops ++ ops') ∧ Valid E.info (ops ++ ops') ∧
      (∀ p ∈ hs.zip is, (State.after E.info ops).live (placeOf E p) = none ∧
        (State.after E.info (ops ++ ops')).live (placeOf E p) =
          if p.1.own then none else some ⟨p.1.rep, false, some E.cx⟩) ∧
      (∀ l, (∀ p ∈ hs.zip is, placeOf E p ≠ l) →
        (State.after E.info (ops ++ ops')).live l = (State.after E.info ops).live l) ∧
      (∀ q, q ∈ (State.after E.info (ops ++ ops')).lends ↔ q ∈ (State.after E.info ops).lends ∨
        ∃ p ∈ hs.zip is, p.1.own = false ∧ q = (E.cx, placeOf E p)) := by
  unfold VT.lower at h
  unfold VT.lift
  generalize t.core = t at *
  have hl := laid_of_flatten t _ (lower_kinds E t v s s' fs h)
  rcases lower_moves G henc t v ht hw hl hlf hsf s hg with ⟨fs', s2, e, hs', is, c, L, w⟩ | ⟨e, -⟩
  · rw [h] at e
    injection e with e1 e
    injection e1 with e1
    subst e e1
    obtain rfl := carried_unique _ _ _ _ hc c
    obtain ⟨F, -, hF⟩ := w.foot
    have ret := hF s' (Nat.le_refl _) w.step.good (fun _ _ => rfl)
    rw [hsw] at L
    obtain ⟨k1, k2, k3, k4⟩ := lowers_history hv L hf fun _ => hx
    have nodup := k4.apart hen
    obtain ⟨w2, L2⟩ := lifts_exist (E := E) hs is k4.length.symm _ _ k2.rel k2.2 (fun _ => by rw [k3]; exact hx) nodup
      fun p hp => by
        obtain ⟨n1, n2⟩ := k4.new p hp (hen _ (List.of_mem_zip hp).1)
        refine ⟨_, n2, rfl, fun _ hlent => ?_⟩
        obtain ⟨cx, hcx⟩ := hlent
        rw [k4.lends] at hcx
        exact lent_live_partial E.info ops hv _ ⟨cx, hcx⟩ n1
    obtain ⟨m1, m2, m3, m4⟩ := lifts_history k2 L2 fun _ => by rw [k3]; exact hx
    rw [← k1] at L2
    refine ⟨norm t v, is, w2, hs.map (lowerOp E) ++ List.zipWith (liftOp E) hs is, ?_, same_norm t v ht hw, k4.length, ?_⟩
    · exact ret _ _ _ _ (feeds_base fs before rest) L2
    · rw [← List.append_assoc]
      refine ⟨m1, m2, ?_, ?_, ?_⟩
      · intro p hp
        obtain ⟨n1, n2⟩ := k4.new p hp (hen _ (List.of_mem_zip hp).1)
        refine ⟨n1, ?_⟩
        cases ho : p.1.own with
        | true => exact m4.gone p hp ho
        | false =>
          rw [m4.others _ fun q hq hqo heq => ?_, n2, handleOf, ho]; rfl
          have : q = p := List.inj_on_of_nodup_map nodup hq hp heq
          rw [this, ho] at hqo; cases hqo
      · intro l hne
        rw [m4.others l fun p hp _ => hne p hp, k4.others l fun p hp _ => hne p hp]
      · intro q
        rw [m4.lends, k4.lends]
  · rw [h] at e; exact absurd rfl (e fs)

/-! ## Examples -/

/-- A record with an owned handle, a number and, in a variant, a borrowed handle. -/
def exHTy : VT :=
  .record (.cons "a" (.own 5) (.cons "b" .u8 (.cons "c" (.variant (.cons "x" .string none (.cons "y" (.borrow 6) none .nil)))
    .nil)))

/-- A value of it. -/
def exHVal : Val := .map [("a", .u32 42), ("b", .u8 7), ("c", .map [("y", .u32 77)])]

/-- Its handles. -/
def exHeld : List Held := [⟨true, 5, 42⟩, ⟨false, 6, 77⟩]

/-- Call 1 out of instance 0. -/
def exHA : Env Nat := { bumpEnv "utf-8" with inst := 0, cx := 1, info := demoInfo }

/-- Call 3 into instance 2. -/
def exHB : Env Nat := { bumpEnv "utf-8" with inst := 2, cx := 3, info := demoInfo }

/-- Instance 0 has handles to two resources, at index 0 each. -/
def exHOps : List Op := [.new 0 5 42, .new 0 6 77]

/-- The state after that, with some memory. -/
def exHSt : St Nat := { bumpSt with world := World.after demoInfo exHOps }

theorem exH_valid : Valid demoInfo exHOps := by
  refine valid_of_short _ _ ?_ (by decide)
  refine ⟨?_, ?_, trivial⟩ <;> intro c h <;> cases h

theorem exH_good : GoodAlloc exHB (fun h x => x < h) :=
  ⟨(bump_good "utf-8").keeps, (bump_good "utf-8").grows, (bump_good "utf-8").block⟩

theorem exH_selects : Selects (.cons "x" .string none (.cons "y" (.borrow 6) none .nil)) "y" 1 := by
  refine ⟨[], "y", [], by decide, ?_, by simp, rfl, ?_⟩
  · intro p hp
    simp only [List.nil_append, List.mem_cons, List.not_mem_nil, or_false] at hp
    subst hp
    simp [NoBar]
  · intro j hj
    match j, hj with
    | 0, _ => omega
    | 1, _ => omega
    | j + 2, hj => simp [Cases.labels] at hj

theorem exH_carried : Carried exHTy.core exHVal exHeld := by
  simp only [exHTy, exHVal, VT.core, VFields.core, VCases.core, Carried, CarriedFields]
  refine ⟨_, rfl, [⟨true, 5, 42⟩], [⟨false, 6, 77⟩], ⟨42, rfl, rfl⟩,
    ⟨[], _, rfl, ⟨[⟨false, 6, 77⟩], [], ⟨"y", .u32 77, 1, rfl, exH_selects, ?_⟩, rfl, rfl⟩, rfl⟩, rfl⟩
  simp only [CarriedPayload, Carried]
  exact .inr ⟨by simp, 77, rfl, rfl⟩

theorem exH_hasType : HasType exHTy.core exHVal := by
  simp only [exHTy, exHVal, VT.core, VFields.core, VCases.core, HasType, HasFields]
  refine ⟨_, rfl, ⟨42, rfl⟩, ⟨7, rfl⟩, ⟨"y", .u32 77, 1, rfl, exH_selects, ?_⟩, trivial⟩
  simp only [HasPayload, HasType]
  exact .inr ⟨77, rfl⟩

theorem exH_wf : Wf exHTy.core := by
  simp only [exHTy, VT.core, VFields.core, VCases.core, Wf, WfCases, WfFields]
  refine ⟨by decide, trivial, trivial, ⟨by decide, by decide, ?_, trivial, trivial, trivial⟩, trivial⟩
  intro i l t r h
  match i, h with
  | 0, h => simp only [Cases.get?, Option.some.injEq, Prod.mk.injEq] at h; obtain ⟨rfl, -, rfl⟩ := h; exact ⟨_, .stop _⟩
  | 1, h => simp only [Cases.get?, Option.some.injEq, Prod.mk.injEq] at h; obtain ⟨rfl, -, rfl⟩ := h; exact ⟨_, .stop _⟩
  | i + 2, h => simp [Cases.get?] at h

theorem exH_fits : ListsFit exHTy.core exHVal ∧ StringsFit "utf-8" exHTy.core exHVal := by
  simp only [exHTy, exHVal, VT.core, VFields.core, VCases.core]
  constructor
  · rw [ListsFit]
    intro m h
    injection h with h
    subst h
    simp only [ListsFitFields]
    refine ⟨by simp [ListsFit], by simp [ListsFit], ?_, trivial⟩
    rw [ListsFit]
    intro key p i h hs
    have h' : Val.map [("y", .u32 77)] = .map [(key, p)] := h
    injection h' with h'
    injection h' with h'
    injection h' with h1 h2
    subst h1 h2
    obtain rfl := hs.unique exH_selects
    simp [ListsFitPayload, ListsFit]
  · rw [StringsFit]
    intro m h
    injection h with h
    subst h
    simp only [StringsFitFields]
    refine ⟨by simp [StringsFit], by simp [StringsFit], ?_, trivial⟩
    rw [StringsFit]
    intro key p i h hs
    have h' : Val.map [("y", .u32 77)] = .map [(key, p)] := h
    injection h' with h'
    injection h' with h'
    injection h' with h1 h2
    subst h1 h2
    obtain rfl := hs.unique exH_selects
    simp [StringsFitPayload, StringsFit]

/-- The value meets the hypotheses of C22 and C88, lowering: instance 2 gets handles 0 of types 5 and 6. -/
example : HasType exHTy.core exHVal ∧ Wf exHTy.core ∧ ListsFit exHTy.core exHVal ∧
    StringsFit exHB.enc exHTy.core exHVal ∧ exHB.enc ∈ Spec.encodings ∧ Carried exHTy.core exHVal exHeld ∧
    (∀ h ∈ exHeld, Enters exHB h) ∧ Valid exHB.info exHOps ∧ (State.after exHB.info exHOps).exited exHB.cx = false ∧
    (exHTy.lower exHB exHVal exHSt).1 = .ok [.u32 0, .u32 7, .u32 1, .u32 0, .u32 0] ∧
    (exHTy.lower exHB exHVal exHSt).2.world.Fits := by
  have hw : ((exHTy.lower exHB exHVal exHSt).1) = .ok [.u32 0, .u32 7, .u32 1, .u32 0, .u32 0] := by decide
  refine ⟨exH_hasType, exH_wf, exH_fits.1, exH_fits.2, by decide, exH_carried, ?_, exH_valid, by decide, hw, ?_⟩
  · intro h hh
    simp only [exHeld, List.mem_cons, List.not_mem_nil, or_false] at hh
    rcases hh with rfl | rfl
    · exact .inl rfl
    · exact .inr (by decide)
  · rcases e : exHTy.lower exHB exHVal exHSt with ⟨r, s'⟩
    rw [e] at hw
    simp only at hw
    subst hw
    obtain ⟨hs, is, c, L, -⟩ := lowerFlat_lowers (E := exHB) exHTy.core exHVal exHSt _ _ e
    obtain rfl := carried_unique _ _ _ _ exH_carried c
    intro inst rt
    have h1 := lowers_tables L inst rt
    have h2 := run_tables_length demoInfo .init .init exHOps inst rt
    have e1 : exHOps.length = 2 := rfl
    have e2 : exHeld.length = 2 := rfl
    have e3 : (World.init.tables inst rt).array.length = 0 := rfl
    have e4 : exHSt.world = (run demoInfo .init .init exHOps).1 := rfl
    rw [e4] at h1
    show (s'.world.tables inst rt).array.length < 2 ^ 32
    omega

/-- The hypotheses of C88, lifting, and C90: the value is lifted out of instance 0, from index 0 of types 5 and 6, and
then lowered into instance 2. -/
example : (exHTy.lift exHA ⟨exHSt, itAt [.u32 0, .u32 7, .u32 1, .u32 0, .u32 0] 0⟩).1 = .ok exHVal ∧
    (let s := (exHTy.lift exHA ⟨exHSt, itAt [.u32 0, .u32 7, .u32 1, .u32 0, .u32 0] 0⟩).2.st
     (exHTy.lower exHB exHVal s).1 = .ok [.u32 0, .u32 7, .u32 1, .u32 0, .u32 0]) ∧
    (State.after exHA.info exHOps).live ⟨0, 5, 0⟩ = some ⟨42, true, none⟩ := ⟨rfl, rfl, by decide⟩

/-- The hypotheses of C88, loading: the same value in memory. -/
example : (exHTy.load exHA 0 { exHSt with mem := exHSt.mem.write 0 [0, 0, 0, 0, 7, 0, 0, 0, 1, 0, 0, 0, 0, 0, 0, 0] }).1 =
    .ok exHVal := rfl

/-- Of that type and value, the handles are the first and the fourth word of flat values. -/
example (m : Mem) (a b c d : U32) (fs : List FV) :
    WordsIn m exHTy.core exHVal (.u32 a :: .u32 b :: .u32 c :: .u32 d :: fs) [a, d] := by
  simp only [exHTy, exHVal, VT.core, VFields.core, VCases.core]
  rw [WordsIn]
  refine ⟨_, rfl, ?_⟩
  simp only [WordsInFields]
  refine ⟨[a], [d], by rw [WordsIn]; exact ⟨_, rfl, rfl⟩, fun ks hk => ?_, rfl⟩
  cases hk
  refine ⟨[], [d], by simp [WordsIn], fun ks hk => ?_, rfl⟩
  cases hk
  refine ⟨[d], [], ?_, fun _ _ => rfl, rfl⟩
  rw [WordsIn]
  refine ⟨_, _, _, rfl, exH_selects, ?_⟩
  simp only [WordsInPayload]
  exact .inr ⟨by decide, by rw [WordsIn]; exact ⟨_, rfl, rfl⟩⟩

/-- In memory, from address 0, they are the words at 0 and 12. -/
example (m : Mem) : WordsAt m exHTy.core exHVal 0 [BitVec.ofNat 32 (natAt m 0 4), BitVec.ofNat 32 (natAt m 12 4)] := by
  simp only [exHTy, exHVal, VT.core, VFields.core, VCases.core]
  rw [WordsAt]
  refine ⟨_, rfl, ?_⟩
  simp only [WordsAtFields]
  refine ⟨[_], [_], by rw [WordsAt]; rfl, fun z hz => ?_, rfl⟩
  cases hz
  refine ⟨[], [_], by simp [WordsAt], fun z hz => ?_, rfl⟩
  cases hz
  refine ⟨[_], [], ?_, fun _ _ => rfl, rfl⟩
  rw [WordsAt]
  refine ⟨_, _, _, rfl, exH_selects, ?_⟩
  simp only [WordsAtPayload]
  exact .inr ⟨by decide, by rw [WordsAt]; rfl⟩

/-- And of C89: the value has handles. -/
example : Carried exHTy.core exHVal exHeld ∧ exHeld ≠ [] ∧ (exHTy.store exHB exHVal 0 exHSt).1 = .err :=
  ⟨exH_carried, by decide, by decide⟩

end Verif.Abi
