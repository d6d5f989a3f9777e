import Verif.Abi.ConfineProps

/-!
# C133: a failed call does not close an instance
-/

namespace Verif.Abi
open Spec
open Handles (InstId)

variable {σ : Type}

/-- What holds before holds afterwards, whatever the outcome. -/
structure Upholds {S α : Type} (P : S → Prop) (m : SM S α) : Prop where
  keep : ∀ s, P s → P (m s).2

namespace Upholds
variable {S α β : Type} {P : S → Prop}

theorem bind {m : SM S α} {g : α → SM S β} (h1 : Upholds P m) (h2 : ∀ a, Upholds P (g a)) : Upholds P (m >>= g) := by
  refine ⟨fun s hs => ?_⟩
  rw [SM.bind_def]
  have := h1.keep s hs
  rcases e : m s with ⟨r, s1⟩
  rw [e] at this
  cases r with
  | ok a => exact (h2 a).keep s1 this
  | err => exact this
  | panic => exact this
  | diverge => exact this

theorem bindOn {m : SM S α} {g : α → SM S β} (h1 : Upholds P m) (h2 : ∀ s a t, m s = (.ok a, t) → Upholds P (g a)) :
    Upholds P (m >>= g) := by
  refine ⟨fun s hs => ?_⟩
  rw [SM.bind_def]
  have := h1.keep s hs
  rcases e : m s with ⟨r, s1⟩
  rw [e] at this
  cases r with
  | ok a => exact (h2 s a s1 e).keep s1 this
  | err => exact this
  | panic => exact this
  | diverge => exact this

theorem pure (a : α) : Upholds P (Pure.pure a : SM S α) := ⟨fun _ h => h⟩
theorem fail : Upholds P (SM.fail : SM S α) := ⟨fun _ h => h⟩
theorem crash : Upholds P (SM.crash : SM S α) := ⟨fun _ h => h⟩
theorem get : Upholds P (SM.get : SM S S) := ⟨fun _ h => h⟩
theorem lift (r : Res α) : Upholds P (SM.lift r : SM S α) := ⟨fun _ h => h⟩
theorem ite {c : Prop} [Decidable c] {m n : SM S α} (h1 : Upholds P m) (h2 : Upholds P n) : Upholds P (if c then m else n) := by
  split
  · exact h1
  · exact h2

end Upholds

/-- The instance may not be left, so that no call can be made into it or out of it. -/
def Spec.Closed (k : InstId) (s : Sys σ) : Prop := s.world.mayLeave k = false

/-- A closed instance is closed whatever comes of `m`. -/
def Spec.StaysClosed (k : InstId) {α : Type} (m : SM (Sys σ) α) : Prop := ∀ s, Closed k s → Closed k (m s).2

theorem closed_ofPres {k : InstId} {α : Type} {m : SM (Sys σ) α} (h : Pres Sys.flags m) : Upholds (Closed k) m :=
  ⟨fun s (hs : s.flags.2 k = false) => by show (m s).2.flags.2 k = false; rw [h.keep]; exact hs⟩

theorem setLeave_closed {k : InstId} (S : Side σ) (h : k ≠ S.E.inst) (b : Bool) : Upholds (Closed k) (setLeave S b) :=
  ⟨fun s hs => by
    show Handles.upd s.world.mayLeave S.E.inst b k = false
    rw [Handles.upd_other _ _ h]; exact hs⟩

theorem canonLift_closed (k : InstId) (S : Side σ) (ord : List (String × Val) → List (String × Val))
    (callee : List Core → SM (Sys σ) (Option (List Core))) (hc : ∀ fs, StaysClosed k (callee fs)) (ft : FuncTy)
    (args : List Val) (mp mr : Nat) : StaysClosed k (canonLift S ord callee ft args mp mr) := by
  by_cases hk : k = S.E.inst
  · intro s hs
    rw [canonLift_forbidden S ord callee ft args mp mr s fun ha => ?_]
    · exact hs
    · have : s.world.mayLeave k = false := hs
      rw [hk, ha.2] at this
      cases this
  · refine (?_ : Upholds (Closed k) (canonLift S ord callee ft args mp mr)).keep
    unfold canonLift
    refine .bind .get fun _ => .ite .fail (.ite .fail ?_)
    refine .bind ⟨fun _ h => h⟩ fun _ => .bind (setLeave_closed S hk _) fun _ => ?_
    refine .bind (closed_ofPres (lowerValues_flags ..)) fun fs => .bind (setLeave_closed S hk _) fun _ => ?_
    refine .bind ⟨hc fs⟩ fun r => ?_
    cases r with
    | none => exact .fail
    | some rs =>
      exact .bind (.lift _) fun _ => .bind (closed_ofPres (withIter_flags _ _ (liftValues_flags ..))) fun _ => .pure _

theorem postResult_closed (k : InstId) (S : Side σ) (hp : ∀ p, S.post = some p → StaysClosed k p) :
    Upholds (Closed k) (postResult S) := by
  unfold postResult
  split
  · rename_i p e
    exact .bind ⟨hp p e⟩ fun _ => closed_ofPres (exitIgnored_flags S)
  · exact closed_ofPres (exitIgnored_flags S)

theorem canonLower_closed (k : InstId) (S : Side σ) (ord : List (String × Val) → List (String × Val))
    (callee : List Val → SM (Sys σ) (List Val × Option (SM (Sys σ) Unit))) (hc : ∀ vs, StaysClosed k (callee vs))
    (hp : ∀ vs s rs p u, callee vs s = (.ok (rs, some p), u) → StaysClosed k p) (imp : Bool) (ft : FuncTy)
    (flat : List Core) (mp mr : Nat) : StaysClosed k (canonLower S ord callee imp ft flat mp mr) := by
  by_cases hk : k = S.E.inst
  · intro s hs
    rw [canonLower_forbidden S ord callee imp ft flat mp mr s fun ha => ?_]
    · exact hs
    · have : s.world.mayLeave k = false := hs
      rw [hk, ha.2] at this
      cases this
  · refine (?_ : Upholds (Closed k) (canonLower S ord callee imp ft flat mp mr)).keep
    unfold canonLower
    refine .bind ⟨fun _ h => h⟩ fun _ => .bind .get fun _ => .ite .fail (.ite .fail ?_)
    refine .bind (.lift _) fun _ => .bind (closed_ofPres (withIter_flags _ _ (liftValues_flags ..))) fun a => ?_
    refine .bindOn ⟨hc a.1⟩ fun s r t e => ?_
    refine .bind (setLeave_closed S hk _) fun _ => .bind (closed_ofPres (lowerValues_flags ..)) fun _ => ?_
    refine .bind (setLeave_closed S hk _) fun _ => ?_
    obtain ⟨rs, q⟩ := r
    cases q with
    | none => exact .crash
    | some p =>
      refine .bind ⟨hp _ _ _ _ _ e⟩ fun _ => .bind (closed_ofPres (exitIgnored_flags S)) fun _ => ?_
      cases imp with
      | false => exact .pure _
      | true => exact .bind ⟨fun _ h => h⟩ fun _ => .pure _

theorem compCall_closed (k : InstId) (c : CompCall σ) (hc : ∀ fs, StaysClosed k (c.f fs))
    (hp : ∀ p, c.B.post = some p → StaysClosed k p) : StaysClosed k c.run :=
  canonLower_closed k c.A c.ord _ (fun vs => canonLift_closed k c.B c.ord' c.f hc c.ft vs c.mpB c.mrB)
    (fun vs s rs p u e => by
      obtain ⟨hq, -⟩ := canonLift_returns c.B c.ord' c.f c.ft vs c.mpB c.mrB s u rs (some p) e
      cases hq
      exact (postResult_closed k c.B hp).keep)
    c.imp c.ft c.flat c.mpA c.mrA

/-- A call into or out of a closed instance does not succeed. -/
theorem compCall_refused (k : InstId) (c : CompCall σ) (hk : k = c.A.E.inst ∨ k = c.B.E.inst) (s : Sys σ) (hs : Closed k s) :
    ∀ fs, (c.run s).1 ≠ .ok fs := by
  intro fs h
  have hs' : s.world.mayLeave k = false := hs
  by_cases ha : Allowed s c.A
  swap
  · unfold CompCall.run at h
    rw [canonLower_forbidden c.A c.ord _ c.imp c.ft c.flat c.mpA c.mrA s ha] at h
    cases h
  rcases hk with rfl | rfl
  · rw [ha.2] at hs'; cases hs'
  · rcases e : c.run s with ⟨r, u⟩
    rw [e] at h
    simp only at h
    subst h
    unfold CompCall.run canonLower at e
    obtain ⟨_, s0, h0, e⟩ := SM.bind_eq_ok.1 e
    cases h0
    rw [SM.bind_get, SM.ite_app, if_neg (by show s.world.mayLeave c.A.E.inst ≠ false; rw [ha.2]; simp), SM.ite_app,
      if_neg (by show s.world.mayEnter c.A.E.inst ≠ false; rw [ha.1]; simp)] at e
    obtain ⟨vs, s1, h1, e⟩ := SM.bind_eq_ok.1 e
    obtain ⟨a, s2, h2, e⟩ := SM.bind_eq_ok.1 e
    obtain ⟨r, s3, h3, e⟩ := SM.bind_eq_ok.1 e
    have k1 : s1.world.mayLeave c.B.E.inst = false := by
      rw [SM.lift_def] at h1
      injection h1 with _ h1
      rw [← h1]; exact hs'
    have k2 := (closed_ofPres (withIter_flags c.A.o (newIterator vs) (liftValues_flags c.A.E c.ord c.mpA c.ft.params))
      (k := c.B.E.inst)).keep s1 k1
    rw [h2] at k2
    replace h3 : canonLift c.B c.ord' c.f c.ft a.1 c.mpB c.mrB s2 = _ := h3
    rw [canonLift_forbidden c.B c.ord' c.f c.ft a.1 c.mpB c.mrB s2 (fun hb => by
      have : s2.world.mayLeave c.B.E.inst = false := k2
      rw [hb.2] at this; cases this)] at h3
    cases h3

/-- **C133 is false of the code, for ever.** Once an instance is closed, no call into it or out of it succeeds, in any
sequence of calls, unless the code that is called opens it. -/
theorem closed_for_ever (k : InstId) (cs : List (CompCall σ))
    (h : ∀ c ∈ cs, (∀ fs, StaysClosed k (c.f fs)) ∧ ∀ p, c.B.post = some p → StaysClosed k p) (s : Sys σ) (hs : Closed k s) :
    Closed k (callAll cs s).2 ∧ ∀ (i : Nat) (c : CompCall σ) (r : Res (List Core)), cs[i]? = some c →
      (callAll cs s).1[i]? = some r → (k = c.A.E.inst ∨ k = c.B.E.inst) → ∀ fs, r ≠ .ok fs := by
  induction cs generalizing s with
  | nil => exact ⟨hs, fun i c r h => by simp at h⟩
  | cons c cs ih =>
    obtain ⟨h1, h2⟩ := ih (fun c hc => h c (by simp [hc])) (c.run s).2
      (compCall_closed k c (h c (by simp)).1 (h c (by simp)).2 s hs)
    refine ⟨h1, fun i d r hd hr hk => ?_⟩
    cases i with
    | zero =>
      simp only [List.getElem?_cons_zero, Option.some.injEq, callAll] at hd hr
      subst hd hr
      exact compCall_refused k c hk s hs
    | succ i =>
      simp only [List.getElem?_cons_succ, callAll] at hd hr
      exact h2 i d r hd hr hk

/-- **C133 is false of the code, how it comes to that.** A call whose arguments cannot be lowered closes the called
instance, whatever the reason. -/
theorem bad_arguments_close (S : Side σ) (ord : List (String × Val) → List (String × Val))
    (callee : List Core → SM (Sys σ) (Option (List Core))) (ft : FuncTy) (args : List Val) (mp mr : Nat) (s : Sys σ)
    (ha : Allowed s S) (hl : ∀ fs, (lowerValues S.E S.o mp args ft.params none (s.entered S)).1 ≠ .ok fs) :
    Closed S.E.inst (canonLift S ord callee ft args mp mr s).2 := by
  rw [canonLift_eq S ord callee ft args mp mr s ha.1 ha.2]
  have hf := (lowerValues_flags S.E S.o mp args ft.params none).keep (s.entered S)
  rcases e : lowerValues S.E S.o mp args ft.params none (s.entered S) with ⟨r, t⟩
  rw [e] at hl hf
  have lost := (leaveLost_of S s t ((newCtx S) s).2 rfl hf).2.1
  cases r with
  | ok fs => exact absurd rfl (hl fs)
  | err => rw [SM.bind_err e]; exact lost
  | panic => rw [SM.bind_panic e]; exact lost
  | diverge => rw [SM.bind_diverge e]; exact lost

/-- The flags are as before if it succeeds. -/
structure KeepsFlags {α : Type} (m : SM (Sys σ) α) : Prop where
  keep : ∀ s a t, m s = (.ok a, t) → t.flags = s.flags

theorem canonLift_flagsOk (S : Side σ) (ord : List (String × Val) → List (String × Val))
    (callee : List Core → SM (Sys σ) (Option (List Core))) (hc : ∀ xs s, FlagsKept s (callee xs s).2) (ft : FuncTy)
    (args : List Val) (mp mr : Nat) : KeepsFlags (canonLift S ord callee ft args mp mr) :=
  ⟨fun s a t h => (flagsKept_iff _ _).1 (canonLift_flags_ok S ord callee hc ft args mp mr s t a h)⟩

theorem upd_upd_leave (f : InstId → Bool) (k : InstId) (h : f k = true) :
    Handles.upd (Handles.upd f k false) k true = f := by
  funext i
  unfold Handles.upd
  by_cases hi : i = k
  · rw [if_pos hi, hi, h]
  · rw [if_neg hi, if_neg hi]

/-- A call that succeeds leaves the flags of all instances as they were, if the code does. -/
theorem compCall_flags (c : CompCall σ) (hc : ∀ fs s, FlagsKept s (c.f fs s).2)
    (hp : ∀ p, c.B.post = some p → ∀ s, FlagsKept s (p s).2) (s t : Sys σ) (fs : List Core) (h : c.run s = (.ok fs, t)) :
    FlagsKept s t := by
  by_cases ha : Allowed s c.A
  swap
  · unfold CompCall.run at h
    rw [canonLower_forbidden c.A c.ord _ c.imp c.ft c.flat c.mpA c.mrA s ha] at h
    cases h
  have e := h
  unfold CompCall.run canonLower at e
  obtain ⟨_, s0, h0, e⟩ := SM.bind_eq_ok.1 e
  have f0 : s0.flags = s.flags := by cases h0; rfl
  rw [SM.bind_get] at e
  have hl0 : s0.world.mayLeave c.A.E.inst = true := by cases h0; exact ha.2
  have he0 : s0.world.mayEnter c.A.E.inst = true := by cases h0; exact ha.1
  rw [SM.ite_app, if_neg (by rw [hl0]; simp), SM.ite_app, if_neg (by rw [he0]; simp)] at e
  obtain ⟨vs, s1, h1, e⟩ := SM.bind_eq_ok.1 e
  have f1 : s1.flags = s.flags := by
    rw [SM.lift_def] at h1
    injection h1 with _ h1
    rw [← h1]; exact f0
  obtain ⟨a, s2, h2, e⟩ := SM.bind_eq_ok.1 e
  have f2 := (withIter_flags c.A.o (newIterator vs) (liftValues_flags c.A.E c.ord c.mpA c.ft.params)).keep s1
  rw [h2] at f2
  replace f2 : s2.flags = s.flags := f2.trans f1
  obtain ⟨r, s3, h3, e⟩ := SM.bind_eq_ok.1 e
  have f3 := ((canonLift_flagsOk c.B c.ord' c.f hc c.ft a.1 c.mpB c.mrB).keep s2 r s3 h3).trans f2
  obtain ⟨_, s4, h4, e⟩ := SM.bind_eq_ok.1 e
  obtain ⟨flat, s5, h5, e⟩ := SM.bind_eq_ok.1 e
  have f5 := (lowerValues_flags c.A.E c.A.o c.mrA r.1 c.ft.results (some a.2)).keep s4
  rw [h5] at f5
  obtain ⟨_, s6, h6, e⟩ := SM.bind_eq_ok.1 e
  have f6 : s6.flags = s.flags := by
    cases h6
    rw [← f3]
    have g : s5.flags = (setLeave c.A false s3).2.flags := by cases h4; exact f5
    refine flags_restored c.A s3 s5 ?_ g
    have : s3.flags.2 c.A.E.inst = s.flags.2 c.A.E.inst := by rw [f3]
    exact this.trans ha.2
  obtain ⟨rs, q⟩ := r
  obtain ⟨hq, -⟩ := canonLift_returns c.B c.ord' c.f c.ft a.1 c.mpB c.mrB s2 s3 rs q h3
  cases hq
  simp only at e
  obtain ⟨_, s7, h7, e⟩ := SM.bind_eq_ok.1 e
  have hpost : Pres Sys.flags (postResult c.B) := by
    unfold postResult
    split
    · rename_i p hp'
      exact .bind ⟨fun u => (flagsKept_iff _ _).1 (hp p hp' u)⟩ fun _ => exitIgnored_flags _
    · exact exitIgnored_flags _
  have f7 := hpost.keep s6
  rw [h7] at f7
  replace f7 : s7.flags = s.flags := f7.trans f6
  obtain ⟨_, s8, h8, e⟩ := SM.bind_eq_ok.1 e
  have f8 := (exitIgnored_flags c.A).keep s7
  rw [h8] at f8
  replace f8 : s8.flags = s.flags := f8.trans f7
  rw [flagsKept_iff]
  cases himp : c.imp with
  | false =>
    rw [himp] at e
    cases e
    exact f8
  | true =>
    rw [himp] at e
    obtain ⟨_, s9, h9, e⟩ := SM.bind_eq_ok.1 e
    cases e
    cases h9
    rw [← f8]
    unfold Sys.flags Handles.World.flags
    show (Handles.upd s8.world.mayEnter c.A.E.inst true, s8.world.mayLeave) = _
    congr 1
    funext i
    unfold Handles.upd
    split
    · rename_i hi
      have : s8.flags.1 c.A.E.inst = s.flags.1 c.A.E.inst := by rw [f8]
      rw [hi]
      exact (this.trans ha.1).symm
    · rfl

/-- **C133 for calls that succeed.** After any sequence of calls that all succeed, the flags of all instances are as they
were, if the code leaves them alone. Missing: calls that fail; those close instances (`bad_arguments_close`,
`closed_for_ever`). -/
theorem calls_keep_flags_partial (cs : List (CompCall σ))
    (h : ∀ c ∈ cs, (∀ fs s, FlagsKept s (c.f fs s).2) ∧ ∀ p, c.B.post = some p → ∀ s, FlagsKept s (p s).2) (s : Sys σ)
    (hok : ∀ r ∈ (callAll cs s).1, ∃ fs, r = .ok fs) : FlagsKept s (callAll cs s).2 := by
  induction cs generalizing s with
  | nil => exact ⟨rfl, rfl⟩
  | cons c cs ih =>
    obtain ⟨fs, hfs⟩ := hok (c.run s).1 (by simp [callAll])
    have h1 := compCall_flags c (h c (by simp)).1 (h c (by simp)).2 s (c.run s).2 fs (by rw [← hfs])
    have h2 := ih (fun c hc => h c (by simp [hc])) (c.run s).2 fun r hr => hok r (by simp [callAll, hr])
    exact ⟨h2.1.trans h1.1, h2.2.trans h1.2⟩

/-! ## Examples -/

/-- `echoCall` when the called instance's allocator has no memory to give. -/
def badCall : CompCall Nat := { echoCall with B := { exB with E := { exB.E with realloc := fun _ _ s => (.err, s) } } }

theorem echoFn_flags (fs : List Core) (s : Sys Nat) : FlagsKept s (echoFn fs s).2 := by
  unfold echoFn
  split <;> exact ⟨rfl, rfl⟩

theorem echoFn_closed (k : InstId) (fs : List Core) : StaysClosed k (echoFn fs) := fun s hs => by
  show (echoFn fs s).2.world.mayLeave k = false
  rw [(echoFn_flags fs s).2]
  exact hs

/-- **C133 is false of the code, in an example.** A call succeeds; but after one call for which the called instance had no
memory it fails, and so does every later call into or out of that instance, whatever it is. -/
theorem one_bad_call :
    ((callAll [echoCall, echoCall] callSys).1 matches [.ok _, .ok _]) ∧
    ((callAll [badCall, echoCall] callSys).1 matches [.err, .err]) ∧
    ∀ cs : List (CompCall Nat), (∀ c ∈ cs, (∀ fs, StaysClosed 1 (c.f fs)) ∧ ∀ p, c.B.post = some p → StaysClosed 1 p) →
      ∀ (i : Nat) (c : CompCall Nat) (r : Res (List Core)), cs[i]? = some c →
        (callAll cs (badCall.run callSys).2).1[i]? = some r → (1 = c.A.E.inst ∨ 1 = c.B.E.inst) → ∀ fs, r ≠ .ok fs :=
  ⟨by decide +kernel, by decide +kernel, fun cs h => (closed_for_ever 1 cs h _ (by
    show (badCall.run callSys).2.world.mayLeave 1 = false
    decide +kernel)).2⟩

/-- The hypotheses of `calls_keep_flags_partial` are met by two calls. -/
example : (∀ c ∈ [echoCall, echoCall], (∀ fs s, FlagsKept s (c.f fs s).2) ∧ ∀ p, c.B.post = some p → ∀ s, FlagsKept s (p s).2) ∧
    ((callAll [echoCall, echoCall] callSys).1 matches [.ok _, .ok _]) := by
  refine ⟨fun c hc => ?_, by decide +kernel⟩
  have : c = echoCall := by simpa using hc
  subst this
  exact ⟨echoFn_flags, fun p hp => by cases hp⟩

/-- The hypotheses of `closed_for_ever` are met by two calls of a closed instance. -/
example : (∀ c ∈ [echoCall, echoCall], (∀ fs, StaysClosed 1 (c.f fs)) ∧ ∀ p, c.B.post = some p → StaysClosed 1 p) ∧
    Closed 1 (badCall.run callSys).2 ∧ 1 = echoCall.B.E.inst := by
  refine ⟨fun c hc => ?_, ?_, rfl⟩
  · have : c = echoCall := by simpa using hc
    subst this
    exact ⟨echoFn_closed 1, fun p hp => by cases hp⟩
  · show (badCall.run callSys).2.world.mayLeave 1 = false
    decide +kernel

/-- The hypotheses of `bad_arguments_close` are met by an argument of another type. -/
example : Allowed exSys exB ∧
    ((lowerValues exB.E exB.o 16 [.str "x"] [.u8] none (exSys.entered exB)).1 matches .err) := by
  refine ⟨by decide, by rfl⟩

end Verif.Abi
