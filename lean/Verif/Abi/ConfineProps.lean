import Verif.Abi.ConfineLemmas
import Verif.Abi.IsolationProps
import Verif.Abi.BlindProps

/-!
# C130: a call depends only on the memories that take part in it
-/

namespace Verif.Abi
open Spec

variable {σ : Type}

/-- **C130, the called side.** If the core function depends on nothing in `P`, and the call's own memory is not in `P`,
then `CanonLift` depends on nothing in `P`. -/
theorem canonLift_confined (P : Nat → Prop) (S : Side σ) (ho : ¬ P S.o)
    (ord : List (String × Val) → List (String × Val)) (callee : List Core → SM (Sys σ) (Option (List Core)))
    (hc : ∀ fs, DependsNotOn P (callee fs)) (ft : FuncTy) (args : List Val) (mp mr : Nat) :
    DependsNotOn P (canonLift S ord callee ft args mp mr) :=
  (canonLift_apart S ho ord callee (fun fs => ⟨hc fs⟩) ft args mp mr).run

/-- **C130, the calling side.** If the function called and the post-return functions it returns depend on nothing in `P`,
and the caller's memory is not in `P`, then `CanonLower` depends on nothing in `P`. -/
theorem canonLower_confined (P : Nat → Prop) (S : Side σ) (ho : ¬ P S.o)
    (ord : List (String × Val) → List (String × Val))
    (callee : List Val → SM (Sys σ) (List Val × Option (SM (Sys σ) Unit))) (hc : ∀ vs, DependsNotOn P (callee vs))
    (hp : ∀ vs s rs p u, callee vs s = (.ok (rs, some p), u) → DependsNotOn P p)
    (imp : Bool) (ft : FuncTy) (flat : List Core) (mp mr : Nat) :
    DependsNotOn P (canonLower S ord callee imp ft flat mp mr) :=
  (canonLower_apart S ho ord callee (fun vs => ⟨hc vs⟩) (fun vs s rs p u h => ⟨hp vs s rs p u h⟩) imp ft flat mp mr).run

theorem compCall_confined (P : Nat → Prop) (c : CompCall σ) (h : c.Avoids P) : DependsNotOn P c.run :=
  canonLower_confined P c.A h.caller c.ord _
    (fun vs => canonLift_confined P c.B h.called c.ord' c.f h.code c.ft vs c.mpB c.mrB)
    (fun vs s rs p u e => by
      obtain ⟨hq, -⟩ := canonLift_returns c.B c.ord' c.f c.ft vs c.mpB c.mrB s u rs (some p) e
      cases hq
      exact (postResult_apart c.B fun p hp => ⟨h.post p hp⟩).run)
    c.imp c.ft c.flat c.mpA c.mrA

/-- **C130, any sequence of calls between components.** If none of the calls has a side in `P` or runs code that depends on
`P`, then all their outcomes, and all memories and allocators outside `P` at the end, are the same whatever the memories and
allocators in `P` are. -/
theorem calls_confined (P : Nat → Prop) (cs : List (CompCall σ)) (h : ∀ c ∈ cs, c.Avoids P) (s s' : Sys σ)
    (hs : AlikeBut P s s') :
    (callAll cs s).1 = (callAll cs s').1 ∧ AlikeBut P (callAll cs s).2 (callAll cs s').2 := by
  induction cs generalizing s s' with
  | nil => exact ⟨rfl, hs⟩
  | cons c cs ih =>
    obtain ⟨h1, h2⟩ := compCall_confined P c (h c (by simp)) s s' hs
    obtain ⟨h3, h4⟩ := ih (fun c hc => h c (by simp [hc])) _ _ h2
    exact ⟨by simp only [callAll, h1, h3], h4⟩

/-- **C128, any sequence of calls between components.** If the code that the calls run touches no memory but that of the
called side, then an instance that is on neither side of any of them has the memory and the allocator it had, whatever comes
of the calls. -/
theorem calls_isolated (cs : List (CompCall σ))
    (h : ∀ c ∈ cs, c.A.o ≠ c.B.o ∧ (∀ fs u, Elsewhere c.B.o u (c.f fs u).2) ∧
      ∀ p, c.B.post = some p → ∀ u, Elsewhere c.B.o u (p u).2)
    (k : Nat) (hk : ∀ c ∈ cs, k ≠ c.A.o ∧ k ≠ c.B.o) (s : Sys σ) :
    (callAll cs s).2.mems k = s.mems k ∧ (callAll cs s).2.heaps k = s.heaps k := by
  induction cs generalizing s with
  | nil => exact ⟨rfl, rfl⟩
  | cons c cs ih =>
    obtain ⟨h1, h2, h3⟩ := h c (by simp)
    have h4 := (component_call_isolated c.A c.B h1 c.ord c.ord' c.f h2 h3 c.imp c.ft c.flat c.mpA c.mrA c.mpB c.mrB s).1
      k (hk c (by simp)).1 (hk c (by simp)).2
    have h5 := ih (fun c hc => h c (by simp [hc])) (fun c hc => hk c (by simp [hc])) (c.run s).2
    exact ⟨h5.1.trans h4.1, h5.2.trans h4.2⟩

/-- What `CanonLift` does with what the core function returned. -/
def afterCore (S : Side σ) (ord : List (String × Val) → List (String × Val)) (ts : List Ty) (mr : Nat)
    (rs : Option (List Core)) : SM (Sys σ) (List Val × Option (SM (Sys σ) Unit)) :=
  match rs with
  | none => SM.fail
  | some results => do
    let vs ← SM.lift (castValues results)
    let r ← withIter S.o (newIterator vs) (liftValues S.E ord mr ts)
    pure (r.1, some (postResult S))

/-- **C130, the bytes already in the called side's memory.** Let the called side's memory be different in two systems that
are otherwise the same, but the same at the addresses the allocator looks at. Then, whatever function is called, either
both calls fail alike and neither calls it, or both call it once, on the same core values, in systems that are the same but
for bytes of that memory that neither call has written; what they do with its results is the same function of these and of
the system. -/
theorem canonLift_blind (S : Side σ) (K : Nat → Prop) (hE : LooksAt S.E K)
    (ord : List (String × Val) → List (String × Val)) (ft : FuncTy) (args : List Val) (mp mr : Nat) (s s' : Sys σ)
    (hs : AlikeButBytes S.o K s s') :
    ∃ u u', AlikeButBytes S.o K u u' ∧ SameWrites (s.mems S.o) (s'.mems S.o) (u.mems S.o) (u'.mems S.o) ∧
      ((∃ r, (∀ v, r ≠ .ok v) ∧ ∀ callee, canonLift S ord callee ft args mp mr s = (r, u) ∧
          canonLift S ord callee ft args mp mr s' = (r, u')) ∨
        ∃ fs k, CallsOnce (fun callee => canonLift S ord callee ft args mp mr s) fs u k ∧
          CallsOnce (fun callee => canonLift S ord callee ft args mp mr s') fs u' k) := by
  have h0 : TwinRun S.o K (s.mems S.o) (s'.mems S.o) s s' := ⟨hs, .refl hs.own⟩
  by_cases ha : Allowed s S
  swap
  · have ha' : ¬ Allowed s' S := by unfold Allowed at ha ⊢; rw [← hs.world]; exact ha
    refine ⟨s, s', hs, .refl hs.own, .inl ⟨.err, by simp, fun callee => ?_⟩⟩
    exact ⟨canonLift_forbidden S ord _ ft args mp mr s ha, canonLift_forbidden S ord _ ft args mp mr s' ha'⟩
  have ha' : Allowed s' S := by unfold Allowed at ha ⊢; rw [← hs.world]; exact ha
  have h1 : TwinRun S.o K (s.mems S.o) (s'.mems S.o) (s.entered S) (s'.entered S) := by
    have a := (worldStep_twin (m0 := s.mems S.o) (n0 := s'.mems S.o) (fun w => w.setCtx S.E.cx ⟨[], 0⟩)).run s s' h0
    exact ((worldStep_twin fun w => { w with mayLeave := Handles.upd w.mayLeave S.E.inst false }).run _ _ a.2).2
  obtain ⟨h2, h3⟩ := (lowerValues_twin hE mp args ft.params).run _ _ h1
  unfold CallsOnce
  simp only [canonLift_eq S ord _ ft args mp mr s ha.1 ha.2, canonLift_eq S ord _ ft args mp mr s' ha'.1 ha'.2]
  rcases e : lowerValues S.E S.o mp args ft.params none (s.entered S) with ⟨r, t⟩
  rcases e' : lowerValues S.E S.o mp args ft.params none (s'.entered S) with ⟨r', t'⟩
  rw [e, e'] at h2 h3
  simp only at h2 h3
  subst h2
  cases r with
  | ok fs =>
    have h4 : TwinRun S.o K (s.mems S.o) (s'.mems S.o) (setLeave S true t).2 (setLeave S true t').2 :=
      ((worldStep_twin fun w => { w with mayLeave := Handles.upd w.mayLeave S.E.inst true }).run _ _ h3).2
    refine ⟨_, _, h4.alike, h4.writes, .inr ⟨fs, afterCore S ord ft.results mr, fun g => ?_, fun g => ?_⟩⟩
    · rw [SM.bind_ok e, SM.bind_ok (show setLeave S true t = (.ok (), (setLeave S true t).2) from rfl)]
      rfl
    · rw [SM.bind_ok e', SM.bind_ok (show setLeave S true t' = (.ok (), (setLeave S true t').2) from rfl)]
      rfl
  | err => exact ⟨t, t', h3.alike, h3.writes, .inl ⟨.err, by simp, fun g => ⟨by rw [SM.bind_err e], by rw [SM.bind_err e']⟩⟩⟩
  | panic => exact ⟨t, t', h3.alike, h3.writes, .inl ⟨.panic, by simp, fun g => ⟨by rw [SM.bind_panic e], by rw [SM.bind_panic e']⟩⟩⟩
  | diverge =>
    exact ⟨t, t', h3.alike, h3.writes, .inl ⟨.diverge, by simp, fun g => ⟨by rw [SM.bind_diverge e], by rw [SM.bind_diverge e']⟩⟩⟩

/-! ## Examples -/

/-- The function of C128's example looks at and changes its own memory. -/
theorem echoFn_avoids (P : Nat → Prop) (h : ¬ P 1) (fs : List Core) : DependsNotOn P (echoFn fs) := by
  intro s s' hs
  unfold echoFn
  rw [hs.mems 1 h]
  split
  · refine ⟨rfl, hs.world, fun k hk => ?_, hs.heaps⟩
    show Handles.upd s.mems 1 _ k = Handles.upd s'.mems 1 _ k
    unfold Handles.upd
    split
    · rfl
    · exact hs.mems k hk
  · exact ⟨rfl, hs⟩

/-- Calling it. -/
def echoCall : CompCall Nat :=
  ⟨exA, exB, id, id, echoFn, false, echoTy, [FV.u32 5, .u32 32, .u32 6].map .fv, 16, 16, 16, 16⟩

/-- `callSys` with something else in the memory of a third instance. -/
def callSys' : Sys Nat := { callSys with mems := Handles.upd callSys.mems 2 ⟨fun _ => 0xEE, 100, 100⟩ }

/-- The hypotheses of `calls_confined` are met by two calls in a row that succeed, in systems that are different. -/
example : (∀ c ∈ [echoCall, echoCall], c.Avoids (· = 2)) ∧ AlikeBut (· = 2) callSys callSys' ∧
    (callSys.mems 2).len ≠ (callSys'.mems 2).len ∧
    ((callAll [echoCall, echoCall] callSys).1 matches [.ok [.fv (.u32 64), .fv (.u32 6)], .ok [.fv (.u32 70), .fv (.u32 6)]]) := by
  refine ⟨fun c hc => ?_, ⟨rfl, fun k hk => ?_, fun _ _ => rfl⟩, by decide, by decide +kernel⟩
  · have : c = echoCall := by simpa using hc
    subst this
    exact ⟨by decide, by decide, fun fs => echoFn_avoids _ (by decide) fs, fun p hp => by cases hp⟩
  · exact (Handles.upd_other _ _ hk).symm

/-- The hypotheses of `calls_isolated` are met by the same two calls and the third instance. -/
example : ∀ c ∈ [echoCall, echoCall], (c.A.o ≠ c.B.o ∧ (∀ fs u, Elsewhere c.B.o u (c.f fs u).2) ∧
    ∀ p, c.B.post = some p → ∀ u, Elsewhere c.B.o u (p u).2) ∧ 2 ≠ c.A.o ∧ 2 ≠ c.B.o := by
  intro c hc
  have : c = echoCall := by simpa using hc
  subst this
  refine ⟨⟨by decide, fun fs u => ?_, fun p hp => by cases hp⟩, by decide, by decide⟩
  show Elsewhere 1 u (echoFn fs u).2
  unfold echoFn
  split
  · exact ⟨fun k hk => Handles.upd_other _ _ hk, fun _ _ => rfl⟩
  · exact (SameMemories.refl u).elsewhere _

/-- `exSys` with other bytes in the memory that is called. -/
def exSysOther : Sys Nat :=
  { exSys with mems := Handles.upd exSys.mems 1 ⟨fun x => if x < 4 then 0 else 0xEE, (exSys.mems 1).len, (exSys.mems 1).cap⟩ }

/-- The hypotheses of `canonLift_blind` are met, by an allocator that looks at no byte, and both calls succeed. -/
example : LooksAt exB.E (· < 4) ∧ AlikeButBytes exB.o (· < 4) exSys exSysOther ∧
    (exSys.mems 1).data 5 ≠ (exSysOther.mems 1).data 5 ∧
    ((canonLift exB id (fun _ s => (.ok (some [.fv (.u32 7)]), s)) ⟨exTys, [.u8]⟩ exArgs 16 1 exSys).1 matches .ok _) ∧
    ((canonLift exB id (fun _ s => (.ok (some [.fv (.u32 7)]), s)) ⟨exTys, [.u8]⟩ exArgs 16 1 exSysOther).1 matches .ok _) := by
  refine ⟨bump_looks "utf-16" _, ⟨rfl, rfl, fun k hk => (Handles.upd_other _ _ hk).symm, rfl, rfl, fun x hx => ?_⟩,
    by decide, by decide, by decide⟩
  show bumpSt.mem.data x = if x < 4 then 0 else 0xEE
  rw [if_pos hx]
  rfl

end Verif.Abi
