import Verif.Abi.CanonLemmas

/-!
# Properties of component calls: C38, C39
-/

namespace Verif.Abi
open Spec

variable {σ : Type}

/-- The instance's flags allow a call. -/
def Allowed (s : Sys σ) (S : Side σ) : Prop :=
  s.world.mayEnter S.E.inst = true ∧ s.world.mayLeave S.E.inst = true

instance (s : Sys σ) (S : Side σ) : Decidable (Allowed s S) := inferInstanceAs (Decidable (_ ∧ _))

/-- The flags of every instance are as before, except that this one's `MayLeave` is off. -/
def LeaveLost (s s' : Sys σ) (S : Side σ) : Prop :=
  s'.world.mayEnter = s.world.mayEnter ∧ s'.world.mayLeave S.E.inst = false ∧
    ∀ i, i ≠ S.E.inst → s'.world.mayLeave i = s.world.mayLeave i

/-- The flags of every instance are as before. -/
def FlagsKept (s s' : Sys σ) : Prop :=
  s'.world.mayEnter = s.world.mayEnter ∧ s'.world.mayLeave = s.world.mayLeave

theorem flagsKept_iff (s s' : Sys σ) : FlagsKept s s' ↔ s'.flags = s.flags := by
  unfold FlagsKept Sys.flags Handles.World.flags
  rw [Prod.mk.injEq]

/-! ## C38: flags that forbid a call -/

/-- C38, re-entry of `CanonLift`: an instance whose flags forbid the call gives an error, nothing changes, and the callee
plays no role. -/
theorem canonLift_forbidden (S : Side σ) (ord : List (String × Val) → List (String × Val))
    (callee : List Core → SM (Sys σ) (Option (List Core))) (ft : FuncTy) (args : List Val) (mp mr : Nat) (s : Sys σ)
    (h : ¬ Allowed s S) : canonLift S ord callee ft args mp mr s = (.err, s) := by
  unfold canonLift
  rw [SM.bind_get, SM.ite_app]
  by_cases he : s.world.mayEnter S.E.inst = false
  · rw [if_pos he]; rfl
  · rw [if_neg he, SM.ite_app, if_pos]
    · rfl
    · unfold Allowed at h
      simp only [Bool.not_eq_false] at he
      simpa [he] using h

/-- C38, re-entry of `CanonLower`: an error, and nothing changes but the fresh call context. -/
theorem canonLower_forbidden (S : Side σ) (ord : List (String × Val) → List (String × Val))
    (callee : List Val → SM (Sys σ) (List Val × Option (SM (Sys σ) Unit))) (imp : Bool) (ft : FuncTy) (args : List Core)
    (mp mr : Nat) (s : Sys σ) (h : ¬ Allowed s S) :
    canonLower S ord callee imp ft args mp mr s = (.err, { s with world := s.world.setCtx S.E.cx ⟨[], 0⟩ }) := by
  unfold canonLower
  rw [SM.bind_ok (show newCtx S s = (.ok (), { s with world := s.world.setCtx S.E.cx ⟨[], 0⟩ }) from rfl), SM.bind_get,
    SM.ite_app]
  split
  · rfl
  · rename_i h1
    rw [SM.ite_app]
    split
    · rfl
    · rename_i h2
      exact absurd ⟨(Bool.not_eq_false _).mp h2, (Bool.not_eq_false _).mp h1⟩ h

/-! ## C38: flags after a call -/

theorem flags_restored (S : Side σ) (s t : Sys σ) (hs : s.world.mayLeave S.E.inst = true)
    (ht : t.flags = (s.entered S).flags) : ((setLeave S true) t).2.flags = s.flags := by
  unfold Sys.flags Handles.World.flags at *
  injection ht with h1 h2
  show (t.world.mayEnter, Handles.upd t.world.mayLeave S.E.inst true) = _
  rw [h1, h2]
  show (s.world.mayEnter, Handles.upd (Handles.upd s.world.mayLeave S.E.inst false) S.E.inst true) = _
  congr 1
  funext i
  unfold Handles.upd
  by_cases h : i = S.E.inst
  · rw [if_pos h, h, hs]
  · rw [if_neg h, if_neg h]

theorem leaveLost_of (S : Side σ) (s t u : Sys σ) (hu : u.flags = s.flags)
    (ht : t.flags = ((setLeave S false) u).2.flags) : LeaveLost s t S := by
  unfold Sys.flags Handles.World.flags at *
  injection ht with h1 h2
  injection hu with h3 h4
  refine ⟨?_, ?_, ?_⟩
  · rw [h1]; exact h3
  · rw [h2]; exact Handles.upd_same ..
  · intro i hi
    rw [h2, ← h4]; exact Handles.upd_other _ _ hi

/-- C38 for `CanonLift`, for callees that leave the flags as they find them. Whatever the outcome, the flags are as before;
except if lowering the arguments did not succeed: then the callee is not called and `MayLeave` stays off (the code clears
it and returns without setting it again: `canonLift_leave_lost`). -/
theorem canonLift_flags_partial (S : Side σ) (ord : List (String × Val) → List (String × Val))
    (callee : List Core → SM (Sys σ) (Option (List Core)))
    (hc : ∀ xs s, FlagsKept s (callee xs s).2) (ft : FuncTy) (args : List Val) (mp mr : Nat) (s : Sys σ) :
    FlagsKept s (canonLift S ord callee ft args mp mr s).2 ∨
    (LeaveLost s (canonLift S ord callee ft args mp mr s).2 S ∧
      ∃ t, t.mems = s.mems ∧ t.heaps = s.heaps ∧ (∀ fs, (lowerValues S.E S.o mp args ft.params none t).1 ≠ .ok fs) ∧
        ∀ callee', canonLift S ord callee' ft args mp mr s = canonLift S ord callee ft args mp mr s) := by
  by_cases ha : Allowed s S
  swap
  · left
    rw [canonLift_forbidden S ord callee ft args mp mr s ha]
    exact ⟨rfl, rfl⟩
  obtain ⟨he, hl⟩ := ha
  have hc' : ∀ xs, Pres Sys.flags (callee xs) := fun xs => ⟨fun s => (flagsKept_iff _ _).1 (hc xs s)⟩
  have hlow := (lowerValues_flags S.E S.o mp args ft.params none).keep (s.entered S)
  rw [flagsKept_iff]
  simp only [canonLift_eq S ord _ ft args mp mr s he hl]
  rcases e : lowerValues S.E S.o mp args ft.params none (s.entered S) with ⟨x, t⟩
  rw [e] at hlow
  have lost : LeaveLost s t S := leaveLost_of S s t ((newCtx S) s).2 rfl hlow
  cases x with
  | ok flat =>
    left
    rw [SM.bind_ok e, SM.bind_ok (show setLeave S true t = (.ok (), (setLeave S true t).2) from rfl)]
    rw [← flags_restored S s t hl hlow]
    refine (Pres.bind (hc' flat) fun r => ?_).keep _
    split
    · exact .fail
    · exact .bind (.lift _) fun _ => .bind (withIter_flags _ _ (liftValues_flags ..)) fun _ => .pure _
  | err =>
    right
    rw [SM.bind_err e]
    exact ⟨lost, s.entered S, rfl, rfl, by rw [e]; simp, fun c => by rw [SM.bind_err e]⟩
  | panic =>
    right
    rw [SM.bind_panic e]
    exact ⟨lost, s.entered S, rfl, rfl, by rw [e]; simp, fun c => by rw [SM.bind_panic e]⟩
  | diverge =>
    right
    rw [SM.bind_diverge e]
    exact ⟨lost, s.entered S, rfl, rfl, by rw [e]; simp, fun c => by rw [SM.bind_diverge e]⟩

/-- C38 for successful calls through `CanonLift`: the flags are as before. -/
theorem canonLift_flags_ok (S : Side σ) (ord : List (String × Val) → List (String × Val))
    (callee : List Core → SM (Sys σ) (Option (List Core)))
    (hc : ∀ xs s, FlagsKept s (callee xs s).2) (ft : FuncTy) (args : List Val) (mp mr : Nat) (s s' : Sys σ)
    (r : List Val × Option (SM (Sys σ) Unit)) (h : canonLift S ord callee ft args mp mr s = (.ok r, s')) :
    FlagsKept s s' := by
  rcases canonLift_flags_partial S ord callee hc ft args mp mr s with h1 | ⟨-, t, -, -, h1, h2⟩
  · rw [h] at h1; exact h1
  · by_cases ha : Allowed s S
    · exfalso
      have hcr := h2 (fun _ => SM.crash)
      rw [h, canonLift_eq S ord _ ft args mp mr s ha.1 ha.2] at hcr
      obtain ⟨a, s1, -, h4⟩ := SM.bind_eq_ok.1 hcr
      obtain ⟨a, s1, -, h4⟩ := SM.bind_eq_ok.1 h4
      obtain ⟨a, s1, h5, -⟩ := SM.bind_eq_ok.1 h4
      cases h5
    · rw [canonLift_forbidden S ord callee ft args mp mr s ha] at h
      cases h

/-- C38 for `CanonLower`, for callees and post-return functions that leave the flags as they find them. Whatever the
outcome, the flags are as before; or lowering the results did not succeed, and then `MayLeave` stays off
(`canonLower_leave_lost`). -/
theorem canonLower_flags_partial (S : Side σ) (ord : List (String × Val) → List (String × Val))
    (callee : List Val → SM (Sys σ) (List Val × Option (SM (Sys σ) Unit)))
    (hc : ∀ xs s, FlagsKept s (callee xs s).2)
    (hpost : ∀ xs s vs p s', callee xs s = (.ok (vs, some p), s') → ∀ t, FlagsKept t (p t).2) (imp : Bool)
    (ft : FuncTy) (args : List Core) (mp mr : Nat) (s : Sys σ) :
    FlagsKept s (canonLower S ord callee imp ft args mp mr s).2 ∨
    (LeaveLost s (canonLower S ord callee imp ft args mp mr s).2 S ∧
      ∃ xs s1 rs post s2 t out, callee xs s1 = (.ok (rs, post), s2) ∧ t.mems = s2.mems ∧ t.heaps = s2.heaps ∧
        ∀ fs, (lowerValues S.E S.o mr rs ft.results out t).1 ≠ .ok fs) := by
  by_cases ha : Allowed s S
  swap
  · left
    rw [canonLower_forbidden S ord callee imp ft args mp mr s ha]
    exact ⟨rfl, rfl⟩
  obtain ⟨he, hl⟩ := ha
  have hc' : ∀ xs, Pres Sys.flags (callee xs) := fun xs => ⟨fun s => (flagsKept_iff _ _).1 (hc xs s)⟩
  rw [flagsKept_iff]
  have e0 : canonLower S ord callee imp ft args mp mr s = (do
      let vs ← SM.lift (castValues args)
      let a ← withIter S.o (newIterator vs) (liftValues S.E ord mp ft.params)
      let r ← callee a.1
      setLeave S false
      let flat ← lowerValues S.E S.o mr r.1 ft.results (some a.2)
      setLeave S true
      match r.2 with
      | none => SM.crash
      | some post => do
        post
        exitIgnored S
        if imp then setEnter S true else pure ()
        pure flat : SM (Sys σ) (List Core)) ((newCtx S) s).2 := by
    unfold canonLower
    rw [SM.bind_ok (show newCtx S s = (.ok (), (newCtx S s).2) from rfl), SM.bind_get,
      SM.ite_app, if_neg (by show s.world.mayLeave S.E.inst ≠ false; rw [hl]; simp), SM.ite_app,
      if_neg (by show s.world.mayEnter S.E.inst ≠ false; rw [he]; simp)]
    rfl
  rw [e0]
  have f0 : ((newCtx S) s).2.flags = s.flags := rfl
  generalize ((newCtx S) s).2 = s0 at f0
  cases hcast : castValues args with
  | err => left; rw [SM.bind_err (SM.lift_def _ _)]; exact f0
  | panic => left; rw [SM.bind_panic (SM.lift_def _ _)]; exact f0
  | diverge => left; rw [SM.bind_diverge (SM.lift_def _ _)]; exact f0
  | ok vs =>
  rw [SM.bind_ok (SM.lift_def _ _)]
  have f1 := (withIter_flags S.o (newIterator vs) (liftValues_flags S.E ord mp ft.params)).keep s0
  rcases e1 : withIter S.o (newIterator vs) (liftValues S.E ord mp ft.params) s0 with ⟨x, s1⟩
  rw [e1] at f1
  replace f1 := f1.trans f0
  cases x with
  | err => left; rw [SM.bind_err e1]; exact f1
  | panic => left; rw [SM.bind_panic e1]; exact f1
  | diverge => left; rw [SM.bind_diverge e1]; exact f1
  | ok a =>
  rw [SM.bind_ok e1]
  have f2 := (hc' a.1).keep s1
  rcases e2 : callee a.1 s1 with ⟨x, s2⟩
  rw [e2] at f2
  replace f2 := f2.trans f1
  cases x with
  | err => left; rw [SM.bind_err e2]; exact f2
  | panic => left; rw [SM.bind_panic e2]; exact f2
  | diverge => left; rw [SM.bind_diverge e2]; exact f2
  | ok r =>
  rw [SM.bind_ok e2, SM.bind_ok (show setLeave S false s2 = (.ok (), (setLeave S false s2).2) from rfl)]
  have f3 := (lowerValues_flags S.E S.o mr r.1 ft.results (some a.2)).keep (setLeave S false s2).2
  rcases e3 : lowerValues S.E S.o mr r.1 ft.results (some a.2) (setLeave S false s2).2 with ⟨x, s3⟩
  rw [e3] at f3
  have lost : LeaveLost s s3 S := leaveLost_of S s s3 s2 f2 f3
  cases x with
  | err => right; rw [SM.bind_err e3]; exact ⟨lost, _, _, _, _, _, (setLeave S false s2).2, _, e2, rfl, rfl, by rw [e3]; simp⟩
  | panic => right; rw [SM.bind_panic e3]; exact ⟨lost, _, _, _, _, _, (setLeave S false s2).2, _, e2, rfl, rfl, by rw [e3]; simp⟩
  | diverge => right; rw [SM.bind_diverge e3]; exact ⟨lost, _, _, _, _, _, (setLeave S false s2).2, _, e2, rfl, rfl, by rw [e3]; simp⟩
  | ok flat =>
  left
  rw [SM.bind_ok e3, SM.bind_ok (show setLeave S true s3 = (.ok (), (setLeave S true s3).2) from rfl)]
  have hen : s.world.flags.1 S.E.inst = true := he
  have hle : s.world.flags.2 S.E.inst = true := hl
  have f4 : (setLeave S true s3).2.flags = s.flags := by
    obtain ⟨l1, l2, l3⟩ := lost
    unfold Sys.flags Handles.World.flags
    show (s3.world.mayEnter, Handles.upd s3.world.mayLeave S.E.inst true) = _
    rw [l1]
    congr 1
    funext i
    unfold Handles.upd
    by_cases h : i = S.E.inst
    · rw [if_pos h, h, hl]
    · rw [if_neg h, l3 i h]
  generalize (setLeave S true s3).2 = s4 at f4
  obtain ⟨rv, rp⟩ := r
  cases rp with
  | none => exact f4
  | some post =>
    simp only
    have hp : Pres Sys.flags post := ⟨fun t => (flagsKept_iff _ _).1 (hpost _ _ _ _ _ e2 t)⟩
    -- the import flag is set again to the value it had
    have hse : ∀ t : Sys σ, t.flags = s.flags → (setEnter S true t).2.flags = s.flags := by
      intro t ht
      unfold Sys.flags Handles.World.flags at *
      injection ht with h1 h2
      show (Handles.upd t.world.mayEnter S.E.inst true, t.world.mayLeave) = _
      rw [h1, h2]
      congr 1
      funext i
      unfold Handles.upd
      by_cases h : i = S.E.inst
      · rw [if_pos h, h, he]
      · rw [if_neg h]
    have f5 := hp.keep s4
    rcases e5 : post s4 with ⟨x, s5⟩
    rw [e5] at f5
    replace f5 := f5.trans f4
    cases x with
    | err => rw [SM.bind_err e5]; exact f5
    | panic => rw [SM.bind_panic e5]; exact f5
    | diverge => rw [SM.bind_diverge e5]; exact f5
    | ok _ =>
    rw [SM.bind_ok e5]
    obtain ⟨w, e6⟩ := exitIgnored_ok S s5
    have f6 := (exitIgnored_flags S).keep s5
    rw [e6] at f6
    replace f6 := f6.trans f5
    rw [SM.bind_ok e6]
    cases imp with
    | false => exact f6
    | true =>
      rw [if_pos rfl, SM.bind_ok (show setEnter S true _ = (.ok (), (setEnter S true _).2) from rfl)]
      exact hse _ f6

/-! ### Examples and counterexamples -/

/-- Two instances, each with its own copy of the example memory and allocator. -/
def exSys : Sys Nat := ⟨fun _ => bumpSt.mem, fun _ => bumpSt.heap, Handles.World.init⟩
/-- The calling instance: strings in utf-8. -/
def exA : Side Nat := ⟨bumpEnv "utf-8", 0, none⟩
/-- The called instance: strings in utf-16. -/
def exB : Side Nat := ⟨{ bumpEnv "utf-16" with inst := 1, cx := 1 }, 1, none⟩
/-- A system in which the called instance may not be entered. -/
def exBusy : Sys Nat := { exSys with world := { exSys.world with mayEnter := fun i => i != 1 } }

example : ¬ Allowed exBusy exB ∧ Allowed exBusy exA ∧ Allowed exSys exB := by decide

/-- A callee that leaves the flags alone but uses the memory. -/
example : ∀ xs s, FlagsKept s ((fun xs => do
    SM.modify fun s => { s with mems := Handles.upd s.mems 1 ((s.mems 1).write 3 [7]) }
    pure (some xs) : List Core → SM (Sys Nat) (Option (List Core))) xs s).2 := fun _ _ => ⟨rfl, rfl⟩

/-- C38 fails for `CanonLift`: a call with an argument of the wrong type gives an error and leaves `MayLeave` off, so that
every later call of the instance fails. -/
theorem canonLift_leave_lost :
    let r := canonLift exB id (fun xs => pure (some xs)) ⟨[.u8], []⟩ [.str "x"] 16 1 exSys
    r.1 matches .err ∧ Allowed exSys exB ∧ r.2.world.mayLeave 1 = false ∧ exSys.world.mayLeave 1 = true := by
  refine ⟨by rfl, by decide, by rfl, by rfl⟩

/-- C38 fails for `CanonLower`: a result of the wrong type gives an error and leaves `MayLeave` off. -/
theorem canonLower_leave_lost :
    let r := canonLower exA id (fun _ => pure ([.str "x"], some (pure ()))) false ⟨[], [.u8]⟩ [] 16 1 exSys
    r.1 matches .err ∧ Allowed exSys exA ∧ r.2.world.mayLeave 0 = false := by
  refine ⟨by rfl, by decide, by rfl⟩

/-! ## C39 -/

/-- Value by value the same. -/
def SameAll : List Ty → List Val → List Val → Prop
  | [], [], [] => True
  | t :: ts, v :: vs, w :: ws => Same t v w ∧ SameAll ts vs ws
  | _, _, _ => False

theorem sameAll_norm {enc : String} : {ts : List Ty} → {vs : List Val} → Sends enc ts vs → SameAll ts vs (normAll ts vs)
  | _, _, .nil => trivial
  | _, _, .cons hw _ hs h => ⟨same_norm _ _ hs.typed hw, sameAll_norm h⟩

/-- C39 within one instance, arguments and results passed flat, for types without handles and with at most 64 flags, and
values whose strings and lists fit a 32-bit memory. Calling a function that returns its core arguments through `CanonLift`
returns the arguments, with a function to be called afterwards; unless the guest's allocator refused.
Missing: values spilled to memory, where it is false (`canonLift_spilled_fails`). -/
theorem canonLift_identity_partial (S : Side σ) (used : σ → Nat → Prop) (G : GoodAlloc S.E used) (refused : σ → Prop)
    (hR : ∀ a n m h, (∃ p, (S.E.realloc a n (m, h)).1 = .ok p) ∨ refused (S.E.realloc a n (m, h)).2.2)
    (henc : S.E.enc ∈ Spec.encodings) (ord : List (String × Val) → List (String × Val)) (ts : List Ty) (vs : List Val)
    (hv : Sends S.E.enc ts vs) (ks : List Kind) (hk : flattenTypes ts = .ok ks) (mp mr : Nat) (hp : ks.length ≤ mp)
    (hr : ks.length ≤ mr) (s : Sys σ) (hg : (s.mems S.o).len < 2 ^ 32 ∧ (s.mems S.o).len ≤ (s.mems S.o).cap)
    (ha : Allowed s S) :
    (∃ ws post s', canonLift S ord (fun xs => pure (some xs)) ⟨ts, ts⟩ vs mp mr s = (.ok (ws, some post), s') ∧
      SameAll ts vs ws) ∨
    ((∀ r, (canonLift S ord (fun xs => pure (some xs)) ⟨ts, ts⟩ vs mp mr s).1 ≠ .ok r) ∧
      refused ((canonLift S ord (fun xs => pure (some xs)) ⟨ts, ts⟩ vs mp mr s).2.heaps S.o)) := by
  rcases canonLift_does S G hR henc ord ts vs hv ks hk mp mr hp hr s hg ha.1 ha.2 with ⟨s', e, -⟩ | h
  · exact .inl ⟨_, _, s', e, sameAll_norm hv⟩
  · exact .inr h

/-- C39 between two instances, arguments and results passed flat, under the same conditions. The caller has flat values
that stand for `vs` in its memory. The call goes through `CanonLower` on the caller's side and `CanonLift` on the
callee's, whose strings may be encoded differently; the callee returns its core arguments. Then the caller gets flat
values that stand for the same values in its memory; unless one of the allocators refused. Missing: values spilled to
memory (`canonLift_spilled_fails`, `spilled_results_lost`, `spilled_order_lost`: false there); handles. -/
theorem component_call_partial (A B : Side σ) (hab : A.o ≠ B.o) (usedA usedB : σ → Nat → Prop) (GA : GoodAlloc A.E usedA)
    (GB : GoodAlloc B.E usedB) (refusedA refusedB : σ → Prop)
    (hRA : ∀ a n m h, (∃ p, (A.E.realloc a n (m, h)).1 = .ok p) ∨ refusedA (A.E.realloc a n (m, h)).2.2)
    (hRB : ∀ a n m h, (∃ p, (B.E.realloc a n (m, h)).1 = .ok p) ∨ refusedB (B.E.realloc a n (m, h)).2.2)
    (hA : A.E.enc ∈ Spec.encodings) (hB : B.E.enc ∈ Spec.encodings) (hpost : B.post = none)
    (ord ord' : List (String × Val) → List (String × Val)) (ts : List Ty) (vs : List Val)
    (hvA : Sends A.E.enc ts vs) (hvB : Sends B.E.enc ts vs) (ks : List Kind) (hk : flattenTypes ts = .ok ks)
    (mpA mrA mpB mrB : Nat) (h1 : ks.length ≤ mpA) (h2 : ks.length ≤ mrA) (h3 : ks.length ≤ mpB) (h4 : ks.length ≤ mrB)
    (s : Sys σ) (hgA : (s.mems A.o).len < 2 ^ 32 ∧ (s.mems A.o).len ≤ (s.mems A.o).cap)
    (hgB : (s.mems B.o).len < 2 ^ 32 ∧ (s.mems B.o).len ≤ (s.mems B.o).cap) (haA : Allowed s A) (haB : Allowed s B)
    (fs : List FV) (hfs : Holds A.E A.o s ts fs vs) (imp : Bool) :
    let callee := fun xs => canonLift B ord' (fun cs => pure (some cs)) ⟨ts, ts⟩ xs mpB mrB
    let call := canonLower A ord callee imp ⟨ts, ts⟩ (fs.map .fv) mpA mrA s
    (∃ gs ws s', call = (.ok (gs.map .fv), s') ∧ Holds A.E A.o s' ts gs ws ∧ SameAll ts vs ws) ∨
    ((∀ r, call.1 ≠ .ok r) ∧ (refusedA (call.2.heaps A.o) ∨ refusedB (call.2.heaps B.o))) := by
  intro callee call
  -- up to the callee
  have e0 : call = (do
      let r ← callee vs
      setLeave A false
      let flat ← lowerValues A.E A.o mrA r.1 ts (some ⟨fs, fs.length, []⟩)
      setLeave A true
      match r.2 with
      | none => SM.crash
      | some post => do
        post
        exitIgnored A
        if imp then setEnter A true else pure ()
        pure flat : SM (Sys σ) (List Core)) ((newCtx A) s).2 := by
    show canonLower A ord callee imp ⟨ts, ts⟩ (fs.map .fv) mpA mrA s = _
    unfold canonLower
    rw [SM.bind_ok (show newCtx A s = (.ok (), (newCtx A s).2) from rfl), SM.bind_get,
      SM.ite_app, if_neg (by show s.world.mayLeave A.E.inst ≠ false; rw [haA.2]; simp), SM.ite_app,
      if_neg (by show s.world.mayEnter A.E.inst ≠ false; rw [haA.1]; simp), castValues_fv, SM.bind_ok (SM.lift_def _ _)]
    have hfs' : Holds A.E A.o ((newCtx A) s).2 ts fs vs := hfs
    rw [SM.bind_ok (liftValues_holds hfs' hk h1 ord)]
    rfl
  rw [e0]
  rcases canonLift_does B GB hRB hB ord' ts vs hvB ks hk mpB mrB h3 h4 ((newCtx A) s).2 hgB haB.1 haB.2 with
    ⟨s1, e1, k1⟩ | ⟨n, r⟩
  swap
  · right
    rcases e : callee vs ((newCtx A) s).2 with ⟨x, t⟩
    have n' : ∀ r, (callee vs ((newCtx A) s).2).1 ≠ .ok r := n
    have r' : refusedB ((callee vs ((newCtx A) s).2).2.heaps B.o) := r
    rw [e] at n' r'
    cases x with
    | ok a => exact absurd rfl (n' a)
    | err => rw [SM.bind_err e]; exact ⟨by simp, .inr r'⟩
    | panic => rw [SM.bind_panic e]; exact ⟨by simp, .inr r'⟩
    | diverge => rw [SM.bind_diverge e]; exact ⟨by simp, .inr r'⟩
  have e1' : callee vs ((newCtx A) s).2 = (.ok (normAll ts vs, some (postResult B)), s1) := e1
  rw [SM.bind_ok e1', SM.bind_ok (show setLeave A false s1 = (.ok (), (setLeave A false s1).2) from rfl)]
  obtain ⟨k2, k3⟩ := sends_normAll hvA
  have hg1 : Good ((setLeave A false s1).2.mems A.o) := by
    show Good (s1.mems A.o)
    rw [(k1 A.o hab).1]; exact hgA
  rcases lowerValues_does GA hRA hA A.o mrA ts (normAll ts vs) k2 ks hk h2 (some ⟨fs, fs.length, []⟩)
    (setLeave A false s1).2 hg1 with ⟨gs, s2, e2, k4, -, -⟩ | ⟨n, r⟩
  swap
  · right
    rcases e : lowerValues A.E A.o mrA (normAll ts vs) ts (some ⟨fs, fs.length, []⟩) (setLeave A false s1).2 with ⟨x, t⟩
    rw [e] at n r
    cases x with
    | ok a => exact absurd rfl (n a)
    | err => rw [SM.bind_err e]; exact ⟨by simp, .inl r⟩
    | panic => rw [SM.bind_panic e]; exact ⟨by simp, .inl r⟩
    | diverge => rw [SM.bind_diverge e]; exact ⟨by simp, .inl r⟩
  left
  rw [k3] at k4
  rw [SM.bind_ok e2, SM.bind_ok (show setLeave A true s2 = (.ok (), (setLeave A true s2).2) from rfl)]
  simp only [postResult, hpost]
  obtain ⟨w1, x1⟩ := exitIgnored_ok B (setLeave A true s2).2
  rw [SM.bind_ok x1]
  obtain ⟨w2, x2⟩ := exitIgnored_ok A { (setLeave A true s2).2 with world := w1 }
  rw [SM.bind_ok x2]
  cases imp with
  | false =>
    exact ⟨gs, normAll ts vs, _, rfl, fun st hst => k4 st hst, sameAll_norm hvA⟩
  | true =>
    exact ⟨gs, normAll ts vs, _, rfl, fun st hst => k4 st hst, sameAll_norm hvA⟩

/-- C39 fails for spilled arguments: if the flattening of the parameters exceeds the limit, a call of a function that
returns its core arguments never succeeds, whatever the values (the pointer is passed as a Go `uint32`, which is not one
of the library's flat values). -/
theorem canonLift_spilled_fails (S : Side σ) (ord : List (String × Val) → List (String × Val)) (ft : FuncTy)
    (args : List Val) (ks : List Kind) (hk : flattenTypes ft.params = .ok ks) (mp mr : Nat) (hp : mp < ks.length)
    (s : Sys σ) : ∀ r, (canonLift S ord (fun xs => pure (some xs)) ft args mp mr s).1 ≠ .ok r := by
  intro r hr
  by_cases ha : Allowed s S
  swap
  · rw [canonLift_forbidden S ord _ ft args mp mr s ha] at hr; cases hr
  have h : canonLift S ord (fun xs => pure (some xs)) ft args mp mr s =
      (.ok r, (canonLift S ord (fun xs => pure (some xs)) ft args mp mr s).2) := by rw [← hr]
  rw [canonLift_eq S ord _ ft args mp mr s ha.1 ha.2] at h
  obtain ⟨flat, s1, h1, h2⟩ := SM.bind_eq_ok.1 h
  obtain ⟨_, s2, -, h3⟩ := SM.bind_eq_ok.1 h2
  obtain ⟨x, s3, h4, h5⟩ := SM.bind_eq_ok.1 h3
  obtain ⟨rfl, -⟩ := pure_inv h4
  obtain ⟨vs, s4, h6, -⟩ := SM.bind_eq_ok.1 h5
  unfold lowerValues at h1
  rw [hk, SM.bind_ok (SM.lift_def _ _), SM.ite_app, if_neg (by omega)] at h1
  unfold lowerTuple at h1
  obtain ⟨a, s5, -, g⟩ := SM.bind_eq_ok.1 h1
  obtain ⟨n, s6, -, g⟩ := SM.bind_eq_ok.1 g
  obtain ⟨p, s7, -, g⟩ := SM.bind_eq_ok.1 g
  rw [SM.ite_app] at g
  split at g
  · cases g
  · rw [SM.bind_get, SM.ite_app] at g
    split at g
    · cases g
    · obtain ⟨g1, -⟩ := pure_inv g
      rw [← g1] at h6
      obtain ⟨g2, -⟩ := lift_ok_inv h6
      cases g2

/-- C39 fails for spilled results: if the flattening of the results exceeds the limit, what `CanonLower` returns and what
it leaves in memory do not depend on the values the callee returned. -/
theorem spilled_results_lost (S : Side σ) (ord : List (String × Val) → List (String × Val))
    (effect : List Val → SM (Sys σ) (Option (SM (Sys σ) Unit))) (f g : List Val → List Val) (imp : Bool) (ft : FuncTy)
    (args : List Core) (ks : List Kind) (hk : flattenTypes ft.results = .ok ks) (mp mr : Nat) (hr : mr < ks.length)
    (s : Sys σ) :
    canonLower S ord (fun xs => do let p ← effect xs; pure (f xs, p)) imp ft args mp mr s =
      canonLower S ord (fun xs => do let p ← effect xs; pure (g xs, p)) imp ft args mp mr s := by
  have key : ∀ vs ws out, lowerValues S.E S.o mr vs ft.results out = lowerValues S.E S.o mr ws ft.results out := by
    intro vs ws out
    funext t
    unfold lowerValues
    rw [hk, SM.bind_ok (SM.lift_def _ _), SM.bind_ok (SM.lift_def _ _), SM.ite_app, if_neg (by omega), SM.ite_app,
      if_neg (by omega)]
  have assoc : ∀ {α β γ : Type} (m : SM (Sys σ) α) (f : α → SM (Sys σ) β) (g : β → SM (Sys σ) γ),
      ((m >>= f) >>= g) = (m >>= fun a => f a >>= g) := by
    intro α β γ m f g
    funext t
    rw [SM.bind_def, SM.bind_def, SM.bind_def]
    rcases m t with ⟨x, t'⟩
    cases x <;> rfl
  have pb : ∀ {α β : Type} (a : α) (f : α → SM (Sys σ) β), (pure a >>= f) = f a := fun _ _ => rfl
  unfold canonLower
  refine congrFun ?_ s
  congr 1
  funext _
  congr 1
  funext t
  congr 2
  funext u
  refine congrFun ?_ u
  congr 1
  funext vs
  congr 1
  funext a
  beta_reduce
  rw [assoc, assoc]
  congr 1
  funext p
  rw [pb, pb]
  simp only
  rw [key (f a.1) (g a.1)]

/-- C39 fails for spilled arguments read from memory: they come in the order in which Go ranges over a map, so two values
may arrive swapped. -/
theorem spilled_order_lost :
    let s : LSt Nat := ⟨{ bumpSt with mem := bumpSt.mem.write 8 [1, 2] }, newIterator [.u32 8]⟩
    (liftValues (bumpEnv "utf-8") id 1 [.u8, .u8] s).1 = .ok [.u8 1, .u8 2] ∧
    (liftValues (bumpEnv "utf-8") List.reverse 1 [.u8, .u8] s).1 = .ok [.u8 2, .u8 1] := by
  refine ⟨by rfl, by rfl⟩

/-- A function that hands `CanonLower` nothing to call afterwards makes the call panic (or fail earlier). -/
theorem canonLower_nil_post (S : Side σ) (ord : List (String × Val) → List (String × Val))
    (callee : List Val → SM (Sys σ) (List Val × Option (SM (Sys σ) Unit)))
    (hc : ∀ xs s vs p s', callee xs s = (.ok (vs, p), s') → p = none) (imp : Bool) (ft : FuncTy) (args : List Core)
    (mp mr : Nat) (s : Sys σ) : ∀ r, (canonLower S ord callee imp ft args mp mr s).1 ≠ .ok r := by
  intro r hr
  have h : canonLower S ord callee imp ft args mp mr s =
      (.ok r, (canonLower S ord callee imp ft args mp mr s).2) := by rw [← hr]
  unfold canonLower at h
  obtain ⟨_, s1, -, h⟩ := SM.bind_eq_ok.1 h
  obtain ⟨_, s2, -, h⟩ := SM.bind_eq_ok.1 h
  rw [SM.ite_app] at h
  split at h
  · cases h
  rw [SM.ite_app] at h
  split at h
  · cases h
  obtain ⟨_, s3, -, h⟩ := SM.bind_eq_ok.1 h
  obtain ⟨_, s4, -, h⟩ := SM.bind_eq_ok.1 h
  obtain ⟨x, s5, h5, h⟩ := SM.bind_eq_ok.1 h
  obtain ⟨_, s6, -, h⟩ := SM.bind_eq_ok.1 h
  obtain ⟨_, s7, -, h⟩ := SM.bind_eq_ok.1 h
  obtain ⟨_, s8, -, h⟩ := SM.bind_eq_ok.1 h
  rw [hc _ _ x.1 x.2 _ h5] at h
  cases h

/-- A callee without anything to do after the call: what it gives back is lowered, and yet the call fails. -/
example :
    let callee : List Val → SM (Sys Nat) (List Val × Option (SM (Sys Nat) Unit)) := fun xs => pure (xs, none)
    (∀ xs s vs p s', callee xs s = (.ok (vs, p), s') → p = none) ∧
      (canonLower exA id callee true ⟨[.u32], [.u32]⟩ [.fv (.u32 5)] 16 1 exSys).1 matches .panic := by
  refine ⟨fun xs s vs p s' h => ?_, by decide⟩
  cases h
  rfl

/-! ### Examples -/

/-- The value of C19 and a byte, as arguments. -/
def exTys : List Ty := [exTy.core, .u8]
/-- The same. -/
def exArgs : List Val := [exVal, .u8 5]

theorem exFits16 : StringsFit "utf-16" exTy.core exVal := by
  simp only [exTy, exVal, VT.core, VFields.core, VCases.core, VTys.fields]
  rw [StringsFit]
  intro key p i h hs
  injection h with h
  injection h with h
  injection h with h1 h2
  subst h1 h2
  obtain rfl := hs.unique exSelects1
  simp only [StringsFitPayload, StringsFit, StringsFitFields]
  intro m h
  injection h with h
  subst h
  refine ⟨?_, ?_, ?_, trivial, trivial⟩
  · intro s h
    have h' : Val.str "héllo" = .str s := h
    injection h' with h'
    subst h'
    exact ⟨by decide, fun h => absurd h (by decide)⟩
  · exact fun _ _ _ _ => trivial
  · intro key p i h hs
    have h' : Val.map [("more|base", .map [("0", .u8 7), ("1", .u16 300)])] = .map [(key, p)] := h
    injection h' with h'
    injection h' with h'
    injection h' with h1 h2
    subst h1 h2
    obtain rfl := hs.unique exSelects2
    simp only [StringsFitPayload, StringsFit, StringsFitFields]
    exact fun _ _ => ⟨trivial, trivial, trivial⟩

theorem exSends (enc : String) (h : StringsFit enc exTy.core exVal) : Sends enc exTys exArgs :=
  .cons exWf exLaid.2 ⟨exHasType, exFits.1, h⟩ (.cons (by simp [Wf]) (by simp [Plain])
    ⟨by simp [HasType], by simp [ListsFit], by simp [StringsFit]⟩ .nil)

/-- The hypotheses of `canonLift_identity_partial` are met, with ten flat values, and the allocator does not refuse. -/
example : Sends exA.E.enc exTys exArgs ∧ GoodAlloc exA.E (fun h x => x < h) ∧ exA.E.enc ∈ Spec.encodings ∧
    flattenTypes exTys = .ok [.u32, .u32, .u32, .u32, .u32, .u32, .u32, .u32, .u32, .u32] ∧ Allowed exSys exA ∧
    (lowerValues exA.E exA.o 16 exArgs exTys none exSys).1 matches .ok _ :=
  ⟨exSends _ exFits.2, bump_good _, by decide, by decide, by decide, by decide⟩

/-- The hypotheses of `component_call_partial` are met: the caller has lowered the value, in utf-8, and the callee uses
utf-16. -/
example : ∃ s fs vs, Holds exA.E exA.o s exTys fs vs ∧ fs.length = 10 ∧ Sends exA.E.enc exTys vs ∧
    Sends exB.E.enc exTys vs ∧ GoodAlloc exB.E (fun h x => x < h) ∧ exB.E.enc ∈ Spec.encodings ∧ exA.o ≠ exB.o ∧
    exB.post = none ∧ Good (s.mems 0) ∧ Good (s.mems 1) ∧ Allowed s exA ∧ Allowed s exB := by
  have hg : Good (exSys.mems 0) := by unfold Good; decide
  have hf : flattenTypes exTys = .ok [.u32, .u32, .u32, .u32, .u32, .u32, .u32, .u32, .u32, .u32] := by decide
  rcases lowerValues_does (R := fun _ => True) (bump_good "utf-8") (fun _ _ _ _ => .inr trivial) (by decide) 0 16 exTys
    exArgs (exSends _ exFits.2) _ hf (by decide) none exSys hg with ⟨fs, s, e, h1, h2, h3⟩ | ⟨n, -⟩
  · have hl : (lowerValues (bumpEnv "utf-8") 0 16 exArgs exTys none exSys).1 matches .ok [_, _, _, _, _, _, _, _, _, _] := by
      decide
    have hfl := (lowerValues_flags (bumpEnv "utf-8") 0 16 exArgs exTys none).keep exSys
    rw [e] at hl hfl
    have ha : s.world.mayEnter = exSys.world.mayEnter := congrArg Prod.fst hfl
    have hb : s.world.mayLeave = exSys.world.mayLeave := congrArg Prod.snd hfl
    refine ⟨s, fs, _, h1, ?_, (sends_normAll (exSends _ exFits.2)).1, (sends_normAll (exSends _ exFits16)).1,
      ⟨(bump_good "utf-16").keeps, (bump_good "utf-16").grows, (bump_good "utf-16").block⟩, by decide, by decide, rfl, h2,
      ?_, ?_, ?_⟩
    · have : (fs.map Core.fv).length = 10 := by
        revert hl
        generalize fs.map Core.fv = l
        intro hl
        split at hl
        · rename_i h; injection h with h; rw [h]; rfl
        · cases hl
      rwa [List.length_map] at this
    · rw [(h3 1 (by decide)).1]; exact hg
    · unfold Allowed; rw [ha, hb]; decide
    · unfold Allowed; rw [ha, hb]; decide
  · have hl : (lowerValues (bumpEnv "utf-8") 0 16 exArgs exTys none exSys).1 matches .ok _ := by decide
    rcases e : (lowerValues (bumpEnv "utf-8") 0 16 exArgs exTys none exSys).1 with a | _ | _ | _
    · exact absurd e (n a)
    all_goals rw [e] at hl; cases hl

/-- Parameters over the limit of sixteen exist. -/
example : (flattenTypes [exTy.core, exTy.core]) = .ok (List.replicate 18 .u32) := by decide

/-! ## C67: after the call -/

theorem release_eq (lenders : List Handles.ElemId) (elems : Handles.ElemId → Handles.Elem) (h : Handles.ElemId) :
    Handles.release elems lenders h = { elems h with lendCount := (elems h).lendCount - lenders.count h } := by
  induction lenders generalizing elems with
  | nil => simp [Handles.release]
  | cons l ls ih =>
    rw [Handles.release, ih]
    by_cases e : h = l
    · subst e
      simp only [Handles.upd, if_pos, List.count_cons_self, Handles.Elem.mk.injEq, true_and, and_true]
      push_cast; omega
    · simp only [Handles.upd, if_neg e, List.count_cons_of_ne (Ne.symm e)]

/-- The state when the call with context `cx` has ended in state `t`: each handle has got back what it lent to the call. -/
def Sys.ended (t : Sys σ) (cx : Handles.CtxId) : Sys σ :=
  { t with world := { t.world with elems := fun h =>
      { t.world.elems h with lendCount := (t.world.elems h).lendCount - (t.world.ctxs cx).lenders.count h } } }

/-- C67, except for the missing error (`borrows_ignored`): a successful call returns a function that runs the post-return
function, if there is one, and fails as that does; otherwise it ends the call, unless borrows are still held. -/
theorem post_return_partial (S : Side σ) (ord : List (String × Val) → List (String × Val))
    (callee : List Core → SM (Sys σ) (Option (List Core))) (ft : FuncTy) (args : List Val) (mp mr : Nat) (s s' : Sys σ)
    (vs : List Val) (post : Option (SM (Sys σ) Unit)) (h : canonLift S ord callee ft args mp mr s = (.ok (vs, post), s')) :
    ∃ p, post = some p ∧ ∀ t t1 : Sys σ,
      ((S.post = none ∧ t1 = t) ∨ (∃ q, S.post = some q ∧ q t = (.ok (), t1)) →
        ((t1.world.ctxs S.E.cx).borrowCount = 0 → p t = (.ok (), t1.ended S.E.cx)) ∧
        ((t1.world.ctxs S.E.cx).borrowCount ≠ 0 → (p t).2 = t1)) ∧
      (∀ q, S.post = some q → (q t).1 ≠ .ok () → p t = q t) := by
  have ha : post = some (postResult S) := by
    unfold canonLift at h
    rw [SM.bind_get, SM.ite_app] at h
    split at h
    · cases h
    rw [SM.ite_app] at h
    split at h
    · cases h
    obtain ⟨_, _, -, h⟩ := SM.bind_eq_ok.1 h
    obtain ⟨_, _, -, h⟩ := SM.bind_eq_ok.1 h
    obtain ⟨_, _, -, h⟩ := SM.bind_eq_ok.1 h
    obtain ⟨_, _, -, h⟩ := SM.bind_eq_ok.1 h
    obtain ⟨r, _, -, h⟩ := SM.bind_eq_ok.1 h
    cases r with
    | none => cases h
    | some r =>
      obtain ⟨_, _, -, h⟩ := SM.bind_eq_ok.1 h
      obtain ⟨_, _, -, h⟩ := SM.bind_eq_ok.1 h
      simp only [SM.pure_def, Prod.mk.injEq, Res.ok.injEq] at h
      exact h.1.2.symm
  refine ⟨_, ha, fun t t1 => ⟨fun ht => ?_, fun q hq hne => ?_⟩⟩
  · have e : postResult S t = exitIgnored S t1 := by
      unfold postResult
      rcases ht with ⟨h1, rfl⟩ | ⟨q, h1, h2⟩
      · rw [h1]
      · rw [h1]; exact SM.bind_ok h2
    rw [e]
    unfold exitIgnored Handles.exitCall
    constructor
    · intro hb
      rw [if_neg (not_not_intro hb)]
      show ((Res.ok () : Res Unit), _) = _
      unfold Sys.ended
      congr 3
      funext x
      exact release_eq _ _ _
    · intro hb
      rw [if_pos hb]
  · unfold postResult
    rw [hq]
    rcases e : q t with ⟨r, t2⟩
    rw [e] at hne
    cases r with
    | ok u => exact absurd rfl hne
    | err => exact SM.bind_err e
    | panic => exact SM.bind_panic e
    | diverge => exact SM.bind_diverge e

/-- Where C67 fails: a call with a borrowed argument that the callee does not drop. The function returned ends without an
error although the borrow is still held. -/
theorem borrows_ignored :
    ∃ p, (canonLift exB id (fun _ => pure (some [])) ⟨[.borrow 0], []⟩ [.u32 7] 16 1 exSys).1 = .ok ([], some p) ∧
      (((canonLift exB id (fun _ => pure (some [])) ⟨[.borrow 0], []⟩ [.u32 7] 16 1 exSys).2).world.ctxs 1).borrowCount = 1 ∧
      (p (canonLift exB id (fun _ => pure (some [])) ⟨[.borrow 0], []⟩ [.u32 7] 16 1 exSys).2).1 = .ok () :=
  ⟨postResult exB, rfl, by decide, by decide⟩

/-- A call that lends: the callee returns a borrowed handle of its own, which the call holds until it is ended. -/
def exLent : Sys Nat := { exSys with world := (Handles.canonResourceNew 1 0 7 exSys.world).2 }

example :
    let r := canonLift exB id (fun _ => pure (some [.fv (.u32 0)])) ⟨[], [.borrow 0]⟩ [] 16 1 exLent
    r.1 matches .ok ([.u32 7], some _) ∧ (r.2.world.ctxs 1).borrowCount = 0 ∧ (r.2.world.ctxs 1).lenders = [0] ∧
      (r.2.world.elems 0).lendCount = 1 ∧ ((r.2.ended 1).world.elems 0).lendCount = 0 := by
  decide

end Verif.Abi
