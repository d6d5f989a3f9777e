import Verif.Abi.CanonHandles

/-!
# Property C39 for every function called, with handles
-/

namespace Verif.Abi
open Spec Handles

variable {σ : Type}

namespace Spec

/-- The values can be sent, one for each type; they may have handles. -/
inductive SendsAny (enc : String) : List Ty → List Val → Prop where
  | nil : SendsAny enc [] []
  | cons {t v ts vs} : Wf t → Sendable enc t v → SendsAny enc ts vs → SendsAny enc (t :: ts) (v :: vs)

/-- The flat values stand for these values in the memory behind the options `o`, the handles `hs` in the values being at
the indices `is`: wherever lifting those indices gives those handles, lifting the flat values gives the values. -/
def StandsFor (E : Env σ) (o : Nat) (s : Sys σ) (ts : List Ty) (fs : List FV) (vs : List Val) (hs : List Held)
    (is : List U32) : Prop :=
  ∀ st : St σ, st.mem = s.mems o → ∀ w, Lifts E st.world hs is w →
    liftEach E ts ⟨st, newIterator fs⟩ = (.ok vs, ⟨{ st with world := w }, ⟨fs, fs.length, []⟩⟩)

end Spec

theorem sameAll_normAny {enc : String} : {ts : List Ty} → {vs : List Val} → SendsAny enc ts vs →
    SameAll ts vs (normAll ts vs)
  | _, _, .nil => trivial
  | _, _, .cons hw hs h => ⟨same_norm _ _ hs.typed hw, sameAll_normAny h⟩

theorem sends_any {enc : String} : {ts : List Ty} → {vs : List Val} → Sends enc ts vs → SendsAny enc ts vs
  | _, _, .nil => .nil
  | _, _, .cons hw _ hs h => .cons hw hs (sends_any h)

section
variable {E : Env σ} {used : σ → Nat → Prop} (G : GoodAlloc E used)
include G

theorem lowerEach_moves (henc : E.enc ∈ Spec.encodings) : (ts : List Ty) → (vs : List Val) → SendsAny E.enc ts vs →
    (∃ ks, flattenTypes ts = .ok ks) → (s : St σ) → Good s.mem →
    Does (fun _ => True) (lowerEach E ts vs) s fun xs s' => ∃ hs is, CarriedAll ts vs hs ∧
      Lowers E s.world hs is s'.world ∧ Wrote used (fun _ => False)
      (fun s'' => ∀ w w' it it', Feeds it xs it' → Lifts E w hs is w' →
        liftEach E ts ⟨{ s'' with world := w }, it⟩ = (.ok (normAll ts vs), ⟨{ s'' with world := w' }, it'⟩)) s s'
  | [], _, .nil, _, s, hg => by
    unfold lowerEach
    refine .pure ⟨[], [], .nil _, .nil _, .nothing hg ?_⟩
    intro s'' w w' it it' hf hL
    cases hf
    cases hL
    rfl
  | t :: ts, v :: vs, .cons hw hs h, ⟨ks, hk⟩, s, hg => by
    obtain ⟨a, b, h1, h2, -⟩ := flattenTypes_cons hk
    unfold lowerEach
    apply Does.bind (lower_moves G henc t v hs.typed hw (laid_of_flatten t a h1) hs.lists hs.strings s hg)
    rintro xs s1 ⟨hl, is, c1, L1, w1⟩
    apply Does.bind (lowerEach_moves henc ts vs h ⟨b, h2⟩ s1 w1.step.good)
    rintro ys s2 ⟨kl, js, c2, L2, w2⟩
    apply Does.pure
    refine ⟨hl ++ kl, is ++ js, .cons c1 c2, L1.append L2,
      (w1.seq w2 (fun _ h => h.elim) (fun _ h => h.elim) (fun _ h => h.elim)).imp (fun _ h => h.elim id id) ?_⟩
    intro s'' _ _ ⟨p1, p2⟩ w w' it it' hf hL
    obtain ⟨mid, f1, f2⟩ := hf.split
    obtain ⟨wm, M1, M2⟩ := hL.split L1.length
    rw [liftEach, normAll, SM.bind_ok (p1 w wm it mid f1 M1), SM.bind_ok (p2 wm w' mid it' f2 M2)]
    rfl

/-- Lowering in one memory of a system. -/
theorem lowerValues_moves (henc : E.enc ∈ Spec.encodings) (o maxFlat : Nat) (ts : List Ty) (vs : List Val)
    (hv : SendsAny E.enc ts vs) (ks : List Kind) (hk : flattenTypes ts = .ok ks) (hl : ks.length ≤ maxFlat)
    (out : Option Iter) (s s' : Sys σ) (hg : Good (s.mems o)) (r : List Core)
    (h : lowerValues E o maxFlat vs ts out s = (.ok r, s')) :
    ∃ fs hs is, r = fs.map .fv ∧ CarriedAll ts vs hs ∧ Lowers E s.world hs is s'.world ∧
      StandsFor E o s' ts fs (normAll ts vs) hs is := by
  unfold lowerValues at h
  rw [hk, SM.bind_ok (SM.lift_def _ _), SM.ite_app, if_pos hl] at h
  rcases lowerEach_moves G henc ts vs hv ⟨ks, hk⟩ (s.view o) hg with ⟨fs, t, e, hs, is, c, L, w⟩ | ⟨n, -⟩
  · rw [SM.bind_ok (inMem_ok e)] at h
    obtain rfl := (Prod.mk.inj h).2
    have hr := (Prod.mk.inj h).1
    injection hr with hr
    refine ⟨fs, hs, is, hr.symm, c, L, ?_⟩
    intro st hst w' hL
    rw [Sys.put_mems] at hst
    obtain ⟨F, -, hF⟩ := w.foot
    exact hF st (Nat.le_of_eq (by rw [hst])) (by rw [hst]; exact w.step.good) (fun _ _ => by rw [hst])
      _ _ _ _ (feeds_new fs) hL
  · obtain ⟨fs, s1, e1, -⟩ := SM.bind_eq_ok.1 h
    have hx := (Prod.mk.inj e1).1
    exact absurd hx (n fs)

end

/-- Lifting what the flat values stand for. -/
theorem liftValues_stands {E : Env σ} {o maxFlat : Nat} {ts : List Ty} {fs : List FV} {vs : List Val} {s : Sys σ}
    {hs : List Held} {is : List U32} (h : StandsFor E o s ts fs vs hs is) {w : World} (hL : Lifts E s.world hs is w)
    {ks : List Kind} (hk : flattenTypes ts = .ok ks)
    (hl : ks.length ≤ maxFlat) (ord : List (String × Val) → List (String × Val)) :
    withIter o (newIterator fs) (liftValues E ord maxFlat ts) s =
      (.ok (vs, ⟨fs, fs.length, []⟩), { s with world := w }) := by
  rw [withIter_ok (t := { s.view o with world := w }) (it' := ⟨fs, fs.length, []⟩) (a := vs)]
  · have : s.put o { s.view o with world := w } = { s with world := w } := by
      unfold Sys.put Sys.view
      simp only [upd_self]
    rw [this]
  · unfold liftValues
    rw [hk, SM.bind_ok (SM.lift_def _ _), SM.ite_app, if_pos hl]
    exact h _ rfl w hL

/-- **C39, the called side**, arguments and results passed flat, for types with at most 64 flags and values whose strings
and lists fit a 32-bit memory, with or without handles. Whatever the core function does, a call through `CanonLift` that
succeeds has called it with flat values that stand, in the memory at that time, for the same values as the arguments, the
handles in them having been lowered; and if the flat values it returned stand for some values, then those are returned.
Missing: values spilled to memory, where it is false (`canonLift_spilled_fails`). -/
theorem canonLift_delivers_partial (S : Side σ) (used : σ → Nat → Prop) (G : GoodAlloc S.E used)
    (henc : S.E.enc ∈ Spec.encodings) (ord : List (String × Val) → List (String × Val))
    (callee : List Core → SM (Sys σ) (Option (List Core))) (ft : FuncTy) (args : List Val) (mp mr : Nat)
    (kp kr : List Kind) (hkp : flattenTypes ft.params = .ok kp) (hkr : flattenTypes ft.results = .ok kr)
    (hlp : kp.length ≤ mp) (hlr : kr.length ≤ mr) (hv : SendsAny S.E.enc ft.params args) (s s' : Sys σ)
    (hg : (s.mems S.o).len < 2 ^ 32 ∧ (s.mems S.o).len ≤ (s.mems S.o).cap)
    (vs : List Val) (post : Option (SM (Sys σ) Unit))
    (h : canonLift S ord callee ft args mp mr s = (.ok (vs, post), s')) :
    ∃ fs s1 rs s2, callee (fs.map .fv) s1 = (.ok (some rs), s2) ∧ post = some (postResult S) ∧
      (∃ ws hs is, SameAll ft.params args ws ∧ CarriedAll ft.params args hs ∧
        Lowers S.E (s.world.setCtx S.E.cx ⟨[], 0⟩) hs is { s1.world with mayLeave := s.world.mayLeave } ∧
        StandsFor S.E S.o s1 ft.params fs ws hs is) ∧
      ∀ gs ws hs is w, rs = gs.map .fv → StandsFor S.E S.o s2 ft.results gs ws hs is → Lifts S.E s2.world hs is w →
        vs = ws ∧ s' = { s2 with world := w } := by
  by_cases ha : Allowed s S
  swap
  · rw [canonLift_forbidden S ord _ ft args mp mr s ha] at h; cases h
  rw [canonLift_eq S ord _ ft args mp mr s ha.1 ha.2] at h
  obtain ⟨xs, t3, e3, h3⟩ := SM.bind_eq_ok.1 h
  obtain ⟨_, t4, e4, h4⟩ := SM.bind_eq_ok.1 h3
  obtain ⟨rs, t5, e5, h5⟩ := SM.bind_eq_ok.1 h4
  clear h h3 h4
  obtain rfl := (Prod.mk.inj e4).2
  obtain ⟨fs, hs, is, rfl, c, L, st⟩ := lowerValues_moves G henc S.o mp ft.params args hv kp hkp hlp none (s.entered S) _ hg _ e3
  cases rs with
  | none => cases h5
  | some rs =>
    simp only at h5
    obtain ⟨ws, t6, e6, h6⟩ := SM.bind_eq_ok.1 h5
    obtain ⟨r, t7, e7, h7⟩ := SM.bind_eq_ok.1 h6
    clear h5 h6
    obtain rfl := (Prod.mk.inj e6).2
    obtain rfl := (Prod.mk.inj h7).2
    have hr := (Prod.mk.inj h7).1
    injection hr with hr
    obtain ⟨rfl, rfl⟩ := Prod.mk.inj hr
    refine ⟨fs, _, rs, _, e5, rfl, ⟨_, hs, is, sameAll_normAny hv, c, ?_, st⟩, ?_⟩
    · exact lowers_leave L s.world.mayLeave
    · intro gs vs hs is w hrs hst hL
      subst hrs
      have e6' := (Prod.mk.inj e6).1
      rw [castValues_fv] at e6'
      injection e6' with e6'
      subst e6'
      rw [liftValues_stands hst hL hkr hlr] at e7
      obtain ⟨h1, h2⟩ := Prod.mk.inj e7
      injection h1 with h1
      exact ⟨by rw [← h1], h2.symm⟩

/-- **C39, the calling side**, under the same conditions. If the flat arguments stand for some values, a call through
`CanonLower` that succeeds has called the function with those values, their handles having been lifted; and the flat
values returned stand, in the memory after the call, for the same values as the function returned, if the post-return
function leaves the memory alone. -/
theorem canonLower_delivers_partial (S : Side σ) (used : σ → Nat → Prop) (G : GoodAlloc S.E used)
    (henc : S.E.enc ∈ Spec.encodings) (ord : List (String × Val) → List (String × Val))
    (callee : List Val → SM (Sys σ) (List Val × Option (SM (Sys σ) Unit))) (imp : Bool) (ft : FuncTy) (mp mr : Nat)
    (kp kr : List Kind) (hkp : flattenTypes ft.params = .ok kp) (hkr : flattenTypes ft.results = .ok kr)
    (hlp : kp.length ≤ mp) (hlr : kr.length ≤ mr) (s s' : Sys σ) (fs : List FV) (args : List Val) (hs : List Held)
    (is : List U32) (w : World) (hst : StandsFor S.E S.o s ft.params fs args hs is)
    (hL : Lifts S.E (s.world.setCtx S.E.cx ⟨[], 0⟩) hs is w) (out : List Core)
    (h : canonLower S ord callee imp ft (fs.map .fv) mp mr s = (.ok out, s')) :
    ∃ rs p s2 s3 s4, callee args { s with world := w } = (.ok (rs, some p), s2) ∧ p s3 = (.ok (), s4) ∧
      s'.mems = s4.mems ∧
      (SendsAny S.E.enc ft.results rs → (s2.mems S.o).len < 2 ^ 32 ∧ (s2.mems S.o).len ≤ (s2.mems S.o).cap →
        ∃ gs ws ks js, out = gs.map .fv ∧ SameAll ft.results rs ws ∧ CarriedAll ft.results rs ks ∧
          Lowers S.E s2.world ks js { s3.world with mayLeave := s2.world.mayLeave } ∧
          StandsFor S.E S.o s3 ft.results gs ws ks js ∧
          (s4.mems S.o = s3.mems S.o → StandsFor S.E S.o s' ft.results gs ws ks js)) := by
  unfold canonLower at h
  obtain ⟨_, t1, e1, h1⟩ := SM.bind_eq_ok.1 h
  have e1' : t1 = (newCtx S s).2 := (Prod.mk.inj e1).2.symm
  subst e1'
  rw [SM.bind_get, SM.ite_app] at h1
  split at h1
  · cases h1
  rw [SM.ite_app] at h1
  split at h1
  · cases h1
  have hst' : StandsFor S.E S.o (newCtx S s).2 ft.params fs args hs is := hst
  rw [castValues_fv, SM.bind_ok (SM.lift_def _ _), SM.bind_ok (liftValues_stands (ord := ord) hst' hL hkp hlp)] at h1
  obtain ⟨r, t4, e4, h4⟩ := SM.bind_eq_ok.1 h1
  obtain ⟨_, t5, e5, h5⟩ := SM.bind_eq_ok.1 h4
  obtain ⟨flat, t6, e6, h6⟩ := SM.bind_eq_ok.1 h5
  obtain ⟨_, t7, e7, h7⟩ := SM.bind_eq_ok.1 h6
  clear h h1 h4 h5 h6
  obtain rfl := (Prod.mk.inj e5).2
  obtain rfl := (Prod.mk.inj e7).2
  rcases r with ⟨rs, _ | p⟩
  · cases h7
  simp only at h7
  obtain ⟨_, t8, e8, h8⟩ := SM.bind_eq_ok.1 h7
  obtain ⟨_, t9, e9, h9⟩ := SM.bind_eq_ok.1 h8
  clear h7 h8
  have hm9 : t9.mems = t8.mems := by
    unfold exitIgnored at e9
    rcases ex : exitCall S.E.cx t8.world with ⟨r, w⟩
    rw [ex] at e9
    cases r <;> (rw [← (Prod.mk.inj e9).2])
  have hm : s'.mems = t8.mems ∧ out = flat := by
    cases imp with
    | false =>
      rw [if_neg (by simp)] at h9
      have h10 := (Prod.mk.inj h9).1
      injection h10 with h10
      exact ⟨by rw [← (Prod.mk.inj h9).2]; exact hm9, h10.symm⟩
    | true =>
      rw [if_pos rfl] at h9
      obtain ⟨_, t10, e10, h10⟩ := SM.bind_eq_ok.1 h9
      have h11 := (Prod.mk.inj h10).1
      injection h11 with h11
      refine ⟨?_, h11.symm⟩
      rw [← (Prod.mk.inj h10).2, ← (Prod.mk.inj e10).2]
      exact hm9
  obtain ⟨hm, rfl⟩ := hm
  refine ⟨rs, p, t4, _, t8, e4, e8, hm, ?_⟩
  intro hv hg
  obtain ⟨gs, ks, js, rfl, c, L, st⟩ := lowerValues_moves G henc S.o mr ft.results rs hv kr hkr hlr _
    ((setLeave S false) t4).2 _ hg _ e6
  refine ⟨gs, _, ks, js, rfl, sameAll_normAny hv, c, lowers_leave L t4.world.mayLeave, st, ?_⟩
  intro hsame x hx w hl
  refine st x ?_ w hl
  rw [hx, hm, hsame]

/-- What the post-return function leaves alone is left alone. -/
theorem postResult_mem {B : Side σ} {o : Nat}
    (hpost : ∀ p, B.post = some p → ∀ x y, p x = (.ok (), y) → y.mems o = x.mems o) {s s' : Sys σ}
    (e : postResult B s = (.ok (), s')) : s'.mems o = s.mems o := by
  have hex : ∀ x y : Sys σ, exitIgnored B x = (.ok (), y) → y.mems = x.mems := by
    intro x y e
    unfold exitIgnored at e
    rcases ex : exitCall B.E.cx x.world with ⟨r, w⟩
    rw [ex] at e
    cases r <;> (rw [← (Prod.mk.inj e).2])
  unfold postResult at e
  rcases hp : B.post with _ | p
  · rw [hp] at e
    rw [hex _ _ e]
  · rw [hp] at e
    obtain ⟨_, t5, e5, e6⟩ := SM.bind_eq_ok.1 e
    rw [hex _ _ e6, hpost p hp _ _ e5]

/-- **C39 between two instances, for every function**, arguments and results passed flat, under the same conditions. The
caller has flat values that stand for `args` in its memory. The call goes through `CanonLower` on the caller's side and
`CanonLift` on the callee's, whose strings may be encoded differently, and succeeds. Then the core function was called
with flat values that stand for the same values in the callee's memory; and if what it returned stands for `vals` in the
callee's memory when it returned, then the caller got flat values that stand for the same values in its memory.
Missing: values spilled to memory (`canonLift_spilled_fails`, `spilled_results_lost`, `spilled_order_lost`: false
there). -/
theorem component_call_any_partial (A B : Side σ) (usedA usedB : σ → Nat → Prop) (GA : GoodAlloc A.E usedA)
    (GB : GoodAlloc B.E usedB) (hA : A.E.enc ∈ Spec.encodings) (hB : B.E.enc ∈ Spec.encodings)
    (hpost : ∀ p, B.post = some p → ∀ x y, p x = (.ok (), y) → y.mems A.o = x.mems A.o)
    (ord ord' : List (String × Val) → List (String × Val)) (ft : FuncTy) (mpA mrA mpB mrB : Nat)
    (kp kr : List Kind) (hkp : flattenTypes ft.params = .ok kp) (hkr : flattenTypes ft.results = .ok kr)
    (h1 : kp.length ≤ mpA) (h2 : kr.length ≤ mrA) (h3 : kp.length ≤ mpB) (h4 : kr.length ≤ mrB)
    (f : List Core → SM (Sys σ) (Option (List Core))) (imp : Bool) (s s' : Sys σ) (fs : List FV) (args : List Val)
    (hv : SendsAny B.E.enc ft.params args) (hs : List Held) (is : List U32) (w : World)
    (hg : (s.mems B.o).len < 2 ^ 32 ∧ (s.mems B.o).len ≤ (s.mems B.o).cap)
    (hst : StandsFor A.E A.o s ft.params fs args hs is) (hL : Lifts A.E (s.world.setCtx A.E.cx ⟨[], 0⟩) hs is w)
    (out : List Core)
    (h : canonLower A ord (fun xs => canonLift B ord' f ft xs mpB mrB) imp ft (fs.map .fv) mpA mrA s = (.ok out, s')) :
    ∃ gs s1 rs s2, f (gs.map .fv) s1 = (.ok (some rs), s2) ∧
      (∃ ws hs' js, SameAll ft.params args ws ∧ CarriedAll ft.params args hs' ∧
        StandsFor B.E B.o s1 ft.params gs ws hs' js) ∧
      ∀ ys vals ks ls w', rs = ys.map .fv → StandsFor B.E B.o s2 ft.results ys vals ks ls →
        Lifts B.E s2.world ks ls w' → SendsAny A.E.enc ft.results vals →
        (s2.mems A.o).len < 2 ^ 32 ∧ (s2.mems A.o).len ≤ (s2.mems A.o).cap →
        ∃ os ws ks' ms, out = os.map .fv ∧ SameAll ft.results vals ws ∧ CarriedAll ft.results vals ks' ∧
          StandsFor A.E A.o s' ft.results os ws ks' ms := by
  obtain ⟨rv, p, s2, s3, s4, e1, e2, hm, hres⟩ := canonLower_delivers_partial A usedA GA hA ord _ imp ft mpA mrA kp kr hkp
    hkr h1 h2 s s' fs args hs is w hst hL out h
  obtain ⟨gs, t1, rs, t2, e3, hp, ⟨ws, hs', js, g1, g2, -, g4⟩, hret⟩ := canonLift_delivers_partial B usedB GB hB ord' f ft args
    mpB mrB kp kr hkp hkr h3 h4 hv { s with world := w } s2 hg rv (some p) e1
  injection hp with hp
  subst hp
  have hm4 : s4.mems A.o = s3.mems A.o := postResult_mem hpost e2
  refine ⟨gs, t1, rs, t2, e3, ⟨ws, hs', js, g1, g2, g4⟩, ?_⟩
  intro ys vals ks ls w' hrs hst' hL' hsend hgA
  obtain ⟨rfl, rfl⟩ := hret ys vals ks ls w' hrs hst' hL'
  obtain ⟨os, ws', ks', ms, k1, k2, k3, -, -, k5⟩ := hres hsend hgA
  exact ⟨os, ws', ks', ms, k1, k2, k3, k5 hm4⟩

/-! ## Example -/

/-- Flat values `[0, 0]` stand for the two handles of `exTwo` in instance 0. -/
theorem exTwo_stands : StandsFor exCaller.E exCaller.o exTwo [.own 6, .borrow 5] [.u32 0, .u32 0] [.u32 77, .u32 42]
    [⟨true, 6, 77⟩, ⟨false, 5, 42⟩] [0, 0] := by
  intro st _ w hL
  cases hL with
  | @cons _ w1 _ _ _ _ _ h1 hL =>
    cases hL with
    | cons h2 hL =>
      cases hL
      simp only [liftOp, if_true, step] at h1
      simp only [liftOp, Bool.false_eq_true, if_false, step] at h2
      have l1 : liftFlat exCaller.E (.own 6) ⟨st, newIterator [.u32 0, .u32 0]⟩ =
          (.ok (.u32 77), ⟨{ st with world := w1 }, ⟨[.u32 0, .u32 0], 1, []⟩⟩) := by
        unfold liftFlat
        rw [SM.bind_ok (show nextU32 (⟨st, newIterator [.u32 0, .u32 0]⟩ : LSt Nat) =
          (.ok 0, ⟨st, ⟨[.u32 0, .u32 0], 1, []⟩⟩) from rfl)]
        have : onSt (onWorld (Handles.liftOwn exCaller.E.inst 6 0)) (⟨st, ⟨[.u32 0, .u32 0], 1, []⟩⟩ : LSt Nat) =
            (.ok 77, ⟨{ st with world := w1 }, ⟨[.u32 0, .u32 0], 1, []⟩⟩) := by
          unfold onSt onWorld
          rw [h1]
        rw [SM.bind_ok this]
        rfl
      have l2 : liftFlat exCaller.E (.borrow 5) ⟨{ st with world := w1 }, ⟨[.u32 0, .u32 0], 1, []⟩⟩ =
          (.ok (.u32 42), ⟨{ st with world := w }, ⟨[.u32 0, .u32 0], 2, []⟩⟩) := by
        unfold liftFlat
        rw [SM.bind_ok (show nextU32 (⟨{ st with world := w1 }, ⟨[.u32 0, .u32 0], 1, []⟩⟩ : LSt Nat) =
          (.ok 0, ⟨{ st with world := w1 }, ⟨[.u32 0, .u32 0], 2, []⟩⟩) from rfl)]
        have : onSt (onWorld (Handles.liftBorrow exCaller.E.inst exCaller.E.cx 5 0))
            (⟨{ st with world := w1 }, ⟨[.u32 0, .u32 0], 2, []⟩⟩ : LSt Nat) =
            (.ok 42, ⟨{ st with world := w }, ⟨[.u32 0, .u32 0], 2, []⟩⟩) := by
          unfold onSt onWorld
          simp only [h2]
        rw [SM.bind_ok this]
        rfl
      unfold liftEach
      rw [SM.bind_ok l1]
      have l3 : liftEach exCaller.E [.borrow 5] ⟨{ st with world := w1 }, ⟨[.u32 0, .u32 0], 1, []⟩⟩ =
          (.ok [.u32 42], ⟨{ st with world := w }, ⟨[.u32 0, .u32 0], 2, []⟩⟩) := by
        unfold liftEach
        rw [SM.bind_ok l2]
        rfl
      rw [SM.bind_ok l3]
      rfl

/-- The hypotheses of `component_call_any_partial` hold of the call `exPass`, which takes a handle, borrows another and
gives the first back. -/
example : (∃ w, Lifts exCaller.E (exTwo.world.setCtx 7 ⟨[], 0⟩) [⟨true, 6, 77⟩, ⟨false, 5, 42⟩] [0, 0] w) ∧
    SendsAny exKeeper.E.enc [.own 6, .borrow 5] [.u32 77, .u32 42] ∧
    GoodAlloc exCaller.E (fun h x => x < h) ∧ GoodAlloc exKeeper.E (fun h x => x < h) ∧ exKeeper.post = none ∧
    exPass.1 = .ok [.fv (.u32 0)] := by
  refine ⟨⟨_, .cons (w1 := (step demoInfo (exTwo.world.setCtx 7 ⟨[], 0⟩) (.liftOwn 0 6 0)).2) (by rfl)
    (.cons (w1 := (step demoInfo (step demoInfo (exTwo.world.setCtx 7 ⟨[], 0⟩) (.liftOwn 0 6 0)).2 (.liftBorrow 0 7 5 0)).2)
      (by rfl) (.nil _))⟩, ?_, ?_, ?_, rfl, rfl⟩
  · refine .cons (by simp [Wf]) ⟨?_, ?_, ?_⟩ (.cons (by simp [Wf]) ⟨?_, ?_, ?_⟩ .nil)
    all_goals simp [HasType, ListsFit, StringsFit]
  · exact ⟨(bump_good "utf-8").keeps, (bump_good "utf-8").grows, (bump_good "utf-8").block⟩
  · exact ⟨(bump_good "utf-8").keeps, (bump_good "utf-8").grows, (bump_good "utf-8").block⟩

end Verif.Abi
