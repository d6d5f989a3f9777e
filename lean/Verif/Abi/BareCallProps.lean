import Verif.Abi.BareSame

/-!
# C124: in a call, the handles on both sides are the same; the numbers for them are those of each side's table

C119 with handles: each side's core values are read as values with `u32` in place of the handles (`Spec.bare`,
`Spec.FlatMeansAll`), and the numbers as places in the table of the instance (`Spec.SwappedAll`, `Lowers`, `Lifts`).
-/

namespace Verif.Abi

open Spec Handles

variable {σ : Type}

/-- **C124, the called side**, arguments and results passed flat. Whatever the core function does, a call through
`CanonLift` that succeeds has called it with core values of the right types which, in the memory at that time, stand in
the one way there is for the arguments `us` with the numbers `is` in place of their handles `hs`; and these are the
numbers the handles got when they were entered, in order, into the table of the instance. If what the core function
returned can be read at all, the values returned are read from it: they have the handles that the table of the instance
then had at the numbers in it, and these are taken out or lent, in order; nothing else is changed. And where they stand
for a value and the table has such handles, then that value is returned.
Missing: values spilled to memory, where it is false (`canonLift_spilled_fails`), more than 64 flags, repeated labels,
strings and lists of `2^32` bytes or more. -/
theorem canonLift_table_partial (S : Side σ) (used : σ → Nat → Prop) (G : GoodAlloc S.E used)
    (henc : S.E.enc ∈ Spec.encodings) (ord : List (String × Val) → List (String × Val))
    (callee : List Core → SM (Sys σ) (Option (List Core))) (ft : FuncTy) (args : List Val) (mp mr : Nat)
    (kp kr : List Kind) (hkp : flattenTypes ft.params = .ok kp) (hkr : flattenTypes ft.results = .ok kr)
    (hlp : kp.length ≤ mp) (hlr : kr.length ≤ mr) (hv : SendsAny S.E.enc ft.params args) (s s' : Sys σ)
    (hg : (s.mems S.o).len < 2 ^ 32 ∧ (s.mems S.o).len ≤ (s.mems S.o).cap)
    (vs : List Val) (post : Option (SM (Sys σ) Unit))
    (h : canonLift S ord callee ft args mp mr s = (.ok (vs, post), s')) :
    ∃ (fs : List FV) (s1 : Sys σ) (gs : List FV) (s2 : Sys σ),
      callee (fs.map .fv) s1 = (.ok (some (gs.map .fv)), s2) ∧ post = some (postResult S) ∧
      fs.map FV.kind = ft.params.flatMap coreTypes ∧ (∀ o, o ≠ S.o → s1.mems o = s.mems o) ∧
      (∃ us ws hs is, SameAll ft.params args us ∧ SwappedAll ft.params us ws hs is ∧
        Lowers S.E (s.world.setCtx S.E.cx ⟨[], 0⟩) hs is s1.world ∧
        FlatMeansAll Neatly S.E.enc (s1.mems S.o) (ft.params.map bare) (fs.map FV.bits) ws) ∧
      (LiftableAll S.E.enc (s2.mems S.o) (ft.results.map bare) gs →
        (s' = { s2 with world := s'.world } ∧ ∃ ws hs is,
          FlatMeansAll Leniently S.E.enc (s2.mems S.o) (ft.results.map bare) (gs.map FV.bits) ws ∧
          SwappedAll ft.results vs ws hs is ∧ Lifts S.E s2.world hs is s'.world) ∧
        ∀ us ws hs is w, FlatMeansAll Exactly S.E.enc (s2.mems S.o) (ft.results.map bare) (gs.map FV.bits) ws →
          SwappedAll ft.results us ws hs is → Lifts S.E s2.world hs is w →
          vs = us ∧ s' = { s2 with world := w }) := by
  by_cases ha : Allowed s S
  swap
  · rw [canonLift_forbidden S ord _ ft args mp mr s ha] at h; cases h
  rw [canonLift_eq S ord _ ft args mp mr s ha.1 ha.2] at h
  obtain ⟨xs, t3, e3, h3⟩ := SM.bind_eq_ok.1 h
  obtain ⟨_, t4, e4, h4⟩ := SM.bind_eq_ok.1 h3
  obtain ⟨rs, t5, e5, h5⟩ := SM.bind_eq_ok.1 h4
  clear h h3 h4
  obtain rfl := (Prod.mk.inj e4).2
  obtain ⟨fs, ws, hs, is, rfl, hk, hw, hL, hm, ho⟩ := lowerValues_bare G henc S.o mp ft.params args hv kp hkp hlp none
    (s.entered S) _ hg _ e3
  have hfl := (lowerValues_flags S.E S.o mp args ft.params none).keep (s.entered S)
  rw [e3] at hfl
  have hfl := congrArg Prod.snd (flags_restored S s t3 ha.2 hfl)
  cases rs with
  | none => cases h5
  | some rs =>
    simp only at h5
    obtain ⟨gs, t6, e6, h6⟩ := SM.bind_eq_ok.1 h5
    obtain ⟨r, t7, e7, h7⟩ := SM.bind_eq_ok.1 h6
    clear h5 h6
    obtain rfl := (Prod.mk.inj e6).2
    obtain rfl := (Prod.mk.inj h7).2
    have hr := (Prod.mk.inj h7).1
    injection hr with hr
    obtain ⟨rfl, rfl⟩ := Prod.mk.inj hr
    obtain rfl := castValues_ok (Prod.mk.inj e6).1
    refine ⟨fs, _, gs, _, e5, rfl, hk, ho, ⟨_, ws, hs, is, sameAll_normAny hv, hw, ?_, hm⟩, fun hL => ⟨?_, ?_⟩⟩
    · have := lowers_leave hL s.world.mayLeave
      have e : ((setLeave S true) t3).2.world = { t3.world with mayLeave := s.world.mayLeave } := by
        rw [← show _ = s.world.mayLeave from hfl]
        rfl
      show Lowers _ _ _ _ ((setLeave S true) t3).2.world
      rw [e]
      exact this
    · exact (liftValues_bare_only hL hkr hlr ord e7).2
    · intro us ws hs is w h1 h2 h3
      rw [liftValues_bare hL hkr hlr ord h1 h2 h3] at e7
      obtain ⟨h4, h5⟩ := Prod.mk.inj e7
      injection h4 with h4
      exact ⟨by rw [← h4], h5.symm⟩

/-- What happens after the arguments were lifted. -/
theorem canonLower_later {S : Side σ} {used : σ → Nat → Prop} (G : GoodAlloc S.E used)
    (henc : S.E.enc ∈ Spec.encodings) {ord : List (String × Val) → List (String × Val)}
    {callee : List Val → SM (Sys σ) (List Val × Option (SM (Sys σ) Unit))} {imp : Bool} {ft : FuncTy} {mp mr : Nat}
    {kr : List Kind} (hkr : flattenTypes ft.results = .ok kr) (hlr : kr.length ≤ mr) {s s' : Sys σ} {fs : List FV}
    {out : List Core} (h : canonLower S ord callee imp ft (fs.map .fv) mp mr s = (.ok out, s')) :
    ∃ args it s1 rs p s2 s3 s4,
      withIter S.o (newIterator fs) (liftValues S.E ord mp ft.params) ((newCtx S) s).2 = (.ok (args, it), s1) ∧
      callee args s1 = (.ok (rs, some p), s2) ∧ p s3 = (.ok (), s4) ∧ s'.mems = s4.mems ∧
      (SendsAny S.E.enc ft.results rs → (s2.mems S.o).len < 2 ^ 32 ∧ (s2.mems S.o).len ≤ (s2.mems S.o).cap →
        ∃ (gs : List FV) (us ws : List Val) (ks : List Held) (js : List U32), out = gs.map .fv ∧
          gs.map FV.kind = ft.results.flatMap coreTypes ∧ SameAll ft.results rs us ∧
          SwappedAll ft.results us ws ks js ∧ Lowers S.E s2.world ks js { s3.world with mayLeave := s2.world.mayLeave } ∧
          (∀ o, o ≠ S.o → s3.mems o = s2.mems o) ∧
          FlatMeansAll Neatly S.E.enc (s3.mems S.o) (ft.results.map bare) (gs.map FV.bits) ws) := by
  unfold canonLower at h
  obtain ⟨_, t1, e1, h1⟩ := SM.bind_eq_ok.1 h
  have e1' : t1 = (newCtx S s).2 := (Prod.mk.inj e1).2.symm
  subst e1'
  rw [SM.bind_get, SM.ite_app] at h1
  split at h1
  · cases h1
  rw [SM.ite_app] at h1
  split at h1
  · cases h1
  rw [castValues_fv, SM.bind_ok (SM.lift_def _ _)] at h1
  obtain ⟨⟨args, it⟩, t3, e, h1⟩ := SM.bind_eq_ok.1 h1
  obtain ⟨r, t4, e4, h4⟩ := SM.bind_eq_ok.1 h1
  obtain ⟨_, t5, e5, h5⟩ := SM.bind_eq_ok.1 h4
  obtain ⟨flat, t6, e6, h6⟩ := SM.bind_eq_ok.1 h5
  obtain ⟨_, t7, e7, h7⟩ := SM.bind_eq_ok.1 h6
  clear h h1 h4 h5 h6
  obtain rfl := (Prod.mk.inj e5).2
  obtain rfl := (Prod.mk.inj e7).2
  rcases r with ⟨rs, _ | p⟩
  · cases h7
  simp only at h7
  obtain ⟨_, t8, e8, h8⟩ := SM.bind_eq_ok.1 h7
  obtain ⟨_, t9, e9, h9⟩ := SM.bind_eq_ok.1 h8
  clear h7 h8
  have hm9 : t9.mems = t8.mems := by
    unfold exitIgnored at e9
    rcases ex : exitCall S.E.cx t8.world with ⟨r, w⟩
    rw [ex] at e9
    cases r <;> (rw [← (Prod.mk.inj e9).2])
  have hm : s'.mems = t8.mems ∧ out = flat := by
    cases imp with
    | false =>
      rw [if_neg (by simp)] at h9
      have h10 := (Prod.mk.inj h9).1
      injection h10 with h10
      exact ⟨by rw [← (Prod.mk.inj h9).2]; exact hm9, h10.symm⟩
    | true =>
      rw [if_pos rfl] at h9
      obtain ⟨_, t10, e10, h10⟩ := SM.bind_eq_ok.1 h9
      have h11 := (Prod.mk.inj h10).1
      injection h11 with h11
      refine ⟨?_, h11.symm⟩
      rw [← (Prod.mk.inj h10).2, ← (Prod.mk.inj e10).2]
      exact hm9
  obtain ⟨hm, rfl⟩ := hm
  refine ⟨args, it, t3, rs, p, t4, _, t8, e, e4, e8, hm, fun hv hg => ?_⟩
  obtain ⟨gs, ws, ks, js, hr, hk, hw, hL, hmm, ho⟩ := lowerValues_bare G henc S.o mr ft.results rs hv kr hkr hlr _
    ((setLeave S false) t4).2 _ hg _ e6
  exact ⟨gs, _, ws, ks, js, hr, hk, sameAll_normAny hv, hw, lowers_leave hL t4.world.mayLeave, ho, hmm⟩

/-- **C124, the calling side**, arguments and results passed flat. A call through `CanonLower` that succeeds has called
the function with arguments read from the core values: they have the handles that the table of the instance had at the
numbers in the core values, taken out or lent in order, and nothing else was changed; and where the core values stand for a
value and the table has such handles, it was called with that value. The core values it returns have the right types and
stand, in the memory before the post-return function `p` ran, in the one way there is for the values the function
returned, with the numbers `js` in place of the handles `ks`; and these are the numbers they got in the table of the
instance (whose flag `MayLeave` is set by then); also in the memory at the end if `p` leaves it alone.
Missing: as above; results spilled to memory (`spilled_results_lost`: false). -/
theorem canonLower_table_partial (S : Side σ) (used : σ → Nat → Prop) (G : GoodAlloc S.E used)
    (ord : List (String × Val) → List (String × Val))
    (callee : List Val → SM (Sys σ) (List Val × Option (SM (Sys σ) Unit))) (imp : Bool) (ft : FuncTy) (mp mr : Nat)
    (kp kr : List Kind) (hkp : flattenTypes ft.params = .ok kp) (hkr : flattenTypes ft.results = .ok kr)
    (hlp : kp.length ≤ mp) (hlr : kr.length ≤ mr) (s s' : Sys σ) (fs : List FV)
    (hL : LiftableAll S.E.enc (s.mems S.o) (ft.params.map bare) fs) (out : List Core)
    (h : canonLower S ord callee imp ft (fs.map .fv) mp mr s = (.ok out, s')) :
    ∃ args w rs p s2 s3 s4, callee args { s with world := w } = (.ok (rs, some p), s2) ∧
      (∃ ws hs is, FlatMeansAll Leniently S.E.enc (s.mems S.o) (ft.params.map bare) (fs.map FV.bits) ws ∧
        SwappedAll ft.params args ws hs is ∧ Lifts S.E (s.world.setCtx S.E.cx ⟨[], 0⟩) hs is w) ∧
      (∀ us ws hs is w', FlatMeansAll Exactly S.E.enc (s.mems S.o) (ft.params.map bare) (fs.map FV.bits) ws →
        SwappedAll ft.params us ws hs is → Lifts S.E (s.world.setCtx S.E.cx ⟨[], 0⟩) hs is w' → us = args ∧ w' = w) ∧
      p s3 = (.ok (), s4) ∧ s'.mems = s4.mems ∧
      (SendsAny S.E.enc ft.results rs → (s2.mems S.o).len < 2 ^ 32 ∧ (s2.mems S.o).len ≤ (s2.mems S.o).cap →
        ∃ (gs : List FV) (us ws : List Val) (ks : List Held) (js : List U32), out = gs.map .fv ∧
          gs.map FV.kind = ft.results.flatMap coreTypes ∧ SameAll ft.results rs us ∧
          SwappedAll ft.results us ws ks js ∧ Lowers S.E s2.world ks js { s3.world with mayLeave := s2.world.mayLeave } ∧
          (∀ o, o ≠ S.o → s3.mems o = s2.mems o) ∧
          FlatMeansAll Neatly S.E.enc (s3.mems S.o) (ft.results.map bare) (gs.map FV.bits) ws ∧
          (s4.mems S.o = s3.mems S.o →
            FlatMeansAll Neatly S.E.enc (s'.mems S.o) (ft.results.map bare) (gs.map FV.bits) ws)) := by
  have hL' : LiftableAll S.E.enc (((newCtx S) s).2.mems S.o) (ft.params.map bare) fs := hL
  obtain ⟨args, it, s1, rs, p, s2, s3, s4, e, g1, g2, g3, g4⟩ := canonLower_later G hL.known hkr hlr h
  obtain ⟨-, e1, ws, hs, is, k1, k2, k3⟩ := liftValues_bare_only hL' hkp hlp ord e
  refine ⟨args, s1.world, rs, p, s2, s3, s4, ?_, ⟨ws, hs, is, k1, k2, k3⟩, ?_, g2, g3, fun hv hg => ?_⟩
  · rw [e1] at g1
    exact g1
  · intro us ws hs is w' j1 j2 j3
    rw [liftValues_bare hL' hkp hlp ord j1 j2 j3] at e
    obtain ⟨j4, j5⟩ := Prod.mk.inj e
    injection j4 with j4
    exact ⟨congrArg Prod.fst j4, by rw [← j5]⟩
  · obtain ⟨gs, us, ws, ks, js, a1, a2, a3, a4, a5, a6, a7⟩ := g4 hv hg
    exact ⟨gs, us, ws, ks, js, a1, a2, a3, a4, a5, a6, a7, fun hm => by rw [g3, hm]; exact a7⟩

/-- Where the core arguments stand for nothing, or for numbers at which the table does not have such handles,
`CanonLower` returns an error without calling the function (it does the same for every `callee`), and no memory is
changed. -/
theorem canonLower_table_refuses_partial (S : Side σ) (ord : List (String × Val) → List (String × Val))
    (imp : Bool) (ft : FuncTy) (mp mr : Nat)
    (kp : List Kind) (hkp : flattenTypes ft.params = .ok kp) (hlp : kp.length ≤ mp) (s : Sys σ) (fs : List FV)
    (hL : LiftableAll S.E.enc (s.mems S.o) (ft.params.map bare) fs)
    (hn : ∀ us ws hs is w, FlatMeansAll Leniently S.E.enc (s.mems S.o) (ft.params.map bare) (fs.map FV.bits) ws →
      SwappedAll ft.params us ws hs is → ¬ Lifts S.E (s.world.setCtx S.E.cx ⟨[], 0⟩) hs is w) :
    ∃ s', s'.mems = s.mems ∧ ∀ callee, canonLower S ord callee imp ft (fs.map .fv) mp mr s = (.err, s') := by
  have hL' : LiftableAll S.E.enc (((newCtx S) s).2.mems S.o) (ft.params.map bare) fs := hL
  unfold canonLower
  simp only [SM.bind_ok (show newCtx S s = (.ok (), (newCtx S s).2) from rfl), SM.bind_get, SM.ite_app]
  split
  · exact ⟨(newCtx S s).2, rfl, fun _ => rfl⟩
  split
  · exact ⟨(newCtx S s).2, rfl, fun _ => rfl⟩
  have hc := liftValues_bare_calm hL' hkp hlp ord
  simp only [castValues_fv, SM.bind_ok (SM.lift_def _ _)]
  rcases e : withIter S.o (newIterator fs) (liftValues S.E ord mp ft.params) ((newCtx S) s).2 with ⟨r, s1⟩
  rw [e] at hc
  cases r with
  | ok x =>
    obtain ⟨-, -, ws, hs, is, h1, h2, h3⟩ := liftValues_bare_only hL' hkp hlp ord e
    exact absurd h3 (hn _ _ _ _ _ h1 h2)
  | err =>
    refine ⟨s1, ?_, fun callee => by rw [SM.bind_err e]⟩
    rw [liftValues_flat hkp hlp] at e
    have := withIter_mems (E := S.E) (o := S.o) (it := newIterator fs) (ts := ft.params) (s := ((newCtx S) s).2)
    rw [e] at this
    exact this
  | panic | diverge => rcases hc with ⟨_, hc⟩ | hc <;> cases hc

/-- **C124 between two instances**, arguments and results passed flat. The caller's core values stand, in its memory and
its string encoding, for `ws`, a value with numbers in place of handles; at these numbers `is` the caller's table has the
handles `hs`, and with them it is `args`. Then the core function was called with core values that stand for the same
values in the callee's memory and encoding, with other numbers `js` in place of the same handles: those they got in the
callee's table after they were taken or lent from the caller's. And if what it returned stands for `vals` there, with the
handles `ks` at the numbers `ls` of the callee's table, the caller got core values that stand for the same values in its
own memory and encoding, with the numbers that these same handles got in its own table. The post-return function of the
callee, if there is one, may do anything but change the caller's memory.
Missing: as above. -/
theorem component_call_table_partial (A B : Side σ) (usedA usedB : σ → Nat → Prop) (GA : GoodAlloc A.E usedA)
    (GB : GoodAlloc B.E usedB) (hB : B.E.enc ∈ Spec.encodings)
    (hpost : ∀ p, B.post = some p → ∀ x y, p x = (.ok (), y) → y.mems A.o = x.mems A.o)
    (ord ord' : List (String × Val) → List (String × Val)) (ft : FuncTy) (mpA mrA mpB mrB : Nat)
    (kp kr : List Kind) (hkp : flattenTypes ft.params = .ok kp) (hkr : flattenTypes ft.results = .ok kr)
    (h1 : kp.length ≤ mpA) (h2 : kr.length ≤ mrA) (h3 : kp.length ≤ mpB) (h4 : kr.length ≤ mrB)
    (f : List Core → SM (Sys σ) (Option (List Core))) (imp : Bool) (s s' : Sys σ) (fs : List FV)
    (hL : LiftableAll A.E.enc (s.mems A.o) (ft.params.map bare) fs) (args ws : List Val) (hs : List Held)
    (is : List U32) (w : World)
    (hm : FlatMeansAll Exactly A.E.enc (s.mems A.o) (ft.params.map bare) (fs.map FV.bits) ws)
    (hw : SwappedAll ft.params args ws hs is) (hl : Lifts A.E (s.world.setCtx A.E.cx ⟨[], 0⟩) hs is w)
    (hv : SendsAny B.E.enc ft.params args)
    (hg : (s.mems B.o).len < 2 ^ 32 ∧ (s.mems B.o).len ≤ (s.mems B.o).cap) (out : List Core)
    (h : canonLower A ord (fun xs => canonLift B ord' f ft xs mpB mrB) imp ft (fs.map .fv) mpA mrA s = (.ok out, s')) :
    ∃ (gs : List FV) (s1 : Sys σ) (ys : List FV) (s2 : Sys σ), f (gs.map .fv) s1 = (.ok (some (ys.map .fv)), s2) ∧
      gs.map FV.kind = ft.params.flatMap coreTypes ∧ (∀ o, o ≠ B.o → s1.mems o = s.mems o) ∧
      (∃ us xs js, SameAll ft.params args us ∧ SwappedAll ft.params us xs hs js ∧
        Lowers B.E (w.setCtx B.E.cx ⟨[], 0⟩) hs js s1.world ∧
        FlatMeansAll Neatly B.E.enc (s1.mems B.o) (ft.params.map bare) (gs.map FV.bits) xs) ∧
      ∀ vals xs ks ls w', LiftableAll B.E.enc (s2.mems B.o) (ft.results.map bare) ys →
        FlatMeansAll Exactly B.E.enc (s2.mems B.o) (ft.results.map bare) (ys.map FV.bits) xs →
        SwappedAll ft.results vals xs ks ls → Lifts B.E s2.world ks ls w' →
        SendsAny A.E.enc ft.results vals → (s2.mems A.o).len < 2 ^ 32 ∧ (s2.mems A.o).len ≤ (s2.mems A.o).cap →
        ∃ (os : List FV) (us zs : List Val) (ms : List U32) (w3 : World), out = os.map .fv ∧
          os.map FV.kind = ft.results.flatMap coreTypes ∧ SameAll ft.results vals us ∧
          SwappedAll ft.results us zs ks ms ∧ Lowers A.E w' ks ms w3 ∧
          FlatMeansAll Neatly A.E.enc (s'.mems A.o) (ft.results.map bare) (os.map FV.bits) zs := by
  obtain ⟨args', w0, rs, p, t2, t3, t4, e1, -, hu, e2, hm', hres⟩ := canonLower_table_partial A usedA GA ord _ imp ft mpA mrA
    kp kr hkp hkr h1 h2 s s' fs hL out h
  obtain ⟨rfl, rfl⟩ := hu _ _ _ _ _ hm hw hl
  obtain ⟨gs, s1, ys, s2, e3, hp, hk, ho, ⟨us, xs, hs', js, q1, q2, q3, q4⟩, hret⟩ := canonLift_table_partial B usedB GB hB ord'
    f ft args mpB mrB kp kr hkp hkr h3 h4 hv { s with world := w } t2 hg rs (some p) e1
  injection hp with hp
  subst hp
  obtain rfl := swappedAll_same ft.params (sendsAny_wf hv) _ _ _ _ _ _ _ _ q1 hw q2
  have hm4 : t4.mems A.o = t3.mems A.o := postResult_mem hpost e2
  refine ⟨gs, s1, ys, s2, e3, hk, ho, ⟨us, xs, js, q1, q2, q3, q4⟩, fun vals zs ks ls w' hL' hx hsw hli hse hgA => ?_⟩
  obtain ⟨rfl, rfl⟩ := (hret hL').2 _ _ _ _ _ hx hsw hli
  obtain ⟨os, us', xs', ks', ms, k1, k2, k3, k4, k5, -, -, k6⟩ := hres hse hgA
  obtain rfl := swappedAll_same ft.results (sendsAny_wf hse) _ _ _ _ _ _ _ _ k3 hsw k4
  exact ⟨os, us', xs', ms, _, k1, k2, k3, k4, k5, k6 hm4⟩

/-! ## Arguments spilled to memory -/

theorem bareFields_from : (ts : List Ty) → (i : Nat) → bareFields (fieldsFrom i ts) = fieldsFrom i (ts.map bare)
  | [], _ => by simp [fieldsFrom, bareFields]
  | t :: ts, i => by rw [fieldsFrom, bareFields, List.map_cons, fieldsFrom, bareFields_from ts]

theorem swappedAll_fields : (ts : List Ty) → (i : Nat) → (es ds : List (String × Val)) → (hs : List Held) → (is : List U32) →
    SwappedFields (fieldsFrom i ts) es ds hs is → SwappedAll ts (es.map Prod.snd) (ds.map Prod.snd) hs is
  | [], _, _, _, _, _, h => by
    rw [fieldsFrom, SwappedFields] at h
    obtain ⟨rfl, rfl, h⟩ := h
    exact ⟨rfl, rfl, h⟩
  | t :: ts, i, _, _, _, _, h => by
    rw [fieldsFrom, SwappedFields] at h
    obtain ⟨x, y, es, ds, h1, h2, i1, i2, rfl, rfl, e1, e2, rfl, rfl⟩ := h
    exact ⟨x, y, _, _, h1, h2, i1, i2, rfl, rfl, e1, swappedAll_fields ts _ es ds h2 i2 e2, rfl, rfl⟩

theorem fields_wf : (ts : List Ty) → (i : Nat) → (∀ t ∈ ts, Wf t) → WfFields (fieldsFrom i ts)
  | [], _, _ => by simp [fieldsFrom, WfFields]
  | t :: ts, i, h => by
    rw [fieldsFrom, WfFields]
    exact ⟨h t List.mem_cons_self, fields_wf ts _ fun x hx => h x (List.mem_cons_of_mem _ hx)⟩

/-- Loading the tuple of the arguments. -/
theorem liftValues_tuple {E : Env σ} {o maxFlat : Nat} {ts : List Ty} {s s' : Sys σ} {ptr : U32}
    (h : ReadableAll E.enc (s.mems o) (ts.map bare) ptr.toNat) {ks : List Kind} (hk : flattenTypes ts = .ok ks)
    (hl : maxFlat < ks.length) (ord : List (String × Val) → List (String × Val)) (hord : ∀ es, (ord es).Perm es)
    {args : List Val} {it : Iter}
    (e : withIter o (newIterator [.u32 ptr]) (liftValues E ord maxFlat ts) s = (.ok (args, it), s')) :
    s' = { s with world := s'.world } ∧ ∃ vs ws hs is, args.Perm vs ∧
      MeansAll Leniently E.enc (s.mems o) (ts.map bare) ptr.toNat ws ∧ SwappedAll ts vs ws hs is ∧
      Lifts E s.world hs is s'.world := by
  have hb : bare (.record (fieldsFrom 0 ts)) = .record (fieldsFrom 0 (ts.map bare)) := by rw [bare, bareFields_from]
  have hwf : ∀ t ∈ ts, Wf t := fun t ht => wf_bare t (h.types _ (List.mem_map.2 ⟨t, ht, rfl⟩)).2
  have hw : Wf (.record (fieldsFrom 0 ts)) := by rw [Wf]; exact ⟨fieldsFrom_nodup ts 0, fields_wf ts 0 hwf⟩
  have hk' := hk
  rw [← flattenTypes_bare] at hk'
  obtain ⟨a1, a2, a3⟩ := fieldsFrom_all (ts.map bare) 0 (laid_of_flattenTypes hk') h.types
  have hlb : Laid (bare (.record (fieldsFrom 0 ts))) := by rw [hb, Laid]; exact a1
  have hlt : Laid (.record (fieldsFrom 0 ts)) := laid_bare _ hlb
  have hsz : Spec.size (.record (fieldsFrom 0 (ts.map bare))) = Spec.size (.record (fieldsFrom 0 ts)) := by
    rw [← hb, specSize_bare]
  have hal : align (.record (fieldsFrom 0 (ts.map bare))) = align (.record (fieldsFrom 0 ts)) := by
    rw [← hb, align_bare]
  have e0 := liftValues_spill_eq (E := E) (rest := []) h.small (by rw [← hsz]; exact h.ends) hlt hk hl ord
  unfold withIter at e
  rw [e0] at e
  by_cases hin : align (.record (fieldsFrom 0 ts)) ∣ ptr.toNat ∧
    ptr.toNat + Spec.size (.record (fieldsFrom 0 ts)) ≤ (s.mems o).len
  rotate_left
  · rw [if_neg hin] at e; cases e
  · rw [if_pos hin] at e
    rcases e1 : load E (.record (fieldsFrom 0 ts)) ptr (s.view o) with ⟨q, t⟩
    have e2 : onSt (load E (.record (fieldsFrom 0 ts)) ptr) (⟨s.view o, ⟨[.u32 ptr], 1, []⟩⟩ : LSt σ) =
        (q, ⟨t, ⟨[.u32 ptr], 1, []⟩⟩) := by unfold onSt; simp only; rw [e1]
    rw [SM.bind_def, e2] at e
    cases q with
    | ok v =>
      obtain ⟨w, s1, hs, is, w', e3, hv, hL, rfl⟩ :=
        ((load_mirror (E := E) (.record (fieldsFrom 0 ts)) hw ptr).ok (s.view o) s.world s.world v t).1 e1
      have e4 : load E (.record (fieldsFrom 0 (ts.map bare))) ptr (s.view o) = (.ok w, s1) := by rw [← hb]; exact e3
      rcases load_decided E h.known (s.view o) h.small h.cap (.record (fieldsFrom 0 (ts.map bare)))
        (by rw [Laid]; exact a1) (by rw [Plain]; exact a2)
        (by rw [Wf]; exact ⟨fieldsFrom_nodup _ 0, a3⟩) ptr (by rw [hal]; exact hin.1) (by rw [hsz]; exact hin.2) h.orderly with
        ⟨u, e5, h1, -⟩ | ⟨e5, -⟩
      · rw [e5] at e4
        cases e4
        rw [Swapped] at hv
        obtain ⟨es, ds, rfl, rfl, hv⟩ := hv
        simp only [Means] at h1
        obtain ⟨es', h0, h1⟩ := h1
        cases h0
        cases e
        exact ⟨Sys.put_world s o w', es.map Prod.snd, ds.map Prod.snd, hs, is, (hord es).map _,
          meansAll_fields _ 0 _ ds h1, swappedAll_fields ts 0 es ds hs is hv, hL⟩
      · rw [e5] at e4; cases e4
    | _ => cases e

/-- **C124, arguments in memory**: if the core arguments are too many, the one core argument is the address of a tuple. A
call through `CanonLower` that succeeds has called the function with the values, in some order, that the bytes there stand
for with the handles that the table of the instance had at the numbers in them, taken or lent in the order of the
parameters; nothing else was changed.
Missing: the order of the arguments, which is that in which Go ranges over a map (`spilled_order_lost`); and as above. -/
theorem canonLower_spilled_table_partial (S : Side σ) (used : σ → Nat → Prop) (G : GoodAlloc S.E used)
    (ord : List (String × Val) → List (String × Val)) (hord : ∀ es, (ord es).Perm es)
    (callee : List Val → SM (Sys σ) (List Val × Option (SM (Sys σ) Unit))) (imp : Bool) (ft : FuncTy) (mp mr : Nat)
    (kp kr : List Kind) (hkp : flattenTypes ft.params = .ok kp) (hkr : flattenTypes ft.results = .ok kr)
    (hlp : mp < kp.length) (hlr : kr.length ≤ mr) (s s' : Sys σ) (ptr : U32)
    (hL : ReadableAll S.E.enc (s.mems S.o) (ft.params.map bare) ptr.toNat) (out : List Core)
    (h : canonLower S ord callee imp ft [.fv (.u32 ptr)] mp mr s = (.ok out, s')) :
    ∃ vs args w rs p s2, callee args { s with world := w } = (.ok (rs, some p), s2) ∧
      args.Perm vs ∧ (∀ t, ft.params = [t] → args = vs) ∧
      ∃ ws hs is, MeansAll Leniently S.E.enc (s.mems S.o) (ft.params.map bare) ptr.toNat ws ∧
        SwappedAll ft.params vs ws hs is ∧ Lifts S.E (s.world.setCtx S.E.cx ⟨[], 0⟩) hs is w := by
  have hL' : ReadableAll S.E.enc (((newCtx S) s).2.mems S.o) (ft.params.map bare) ptr.toNat := hL
  obtain ⟨args, it, s1, rs, p, s2, s3, s4, e, g1, -⟩ := canonLower_later (fs := [.u32 ptr]) G hL.known hkr hlr h
  obtain ⟨e1, vs, ws, hs, is, k0, k1, k2, k3⟩ := liftValues_tuple hL' hkp hlp ord hord e
  refine ⟨vs, args, s1.world, rs, p, s2, ?_, k0, fun t ht => ?_, ws, hs, is, k1, k2, k3⟩
  · rw [e1] at g1
    exact g1
  · rw [ht] at k2
    obtain ⟨x, y, vs', ws', h1, h2, i1, i2, rfl, -, -, ⟨rfl, -⟩, -⟩ := k2
    exact List.perm_singleton.1 k0

/-! ## The hypotheses are met -/

theorem pass_liftable : LiftableAll exCaller.E.enc (exTwo.mems exCaller.o) ([Ty.own 6, .borrow 5].map bare)
    [.u32 0, .u32 0] := by
  refine ⟨by decide, ?_, by decide, by decide, by decide, ?_⟩
  · intro t ht
    have : t = .u32 := by simpa [bare] using ht
    subst this
    exact ⟨by simp [Plain], by simp [Wf]⟩
  · simp [bare, FlatOrderlyAll, FlatOrderly]

theorem pass_means : FlatMeansAll Exactly exCaller.E.enc (exTwo.mems exCaller.o) ([Ty.own 6, .borrow 5].map bare)
    [0, 0] [.u32 0, .u32 0] := by
  simp only [List.map_cons, List.map_nil, bare, FlatMeansAll, FlatMeans]
  exact ⟨_, _, rfl, ⟨0, by decide, rfl, False.elim⟩, _, _, rfl, ⟨0, by decide, rfl, False.elim⟩, rfl⟩

theorem pass_swapped : SwappedAll [.own 6, .borrow 5] [.u32 77, .u32 42] [.u32 0, .u32 0]
    [⟨true, 6, 77⟩, ⟨false, 5, 42⟩] [0, 0] := by
  simp only [SwappedAll, Swapped]
  exact ⟨_, _, _, _, [_], [_], [_], [_], rfl, rfl, ⟨_, _, rfl, rfl, rfl, rfl⟩,
    ⟨_, _, _, _, [_], [], [_], [], rfl, rfl, ⟨_, _, rfl, rfl, rfl, rfl⟩, ⟨rfl, rfl, rfl, rfl⟩, rfl, rfl⟩, rfl, rfl⟩

/-- In the call `exPass` the caller hands over the handle at 0 of one table and lends the one at 0 of another. -/
example : ∃ w, Lifts exCaller.E (exTwo.world.setCtx 7 ⟨[], 0⟩) [⟨true, 6, 77⟩, ⟨false, 5, 42⟩] [0, 0] w ∧
    LiftableAll exCaller.E.enc (exTwo.mems exCaller.o) ([Ty.own 6, .borrow 5].map bare) [.u32 0, .u32 0] ∧
    FlatMeansAll Exactly exCaller.E.enc (exTwo.mems exCaller.o) ([Ty.own 6, .borrow 5].map bare) [0, 0] [.u32 0, .u32 0] ∧
    SwappedAll [.own 6, .borrow 5] [.u32 77, .u32 42] [.u32 0, .u32 0] [⟨true, 6, 77⟩, ⟨false, 5, 42⟩] [0, 0] ∧
    SendsAny exKeeper.E.enc [.own 6, .borrow 5] [.u32 77, .u32 42] ∧ exPass.1 = .ok [.fv (.u32 0)] := by
  refine ⟨_, .cons (w1 := (step demoInfo (exTwo.world.setCtx 7 ⟨[], 0⟩) (.liftOwn 0 6 0)).2) (by rfl)
    (.cons (w1 := (step demoInfo (step demoInfo (exTwo.world.setCtx 7 ⟨[], 0⟩) (.liftOwn 0 6 0)).2 (.liftBorrow 0 7 5 0)).2)
      (by rfl) (.nil _)), pass_liftable, pass_means, pass_swapped, ?_, rfl⟩
  refine .cons (by simp [Wf]) ⟨?_, ?_, ?_⟩ (.cons (by simp [Wf]) ⟨?_, ?_, ?_⟩ .nil)
  all_goals simp [HasType, ListsFit, StringsFit]

/-- Where the caller's table has nothing at 3, the call is refused. -/
example (callee : List Val → SM (Sys Nat) (List Val × Option (SM (Sys Nat) Unit))) :
    (canonLower exCaller id callee false ⟨[.own 6], []⟩ [.fv (.u32 3)] 16 1 exTwo).1 = .err := by
  obtain ⟨s', -, h⟩ := canonLower_table_refuses_partial exCaller id false ⟨[.own 6], []⟩ 16 1 [.u32] (by decide) (by decide) exTwo
    [.u32 3] ⟨by decide, by simp [bare, Plain, Wf], by decide, by decide, by decide, by simp [bare, FlatOrderlyAll, FlatOrderly]⟩ (by
      intro us ws hs is w hm hv hl
      simp only [List.map_cons, List.map_nil, bare, FlatMeansAll, FlatMeans] at hm
      obtain ⟨x, _, rfl, ⟨b, hb, rfl, -⟩, rfl⟩ := hm
      have : b = 3 := (List.cons.inj hb).1.symm
      subst this
      simp only [SwappedAll, Swapped] at hv
      obtain ⟨x, y, _, _, h1, h2, i1, i2, rfl, e, ⟨u, i, rfl, rfl, rfl, rfl⟩, ⟨rfl, rfl, rfl, rfl⟩, rfl, rfl⟩ := hv
      have : i = 3 := by cases e; rfl
      subst this
      cases hl with
      | cons h _ =>
        have : (step exCaller.E.info (exTwo.world.setCtx exCaller.E.cx ⟨[], 0⟩) (liftOp exCaller.E ⟨true, 6, u⟩ 3)).1 = .err := rfl
        rw [h] at this
        cases this)
  exact congrArg Prod.fst (h callee)

/-- A tuple of one handle, in memory at 0, is read there if no core value may be passed. -/
example : ReadableAll exCaller.E.enc (exTwo.mems exCaller.o) ([Ty.own 6].map bare) 0 ∧
    flattenTypes [.own 6] = .ok [.u32] ∧ (∀ es : List (String × Val), (id es).Perm es) ∧
    (canonLower exCaller id (fun vs => if vs.length = 1 then pure ([], some (pure ())) else SM.fail) false ⟨[.own 6], []⟩
      [.fv (.u32 0)] 0 1 exTwo).1 = .ok [] := by
  refine ⟨⟨by decide, by simp [bare, Plain, Wf], by decide, by decide, by decide, ?_⟩, by decide, fun _ => .refl _, rfl⟩
  simp [bare, fieldsFrom, Orderly, OrderlyFields]

end Verif.Abi
