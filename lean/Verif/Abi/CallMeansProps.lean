import Verif.Abi.CallMeansLemmas

/-!
# C119: in a call, the core values on both sides stand for the same values

C39 for types without handles, stated against `Spec.FlatMeans`, that is, apart from the models of `LiftFlat` and
`LowerFlat`.
-/

namespace Verif.Abi

open Encoding Spec Handles

variable {σ : Type}

/-- Core values for which `CanonLift` and `CanonLower` are asked to follow the Canonical ABI; see `Liftable`. -/
structure LiftableAll (enc : String) (m : Mem) (ts : List Ty) (fs : List FV) : Prop where
  known : enc ∈ Spec.encodings
  types : ∀ t ∈ ts, Plain t ∧ Wf t
  small : m.len < 2 ^ 32
  cap : m.len ≤ m.cap
  kinds : fs.map FV.kind = ts.flatMap coreTypes
  orderly : FlatOrderlyAll enc m ts (fs.map FV.bits)

theorem laid_of_flattenTypes : {ts : List Ty} → {ks : List Kind} → flattenTypes ts = .ok ks → ∀ t ∈ ts, Laid t
  | [], _, _, _, ht => by cases ht
  | t :: ts, _, hk, x, hx => by
    obtain ⟨a, b, h1, h2, -⟩ := flattenTypes_cons hk
    rcases List.mem_cons.1 hx with rfl | hx
    · exact laid_of_flatten _ a h1
    · exact laid_of_flattenTypes h2 x hx

theorem LiftableAll.decided {E : Env σ} {o maxFlat : Nat} {ts : List Ty} {s : Sys σ} {fs : List FV}
    (h : LiftableAll E.enc (s.mems o) ts fs) {ks : List Kind} (hk : flattenTypes ts = .ok ks) (hl : ks.length ≤ maxFlat)
    (ord : List (String × Val) → List (String × Val)) :
    (∃ vs, withIter o (newIterator fs) (liftValues E ord maxFlat ts) s = (.ok (vs, ⟨fs, fs.length, []⟩), s) ∧
      FlatMeansAll Leniently E.enc (s.mems o) ts (fs.map FV.bits) vs ∧
      ∀ w, FlatMeansAll Exactly E.enc (s.mems o) ts (fs.map FV.bits) w → w = vs) ∨
    (withIter o (newIterator fs) (liftValues E ord maxFlat ts) s = (.err, s) ∧
      ∀ R w, ¬ R.neat → ¬ FlatMeansAll R E.enc (s.mems o) ts (fs.map FV.bits) w) :=
  liftValues_decided h.known h.small h.cap
    (fun t ht => ⟨laid_of_flattenTypes hk t ht, (h.types t ht).1, (h.types t ht).2⟩) h.kinds h.orderly hk hl ord

/-- **C119, the called side**, arguments and results passed flat. Whatever the core function does, a call through
`CanonLift` that succeeds has called it with core values of the right types which, in the memory at that time, stand for
the arguments in the one way there is; the other memories are as they were. What it returned is what the core results
stand for in the memory when the function returned, and that is the state left.
Missing: handles (C39), values spilled to memory, where it is false (`canonLift_spilled_fails`), more than 64 flags,
repeated labels, strings and lists of `2^32` bytes or more. -/
theorem canonLift_means_partial (S : Side σ) (used : σ → Nat → Prop) (G : GoodAlloc S.E used)
    (henc : S.E.enc ∈ Spec.encodings) (ord : List (String × Val) → List (String × Val))
    (callee : List Core → SM (Sys σ) (Option (List Core))) (ft : FuncTy) (args : List Val) (mp mr : Nat)
    (kp kr : List Kind) (hkp : flattenTypes ft.params = .ok kp) (hkr : flattenTypes ft.results = .ok kr)
    (hlp : kp.length ≤ mp) (hlr : kr.length ≤ mr) (hv : Sends S.E.enc ft.params args) (s s' : Sys σ)
    (hg : (s.mems S.o).len < 2 ^ 32 ∧ (s.mems S.o).len ≤ (s.mems S.o).cap)
    (vs : List Val) (post : Option (SM (Sys σ) Unit))
    (h : canonLift S ord callee ft args mp mr s = (.ok (vs, post), s')) :
    ∃ (fs : List FV) (s1 : Sys σ) (gs : List FV) (s2 : Sys σ), callee (fs.map .fv) s1 = (.ok (some (gs.map .fv)), s2) ∧ post = some (postResult S) ∧
      fs.map FV.kind = ft.params.flatMap coreTypes ∧ (∀ o, o ≠ S.o → s1.mems o = s.mems o) ∧
      (∃ ws, SameAll ft.params args ws ∧
        FlatMeansAll Neatly S.E.enc (s1.mems S.o) ft.params (fs.map FV.bits) ws) ∧
      (LiftableAll S.E.enc (s2.mems S.o) ft.results gs → s' = s2 ∧
        FlatMeansAll Leniently S.E.enc (s2.mems S.o) ft.results (gs.map FV.bits) vs ∧
        ∀ ws, FlatMeansAll Exactly S.E.enc (s2.mems S.o) ft.results (gs.map FV.bits) ws → ws = vs) := by
  by_cases ha : Allowed s S
  swap
  · rw [canonLift_forbidden S ord _ ft args mp mr s ha] at h; cases h
  rw [canonLift_eq S ord _ ft args mp mr s ha.1 ha.2] at h
  obtain ⟨xs, t3, e3, h3⟩ := SM.bind_eq_ok.1 h
  obtain ⟨_, t4, e4, h4⟩ := SM.bind_eq_ok.1 h3
  obtain ⟨rs, t5, e5, h5⟩ := SM.bind_eq_ok.1 h4
  clear h h3 h4
  obtain rfl := (Prod.mk.inj e4).2
  obtain ⟨fs, rfl, hk, hm, ho⟩ := lowerValues_means G henc S.o mp ft.params args hv kp hkp hlp none (s.entered S) _ hg _ e3
  cases rs with
  | none => cases h5
  | some rs =>
    simp only at h5
    obtain ⟨gs, t6, e6, h6⟩ := SM.bind_eq_ok.1 h5
    obtain ⟨r, t7, e7, h7⟩ := SM.bind_eq_ok.1 h6
    clear h5 h6
    obtain rfl := (Prod.mk.inj e6).2
    obtain rfl := (Prod.mk.inj h7).2
    have hr := (Prod.mk.inj h7).1
    injection hr with hr
    obtain ⟨rfl, rfl⟩ := Prod.mk.inj hr
    obtain rfl := castValues_ok (Prod.mk.inj e6).1
    refine ⟨fs, _, gs, _, e5, rfl, hk, ho, ⟨_, sameAll_norm hv, hm⟩, fun hL => ?_⟩
    rcases hL.decided hkr hlr ord with ⟨vs, e, h1, h2⟩ | ⟨e, -⟩
    · rw [e] at e7
      obtain ⟨h3, h4⟩ := Prod.mk.inj e7
      injection h3 with h3
      subst h3 h4
      exact ⟨rfl, h1, h2⟩
    · rw [e] at e7
      cases e7

/-- What is common to flat and spilled arguments: what happens after they were lifted. -/
theorem canonLower_after {S : Side σ} {used : σ → Nat → Prop} (G : GoodAlloc S.E used)
    (henc : S.E.enc ∈ Spec.encodings) {ord : List (String × Val) → List (String × Val)}
    {callee : List Val → SM (Sys σ) (List Val × Option (SM (Sys σ) Unit))} {imp : Bool} {ft : FuncTy} {mp mr : Nat}
    {kr : List Kind} (hkr : flattenTypes ft.results = .ok kr) (hlr : kr.length ≤ mr) {s s' : Sys σ} {fs : List FV}
    {out : List Core} {args : List Val} {it : Iter}
    (e : withIter S.o (newIterator fs) (liftValues S.E ord mp ft.params) ((newCtx S) s).2 =
      (.ok (args, it), ((newCtx S) s).2))
    (h : canonLower S ord callee imp ft (fs.map .fv) mp mr s = (.ok out, s')) :
    ∃ rs p s2 s3 s4, callee args { s with world := s.world.setCtx S.E.cx ⟨[], 0⟩ } = (.ok (rs, some p), s2) ∧
      p s3 = (.ok (), s4) ∧ s'.mems = s4.mems ∧
      (Sends S.E.enc ft.results rs → (s2.mems S.o).len < 2 ^ 32 ∧ (s2.mems S.o).len ≤ (s2.mems S.o).cap →
        ∃ (gs : List FV) (ws : List Val), out = gs.map .fv ∧ gs.map FV.kind = ft.results.flatMap coreTypes ∧ SameAll ft.results rs ws ∧
          (∀ o, o ≠ S.o → s3.mems o = s2.mems o) ∧
          FlatMeansAll Neatly S.E.enc (s3.mems S.o) ft.results (gs.map FV.bits) ws) := by
  unfold canonLower at h
  obtain ⟨_, t1, e1, h1⟩ := SM.bind_eq_ok.1 h
  have e1' : t1 = (newCtx S s).2 := (Prod.mk.inj e1).2.symm
  subst e1'
  rw [SM.bind_get, SM.ite_app] at h1
  split at h1
  · cases h1
  rw [SM.ite_app] at h1
  split at h1
  · cases h1
  rw [castValues_fv, SM.bind_ok (SM.lift_def _ _), SM.bind_ok e] at h1
  obtain ⟨r, t4, e4, h4⟩ := SM.bind_eq_ok.1 h1
  obtain ⟨_, t5, e5, h5⟩ := SM.bind_eq_ok.1 h4
  obtain ⟨flat, t6, e6, h6⟩ := SM.bind_eq_ok.1 h5
  obtain ⟨_, t7, e7, h7⟩ := SM.bind_eq_ok.1 h6
  clear h h1 h4 h5 h6
  obtain rfl := (Prod.mk.inj e5).2
  obtain rfl := (Prod.mk.inj e7).2
  rcases r with ⟨rs, _ | p⟩
  · cases h7
  simp only at h7
  obtain ⟨_, t8, e8, h8⟩ := SM.bind_eq_ok.1 h7
  obtain ⟨_, t9, e9, h9⟩ := SM.bind_eq_ok.1 h8
  clear h7 h8
  have hm9 : t9.mems = t8.mems := by
    unfold exitIgnored at e9
    rcases ex : exitCall S.E.cx t8.world with ⟨r, w⟩
    rw [ex] at e9
    cases r <;> (rw [← (Prod.mk.inj e9).2])
  have hm : s'.mems = t8.mems ∧ out = flat := by
    cases imp with
    | false =>
      rw [if_neg (by simp)] at h9
      have h10 := (Prod.mk.inj h9).1
      injection h10 with h10
      exact ⟨by rw [← (Prod.mk.inj h9).2]; exact hm9, h10.symm⟩
    | true =>
      rw [if_pos rfl] at h9
      obtain ⟨_, t10, e10, h10⟩ := SM.bind_eq_ok.1 h9
      have h11 := (Prod.mk.inj h10).1
      injection h11 with h11
      refine ⟨?_, h11.symm⟩
      rw [← (Prod.mk.inj h10).2, ← (Prod.mk.inj e10).2]
      exact hm9
  obtain ⟨hm, rfl⟩ := hm
  refine ⟨rs, p, t4, _, t8, e4, e8, hm, fun hv hg => ?_⟩
  obtain ⟨gs, hr, hk, hmm, ho⟩ := lowerValues_means G henc S.o mr ft.results rs hv kr hkr hlr _
    ((setLeave S false) t4).2 _ hg _ e6
  exact ⟨gs, _, hr, hk, sameAll_norm hv, ho, hmm⟩

/-- **C119, the calling side**, arguments and results passed flat. A call through `CanonLower` that succeeds has called
the function with what the core arguments stood for in the memory before the call, and with nothing in memory changed; the
core values it returns have the right types and stand for the values the function returned, in the one way there is, in
the memory before the post-return function `p` ran; and in the memory at the end if `p` leaves it alone.
Missing: as above; results spilled to memory (`spilled_results_lost`: false). -/
theorem canonLower_means_partial (S : Side σ) (used : σ → Nat → Prop) (G : GoodAlloc S.E used)
    (ord : List (String × Val) → List (String × Val))
    (callee : List Val → SM (Sys σ) (List Val × Option (SM (Sys σ) Unit))) (imp : Bool) (ft : FuncTy) (mp mr : Nat)
    (kp kr : List Kind) (hkp : flattenTypes ft.params = .ok kp) (hkr : flattenTypes ft.results = .ok kr)
    (hlp : kp.length ≤ mp) (hlr : kr.length ≤ mr) (s s' : Sys σ) (fs : List FV)
    (hL : LiftableAll S.E.enc (s.mems S.o) ft.params fs) (out : List Core)
    (h : canonLower S ord callee imp ft (fs.map .fv) mp mr s = (.ok out, s')) :
    ∃ args rs p s2 s3 s4, callee args { s with world := s.world.setCtx S.E.cx ⟨[], 0⟩ } = (.ok (rs, some p), s2) ∧
      FlatMeansAll Leniently S.E.enc (s.mems S.o) ft.params (fs.map FV.bits) args ∧
      (∀ ws, FlatMeansAll Exactly S.E.enc (s.mems S.o) ft.params (fs.map FV.bits) ws → ws = args) ∧
      p s3 = (.ok (), s4) ∧ s'.mems = s4.mems ∧
      (Sends S.E.enc ft.results rs → (s2.mems S.o).len < 2 ^ 32 ∧ (s2.mems S.o).len ≤ (s2.mems S.o).cap →
        ∃ (gs : List FV) (ws : List Val), out = gs.map .fv ∧ gs.map FV.kind = ft.results.flatMap coreTypes ∧ SameAll ft.results rs ws ∧
          (∀ o, o ≠ S.o → s3.mems o = s2.mems o) ∧
          FlatMeansAll Neatly S.E.enc (s3.mems S.o) ft.results (gs.map FV.bits) ws ∧
          (s4.mems S.o = s3.mems S.o →
            FlatMeansAll Neatly S.E.enc (s'.mems S.o) ft.results (gs.map FV.bits) ws)) := by
  have hL' : LiftableAll S.E.enc (((newCtx S) s).2.mems S.o) ft.params fs := hL
  rcases hL'.decided hkp hlp ord with ⟨args, e, h1, h2⟩ | ⟨e, -⟩
  · obtain ⟨rs, p, s2, s3, s4, g1, g2, g3, g4⟩ := canonLower_after G hL.known hkr hlr e h
    refine ⟨args, rs, p, s2, s3, s4, g1, h1, h2, g2, g3, fun hv hg => ?_⟩
    obtain ⟨gs, ws, k1, k2, k3, k4, k5⟩ := g4 hv hg
    exact ⟨gs, ws, k1, k2, k3, k4, k5, fun hm => by rw [g3, hm]; exact k5⟩
  · unfold canonLower at h
    obtain ⟨_, t1, e1, h1⟩ := SM.bind_eq_ok.1 h
    have e1' : t1 = (newCtx S s).2 := (Prod.mk.inj e1).2.symm
    subst e1'
    rw [SM.bind_get, SM.ite_app] at h1
    split at h1
    · cases h1
    rw [SM.ite_app] at h1
    split at h1
    · cases h1
    rw [castValues_fv, SM.bind_ok (SM.lift_def _ _), SM.bind_err e] at h1
    cases h1

/-- Where the core arguments stand for nothing, `CanonLower` returns an error without calling the function (whatever
`callee` is), and changes nothing but its own call context. -/
theorem canonLower_refuses_partial (S : Side σ) (ord : List (String × Val) → List (String × Val))
    (callee : List Val → SM (Sys σ) (List Val × Option (SM (Sys σ) Unit))) (imp : Bool) (ft : FuncTy) (mp mr : Nat)
    (kp : List Kind) (hkp : flattenTypes ft.params = .ok kp) (hlp : kp.length ≤ mp) (s : Sys σ) (fs : List FV)
    (hL : LiftableAll S.E.enc (s.mems S.o) ft.params fs)
    (hn : ∀ vs, ¬ FlatMeansAll Leniently S.E.enc (s.mems S.o) ft.params (fs.map FV.bits) vs) :
    canonLower S ord callee imp ft (fs.map .fv) mp mr s =
      (.err, { s with world := s.world.setCtx S.E.cx ⟨[], 0⟩ }) := by
  have hL' : LiftableAll S.E.enc (((newCtx S) s).2.mems S.o) ft.params fs := hL
  unfold canonLower
  rw [SM.bind_ok (show newCtx S s = (.ok (), (newCtx S s).2) from rfl), SM.bind_get, SM.ite_app]
  split
  · rfl
  rw [SM.ite_app]
  split
  · rfl
  rcases hL'.decided hkp hlp ord with ⟨args, e, h1, h2⟩ | ⟨e, -⟩
  · exact absurd h1 (hn args)
  · rw [castValues_fv, SM.bind_ok (SM.lift_def _ _), SM.bind_err e]
    rfl

/-- **C119 between two instances**, arguments and results passed flat. The caller's core values stand for `args` in its
memory and its string encoding. Then the core function was called with core values that stand for the same values in the
callee's memory and encoding; and if what it returned stands for `vals` there, the caller got core values that stand for
the same values in its own memory and encoding. Missing: as above. -/
theorem component_call_means_partial (A B : Side σ) (usedA usedB : σ → Nat → Prop) (GA : GoodAlloc A.E usedA)
    (GB : GoodAlloc B.E usedB) (hB : B.E.enc ∈ Spec.encodings)
    (hpost : ∀ p, B.post = some p → ∀ x y, p x = (.ok (), y) → y.mems A.o = x.mems A.o)
    (ord ord' : List (String × Val) → List (String × Val)) (ft : FuncTy) (mpA mrA mpB mrB : Nat)
    (kp kr : List Kind) (hkp : flattenTypes ft.params = .ok kp) (hkr : flattenTypes ft.results = .ok kr)
    (h1 : kp.length ≤ mpA) (h2 : kr.length ≤ mrA) (h3 : kp.length ≤ mpB) (h4 : kr.length ≤ mrB)
    (f : List Core → SM (Sys σ) (Option (List Core))) (imp : Bool) (s s' : Sys σ) (fs : List FV) (args : List Val)
    (hL : LiftableAll A.E.enc (s.mems A.o) ft.params fs)
    (hm : FlatMeansAll Exactly A.E.enc (s.mems A.o) ft.params (fs.map FV.bits) args)
    (hv : Sends B.E.enc ft.params args)
    (hg : (s.mems B.o).len < 2 ^ 32 ∧ (s.mems B.o).len ≤ (s.mems B.o).cap) (out : List Core)
    (h : canonLower A ord (fun xs => canonLift B ord' f ft xs mpB mrB) imp ft (fs.map .fv) mpA mrA s = (.ok out, s')) :
    ∃ (gs : List FV) (s1 : Sys σ) (ys : List FV) (s2 : Sys σ), f (gs.map .fv) s1 = (.ok (some (ys.map .fv)), s2) ∧
      gs.map FV.kind = ft.params.flatMap coreTypes ∧ (∀ o, o ≠ B.o → s1.mems o = s.mems o) ∧
      (∃ ws, SameAll ft.params args ws ∧
        FlatMeansAll Neatly B.E.enc (s1.mems B.o) ft.params (gs.map FV.bits) ws) ∧
      ∀ vals, LiftableAll B.E.enc (s2.mems B.o) ft.results ys →
        FlatMeansAll Exactly B.E.enc (s2.mems B.o) ft.results (ys.map FV.bits) vals →
        Sends A.E.enc ft.results vals → (s2.mems A.o).len < 2 ^ 32 ∧ (s2.mems A.o).len ≤ (s2.mems A.o).cap →
        ∃ (os : List FV) (ws : List Val), out = os.map .fv ∧ os.map FV.kind = ft.results.flatMap coreTypes ∧ SameAll ft.results vals ws ∧
          FlatMeansAll Neatly A.E.enc (s'.mems A.o) ft.results (os.map FV.bits) ws := by
  obtain ⟨args', rs, p, t2, t3, t4, e1, -, hu, e2, hm', hres⟩ := canonLower_means_partial A usedA GA ord _ imp ft mpA mrA
    kp kr hkp hkr h1 h2 s s' fs hL out h
  obtain rfl := hu _ hm
  obtain ⟨gs, s1, ys, s2, e3, hp, hk, ho, hw, hret⟩ := canonLift_means_partial B usedB GB hB ord' f ft args mpB mrB kp kr hkp
    hkr h3 h4 hv { s with world := s.world.setCtx A.E.cx ⟨[], 0⟩ } t2 hg rs (some p) e1
  injection hp with hp
  subst hp
  have hm4 : t4.mems A.o = t3.mems A.o := postResult_mem hpost e2
  refine ⟨gs, s1, ys, s2, e3, hk, ho, hw, fun vals hL' hx hs hgA => ?_⟩
  obtain ⟨rfl, -, hu'⟩ := hret hL'
  obtain rfl := hu' _ hx
  obtain ⟨os, ws, k1, k2, k3, -, -, k4⟩ := hres hs hgA
  exact ⟨os, ws, k1, k2, k3, k4 hm4⟩

/-! ## Arguments spilled to memory -/

theorem repr_inj {a b : Nat} (h : toString a = toString b) : a = b := by
  have e : Nat.toDigits 10 a = Nat.toDigits 10 b := String.ofList_injective h
  rw [← Nat.ofDigitChars_toDigits (b := 10) (n := a) (by decide) (by decide), e,
    Nat.ofDigitChars_toDigits (by decide) (by decide)]

theorem fieldsFrom_labels : (ts : List Ty) → (i : Nat) → ∀ l ∈ (fieldsFrom i ts).labels, ∃ j, i ≤ j ∧ l = toString j
  | [], _, l, hl => by simp [fieldsFrom, Fields.labels] at hl
  | t :: ts, i, l, hl => by
    rw [fieldsFrom, Fields.labels] at hl
    rcases List.mem_cons.1 hl with rfl | hl
    · exact ⟨i, Nat.le_refl _, rfl⟩
    · obtain ⟨j, h1, h2⟩ := fieldsFrom_labels ts (i + 1) l hl
      exact ⟨j, by omega, h2⟩

theorem fieldsFrom_nodup : (ts : List Ty) → (i : Nat) → (fieldsFrom i ts).labels.Nodup
  | [], _ => by simp [fieldsFrom, Fields.labels]
  | t :: ts, i => by
    rw [fieldsFrom, Fields.labels, List.nodup_cons]
    refine ⟨fun h => ?_, fieldsFrom_nodup ts (i + 1)⟩
    obtain ⟨j, h1, h2⟩ := fieldsFrom_labels ts (i + 1) _ h
    have := repr_inj h2
    omega

theorem fieldsFrom_all : (ts : List Ty) → (i : Nat) → (∀ t ∈ ts, Laid t) → (∀ t ∈ ts, Plain t ∧ Wf t) →
    LaidFields (fieldsFrom i ts) ∧ PlainFields (fieldsFrom i ts) ∧ WfFields (fieldsFrom i ts)
  | [], _, _, _ => by simp [fieldsFrom, LaidFields, PlainFields, WfFields]
  | t :: ts, i, hl, hp => by
    obtain ⟨h1, h2, h3⟩ := fieldsFrom_all ts (i + 1) (fun x hx => hl x (List.mem_cons_of_mem _ hx))
      (fun x hx => hp x (List.mem_cons_of_mem _ hx))
    simp only [fieldsFrom, LaidFields, PlainFields, WfFields]
    exact ⟨⟨hl t List.mem_cons_self, h1⟩, ⟨(hp t List.mem_cons_self).1, h2⟩, (hp t List.mem_cons_self).2, h3⟩

theorem meansAll_fields {R : Reading} {enc : String} {m : Mem} : (ts : List Ty) → (i p : Nat) → (es : List (String × Val)) →
    MeansFields R enc m (fieldsFrom i ts) p es → MeansAll R enc m ts p (es.map Prod.snd)
  | [], _, _, es, h => by
    rw [fieldsFrom, MeansFields] at h
    rw [h, MeansAll]; rfl
  | t :: ts, i, p, es, h => by
    rw [fieldsFrom, MeansFields] at h
    obtain ⟨x, es', rfl, h1, h2⟩ := h
    rw [MeansAll]
    exact ⟨x, _, rfl, h1, meansAll_fields ts _ _ es' h2⟩

theorem fields_meansAll {R : Reading} {enc : String} {m : Mem} : (ts : List Ty) → (i p : Nat) → (vs : List Val) →
    MeansAll R enc m ts p vs → ∃ es, es.map Prod.snd = vs ∧ MeansFields R enc m (fieldsFrom i ts) p es
  | [], _, _, vs, h => by
    rw [MeansAll] at h
    exact ⟨[], h.symm, by rw [fieldsFrom, MeansFields]⟩
  | t :: ts, i, p, vs, h => by
    rw [MeansAll] at h
    obtain ⟨x, vs', rfl, h1, h2⟩ := h
    obtain ⟨es, rfl, h3⟩ := fields_meansAll ts (i + 1) _ vs' h2
    exact ⟨(toString i, x) :: es, rfl, by rw [fieldsFrom, MeansFields]; exact ⟨x, es, rfl, h1, h3⟩⟩

/-- A place in memory from which `LiftValues` is asked to read the values; see `Readable`. -/
structure ReadableAll (enc : String) (m : Mem) (ts : List Ty) (p : Nat) : Prop where
  known : enc ∈ Spec.encodings
  types : ∀ t ∈ ts, Plain t ∧ Wf t
  small : m.len < 2 ^ 32
  cap : m.len ≤ m.cap
  ends : p + Spec.size (.record (fieldsFrom 0 ts)) < 2 ^ 32
  orderly : Orderly enc m (.record (fieldsFrom 0 ts)) p

/-- How the tuple of spilled values is read. -/
theorem liftValues_spill_eq {E : Env σ} {o maxFlat : Nat} {ts : List Ty} {s : Sys σ} {ptr : U32} {rest : List FV}
    (hsm : (s.mems o).len < 2 ^ 32) (hen : ptr.toNat + Spec.size (.record (fieldsFrom 0 ts)) < 2 ^ 32)
    (hlt : Laid (.record (fieldsFrom 0 ts))) {ks : List Kind} (hk : flattenTypes ts = .ok ks) (hl : maxFlat < ks.length)
    (ord : List (String × Val) → List (String × Val)) :
    liftValues E ord maxFlat ts ⟨s.view o, newIterator (.u32 ptr :: rest)⟩ =
      if align (.record (fieldsFrom 0 ts)) ∣ ptr.toNat ∧
        ptr.toNat + Spec.size (.record (fieldsFrom 0 ts)) ≤ (s.mems o).len then
      (do match ← onSt (load E (.record (fieldsFrom 0 ts)) ptr) with
          | .map m => pure ((ord m).map Prod.snd)
          | _ => SM.fail : SM (LSt σ) (List Val)) ⟨s.view o, ⟨.u32 ptr :: rest, 1, []⟩⟩
      else (.err, ⟨s.view o, ⟨.u32 ptr :: rest, 1, []⟩⟩) := by
  have hal := ofNat_toNat_isAl (align_isAl (.record (fieldsFrom 0 ts)))
  have hsz : Spec.size (.record (fieldsFrom 0 ts)) < 2 ^ 32 := by omega
  unfold liftValues
  rw [hk, SM.bind_ok (SM.lift_def _ _), SM.ite_app, if_neg (by omega)]
  rw [SM.bind_ok (show nextU32 (⟨s.view o, newIterator (.u32 ptr :: rest)⟩ : LSt σ) =
    (.ok ptr, ⟨s.view o, ⟨.u32 ptr :: rest, 1, []⟩⟩) from rfl)]
  rw [alignment_eq _ hlt, SM.bind_ok (SM.lift_def _ _), SM.ite_app]
  by_cases ha : align (.record (fieldsFrom 0 ts)) ∣ ptr.toNat
  · rw [if_neg (by rw [Classical.not_not, alignTo_eq_iff _ _ (by rw [hal]; exact align_isAl _), hal]; exact ha),
      size_eq _ hlt hsz, SM.bind_ok (SM.lift_def _ _), SM.bind_get, SM.ite_app, Mem.len32]
    have e1 : (ptr + BitVec.ofNat 32 (Spec.size (.record (fieldsFrom 0 ts)))).toNat =
        ptr.toNat + Spec.size (.record (fieldsFrom 0 ts)) := by
      rw [BitVec.toNat_add, toNat_ofNat_lt hsz, Nat.mod_eq_of_lt hen]
    rw [e1, toNat_ofNat_lt (show (s.view o).mem.len < 2 ^ 32 from hsm), show (s.view o).mem.len = (s.mems o).len from rfl]
    by_cases hb : ptr.toNat + Spec.size (.record (fieldsFrom 0 ts)) ≤ (s.mems o).len
    · rw [if_neg (show ¬ _ > (s.mems o).len by omega), if_pos ⟨ha, hb⟩]; rfl
    · rw [if_pos (show _ > (s.mems o).len by omega), if_neg (fun h => hb h.2)]; rfl
  · rw [if_pos (by rw [Ne, alignTo_eq_iff _ _ (by rw [hal]; exact align_isAl _), hal]; exact ha), if_neg (fun h => ha h.1)]
    rfl

theorem liftValues_spilled {E : Env σ} {o maxFlat : Nat} {ts : List Ty} {s : Sys σ} {ptr : U32} {rest : List FV}
    (h : ReadableAll E.enc (s.mems o) ts ptr.toNat) {ks : List Kind} (hk : flattenTypes ts = .ok ks)
    (hl : maxFlat < ks.length) (ord : List (String × Val) → List (String × Val)) (hord : ∀ es, (ord es).Perm es) :
    (∃ vs args, withIter o (newIterator (.u32 ptr :: rest)) (liftValues E ord maxFlat ts) s =
        (.ok (args, ⟨.u32 ptr :: rest, 1, []⟩), s) ∧ args.Perm vs ∧
      align (.record (fieldsFrom 0 ts)) ∣ ptr.toNat ∧
      ptr.toNat + Spec.size (.record (fieldsFrom 0 ts)) ≤ (s.mems o).len ∧
      MeansAll Leniently E.enc (s.mems o) ts ptr.toNat vs ∧
      ∀ w, MeansAll Exactly E.enc (s.mems o) ts ptr.toNat w → w = vs) ∨
    (withIter o (newIterator (.u32 ptr :: rest)) (liftValues E ord maxFlat ts) s = (.err, s) ∧
      ∀ R w, align (.record (fieldsFrom 0 ts)) ∣ ptr.toNat →
        ptr.toNat + Spec.size (.record (fieldsFrom 0 ts)) ≤ (s.mems o).len →
        ¬ MeansAll R E.enc (s.mems o) ts ptr.toNat w) := by
  obtain ⟨a1, a2, a3⟩ := fieldsFrom_all ts 0 (laid_of_flattenTypes hk) h.types
  have hlt : Laid (.record (fieldsFrom 0 ts)) := by rw [Laid]; exact a1
  have hput : s.put o (s.view o) = s := by
    unfold Sys.put Sys.view
    simp only [upd_self]
  have e0 := liftValues_spill_eq (E := E) (rest := rest) h.small h.ends hlt hk hl ord
  unfold withIter
  rw [e0]
  by_cases hb : align (.record (fieldsFrom 0 ts)) ∣ ptr.toNat ∧
    ptr.toNat + Spec.size (.record (fieldsFrom 0 ts)) ≤ (s.mems o).len
  · rw [if_pos hb]
    rcases load_decided E h.known (s.view o) h.small h.cap (.record (fieldsFrom 0 ts)) hlt (by rw [Plain]; exact a2)
      (by rw [Wf]; exact ⟨fieldsFrom_nodup ts 0, a3⟩) ptr hb.1 hb.2 h.orderly with ⟨v, e, h1, h2⟩ | ⟨e, hn⟩
    · have e' : onSt (load E (.record (fieldsFrom 0 ts)) ptr) (⟨s.view o, ⟨.u32 ptr :: rest, 1, []⟩⟩ : LSt σ) =
          (.ok v, ⟨s.view o, ⟨.u32 ptr :: rest, 1, []⟩⟩) := by unfold onSt; simp only; rw [e]
      simp only [Means] at h1 h2
      obtain ⟨es, rfl, h1⟩ := h1
      rw [SM.bind_ok e']
      refine .inl ⟨es.map Prod.snd, (ord es).map Prod.snd, ?_, (hord es).map _, hb.1, hb.2, meansAll_fields ts 0 _ es h1,
        fun w hw => ?_⟩
      · simp only [SM.pure_def, hput]
      · obtain ⟨es', rfl, h3⟩ := fields_meansAll ts 0 _ w hw
        have h4 := h2 (.map es') ⟨es', rfl, h3⟩
        injection h4 with h4
        rw [h4]
    · have e' : onSt (load E (.record (fieldsFrom 0 ts)) ptr) (⟨s.view o, ⟨.u32 ptr :: rest, 1, []⟩⟩ : LSt σ) =
          (.err, ⟨s.view o, ⟨.u32 ptr :: rest, 1, []⟩⟩) := by unfold onSt; simp only; rw [e]
      rw [SM.bind_err e']
      refine .inr ⟨by simp only [hput], fun R w _ _ hw => ?_⟩
      obtain ⟨es', rfl, h3⟩ := fields_meansAll ts 0 _ w hw
      exact hn R (.map es') (by simp only [Means]; exact ⟨es', rfl, h3⟩)
  · rw [if_neg hb]
    exact .inr ⟨by simp only [hput], fun R w x1 x2 _ => hb ⟨x1, x2⟩⟩

/-- **C119, arguments in memory**: if the core arguments are too many, the one core argument is the address of a tuple. A
call through `CanonLower` that succeeds has called the function with the values that the bytes there stand for, in some
order, so with exactly that value where there is one parameter.
Missing: the order, which is that in which Go ranges over a map (`spilled_order_lost`); and as above. -/
theorem canonLower_spilled_means_partial (S : Side σ) (used : σ → Nat → Prop) (G : GoodAlloc S.E used)
    (ord : List (String × Val) → List (String × Val)) (hord : ∀ es, (ord es).Perm es)
    (callee : List Val → SM (Sys σ) (List Val × Option (SM (Sys σ) Unit))) (imp : Bool) (ft : FuncTy) (mp mr : Nat)
    (kp kr : List Kind) (hkp : flattenTypes ft.params = .ok kp) (hkr : flattenTypes ft.results = .ok kr)
    (hlp : mp < kp.length) (hlr : kr.length ≤ mr) (s s' : Sys σ) (ptr : U32)
    (hL : ReadableAll S.E.enc (s.mems S.o) ft.params ptr.toNat) (out : List Core)
    (h : canonLower S ord callee imp ft [.fv (.u32 ptr)] mp mr s = (.ok out, s')) :
    ∃ vs args rs p s2 s3 s4, callee args { s with world := s.world.setCtx S.E.cx ⟨[], 0⟩ } = (.ok (rs, some p), s2) ∧
      args.Perm vs ∧ (∀ t, ft.params = [t] → args = vs) ∧
      MeansAll Leniently S.E.enc (s.mems S.o) ft.params ptr.toNat vs ∧
      (∀ ws, MeansAll Exactly S.E.enc (s.mems S.o) ft.params ptr.toNat ws → ws = vs) ∧
      p s3 = (.ok (), s4) ∧ s'.mems = s4.mems ∧
      (Sends S.E.enc ft.results rs → (s2.mems S.o).len < 2 ^ 32 ∧ (s2.mems S.o).len ≤ (s2.mems S.o).cap →
        ∃ (gs : List FV) (ws : List Val), out = gs.map .fv ∧ gs.map FV.kind = ft.results.flatMap coreTypes ∧
          SameAll ft.results rs ws ∧ (∀ o, o ≠ S.o → s3.mems o = s2.mems o) ∧
          FlatMeansAll Neatly S.E.enc (s3.mems S.o) ft.results (gs.map FV.bits) ws) := by
  have hL' : ReadableAll S.E.enc (((newCtx S) s).2.mems S.o) ft.params ptr.toNat := hL
  rcases liftValues_spilled (rest := []) hL' hkp hlp ord hord with ⟨vs, args, e, h1, -, -, h2, h3⟩ | ⟨e, -⟩
  · obtain ⟨rs, p, s2, s3, s4, g1, g2, g3, g4⟩ := canonLower_after (fs := [.u32 ptr]) G hL.known hkr hlr e h
    refine ⟨vs, args, rs, p, s2, s3, s4, g1, h1, fun t ht => ?_, h2, h3, g2, g3, g4⟩
    have h2' : MeansAll Leniently S.E.enc (s.mems S.o) ft.params ptr.toNat vs := h2
    rw [ht, MeansAll] at h2'
    obtain ⟨x, vs', rfl, -, h2'⟩ := h2'
    rw [MeansAll] at h2'
    subst h2'
    exact List.perm_singleton.1 h1
  · unfold canonLower at h
    obtain ⟨_, t1, e1, h1⟩ := SM.bind_eq_ok.1 h
    have e1' : t1 = (newCtx S s).2 := (Prod.mk.inj e1).2.symm
    subst e1'
    rw [SM.bind_get, SM.ite_app] at h1
    split at h1
    · cases h1
    rw [SM.ite_app] at h1
    split at h1
    · cases h1
    rw [show castValues [Core.fv (.u32 ptr)] = .ok [.u32 ptr] from rfl, SM.bind_ok (SM.lift_def _ _), SM.bind_err e] at h1
    cases h1

/-! ## The hypotheses are met -/

/-- Both memories as in `meansSt`. -/
def callSys : Sys Nat := { exSys with mems := fun _ => meansSt.mem }

/-- A function of a small number and a string that returns the string. -/
def callTy : FuncTy := ⟨[.s8, .string], [.string]⟩

/-- It returns the pair that it was given. -/
def callFn (xs : List Core) : SM (Sys Nat) (Option (List Core)) := pure (some (xs.drop 1))

theorem call_liftable : LiftableAll exA.E.enc (callSys.mems exA.o) callTy.params [.u32 0xABCDEFFF, .u32 32, .u32 6] := by
  refine ⟨by decide, ?_, by decide, by decide, by decide, ?_⟩
  · simp [callTy, Plain, Wf]
  · simp only [callTy, FlatOrderlyAll, FlatOrderly, coreTypes, List.map_cons, List.map_nil, List.length_singleton,
      List.length_cons, List.length_nil, List.take_succ_cons, List.take_zero, List.drop_succ_cons, List.drop_zero]
    refine ⟨trivial, ?_, trivial⟩
    intro p n h
    injection h with h1 h
    injection h with h2 h
    subst h1 h2
    decide

theorem call_means : FlatMeansAll Exactly exA.E.enc (callSys.mems exA.o) callTy.params
    ([FV.u32 0xABCDEFFF, .u32 32, .u32 6].map FV.bits) [.s8 0xFF, .str "é😀"] := by
  simp only [callTy, FlatMeansAll, FlatMeans, coreTypes, List.map_cons, List.map_nil, List.length_singleton,
    List.length_cons, List.length_nil, List.take_succ_cons, List.take_zero, List.drop_succ_cons, List.drop_zero]
  refine ⟨_, _, rfl, ⟨_, rfl, congrArg Val.s8 (by decide), False.elim⟩, _, _, rfl,
    ⟨_, _, rfl, ⟨_, rfl, by decide, by decide, ?_⟩, False.elim⟩, rfl⟩
  rw [show bytesAt _ _ _ = [0xC3, 0xA9, 0xF0, 0x9F, 0x98, 0x80] by decide]
  exact writes_utf8

theorem call_sends (enc : String) (h : enc = "utf-8" ∨ enc = "utf-16") :
    Sends enc callTy.params [.s8 0xFF, .str "é😀"] := by
  refine .cons (by simp [Wf]) (by simp [Plain]) ⟨by simp [HasType], by simp [ListsFit], by simp [StringsFit]⟩
    (.cons (by simp [Wf]) (by simp [Plain]) ⟨by simp [HasType], by simp [ListsFit], ?_⟩ .nil)
  rw [StringsFit]
  intro s hs
  injection hs with hs
  subst hs
  rcases h with rfl | rfl
  · exact ⟨by decide, fun h => absurd h (by decide)⟩
  · exact ⟨by decide, fun h => absurd h (by decide)⟩

/-- The hypotheses of `component_call_means_partial`, so of the other two: the caller uses utf-8, the callee utf-16. The
call succeeds, and the caller gets the string at 64. -/
example : LiftableAll exA.E.enc (callSys.mems exA.o) callTy.params [.u32 0xABCDEFFF, .u32 32, .u32 6] ∧
    FlatMeansAll Exactly exA.E.enc (callSys.mems exA.o) callTy.params
      ([FV.u32 0xABCDEFFF, .u32 32, .u32 6].map FV.bits) [.s8 0xFF, .str "é😀"] ∧
    Sends exB.E.enc callTy.params [.s8 0xFF, .str "é😀"] ∧ GoodAlloc exB.E (fun h x => x < h) ∧
    GoodAlloc exA.E (fun h x => x < h) ∧ exB.post = none ∧
    flattenTypes callTy.params = .ok [.u32, .u32, .u32] ∧ flattenTypes callTy.results = .ok [.u32, .u32] ∧
    (canonLower exA id (fun xs => canonLift exB id callFn callTy xs 16 16) false callTy
      ([FV.u32 0xABCDEFFF, .u32 32, .u32 6].map .fv) 16 16 callSys).1 = .ok ([FV.u32 64, .u32 6].map .fv) :=
  ⟨call_liftable, call_means, call_sends _ (.inr rfl),
    ⟨(bump_good "utf-16").keeps, (bump_good "utf-16").grows, (bump_good "utf-16").block⟩, bump_good _, rfl, by decide,
    by decide, by rfl⟩

/-- A character that does not exist is refused. -/
example : ∃ fs : List FV, LiftableAll exA.E.enc (callSys.mems exA.o) [.char] fs ∧
    ∀ vs, ¬ FlatMeansAll Leniently exA.E.enc (callSys.mems exA.o) [.char] (fs.map FV.bits) vs := by
  refine ⟨[.u32 0xD800], ⟨by decide, by simp [Plain, Wf], by decide, by decide, by decide,
    by simp [FlatOrderlyAll, FlatOrderly]⟩, ?_⟩
  simp only [FlatMeansAll, FlatMeans, coreTypes, List.map_cons, List.map_nil, List.length_singleton,
    List.take_succ_cons, List.take_zero]
  rintro vs ⟨x, vs', -, ⟨b, hb, ⟨c, hc, -⟩, -⟩, -⟩
  injection hb with hb
  subst hb
  have h : c.toNat.isValidChar := c.valid
  rw [hc] at h
  revert h
  decide

/-- The arguments at 4: a byte and a string; more than two core values. -/
example : ReadableAll exA.E.enc (callSys.mems exA.o) [.u8, .string] (4 : U32).toNat ∧
    flattenTypes [.u8, .string] = .ok [.u32, .u32, .u32] ∧
    (canonLower exA id (fun _ => pure ([.str "é😀"], some (pure ()))) false ⟨[.u8, .string], [.string]⟩
      [.fv (.u32 4)] 2 16 callSys).1 = .ok ([FV.u32 64, .u32 6].map .fv) := by
  refine ⟨⟨by decide, by simp [Plain, Wf], by decide, by decide, by decide, ?_⟩, by decide, by rfl⟩
  simp only [fieldsFrom, Orderly, OrderlyFields]
  decide

end Verif.Abi
