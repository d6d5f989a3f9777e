import Verif.Abi.IsolationLemmas
import Verif.Abi.CallMeansProps
import Verif.Abi.FitProps
import Verif.Abi.AlikeProps

/-!
# C128: a call writes only where it may, whatever its outcome
-/

namespace Verif.Abi
open Spec

variable {σ : Type}

/-- A step after which the memories are the same. -/
theorem moves_get {R : Sys σ → Sys σ → Prop} {α : Type} {f : Sys σ → SM (Sys σ) α} (h : ∀ s, Moves R (f s)) :
    Moves R (SM.get >>= f) := fun s => by rw [SM.bind_get]; exact h s s

theorem exitIgnored_same (S : Side σ) : Moves SameMemories (exitIgnored S) := by
  intro s
  unfold exitIgnored
  rcases Handles.exitCall S.E.cx s.world with ⟨r, w⟩
  cases r <;> exact ⟨rfl, rfl⟩

/-- What `CanonLift` does with what the core function returned. -/
theorem lift_results_same (S : Side σ) (ord : List (String × Val) → List (String × Val)) (ts : List Ty) (mr : Nat)
    (rs : Option (List Core)) : Moves SameMemories (match rs with
      | none => SM.fail
      | some results => do
        let vs ← SM.lift (castValues results)
        let r ← withIter S.o (newIterator vs) (liftValues S.E ord mr ts)
        pure (r.1, some (postResult S)) : SM (Sys σ) (List Val × Option (SM (Sys σ) Unit))) := by
  have ht : ∀ a b c : Sys σ, SameMemories a b → SameMemories b c → SameMemories a c := fun _ _ _ h1 h2 => h1.trans h2
  cases rs with
  | none => exact fun s => .refl s
  | some results =>
    exact moves_bind ht (moves_res (fun s => .refl s) _) fun vs =>
      moves_bind ht (withIter_same S.o _ (liftValues_tame S.E ord mr ts)) fun r s => .refl s

/-- **C128, the called side.** Whatever comes of it, `CanonLift` runs the core function once in a state `s1`, on core
values `fs`, or does not run it at all. Before that, no memory changes but that of its own instance, and of that memory no
byte that was in use, if the lists in the arguments fit. Afterwards nothing changes in any memory. -/
theorem canonLift_isolated (S : Side σ) (ord : List (String × Val) → List (String × Val))
    (callee : List Core → SM (Sys σ) (Option (List Core))) (ft : FuncTy) (args : List Val) (mp mr : Nat) (s : Sys σ) :
    ∃ s1, Elsewhere S.o s s1 ∧
      (∀ used, GoodAlloc S.E used → (s.mems S.o).len < 2 ^ 32 ∧ (s.mems S.o).len ≤ (s.mems S.o).cap →
        FitEach ft.params args → Kept used S.o s s1) ∧
      ((∀ g, canonLift S ord g ft args mp mr s = canonLift S ord callee ft args mp mr s) ∧
          s1 = (canonLift S ord callee ft args mp mr s).2 ∨
        ∃ fs, OnlyCalls (fun g => canonLift S ord g ft args mp mr s) callee fs s1 ∧
          SameMemories (callee fs s1).2 (canonLift S ord callee ft args mp mr s).2) := by
  by_cases ha : Allowed s S
  swap
  · refine ⟨s, (SameMemories.refl s).elsewhere _, fun _ _ _ _ => (SameMemories.refl s).kept _ _, .inl ⟨fun g => ?_, ?_⟩⟩
    · rw [canonLift_forbidden S ord _ ft args mp mr s ha, canonLift_forbidden S ord _ ft args mp mr s ha]
    · rw [canonLift_forbidden S ord _ ft args mp mr s ha]
  have h1 := lowerValues_elsewhere S.E S.o mp args ft.params none (s.entered S)
  have h2 := fun used (G : GoodAlloc S.E used) hf => lowerValues_kept G S.o mp args ft.params hf none (s.entered S)
  have he : SameMemories s (s.entered S) := ⟨rfl, rfl⟩
  unfold OnlyCalls
  simp only [canonLift_eq S ord _ ft args mp mr s ha.1 ha.2]
  rcases e : lowerValues S.E S.o mp args ft.params none (s.entered S) with ⟨r, t⟩
  rw [e] at h1 h2
  have h3 : Elsewhere S.o s t := (he.elsewhere S.o).trans h1
  have h4 : ∀ used, GoodAlloc S.E used → Good (s.mems S.o) → FitEach ft.params args → Kept used S.o s t := fun used G g hf =>
    (he.kept used S.o).trans (h2 used G hf g).2
  have hx : SameMemories t (setLeave S true t).2 := ⟨rfl, rfl⟩
  cases r with
  | ok fs =>
    refine ⟨(setLeave S true t).2, h3.trans (hx.elsewhere _), fun u G g hf => (h4 u G g hf).trans (hx.kept _ _), .inr ⟨fs, ?_, ?_⟩⟩
    · intro g hg
      simp only [SM.bind_ok e, SM.bind_ok (show setLeave S true t = (.ok (), (setLeave S true t).2) from rfl)]
      rw [SM.bind_def, hg, ← SM.bind_def]
    · rw [SM.bind_ok e, SM.bind_ok (show setLeave S true t = (.ok (), (setLeave S true t).2) from rfl), SM.bind_def]
      rcases callee fs (setLeave S true t).2 with ⟨r, u⟩
      cases r with
      | ok rs => exact lift_results_same S ord ft.results mr rs u
      | err => exact .refl _
      | panic => exact .refl _
      | diverge => exact .refl _
  | err => exact ⟨t, h3, h4, .inl (by simp only [SM.bind_err e, implies_true, and_self])⟩
  | panic => exact ⟨t, h3, h4, .inl (by simp only [SM.bind_panic e, implies_true, and_self])⟩
  | diverge => exact ⟨t, h3, h4, .inl (by simp only [SM.bind_diverge e, implies_true, and_self])⟩

/-- What `CanonLower` does once the function has returned. -/
def afterCall (S : Side σ) (imp : Bool) (ts : List Ty) (mr : Nat) (it : Iter)
    (r : List Val × Option (SM (Sys σ) Unit)) : SM (Sys σ) (List Core) := do
  setLeave S false
  let flat ← lowerValues S.E S.o mr r.1 ts (some it)
  setLeave S true
  match r.2 with
  | none => SM.crash
  | some post => do
    post
    exitIgnored S
    if imp then setEnter S true else pure ()
    pure flat

theorem afterCall_isolated (S : Side σ) (imp : Bool) (ts : List Ty)
    (mr : Nat) (it : Iter) (rs : List Val) (post : Option (SM (Sys σ) Unit)) (s : Sys σ) :
    ∃ s3, Elsewhere S.o s s3 ∧ (∀ used, GoodAlloc S.E used → Good (s.mems S.o) → FitEach ts rs → Kept used S.o s s3) ∧
      (SameMemories s3 (afterCall S imp ts mr it (rs, post) s).2 ∨
        ∃ p, post = some p ∧ SameMemories (p s3).2 (afterCall S imp ts mr it (rs, post) s).2) := by
  have he : SameMemories s (setLeave S false s).2 := ⟨rfl, rfl⟩
  have h1 := lowerValues_elsewhere S.E S.o mr rs ts (some it) (setLeave S false s).2
  have h2 := fun used (G : GoodAlloc S.E used) hf => lowerValues_kept G S.o mr rs ts hf (some it) (setLeave S false s).2
  unfold afterCall
  rw [SM.bind_ok (show setLeave S false s = (.ok (), (setLeave S false s).2) from rfl)]
  rcases e : lowerValues S.E S.o mr rs ts (some it) (setLeave S false s).2 with ⟨r, t⟩
  rw [e] at h1 h2
  have h3 : Elsewhere S.o s t := (he.elsewhere S.o).trans h1
  have h4 : ∀ used, GoodAlloc S.E used → Good (s.mems S.o) → FitEach ts rs → Kept used S.o s t := fun used G g hf =>
    (he.kept used S.o).trans (h2 used G hf g).2
  have hx : SameMemories t (setLeave S true t).2 := ⟨rfl, rfl⟩
  cases r with
  | ok fs =>
    rw [SM.bind_ok e, SM.bind_ok (show setLeave S true t = (.ok (), (setLeave S true t).2) from rfl)]
    refine ⟨(setLeave S true t).2, h3.trans (hx.elsewhere _), fun u G g hf => (h4 u G g hf).trans (hx.kept _ _), ?_⟩
    cases post with
    | none => exact .inl (.refl _)
    | some p =>
      refine .inr ⟨p, rfl, ?_⟩
      show SameMemories _ ((p >>= fun _ => _ : SM (Sys σ) (List Core)) _).2
      rw [SM.bind_def]
      rcases p (setLeave S true t).2 with ⟨r, u⟩
      have ht : ∀ a b c : Sys σ, SameMemories a b → SameMemories b c → SameMemories a c := fun _ _ _ h1 h2 => h1.trans h2
      cases r with
      | ok _ =>
        have h : Moves SameMemories (exitIgnored S >>= fun _ =>
            (if imp = true then setEnter S true else pure ()) >>= fun _ => (pure fs : SM (Sys σ) (List Core))) :=
          moves_bind ht (exitIgnored_same S) fun _ =>
            moves_bind ht (.ite (fun s => ⟨rfl, rfl⟩) (fun s => .refl s)) fun _ s => .refl s
        cases imp <;> exact h u
      | err => exact .refl _
      | panic => exact .refl _
      | diverge => exact .refl _
  | err => rw [SM.bind_err e]; exact ⟨t, h3, h4, .inl (.refl _)⟩
  | panic => rw [SM.bind_panic e]; exact ⟨t, h3, h4, .inl (.refl _)⟩
  | diverge => rw [SM.bind_diverge e]; exact ⟨t, h3, h4, .inl (.refl _)⟩

/-- **C128, the calling side.** Whatever comes of it, `CanonLower` runs the function once in a state `s1`, on values
`args`, or does not run it at all, and before that nothing changes in any memory. If the function returns `rs` and a
post-return function, then from there to the post-return function no memory changes but that of the caller's instance, and
of that memory no byte that was in use, if the lists in `rs` fit. Afterwards nothing changes in any memory. -/
theorem canonLower_isolated (S : Side σ) (ord : List (String × Val) → List (String × Val))
    (callee : List Val → SM (Sys σ) (List Val × Option (SM (Sys σ) Unit))) (imp : Bool) (ft : FuncTy)
    (flat : List Core) (mp mr : Nat) (s : Sys σ) :
    ∃ s1, SameMemories s s1 ∧
      ((∀ g, canonLower S ord g imp ft flat mp mr s = canonLower S ord callee imp ft flat mp mr s) ∧
          s1 = (canonLower S ord callee imp ft flat mp mr s).2 ∨
        ∃ args, OnlyCalls (fun g => canonLower S ord g imp ft flat mp mr s) callee args s1 ∧
          ((∀ r, (callee args s1).1 ≠ .ok r) ∧
              (canonLower S ord callee imp ft flat mp mr s).2 = (callee args s1).2 ∨
            ∃ rs post s2 s3, callee args s1 = (.ok (rs, post), s2) ∧ Elsewhere S.o s2 s3 ∧
              (∀ used, GoodAlloc S.E used → (s2.mems S.o).len < 2 ^ 32 ∧ (s2.mems S.o).len ≤ (s2.mems S.o).cap →
                FitEach ft.results rs → Kept used S.o s2 s3) ∧
              (SameMemories s3 (canonLower S ord callee imp ft flat mp mr s).2 ∨
                ∃ p, post = some p ∧ SameMemories (p s3).2 (canonLower S ord callee imp ft flat mp mr s).2))) := by
  have e0 : ∀ g, canonLower S ord g imp ft flat mp mr s =
      (if s.world.mayLeave S.E.inst = false then SM.fail else if s.world.mayEnter S.E.inst = false then SM.fail else do
        let vs ← SM.lift (castValues flat)
        let args ← withIter S.o (newIterator vs) (liftValues S.E ord mp ft.params)
        let r ← g args.1
        afterCall S imp ft.results mr args.2 r : SM (Sys σ) (List Core)) (newCtx S s).2 := fun g => rfl
  have hn : SameMemories s (newCtx S s).2 := ⟨rfl, rfl⟩
  unfold OnlyCalls
  simp only [e0]
  by_cases hl : s.world.mayLeave S.E.inst = false
  · simp only [if_pos hl]
    exact ⟨_, hn, .inl ⟨fun _ => trivial, rfl⟩⟩
  by_cases he : s.world.mayEnter S.E.inst = false
  · simp only [if_neg hl, if_pos he]
    exact ⟨_, hn, .inl ⟨fun _ => trivial, rfl⟩⟩
  simp only [if_neg hl, if_neg he]
  cases hc : castValues flat with
  | ok vs =>
    simp only [SM.bind_ok (SM.lift_def (Res.ok vs) (newCtx S s).2)]
    have hw := withIter_same S.o (newIterator vs) (liftValues_tame S.E ord mp ft.params) (newCtx S s).2
    rcases e : withIter S.o (newIterator vs) (liftValues S.E ord mp ft.params) (newCtx S s).2 with ⟨r, t⟩
    rw [e] at hw
    cases r with
    | ok args =>
      simp only [SM.bind_ok e]
      refine ⟨t, hn.trans hw, .inr ⟨args.1, fun g hg => by rw [SM.bind_def, hg, ← SM.bind_def], ?_⟩⟩
      rcases ec : callee args.1 t with ⟨r, u⟩
      cases r with
      | ok r =>
        obtain ⟨s3, k1, k2, k3⟩ := afterCall_isolated S imp ft.results mr args.2 r.1 r.2 u
        rw [SM.bind_ok ec]
        exact .inr ⟨r.1, r.2, u, s3, rfl, k1, k2, k3⟩
      | err => rw [SM.bind_err ec]; exact .inl ⟨by simp, rfl⟩
      | panic => rw [SM.bind_panic ec]; exact .inl ⟨by simp, rfl⟩
      | diverge => rw [SM.bind_diverge ec]; exact .inl ⟨by simp, rfl⟩
    | err => simp only [SM.bind_err e]; exact ⟨_, hn.trans hw, .inl ⟨fun _ => trivial, rfl⟩⟩
    | panic => simp only [SM.bind_panic e]; exact ⟨_, hn.trans hw, .inl ⟨fun _ => trivial, rfl⟩⟩
    | diverge => simp only [SM.bind_diverge e]; exact ⟨_, hn.trans hw, .inl ⟨fun _ => trivial, rfl⟩⟩
  | err => exact ⟨_, hn, .inl ⟨fun _ => rfl, rfl⟩⟩
  | panic => exact ⟨_, hn, .inl ⟨fun _ => rfl, rfl⟩⟩
  | diverge => exact ⟨_, hn, .inl ⟨fun _ => rfl, rfl⟩⟩

/-! ## A call from one component to another -/

theorem Spec.Elsewhere.kept {used : σ → Nat → Prop} {o k : Nat} {s t : Sys σ} (h : Elsewhere o s t) (hk : k ≠ o) :
    Kept used k s t :=
  ⟨fun x hx => by rw [h.1 k hk, h.2 k hk]; exact ⟨hx, rfl⟩, by rw [h.1 k hk]⟩

theorem liftEach_fits {E : Env σ} {c : Nat} : (ts : List Ty) → (∀ t ∈ ts, Named t ∧ Roomy c t) → (s s' : LSt σ) →
    (vs : List Val) → s.st.mem.cap = c → liftEach E ts s = (.ok vs, s') → FitEach ts vs
  | [], _, s, s', vs, _, h => fun i t v h1 _ => by simp at h1
  | t :: ts, ht, s, s', vs, hc, h => by
    rw [liftEach] at h
    obtain ⟨x, s1, h1, g1⟩ := SM.bind_eq_ok.1 h
    obtain ⟨xs, s2, h2, g2⟩ := SM.bind_eq_ok.1 g1
    cases g2
    have ih := liftEach_fits ts (fun t h => ht t (by simp [h])) s1 _ xs (by rw [lift_mem h1, hc]) h2
    rintro (_ | i) t' v' e1 e2
    · cases e1
      cases e2
      have ht := ht t (by simp)
      exact (liftFlat_fits (Q := False) (enc := "") False.elim t ht.1 ht.2 _ _ _ hc h1).1
    · exact ih i t' v' e1 e2

theorem withIter_returns {α : Type} {o : Nat} {it : Iter} {m : SM (LSt σ) α} {s s' : Sys σ} {r : α × Iter}
    (h : withIter o it m s = (.ok r, s')) : ∃ t, m ⟨s.view o, it⟩ = (.ok r.1, t) := by
  unfold withIter at h
  split at h
  · rename_i a t e
    obtain ⟨h1, -⟩ := Prod.mk.inj h
    cases h1
    exact ⟨t, e⟩
  all_goals cases h

/-- What is known when `CanonLift` succeeds: the function to be called afterwards is its own, and the results were lifted
from what the core function left. -/
theorem canonLift_returns (S : Side σ) (ord : List (String × Val) → List (String × Val))
    (f : List Core → SM (Sys σ) (Option (List Core))) (ft : FuncTy) (args : List Val) (mp mr : Nat) (s s' : Sys σ)
    (rs : List Val) (post : Option (SM (Sys σ) Unit)) (h : canonLift S ord f ft args mp mr s = (.ok (rs, post), s')) :
    post = some (postResult S) ∧ ∃ fs u ds u' it t, f fs u = (.ok (some ds), u') ∧
      liftValues S.E ord mr ft.results ⟨u'.view S.o, it⟩ = (.ok rs, t) := by
  by_cases ha : Allowed s S
  swap
  · rw [canonLift_forbidden S ord _ ft args mp mr s ha] at h; cases h
  rw [canonLift_eq S ord _ ft args mp mr s ha.1 ha.2] at h
  obtain ⟨xs, t3, e3, h3⟩ := SM.bind_eq_ok.1 h
  obtain ⟨_, t4, e4, h4⟩ := SM.bind_eq_ok.1 h3
  obtain ⟨ds, t5, e5, h5⟩ := SM.bind_eq_ok.1 h4
  clear h h3 h4
  cases ds with
  | none => cases h5
  | some ds =>
    simp only at h5
    obtain ⟨gs, t6, e6, h6⟩ := SM.bind_eq_ok.1 h5
    obtain ⟨q, t7, e7, h7⟩ := SM.bind_eq_ok.1 h6
    obtain rfl := (Prod.mk.inj e6).2
    obtain ⟨t, et⟩ := withIter_returns e7
    cases h7
    exact ⟨rfl, xs, t4, ds, t5, _, t, e5, et⟩

theorem postResult_elsewhere (S : Side σ) (h : ∀ p, S.post = some p → Moves (Elsewhere S.o) p) :
    Moves (Elsewhere S.o) (postResult S) := by
  unfold postResult
  cases e : S.post with
  | none => exact fun s => (exitIgnored_same S s).elsewhere _
  | some p => exact moves_bind (fun _ _ _ h1 h2 => h1.trans h2) (h p e) fun _ s => (exitIgnored_same S s).elsewhere _

/-- **C128, a call from one component to another.** If the core function called and the post-return function of its side
touch no memory but that of their own instance, then, whatever comes of the call, the memories of all other instances but
the caller's are as they were. If moreover the results are passed flat and the called side's memory has at most `c` bytes
when its function returns, every byte of the caller's memory that was in use is as it was. -/
theorem component_call_isolated (A B : Side σ) (hab : A.o ≠ B.o)
    (ord ord' : List (String × Val) → List (String × Val)) (f : List Core → SM (Sys σ) (Option (List Core)))
    (hf : ∀ fs u, Elsewhere B.o u (f fs u).2) (hp : ∀ p, B.post = some p → ∀ u, Elsewhere B.o u (p u).2)
    (imp : Bool) (ft : FuncTy) (flat : List Core) (mpA mrA mpB mrB : Nat) (s : Sys σ) :
    let call := canonLower A ord (fun xs => canonLift B ord' f ft xs mpB mrB) imp ft flat mpA mrA s
    (∀ k, k ≠ A.o → k ≠ B.o → call.2.mems k = s.mems k ∧ call.2.heaps k = s.heaps k) ∧
    ∀ (used : σ → Nat → Prop) (c : Nat) (ks : List Kind), GoodAlloc A.E used →
      (s.mems A.o).len < 2 ^ 32 ∧ (s.mems A.o).len ≤ (s.mems A.o).cap → flattenTypes ft.results = .ok ks → ks.length ≤ mrB → (∀ t ∈ ft.results, Named t ∧ Roomy c t) →
      (∀ fs u rs u', f fs u = (.ok rs, u') → (u'.mems B.o).cap ≤ c) → Kept used A.o s call.2 := by
  intro call
  have hB : ∀ xs u, Elsewhere B.o u (canonLift B ord' f ft xs mpB mrB u).2 := by
    intro xs u
    obtain ⟨u1, h1, -, h2 | ⟨fs, -, h3⟩⟩ := canonLift_isolated B ord' f ft xs mpB mrB u
    · rw [← h2.2]; exact h1
    · exact (h1.trans (hf fs u1)).trans (h3.elsewhere _)
  have hP := postResult_elsewhere B hp
  obtain ⟨s1, h1, h2⟩ := canonLower_isolated A ord (fun xs => canonLift B ord' f ft xs mpB mrB) imp ft flat mpA mrA s
  rcases h2 with ⟨-, h2⟩ | ⟨args, -, ⟨-, h3⟩ | ⟨rs, post, s2, s3, e, h4, h5, h6⟩⟩
  · have h1' : SameMemories s call.2 := by rw [← h2]; exact h1
    exact ⟨fun k _ _ => ⟨by rw [h1'.1], by rw [h1'.2]⟩, fun _ _ _ _ _ _ _ _ _ => h1'.kept _ _⟩
  · have h1' : Elsewhere B.o s call.2 := (h1.elsewhere B.o).trans (by rw [show call.2 = _ from h3]; exact hB args s1)
    exact ⟨fun k _ hk => ⟨h1'.1 k hk, h1'.2 k hk⟩, fun _ _ _ _ _ _ _ _ _ => h1'.kept hab⟩
  · have hs2 : Elsewhere B.o s s2 := (h1.elsewhere B.o).trans (by
      have := hB args s1
      rw [show canonLift B ord' f ft args mpB mrB s1 = _ from e] at this
      exact this)
    obtain ⟨rfl, fs, u, ds, u', it, t, ef, el⟩ := canonLift_returns B ord' f ft args mpB mrB s1 s2 rs post e
    have hs3 : Elsewhere B.o s3 call.2 := by
      rcases h6 with h6 | ⟨p, ep, h6⟩
      · exact h6.elsewhere _
      · cases ep
        exact (hP s3).trans (h6.elsewhere _)
    refine ⟨fun k ka kb => ?_, fun used c ks G hg hk hl hr hc => ?_⟩
    · rw [hs3.1 k kb, hs3.2 k kb, h4.1 k ka, h4.2 k ka]
      exact ⟨hs2.1 k kb, hs2.2 k kb⟩
    · have hfit : FitEach ft.results rs := by
        unfold liftValues at el
        rw [hk, SM.bind_ok (SM.lift_def _ _), if_pos hl] at el
        have hle := hc fs u _ u' ef
        exact liftEach_fits ft.results (fun t ht => ⟨(hr t ht).1, roomy_mono hle t (hr t ht).2⟩) _ _ rs rfl el
      exact ((hs2.kept hab).trans (h5 used G (by rw [hs2.1 A.o hab]; exact hg) hfit)).trans (hs3.kept hab)

/-! ## Examples -/

theorem exFitEach : FitEach exTys exArgs := by
  rintro (_ | _ | i) t v h1 h2
  · cases h1; cases h2; exact exFits.1
  · cases h1; cases h2; simp [ListsFit]
  · simp [exTys] at h1

/-- The conditions in `canonLift_isolated` and `canonLower_isolated` are met, and the calls succeed. -/
example : GoodAlloc exA.E (fun h x => x < h) ∧ (exSys.mems exA.o).len < 2 ^ 32 ∧
    (exSys.mems exA.o).len ≤ (exSys.mems exA.o).cap ∧ FitEach exTys exArgs ∧
    ((canonLift exA id (fun _ s => (.ok (some [.fv (.u32 7)]), s)) ⟨exTys, [.u8]⟩ exArgs 16 1 exSys).1 matches .ok _) ∧
    ((canonLower exA id (exHostReturning exArgs) false ⟨[.u8], exTys⟩ [.fv (.u32 7)] 16 16 exSys).1 matches .ok _) :=
  ⟨bump_good _, by decide, by decide, exFitEach, by decide, by decide⟩

/-- A function of a number and some bytes that returns bytes. -/
def echoTy : FuncTy := ⟨[.s8, .list .u8], [.list .u8]⟩

/-- It returns the bytes it was given, writes over a byte of its own memory, and needs a memory of at most 4096 bytes. -/
def echoFn (xs : List Core) : SM (Sys Nat) (Option (List Core)) := fun u =>
  if (u.mems 1).cap ≤ 4096 then
    (.ok (some (xs.drop 1)), { u with mems := Handles.upd u.mems 1 ((u.mems 1).write 64 [9]) })
  else (.err, u)

/-- The hypotheses of `component_call_isolated` are met by a function that writes in its memory. The call succeeds: the
bytes are copied back to the caller's 64, and the called side's byte at 64 is written over. -/
example : exA.o ≠ exB.o ∧ (∀ fs u, Elsewhere exB.o u (echoFn fs u).2) ∧ exB.post = none ∧
    flattenTypes echoTy.results = .ok [.u32, .u32] ∧ (∀ t ∈ echoTy.results, Named t ∧ Roomy 4096 t) ∧
    (∀ fs u rs u', echoFn fs u = (.ok rs, u') → (u'.mems exB.o).cap ≤ 4096) ∧
    ((canonLower exA id (fun xs => canonLift exB id echoFn echoTy xs 16 16) false echoTy
      ([FV.u32 5, .u32 32, .u32 6].map .fv) 16 16 callSys).1 matches .ok [.fv (.u32 64), .fv (.u32 6)]) ∧
    ((canonLower exA id (fun xs => canonLift exB id echoFn echoTy xs 16 16) false echoTy
      ([FV.u32 5, .u32 32, .u32 6].map .fv) 16 16 callSys).2.mems 1).data 64 = 9 := by
  refine ⟨by decide, fun fs u => ?_, rfl, by decide, ?_, fun fs u rs u' h => ?_, by decide +kernel, by decide +kernel⟩
  · unfold echoFn
    split
    · exact ⟨fun k hk => Handles.upd_other _ _ hk, fun _ _ => rfl⟩
    · exact (SameMemories.refl u).elsewhere _
  · intro t ht
    simp only [echoTy, List.mem_singleton] at ht
    subst ht
    simp only [Named, Roomy]
    exact ⟨trivial, by decide, trivial⟩
  · unfold echoFn at h
    split at h
    · rename_i hc
      rw [← (Prod.mk.inj h).2]
      show (Handles.upd u.mems 1 ((u.mems 1).write 64 [9]) 1).cap ≤ 4096
      simpa [Handles.upd] using hc
    · cases h

end Verif.Abi
