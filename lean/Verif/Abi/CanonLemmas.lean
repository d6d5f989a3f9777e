import Verif.Abi.FlagsKept
import Verif.Abi.NormLemmas
import Verif.Abi.FlatProps

/-!
# Lemmas about component calls
-/

namespace Verif.Abi
open Spec
open Handles (upd)

variable {σ : Type}

theorem Sys.put_mems (s : Sys σ) (o : Nat) (t : St σ) : (s.put o t).mems o = t.mem := by simp [Sys.put]
theorem Sys.put_other (s : Sys σ) {o o' : Nat} (t : St σ) (h : o' ≠ o) : (s.put o t).mems o' = s.mems o' :=
  Handles.upd_other _ _ h
theorem Sys.put_heaps (s : Sys σ) (o : Nat) (t : St σ) : (s.put o t).heaps o = t.heap := by simp [Sys.put]
theorem Sys.put_heaps_other (s : Sys σ) {o o' : Nat} (t : St σ) (h : o' ≠ o) : (s.put o t).heaps o' = s.heaps o' :=
  Handles.upd_other _ _ h

theorem upd_self {α β : Type} [DecidableEq α] (f : α → β) (a : α) : upd f a (f a) = f := by
  funext x
  unfold upd
  split
  · rename_i h; rw [h]
  · rfl

theorem Sys.put_view (s : Sys σ) (o : Nat) : s.put o (s.view o) = s := by
  unfold Sys.put Sys.view
  simp only [upd_self]

theorem inMem_ok {α : Type} {o : Nat} {m : SM (St σ) α} {s : Sys σ} {a : α} {t : St σ} (h : m (s.view o) = (.ok a, t)) :
    inMem o m s = (.ok a, s.put o t) := by unfold inMem; rw [h]

theorem withIter_ok {α : Type} {o : Nat} {it it' : Iter} {m : SM (LSt σ) α} {s : Sys σ} {a : α} {t : St σ}
    (h : m ⟨s.view o, it⟩ = (.ok a, ⟨t, it'⟩)) : withIter o it m s = (.ok (a, it'), s.put o t) := by
  unfold withIter; rw [h]

theorem withIter_inv {α : Type} {o : Nat} {it : Iter} {m : SM (LSt σ) α} {s s' : Sys σ} {x : α × Iter}
    (h : withIter o it m s = (.ok x, s')) : ∃ t, m ⟨s.view o, it⟩ = (.ok x.1, ⟨t, x.2⟩) ∧ s' = s.put o t := by
  unfold withIter at h
  rcases e : m ⟨s.view o, it⟩ with ⟨r, t⟩
  rw [e] at h
  cases r with
  | ok a =>
    simp only [Prod.mk.injEq, Res.ok.injEq] at h
    obtain ⟨h1, h2⟩ := h
    subst h1 h2
    exact ⟨t.st, rfl, rfl⟩
  | err => cases h
  | panic => cases h
  | diverge => cases h

theorem castValues_fv : (fs : List FV) → castValues (fs.map .fv) = .ok fs
  | [] => rfl
  | f :: fs => by rw [List.map_cons, castValues, castValues_fv fs]; rfl

/-- The values that come back. -/
def normAll : List Ty → List Val → List Val
  | [], _ => []
  | _, [] => []
  | t :: ts, v :: vs => norm t v :: normAll ts vs

/-- The values can be sent: one for each type. -/
inductive Sends (enc : String) : List Ty → List Val → Prop where
  | nil : Sends enc [] []
  | cons {t v ts vs} : Wf t → Plain t → Sendable enc t v → Sends enc ts vs → Sends enc (t :: ts) (v :: vs)

theorem sends_normAll {enc : String} : {ts : List Ty} → {vs : List Val} → Sends enc ts vs →
    Sends enc ts (normAll ts vs) ∧ normAll ts (normAll ts vs) = normAll ts vs
  | _, _, .nil => ⟨.nil, rfl⟩
  | _, _, .cons hw hp hs h => by
    obtain ⟨h1, h2⟩ := sends_normAll h
    obtain ⟨h3, h4⟩ := norm_sendable enc _ _ hw hs.typed hs.lists hs.strings
    exact ⟨.cons hw hp h3 h1, by rw [normAll, normAll, h2, h4]⟩

theorem flattenTypes_cons {t : Ty} {ts : List Ty} {ks : List Kind} (h : flattenTypes (t :: ts) = .ok ks) :
    ∃ a b, flatten t = .ok a ∧ flattenTypes ts = .ok b ∧ ks = a ++ b := by
  rw [flattenTypes] at h
  obtain ⟨a, h1, h⟩ := Res.bind_eq_ok.1 h
  obtain ⟨b, h2, h⟩ := Res.bind_eq_ok.1 h
  injection h with h
  exact ⟨a, b, h1, h2, h.symm⟩

section
variable {E : Env σ} {used : σ → Nat → Prop} {R : σ → Prop}

theorem lowerEach_does (G : GoodAlloc E used)
    (hR : ∀ a n m h, (∃ p, (E.realloc a n (m, h)).1 = .ok p) ∨ R (E.realloc a n (m, h)).2.2)
    (henc : E.enc ∈ Spec.encodings) : (ts : List Ty) → (vs : List Val) → Sends E.enc ts vs →
    (∃ ks, flattenTypes ts = .ok ks) → (s : St σ) → Good s.mem →
    Does R (lowerEach E ts vs) s fun xs s' => Wrote used (fun _ => False)
      (fun s'' => ∀ it it', Feeds it xs it' → liftEach E ts ⟨s'', it⟩ = (.ok (normAll ts vs), ⟨s'', it'⟩)) s s'
  | [], _, .nil, _, s, hg => by
    unfold lowerEach
    refine .pure (.nothing hg ?_)
    intro s'' it it' hf
    cases hf
    rfl
  | t :: ts, v :: vs, .cons hw hp hs h, ⟨ks, hk⟩, s, hg => by
    obtain ⟨a, b, h1, h2, -⟩ := flattenTypes_cons hk
    unfold lowerEach
    apply Does.bind (lower_does G hR henc t v hs.typed hw (laid_of_flatten t a h1) hp hs.lists hs.strings s hg)
    intro xs s1 w1
    apply Does.bind (lowerEach_does G hR henc ts vs h ⟨b, h2⟩ s1 w1.step.good)
    intro ys s2 w2
    apply Does.pure
    refine (w1.seq w2 (fun _ h => h.elim) (fun _ h => h.elim) (fun _ h => h.elim)).imp (fun _ h => h.elim id id) ?_
    intro s'' _ _ ⟨p1, p2⟩ it it' hf
    obtain ⟨mid, f1, f2⟩ := hf.split
    rw [liftEach, normAll, SM.bind_ok (p1 it mid f1), SM.bind_ok (p2 mid it' f2)]
    rfl

end

theorem feeds_new (fs : List FV) : Feeds (newIterator fs) fs ⟨fs, fs.length, []⟩ := by
  have := feeds_base fs [] []
  simpa [newIterator] using this

/-- The flat values stand for these values in the memory behind the options `o`. -/
def Holds (E : Env σ) (o : Nat) (s : Sys σ) (ts : List Ty) (fs : List FV) (vs : List Val) : Prop :=
  ∀ st : St σ, st.mem = s.mems o → liftEach E ts ⟨st, newIterator fs⟩ = (.ok vs, ⟨st, ⟨fs, fs.length, []⟩⟩)

/-- Lowering in one memory of a system. -/
theorem lowerValues_does {E : Env σ} {used : σ → Nat → Prop} {R : σ → Prop} (G : GoodAlloc E used)
    (hR : ∀ a n m h, (∃ p, (E.realloc a n (m, h)).1 = .ok p) ∨ R (E.realloc a n (m, h)).2.2)
    (henc : E.enc ∈ Spec.encodings) (o maxFlat : Nat) (ts : List Ty) (vs : List Val) (hv : Sends E.enc ts vs)
    (ks : List Kind) (hk : flattenTypes ts = .ok ks) (hl : ks.length ≤ maxFlat) (out : Option Iter) (s : Sys σ)
    (hg : Good (s.mems o)) :
    (∃ fs s', lowerValues E o maxFlat vs ts out s = (.ok (fs.map .fv), s') ∧ Holds E o s' ts fs (normAll ts vs) ∧
      Good (s'.mems o) ∧ (∀ o', o' ≠ o → s'.mems o' = s.mems o' ∧ s'.heaps o' = s.heaps o')) ∨
    ((∀ r, (lowerValues E o maxFlat vs ts out s).1 ≠ .ok r) ∧ R ((lowerValues E o maxFlat vs ts out s).2.heaps o)) := by
  have e0 : lowerValues E o maxFlat vs ts out s =
      ((inMem o (lowerEach E ts vs) >>= fun fs => pure (fs.map .fv)) : SM (Sys σ) (List Core)) s := by
    unfold lowerValues
    rw [hk, SM.bind_ok (SM.lift_def _ _), SM.ite_app, if_pos hl]
  rw [e0]
  rcases lowerEach_does G hR henc ts vs hv ⟨ks, hk⟩ (s.view o) hg with ⟨fs, t, e, w⟩ | ⟨n, r⟩
  · left
    refine ⟨fs, s.put o t, ?_, ?_, ?_, ?_⟩
    · rw [SM.bind_ok (inMem_ok e)]; rfl
    · intro st hst
      rw [Sys.put_mems] at hst
      obtain ⟨F, -, hF⟩ := w.foot
      exact hF st (Nat.le_of_eq (by rw [hst])) (by rw [hst]; exact w.step.good) (fun _ _ => by rw [hst])
        _ _ (feeds_new fs)
    · rw [Sys.put_mems]; exact w.step.good
    · intro o' ho
      exact ⟨s.put_other t ho, s.put_heaps_other t ho⟩
  · right
    rcases e : lowerEach E ts vs (s.view o) with ⟨x, t⟩
    rw [e] at n r
    have e1 : inMem o (lowerEach E ts vs) s = (x, s.put o t) := by unfold inMem; rw [e]
    cases x with
    | ok a => exact absurd rfl (n a)
    | err => rw [SM.bind_err e1]; exact ⟨by simp, by rw [Sys.put_heaps]; exact r⟩
    | panic => rw [SM.bind_panic e1]; exact ⟨by simp, by rw [Sys.put_heaps]; exact r⟩
    | diverge => rw [SM.bind_diverge e1]; exact ⟨by simp, by rw [Sys.put_heaps]; exact r⟩

/-- Lifting what the flat values stand for. -/
theorem liftValues_holds {E : Env σ} {o maxFlat : Nat} {ts : List Ty} {fs : List FV} {vs : List Val} {s : Sys σ}
    (h : Holds E o s ts fs vs) {ks : List Kind} (hk : flattenTypes ts = .ok ks) (hl : ks.length ≤ maxFlat)
    (ord : List (String × Val) → List (String × Val)) :
    withIter o (newIterator fs) (liftValues E ord maxFlat ts) s = (.ok (vs, ⟨fs, fs.length, []⟩), s) := by
  rw [withIter_ok (t := s.view o) (it' := ⟨fs, fs.length, []⟩) (a := vs), Sys.put_view]
  unfold liftValues
  rw [hk, SM.bind_ok (SM.lift_def _ _), SM.ite_app, if_pos hl]
  exact h _ rfl

/-- The system with a new context, and the instance not allowed to leave. -/
def Sys.entered (s : Sys σ) (S : Side σ) : Sys σ := ((setLeave S false) ((newCtx S) s).2).2

theorem canonLift_eq (S : Side σ) (ord : List (String × Val) → List (String × Val))
    (callee : List Core → SM (Sys σ) (Option (List Core))) (ft : FuncTy) (args : List Val) (mp mr : Nat) (s : Sys σ)
    (he : s.world.mayEnter S.E.inst = true) (hl : s.world.mayLeave S.E.inst = true) :
    canonLift S ord callee ft args mp mr s = (do
      let flatArgs ← lowerValues S.E S.o mp args ft.params none
      setLeave S true
      match ← callee flatArgs with
      | none => SM.fail
      | some results => do
        let vs ← SM.lift (castValues results)
        let r ← withIter S.o (newIterator vs) (liftValues S.E ord mr ft.results)
        pure (r.1, some (postResult S)) : SM (Sys σ) (List Val × Option (SM (Sys σ) Unit))) (s.entered S) := by
  unfold canonLift
  rw [SM.bind_get, he, hl]
  rfl

/-- The outcome of the identity callee. -/
theorem canonLift_does {used : σ → Nat → Prop} {R : σ → Prop} (S : Side σ) (G : GoodAlloc S.E used)
    (hR : ∀ a n m h, (∃ p, (S.E.realloc a n (m, h)).1 = .ok p) ∨ R (S.E.realloc a n (m, h)).2.2)
    (henc : S.E.enc ∈ Spec.encodings) (ord : List (String × Val) → List (String × Val)) (ts : List Ty) (vs : List Val)
    (hv : Sends S.E.enc ts vs) (ks : List Kind) (hk : flattenTypes ts = .ok ks) (mp mr : Nat) (hp : ks.length ≤ mp)
    (hr : ks.length ≤ mr) (s : Sys σ) (hg : Good (s.mems S.o))
    (he : s.world.mayEnter S.E.inst = true) (hl : s.world.mayLeave S.E.inst = true) :
    (∃ s', canonLift S ord (fun xs => pure (some xs)) ⟨ts, ts⟩ vs mp mr s =
        (.ok (normAll ts vs, some (postResult S)), s') ∧
      ∀ o', o' ≠ S.o → s'.mems o' = s.mems o' ∧ s'.heaps o' = s.heaps o') ∨
    ((∀ r, (canonLift S ord (fun xs => pure (some xs)) ⟨ts, ts⟩ vs mp mr s).1 ≠ .ok r) ∧
      R ((canonLift S ord (fun xs => pure (some xs)) ⟨ts, ts⟩ vs mp mr s).2.heaps S.o)) := by
  rw [canonLift_eq S ord _ _ vs mp mr s he hl]
  rcases lowerValues_does G hR henc S.o mp ts vs hv ks hk hp none (s.entered S) hg with ⟨fs, s1, e, h1, h2, h3⟩ | ⟨n, r⟩
  · left
    refine ⟨((setLeave S true) s1).2, ?_, ?_⟩
    · rw [SM.bind_ok e, SM.bind_ok (show setLeave S true s1 = (.ok (), (setLeave S true s1).2) from rfl), SM.bind_ok (SM.pure_def _ _)]
      simp only
      rw [castValues_fv, SM.bind_ok (SM.lift_def _ _)]
      have h4 : Holds S.E S.o ((setLeave S true) s1).2 ts fs (normAll ts vs) := h1
      rw [SM.bind_ok (liftValues_holds h4 hk hr ord)]
      rfl
    · intro o' ho
      exact h3 o' ho
  · right
    rcases e : lowerValues S.E S.o mp vs ts none (s.entered S) with ⟨x, t⟩
    rw [e] at n r
    cases x with
    | ok a => exact absurd rfl (n a)
    | err => rw [SM.bind_err e]; exact ⟨by simp, r⟩
    | panic => rw [SM.bind_panic e]; exact ⟨by simp, r⟩
    | diverge => rw [SM.bind_diverge e]; exact ⟨by simp, r⟩

theorem exitIgnored_ok (S : Side σ) (s : Sys σ) : ∃ w, exitIgnored S s = (.ok (), { s with world := w }) := by
  unfold exitIgnored Handles.exitCall
  by_cases h : (s.world.ctxs S.E.cx).borrowCount ≠ 0
  · rw [if_pos h]; exact ⟨_, rfl⟩
  · rw [if_neg h]; exact ⟨_, rfl⟩

end Verif.Abi
