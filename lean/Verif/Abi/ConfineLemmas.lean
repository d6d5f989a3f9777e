import Verif.Abi.ConfineSpec
import Verif.Abi.BlindLemmas
import Verif.Abi.CanonProps

/-!
# Lemmas: what calls depend on
-/

namespace Verif.Abi
open Spec

variable {σ : Type} {α β : Type}

/-- Two runs side by side: the outcomes are the same and the states stay related. -/
structure Paired (R : Sys σ → Sys σ → Prop) (m : SM (Sys σ) α) : Prop where
  run : ∀ s u, R s u → (m s).1 = (m u).1 ∧ R (m s).2 (m u).2

namespace Paired
variable {R : Sys σ → Sys σ → Prop}

theorem same {m : SM (Sys σ) α} (r : Res α) (h : ∀ s, m s = (r, s)) : Paired R m := ⟨fun s u b => by
  rw [h s, h u]; exact ⟨rfl, b⟩⟩
theorem pure (a : α) : Paired R (Pure.pure a : SM (Sys σ) α) := same _ fun _ => rfl
theorem fail : Paired R (SM.fail : SM (Sys σ) α) := same _ fun _ => rfl
theorem crash : Paired R (SM.crash : SM (Sys σ) α) := same _ fun _ => rfl
theorem lift (r : Res α) : Paired R (SM.lift r : SM (Sys σ) α) := same _ fun _ => rfl
theorem ite {c : Prop} [Decidable c] {m n : SM (Sys σ) α} (h1 : Paired R m) (h2 : Paired R n) :
    Paired R (if c then m else n) := by split <;> assumption

theorem bindOn {m : SM (Sys σ) α} {f : α → SM (Sys σ) β} (Q : α → Prop) (hm : Paired R m)
    (hq : ∀ s a u, m s = (.ok a, u) → Q a) (hf : ∀ a, Q a → Paired R (f a)) : Paired R (m >>= f) := by
  refine ⟨fun s u b => ?_⟩
  obtain ⟨h1, h2⟩ := hm.run s u b
  rw [SM.bind_def, SM.bind_def]
  rcases e : m s with ⟨r, s1⟩
  rcases e' : m u with ⟨r', u1⟩
  rw [e, e'] at h1 h2
  simp only at h1 h2
  subst h1
  cases r with
  | ok a => exact (hf a (hq s a s1 e)).run s1 u1 h2
  | err => exact ⟨rfl, h2⟩
  | panic => exact ⟨rfl, h2⟩
  | diverge => exact ⟨rfl, h2⟩

theorem bind {m : SM (Sys σ) α} {f : α → SM (Sys σ) β} (hm : Paired R m) (hf : ∀ a, Paired R (f a)) :
    Paired R (m >>= f) := bindOn (fun _ => True) hm (fun _ _ _ _ => trivial) fun a _ => hf a

/-- Looking at the state is all right if it makes no difference. -/
theorem get {f : Sys σ → SM (Sys σ) β} (h : ∀ s u, R s u → f s = f u) (hf : ∀ s, Paired R (f s)) :
    Paired R (SM.get >>= f) := by
  refine ⟨fun s u b => ?_⟩
  rw [SM.bind_get, SM.bind_get, ← h s u b]
  exact (hf s).run s u b

/-- A step on the handles and instances. -/
theorem world {f : Handles.World → Handles.World} (hw : ∀ s u, R s u → s.world = u.world)
    (hR : ∀ s u w, R s u → R { s with world := w } { u with world := w }) :
    Paired R (SM.modify fun s : Sys σ => { s with world := f s.world }) :=
  ⟨fun s u b => ⟨rfl, by
    show R { s with world := f s.world } { u with world := f u.world }
    rw [hw s u b]; exact hR s u _ b⟩⟩

theorem lowerValues {E : Env σ} {o : Nat} (hl : ∀ s u, R s u → (s.mems o).len = (u.mems o).len)
    (hA : ∀ a n, Paired R (inMem o (alloc E a n))) (maxFlat : Nat) (vs : List Val) (ts : List Ty)
    (hL : Paired R (inMem o (lowerEach E ts vs))) (out : Option Iter)
    (hW : ∀ it, out = some it → Paired R (withIter o it (nextU32 : SM (LSt σ) U32))) :
    Paired R (Abi.lowerValues E o maxFlat vs ts out) := by
  unfold Abi.lowerValues
  refine .bind (.lift _) fun flat => .ite (.bind hL fun _ => .pure _) ?_
  unfold lowerTuple
  refine .bind (.lift _) fun a => .bind (.lift _) fun n => .bind ?_ fun p => .ite .fail ?_
  · cases out with
    | none => exact hA a n
    | some it => exact .bind (hW it rfl) fun _ => .pure _
  · exact .get (fun s u b => by simp only [Mem.len32, hl s u b]; rfl) fun _ => .ite .fail (.pure _)
end Paired

section
variable {P : Nat → Prop}

theorem view_alike {o : Nat} (ho : ¬ P o) {s u : Sys σ} (h : AlikeBut P s u) : s.view o = u.view o := by
  unfold Sys.view
  rw [h.mems o ho, h.heaps o ho, h.world]

theorem put_alike {s u : Sys σ} (h : AlikeBut P s u) (o : Nat) (t : St σ) : AlikeBut P (s.put o t) (u.put o t) := by
  refine ⟨rfl, fun k hk => ?_, fun k hk => ?_⟩
  · show Handles.upd s.mems o t.mem k = Handles.upd u.mems o t.mem k
    unfold Handles.upd; split
    · rfl
    · exact h.mems k hk
  · show Handles.upd s.heaps o t.heap k = Handles.upd u.heaps o t.heap k
    unfold Handles.upd; split
    · rfl
    · exact h.heaps k hk

theorem inMem_apart {o : Nat} (ho : ¬ P o) (m : SM (St σ) α) : Paired (AlikeBut P) (inMem o m) := ⟨fun s u h => by
  unfold inMem
  rw [view_alike ho h]
  exact ⟨rfl, put_alike h o _⟩⟩

theorem withIter_apart {o : Nat} (ho : ¬ P o) (it : Iter) (m : SM (LSt σ) α) :
    Paired (AlikeBut P) (withIter o it m) := ⟨fun s u h => by
  unfold withIter
  rw [view_alike ho h]
  split <;> exact ⟨rfl, put_alike h o _⟩⟩

theorem setWorld_apart {s u : Sys σ} (w : Handles.World) (h : AlikeBut P s u) :
    AlikeBut P { s with world := w } { u with world := w } := ⟨rfl, h.mems, h.heaps⟩

theorem worldStep_apart (f : Handles.World → Handles.World) :
    Paired (AlikeBut P) (SM.modify fun s : Sys σ => { s with world := f s.world }) :=
  .world (fun _ _ h => h.world) fun _ _ w h => setWorld_apart w h

theorem newCtx_apart (S : Side σ) : Paired (AlikeBut P) (newCtx S) := worldStep_apart fun w => w.setCtx S.E.cx ⟨[], 0⟩
theorem setLeave_apart (S : Side σ) (b : Bool) : Paired (AlikeBut P) (setLeave S b) :=
  worldStep_apart fun w => { w with mayLeave := Handles.upd w.mayLeave S.E.inst b }
theorem setEnter_apart (S : Side σ) (b : Bool) : Paired (AlikeBut P) (setEnter S b) :=
  worldStep_apart fun w => { w with mayEnter := Handles.upd w.mayEnter S.E.inst b }

theorem exitIgnored_apart (S : Side σ) : Paired (AlikeBut P) (exitIgnored S) := ⟨fun s u h => by
  unfold exitIgnored
  rw [h.world]
  split <;> exact ⟨rfl, setWorld_apart _ h⟩⟩

theorem lowerValues_apart {E : Env σ} {o : Nat} (ho : ¬ P o) (maxFlat : Nat) (vs : List Val) (ts : List Ty)
    (out : Option Iter) : Paired (AlikeBut P) (lowerValues E o maxFlat vs ts out) :=
  .lowerValues (fun _ _ h => by rw [h.mems o ho]) (fun _ _ => inMem_apart ho _) _ _ _ (inMem_apart ho _) _
    fun _ _ => withIter_apart ho _ _

theorem postResult_apart (S : Side σ) (hp : ∀ p, S.post = some p → Paired (AlikeBut P) p) :
    Paired (AlikeBut P) (postResult S) := by
  unfold postResult
  cases e : S.post with
  | none => exact exitIgnored_apart S
  | some p => exact .bind (hp p e) fun _ => exitIgnored_apart S

theorem canonLift_apart (S : Side σ) (ho : ¬ P S.o) (ord : List (String × Val) → List (String × Val))
    (callee : List Core → SM (Sys σ) (Option (List Core))) (hc : ∀ fs, Paired (AlikeBut P) (callee fs)) (ft : FuncTy)
    (args : List Val) (mp mr : Nat) : Paired (AlikeBut P) (canonLift S ord callee ft args mp mr) := by
  unfold canonLift
  refine .get (fun s u b => by rw [b.world]) fun s => .ite .fail (.ite .fail ?_)
  refine .bind (newCtx_apart S) fun _ => .bind (setLeave_apart S false) fun _ => .bind (lowerValues_apart ho _ _ _ _) fun fs =>
    .bind (setLeave_apart S true) fun _ => .bind (hc fs) fun r => ?_
  cases r with
  | none => exact .fail
  | some results => exact .bind (.lift _) fun vs => .bind (withIter_apart ho _ _) fun _ => .pure _

theorem canonLower_apart (S : Side σ) (ho : ¬ P S.o) (ord : List (String × Val) → List (String × Val))
    (callee : List Val → SM (Sys σ) (List Val × Option (SM (Sys σ) Unit))) (hc : ∀ vs, Paired (AlikeBut P) (callee vs))
    (hp : ∀ vs s rs p u, callee vs s = (.ok (rs, some p), u) → Paired (AlikeBut P) p)
    (imp : Bool) (ft : FuncTy) (flat : List Core) (mp mr : Nat) :
    Paired (AlikeBut P) (canonLower S ord callee imp ft flat mp mr) := by
  unfold canonLower
  refine .bind (newCtx_apart S) fun _ => .get (fun s u b => by rw [b.world]) fun s => .ite .fail (.ite .fail ?_)
  refine .bind (.lift _) fun vs => .bind (withIter_apart ho _ _) fun args =>
    .bindOn (fun r => ∀ p, r.2 = some p → Paired (AlikeBut P) p) (hc args.1) (fun s r u e p h => ?_) fun r hr => ?_
  · obtain ⟨rs, q⟩ := r
    cases h
    exact hp _ _ _ _ _ e
  · refine .bind (setLeave_apart S false) fun _ => .bind (lowerValues_apart ho _ _ _ _) fun fl =>
      .bind (setLeave_apart S true) fun _ => ?_
    cases e : r.2 with
    | none => exact .crash
    | some p =>
      refine .bind (hr p e) fun _ => .bind (exitIgnored_apart S) fun _ => ?_
      cases imp
      · exact Paired.pure _
      · exact .bind (setEnter_apart S true) fun _ => .pure _
end

/-! ## Lowering into a memory whose bytes may differ -/

theorem lowerEach_blindly {E : Env σ} {K : Nat → Prop} (hE : LooksAt E K) : (ts : List Ty) → (vs : List Val) →
    Blindly K (lowerEach E ts vs)
  | [], [] | _ :: _, [] => by unfold lowerEach; exact .pure _
  | [], _ :: _ => by unfold lowerEach; exact .crash
  | t :: ts, v :: vs => by
    unfold lowerEach
    exact .bind (lowerFlat_blindly hE t v) fun _ => .bind (lowerEach_blindly hE ts vs) fun _ => .pure _

/-- Side by side from `m0` and `n0`. -/
structure TwinRun (o : Nat) (K : Nat → Prop) (m0 n0 : Mem) (s u : Sys σ) : Prop where
  alike : AlikeButBytes o K s u
  writes : SameWrites m0 n0 (s.mems o) (u.mems o)

theorem inMem_twin {o : Nat} {K : Nat → Prop} {m0 n0 : Mem} {m : SM (St σ) α} (h : Blindly K m) :
    Paired (TwinRun o K m0 n0) (inMem o m) := ⟨fun s u b => by
  obtain ⟨h1, h2, h3, h4⟩ := h.run (s.view o) (u.view o) ⟨b.alike.own, congrFun b.alike.heaps o, b.alike.world⟩
  refine ⟨h1, ⟨h3, ?_, fun k hk => ?_, ?_⟩, ?_⟩
  · show Handles.upd s.heaps o _ = Handles.upd u.heaps o _
    rw [h2, b.alike.heaps]
  · show Handles.upd s.mems o _ k = Handles.upd u.mems o _ k
    rw [Handles.upd_other _ _ hk, Handles.upd_other _ _ hk]
    exact b.alike.mems k hk
  · show Twins K (Handles.upd s.mems o _ o) (Handles.upd u.mems o _ o)
    rw [Handles.upd_same, Handles.upd_same]
    exact h4.twins b.alike.own
  · show SameWrites m0 n0 (Handles.upd s.mems o _ o) (Handles.upd u.mems o _ o)
    rw [Handles.upd_same, Handles.upd_same]
    exact b.writes.trans h4⟩

theorem setWorld_twin {o : Nat} {K : Nat → Prop} {m0 n0 : Mem} {s u : Sys σ} (w : Handles.World)
    (h : TwinRun o K m0 n0 s u) : TwinRun o K m0 n0 { s with world := w } { u with world := w } :=
  ⟨⟨rfl, h.alike.heaps, h.alike.mems, h.alike.own⟩, h.writes⟩

theorem worldStep_twin {o : Nat} {K : Nat → Prop} {m0 n0 : Mem} (f : Handles.World → Handles.World) :
    Paired (TwinRun o K m0 n0) (SM.modify fun s : Sys σ => { s with world := f s.world }) :=
  .world (fun _ _ h => h.alike.world) fun _ _ w h => setWorld_twin w h

theorem lowerValues_twin {E : Env σ} {o : Nat} {K : Nat → Prop} {m0 n0 : Mem} (hE : LooksAt E K) (maxFlat : Nat)
    (vs : List Val) (ts : List Ty) : Paired (TwinRun o K m0 n0) (lowerValues E o maxFlat vs ts none) :=
  .lowerValues (fun _ _ h => h.alike.own.len) (fun a n => inMem_twin (alloc_blindly hE a n)) _ _ _
    (inMem_twin (lowerEach_blindly hE ts vs)) _ fun _ h => by cases h

end Verif.Abi
