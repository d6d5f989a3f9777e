import Verif.Abi.AskLemmas
import Verif.Abi.CallMeansProps
import Verif.Abi.CanonDeliver
import Verif.Abi.LiftTame

/-!
# Property C125: what the guest's allocator is asked for
-/

namespace Verif.Abi
open Spec

variable {σ : Type}

/-- **C125, `Store`.** Whatever the allocator answers, and whether or not storing succeeds: the allocator is asked for the
blocks of the value, in order, with the alignment and size of each, and for nothing else; if storing does not succeed,
perhaps only for the first of them. -/
theorem store_asks (E : Env σ) (log : σ → List Ask) (hR : Remembers E log) (henc : E.enc ∈ Spec.encodings) (t : VT)
    (v : Val) (ht : HasType t.core v) (hl : ListsFit t.core v) (hs : StringsFit E.enc t.core v) (ptr : U32) (s : St σ) :
    ∃ as, Asks E.enc t.core v as ∧ Asked log as s.heap (t.store E v ptr s).1 (t.store E v ptr s).2.heap := by
  obtain ⟨as, ha⟩ := asks_exists E.enc t.core v ht
  exact ⟨as, ha, store_logs hR henc t.core v as ha hl hs ptr s⟩

/-- **C125, `LowerFlat`.** -/
theorem lower_asks (E : Env σ) (log : σ → List Ask) (hR : Remembers E log) (henc : E.enc ∈ Spec.encodings) (t : VT)
    (v : Val) (ht : HasType t.core v) (hl : ListsFit t.core v) (hs : StringsFit E.enc t.core v) (s : St σ) :
    ∃ as, Asks E.enc t.core v as ∧ Asked log as s.heap (t.lower E v s).1 (t.lower E v s).2.heap := by
  obtain ⟨as, ha⟩ := asks_exists E.enc t.core v ht
  exact ⟨as, ha, lowerFlat_logs hR henc t.core v as ha hl hs s⟩

/-- **C125**: the blocks of a value are determined by the value, its type and the encoding. -/
theorem asks_determined (enc : String) (t : VT) (v : Val) (a b : List Ask) (ha : Asks enc t.core v a)
    (hb : Asks enc t.core v b) : a = b := asks_unique enc t.core v a b ha hb

/-! ## Calls -/

section
variable {E : Env σ} {log : σ → List Ask} (hR : Remembers E log) (henc : E.enc ∈ Spec.encodings)
include hR henc

theorem lowerEach_logs : (ts : List Ty) → (vs : List Val) → SendsAny E.enc ts vs →
    ∃ as, AsksEach E.enc ts vs as ∧ Logs log (lowerEach E ts vs) as
  | [], _, .nil => by
    refine ⟨[], .nil, ?_⟩
    unfold lowerEach
    exact .quiet (.pure _)
  | t :: ts, v :: vs, .cons _ hs h => by
    obtain ⟨a, ha⟩ := asks_exists E.enc t v hs.typed
    obtain ⟨b, hb, hL⟩ := lowerEach_logs ts vs h
    refine ⟨a ++ b, .cons ha hb, ?_⟩
    unfold lowerEach
    exact .bind (lowerFlat_logs hR henc t v a ha hs.lists hs.strings) fun _ _ _ _ => .before hL fun _ => .pure _

theorem lowerValues_asked (o maxFlat : Nat) (ts : List Ty) (vs : List Val) (hv : SendsAny E.enc ts vs) (ks : List Kind)
    (hk : flattenTypes ts = .ok ks) (hl : ks.length ≤ maxFlat) (out : Option Iter) (s s' : Sys σ) (r : Res (List Core))
    (h : lowerValues E o maxFlat vs ts out s = (r, s')) :
    (∃ as, AsksEach E.enc ts vs as ∧ Asked log as (s.heaps o) r (s'.heaps o)) ∧ ∀ o', o' ≠ o → s'.heaps o' = s.heaps o' := by
  obtain ⟨as, ha, hL⟩ := lowerEach_logs hR henc ts vs hv
  unfold lowerValues at h
  rw [hk, SM.bind_ok (SM.lift_def _ _), if_pos hl, SM.bind_def] at h
  obtain ⟨l, h1, h2, h3⟩ := hL (s.view o)
  have e : inMem o (lowerEach E ts vs) s = ((lowerEach E ts vs (s.view o)).1, s.put o (lowerEach E ts vs (s.view o)).2) := rfl
  rw [e] at h
  rcases hm : lowerEach E ts vs (s.view o) with ⟨q, t⟩
  rw [hm] at h1 h3 h
  have hh : s' = s.put o t ∧ ((∃ a, r = .ok a) → ∃ a, q = .ok a) := by
    cases q with
    | ok a => exact ⟨(Prod.mk.inj h).2.symm, fun _ => ⟨a, rfl⟩⟩
    | err => exact ⟨(Prod.mk.inj h).2.symm, fun ⟨a, x⟩ => by rw [← (Prod.mk.inj h).1] at x; cases x⟩
    | panic => exact ⟨(Prod.mk.inj h).2.symm, fun ⟨a, x⟩ => by rw [← (Prod.mk.inj h).1] at x; cases x⟩
    | diverge => exact ⟨(Prod.mk.inj h).2.symm, fun ⟨a, x⟩ => by rw [← (Prod.mk.inj h).1] at x; cases x⟩
  obtain ⟨rfl, hq⟩ := hh
  refine ⟨⟨as, ha, l, ?_, h2, fun x => h3 (hq x)⟩, fun o' ho => Sys.put_heaps_other s t ho⟩
  rw [Sys.put_heaps]
  exact h1

end

theorem liftEach_tame (E : Env σ) : (ts : List Ty) → LTame False (liftEach E ts)
  | [] => by unfold liftEach; exact .pure _
  | t :: ts => by
    unfold liftEach
    exact .bind (.imp (liftFlat_tame E t) False.elim) fun _ => .bind (liftEach_tame E ts) fun _ => .pure _

theorem liftValues_tame (E : Env σ) (ord : List (String × Val) → List (String × Val)) (n : Nat) (ts : List Ty) :
    LTame False (liftValues E ord n ts) := by
  unfold liftValues
  refine .bind (.lift _) fun _ => .ite (liftEach_tame E ts) ?_
  refine .bind (.st nextU32_st) fun _ => .bind (.lift _) fun _ => .ite .fail ?_
  refine .bind (.lift _) fun _ => .bind (.st .get) fun _ => .ite .fail ?_
  refine .bind (.imp (.onSt (load_tame E _ _)) False.elim) fun _ => ?_
  split
  · exact .pure _
  · exact .fail

theorem withIter_heaps {α : Type} (o : Nat) (it : Iter) {m : SM (LSt σ) α} (h : LTame False m) (s : Sys σ) :
    (withIter o it m s).2.heaps = s.heaps := by
  obtain ⟨w, e, -⟩ := h ⟨s.view o, it⟩
  have key : (s.put o (m ⟨s.view o, it⟩).2.st).heaps = s.heaps := by
    rw [e]
    funext x
    by_cases hx : x = o
    · subst hx; exact Sys.put_heaps ..
    · exact Sys.put_heaps_other _ _ hx
  unfold withIter
  rcases hm : m ⟨s.view o, it⟩ with ⟨r, t⟩
  rw [hm] at key
  cases r <;> exact key

/-- **C125, the called side.** Arguments passed flat. When `CanonLift` calls the core function, the allocator of its
instance has been asked for the blocks of the arguments, from left to right, and for nothing else, and no other allocator
has been asked for anything. After the function has returned nothing more is asked for. -/
theorem canonLift_asks (S : Side σ) (log : σ → List Ask) (hR : Remembers S.E log) (henc : S.E.enc ∈ Spec.encodings)
    (ord : List (String × Val) → List (String × Val)) (callee : List Core → SM (Sys σ) (Option (List Core))) (ft : FuncTy)
    (args : List Val) (mp mr : Nat) (kp : List Kind) (hkp : flattenTypes ft.params = .ok kp) (hlp : kp.length ≤ mp)
    (hv : SendsAny S.E.enc ft.params args) (s s' : Sys σ) (r : List Val × Option (SM (Sys σ) Unit))
    (h : canonLift S ord callee ft args mp mr s = (.ok r, s')) :
    ∃ as cs s1 ds s2, callee cs s1 = (.ok (some ds), s2) ∧ AsksEach S.E.enc ft.params args as ∧
      log (s1.heaps S.o) = log (s.heaps S.o) ++ as ∧ (∀ o, o ≠ S.o → s1.heaps o = s.heaps o) ∧ s'.heaps = s2.heaps := by
  by_cases ha : Allowed s S
  swap
  · rw [canonLift_forbidden S ord _ ft args mp mr s ha] at h; cases h
  rw [canonLift_eq S ord _ ft args mp mr s ha.1 ha.2] at h
  obtain ⟨xs, t3, e3, h3⟩ := SM.bind_eq_ok.1 h
  obtain ⟨_, t4, e4, h4⟩ := SM.bind_eq_ok.1 h3
  obtain ⟨rs, t5, e5, h5⟩ := SM.bind_eq_ok.1 h4
  clear h h3 h4
  obtain rfl := (Prod.mk.inj e4).2
  obtain ⟨⟨as, h1, l, h2, -, h3⟩, ho⟩ := lowerValues_asked hR henc S.o mp ft.params args hv kp hkp hlp none (s.entered S) _ _ e3
  obtain rfl := h3 ⟨xs, rfl⟩
  cases rs with
  | none => cases h5
  | some rs =>
    simp only at h5
    obtain ⟨gs, t6, e6, h6⟩ := SM.bind_eq_ok.1 h5
    obtain ⟨q, t7, e7, h7⟩ := SM.bind_eq_ok.1 h6
    clear h5 h6
    obtain rfl := (Prod.mk.inj e6).2
    obtain rfl := (Prod.mk.inj h7).2
    have hw := withIter_heaps S.o (newIterator gs) (liftValues_tame S.E ord mr ft.results) t5
    rw [e7] at hw
    exact ⟨l, xs, _, rs, t5, e5, h1, h2, ho, hw⟩

/-- **C125, the calling side.** Results passed flat. `CanonLower` asks for nothing before it calls the function; then the
allocator of its instance is asked for the blocks of the results, from left to right, and for nothing else, before the
post-return function `p` runs, and for nothing afterwards. -/
theorem canonLower_asks (S : Side σ) (log : σ → List Ask) (hR : Remembers S.E log) (henc : S.E.enc ∈ Spec.encodings)
    (ord : List (String × Val) → List (String × Val))
    (callee : List Val → SM (Sys σ) (List Val × Option (SM (Sys σ) Unit))) (imp : Bool) (ft : FuncTy)
    (flat : List Core) (mp mr : Nat) (kr : List Kind) (hkr : flattenTypes ft.results = .ok kr) (hlr : kr.length ≤ mr)
    (s s' : Sys σ) (out : List Core) (h : canonLower S ord callee imp ft flat mp mr s = (.ok out, s')) :
    ∃ args s1 rs p s2 s3 s4, callee args s1 = (.ok (rs, some p), s2) ∧ s1.heaps = s.heaps ∧ p s3 = (.ok (), s4) ∧
      s'.heaps = s4.heaps ∧ (SendsAny S.E.enc ft.results rs → (∀ o, o ≠ S.o → s3.heaps o = s2.heaps o) ∧
        ∃ as, AsksEach S.E.enc ft.results rs as ∧ log (s3.heaps S.o) = log (s2.heaps S.o) ++ as) := by
  unfold canonLower at h
  obtain ⟨_, t1, e1, h1⟩ := SM.bind_eq_ok.1 h
  have e1' : t1 = (newCtx S s).2 := (Prod.mk.inj e1).2.symm
  subst e1'
  rw [SM.bind_get, SM.ite_app] at h1
  split at h1
  · cases h1
  rw [SM.ite_app] at h1
  split at h1
  · cases h1
  obtain ⟨vs, t2, e2, h2⟩ := SM.bind_eq_ok.1 h1
  obtain rfl := (Prod.mk.inj e2).2
  obtain ⟨args, t3, e3, h3⟩ := SM.bind_eq_ok.1 h2
  obtain ⟨r, t4, e4, h4⟩ := SM.bind_eq_ok.1 h3
  obtain ⟨_, t5, e5, h5⟩ := SM.bind_eq_ok.1 h4
  obtain ⟨fl, t6, e6, h6⟩ := SM.bind_eq_ok.1 h5
  obtain ⟨_, t7, e7, h7⟩ := SM.bind_eq_ok.1 h6
  clear h h1 h2 h3 h4 h5 h6
  obtain rfl := (Prod.mk.inj e5).2
  obtain rfl := (Prod.mk.inj e7).2
  rcases r with ⟨rs, _ | p⟩
  · cases h7
  simp only at h7
  obtain ⟨_, t8, e8, h8⟩ := SM.bind_eq_ok.1 h7
  obtain ⟨_, t9, e9, h9⟩ := SM.bind_eq_ok.1 h8
  clear h7 h8
  have hm9 : t9.heaps = t8.heaps := by
    unfold exitIgnored at e9
    rcases ex : Handles.exitCall S.E.cx t8.world with ⟨r, w⟩
    rw [ex] at e9
    cases r <;> (rw [← (Prod.mk.inj e9).2])
  have hm : s'.heaps = t8.heaps := by
    cases imp with
    | false =>
      rw [if_neg (by simp)] at h9
      rw [← (Prod.mk.inj h9).2]; exact hm9
    | true =>
      rw [if_pos rfl] at h9
      obtain ⟨_, t10, e10, h10⟩ := SM.bind_eq_ok.1 h9
      rw [← (Prod.mk.inj h10).2, ← (Prod.mk.inj e10).2]
      exact hm9
  have hw := withIter_heaps S.o (newIterator vs) (liftValues_tame S.E ord mp ft.params) (newCtx S s).2
  rw [e3] at hw
  refine ⟨args.1, t3, rs, p, t4, _, t8, e4, hw, e8, hm, fun hv => ?_⟩
  obtain ⟨⟨as, h1, l, h2, -, h3⟩, ho⟩ := lowerValues_asked hR henc S.o mr ft.results rs hv kr hkr hlr _
    ((setLeave S false) t4).2 _ _ e6
  obtain rfl := h3 ⟨fl, rfl⟩
  exact ⟨ho, l, h1, h2⟩

/-! ## Examples -/

/-- The allocator of `bumpEnv`, remembering what it is asked for. -/
def logEnv (enc : String) : Env (Nat × List Ask) :=
  ⟨enc, fun a n p => ((bumpAlloc a n (p.1, p.2.1)).1, ((bumpAlloc a n (p.1, p.2.1)).2.1,
    ((bumpAlloc a n (p.1, p.2.1)).2.2, p.2.2 ++ [⟨a.toNat, n.toNat⟩]))), 0, 0, ⟨fun _ => none, fun _ => false⟩⟩

/-- 256 bytes of memory, the first 64 in use; nothing asked for yet. -/
def logSt : St (Nat × List Ask) := ⟨⟨fun _ => 0, 256, 256⟩, (64, []), Handles.World.init⟩

theorem log_remembers (enc : String) : Remembers (logEnv enc) Prod.snd := fun _ _ _ _ => rfl

/-- The hypotheses are met; storing succeeds, and asks for a string of five code units, two bytes each, and a list of two
floats. -/
example : Remembers (logEnv "utf-16") Prod.snd ∧ "utf-16" ∈ Spec.encodings ∧ HasType exTy.core exVal ∧
    ListsFit exTy.core exVal ∧ StringsFit "utf-16" exTy.core exVal ∧
    ((exTy.store (logEnv "utf-16") exVal 0 logSt).1 matches .ok _) ∧
    (exTy.store (logEnv "utf-16") exVal 0 logSt).2.heap.2 = [⟨2, 10⟩, ⟨4, 8⟩] :=
  ⟨log_remembers _, by decide, exHasType, exFits.1, exFits16, by decide, by decide⟩

/-- With too little memory only the first block is asked for, or the first two. -/
example : (exTy.lower (logEnv "utf-16") exVal { logSt with mem := ⟨fun _ => 0, 70, 70⟩ }).2.heap.2 = [⟨2, 10⟩] ∧
    (exTy.lower (logEnv "utf-16") exVal { logSt with mem := ⟨fun _ => 0, 76, 76⟩ }).2.heap.2 = [⟨2, 10⟩, ⟨4, 8⟩] ∧
    ((exTy.lower (logEnv "utf-16") exVal { logSt with mem := ⟨fun _ => 0, 76, 76⟩ }).1 matches .err) := by
  refine ⟨?_, ?_, ?_⟩ <;> decide

/-- A list of lists: the outer block first, then one for every element. -/
example : ((VT.list (.list .u16)).lower (logEnv "utf-8") (.list [.list [.u16 1, .u16 2, .u16 3], .list [], .list [.u16 4]])
    logSt).2.heap.2 = [⟨4, 24⟩, ⟨2, 6⟩, ⟨2, 0⟩, ⟨2, 2⟩] := by decide

/-- One instance, and a core function that answers with a number. -/
def askSide : Side (Nat × List Ask) := ⟨logEnv "utf-16", 0, none⟩
/-- The same. -/
def askSys : Sys (Nat × List Ask) := ⟨fun _ => ⟨fun _ => 0, 256, 256⟩, fun _ => (64, []), Handles.World.init⟩

theorem exSendsAny16 : SendsAny "utf-16" exTys exArgs := sends_any (exSends _ exFits16)

/-- The hypotheses of `canonLift_asks` are met, and the call succeeds. -/
example : Remembers askSide.E Prod.snd ∧ askSide.E.enc ∈ Spec.encodings ∧ SendsAny askSide.E.enc exTys exArgs ∧
    flattenTypes exTys = .ok (List.replicate 10 .u32) ∧
    ((canonLift askSide id (fun _ s => (.ok (some [.fv (.u32 7)]), s)) ⟨exTys, [.u8]⟩ exArgs 16 1 askSys).1 matches .ok _) ∧
    ((canonLift askSide id (fun _ s => (.ok (some [.fv (.u32 7)]), s)) ⟨exTys, [.u8]⟩ exArgs 16 1 askSys).2.heaps 0).2 =
      [⟨2, 10⟩, ⟨4, 8⟩] :=
  ⟨log_remembers _, by decide, exSendsAny16, by decide, by decide, by decide⟩

/-- The hypotheses of `canonLower_asks` are met by a function that returns two values with a string and a list. -/
example : ((canonLower askSide id (fun _ s => (.ok (exArgs, some (pure ())), s)) false ⟨[.u8], exTys⟩ [.fv (.u32 7)] 16 16
      askSys).1 matches .ok _) ∧
    ((canonLower askSide id (fun _ s => (.ok (exArgs, some (pure ())), s)) false ⟨[.u8], exTys⟩ [.fv (.u32 7)] 16 16
      askSys).2.heaps 0).2 = [⟨2, 10⟩, ⟨4, 8⟩] :=
  ⟨by decide, by decide⟩

end Verif.Abi
