import Verif.Handles.Ledger
import Verif.Handles.Props

/-!
# Properties C32, C35, C36 and C64 for every history
-/

namespace Verif.Handles
open Verif.Abi (RT)

/-- The books describe the world. -/
structure Q (w : World) (g : Ledger) : Prop where
  tinv : ∀ inst rt, TInv (w.tables inst rt)
  stands : w.slot = g.stands
  elems : ∀ n, w.elems n = ⟨(g.handle n).rep, g.loans n, (g.handle n).own, (g.handle n).scope⟩
  next : w.next = g.count
  taken : ∀ c, (w.ctxs c).lenders = g.taken c
  held : ∀ c, (w.ctxs c).borrowCount = g.held c
  enter : w.mayEnter = g.mayEnter

theorem Q.init : Q World.init Ledger.init where
  tinv _ _ := TInv.empty
  stands := by funext l; simp [Ledger.init, World.slot, World.init, Table.slot, Table.empty]
  elems _ := rfl
  next := rfl
  taken _ := rfl
  held _ := rfl
  enter := rfl

theorem hold_eqs (g : Ledger) (s : Option CtxId) (k : Int) :
    (g.hold s k).stands = g.stands ∧ (g.hold s k).handle = g.handle ∧ (g.hold s k).count = g.count ∧
    (g.hold s k).loans = g.loans ∧ (g.hold s k).taken = g.taken ∧ (g.hold s k).mayEnter = g.mayEnter ∧
    ∀ c, (g.hold s k).held c = g.held c + if s = some c then k else 0 := by
  cases s with
  | none => simp [Ledger.hold]
  | some c =>
    refine ⟨rfl, rfl, rfl, rfl, rfl, rfl, fun c' => ?_⟩
    simp only [Ledger.hold, upd, Option.some.injEq]
    by_cases h : c' = c
    · subst h; simp
    · have : ¬ c = c' := fun e => h e.symm
      simp [h, this]

/-- Making a handle. -/
theorem make_ok {w : World} {g : Ledger} (hQ : Q w g) (inst : InstId) (rt : RT) (e0 : Elem) (h0 : e0.lendCount = 0)
    (hf : ((do let h ← alloc e0; add inst rt h : SM World U32) w).2.Fits) :
    ((do let h ← alloc e0; add inst rt h : SM World U32) w).2.dtors = w.dtors ∧
    g.AddAllowed inst rt ((do let h ← alloc e0; add inst rt h : SM World U32) w).1 ∧
    Q ((do let h ← alloc e0; add inst rt h : SM World U32) w).2
      (g.made inst rt e0.handle ((do let h ← alloc e0; add inst rt h : SM World U32) w).1) := by
  rcases hrun : (do let h ← alloc e0; add inst rt h : SM World U32) w with ⟨r, w'⟩
  rw [hrun] at hf
  simp only at hf ⊢
  replace hrun : add inst rt w.next { w with elems := upd w.elems w.next e0, next := w.next + 1 } = (r, w') := hrun
  have hel : ∀ n, upd w.elems w.next e0 n =
      ⟨(upd g.handle g.count e0.handle n).rep, upd g.loans g.count 0 n, (upd g.handle g.count e0.handle n).own,
        (upd g.handle g.count e0.handle n).scope⟩ := by
    intro n
    rw [hQ.next]
    by_cases hn : n = g.count
    · subst hn; simp only [upd_same]; cases e0; simp only at h0; subst h0; rfl
    · rw [upd_other _ _ hn, upd_other _ _ hn, upd_other _ _ hn]; exact hQ.elems n
  have hlen : ((w.tables inst rt).add w.next).2.array.length < 2 ^ 32 := by
    have := hf inst rt
    simp only [add] at hrun
    rcases hadd : (w.tables inst rt).add w.next with ⟨r1, t1⟩
    rw [hadd] at hrun
    rcases r1 with i | _ | _ | _
    · simp only at hrun
      cases hs : e0.scope <;> simp only [World.setTable, upd_same, hs] at hrun <;>
        · injection hrun with _ hw
          subst hw
          simpa [World.setCtx] using this
    all_goals
      injection hrun with _ hw
      subst hw
      simpa [World.setTable] using this
  obtain ⟨ht, hc⟩ := add_cases _ w.next (hQ.tinv inst rt) hlen
  simp only [add] at hrun
  rcases hadd : (w.tables inst rt).add w.next with ⟨r1, t1⟩
  rw [hadd] at hrun hc ht
  simp only at hc ht
  rcases hc with ⟨h1, h2⟩ | ⟨i, h1, h2, h3⟩
  · subst h1
    injection hrun with hr hw
    subst hr
    refine ⟨by subst hw; rfl, .inl rfl, ?_⟩
    refine ⟨?_, ?_, ?_, ?_, ?_, ?_, ?_⟩
    · subst hw; exact tables_setTable _ _ _ _ TInv hQ.tinv ht
    · subst hw; exact (slot_setTable_same _ _ _ _ h2).trans hQ.stands
    · subst hw; exact hel
    · subst hw; show w.next + 1 = g.count + 1; rw [hQ.next]
    · subst hw; exact hQ.taken
    · subst hw; exact hQ.held
    · subst hw; exact hQ.enter
  · subst h1
    simp only [World.setTable, upd_same] at hrun
    have hold := hold_eqs { { g with handle := upd g.handle g.count e0.handle, count := g.count + 1, loans := upd g.loans g.count 0 } with
      stands := upd g.stands ⟨inst, rt, i⟩ (some g.count) } e0.scope 1
    obtain ⟨q1, q2, q3, q4, q5, q6, q7⟩ := hold
    have hst : w.slot ⟨inst, rt, i⟩ = none := h2
    have hslot : (w.setTable inst rt t1).slot = upd g.stands ⟨inst, rt, i⟩ (some g.count) := by
      rw [slot_setTable w inst rt t1 i _ h3, hQ.stands, hQ.next]
    rcases hs : e0.scope with _ | c
    · simp only [hs] at hrun
      injection hrun with hr hw
      subst hr
      refine ⟨by subst hw; rfl, .inr ⟨i, rfl, by rw [← hQ.stands]; exact hst⟩, ?_⟩
      show Q w' (Ledger.hold _ e0.scope 1)
      refine ⟨?_, ?_, ?_, ?_, ?_, ?_, ?_⟩
      · subst hw; exact tables_setTable w _ _ _ TInv hQ.tinv ht
      · rw [q1]; subst hw; exact hslot
      · rw [q2, q4]; subst hw; exact hel
      · rw [q3]; subst hw; show w.next + 1 = g.count + 1; rw [hQ.next]
      · rw [q5]; subst hw; exact hQ.taken
      · intro c; rw [q7, hs]; subst hw; simpa using hQ.held c
      · rw [q6]; subst hw; exact hQ.enter
    · simp only [hs] at hrun
      injection hrun with hr hw
      subst hr
      refine ⟨by subst hw; rfl, .inr ⟨i, rfl, by rw [← hQ.stands]; exact hst⟩, ?_⟩
      show Q w' (Ledger.hold _ e0.scope 1)
      refine ⟨?_, ?_, ?_, ?_, ?_, ?_, ?_⟩
      · subst hw; exact tables_setTable w _ _ _ TInv hQ.tinv ht
      · rw [q1]; subst hw; exact hslot
      · rw [q2, q4]; subst hw; exact hel
      · rw [q3]; subst hw; show w.next + 1 = g.count + 1; rw [hQ.next]
      · rw [q5]; subst hw
        intro c'
        simp only [World.setCtx, upd]
        split
        · next e => rw [e]; exact hQ.taken c
        · exact hQ.taken c'
      · intro c'; rw [q7, hs]; subst hw
        simp only [World.setCtx, upd, Option.some.injEq]
        by_cases e : c' = c
        · subst e; simp [hQ.held]
        · have : ¬ c = c' := fun e' => e e'.symm
          simp [e, this, hQ.held]
      · rw [q6]; subst hw; exact hQ.enter

/-- Taking a handle out. -/
theorem take_ok {w : World} {g : Ledger} (hQ : Q w g) (inst : InstId) (rt : RT) (i : U32) (hf : w.Fits) :
    (remove inst rt i w).2.dtors = w.dtors ∧ (remove inst rt i w).2.elems = w.elems ∧
    Q (remove inst rt i w).2 (g.removed ⟨inst, rt, i⟩) ∧
    (remove inst rt i w).1 = match g.stands ⟨inst, rt, i⟩ with
      | some n => if g.loans n = 0 then .ok n else .err
      | none => .err := by
  have hst : ∀ x, (w.tables inst rt).slot i = x → g.stands ⟨inst, rt, i⟩ = x := by
    intro x hx; rw [← hQ.stands]; exact hx
  have same : ∀ (hr : (w.tables inst rt).remove (fun e => (w.elems e).lendCount) i = (.err, w.tables inst rt)),
      (remove inst rt i w).1 = .err ∧ (remove inst rt i w).2.dtors = w.dtors ∧ (remove inst rt i w).2.elems = w.elems ∧
      Q (remove inst rt i w).2 g := by
    intro hr
    simp only [remove, hr]
    refine ⟨trivial, rfl, rfl, ?_, ?_, hQ.elems, hQ.next, hQ.taken, hQ.held, hQ.enter⟩
    · exact tables_setTable w _ _ _ TInv hQ.tinv (hQ.tinv inst rt)
    · exact (slot_setTable_same w _ _ _ rfl).trans hQ.stands
  rcases remove_cases (w.tables inst rt) (fun e => (w.elems e).lendCount) i (hQ.tinv inst rt) (hf inst rt) with
    ⟨h1, h2⟩ | ⟨n, h1, h2, h3⟩ | ⟨n, t', h1, h2, h3, h4, h5, -⟩
  · obtain ⟨s1, s2, s3, s4⟩ := same h2
    simp only [Ledger.removed, hst none h1]
    exact ⟨s2, s3, s4, s1⟩
  · obtain ⟨s1, s2, s3, s4⟩ := same h3
    rw [hQ.elems] at h2
    simp only [Ledger.removed, hst (some n) h1, if_neg h2]
    exact ⟨s2, s3, s4, s1⟩
  · rw [hQ.elems] at h2
    simp only at h2
    obtain ⟨q1, q2, q3, q4, q5, q6, q7⟩ := hold_eqs { g with stands := upd g.stands ⟨inst, rt, i⟩ none } (g.handle n).scope (-1)
    have hsc : (w.elems n).scope = (g.handle n).scope := by rw [hQ.elems]
    have hslot : (w.setTable inst rt t').slot = upd g.stands ⟨inst, rt, i⟩ none := by
      rw [slot_setTable w inst rt t' i _ h5, hQ.stands]
    obtain ⟨w', hw, f1, f2, f3, f4, f5, f6, f7, f8⟩ : ∃ w', remove inst rt i w = (.ok n, w') ∧ w'.dtors = w.dtors ∧
        w'.elems = w.elems ∧ (∀ inst rt, TInv (w'.tables inst rt)) ∧ w'.slot = upd g.stands ⟨inst, rt, i⟩ none ∧
        w'.next = w.next ∧ w'.mayEnter = w.mayEnter ∧ (∀ c, (w'.ctxs c).lenders = (w.ctxs c).lenders) ∧
        ∀ c, (w'.ctxs c).borrowCount = (w.ctxs c).borrowCount + if (g.handle n).scope = some c then -1 else 0 := by
      simp only [remove, h3, World.setTable, hsc]
      rcases hs : (g.handle n).scope with _ | c
      · exact ⟨_, rfl, rfl, rfl, tables_setTable w _ _ _ TInv hQ.tinv h4, hslot, rfl, rfl, fun _ => rfl, fun _ => by simp⟩
      · refine ⟨_, rfl, rfl, rfl, tables_setTable w _ _ _ TInv hQ.tinv h4, hslot, rfl, rfl, fun c' => ?_, fun c' => ?_⟩
        · simp only [World.setCtx, upd]
          split
          · next e => rw [e]
          · rfl
        · simp only [World.setCtx, upd, Option.some.injEq]
          by_cases e : c' = c
          · subst e; simp; omega
          · have : ¬ c = c' := fun e' => e e'.symm
            simp [e, this]
    simp only [Ledger.removed, hst (some n) h1, if_pos h2, hw]
    refine ⟨f1, f2, ⟨f3, by rw [q1]; exact f4, by rw [q2, q4, f2]; exact hQ.elems, by rw [q3, f5]; exact hQ.next,
      by rw [q5]; intro c; rw [f7]; exact hQ.taken c, fun c => by rw [q7, f8, hQ.held], by rw [q6, f6]; exact hQ.enter⟩, trivial⟩

theorem get_stands {w : World} {g : Ledger} (hQ : Q w g) (inst : InstId) (rt : RT) (i : U32) (hf : w.Fits) :
    get inst rt i w = (match g.stands ⟨inst, rt, i⟩ with | some n => .ok n | none => .err, w) := by
  simp only [get, get_eq _ _ (hf inst rt)]
  have : g.stands ⟨inst, rt, i⟩ = (w.tables inst rt).slot i := by rw [← hQ.stands]; rfl
  rw [this]
  cases (w.tables inst rt).slot i <;> rfl

theorem release_count (elems : ElemId → Elem) (ls : List ElemId) (n : ElemId) :
    release elems ls n = { elems n with lendCount := (elems n).lendCount - (ls.count n : Nat) } := by
  induction ls generalizing elems with
  | nil => simp [release]
  | cons x xs ih =>
    rw [release, ih]
    by_cases h : n = x
    · subst h
      simp only [upd_same, List.count_cons_self]
      have : (elems n).lendCount - 1 - ((xs.count n : Nat) : Int) = (elems n).lendCount - ((xs.count n + 1 : Nat) : Int) := by
        push_cast; omega
      rw [this]
    · rw [upd_other _ _ h, List.count_cons_of_ne (fun e => h e.symm)]

/-- One operation. -/
theorem book_step {w : World} {g : Ledger} (hQ : Q w g) (info : RTInfo) (op : Op) (hfw : w.Fits)
    (hf : ∀ inst rt, op.addsTo inst rt → (step info w op).2.Fits) :
    ∃ calls, (step info w op).2.dtors = calls ++ w.dtors ∧ g.Allowed info calls op (step info w op).1 ∧
      Q (step info w op).2 (g.next info op (step info w op).1) := by
  cases op with
  | new inst rt rep =>
    obtain ⟨h1, h2, h3⟩ := make_ok hQ inst rt ⟨rep, 0, true, none⟩ rfl (hf inst rt ⟨rfl, rfl⟩)
    exact ⟨[], h1, ⟨rfl, h2⟩, h3⟩
  | lowerOwn inst rt rep =>
    obtain ⟨h1, h2, h3⟩ := make_ok hQ inst rt ⟨rep, 0, true, none⟩ rfl (hf inst rt ⟨rfl, rfl⟩)
    exact ⟨[], h1, ⟨rfl, h2⟩, h3⟩
  | lowerBorrow inst cx rt rep =>
    by_cases hi : info.impl rt = some inst
    · have e : step info w (.lowerBorrow inst cx rt rep) = (.ok rep, w) := by
        simp only [step, lowerBorrow, if_pos hi]; rfl
      rw [e]
      refine ⟨[], rfl, ⟨rfl, by rw [if_pos hi]⟩, ?_⟩
      simp only [Ledger.next, if_pos hi]; exact hQ
    · have e : step info w (.lowerBorrow inst cx rt rep) =
          (do let h ← alloc ⟨rep, 0, false, some cx⟩; add inst rt h : SM World U32) w := by
        simp only [step, lowerBorrow, if_neg hi]
      replace hf := hf inst rt ⟨rfl, rfl⟩
      rw [e] at hf ⊢
      obtain ⟨h1, h2, h3⟩ := make_ok hQ inst rt ⟨rep, 0, false, some cx⟩ rfl hf
      refine ⟨[], h1, ⟨rfl, by rw [if_neg hi]; exact h2⟩, ?_⟩
      simp only [Ledger.next, if_neg hi]; exact h3
  | rep inst rt i =>
    have hg := get_stands hQ inst rt i hfw
    rcases hs : g.stands ⟨inst, rt, i⟩ with _ | n
    · rw [hs] at hg
      have e : step info w (.rep inst rt i) = (.err, w) := SM.bind_err hg
      rw [e]; exact ⟨[], rfl, ⟨rfl, by rw [hs]⟩, hQ⟩
    · rw [hs] at hg
      have e : step info w (.rep inst rt i) = (.ok (w.elems n).rep, w) := by
        show (get inst rt i >>= _) w = _
        rw [SM.bind_ok hg]; rfl
      rw [e]; exact ⟨[], rfl, ⟨rfl, by rw [hs, hQ.elems]⟩, hQ⟩
  | liftBorrow inst cx rt i =>
    have hg := get_stands hQ inst rt i hfw
    rcases hs : g.stands ⟨inst, rt, i⟩ with _ | n
    · rw [hs] at hg
      have e : step info w (.liftBorrow inst cx rt i) = (.err, w) := SM.bind_err hg
      rw [e]; refine ⟨[], rfl, ⟨rfl, by rw [hs]⟩, ?_⟩
      simp only [Ledger.next, hs]; exact hQ
    · rw [hs] at hg
      have e : step info w (.liftBorrow inst cx rt i) = (.ok (w.elems n).rep, { w with
          elems := upd w.elems n { w.elems n with lendCount := (w.elems n).lendCount + 1 }
          ctxs := upd w.ctxs cx { w.ctxs cx with lenders := (w.ctxs cx).lenders ++ [n] } }) := by
        show (get inst rt i >>= _) w = _
        rw [SM.bind_ok hg]
        show (Res.ok _, _) = _
        simp only [upd_same]
      rw [e]
      refine ⟨[], rfl, ⟨rfl, by rw [hs, hQ.elems]⟩, ?_⟩
      simp only [Ledger.next, hs]
      refine ⟨hQ.tinv, hQ.stands, ?_, hQ.next, ?_, ?_, hQ.enter⟩
      · intro m
        simp only [upd]
        split
        · next e => subst e; simp [hQ.elems]
        · exact hQ.elems m
      · intro c
        simp only [upd]
        split
        · next e => subst e; simp [hQ.taken]
        · exact hQ.taken c
      · intro c
        simp only [upd]
        split
        · next e => subst e; exact hQ.held c
        · exact hQ.held c
  | liftOwn inst rt i =>
    obtain ⟨h1, h2, h3, h4⟩ := take_ok hQ inst rt i hfw
    rcases hr : remove inst rt i w with ⟨r, w'⟩
    rw [hr] at h1 h2 h3 h4
    simp only at h1 h2 h3 h4
    have e : step info w (.liftOwn inst rt i) = (r.bind fun n => .ok (w.elems n).rep, w') := by
      show (remove inst rt i >>= _) w = _
      cases r with
      | ok n => rw [SM.bind_ok hr]; show (Res.ok (w'.elems n).rep, w') = _; rw [h2]; rfl
      | err => rw [SM.bind_err hr]; rfl
      | panic => rw [SM.bind_panic hr]; rfl
      | diverge => rw [SM.bind_diverge hr]; rfl
    rw [e]
    refine ⟨[], h1, ⟨rfl, ?_⟩, h3⟩
    simp only [h4]
    rcases g.stands ⟨inst, rt, i⟩ with _ | n
    · rfl
    · simp only
      by_cases hl : g.loans n = 0
      · simp only [if_pos hl]; show Res.ok _ = _; rw [hQ.elems]
      · simp only [if_neg hl]; rfl
  | drop inst rt i =>
    obtain ⟨h1, h2, h3, h4⟩ := take_ok hQ inst rt i hfw
    rcases hr : remove inst rt i w with ⟨r, w'⟩
    rw [hr] at h1 h2 h3 h4
    simp only at h1 h2 h3 h4
    simp only [Ledger.Allowed, Ledger.next]
    rcases hs : g.stands ⟨inst, rt, i⟩ with _ | n
    · rw [hs] at h4
      simp only at h4
      subst h4
      have e : step info w (.drop inst rt i) = (.err, w') := by
        simp only [step, canonResourceDrop]
        rw [SM.bind_err hr]; rfl
      rw [e]; exact ⟨[], h1, ⟨rfl, rfl⟩, h3⟩
    · rw [hs] at h4
      simp only at h4
      by_cases hl : g.loans n = 0
      · rw [if_pos hl] at h4
        subst h4
        have hen : w'.mayEnter = g.mayEnter := h3.enter.trans (by
          simp only [Ledger.removed, hs, if_pos hl]; exact (hold_eqs _ _ _).2.2.2.2.2.1)
        have he : w'.elems n = ⟨(g.handle n).rep, g.loans n, (g.handle n).own, (g.handle n).scope⟩ := by rw [h2]; exact hQ.elems n
        have e : step info w (.drop inst rt i) = unitRes ((if !(w'.elems n).own then pure ()
            else match info.impl rt with
              | none => SM.crash
              | some impl => if inst ≠ impl ∧ w'.mayEnter impl = false then SM.fail
                else if info.hasDtor rt then SM.modify fun w => { w with dtors := (rt, (w.elems n).rep) :: w.dtors }
                else pure () : SM World Unit) w') := by
          simp only [step, canonResourceDrop]
          rw [SM.bind_ok hr, SM.bind_get]
          rfl
        rw [e, he, hen]
        simp only [hl, ne_eq, not_true_eq_false, if_false]
        by_cases ho : (g.handle n).own = true
        · simp only [ho, Bool.not_true, if_false, Bool.false_eq_true, Bool.true_eq_false]
          rcases him : info.impl rt with _ | impl
          · exact ⟨[], h1, ⟨rfl, rfl⟩, h3⟩
          · simp only
            by_cases hc : inst ≠ impl ∧ g.mayEnter impl = false
            · have hc' : ¬ inst = impl ∧ g.mayEnter impl = false := hc
              simp only [if_pos hc']; exact ⟨[], h1, ⟨rfl, rfl⟩, h3⟩
            · have hc' : ¬ (¬ inst = impl ∧ g.mayEnter impl = false) := hc
              simp only [if_neg hc']
              by_cases hd : info.hasDtor rt = true
              · simp only [hd, if_true]
                refine ⟨[(rt, (w'.elems n).rep)], ?_, ⟨rfl, by rw [he]⟩, ?_⟩
                · show _ :: w'.dtors = _; rw [h1]; rfl
                · exact ⟨h3.tinv, h3.stands, h3.elems, h3.next, h3.taken, h3.held, h3.enter⟩
              · simp only [hd]; exact ⟨[], h1, by simp [unitRes], h3⟩
        · have ho' : (g.handle n).own = false := by simpa using ho
          simp only [ho', Bool.not_false, if_true]
          exact ⟨[], h1, ⟨rfl, rfl⟩, h3⟩
      · rw [if_neg hl] at h4
        subst h4
        have e : step info w (.drop inst rt i) = (.err, w') := by
          simp only [step, canonResourceDrop]
          rw [SM.bind_err hr]; rfl
        rw [e]
        simp only [ne_eq, hl, not_false_eq_true, if_true]
        exact ⟨[], h1, ⟨trivial, rfl⟩, h3⟩
  | exit cx =>
    by_cases hb : (w.ctxs cx).borrowCount = 0
    · have e : step info w (.exit cx) = (.ok 0, { w with elems := release w.elems (w.ctxs cx).lenders }) := by
        simp [step, exitCall, hb, unitRes]
      rw [e]
      rw [hQ.held] at hb
      refine ⟨[], rfl, ⟨rfl, by rw [if_pos hb]⟩, ?_⟩
      simp only [Ledger.next, if_pos hb]
      refine ⟨hQ.tinv, hQ.stands, ?_, hQ.next, hQ.taken, hQ.held, hQ.enter⟩
      intro n
      simp only [release_count, hQ.elems, hQ.taken]
    · have e : step info w (.exit cx) = (.err, w) := by
        simp [step, exitCall, hb, unitRes]
      rw [e]
      rw [hQ.held] at hb
      refine ⟨[], rfl, ⟨rfl, by rw [if_neg hb]⟩, ?_⟩
      simp only [Ledger.next, if_neg hb]; exact hQ
  | flag inst b =>
    refine ⟨[], rfl, ⟨rfl, rfl⟩, ?_⟩
    refine ⟨hQ.tinv, hQ.stands, hQ.elems, hQ.next, hQ.taken, hQ.held, ?_⟩
    show upd w.mayEnter inst b = upd g.mayEnter inst b
    rw [hQ.enter]

theorem booksFrom_append (info : RTInfo) (w : World) (a : State) (g : Ledger) (ops ops' : List Op) :
    booksFrom info w g (ops ++ ops') = booksFrom info (run info w a ops).1 (booksFrom info w g ops) ops' := by
  induction ops generalizing w a g with
  | nil => rfl
  | cons op ops ih => exact ih _ _ _

theorem books_snoc (info : RTInfo) (ops : List Op) (op : Op) : Ledger.after info (ops ++ [op]) =
    (Ledger.after info ops).next info op (step info (World.after info ops) op).1 := by
  simp only [Ledger.after, booksFrom_append info _ .init, booksFrom]
  rfl

theorem fits_prefix (info : RTInfo) (ops ops' : List Op) (h : (World.after info (ops ++ ops')).Fits) :
    (World.after info ops).Fits := by
  unfold World.after at h
  rw [run_append] at h
  exact run_fits info _ _ ops' h

/-- The books describe the world after every history. -/
theorem books_ok (info : RTInfo) (ops : List Op) (hf : (World.after info ops).Fits) :
    Q (World.after info ops) (Ledger.after info ops) := by
  induction ops using List.reverseRecOn with
  | nil => exact Q.init
  | append_singleton ops op ih =>
    have hp := fits_prefix info ops [op] hf
    rw [(after_snoc info ops op).1] at hf ⊢
    rw [books_snoc]
    exact (book_step (ih hp) info op hp fun _ _ _ => hf).choose_spec.2.2

/-- C32, for every history of the operations, also one that uses calls after their end: each operation has a
result the books allow, and calls the destructors they say. So an index stands for the handle it was returned
for until that is taken out, and adding never returns an index that stands for a handle.
Missing, because it is false: tables with `2 ^ 32` slots, see `add_returns_live`. -/
theorem ledger_spec_partial (info : RTInfo) (ops : List Op) (op : Op) (hf : (World.after info (ops ++ [op])).Fits) :
    ∃ calls, (World.after info (ops ++ [op])).dtors = calls ++ (World.after info ops).dtors ∧
      (Ledger.after info ops).Allowed info calls op (step info (World.after info ops) op).1 := by
  have hp := fits_prefix info ops [op] hf
  rw [(after_snoc info ops op).1] at hf ⊢
  obtain ⟨calls, h1, h2, -⟩ := book_step (books_ok info ops hp) info op hp fun _ _ _ => hf
  exact ⟨calls, h1, h2⟩

/-! ## C35: taken out for good -/

theorem hold_stands (g : Ledger) (s : Option CtxId) (k : Int) : (g.hold s k).stands = g.stands := (hold_eqs g s k).1

theorem removed_stands (g : Ledger) (l l' : Loc) (h : g.stands l = none) : (g.removed l').stands l = none := by
  unfold Ledger.removed
  split
  · split
    · rw [hold_stands]
      simp only [upd]
      split
      · rfl
      · exact h
    · exact h
  · exact h

theorem made_stands (g : Ledger) (inst : InstId) (rt : RT) (hd : Handle) (r : Res U32) (l : Loc) (h : g.stands l = none)
    (hr : l.inst = inst → l.rt = rt → r ≠ .ok l.idx) : (g.made inst rt hd r).stands l = none := by
  unfold Ledger.made
  cases r with
  | ok i =>
    simp only [hold_stands]
    rw [upd_other]
    · exact h
    · rintro rfl; exact hr rfl rfl rfl
  | _ => exact h

theorem next_stands (info : RTInfo) (g : Ledger) (op : Op) (r : Res U32) (l : Loc) (h : g.stands l = none)
    (hr : op.addsTo l.inst l.rt → r ≠ .ok l.idx) : (g.next info op r).stands l = none := by
  cases op with
  | new inst rt rep => exact made_stands _ _ _ _ _ _ h fun e1 e2 => hr (by subst e1 e2; simp [Op.addsTo])
  | lowerOwn inst rt rep => exact made_stands _ _ _ _ _ _ h fun e1 e2 => hr (by subst e1 e2; simp [Op.addsTo])
  | lowerBorrow inst cx rt rep =>
    simp only [Ledger.next]
    split
    · exact h
    · exact made_stands _ _ _ _ _ _ h fun e1 e2 => hr (by subst e1 e2; simp [Op.addsTo])
  | rep inst rt i => exact h
  | drop inst rt i => exact removed_stands _ _ _ h
  | liftOwn inst rt i => exact removed_stands _ _ _ h
  | liftBorrow inst cx rt i => simp only [Ledger.next]; split <;> exact h
  | exit cx => simp only [Ledger.next]; split <;> exact h
  | flag inst b => exact h

theorem run_world (info : RTInfo) (w : World) (a b : State) (ops : List Op) : (run info w a ops).1 = (run info w b ops).1 := by
  induction ops generalizing w a b with
  | nil => rfl
  | cons op ops ih => exact ih _ _ _

theorem dead_stands (info : RTInfo) (w : World) (g : Ledger) (ops : List Op) (l : Loc) (h : g.stands l = none)
    (hno : ∀ ops1 op ops2, ops = ops1 ++ op :: ops2 → op.addsTo l.inst l.rt →
      (step info (run info w .init ops1).1 op).1 ≠ .ok l.idx) : (booksFrom info w g ops).stands l = none := by
  induction ops generalizing w g with
  | nil => exact h
  | cons op ops ih =>
    refine ih _ _ (next_stands info g op _ l h fun ha => hno [] op ops rfl ha) fun ops1 op' ops2 e ha => ?_
    have := hno (op :: ops1) op' ops2 (by rw [e]; rfl) ha
    rwa [run_world info _ .init (State.next info .init op (step info w op).1)]

theorem after_append (info : RTInfo) (ops more : List Op) :
    World.after info (ops ++ more) = (run info (World.after info ops) .init more).1 := by
  unfold World.after
  rw [run_append]
  exact run_world info _ _ _ _

theorem books_append (info : RTInfo) (ops more : List Op) :
    Ledger.after info (ops ++ more) = booksFrom info (World.after info ops) (Ledger.after info ops) more :=
  booksFrom_append info _ .init _ _ _

/-- What the four operations that use an index do, by the books. -/
theorem uses_by_books (info : RTInfo) (ops : List Op) (hf : (World.after info ops).Fits) (l : Loc) (cx : CtxId) :
    let w := World.after info ops
    let g := Ledger.after info ops
    (g.stands l = none → (step info w (.rep l.inst l.rt l.idx)).1 = .err ∧ (step info w (.liftOwn l.inst l.rt l.idx)).1 = .err ∧
      (step info w (.liftBorrow l.inst cx l.rt l.idx)).1 = .err ∧ (step info w (.drop l.inst l.rt l.idx)).1 = .err) ∧
    ∀ n, g.stands l = some n → (step info w (.rep l.inst l.rt l.idx)).1 = .ok (g.handle n).rep ∧
      (step info w (.liftBorrow l.inst cx l.rt l.idx)).1 = .ok (g.handle n).rep ∧
      (step info w (.liftOwn l.inst l.rt l.idx)).1 = if g.loans n = 0 then .ok (g.handle n).rep else .err := by
  intro w g
  have hQ : Q w g := books_ok info ops hf
  obtain ⟨c1, -, h1, -⟩ := book_step hQ info (.rep l.inst l.rt l.idx) hf (fun _ _ h => False.elim h)
  obtain ⟨c2, -, h2, -⟩ := book_step hQ info (.liftOwn l.inst l.rt l.idx) hf (fun _ _ h => False.elim h)
  obtain ⟨c3, -, h3, -⟩ := book_step hQ info (.liftBorrow l.inst cx l.rt l.idx) hf (fun _ _ h => False.elim h)
  obtain ⟨c4, -, h4, -⟩ := book_step hQ info (.drop l.inst l.rt l.idx) hf (fun _ _ h => False.elim h)
  replace h1 := h1.2
  replace h2 := h2.2
  replace h3 := h3.2
  simp only [Ledger.Allowed] at h4
  constructor
  · intro hs
    have hs' : g.stands ⟨l.inst, l.rt, l.idx⟩ = none := hs
    rw [hs'] at h1 h2 h3 h4
    exact ⟨h1, h2, h3, h4.1⟩
  · intro n hs
    have hs' : g.stands ⟨l.inst, l.rt, l.idx⟩ = some n := hs
    rw [hs'] at h1 h2 h3
    exact ⟨h1, h3, h2⟩

/-- The operation makes a handle of that representation in the instance. -/
def Op.makes (info : RTInfo) (inst : InstId) (rt : RT) (rep : U32) (op : Op) : Prop :=
  op = .new inst rt rep ∨ op = .lowerOwn inst rt rep ∨ ∃ cx, op = .lowerBorrow inst cx rt rep ∧ info.impl rt ≠ some inst

theorem removed_stands_other (g : Ledger) (l l' : Loc) (h : l ≠ l') : (g.removed l').stands l = g.stands l ∧
    (g.removed l').handle = g.handle ∧ (g.removed l').count = g.count := by
  unfold Ledger.removed
  split
  · split
    · obtain ⟨q1, q2, q3, -⟩ := hold_eqs { g with stands := upd g.stands l' none } (g.handle ‹Nat›).scope (-1)
      refine ⟨?_, q2, q3⟩
      rw [q1]; exact upd_other _ _ h
    · exact ⟨rfl, rfl, rfl⟩
  · exact ⟨rfl, rfl, rfl⟩

/-- An index that stands for a handle goes on standing for it, unless it is dropped or lifted as an own. -/
theorem stands_kept (info : RTInfo) (g : Ledger) (op : Op) (r : Res U32) (calls : List (RT × U32)) (ha : g.Allowed info calls op r)
    (l : Loc) (n : Nat) (hn : n < g.count) (h : g.stands l = some n) (h1 : op ≠ .drop l.inst l.rt l.idx)
    (h2 : op ≠ .liftOwn l.inst l.rt l.idx) :
    (g.next info op r).stands l = some n ∧ (g.next info op r).handle n = g.handle n ∧ n < (g.next info op r).count := by
  have made : ∀ inst rt hd, g.AddAllowed inst rt r → (g.made inst rt hd r).stands l = some n ∧
      (g.made inst rt hd r).handle n = g.handle n ∧ n < (g.made inst rt hd r).count := by
    intro inst rt hd hadd
    unfold Ledger.made
    rcases hadd with rfl | ⟨i, rfl, hfree⟩
    · exact ⟨h, upd_other _ _ (Nat.ne_of_lt hn), Nat.lt_succ_of_lt hn⟩
    · simp only
      obtain ⟨q1, q2, q3, -⟩ := hold_eqs { g with
        handle := upd g.handle g.count hd, count := g.count + 1, loans := upd g.loans g.count 0,
        stands := upd g.stands ⟨inst, rt, i⟩ (some g.count) } hd.scope 1
      refine ⟨?_, ?_, ?_⟩
      · rw [q1]
        refine (upd_other _ _ ?_).trans h
        rintro rfl; rw [h] at hfree; cases hfree
      · rw [q2]; exact upd_other _ _ (Nat.ne_of_lt hn)
      · rw [q3]; exact Nat.lt_succ_of_lt hn
  have gone : ∀ l', l ≠ l' → (g.removed l').stands l = some n ∧ (g.removed l').handle n = g.handle n ∧ n < (g.removed l').count := by
    intro l' hl
    obtain ⟨q1, q2, q3⟩ := removed_stands_other g l l' hl
    rw [q1, q2, q3]; exact ⟨h, rfl, hn⟩
  cases op with
  | new inst rt rep => exact made _ _ _ ha.2
  | lowerOwn inst rt rep => exact made _ _ _ ha.2
  | lowerBorrow inst cx rt rep =>
    simp only [Ledger.next]
    by_cases hi : info.impl rt = some inst
    · rw [if_pos hi]; exact ⟨h, rfl, hn⟩
    · have := ha.2
      rw [if_neg hi] at this
      rw [if_neg hi]; exact made _ _ _ this
  | rep inst rt i => exact ⟨h, rfl, hn⟩
  | drop inst rt i => exact gone _ (fun e => h1 (by subst e; rfl))
  | liftOwn inst rt i => exact gone _ (fun e => h2 (by subst e; rfl))
  | liftBorrow inst cx rt i => simp only [Ledger.next]; split <;> exact ⟨h, rfl, hn⟩
  | exit cx => simp only [Ledger.next]; split <;> exact ⟨h, rfl, hn⟩
  | flag inst b => exact ⟨h, rfl, hn⟩

theorem makes_stands (info : RTInfo) (g : Ledger) (op : Op) (l : Loc) (rep : U32) (h : op.makes info l.inst l.rt rep) :
    (g.next info op (.ok l.idx)).stands l = some g.count ∧ ((g.next info op (.ok l.idx)).handle g.count).rep = rep ∧
    g.count < (g.next info op (.ok l.idx)).count := by
  have made : ∀ hd : Handle, hd.rep = rep → (g.made l.inst l.rt hd (.ok l.idx)).stands l = some g.count ∧
      ((g.made l.inst l.rt hd (.ok l.idx)).handle g.count).rep = rep ∧ g.count < (g.made l.inst l.rt hd (.ok l.idx)).count := by
    intro hd hr
    simp only [Ledger.made]
    obtain ⟨q1, q2, q3, -⟩ := hold_eqs { g with
      handle := upd g.handle g.count hd, count := g.count + 1, loans := upd g.loans g.count 0,
      stands := upd g.stands ⟨l.inst, l.rt, l.idx⟩ (some g.count) } hd.scope 1
    refine ⟨?_, ?_, ?_⟩
    · rw [q1]; exact upd_same _ _ _
    · rw [q2]; show (upd g.handle g.count hd g.count).rep = _; rw [upd_same]; exact hr
    · rw [q3]; exact Nat.lt_succ_self _
  rcases h with rfl | rfl | ⟨cx, rfl, hi⟩
  · exact made ⟨rep, true, none⟩ rfl
  · exact made ⟨rep, true, none⟩ rfl
  · simp only [Ledger.next, if_neg hi]; exact made ⟨rep, false, some cx⟩ rfl

/-- C32 and C35, in terms of calls and results alone, for every history: an index that was returned for a handle with
a representation gives that representation, however it is read or lent, until it is dropped or lifted as an own. Lifting
it as an own gives that representation too, or an error.
Missing, because it is false: tables with `2 ^ 32` slots, see `full_table_fails` and `wrapped_index`. -/
theorem index_keeps_partial (info : RTInfo) (ops more : List Op) (op : Op) (l : Loc) (rep : U32)
    (hf : (World.after info (ops ++ op :: more)).Fits) (hm : op.makes info l.inst l.rt rep)
    (hr : (step info (World.after info ops) op).1 = .ok l.idx)
    (hno : ∀ o ∈ more, o ≠ .drop l.inst l.rt l.idx ∧ o ≠ .liftOwn l.inst l.rt l.idx) (cx : CtxId) :
    let w := World.after info (ops ++ op :: more)
    (step info w (.rep l.inst l.rt l.idx)).1 = .ok rep ∧ (step info w (.liftBorrow l.inst cx l.rt l.idx)).1 = .ok rep ∧
    ((step info w (.liftOwn l.inst l.rt l.idx)).1 = .ok rep ∨ (step info w (.liftOwn l.inst l.rt l.idx)).1 = .err) := by
  intro w
  have key : ∃ n, (Ledger.after info (ops ++ op :: more)).stands l = some n ∧
      ((Ledger.after info (ops ++ op :: more)).handle n).rep = rep ∧ n < (Ledger.after info (ops ++ op :: more)).count := by
    induction more using List.reverseRecOn with
    | nil =>
      rw [books_snoc, hr]
      exact ⟨_, makes_stands info _ op l rep hm⟩
    | append_singleton more o ih =>
      have e : ops ++ op :: (more ++ [o]) = (ops ++ op :: more) ++ [o] := by simp
      rw [e] at hf
      have hp := fits_prefix info _ [o] hf
      obtain ⟨n, h1, h2, h3⟩ := ih hp (fun o' ho' => hno o' (by simp [ho']))
      obtain ⟨calls, -, ha⟩ := ledger_spec_partial info _ o hf
      rw [e, books_snoc]
      obtain ⟨k1, k2⟩ := hno o (by simp)
      obtain ⟨h4, h5, h6⟩ := stands_kept info _ o _ calls ha l n h3 h1 k1 k2
      exact ⟨n, h4, by rw [h5]; exact h2, h6⟩
  obtain ⟨n, h1, h2, -⟩ := key
  obtain ⟨h3, h4, h5⟩ := (uses_by_books info _ hf l cx).2 n h1
  rw [h2] at h3 h4 h5
  refine ⟨h3, h4, ?_⟩
  rw [show w = World.after info (ops ++ op :: more) from rfl, h5]
  by_cases hl : (Ledger.after info (ops ++ op :: more)).loans n = 0
  · rw [if_pos hl]; exact .inl rfl
  · rw [if_neg hl]; exact .inr rfl

/-- C35, for every history: after lifting an own succeeded, every use of the index fails until an operation that adds
a handle returns it again.
Missing, because it is false: tables with `2 ^ 32` slots, see `full_table_fails` and `wrapped_index`. -/
theorem lifted_index_dead_partial (info : RTInfo) (ops more : List Op) (l : Loc) (x : U32)
    (hf : (World.after info (ops ++ .liftOwn l.inst l.rt l.idx :: more)).Fits)
    (hx : (step info (World.after info ops) (.liftOwn l.inst l.rt l.idx)).1 = .ok x)
    (hno : ∀ more1 op more2, more = more1 ++ op :: more2 → op.addsTo l.inst l.rt →
      (step info (World.after info (ops ++ .liftOwn l.inst l.rt l.idx :: more1)) op).1 ≠ .ok l.idx) (cx : CtxId) :
    let w := World.after info (ops ++ .liftOwn l.inst l.rt l.idx :: more)
    (step info w (.rep l.inst l.rt l.idx)).1 = .err ∧ (step info w (.liftOwn l.inst l.rt l.idx)).1 = .err ∧
    (step info w (.liftBorrow l.inst cx l.rt l.idx)).1 = .err ∧ (step info w (.drop l.inst l.rt l.idx)).1 = .err := by
  intro w
  refine (uses_by_books info _ hf l cx).1 ?_
  have e : ∀ m, ops ++ .liftOwn l.inst l.rt l.idx :: m = (ops ++ [.liftOwn l.inst l.rt l.idx]) ++ m := by simp
  rw [e] at hf ⊢
  have hp := fits_prefix info _ _ hf
  have hdead : (Ledger.after info (ops ++ [.liftOwn l.inst l.rt l.idx])).stands l = none := by
    obtain ⟨calls, -, ha⟩ := ledger_spec_partial info ops (.liftOwn l.inst l.rt l.idx) hp
    rw [books_snoc]
    replace ha := ha.2
    rw [hx] at ha
    simp only [Ledger.next, Ledger.removed]
    rcases hs : (Ledger.after info ops).stands ⟨l.inst, l.rt, l.idx⟩ with _ | n
    · rw [hs] at ha; cases ha
    · rw [hs] at ha
      simp only at ha
      by_cases hl : (Ledger.after info ops).loans n = 0
      · simp only [if_pos hl, hold_stands]; exact upd_same _ _ _
      · rw [if_neg hl] at ha; cases ha
  rw [books_append]
  refine dead_stands info _ _ more l hdead fun m1 op m2 em ha => ?_
  have := hno m1 op m2 em ha
  rw [e, after_append] at this
  exact this

/-! ## C36: destructors -/

/-- C36, for every history: a drop calls the destructor exactly when the index stands for an own handle that has no
open loans, the implementing instance is the dropping one or may be entered, and the type has a destructor; it is
called once, with the representation of the handle. No other operation calls a destructor.
Missing, because it is false: tables with `2 ^ 32` slots, see `full_table_fails` and `wrapped_index`. -/
theorem drop_destructs_any_partial (info : RTInfo) (ops : List Op) (op : Op) (hf : (World.after info (ops ++ [op])).Fits) :
    ∃ calls, (World.after info (ops ++ [op])).dtors = calls ++ (World.after info ops).dtors ∧
      ∀ rt rep, (rt, rep) ∈ calls ↔ calls = [(rt, rep)] ∧ ∃ inst i impl n,
        op = .drop inst rt i ∧ (Ledger.after info ops).stands ⟨inst, rt, i⟩ = some n ∧
        ((Ledger.after info ops).handle n).own = true ∧ ((Ledger.after info ops).handle n).rep = rep ∧
        (Ledger.after info ops).loans n = 0 ∧ info.impl rt = some impl ∧
        (inst = impl ∨ (Ledger.after info ops).mayEnter impl = true) ∧ info.hasDtor rt = true := by
  obtain ⟨calls, h1, h2⟩ := ledger_spec_partial info ops op hf
  refine ⟨calls, h1, fun rt rep => ?_⟩
  by_cases hop : ∃ inst rt i, op = .drop inst rt i
  · obtain ⟨inst, rt', i, rfl⟩ := hop
    simp only [Ledger.Allowed] at h2
    rcases hl : (Ledger.after info ops).stands ⟨inst, rt', i⟩ with _ | n
    · rw [hl] at h2
      rw [h2.2]
      simp
    · rw [hl] at h2
      simp only at h2
      by_cases hlent : (Ledger.after info ops).loans n ≠ 0
      · rw [if_pos hlent] at h2
        rw [h2.2]; simp
      · rw [if_neg hlent] at h2
        by_cases ho : ((Ledger.after info ops).handle n).own = false
        · rw [if_pos ho] at h2; rw [h2.2]; simp
        · rw [if_neg ho] at h2
          rcases hi : info.impl rt' with _ | impl
          · rw [hi] at h2; rw [h2.2]; simp
          · rw [hi] at h2
            simp only at h2
            by_cases hg : inst ≠ impl ∧ (Ledger.after info ops).mayEnter impl = false
            · rw [if_pos hg] at h2; rw [h2.2]; simp
            · rw [if_neg hg] at h2
              by_cases hd' : info.hasDtor rt'
              · rw [if_pos hd'] at h2
                rw [h2.2]
                constructor
                · intro hm
                  simp only [List.mem_singleton, Prod.mk.injEq] at hm
                  obtain ⟨rfl, rfl⟩ := hm
                  refine ⟨rfl, inst, i, impl, n, rfl, hl, by simpa using ho, rfl, by simpa using hlent, hi, ?_, hd'⟩
                  by_cases he : inst = impl
                  · exact .inl he
                  · right
                    by_contra hc
                    exact hg ⟨he, by simpa using hc⟩
                · rintro ⟨h3, _⟩; rw [h3]; simp
              · rw [if_neg hd'] at h2; rw [h2.2]; simp
  · have hc : calls = [] := by
      cases op with
      | drop inst rt i => exact absurd ⟨_, _, _, rfl⟩ hop
      | _ => exact h2.1
    rw [hc]
    constructor
    · intro h; cases h
    · rintro ⟨h, _⟩; cases h

/-! ## C64 -/

/-- C64, the half about dropping, for every history: dropping an index that stands for a borrow handle calls no
destructor. Missing: lifting it as an own should trap and does not (`borrow_lifted_as_own`). -/
theorem drop_borrow_any_partial (info : RTInfo) (ops : List Op) (l : Loc) (n : Nat)
    (hf : (World.after info (ops ++ [.drop l.inst l.rt l.idx])).Fits) (hs : (Ledger.after info ops).stands l = some n)
    (hb : ((Ledger.after info ops).handle n).own = false) :
    (World.after info (ops ++ [.drop l.inst l.rt l.idx])).dtors = (World.after info ops).dtors := by
  obtain ⟨calls, h1, h2⟩ := ledger_spec_partial info ops _ hf
  simp only [Ledger.Allowed] at h2
  rw [show (⟨l.inst, l.rt, l.idx⟩ : Loc) = l from rfl, hs] at h2
  simp only [hb, if_true] at h2
  have : calls = [] := by split at h2 <;> exact h2.2
  rw [h1, this]; rfl

/-! ## Where they fail: tables with `2 ^ 32` slots -/

theorem news_world (info : RTInfo) (reps : List U32) : 
    ((World.after info (reps.map (Op.new 0 0))).tables 0 0) = ⟨(List.range reps.length).map some, []⟩ ∧
    (World.after info (reps.map (Op.new 0 0))).next = reps.length ∧
    ∀ e : Nat, ∀ r, reps[e]? = some r → ((World.after info (reps.map (Op.new 0 0))).elems e).rep = r := by
  induction reps using List.reverseRecOn with
  | nil => exact ⟨rfl, rfl, fun e r h => by simp at h⟩
  | append_singleton reps r ih =>
    rw [List.map_append, List.map_singleton, (after_snoc info _ _).1]
    generalize World.after info (reps.map (Op.new 0 0)) = w at ih ⊢
    obtain ⟨h1, h2, h3⟩ := ih
    have hs : step info w (.new 0 0 r) = (.ok (BitVec.ofNat 32 reps.length),
        ({ w with elems := upd w.elems w.next ⟨r, 0, true, none⟩, next := w.next + 1 }).setTable 0 0
          ⟨(List.range reps.length).map some ++ [some w.next], []⟩) := by
      simp only [step, canonResourceNew]
      rw [SM.bind_ok (show alloc ⟨r, 0, true, none⟩ w = (.ok w.next, { w with
        elems := upd w.elems w.next ⟨r, 0, true, none⟩, next := w.next + 1 }) from rfl)]
      simp only [add, h1, Table.add, List.length_map, List.length_range, World.setTable, upd_same]
    rw [hs]
    refine ⟨?_, ?_, fun e r' he => ?_⟩
    · simp only [World.setTable, upd_same, h2, List.length_append, List.length_singleton, List.range_succ, List.map_append,
        List.map_singleton]
    · show w.next + 1 = _; rw [h2]; simp
    · show (upd w.elems w.next ⟨r, 0, true, none⟩ e).rep = r'
      rw [List.getElem?_append] at he
      split at he
      · next hlt => rw [h2, upd_other _ _ (Nat.ne_of_lt hlt)]; exact h3 e r' he
      · next hlt =>
        rcases hk : e - reps.length with _ | m
        · rw [hk] at he
          have : e = w.next := by rw [h2]; exact Nat.le_antisymm (Nat.sub_eq_zero_iff_le.1 hk) (Nat.not_lt.1 hlt)
          subst this
          rw [upd_same]
          simpa using he
        · rw [hk] at he; simp at he

/-- **C32 and C35, where they fail.** With `2 ^ 32` handles in a table none of them can be used: the length of the table
is compared as a 32 bit number, which is zero. -/
theorem full_table_fails (info : RTInfo) (reps : List U32) (h : reps.length = 2 ^ 32) (i : U32) :
    (step info (World.after info (reps.map (Op.new 0 0))) (.rep 0 0 i)).1 = .err := by
  obtain ⟨h1, -, -⟩ := news_world info reps
  generalize World.after info (reps.map (Op.new 0 0)) = w at h1 ⊢
  simp only [step, canonResourceRep]
  rw [SM.bind_err (show Verif.Handles.get 0 0 i w = (.err, w) from ?_)]
  simp only [Verif.Handles.get, h1, Table.get, List.length_map, List.length_range, h]
  rfl

/-- **C32, where it fails.** The handle made next is given index 0, and index 0 gives the representation of the first
handle, not of the one it was returned for. -/
theorem wrapped_index (info : RTInfo) (reps : List U32) (h : reps.length = 2 ^ 32) (r r0 : U32) (h0 : reps[0]? = some r0) :
    (step info (World.after info (reps.map (Op.new 0 0))) (.new 0 0 r)).1 = .ok 0 ∧
    (step info (World.after info (reps.map (Op.new 0 0) ++ [.new 0 0 r])) (.rep 0 0 0)).1 = .ok r0 := by
  constructor
  · obtain ⟨h1, -, -⟩ := news_world info reps
    generalize World.after info (reps.map (Op.new 0 0)) = w at h1 ⊢
    simp only [step, canonResourceNew]
    rw [SM.bind_ok (show alloc ⟨r, 0, true, none⟩ w = (.ok w.next, { w with
      elems := upd w.elems w.next ⟨r, 0, true, none⟩, next := w.next + 1 }) from rfl)]
    simp only [add, h1, Table.add, List.length_map, List.length_range, World.setTable, upd_same, h]
    rfl
  · obtain ⟨h1, -, h3⟩ := news_world info (reps ++ [r])
    rw [List.map_append, List.map_singleton] at h1 h3
    replace h3 := h3 0 r0 (by rw [List.getElem?_append, if_pos (by rw [h]; decide)]; exact h0)
    generalize World.after info (reps.map (Op.new 0 0) ++ [.new 0 0 r]) = w at h1 h3 ⊢
    simp only [step, canonResourceRep]
    rw [SM.bind_ok (show Verif.Handles.get 0 0 0 w = (.ok 0, w) from ?_)]
    · rw [SM.bind_get]; exact congrArg Res.ok h3
    · simp only [Verif.Handles.get, h1, Table.get, List.length_map, List.length_range, List.length_append,
        List.length_singleton, h]
      rw [if_neg (by decide)]
      have : ((List.range (2 ^ 32 + 1)).map some)[(0 : U32).toNat]? = some (some 0) := by
        rw [List.getElem?_map, List.getElem?_range (by decide)]; rfl
      rw [this]

example : (List.replicate (2 ^ 32) (7 : U32)).length = 2 ^ 32 ∧ (List.replicate (2 ^ 32) (7 : U32))[0]? = some 7 :=
  ⟨List.length_replicate, by rw [List.getElem?_replicate]; rfl⟩

/-! ## The hypotheses hold of histories that use a call after its end -/

theorem fits_of_short (info : RTInfo) (ops : List Op) (h : ops.length < 2 ^ 32) : (World.after info ops).Fits := by
  intro inst rt
  have := run_tables_length info .init .init ops inst rt
  exact Nat.lt_of_le_of_lt (Nat.le_trans this (by simp [World.init, Table.empty])) h

/-- A handle is lent to call 0, which ends; it is lent to call 1, and call 0 ends again. -/
def reused : List Op :=
  [.new 0 5 42, .liftBorrow 0 0 5 0, .exit 0, .liftBorrow 0 1 5 0, .exit 0]

example : (World.after demoInfo (reused ++ [.drop 0 5 0])).Fits ∧ ¬ Valid demoInfo reused ∧
    (Ledger.after demoInfo reused).stands ⟨0, 5, 0⟩ = some 0 ∧ (Ledger.after demoInfo reused).loans 0 = 0 ∧
    (World.after demoInfo (reused ++ [.drop 0 5 0])).dtors = [(5, 42)] := by
  refine ⟨fits_of_short _ _ (by decide), fun h => ?_, by decide, by decide, by decide⟩
  have := h.1.2.2.2.2.1 0 rfl
  exact absurd this (by decide)

/-- `index_keeps_partial`: the first operation makes the handle, the others do not take it. -/
example : (Op.new 0 5 42).makes demoInfo 0 5 42 ∧ (step demoInfo (World.after demoInfo []) (.new 0 5 42)).1 = .ok 0 ∧
    (∀ o ∈ reused.tail, o ≠ .drop 0 5 0 ∧ o ≠ .liftOwn 0 5 0) ∧
    (step demoInfo (World.after demoInfo reused) (.rep 0 5 0)).1 = .ok 42 :=
  ⟨.inl rfl, by decide, by decide, by decide⟩

/-- `lifted_index_dead_partial`: the handle is taken although it is lent to call 1; then its index is dead until a new
handle is made. -/
example : (step demoInfo (World.after demoInfo reused) (.liftOwn 0 5 0)).1 = .ok 42 ∧
    (step demoInfo (World.after demoInfo (reused ++ [.liftOwn 0 5 0, .exit 1])) (.rep 0 5 0)).1 = .err ∧
    (step demoInfo (World.after demoInfo (reused ++ [.liftOwn 0 5 0, .exit 1])) (.new 0 5 43)).1 = .ok 0 := by decide

/-- `drop_borrow_any_partial`. -/
example : (Ledger.after demoInfo [.exit 3, .lowerBorrow 2 3 5 42]).stands ⟨2, 5, 0⟩ = some 0 ∧
    ((Ledger.after demoInfo [.exit 3, .lowerBorrow 2 3 5 42]).handle 0).own = false ∧
    (World.after demoInfo ([.exit 3, .lowerBorrow 2 3 5 42] ++ [.drop 2 5 0])).Fits :=
  ⟨by decide, by decide, fits_of_short _ _ (by decide)⟩

end Verif.Handles
