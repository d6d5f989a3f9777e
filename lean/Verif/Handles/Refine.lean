import Verif.Handles.Lemmas
import Mathlib.Data.List.Forall2

/-!
# The model refines the specification of handles
-/

namespace Verif.Handles
open Verif.Abi (RT)

/-- The element at a place. -/
def World.slot (w : World) (l : Loc) : Option ElemId := (w.tables l.inst l.rt).slot l.idx

/-- What an element stands for. -/
def Elem.handle (e : Elem) : Handle := ⟨e.rep, e.own, e.scope⟩

theorem slot_setTable (w : World) (inst : InstId) (rt : RT) (t : Table) (i : U32) (x : Option ElemId)
    (h : t.slot = upd (w.tables inst rt).slot i x) :
    (w.setTable inst rt t).slot = upd w.slot ⟨inst, rt, i⟩ x := by
  funext ⟨inst', rt', j⟩
  simp only [World.slot, World.setTable, upd, Loc.mk.injEq]
  by_cases h1 : inst' = inst
  · subst h1
    by_cases h2 : rt' = rt
    · subst h2
      simp only [if_true, h, upd, true_and]
    · simp [upd, h2]
  · simp [h1]

theorem slot_setTable_same (w : World) (inst : InstId) (rt : RT) (t : Table)
    (h : t.slot = (w.tables inst rt).slot) : (w.setTable inst rt t).slot = w.slot := by
  funext ⟨inst', rt', j⟩
  simp only [World.slot, World.setTable, upd]
  by_cases h1 : inst' = inst
  · subst h1
    by_cases h2 : rt' = rt
    · subst h2
      simp [upd, h]
    · simp [upd, h2]
  · simp [h1]

theorem tables_setTable (w : World) (inst : InstId) (rt : RT) (t : Table) (P : Table → Prop)
    (h : ∀ inst rt, P (w.tables inst rt)) (ht : P t) : ∀ inst' rt', P ((w.setTable inst rt t).tables inst' rt') := by
  intro inst' rt'
  simp only [World.setTable, upd]
  by_cases h1 : inst' = inst
  · subst h1
    by_cases h2 : rt' = rt
    · simp [h2, ht]
    · simpa [upd, h2] using h inst' rt'
  · simp [h1, h]

/-- Filtering one element out of a list without repetitions lowers a count by one. -/
theorem count_filter_one {α : Type} [DecidableEq α] (l : List α) (x : α) (p q : α → Prop) [DecidablePred p]
    [DecidablePred q] (hn : l.Nodup) (hx : x ∈ l) (hp : p x) (hq : ∀ y ∈ l, ¬ q y ↔ y = x) :
    l.countP (fun y => p y) = (l.filter (fun y => q y)).countP (fun y => p y) + 1 := by
  induction l with
  | nil => cases hx
  | cons y ys ih =>
    rw [List.nodup_cons] at hn
    have hq' : ∀ z ∈ ys, ¬ q z ↔ z = x := fun z hz => hq z (by simp [hz])
    by_cases h : y = x
    · subst h
      have h1 : ¬ q y := (hq y (by simp)).2 rfl
      have h2 : ys.filter (fun z => q z) = ys := by
        rw [List.filter_eq_self]
        intro z hz
        have : z ≠ y := fun e => hn.1 (e ▸ hz)
        have := mt (hq' z hz).1 this
        simpa using this
      rw [List.filter_cons_of_neg (by simpa using h1), h2, List.countP_cons]
      simp [hp]
    · have h1 : q y := by
        have := mt (hq y (by simp)).1 h
        simpa using this
      have hx' : x ∈ ys := by
        rcases List.mem_cons.1 hx with rfl | h'
        · exact absurd rfl h
        · exact h'
      rw [List.filter_cons_of_pos (by simpa using h1), List.countP_cons, List.countP_cons, ih hn.2 hx' hq']
      omega

/-- The abstract state describes the world. -/
structure R (w : World) (a : State) : Prop where
  tinv : ∀ inst rt, TInv (w.tables inst rt)
  live : ∀ l, a.live l = (w.slot l).map (fun e => (w.elems e).handle)
  inj : ∀ l l' e, w.slot l = some e → w.slot l' = some e → l = l'
  lt : ∀ l e, w.slot l = some e → e < w.next
  lend : ∀ l e, w.slot l = some e → (w.elems e).lendCount = (a.lends.countP (fun p => p.2 = l) : Nat)
  lenders : ∀ c, a.exited c = false →
    List.Forall₂ (fun e p => w.slot p.2 = some e) (w.ctxs c).lenders (a.lends.filter (fun p => p.1 = c)).reverse
  active : ∀ p ∈ a.lends, a.exited p.1 = false
  lentLive : ∀ p ∈ a.lends, w.slot p.2 ≠ none
  borrows : ∃ bl : List (CtxId × Loc), bl.Nodup ∧
    (∀ c l, (c, l) ∈ bl ↔ ∃ e, w.slot l = some e ∧ (w.elems e).scope = some c) ∧
    ∀ c, (w.ctxs c).borrowCount = (bl.countP (fun p => p.1 = c) : Nat)
  enter : w.mayEnter = a.mayEnter

theorem R.init : R World.init State.init where
  tinv _ _ := TInv.empty
  live _ := by simp [State.init, World.slot, World.init, Table.slot, Table.empty]
  inj l l' e := by simp [World.slot, World.init, Table.slot, Table.empty]
  lt l e := by simp [World.slot, World.init, Table.slot, Table.empty]
  lend l e := by simp [World.slot, World.init, Table.slot, Table.empty]
  lenders c _ := by simp [World.init, State.init]
  active := by simp [State.init]
  lentLive := by simp [State.init]
  borrows := ⟨[], by simp, by simp [World.slot, World.init, Table.slot, Table.empty], by simp [World.init]⟩
  enter := rfl

/-- Creating a handle. -/
theorem newHandle {w : World} {a : State} (hR : R w a) (inst : InstId) (rt : RT) (e0 : Elem)
    (h0 : e0.lendCount = 0)
    (r : Res U32) (w' : World)
    (hrun : (do let h ← alloc e0; add inst rt h : SM World U32) w = (r, w')) (hf : w'.Fits) :
    w'.dtors = w.dtors ∧ a.AddAllowed inst rt r ∧ R w' (a.added inst rt e0.handle r) := by
  replace hrun : add inst rt w.next { w with elems := upd w.elems w.next e0, next := w.next + 1 } = (r, w') := hrun
  have hlen : ((w.tables inst rt).add w.next).2.array.length < 2 ^ 32 := by
    have := hf inst rt
    simp only [add] at hrun
    rcases hadd : (w.tables inst rt).add w.next with ⟨r1, t1⟩
    rw [hadd] at hrun
    rcases r1 with i | _ | _ | _
    · simp only at hrun
      cases hs : e0.scope <;> simp only [World.setTable, upd_same, hs] at hrun <;>
        · injection hrun with _ hw
          subst hw
          simpa [World.setCtx] using this
    all_goals
      injection hrun with _ hw
      subst hw
      simpa [World.setTable] using this
  obtain ⟨ht, hc⟩ := add_cases _ w.next (hR.tinv inst rt) hlen
  have hne : ∀ l e, w.slot l = some e → e ≠ w.next := fun l e he => Nat.ne_of_lt (hR.lt l e he)
  rcases hc with ⟨h1, h2⟩ | ⟨i, h1, h2, h3⟩
  · -- the error
    simp only [add] at hrun
    rcases hadd : (w.tables inst rt).add w.next with ⟨r1, t1⟩
    rw [hadd] at hrun h1 h2 ht
    simp only at h1 h2 ht
    subst h1
    injection hrun with hr hw
    subst hr
    have hslot : w'.slot = w.slot := by
      subst hw; exact slot_setTable_same _ _ _ _ h2
    have hel : ∀ l e, w.slot l = some e → w'.elems e = w.elems e := by
      intro l e he; subst hw; exact upd_other _ _ (hne l e he)
    have hctx : w'.ctxs = w.ctxs := by subst hw; rfl
    have hnext : w'.next = w.next + 1 := by subst hw; rfl
    refine ⟨by subst hw; rfl, .inl rfl, ?_⟩
    show R w' a
    refine ⟨?_, ?_, ?_, ?_, ?_, ?_, hR.active, ?_, ?_, ?_⟩
    · subst hw; exact tables_setTable _ _ _ _ TInv hR.tinv ht
    · intro l
      rw [hR.live, hslot]
      rcases hs : w.slot l with _ | e
      · rfl
      · simp [hel l e hs]
    · rw [hslot]; exact hR.inj
    · intro l e he; rw [hslot] at he; rw [hnext]; exact Nat.lt_succ_of_lt (hR.lt l e he)
    · intro l e he; rw [hslot] at he; rw [hel l e he]; exact hR.lend l e he
    · rw [hslot, hctx]; exact hR.lenders
    · rw [hslot]; exact hR.lentLive
    · obtain ⟨bl, b1, b2, b3⟩ := hR.borrows
      refine ⟨bl, b1, ?_, by rw [hctx]; exact b3⟩
      intro c l
      rw [b2, hslot]
      constructor
      · rintro ⟨e, he, hs⟩; exact ⟨e, he, by rw [hel l e he]; exact hs⟩
      · rintro ⟨e, he, hs⟩; exact ⟨e, he, by rw [hel l e he] at hs; exact hs⟩
    · subst hw; exact hR.enter
  · -- success
    simp only [add] at hrun
    rcases hadd : (w.tables inst rt).add w.next with ⟨r1, t1⟩
    rw [hadd] at hrun h1 h3 ht
    simp only at h1 h3 ht
    subst h1
    simp only [World.setTable, upd_same] at hrun
    have key : r = .ok i ∧ w'.slot = upd w.slot ⟨inst, rt, i⟩ (some w.next) ∧
        w'.elems = upd w.elems w.next e0 ∧ w'.next = w.next + 1 ∧ w'.dtors = w.dtors ∧
        w'.mayEnter = w.mayEnter ∧ (∀ inst rt, TInv (w'.tables inst rt)) ∧
        (∀ c, (w'.ctxs c).lenders = (w.ctxs c).lenders) ∧
        (∀ c, (w'.ctxs c).borrowCount = (w.ctxs c).borrowCount + if e0.scope = some c then 1 else 0) := by
      rcases hs : e0.scope with _ | c
      · simp only [hs] at hrun
        injection hrun with hr hw
        subst hr; subst hw
        refine ⟨rfl, slot_setTable w inst rt t1 i _ h3, rfl, rfl, rfl, rfl,
          tables_setTable w _ _ _ TInv hR.tinv ht, fun _ => rfl, fun _ => by simp⟩
      · simp only [hs] at hrun
        injection hrun with hr hw
        subst hr; subst hw
        refine ⟨rfl, slot_setTable w inst rt t1 i _ h3, rfl, rfl, rfl, rfl,
          tables_setTable w _ _ _ TInv hR.tinv ht, ?_, ?_⟩
        · intro c'
          simp only [World.setCtx, upd]
          split
          · subst_vars; rfl
          · rfl
        · intro c'
          simp only [World.setCtx, upd, Option.some.injEq]
          by_cases h : c' = c
          · subst h; simp
          · have : c ≠ c' := fun e => h e.symm
            simp [h, this]
    obtain ⟨hr, hslot, hel, hnext, hd, hme, htinv, hlend, hbc⟩ := key
    subst hr
    have hl0 : w.slot ⟨inst, rt, i⟩ = none := h2
    have hnl : ∀ l e, w'.slot l = some e → (l = ⟨inst, rt, i⟩ ∧ e = w.next) ∨ (l ≠ ⟨inst, rt, i⟩ ∧ w.slot l = some e) := by
      intro l e he
      rw [hslot] at he
      by_cases h : l = ⟨inst, rt, i⟩
      · subst h; simp at he; exact .inl ⟨rfl, he.symm⟩
      · rw [upd_other _ _ h] at he; exact .inr ⟨h, he⟩
    have hold : ∀ l e, w.slot l = some e → w'.slot l = some e ∧ w'.elems e = w.elems e ∧ l ≠ ⟨inst, rt, i⟩ := by
      intro l e he
      have : l ≠ ⟨inst, rt, i⟩ := by intro h; subst h; rw [hl0] at he; cases he
      exact ⟨by rw [hslot, upd_other _ _ this, he], by rw [hel]; exact upd_other _ _ (hne l e he), this⟩
    refine ⟨hd, .inr ⟨i, rfl, ?_⟩, ?_⟩
    · rw [hR.live, hl0]; rfl
    show R w' { a with live := upd a.live ⟨inst, rt, i⟩ (some e0.handle) }
    refine ⟨htinv, ?_, ?_, ?_, ?_, ?_, hR.active, ?_, ?_, ?_⟩
    · intro l
      show upd a.live _ _ l = _
      by_cases h : l = ⟨inst, rt, i⟩
      · subst h; rw [hslot, hel]; simp
      · rw [upd_other _ _ h, hR.live, hslot, upd_other _ _ h]
        rcases hs : w.slot l with _ | e
        · rfl
        · simp [(hold l e hs).2.1]
    · intro l l' e he he'
      rcases hnl l e he with ⟨rfl, rfl⟩ | ⟨h, hs⟩
      · rcases hnl l' _ he' with ⟨rfl, _⟩ | ⟨h, hs⟩
        · rfl
        · exact absurd rfl (hne _ _ hs)
      · rcases hnl l' _ he' with ⟨rfl, rfl⟩ | ⟨h', hs'⟩
        · exact absurd rfl (hne _ _ hs)
        · exact hR.inj _ _ _ hs hs'
    · intro l e he
      rcases hnl l e he with ⟨rfl, rfl⟩ | ⟨h, hs⟩
      · rw [hnext]; exact Nat.lt_succ_self _
      · rw [hnext]; exact Nat.lt_succ_of_lt (hR.lt l e hs)
    · intro l e he
      show _ = ((a.lends.countP (fun p => p.2 = l) : Nat) : Int)
      rcases hnl l e he with ⟨rfl, rfl⟩ | ⟨h, hs⟩
      · rw [hel, upd_same, h0, List.countP_eq_zero.2]
        · rfl
        · intro p hp heq
          have := hR.lentLive p hp
          simp only [decide_eq_true_eq] at heq
          rw [heq] at this; exact this hl0
      · rw [(hold l e hs).2.1]; exact hR.lend l e hs
    · intro c hc
      rw [hlend]
      exact (hR.lenders c hc).imp (fun e p h => (hold _ _ h).1)
    · intro p hp
      have := hR.lentLive p hp
      rcases hs : w.slot p.2 with _ | e
      · exact absurd hs this
      · rw [(hold _ _ hs).1]; simp
    · obtain ⟨bl, b1, b2, b3⟩ := hR.borrows
      rcases hs : e0.scope with _ | c
      · refine ⟨bl, b1, ?_, ?_⟩
        · intro c l
          rw [b2]
          constructor
          · rintro ⟨e, he, h⟩; exact ⟨e, (hold l e he).1, by rw [(hold l e he).2.1]; exact h⟩
          · rintro ⟨e, he, h⟩
            rcases hnl l e he with ⟨rfl, rfl⟩ | ⟨h', hs'⟩
            · rw [hel, upd_same, hs] at h; cases h
            · exact ⟨e, hs', by rw [(hold l e hs').2.1] at h; exact h⟩
        · intro c; rw [hbc, b3, hs]; simp
      · refine ⟨(c, ⟨inst, rt, i⟩) :: bl, ?_, ?_, ?_⟩
        · refine List.nodup_cons.2 ⟨?_, b1⟩
          rw [b2]; rintro ⟨e, he, _⟩; rw [hl0] at he; cases he
        · intro c' l
          rw [List.mem_cons, b2]
          constructor
          · rintro (h | ⟨e, he, h⟩)
            · injection h with h1 h2; subst h1; subst h2
              exact ⟨w.next, by rw [hslot, upd_same], by rw [hel, upd_same, hs]⟩
            · exact ⟨e, (hold l e he).1, by rw [(hold l e he).2.1]; exact h⟩
          · rintro ⟨e, he, h⟩
            rcases hnl l e he with ⟨rfl, rfl⟩ | ⟨h', hs'⟩
            · rw [hel, upd_same, hs] at h; injection h with h; subst h; exact .inl rfl
            · exact .inr ⟨e, hs', by rw [(hold l e hs').2.1] at h; exact h⟩
        · intro c'
          rw [hbc, b3, hs, List.countP_cons]
          by_cases h : c = c' <;> simp [h]
    · rw [hme]; exact hR.enter

/-- Taking a handle out. -/
theorem removeHandle {w : World} {a : State} (hR : R w a) (inst : InstId) (rt : RT) (i : U32) (hf : w.Fits)
    (r : Res ElemId) (w' : World) (hrun : remove inst rt i w = (r, w')) :
    w'.dtors = w.dtors ∧ w'.mayEnter = w.mayEnter ∧ w'.elems = w.elems ∧
    R w' (a.removed ⟨inst, rt, i⟩) ∧
    ((r = .err ∧ w' = w ∧ (a.live ⟨inst, rt, i⟩ = none ∨ a.Lent ⟨inst, rt, i⟩)) ∨
      ∃ e, r = .ok e ∧ ¬ a.Lent ⟨inst, rt, i⟩ ∧ a.live ⟨inst, rt, i⟩ = some (w.elems e).handle) := by
  have hlentiff : ∀ e, w.slot ⟨inst, rt, i⟩ = some e → ((w.elems e).lendCount ≠ 0 ↔ a.Lent ⟨inst, rt, i⟩) := by
    intro e he
    rw [hR.lend _ e he]
    rw [show ((a.lends.countP (fun p => p.2 = (⟨inst, rt, i⟩ : Loc)) : Nat) : Int) ≠ 0 ↔
      0 < a.lends.countP (fun p => p.2 = (⟨inst, rt, i⟩ : Loc)) by omega, List.countP_pos_iff]
    constructor
    · rintro ⟨⟨c, l⟩, h1, h2⟩
      simp only [decide_eq_true_eq] at h2
      subst h2; exact ⟨c, h1⟩
    · rintro ⟨c, h⟩; exact ⟨_, h, by simp⟩
  have hset : w.setTable inst rt (w.tables inst rt) = w := by
    unfold World.setTable
    have : upd w.tables inst (upd (w.tables inst) rt (w.tables inst rt)) = w.tables := by
      funext x y
      by_cases h1 : x = inst
      · subst h1
        by_cases h2 : y = rt
        · subst h2; simp
        · rw [upd_same, upd_other _ _ h2]
      · rw [upd_other _ _ h1]
    rw [this]
  have hlive := hR.live ⟨inst, rt, i⟩
  rcases remove_cases _ (fun e => (w.elems e).lendCount) i (hR.tinv inst rt) (hf inst rt) with
    ⟨h1, h2⟩ | ⟨e, h1, h2, h3⟩ | ⟨e, t', h1, h2, h3, h4, h5, _⟩
  · simp only [remove, h2, hset] at hrun
    injection hrun with hr hw
    subst hr; subst hw
    have hs : w.slot ⟨inst, rt, i⟩ = none := h1
    rw [hs] at hlive
    refine ⟨rfl, rfl, rfl, ?_, .inl ⟨rfl, rfl, .inl hlive⟩⟩
    have : a.removed ⟨inst, rt, i⟩ = a := by
      unfold State.removed
      split
      · rfl
      · have : upd a.live ⟨inst, rt, i⟩ none = a.live := by
          funext l; unfold upd; split
          · subst_vars; exact hlive.symm
          · rfl
        rw [this]
    rw [this]; exact hR
  · simp only [remove, h3, hset] at hrun
    injection hrun with hr hw
    subst hr; subst hw
    have hl := (hlentiff e h1).1 h2
    refine ⟨rfl, rfl, rfl, ?_, .inl ⟨rfl, rfl, .inr hl⟩⟩
    rw [State.removed, if_pos hl]; exact hR
  · have hs : w.slot ⟨inst, rt, i⟩ = some e := h1
    have hnl : ¬ a.Lent ⟨inst, rt, i⟩ := fun h => (hlentiff e hs).2 h h2
    rw [hs] at hlive
    have key : r = .ok e ∧ w'.slot = upd w.slot ⟨inst, rt, i⟩ none ∧
        w'.elems = w.elems ∧ w'.next = w.next ∧ w'.dtors = w.dtors ∧
        w'.mayEnter = w.mayEnter ∧ (∀ inst rt, TInv (w'.tables inst rt)) ∧
        (∀ c, (w'.ctxs c).lenders = (w.ctxs c).lenders) ∧
        (∀ c, (w'.ctxs c).borrowCount = (w.ctxs c).borrowCount - if (w.elems e).scope = some c then 1 else 0) := by
      simp only [remove, h3, World.setTable] at hrun
      rcases hsc : (w.elems e).scope with _ | c
      · simp only [hsc] at hrun
        injection hrun with hr hw
        subst hr; subst hw
        exact ⟨rfl, slot_setTable w inst rt t' i _ h5, rfl, rfl, rfl, rfl,
          tables_setTable w _ _ _ TInv hR.tinv h4, fun _ => rfl, fun _ => by simp⟩
      · simp only [hsc] at hrun
        injection hrun with hr hw
        subst hr; subst hw
        refine ⟨rfl, slot_setTable w inst rt t' i _ h5, rfl, rfl, rfl, rfl,
          tables_setTable w _ _ _ TInv hR.tinv h4, ?_, ?_⟩
        · intro c'
          simp only [World.setCtx, upd]
          split
          · subst_vars; rfl
          · rfl
        · intro c'
          simp only [World.setCtx, upd, Option.some.injEq]
          by_cases h : c' = c
          · subst h; simp
          · have : c ≠ c' := fun e => h e.symm
            simp [h, this]
    obtain ⟨hr, hslot, hel, hnext, hd, hme, htinv, hlend, hbc⟩ := key
    refine ⟨hd, hme, hel, ?_, .inr ⟨e, hr, hnl, by rw [hlive]; rfl⟩⟩
    rw [State.removed, if_neg hnl]
    have hsub : ∀ l e', w'.slot l = some e' ↔ (l ≠ ⟨inst, rt, i⟩ ∧ w.slot l = some e') := by
      intro l e'
      rw [hslot]
      by_cases h : l = ⟨inst, rt, i⟩
      · subst h; simp
      · rw [upd_other _ _ h]; simp [h]
    refine ⟨htinv, ?_, ?_, ?_, ?_, ?_, hR.active, ?_, ?_, ?_⟩
    · intro l
      show upd a.live _ _ l = _
      by_cases h : l = ⟨inst, rt, i⟩
      · subst h; rw [hslot]; simp
      · rw [upd_other _ _ h, hR.live, hslot, upd_other _ _ h, hel]
    · intro l l' e' h h'
      exact hR.inj _ _ _ ((hsub _ _).1 h).2 ((hsub _ _).1 h').2
    · intro l e' h; rw [hnext]; exact hR.lt _ _ ((hsub _ _).1 h).2
    · intro l e' h; rw [hel]; exact hR.lend _ _ ((hsub _ _).1 h).2
    · intro c hc
      rw [hlend]
      have hall : ∀ p ∈ (a.lends.filter (fun p => p.1 = c)).reverse, p.2 ≠ ⟨inst, rt, i⟩ := by
        intro p hp heq
        simp only [List.mem_reverse, List.mem_filter] at hp
        exact hnl ⟨p.1, by rw [← heq]; exact hp.1⟩
      have := hR.lenders c hc
      revert this hall
      generalize (w.ctxs c).lenders = es
      show (∀ p ∈ (a.lends.filter (fun p => p.1 = c)).reverse, _) → _ → List.Forall₂ _ _ (a.lends.filter (fun p => p.1 = c)).reverse
      generalize (a.lends.filter (fun p => p.1 = c)).reverse = ps
      intro hall this
      induction this with
      | nil => exact .nil
      | cons h _ ih =>
        refine .cons ((hsub _ _).2 ⟨hall _ (by simp), h⟩) (ih fun p hp => hall p (by simp [hp]))
    · intro p hp h
      rcases hs' : w.slot p.2 with _ | e'
      · exact hR.lentLive p hp hs'
      · have : p.2 ≠ ⟨inst, rt, i⟩ := fun heq => hnl ⟨p.1, by rw [← heq]; exact hp⟩
        rw [(hsub _ _).2 ⟨this, hs'⟩] at h; cases h
    · obtain ⟨bl, b1, b2, b3⟩ := hR.borrows
      refine ⟨bl.filter (fun p => p.2 ≠ ⟨inst, rt, i⟩), b1.filter _, ?_, ?_⟩
      · intro c l
        rw [List.mem_filter, b2, hel]
        constructor
        · rintro ⟨⟨e', h', h''⟩, hne⟩
          exact ⟨e', (hsub _ _).2 ⟨by simpa using hne, h'⟩, h''⟩
        · rintro ⟨e', h', h''⟩
          have := (hsub _ _).1 h'
          exact ⟨⟨e', this.2, h''⟩, by simpa using this.1⟩
      · intro c
        rw [hbc, b3]
        by_cases hsc : (w.elems e).scope = some c
        · rw [if_pos hsc]
          have hmem : (c, (⟨inst, rt, i⟩ : Loc)) ∈ bl := (b2 _ _).2 ⟨e, hs, hsc⟩
          have huniq : ∀ p ∈ bl, p.2 = ⟨inst, rt, i⟩ → p = (c, ⟨inst, rt, i⟩) := by
            rintro ⟨c', l⟩ hp hl
            simp only at hl; subst hl
            obtain ⟨e', h', h''⟩ := (b2 _ _).1 hp
            rw [hs] at h'; injection h' with h'; subst h'
            rw [hsc] at h''; injection h'' with h''; rw [h'']
          have := count_filter_one bl (c, ⟨inst, rt, i⟩) (fun p => p.1 = c) (fun p => p.2 ≠ ⟨inst, rt, i⟩) b1 hmem
            (by simp) (by
              intro p hp
              constructor
              · intro h; simp at h; exact huniq p hp h
              · rintro rfl; simp)
          omega
        · rw [if_neg hsc]
          have : bl.countP (fun p => p.1 = c) = (bl.filter (fun p => p.2 ≠ ⟨inst, rt, i⟩)).countP (fun p => p.1 = c) := by
            rw [List.countP_filter]
            apply List.countP_congr
            rintro ⟨c', l⟩ hp
            simp only [decide_eq_true_eq, Bool.and_eq_true, ne_eq]
            constructor
            · rintro rfl
              refine ⟨rfl, ?_⟩
              rintro rfl
              obtain ⟨e', h', h''⟩ := (b2 _ _).1 hp
              rw [hs] at h'; injection h' with h'; subst h'
              exact hsc h''
            · exact fun h => h.1
          omega
    · rw [hme]; exact hR.enter

theorem release_other (elems : ElemId → Elem) (es : List ElemId) (e : ElemId) :
    (release elems es e).handle = (elems e).handle ∧
    (release elems es e).lendCount = (elems e).lendCount - (es.count e : Nat) := by
  induction es generalizing elems with
  | nil => simp [release]
  | cons x xs ih =>
    simp only [release]
    obtain ⟨h1, h2⟩ := ih (upd elems x { elems x with lendCount := (elems x).lendCount - 1 })
    rw [h1, h2]
    by_cases h : e = x
    · subst h
      simp only [upd_same, Elem.handle, List.count_cons_self, true_and]
      omega
    · rw [upd_other _ _ h, List.count_cons_of_ne (fun e' => h e'.symm)]
      exact ⟨rfl, rfl⟩

/-- Lending a handle. -/
theorem lendHandle {w : World} {a : State} (hR : R w a) (inst : InstId) (cx : CtxId) (rt : RT) (i : U32)
    (hf : w.Fits) (hc : a.exited cx = false) (r : Res U32) (w' : World) (hrun : liftBorrow inst cx rt i w = (r, w')) :
    w'.dtors = w.dtors ∧
    R w' (a.next ⟨fun _ => none, fun _ => false⟩ (.liftBorrow inst cx rt i) r) ∧
    r = match a.live ⟨inst, rt, i⟩ with | some h => .ok h.rep | none => .err := by
  have hg := get_eq _ i (hf inst rt)
  have hlive := hR.live ⟨inst, rt, i⟩
  rcases hs : w.slot ⟨inst, rt, i⟩ with _ | e
  · have hs' : (w.tables inst rt).slot i = none := hs
    rw [hs'] at hg
    have : liftBorrow inst cx rt i w = (.err, w) := SM.bind_err (by simp [get, hg])
    rw [this] at hrun
    injection hrun with hr hw
    subst hr; subst hw
    rw [hs] at hlive
    refine ⟨rfl, hR, by rw [hlive]; rfl⟩
  · have hs' : (w.tables inst rt).slot i = some e := hs
    rw [hs'] at hg
    have hrun2 : liftBorrow inst cx rt i w = (.ok (w.elems e).rep, { w with
        elems := upd w.elems e { w.elems e with lendCount := (w.elems e).lendCount + 1 }
        ctxs := upd w.ctxs cx { w.ctxs cx with lenders := (w.ctxs cx).lenders ++ [e] } }) := by
      unfold liftBorrow
      rw [SM.bind_ok (a := e) (s' := w) (by simp [get, hg])]
      simp only [SM.bind_def, liftBorrowFrom, SM.get_def, SM.pure_def, upd_same]
    rw [hrun2] at hrun
    injection hrun with hr hw
    subst hr
    rw [hs] at hlive
    have hh : ∀ x, (w'.elems x).handle = (w.elems x).handle := by
      intro x; subst hw
      show (upd w.elems e _ x).handle = _
      by_cases h : x = e
      · subst h; rw [upd_same]; rfl
      · rw [upd_other _ _ h]
    have hslot : w'.slot = w.slot := by subst hw; rfl
    refine ⟨by subst hw; rfl, ?_, by rw [hlive]; rfl⟩
    show R w' { a with lends := (cx, ⟨inst, rt, i⟩) :: a.lends }
    refine ⟨by subst hw; exact hR.tinv, ?_, by rw [hslot]; exact hR.inj, ?_, ?_, ?_, ?_, ?_, ?_, by subst hw; exact hR.enter⟩
    · intro l
      rw [hslot]
      show a.live l = _
      rw [hR.live]
      rcases w.slot l with _ | x
      · rfl
      · simp [hh]
    · intro l x h; rw [hslot] at h; subst hw; exact hR.lt l x h
    · intro l x h
      rw [hslot] at h
      show _ = (((cx, (⟨inst, rt, i⟩ : Loc)) :: a.lends).countP (fun p => p.2 = l) : Int)
      rw [List.countP_cons]
      by_cases he : x = e
      · subst he
        have := hR.inj _ _ _ hs h
        subst this
        have := hR.lend _ _ hs
        subst hw
        show (upd w.elems x _ x).lendCount = _
        rw [upd_same]
        simp only [decide_true, if_true]
        omega
      · have hne : (⟨inst, rt, i⟩ : Loc) ≠ l := by
          intro h'; subst h'; rw [hs] at h; injection h with h; exact he h.symm
        have := hR.lend _ _ h
        subst hw
        show (upd w.elems e _ x).lendCount = _
        rw [upd_other _ _ he]
        simp only [hne, decide_false]
        simpa using this
    · intro c hc'
      rw [hslot]
      show List.Forall₂ _ _ (((cx, (⟨inst, rt, i⟩ : Loc)) :: a.lends).filter (fun p => p.1 = c)).reverse
      have := hR.lenders c hc'
      subst hw
      show List.Forall₂ _ (upd w.ctxs cx _ c).lenders _
      by_cases h : c = cx
      · subst h
        rw [upd_same, List.filter_cons_of_pos (by simp), List.reverse_cons]
        exact List.rel_append this (.cons hs .nil)
      · rw [upd_other _ _ h, List.filter_cons_of_neg (by simpa using fun e => h e.symm)]
        exact this
    · intro p hp
      rcases List.mem_cons.1 hp with rfl | h
      · exact hc
      · exact hR.active p h
    · intro p hp
      rw [hslot]
      rcases List.mem_cons.1 hp with rfl | h
      · rw [hs]; simp
      · exact hR.lentLive p h
    · obtain ⟨bl, b1, b2, b3⟩ := hR.borrows
      refine ⟨bl, b1, ?_, ?_⟩
      · intro c l
        rw [b2, hslot]
        have : ∀ x, (w'.elems x).scope = (w.elems x).scope := fun x => congrArg Handle.scope (hh x)
        simp only [this]
      · intro c
        rw [← b3]
        subst hw
        show (upd w.ctxs cx _ c).borrowCount = _
        by_cases h : c = cx
        · subst h; rw [upd_same]
        · rw [upd_other _ _ h]

theorem count_forall2 {w : World} {a : State} (hR : R w a) (l : Loc) (e : ElemId) (h : w.slot l = some e)
    (es : List ElemId) (ps : List (CtxId × Loc)) (hp : List.Forall₂ (fun e p => w.slot p.2 = some e) es ps) :
    es.count e = ps.countP (fun p => p.2 = l) := by
  induction hp with
  | nil => rfl
  | @cons x p es ps h1 _ ih =>
    rw [List.count_cons, List.countP_cons, ih]
    congr 1
    by_cases hx : x = e
    · subst hx
      have := hR.inj _ _ _ h h1
      simp [this]
    · have : p.2 ≠ l := by
        intro e'; rw [e', h] at h1; injection h1 with h1; exact hx h1.symm
      simp [hx, this]

theorem countP_filter_split (ls : List (CtxId × Loc)) (cx : CtxId) (l : Loc) :
    ls.countP (fun p => p.2 = l) = (ls.filter (fun p => p.1 ≠ cx)).countP (fun p => p.2 = l) +
      (ls.filter (fun p => p.1 = cx)).countP (fun p => p.2 = l) := by
  induction ls with
  | nil => rfl
  | cons p ps ih =>
    by_cases h : p.1 = cx
    · rw [List.filter_cons_of_neg (by simpa using h), List.filter_cons_of_pos (by simpa using h),
        List.countP_cons, List.countP_cons, ih]; omega
    · rw [List.filter_cons_of_pos (by simpa using h), List.filter_cons_of_neg (by simpa using h),
        List.countP_cons, List.countP_cons, ih]; omega

/-- Ending a call. -/
theorem exitHandle {w : World} {a : State} (hR : R w a) (info : RTInfo) (cx : CtxId) (hc : a.exited cx = false)
    (r : Res Unit) (w' : World) (hrun : exitCall cx w = (r, w')) :
    w'.dtors = w.dtors ∧
    ((r = .ok () ∧ (∀ l h, a.live l = some h → h.scope ≠ some cx) ∧ R w' (a.next info (.exit cx) (.ok 0))) ∨
      (r = .err ∧ w' = w ∧ ∃ l h, a.live l = some h ∧ h.scope = some cx)) := by
  obtain ⟨bl, b1, b2, b3⟩ := hR.borrows
  unfold exitCall at hrun
  by_cases hb : (w.ctxs cx).borrowCount = 0
  · rw [if_neg (by simpa using hb)] at hrun
    injection hrun with hr hw
    subst hr
    refine ⟨by subst hw; rfl, .inl ⟨rfl, ?_, ?_⟩⟩
    · intro l h hl hsc
      rw [hR.live] at hl
      rcases hs : w.slot l with _ | e
      · rw [hs] at hl; cases hl
      · rw [hs] at hl
        injection hl with hl; subst hl
        have hm : (cx, l) ∈ bl := (b2 _ _).2 ⟨e, hs, hsc⟩
        have h1 := b3 cx
        rw [hb] at h1
        have : 0 < bl.countP (fun p => p.1 = cx) := List.countP_pos_iff.2 ⟨_, hm, by simp⟩
        omega
    · show R w' { a with lends := a.lends.filter (fun p => p.1 ≠ cx), exited := upd a.exited cx true }
      have hslot : w'.slot = w.slot := by subst hw; rfl
      have hrel : ∀ e, (w'.elems e).handle = (w.elems e).handle ∧
          (w'.elems e).lendCount = (w.elems e).lendCount - ((w.ctxs cx).lenders.count e : Nat) := by
        intro e; subst hw; exact release_other _ _ e
      refine ⟨by subst hw; exact hR.tinv, ?_, by rw [hslot]; exact hR.inj, ?_, ?_, ?_, ?_, ?_, ?_, by subst hw; exact hR.enter⟩
      · intro l
        rw [hslot]
        show a.live l = _
        rw [hR.live]
        rcases w.slot l with _ | x
        · rfl
        · simp [(hrel x).1]
      · intro l x h; rw [hslot] at h; subst hw; exact hR.lt l x h
      · intro l x h
        rw [hslot] at h
        rw [(hrel x).2, hR.lend _ _ h, count_forall2 hR l x h _ _ (hR.lenders cx hc), List.countP_reverse,
          countP_filter_split a.lends cx l]
        show _ = (((a.lends.filter (fun p => p.1 ≠ cx)).countP (fun p => p.2 = l) : Nat) : Int)
        omega
      · intro c hc'
        rw [hslot]
        show List.Forall₂ _ _ ((a.lends.filter (fun p => p.1 ≠ cx)).filter (fun p => p.1 = c)).reverse
        have hne : c ≠ cx := by
          rintro rfl
          have : upd a.exited c true c = false := hc'
          simp at this
        have hc'' : a.exited c = false := by
          have : upd a.exited cx true c = false := hc'
          rwa [upd_other _ _ hne] at this
        have : (a.lends.filter (fun p => p.1 ≠ cx)).filter (fun p => p.1 = c) = a.lends.filter (fun p => p.1 = c) := by
          rw [List.filter_filter]
          apply List.filter_congr
          intro p _
          by_cases h : p.1 = c
          · simp [h, hne]
          · simp [h]
        rw [this]
        subst hw
        exact hR.lenders c hc''
      · intro p hp
        have hp' := List.mem_filter.1 hp
        show upd a.exited cx true p.1 = false
        rw [upd_other _ _ (by simpa using hp'.2)]
        exact hR.active p hp'.1
      · intro p hp
        rw [hslot]
        exact hR.lentLive p (List.mem_filter.1 hp).1
      · refine ⟨bl, b1, ?_, by subst hw; exact b3⟩
        intro c l
        rw [b2, hslot]
        have : ∀ x, (w'.elems x).scope = (w.elems x).scope := fun x => congrArg Handle.scope (hrel x).1
        simp only [this]
  · rw [if_pos (by simpa using hb)] at hrun
    injection hrun with hr hw
    subst hr; subst hw
    refine ⟨rfl, .inr ⟨rfl, rfl, ?_⟩⟩
    have h1 := b3 cx
    have : 0 < bl.countP (fun p => p.1 = cx) := by omega
    obtain ⟨⟨c, l⟩, hm, hcl⟩ := List.countP_pos_iff.1 this
    simp only [decide_eq_true_eq] at hcl
    subst hcl
    obtain ⟨e, he, hsc⟩ := (b2 _ _).1 hm
    exact ⟨l, (w.elems e).handle, by rw [hR.live, he]; rfl, hsc⟩

/-! ## Every operation -/

/-- Every operation has an allowed result and keeps the relation. -/
theorem step_ok {w : World} {a : State} (hR : R w a) (info : RTInfo) (op : Op) (hf : (step info w op).2.Fits)
    (hw : w.Fits) (hc : ∀ c, op.ctx = some c → a.exited c = false) :
    ∃ calls, (step info w op).2.dtors = calls ++ w.dtors ∧ a.Allowed info calls op (step info w op).1 ∧
      R (step info w op).2 (a.next info op (step info w op).1) := by
  cases op with
  | new inst rt rep =>
    obtain ⟨h1, h2, h3⟩ := newHandle hR inst rt ⟨rep, 0, true, none⟩ rfl _ _ rfl hf
    exact ⟨[], h1, ⟨rfl, h2⟩, h3⟩
  | lowerOwn inst rt rep =>
    obtain ⟨h1, h2, h3⟩ := newHandle hR inst rt ⟨rep, 0, true, none⟩ rfl _ _ rfl hf
    exact ⟨[], h1, ⟨rfl, h2⟩, h3⟩
  | lowerBorrow inst cx rt rep =>
    by_cases hi : info.impl rt = some inst
    · have hs : step info w (.lowerBorrow inst cx rt rep) = (.ok rep, w) := by
        simp only [step, lowerBorrow, if_pos hi, SM.pure_def]
      rw [hs]
      refine ⟨[], rfl, ⟨rfl, by rw [if_pos hi]⟩, ?_⟩
      simp only [State.next, if_pos hi]; exact hR
    · have hs : step info w (.lowerBorrow inst cx rt rep) =
          (do let h ← alloc ⟨rep, 0, false, some cx⟩; add inst rt h : SM World U32) w := by
        simp only [step, lowerBorrow, if_neg hi]
      rw [hs] at hf ⊢
      obtain ⟨h1, h2, h3⟩ := newHandle hR inst rt ⟨rep, 0, false, some cx⟩ rfl _ _ rfl hf
      refine ⟨[], h1, ⟨rfl, by rw [if_neg hi]; exact h2⟩, ?_⟩
      simp only [State.next, if_neg hi]; exact h3
  | rep inst rt i =>
    have hg := get_eq _ i (hw inst rt)
    have hlive := hR.live ⟨inst, rt, i⟩
    rcases hs : w.slot ⟨inst, rt, i⟩ with _ | e
    · have hs' : (w.tables inst rt).slot i = none := hs
      rw [hs'] at hg
      have : step info w (.rep inst rt i) = (.err, w) := SM.bind_err (by simp [get, hg])
      rw [this]
      rw [hs] at hlive
      exact ⟨[], rfl, ⟨rfl, by rw [hlive]; rfl⟩, hR⟩
    · have hs' : (w.tables inst rt).slot i = some e := hs
      rw [hs'] at hg
      have : step info w (.rep inst rt i) = (.ok (w.elems e).rep, w) := by
        show canonResourceRep inst rt i w = _
        unfold canonResourceRep
        rw [SM.bind_ok (a := e) (s' := w) (by simp [get, hg])]
        rfl
      rw [this]
      rw [hs] at hlive
      exact ⟨[], rfl, ⟨rfl, by rw [hlive]; rfl⟩, hR⟩
  | liftBorrow inst cx rt i =>
    obtain ⟨h1, h2, h3⟩ := lendHandle hR inst cx rt i hw (hc cx rfl) _ _ rfl
    refine ⟨[], h1, ⟨rfl, h3⟩, ?_⟩
    have : ∀ r, a.next info (.liftBorrow inst cx rt i) r =
        a.next ⟨fun _ => none, fun _ => false⟩ (.liftBorrow inst cx rt i) r := by intro r; cases r <;> rfl
    rw [this]; exact h2
  | liftOwn inst rt i =>
    rcases hrm : remove inst rt i w with ⟨r, w'⟩
    obtain ⟨h1, _, h2, h3, h4⟩ := removeHandle hR inst rt i hw r w' hrm
    rcases h4 with ⟨rfl, hweq, h4⟩ | ⟨e, rfl, h4, h5⟩
    · have : step info w (.liftOwn inst rt i) = (.err, w') := SM.bind_err hrm
      rw [this]
      refine ⟨[], h1, ⟨rfl, ?_⟩, h3⟩
      rcases h4 with h4 | h4
      · rw [h4]
      · split
        · rw [if_pos h4]
        · rfl
    · have : step info w (.liftOwn inst rt i) = (.ok (w.elems e).rep, w') := by
        show liftOwn inst rt i w = _
        unfold liftOwn
        rw [SM.bind_ok hrm, SM.bind_get, h2]
        rfl
      rw [this]
      refine ⟨[], h1, ⟨rfl, ?_⟩, h3⟩
      rw [h5]; simp only [if_neg h4]; rfl
  | drop inst rt i =>
    rcases hrm : remove inst rt i w with ⟨r, w'⟩
    obtain ⟨h1, hme, h2, h3, h4⟩ := removeHandle hR inst rt i hw r w' hrm
    rcases h4 with ⟨rfl, hweq, h4⟩ | ⟨e, rfl, h4, h5⟩
    · have : canonResourceDrop info inst rt i w = (.err, w') := SM.bind_err hrm
      have : step info w (.drop inst rt i) = (.err, w') := by simp only [step, this, unitRes]
      rw [this]
      refine ⟨[], h1, ?_, h3⟩
      rcases h4 with h4 | h4
      · simp [State.Allowed, h4]
      · simp only [State.Allowed, if_pos h4]
        cases a.live ⟨inst, rt, i⟩ <;> simp
    · have hd : canonResourceDrop info inst rt i w = (if !(w.elems e).own then pure ()
          else match info.impl rt with
            | none => SM.crash
            | some impl =>
              if inst ≠ impl ∧ w.mayEnter impl = false then SM.fail
              else if info.hasDtor rt then SM.modify fun w => { w with dtors := (rt, (w.elems e).rep) :: w.dtors }
              else pure () : SM World Unit) w' := by
        unfold canonResourceDrop
        rw [SM.bind_ok hrm, SM.bind_get, h2, hme]
        rfl
      simp only [State.Allowed, h5, if_neg h4, State.next]
      simp only [step]
      rw [hd]
      by_cases ho : (w.elems e).own
      · have ho' : (w.elems e).handle.own = true := ho
        simp only [ho, ho', Bool.not_true, Bool.false_eq_true, if_false]
        rcases hi : info.impl rt with _ | impl
        · exact ⟨[], h1, ⟨rfl, rfl⟩, h3⟩
        · simp only
          by_cases hg : inst ≠ impl ∧ w.mayEnter impl = false
          · have hg' : inst ≠ impl ∧ a.mayEnter impl = false := by rw [← hR.enter]; exact hg
            simp only [if_pos hg, if_pos hg']
            exact ⟨[], h1, ⟨rfl, rfl⟩, h3⟩
          · have hg' : ¬ (inst ≠ impl ∧ a.mayEnter impl = false) := by rw [← hR.enter]; exact hg
            simp only [if_neg hg, if_neg hg']
            by_cases hdt : info.hasDtor rt
            · simp only [hdt, if_true]
              refine ⟨[(rt, (w.elems e).rep)], by simp [unitRes, h1, h2], ⟨rfl, rfl⟩, ?_⟩
              exact ⟨h3.tinv, h3.live, h3.inj, h3.lt, h3.lend, h3.lenders, h3.active, h3.lentLive, h3.borrows, h3.enter⟩
            · simp only [hdt]
              exact ⟨[], h1, ⟨rfl, rfl⟩, h3⟩
      · have ho : (w.elems e).own = false := by simpa using ho
        have ho' : (w.elems e).handle.own = false := ho
        simp only [ho, ho', Bool.not_false, if_true]
        exact ⟨[], h1, ⟨rfl, rfl⟩, h3⟩
  | exit cx =>
    rcases hrm : exitCall cx w with ⟨r, w'⟩
    obtain ⟨h1, h2⟩ := exitHandle hR info cx (hc cx rfl) r w' hrm
    have hs : step info w (.exit cx) = unitRes (r, w') := by simp only [step, hrm]
    rw [hs]
    rcases h2 with ⟨rfl, h2, h3⟩ | ⟨rfl, rfl, h2⟩
    · exact ⟨[], h1, ⟨rfl, .inl ⟨rfl, h2⟩⟩, h3⟩
    · exact ⟨[], rfl, ⟨rfl, .inr ⟨rfl, h2⟩⟩, hR⟩
  | flag inst b =>
    refine ⟨[], rfl, ⟨rfl, rfl⟩, ?_⟩
    refine ⟨hR.tinv, hR.live, hR.inj, hR.lt, hR.lend, hR.lenders, hR.active, hR.lentLive, hR.borrows, ?_⟩
    show upd w.mayEnter inst b = upd a.mayEnter inst b
    rw [hR.enter]

/-! ## Histories -/

theorem setTable_length_le (w w0 : World) (inst : InstId) (rt : RT) (t : Table) (ht : w.tables = w0.tables)
    (h : (w0.tables inst rt).array.length ≤ t.array.length) (inst' : InstId) (rt' : RT) :
    (w0.tables inst' rt').array.length ≤ ((w.setTable inst rt t).tables inst' rt').array.length := by
  simp only [World.setTable, ht]
  by_cases h1 : inst' = inst
  · subst h1
    by_cases h2 : rt' = rt
    · subst h2; simpa using h
    · rw [upd_same, upd_other _ _ h2]; exact Nat.le_refl _
  · rw [upd_other _ _ h1]; exact Nat.le_refl _

theorem add_tables_le (inst : InstId) (rt : RT) (h : ElemId) (w w0 : World) (ht : w.tables = w0.tables)
    (inst' : InstId) (rt' : RT) :
    (w0.tables inst' rt').array.length ≤ ((add inst rt h w).2.tables inst' rt').array.length := by
  have hl := add_length_le (w0.tables inst rt) h
  rw [← ht] at hl
  simp only [add]
  rcases hadd : (w.tables inst rt).add h with ⟨r1, t1⟩
  rw [hadd] at hl
  have := setTable_length_le w w0 inst rt t1 ht (by rw [← ht]; exact hl) inst' rt'
  rcases r1 with i | _ | _ | _
  · simp only
    split <;> exact this
  all_goals exact this

theorem remove_tables_le (inst : InstId) (rt : RT) (i : U32) (w : World) (inst' : InstId) (rt' : RT) :
    (w.tables inst' rt').array.length ≤ ((remove inst rt i w).2.tables inst' rt').array.length := by
  have hl := remove_length (w.tables inst rt) (fun e => (w.elems e).lendCount) i
  simp only [remove]
  rcases hadd : (w.tables inst rt).remove (fun e => (w.elems e).lendCount) i with ⟨r1, t1⟩
  rw [hadd] at hl
  have := setTable_length_le w w inst rt t1 rfl (Nat.le_of_eq hl.symm) inst' rt'
  rcases r1 with i | _ | _ | _
  · simp only
    split <;> exact this
  all_goals exact this

/-- No operation shrinks a table. -/
theorem step_tables_le (info : RTInfo) (w : World) (op : Op) (inst' : InstId) (rt' : RT) :
    (w.tables inst' rt').array.length ≤ ((step info w op).2.tables inst' rt').array.length := by
  cases op with
  | new inst rt rep =>
    exact add_tables_le inst rt w.next { w with elems := upd w.elems w.next ⟨rep, 0, true, none⟩, next := w.next + 1 } w rfl inst' rt'
  | lowerOwn inst rt rep =>
    exact add_tables_le inst rt w.next { w with elems := upd w.elems w.next ⟨rep, 0, true, none⟩, next := w.next + 1 } w rfl inst' rt'
  | lowerBorrow inst cx rt rep =>
    simp only [step, lowerBorrow]
    split
    · exact Nat.le_refl _
    · exact add_tables_le inst rt w.next { w with elems := upd w.elems w.next ⟨rep, 0, false, some cx⟩, next := w.next + 1 } w rfl inst' rt'
  | rep inst rt i =>
    simp only [step, canonResourceRep, SM.bind_def, get]
    cases (w.tables inst rt).get i <;> exact Nat.le_refl _
  | liftBorrow inst cx rt i =>
    simp only [step, liftBorrow, SM.bind_def, get]
    cases (w.tables inst rt).get i <;> exact Nat.le_refl _
  | liftOwn inst rt i =>
    have := remove_tables_le inst rt i w inst' rt'
    simp only [step, liftOwn, SM.bind_def]
    rcases h : remove inst rt i w with ⟨r, w1⟩
    rw [h] at this
    cases r <;> exact this
  | drop inst rt i =>
    have := remove_tables_le inst rt i w inst' rt'
    simp only [step, canonResourceDrop, SM.bind_def]
    rcases h : remove inst rt i w with ⟨r, w1⟩
    rw [h] at this
    cases r with
    | ok e =>
      simp only [SM.get_def]
      cases (w1.elems e).own
      · exact this
      · cases info.impl rt with
        | none => exact this
        | some impl =>
          by_cases hg : inst ≠ impl ∧ w1.mayEnter impl = false
          · simp only [SM.ite_app, if_pos hg]; exact this
          · simp only [SM.ite_app, if_neg hg]
            cases info.hasDtor rt <;> exact this
    | _ => exact this
  | exit cx =>
    simp only [step, exitCall]
    split <;> exact Nat.le_refl _
  | flag inst b => exact Nat.le_refl _

theorem run_fits (info : RTInfo) (w : World) (a : State) (ops : List Op) (h : (run info w a ops).1.Fits) : w.Fits := by
  induction ops generalizing w a with
  | nil => exact h
  | cons op ops ih =>
    intro inst rt
    exact Nat.lt_of_le_of_lt (step_tables_le info w op inst rt) (ih _ _ h inst rt)

/-- The relation holds along every proper history. -/
theorem run_ok (info : RTInfo) (w : World) (a : State) (ops : List Op) (hR : R w a) (hp : Proper info w a ops)
    (h : (run info w a ops).1.Fits) : R (run info w a ops).1 (run info w a ops).2 := by
  induction ops generalizing w a with
  | nil => exact hR
  | cons op ops ih =>
    have hf := run_fits info _ _ ops h
    obtain ⟨_, _, _, h3⟩ := step_ok hR info op hf (run_fits info w a (op :: ops) h) hp.1
    exact ih _ _ h3 hp.2 h

end Verif.Handles
