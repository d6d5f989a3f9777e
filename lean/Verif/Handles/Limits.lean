import Verif.Handles.Props

/-!
# Handles outside the assumptions of `Valid`

`Valid` histories use no call after its end and keep every table below `2 ^ 32` slots. The English statements of C32
and C34 do not say so, and this file shows that they are false of the code without these assumptions. C37 needs
neither: it is proved here for every history. For C35 and C36 see `Verif.Handles.LedgerProps`.
-/

namespace Verif.Handles
open Verif.Abi (RT)

/-! ## C37 for every history -/

/-- Every element is in the tables of one resource type only, and was created before now. -/
def Apart (w : World) : Prop :=
  (∀ inst rt e, some e ∈ (w.tables inst rt).array → e < w.next) ∧
  ∀ inst rt inst' rt' e, some e ∈ (w.tables inst rt).array → some e ∈ (w.tables inst' rt').array → rt = rt'

/-- What one operation on a resource type can do to the store. -/
structure Local (rt : RT) (w w' : World) : Prop where
  next : w.next ≤ w'.next
  tables : ∀ inst r, r ≠ rt → w'.tables inst r = w.tables inst r
  members : ∀ inst e, some e ∈ (w'.tables inst rt).array →
    some e ∈ (w.tables inst rt).array ∨ (w.next ≤ e ∧ e < w'.next)
  elems : ∀ e, e < w.next → (∀ inst, some e ∉ (w.tables inst rt).array) → w'.elems e = w.elems e

theorem Local.refl (rt : RT) (w : World) : Local rt w w :=
  ⟨Nat.le_refl _, fun _ _ _ => rfl, fun _ _ h => .inl h, fun _ _ _ => rfl⟩

theorem Local.apart {rt : RT} {w w' : World} (h : Local rt w w') (ha : Apart w) : Apart w' := by
  have old : ∀ inst r e, some e ∈ (w'.tables inst r).array →
      some e ∈ (w.tables inst r).array ∨ (r = rt ∧ w.next ≤ e ∧ e < w'.next) := by
    intro inst r e he
    by_cases hr : r = rt
    · subst hr
      exact (h.members inst e he).imp id (fun x => ⟨rfl, x⟩)
    · rw [h.tables inst r hr] at he; exact .inl he
  refine ⟨fun inst r e he => ?_, fun inst r inst' r' e he he' => ?_⟩
  · rcases old inst r e he with h1 | ⟨-, -, h1⟩
    · exact Nat.lt_of_lt_of_le (ha.1 _ _ _ h1) h.next
    · exact h1
  · rcases old inst r e he with h1 | ⟨rfl, h1, -⟩ <;> rcases old inst' r' e he' with h2 | ⟨rfl, h2, -⟩
    · exact ha.2 _ _ _ _ _ h1 h2
    · exact absurd (ha.1 _ _ _ h1) (Nat.not_lt.2 h2)
    · exact absurd (ha.1 _ _ _ h2) (Nat.not_lt.2 h1)
    · rfl

theorem tadd_mem (t : Table) (h e : ElemId) (he : some e ∈ (t.add h).2.array) : some e ∈ t.array ∨ e = h := by
  unfold Table.add at he
  split at he
  · split at he
    · exact .inl he
    · exact .inl he
    · rcases List.mem_or_eq_of_mem_set he with h1 | h1
      · exact .inl h1
      · exact .inr (Option.some.inj h1)
  · simpa using he

theorem tremove_mem (t : Table) (lend : ElemId → Int) (i : U32) (e : ElemId)
    (he : some e ∈ (t.remove lend i).2.array) : some e ∈ t.array := by
  unfold Table.remove at he
  split at he
  · split at he
    · exact he
    · rcases List.mem_or_eq_of_mem_set he with h1 | h1
      · exact h1
      · exact absurd h1 (by simp)
  all_goals exact he

/-- `alloc` followed by `add`. -/
theorem alloc_add_local (x : Elem) (inst : InstId) (rt : RT) (w : World) :
    Local rt w ((do let h ← alloc x; add inst rt h : SM World U32) w).2 := by
  rw [SM.bind_ok (show alloc x w = (.ok w.next, { w with elems := upd w.elems w.next x, next := w.next + 1 }) from rfl)]
  have key : ∀ w' : World, w'.next = w.next + 1 → w'.elems = upd w.elems w.next x →
      w'.tables = upd w.tables inst (upd (w.tables inst) rt ((w.tables inst rt).add w.next).2) → Local rt w w' := by
    intro w' h1 h2 h3
    refine ⟨h1 ▸ Nat.le_succ _, fun i r hr => ?_, fun i e he => ?_, fun e he _ => ?_⟩
    · rw [h3]; by_cases hi : i = inst
      · subst hi; rw [upd_same, upd_other _ _ hr]
      · rw [upd_other _ _ hi]
    · rw [h3] at he
      by_cases hi : i = inst
      · subst hi
        rw [upd_same, upd_same] at he
        rcases tadd_mem _ _ _ he with h4 | h4
        · exact .inl h4
        · exact .inr ⟨h4 ▸ Nat.le_refl _, by rw [h1, h4]; exact Nat.lt_succ_self _⟩
      · rw [upd_other _ _ hi] at he; exact .inl he
    · rw [h2, upd_other _ _ (Nat.ne_of_lt he)]
  simp only [add]
  rcases hr : ((w.tables inst rt).add w.next) with ⟨r, t⟩
  rcases r with i | _ | _ | _
  · simp only [World.setTable]
    split
    all_goals exact key _ rfl rfl (by simp [World.setCtx, hr])
  all_goals exact key _ rfl rfl (by simp [World.setTable, hr])

theorem remove_local (inst : InstId) (rt : RT) (i : U32) (w : World) : Local rt w (remove inst rt i w).2 := by
  have key : ∀ w' : World, w'.next = w.next → w'.elems = w.elems →
      w'.tables = upd w.tables inst (upd (w.tables inst) rt
        ((w.tables inst rt).remove (fun e => (w.elems e).lendCount) i).2) → Local rt w w' := by
    intro w' h1 h2 h3
    refine ⟨h1 ▸ Nat.le_refl _, fun j r hr => ?_, fun j e he => ?_, fun e he _ => by rw [h2]⟩
    · rw [h3]; by_cases hi : j = inst
      · subst hi; rw [upd_same, upd_other _ _ hr]
      · rw [upd_other _ _ hi]
    · rw [h3] at he
      by_cases hi : j = inst
      · subst hi
        rw [upd_same, upd_same] at he
        exact .inl (tremove_mem _ _ _ _ he)
      · rw [upd_other _ _ hi] at he; exact .inl he
  simp only [remove]
  rcases hr : ((w.tables inst rt).remove (fun e => (w.elems e).lendCount) i) with ⟨r, t⟩
  rcases r with h | _ | _ | _
  · simp only [World.setTable]
    split
    all_goals exact key _ rfl rfl (by simp [World.setCtx, hr])
  all_goals exact key _ rfl rfl (by simp [World.setTable, hr])

theorem tget_mem (t : Table) (i : U32) (e : ElemId) (h : t.get i = .ok e) : some e ∈ t.array := by
  unfold Table.get at h
  split at h
  · simp at h
  · split at h
    · simp at h
    · simp at h
    · next h1 => simp only [Res.ok.injEq] at h; subst h; exact List.mem_of_getElem? h1

theorem step_local (info : RTInfo) (w : World) (op : Op) (rt : RT) (hop : op.rt = some rt) :
    Local rt w (step info w op).2 := by
  cases op with
  | new inst r rep => cases hop; exact alloc_add_local _ inst _ w
  | lowerOwn inst r rep => cases hop; exact alloc_add_local _ inst _ w
  | lowerBorrow inst cx r rep =>
    cases hop
    simp only [step, lowerBorrow]
    split
    · exact Local.refl _ _
    · exact alloc_add_local _ inst _ w
  | rep inst r i =>
    cases hop
    simp only [step, canonResourceRep]
    rcases hg : (w.tables inst rt).get i with e | _ | _ | _
    · rw [SM.bind_ok (show Verif.Handles.get inst rt i w = (.ok e, w) by simp [Verif.Handles.get, hg]), SM.bind_get]; exact Local.refl _ _
    · rw [SM.bind_err (show Verif.Handles.get inst rt i w = (.err, w) by simp [Verif.Handles.get, hg])]; exact Local.refl _ _
    · rw [SM.bind_panic (show Verif.Handles.get inst rt i w = (.panic, w) by simp [Verif.Handles.get, hg])]; exact Local.refl _ _
    · rw [SM.bind_diverge (show Verif.Handles.get inst rt i w = (.diverge, w) by simp [Verif.Handles.get, hg])]; exact Local.refl _ _
  | liftBorrow inst cx r i =>
    cases hop
    simp only [step, liftBorrow]
    rcases hg : (w.tables inst rt).get i with e | _ | _ | _
    · rw [SM.bind_ok (show Verif.Handles.get inst rt i w = (.ok e, w) by simp [Verif.Handles.get, hg])]
      refine ⟨Nat.le_refl _, fun _ _ _ => rfl, fun _ _ h => .inl h, fun x _ hx => ?_⟩
      have : x ≠ e := fun hxe => hx inst (hxe ▸ tget_mem _ _ _ hg)
      exact upd_other _ _ this
    · rw [SM.bind_err (show Verif.Handles.get inst rt i w = (.err, w) by simp [Verif.Handles.get, hg])]; exact Local.refl _ _
    · rw [SM.bind_panic (show Verif.Handles.get inst rt i w = (.panic, w) by simp [Verif.Handles.get, hg])]; exact Local.refl _ _
    · rw [SM.bind_diverge (show Verif.Handles.get inst rt i w = (.diverge, w) by simp [Verif.Handles.get, hg])]; exact Local.refl _ _
  | liftOwn inst r i =>
    cases hop
    have hl := remove_local inst rt i w
    simp only [step, liftOwn]
    rcases hr : remove inst rt i w with ⟨e | _ | _ | _, w'⟩ <;> rw [hr] at hl
    · rw [SM.bind_ok hr, SM.bind_get]; exact hl
    · rw [SM.bind_err hr]; exact hl
    · rw [SM.bind_panic hr]; exact hl
    · rw [SM.bind_diverge hr]; exact hl
  | drop inst r i =>
    cases hop
    have hl := remove_local inst rt i w
    have hu : ∀ x : Res Unit × World, (unitRes x).2 = x.2 := by rintro ⟨_ | _ | _ | _, _⟩ <;> rfl
    simp only [step, hu, canonResourceDrop]
    rcases hr : remove inst rt i w with ⟨e | _ | _ | _, w'⟩ <;> rw [hr] at hl
    · rw [SM.bind_ok hr, SM.bind_get]
      have hd : ∀ d, Local rt w { w' with dtors := d } := fun d => ⟨hl.1, hl.2, hl.3, hl.4⟩
      by_cases ho : (w'.elems e).own = true
      · simp only [ho, Bool.not_true, Bool.false_eq_true, if_false]
        cases info.impl rt with
        | none => exact hl
        | some impl =>
          by_cases h1 : inst ≠ impl ∧ w'.mayEnter impl = false
          · simp only [if_pos h1]; exact hl
          · simp only [if_neg h1]
            by_cases h2 : info.hasDtor rt = true
            · simp only [if_pos h2]; exact hd _
            · simp only [if_neg h2]; exact hl
      · simp only [ho, Bool.not_false, if_true]; exact hl
    · rw [SM.bind_err hr]; exact hl
    · rw [SM.bind_panic hr]; exact hl
    · rw [SM.bind_diverge hr]; exact hl
  | exit cx => simp [Op.rt] at hop
  | flag inst b => simp [Op.rt] at hop

theorem step_apart (info : RTInfo) (w : World) (op : Op) (h : Apart w) : Apart (step info w op).2 := by
  cases hop : op.rt with
  | some rt => exact (step_local info w op rt hop).apart h
  | none =>
    cases op with
    | exit cx =>
      have hu : ∀ x : Res Unit × World, (unitRes x).2 = x.2 := by rintro ⟨_ | _ | _ | _, _⟩ <;> rfl
      simp only [step, hu, exitCall]
      split <;> exact h
    | flag inst b => exact h
    | _ => simp [Op.rt] at hop

theorem after_apart (info : RTInfo) (ops : List Op) : Apart (World.after info ops) := by
  induction ops using List.reverseRecOn with
  | nil => exact ⟨fun _ _ _ h => by simp [World.after, run, World.init, Table.empty] at h,
      fun _ _ _ _ _ h => by simp [World.after, run, World.init, Table.empty] at h⟩
  | append_singleton ops op ih => rw [(after_snoc info ops op).1]; exact step_apart info _ op ih

/-- What reading an index returns. -/
theorem rep_eq (info : RTInfo) (w : World) (l : Loc) : (step info w (.rep l.inst l.rt l.idx)).1 =
    ((w.tables l.inst l.rt).get l.idx).bind fun e => .ok (w.elems e).rep := by
  simp only [step, canonResourceRep]
  rcases hg : (w.tables l.inst l.rt).get l.idx with e | _ | _ | _
  · rw [SM.bind_ok (show Verif.Handles.get l.inst l.rt l.idx w = (.ok e, w) by simp [Verif.Handles.get, hg]), SM.bind_get]; rfl
  · rw [SM.bind_err (show Verif.Handles.get l.inst l.rt l.idx w = (.err, w) by simp [Verif.Handles.get, hg])]; rfl
  · rw [SM.bind_panic (show Verif.Handles.get l.inst l.rt l.idx w = (.panic, w) by simp [Verif.Handles.get, hg])]; rfl
  · rw [SM.bind_diverge (show Verif.Handles.get l.inst l.rt l.idx w = (.diverge, w) by simp [Verif.Handles.get, hg])]; rfl

/-- What lifting an own handle returns. -/
theorem liftOwn_eq (info : RTInfo) (w : World) (l : Loc) : (step info w (.liftOwn l.inst l.rt l.idx)).1 =
    ((w.tables l.inst l.rt).get l.idx).bind fun e =>
      if (w.elems e).lendCount ≠ 0 then .err else .ok (w.elems e).rep := by
  have hw : ∀ (r : Res ElemId) (t : Table), (w.tables l.inst l.rt).remove (fun e => (w.elems e).lendCount) l.idx = (r, t) →
      (step info w (.liftOwn l.inst l.rt l.idx)).1 = r.bind fun e => .ok (w.elems e).rep := by
    intro r t hr
    simp only [step, liftOwn]
    rcases r with e | _ | _ | _
    · cases hs : (w.elems e).scope with
      | none =>
        rw [SM.bind_ok (show Verif.Handles.remove l.inst l.rt l.idx w = (.ok e, w.setTable l.inst l.rt t) by
          simp [Verif.Handles.remove, hr, World.setTable, hs]), SM.bind_get]; rfl
      | some c =>
        rw [SM.bind_ok (show Verif.Handles.remove l.inst l.rt l.idx w = (.ok e, (w.setTable l.inst l.rt t).setCtx c
            { w.ctxs c with borrowCount := (w.ctxs c).borrowCount - 1 }) by
          simp [Verif.Handles.remove, hr, World.setTable, hs]), SM.bind_get]; rfl
    · rw [SM.bind_err (show Verif.Handles.remove l.inst l.rt l.idx w = (.err, w.setTable l.inst l.rt t) by
        simp [Verif.Handles.remove, hr])]; rfl
    · rw [SM.bind_panic (show Verif.Handles.remove l.inst l.rt l.idx w = (.panic, w.setTable l.inst l.rt t) by
        simp [Verif.Handles.remove, hr])]; rfl
    · rw [SM.bind_diverge (show Verif.Handles.remove l.inst l.rt l.idx w = (.diverge, w.setTable l.inst l.rt t) by
        simp [Verif.Handles.remove, hr])]; rfl
  rcases hg : (w.tables l.inst l.rt).get l.idx with e | _ | _ | _
  · by_cases hz : (w.elems e).lendCount ≠ 0
    · rw [hw .err (w.tables l.inst l.rt) (by simp only [Table.remove, hg, if_pos hz])]
      simp only [Res.bind, if_pos hz]
    · rw [hw _ _ (by simp only [Table.remove, hg, if_neg hz]; rfl)]
      simp only [Res.bind, if_neg hz]
  · rw [hw .err _ (by simp only [Table.remove, hg]; rfl)]; rfl
  · rw [hw .panic _ (by simp only [Table.remove, hg]; rfl)]; rfl
  · rw [hw .diverge _ (by simp only [Table.remove, hg]; rfl)]; rfl

/-- **C37.** After any history whatever, an operation on one resource type leaves the results of reading and of lifting
every index of another type, in any instance, as they were. -/
theorem types_independent (info : RTInfo) (ops : List Op) (op : Op) (rt : RT) (hop : op.rt = some rt)
    (l : Loc) (hl : l.rt ≠ rt) :
    (step info (World.after info (ops ++ [op])) (.rep l.inst l.rt l.idx)).1 =
      (step info (World.after info ops) (.rep l.inst l.rt l.idx)).1 ∧
    (step info (World.after info (ops ++ [op])) (.liftOwn l.inst l.rt l.idx)).1 =
      (step info (World.after info ops) (.liftOwn l.inst l.rt l.idx)).1 := by
  have ha := after_apart info ops
  have hs := step_local info (World.after info ops) op rt hop
  rw [(after_snoc info ops op).1, rep_eq, rep_eq, liftOwn_eq, liftOwn_eq, hs.tables _ _ hl]
  rcases hg : ((World.after info ops).tables l.inst l.rt).get l.idx with e | _ | _ | _
  · have hm := tget_mem _ _ _ hg
    have he := hs.elems e (ha.1 _ _ _ hm) (fun inst h => hl (ha.2 _ _ _ _ _ hm h))
    simp only [Res.bind, he, and_self]
  all_goals exact ⟨rfl, rfl⟩

/-- A history that is not `Valid`: call 0 ends twice. -/
example : Op.rt (.liftOwn 0 1 0) = some 1 ∧ (⟨0, 0, 0⟩ : Loc).rt ≠ 1 ∧
    ¬ Valid ⟨fun _ => none, fun _ => false⟩ [.exit 0, .exit 0] := by
  refine ⟨rfl, by decide, fun h => ?_⟩
  have := h.1.2.1 0 rfl
  exact absurd this (by decide)

/-! ## C34 outside `Valid` -/

/-- The history used below: a handle is lent to call 0, which ends; then it is lent to call 1, and call 0 is ended a
second time. -/
def endedTwice : List Op :=
  [.new 0 0 5, .liftBorrow 0 0 0 0, .exit 0, .liftBorrow 0 1 0 0, .exit 0]

/-- **C34, where it fails.** Ending a call a second time releases its lends a second time, since `ExitCall` does not
forget the lenders. A handle that is lent to another call can then be taken out of its table. -/
theorem lent_taken_after_second_exit (info : RTInfo) :
    (State.after info endedTwice).Lent ⟨0, 0, 0⟩ ∧ (State.after info endedTwice).exited 1 = false ∧
    (step info (World.after info endedTwice) (.liftOwn 0 0 0)).1 = .ok 5 :=
  ⟨⟨1, List.mem_cons_self⟩, rfl, rfl⟩

/-! ## C32 outside `Valid` -/

/-- Adding only: the indices count up, from the length of the table, modulo `2 ^ 32`. -/
theorem adds_only (ops : List TOp) (t : Table) (hadd : ∀ op ∈ ops, ∃ h, op = .add h) (ht : t.free = []) :
    (trun t ops).2.free = [] ∧ (trun t ops).2.array.length = t.array.length + ops.length ∧
    ∀ p ∈ (trun t ops).1, ∃ h i, p = (.add h, .index i) := by
  induction ops generalizing t with
  | nil => exact ⟨ht, rfl, by simp [trun]⟩
  | cons op ops ih =>
    obtain ⟨e, rfl⟩ := hadd op (by simp)
    have hs : tstep t (.add e) = (.index (BitVec.ofNat 32 t.array.length), { t with array := t.array ++ [some e] }) := by
      simp only [tstep, Table.add, ht, outIndex_ok]
    obtain ⟨h1, h2, h3⟩ := ih { t with array := t.array ++ [some e] } (fun op hop => hadd op (by simp [hop])) ht
    have e1 : trun t (.add e :: ops) = ((.add e, .index (BitVec.ofNat 32 t.array.length)) ::
        (trun { t with array := t.array ++ [some e] } ops).1, (trun { t with array := t.array ++ [some e] } ops).2) := by
      simp only [trun, hs]
    rw [e1]
    refine ⟨h1, ?_, ?_⟩
    · rw [h2]; simp only [List.length_append, List.length_cons, List.length_nil]; omega
    · intro p hp
      rcases List.mem_cons.1 hp with rfl | hp
      · exact ⟨_, _, rfl⟩
      · exact h3 p hp

theorem live_adds (tr : List (TOp × TOut)) (live : U32 → Option ElemId) (i : U32) (hl : live i ≠ none)
    (h : ∀ p ∈ tr, ∃ h j, p = (.add h, .index j)) : liveAfter live tr i ≠ none := by
  induction tr generalizing live with
  | nil => exact hl
  | cons p tr ih =>
    obtain ⟨e, j, rfl⟩ := h p (by simp)
    refine ih _ ?_ (fun p hp => h p (by simp [hp]))
    by_cases hij : i = j
    · subst hij; simp
    · rw [upd_other _ _ hij]; exact hl

/-- **C32, where it fails.** With `2 ^ 32` live handles in a table the next `Add` returns index 0, which is live. -/
theorem add_returns_live (ops : List TOp) (hadd : ∀ op ∈ ops, ∃ h, op = .add h) (hn : ops.length = 2 ^ 32) (h : ElemId) :
    (tstep (trun .empty ops).2 (.add h)).1 = .index 0 ∧ Live (trun .empty ops).1 0 ≠ none := by
  obtain ⟨h1, h2, h3⟩ := adds_only ops .empty hadd rfl
  constructor
  · simp only [tstep, Table.add, h1, outIndex_ok, h2, hn]
    rfl
  · cases ops with
    | nil => simp at hn
    | cons op ops =>
      obtain ⟨e, rfl⟩ := hadd op (by simp)
      refine live_adds (trun (tstep .empty (.add e)).2 ops).1 (upd (fun _ => none) 0 (some e)) 0 (by simp)
        (fun p hp => h3 p ?_)
      show p ∈ (TOp.add e, (tstep .empty (.add e)).1) :: (trun (tstep .empty (.add e)).2 ops).1
      exact List.mem_cons_of_mem _ hp

example : (∀ op ∈ List.replicate (2 ^ 32) (TOp.add 7), ∃ h, op = .add h) ∧
    (List.replicate (2 ^ 32) (TOp.add 7)).length = 2 ^ 32 :=
  ⟨fun _ h => ⟨7, List.eq_of_mem_replicate h⟩, List.length_replicate⟩

end Verif.Handles
