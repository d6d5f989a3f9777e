import Verif.Handles.Limits

/-!
# Property C36, never twice, for every history

No assumption on the history at all: calls may be used after their end and tables may have any number of slots.
-/

namespace Verif.Handles
open Verif.Abi (RT)

/-- The slots of the tables of one type that hold own handles of one representation are among the listed ones. -/
def Covers (rt : RT) (rep : U32) (w : World) (ll : List (InstId × Nat)) : Prop :=
  ∀ inst k e, (w.tables inst rt).array[k]? = some (some e) → (w.elems e).own = true → (w.elems e).rep = rep →
    (inst, k) ∈ ll

theorem tadd_slot (t : Table) (h : ElemId) : ∃ k0 : Nat, ∀ (k : Nat) e, (t.add h).2.array[k]? = some (some e) →
    t.array[k]? = some (some e) ∨ (k = k0 ∧ e = h) := by
  unfold Table.add
  split
  · next i free hf =>
    refine ⟨i.toNat, fun k e he => ?_⟩
    split at he
    · exact .inl he
    · exact .inl he
    · rw [List.getElem?_set] at he
      by_cases hk : i.toNat = k
      · subst hk
        rw [if_pos rfl] at he
        split at he
        · simp only [Option.some.injEq] at he; exact .inr ⟨rfl, he.symm⟩
        · cases he
      · rw [if_neg hk] at he; exact .inl he
  · refine ⟨t.array.length, fun k e he => ?_⟩
    rw [List.getElem?_append] at he
    split at he
    · exact .inl he
    · next hlt =>
      rcases hk : k - t.array.length with _ | m
      · rw [hk] at he
        simp only [List.getElem?_cons_zero, Option.some.injEq] at he
        exact .inr ⟨by omega, he.symm⟩
      · rw [hk] at he; simp at he

/-- Making a handle fills at most one slot, with the new handle. -/
theorem alloc_add_covers (x : Elem) (inst : InstId) (rt' : RT) (w : World) (ha : Apart w) (rt : RT) (rep : U32)
    (ll : List (InstId × Nat)) (h : Covers rt rep w ll) :
    let w' := ((do let h ← alloc x; add inst rt' h : SM World U32) w).2
    w'.dtors = w.dtors ∧ (¬ (rt' = rt ∧ x.own = true ∧ x.rep = rep) → Covers rt rep w' ll) ∧
    ∃ k, Covers rt rep w' ((inst, k) :: ll) := by
  rw [SM.bind_ok (show alloc x w = (.ok w.next, { w with elems := upd w.elems w.next x, next := w.next + 1 }) from rfl)]
  obtain ⟨k0, hk0⟩ := tadd_slot (w.tables inst rt') w.next
  have key : ∀ w' : World, w'.dtors = w.dtors → w'.elems = upd w.elems w.next x →
      w'.tables = upd w.tables inst (upd (w.tables inst) rt' ((w.tables inst rt').add w.next).2) →
      w'.dtors = w.dtors ∧ (¬ (rt' = rt ∧ x.own = true ∧ x.rep = rep) → Covers rt rep w' ll) ∧
        ∃ k, Covers rt rep w' ((inst, k) :: ll) := by
    intro w' h1 h2 h3
    have old : ∀ i k e, (w'.tables i rt).array[k]? = some (some e) →
        (w.tables i rt).array[k]? = some (some e) ∨ (i = inst ∧ rt = rt' ∧ k = k0 ∧ e = w.next) := by
      intro i k e he
      rw [h3] at he
      by_cases hi : i = inst
      · subst hi
        rw [upd_same] at he
        by_cases hr : rt = rt'
        · subst hr
          rw [upd_same] at he
          exact (hk0 k e he).imp id fun h => ⟨rfl, rfl, h⟩
        · rw [upd_other _ _ hr] at he; exact .inl he
      · rw [upd_other _ _ hi] at he; exact .inl he
    have keep : ∀ i (k : Nat) e, (w.tables i rt).array[k]? = some (some e) → w'.elems e = w.elems e := by
      intro i k e he
      rw [h2]
      exact upd_other _ _ (Nat.ne_of_lt (ha.1 _ _ _ (List.mem_of_getElem? he)))
    refine ⟨h1, fun hx i k e he ho hr => ?_, k0, fun i k e he ho hr => ?_⟩
    · rcases old i k e he with h4 | ⟨rfl, rfl, rfl, rfl⟩
      · rw [keep _ _ _ h4] at ho hr; exact h _ _ _ h4 ho hr
      · rw [h2, upd_same] at ho hr; exact absurd ⟨rfl, ho, hr⟩ hx
    · rcases old i k e he with h4 | ⟨rfl, rfl, rfl, rfl⟩
      · rw [keep _ _ _ h4] at ho hr; exact List.mem_cons_of_mem _ (h _ _ _ h4 ho hr)
      · exact List.mem_cons_self
  simp only [add]
  rcases hr : ((w.tables inst rt').add w.next) with ⟨r, t⟩
  rw [hr] at key
  rcases r with i | _ | _ | _
  · simp only [World.setTable]
    split
    all_goals exact key _ rfl rfl rfl
  all_goals exact key _ rfl rfl rfl

/-- Taking a handle out empties its slot. -/
theorem remove_covers (inst : InstId) (rt' : RT) (i : U32) (w : World) (rt : RT) (rep : U32)
    (ll : List (InstId × Nat)) (h : Covers rt rep w ll) :
    (remove inst rt' i w).2.dtors = w.dtors ∧ Covers rt rep (remove inst rt' i w).2 ll ∧
    ∀ e w', remove inst rt' i w = (.ok e, w') → w'.elems = w.elems ∧ (rt' = rt → (w.elems e).own = true → (w.elems e).rep = rep →
      (inst, i.toNat) ∈ ll ∧ Covers rt rep w' (ll.erase (inst, i.toNat))) := by
  have same : ∀ w' : World, w'.elems = w.elems → w'.tables = upd w.tables inst (upd (w.tables inst) rt' (w.tables inst rt')) →
      Covers rt rep w' ll := by
    intro w' h1 h2 j k e he ho hr
    rw [h1] at ho hr
    rw [h2] at he
    refine h j k e ?_ ho hr
    by_cases hj : j = inst
    · subst hj
      rw [upd_same] at he
      by_cases hrt : rt = rt'
      · subst hrt; rw [upd_same] at he; exact he
      · rw [upd_other _ _ hrt] at he; exact he
    · rw [upd_other _ _ hj] at he; exact he
  rcases hr : ((w.tables inst rt').remove (fun e => (w.elems e).lendCount) i) with ⟨r, t⟩
  have hcases : (∃ e, r = .ok e ∧ (w.tables inst rt').array[i.toNat]? = some (some e) ∧
      t.array = (w.tables inst rt').array.set i.toNat none) ∨ (t = w.tables inst rt' ∧ ∀ e, r ≠ .ok e) := by
    unfold Table.remove at hr
    rcases hg : (w.tables inst rt').get i with e | _ | _ | _ <;> rw [hg] at hr <;> simp only at hr
    · split at hr
      · cases hr; exact .inr ⟨rfl, by simp⟩
      · cases hr
        refine .inl ⟨e, rfl, ?_, rfl⟩
        unfold Table.get at hg
        split at hg
        · cases hg
        · split at hg <;> cases hg
          assumption
    all_goals cases hr; exact .inr ⟨rfl, by simp⟩
  rcases hcases with ⟨e, rfl, h1, h2⟩ | ⟨rfl, h1⟩
  · have key : ∀ w' : World, remove inst rt' i w = (.ok e, w') → w'.dtors = w.dtors → w'.elems = w.elems →
        w'.tables = upd w.tables inst (upd (w.tables inst) rt' t) →
        (remove inst rt' i w).2.dtors = w.dtors ∧ Covers rt rep (remove inst rt' i w).2 ll ∧
        ∀ e w', remove inst rt' i w = (.ok e, w') → w'.elems = w.elems ∧ (rt' = rt → (w.elems e).own = true → (w.elems e).rep = rep →
          (inst, i.toNat) ∈ ll ∧ Covers rt rep w' (ll.erase (inst, i.toNat))) := by
      intro w' h3 h4 h5 h6
      have old : ∀ j (k : Nat) e', (w'.tables j rt).array[k]? = some (some e') →
          (w.tables j rt).array[k]? = some (some e') ∧ (rt' = rt → (j, k) ≠ (inst, i.toNat)) := by
        intro j k e' he
        rw [h6] at he
        by_cases hj : j = inst
        · subst hj
          rw [upd_same] at he
          by_cases hrt : rt = rt'
          · subst hrt
            rw [upd_same, h2, List.getElem?_set] at he
            by_cases hk : i.toNat = k
            · rw [if_pos hk] at he
              split at he <;> cases he
            · rw [if_neg hk] at he
              exact ⟨he, fun _ hc => hk (Prod.mk.inj hc).2.symm⟩
          · rw [upd_other _ _ hrt] at he; exact ⟨he, fun hc => absurd hc.symm hrt⟩
        · rw [upd_other _ _ hj] at he
          exact ⟨he, fun _ hc => hj (Prod.mk.inj hc).1⟩
      rw [h3]
      refine ⟨h4, fun j k e' he ho hrep => ?_, fun e1 w1 hw => ?_⟩
      · rw [h5] at ho hrep; exact h _ _ _ (old _ _ _ he).1 ho hrep
      · obtain ⟨q1, rfl⟩ := Prod.mk.inj hw
        obtain rfl := Res.ok.inj q1
        refine ⟨h5, fun hrt ho hrep => ⟨h _ _ _ (hrt ▸ h1) ho hrep, fun j k e' he ho' hrep' => ?_⟩⟩
        rw [h5] at ho' hrep'
        obtain ⟨o1, o2⟩ := old _ _ _ he
        exact (List.mem_erase_of_ne (o2 hrt)).2 (h _ _ _ o1 ho' hrep')
    rcases hs : (w.elems e).scope with _ | c
    · exact key (w.setTable inst rt' t) (by simp only [remove, hr]; simp only [World.setTable, hs]) rfl rfl rfl
    · exact key ((w.setTable inst rt' t).setCtx c { w.ctxs c with borrowCount := (w.ctxs c).borrowCount - 1 })
        (by simp only [remove, hr]; simp only [World.setTable, hs]) rfl rfl rfl
  · have hw : (remove inst rt' i w).2 = w.setTable inst rt' (w.tables inst rt') ∧ ∀ e w', remove inst rt' i w ≠ (.ok e, w') := by
      simp only [remove, hr]
      rcases r with e | _ | _ | _
      · exact absurd rfl (h1 e)
      all_goals exact ⟨rfl, fun _ _ hc => by cases hc⟩
    refine ⟨by rw [hw.1]; rfl, ?_, fun e w' hc => absurd hc (hw.2 e w')⟩
    rw [hw.1]
    exact same _ rfl rfl

theorem release_same (hs : List ElemId) (elems : ElemId → Elem) (e : ElemId) :
    (release elems hs e).own = (elems e).own ∧ (release elems hs e).rep = (elems e).rep := by
  induction hs generalizing elems with
  | nil => exact ⟨rfl, rfl⟩
  | cons h hs ih =>
    obtain ⟨h1, h2⟩ := ih (upd elems h { elems h with lendCount := (elems h).lendCount - 1 })
    rw [release, h1, h2]
    by_cases he : e = h
    · subst he; rw [upd_same]; exact ⟨rfl, rfl⟩
    · rw [upd_other _ _ he]; exact ⟨rfl, rfl⟩

theorem Covers.congr {rt : RT} {rep : U32} {w w' : World} {ll : List (InstId × Nat)} (h : Covers rt rep w ll)
    (ht : w'.tables = w.tables) (he : ∀ e, (w'.elems e).own = (w.elems e).own ∧ (w'.elems e).rep = (w.elems e).rep) :
    Covers rt rep w' ll := by
  intro inst k e h1 h2 h3
  rw [ht] at h1
  rw [(he e).1] at h2
  rw [(he e).2] at h3
  exact h _ _ _ h1 h2 h3

theorem step_covers (info : RTInfo) (w : World) (op : Op) (ha : Apart w) (rt : RT) (rep : U32) (ll : List (InstId × Nat))
    (h : Covers rt rep w ll) : ∃ ll', Covers rt rep (step info w op).2 ll' ∧
      (step info w op).2.dtors.count (rt, rep) + ll'.length ≤
        w.dtors.count (rt, rep) + ll.length + if op.creates rt rep then 1 else 0 := by
  have stay : ∀ w', w'.dtors = w.dtors → Covers rt rep w' ll → ∃ ll', Covers rt rep w' ll' ∧
      w'.dtors.count (rt, rep) + ll'.length ≤ w.dtors.count (rt, rep) + ll.length + if op.creates rt rep then 1 else 0 := by
    intro w' h1 h2
    exact ⟨ll, h2, by rw [h1]; omega⟩
  have made : ∀ inst rt' (x : Elem), (op.creates rt rep = decide (rt' = rt ∧ x.rep = rep) ∨ x.own = false) →
      ∃ ll', Covers rt rep ((do let h ← alloc x; add inst rt' h : SM World U32) w).2 ll' ∧
      ((do let h ← alloc x; add inst rt' h : SM World U32) w).2.dtors.count (rt, rep) + ll'.length ≤
        w.dtors.count (rt, rep) + ll.length + if op.creates rt rep then 1 else 0 := by
    intro inst rt' x hx
    obtain ⟨h1, h2, k, h3⟩ := alloc_add_covers x inst rt' w ha rt rep ll h
    by_cases hq : rt' = rt ∧ x.own = true ∧ x.rep = rep
    · refine ⟨_, h3, ?_⟩
      rcases hx with hx | hx
      · rw [h1, hx]; simp [hq]; omega
      · rw [hx] at hq; simp at hq
    · exact stay _ h1 (h2 hq)
  cases op with
  | new inst r p => exact made inst r ⟨p, 0, true, none⟩ (.inl rfl)
  | lowerOwn inst r p => exact made inst r ⟨p, 0, true, none⟩ (.inl rfl)
  | lowerBorrow inst cx r p =>
    simp only [step, lowerBorrow]
    by_cases hi : info.impl r = some inst
    · simp only [if_pos hi]; exact stay _ rfl h
    · simp only [if_neg hi]; exact made inst r ⟨p, 0, false, some cx⟩ (.inr rfl)
  | rep inst r i =>
    simp only [step, canonResourceRep]
    rcases hg : (w.tables inst r).get i with e | _ | _ | _
    · rw [SM.bind_ok (show Verif.Handles.get inst r i w = (.ok e, w) by simp [Verif.Handles.get, hg]), SM.bind_get]; exact stay _ rfl h
    · rw [SM.bind_err (show Verif.Handles.get inst r i w = (.err, w) by simp [Verif.Handles.get, hg])]; exact stay _ rfl h
    · rw [SM.bind_panic (show Verif.Handles.get inst r i w = (.panic, w) by simp [Verif.Handles.get, hg])]; exact stay _ rfl h
    · rw [SM.bind_diverge (show Verif.Handles.get inst r i w = (.diverge, w) by simp [Verif.Handles.get, hg])]; exact stay _ rfl h
  | liftBorrow inst cx r i =>
    simp only [step, liftBorrow]
    rcases hg : (w.tables inst r).get i with e | _ | _ | _
    · rw [SM.bind_ok (show Verif.Handles.get inst r i w = (.ok e, w) by simp [Verif.Handles.get, hg])]
      refine stay _ rfl (h.congr rfl fun x => ?_)
      show (upd w.elems e { w.elems e with lendCount := (w.elems e).lendCount + 1 } x).own = _ ∧
        (upd w.elems e { w.elems e with lendCount := (w.elems e).lendCount + 1 } x).rep = _
      by_cases hx : x = e
      · subst hx; rw [upd_same]; exact ⟨rfl, rfl⟩
      · rw [upd_other _ _ hx]; exact ⟨rfl, rfl⟩
    · rw [SM.bind_err (show Verif.Handles.get inst r i w = (.err, w) by simp [Verif.Handles.get, hg])]; exact stay _ rfl h
    · rw [SM.bind_panic (show Verif.Handles.get inst r i w = (.panic, w) by simp [Verif.Handles.get, hg])]; exact stay _ rfl h
    · rw [SM.bind_diverge (show Verif.Handles.get inst r i w = (.diverge, w) by simp [Verif.Handles.get, hg])]; exact stay _ rfl h
  | liftOwn inst r i =>
    obtain ⟨h1, h2, -⟩ := remove_covers inst r i w rt rep ll h
    simp only [step, liftOwn]
    rcases hr : remove inst r i w with ⟨e | _ | _ | _, w'⟩ <;> rw [hr] at h1 h2
    · rw [SM.bind_ok hr, SM.bind_get]; exact stay _ h1 h2
    · rw [SM.bind_err hr]; exact stay _ h1 h2
    · rw [SM.bind_panic hr]; exact stay _ h1 h2
    · rw [SM.bind_diverge hr]; exact stay _ h1 h2
  | drop inst r i =>
    obtain ⟨h1, h2, h3⟩ := remove_covers inst r i w rt rep ll h
    have hu : ∀ x : Res Unit × World, (unitRes x).2 = x.2 := by rintro ⟨_ | _ | _ | _, _⟩ <;> rfl
    simp only [step, hu, canonResourceDrop]
    rcases hr : remove inst r i w with ⟨e | _ | _ | _, w'⟩
    · obtain ⟨h4, h5⟩ := h3 e w' hr
      rw [hr] at h1 h2
      rw [SM.bind_ok hr, SM.bind_get]
      by_cases ho : (w'.elems e).own = true
      · simp only [ho, Bool.not_true, Bool.false_eq_true, if_false]
        cases info.impl r with
        | none => exact stay _ h1 h2
        | some impl =>
          by_cases g1 : inst ≠ impl ∧ w'.mayEnter impl = false
          · simp only [if_pos g1]; exact stay _ h1 h2
          · simp only [if_neg g1]
            by_cases g2 : info.hasDtor r = true
            · simp only [if_pos g2]
              by_cases g3 : r = rt ∧ (w.elems e).rep = rep
              · obtain ⟨h6, h7⟩ := h5 g3.1 (h4 ▸ ho) g3.2
                refine ⟨ll.erase (inst, i.toNat), h7.congr rfl (fun _ => ⟨rfl, rfl⟩), ?_⟩
                have h8 := List.length_erase_of_mem h6
                have h9 := List.length_pos_of_mem h6
                show ((r, (w'.elems e).rep) :: w'.dtors).count (rt, rep) + _ ≤ _
                have h1' : w'.dtors = w.dtors := h1
                rw [h1', h4, g3.1, g3.2, List.count_cons_self]
                omega
              · refine ⟨ll, h2.congr rfl (fun _ => ⟨rfl, rfl⟩), ?_⟩
                show ((r, (w'.elems e).rep) :: w'.dtors).count (rt, rep) + _ ≤ _
                have h1' : w'.dtors = w.dtors := h1
                rw [h1', h4, List.count_cons_of_ne (fun hc => g3 ⟨(Prod.mk.inj hc).1, (Prod.mk.inj hc).2⟩)]
                omega
            · simp only [if_neg g2]; exact stay _ h1 h2
      · simp only [ho, Bool.not_false, if_true]; exact stay _ h1 h2
    all_goals rw [hr] at h1 h2
    · rw [SM.bind_err hr]; exact stay _ h1 h2
    · rw [SM.bind_panic hr]; exact stay _ h1 h2
    · rw [SM.bind_diverge hr]; exact stay _ h1 h2
  | exit cx =>
    have hu : ∀ x : Res Unit × World, (unitRes x).2 = x.2 := by rintro ⟨_ | _ | _ | _, _⟩ <;> rfl
    simp only [step, hu, exitCall]
    by_cases hb : (w.ctxs cx).borrowCount ≠ 0
    · simp only [if_pos hb]; exact stay _ rfl h
    · simp only [if_neg hb]; exact stay _ rfl (h.congr rfl fun e => release_same _ _ e)
  | flag inst b => exact stay _ rfl h

/-- **C36, never twice.** The destructor of a type is called with a representation at most as often as own handles of
that type with that representation were made, in every history whatever. -/
theorem destructs_at_most_once (info : RTInfo) (ops : List Op) (rt : RT) (rep : U32) :
    (World.after info ops).dtors.count (rt, rep) ≤ ops.countP (fun op => op.creates rt rep) := by
  suffices hs : ∃ ll, Covers rt rep (World.after info ops) ll ∧
      (World.after info ops).dtors.count (rt, rep) + ll.length ≤ ops.countP (fun op => op.creates rt rep) by
    obtain ⟨ll, -, h⟩ := hs; omega
  induction ops using List.reverseRecOn with
  | nil =>
    exact ⟨[], fun _ _ _ h => by simp [World.after, run, World.init, Table.empty] at h, by simp [World.after, run, World.init]⟩
  | append_singleton ops op ih =>
    obtain ⟨ll, h1, h2⟩ := ih
    obtain ⟨ll', h3, h4⟩ := step_covers info (World.after info ops) op (after_apart info ops) rt rep ll h1
    rw [(after_snoc info ops op).1]
    refine ⟨ll', h3, ?_⟩
    rw [List.countP_append, List.countP_singleton]
    omega

/-- The bound is met, in a history where a call ends twice and the handle is dropped while lent to another call. -/
example : ¬ Valid demoInfo [.new 0 5 42, .liftBorrow 0 0 5 0, .exit 0, .liftBorrow 0 1 5 0, .exit 0, .drop 0 5 0, .drop 0 5 0] ∧
    (World.after demoInfo [.new 0 5 42, .liftBorrow 0 0 5 0, .exit 0, .liftBorrow 0 1 5 0, .exit 0, .drop 0 5 0,
      .drop 0 5 0]).dtors.count (5, 42) = 1 := by
  refine ⟨fun h => ?_, by decide⟩
  have := h.1.2.2.2.2.1 0 rfl
  exact absurd this (by decide)

/-- **C36, where it fails.** An instance drops an own handle while the instance that implements the resource may not be
entered: the drop traps, but the handle has already been removed, and its destructor will never be called. -/
theorem drop_loses_resource :
    let ops : List Op := [.lowerOwn 1 5 42, .flag 0 false]
    demoInfo.impl 5 = some 0 ∧ demoInfo.hasDtor 5 = true ∧
    (step demoInfo (World.after demoInfo ops) (.rep 1 5 0)).1 = .ok 42 ∧
    (step demoInfo (World.after demoInfo ops) (.drop 1 5 0)).1 = .err ∧
    (World.after demoInfo (ops ++ [.drop 1 5 0])).dtors = [] ∧
    (step demoInfo (World.after demoInfo (ops ++ [.drop 1 5 0])) (.rep 1 5 0)).1 = .err := by decide

end Verif.Handles
