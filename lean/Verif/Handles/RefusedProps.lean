import Verif.Handles.Props
import Verif.Handles.DtorProps

/-!
# C114: a refused operation on handles changes nothing

What can be seen of the handles is what later operations answer.
-/

namespace Verif.Handles
open Verif.Abi (RT)

/-- What the operations of a history answer, and the destructor calls made in the end. -/
def answers (info : RTInfo) (w : World) : List Op → List (Res U32) × List (RT × U32)
  | [] => ([], w.dtors)
  | op :: ops => ((step info w op).1 :: (answers info (step info w op).2 ops).1, (answers info (step info w op).2 ops).2)

/-- The operation asks for a new handle. -/
def Op.adds : Op → Bool
  | .new .. | .lowerOwn .. | .lowerBorrow .. => true
  | _ => false

theorem setTable_self (w : World) (inst : InstId) (rt : RT) : w.setTable inst rt (w.tables inst rt) = w := by
  have h : upd w.tables inst (upd (w.tables inst) rt (w.tables inst rt)) = w.tables := by
    funext i r
    unfold upd
    split
    · subst_vars
      simp only
      split
      · subst_vars; rfl
      · rfl
    · rfl
  unfold World.setTable
  rw [h]

theorem tremove_err (t : Table) (lend : ElemId → Int) (i : U32) (h : (t.remove lend i).1 = .err) :
    (t.remove lend i).2 = t := by
  unfold Table.remove at h ⊢
  rcases hg : t.get i with e | _ | _ | _
  · rw [hg] at h
    simp only at h ⊢
    by_cases hl : lend e ≠ 0
    · rw [if_pos hl]
    · rw [if_neg hl] at h; cases h
  · rfl
  · rfl
  · rfl

theorem remove_ok_or (inst : InstId) (rt : RT) (i : U32) (w : World) :
    (∃ h, (remove inst rt i w).1 = .ok h) ∨ ((remove inst rt i w).1 = .err → (remove inst rt i w).2 = w) := by
  unfold remove
  simp only
  rcases hr : (w.tables inst rt).remove (fun e => (w.elems e).lendCount) i with ⟨r, t⟩
  cases r with
  | ok h => left; refine ⟨h, ?_⟩; simp only; split <;> rfl
  | err =>
    right; intro _
    have := tremove_err _ _ _ (congrArg Prod.fst hr)
    rw [hr] at this
    simp only at this ⊢
    rw [this, setTable_self]
  | panic => right; intro h; cases h
  | diverge => right; intro h; cases h

theorem liftOwn_err (inst : InstId) (rt : RT) (i : U32) (w : World) (h : (liftOwn inst rt i w).1 = .err) :
    (liftOwn inst rt i w).2 = w := by
  unfold liftOwn at h ⊢
  rcases hr : remove inst rt i w with ⟨r, w'⟩
  cases r with
  | ok e => rw [SM.bind_ok hr] at h; cases h
  | err =>
    rw [SM.bind_err hr]
    rcases remove_ok_or inst rt i w with ⟨e, he⟩ | he
    · rw [hr] at he; cases he
    · rw [hr] at he; exact he rfl
  | panic => rw [SM.bind_panic hr] at h; cases h
  | diverge => rw [SM.bind_diverge hr] at h; cases h

theorem get_err {α : Type} (inst : InstId) (rt : RT) (i : U32) (w : World) (f : ElemId → SM World α)
    (hf : ∀ e w, (f e w).1 ≠ .err) (h : ((get inst rt i >>= f) w).1 = .err) : ((get inst rt i >>= f) w).2 = w := by
  rcases hr : get inst rt i w with ⟨r, w'⟩
  have hw : w' = w := (congrArg Prod.snd hr).symm
  cases r with
  | ok e => rw [SM.bind_ok hr] at h; exact absurd h (hf _ _)
  | err => rw [SM.bind_err hr]; exact hw
  | panic => rw [SM.bind_panic hr] at h; cases h
  | diverge => rw [SM.bind_diverge hr] at h; cases h

/-- An operation that asks for no new handle and is refused leaves everything as it was, unless it is the drop of a
handle that is then lost because the implementing instance may not be entered. -/
theorem refused_same (info : RTInfo) (w : World) (op : Op) (ha : op.adds = false)
    (hd : ∀ inst rt i k, op = .drop inst rt i → info.impl rt = some k → inst = k ∨ w.mayEnter k = true)
    (h : (step info w op).1 = .err) : (step info w op).2 = w := by
  cases op with
  | new => cases ha
  | lowerOwn => cases ha
  | lowerBorrow => cases ha
  | rep inst rt i => exact get_err inst rt i w _ (fun _ _ h => by cases h) h
  | liftBorrow inst cx rt i => exact get_err inst rt i w _ (fun _ _ h => by cases h) h
  | liftOwn inst rt i => exact liftOwn_err inst rt i w h
  | flag => cases h
  | exit cx =>
    simp only [step, exitCall] at h ⊢
    split at h
    · rename_i hc; rw [if_pos hc]; rfl
    · cases h
  | drop inst rt i =>
    have hd := fun k => hd inst rt i k rfl
    simp only [step] at h ⊢
    unfold canonResourceDrop at h ⊢
    rcases hr : remove inst rt i w with ⟨r, w'⟩
    cases r with
    | ok e =>
      exfalso
      have hm : w'.mayEnter = w.mayEnter := by
        have : (remove inst rt i w).2.mayEnter = w.mayEnter := by
          unfold remove
          simp only
          split
          · split <;> rfl
          · rfl
          · rfl
          · rfl
        rw [hr] at this; exact this
      rw [SM.bind_ok hr, SM.bind_get, SM.ite_app] at h
      by_cases ho : (!(w'.elems e).own) = true
      · rw [if_pos ho] at h; cases h
      · rw [if_neg ho] at h
        rcases hk : info.impl rt with _ | k
        · rw [hk] at h; cases h
        · rw [hk] at h
          simp only at h
          rw [SM.ite_app, if_neg (by
            rw [hm]; rintro ⟨h1, h2⟩
            rcases hd k hk with h3 | h3
            · exact h1 h3
            · rw [h2] at h3; cases h3), SM.ite_app] at h
          split at h <;> cases h
    | err =>
      rw [SM.bind_err hr]
      rcases remove_ok_or inst rt i w with ⟨e, he⟩ | he
      · rw [hr] at he; cases he
      · rw [hr] at he; exact he rfl
    | panic => rw [SM.bind_panic hr] at h; cases h
    | diverge => rw [SM.bind_diverge hr] at h; cases h

/-- **C114**, for operations that ask for no new handle, in every state: whatever comes after a refusal is answered as
if the operation had not been tried.
Missing: refused drops of handles whose implementing instance may not be entered, which lose the handle
(`drop_loses_resource`), and refused operations that ask for a new handle, see `refused_add_partial`,
`refused_add_seen`. -/
theorem refused_unseen_partial (info : RTInfo) (w : World) (op : Op) (ha : op.adds = false)
    (hd : ∀ inst rt i k, op = .drop inst rt i → info.impl rt = some k → inst = k ∨ w.mayEnter k = true)
    (h : (step info w op).1 = .err) (ops : List Op) :
    answers info (step info w op).2 ops = answers info w ops := by
  rw [refused_same info w op ha hd h]

/-! ## Refused additions -/

/-- The elements that tables and calls point to exist. -/
structure Exist (w : World) : Prop where
  tables : ∀ i rt (k : Nat) e, (w.tables i rt).array[k]? = some (some e) → e < w.next
  lenders : ∀ c, ∀ e ∈ (w.ctxs c).lenders, e < w.next

/-- The same handles; the free lists may differ. -/
structure Sim (w w' : World) : Prop where
  array : ∀ i rt, (w'.tables i rt).array = (w.tables i rt).array
  elems : ∀ e, e < w.next → w'.elems e = w.elems e
  next : w.next ≤ w'.next
  ctxs : w'.ctxs = w.ctxs
  enter : w'.mayEnter = w.mayEnter
  dtors : w'.dtors = w.dtors

theorem Sim.get {w w' : World} (h : Sim w w') (inst : InstId) (rt : RT) (i : U32) :
    (w'.tables inst rt).get i = (w.tables inst rt).get i := by
  unfold Table.get
  rw [h.array]

theorem Table.get_mem {t : Table} {i : U32} {e : ElemId} (h : t.get i = .ok e) : t.array[i.toNat]? = some (some e) := by
  unfold Table.get at h
  split at h
  · cases h
  · split at h
    · cases h
    · cases h
    · rename_i heq; cases h; exact heq

theorem Sim.tremove {w w' : World} (h : Sim w w') (hx : Exist w) (inst : InstId) (rt : RT) (i : U32) :
    ((w'.tables inst rt).remove (fun e => (w'.elems e).lendCount) i).1 =
      ((w.tables inst rt).remove (fun e => (w.elems e).lendCount) i).1 ∧
    ((w'.tables inst rt).remove (fun e => (w'.elems e).lendCount) i).2.array =
      ((w.tables inst rt).remove (fun e => (w.elems e).lendCount) i).2.array := by
  unfold Table.remove
  rw [h.get]
  rcases hg : (w.tables inst rt).get i with e | _ | _ | _
  · have he := h.elems e (hx.tables _ _ _ _ (Table.get_mem hg))
    simp only
    by_cases hl : (w.elems e).lendCount ≠ 0
    · rw [if_pos hl, if_pos (by rw [he]; exact hl)]
      exact ⟨rfl, h.array _ _⟩
    · rw [if_neg hl, if_neg (by rw [he]; exact hl)]
      exact ⟨rfl, by rw [h.array]⟩
  · exact ⟨rfl, h.array _ _⟩
  · exact ⟨rfl, h.array _ _⟩
  · exact ⟨rfl, h.array _ _⟩

theorem Sim.setTable {w w' : World} (h : Sim w w') (inst : InstId) (rt : RT) (t t' : Table) (ht : t'.array = t.array) :
    Sim (w.setTable inst rt t) (w'.setTable inst rt t') := by
  refine ⟨?_, h.elems, h.next, h.ctxs, h.enter, h.dtors⟩
  intro i r
  simp only [World.setTable, upd]
  split
  · subst_vars
    unfold upd
    split
    · exact ht
    · exact h.array _ _
  · exact h.array _ _

theorem Exist.setTable {w : World} (h : Exist w) (inst : InstId) (rt : RT) (t : Table)
    (ht : ∀ (k : Nat) e, t.array[k]? = some (some e) → e < w.next) : Exist (w.setTable inst rt t) := by
  refine ⟨?_, h.lenders⟩
  intro i r k e he
  simp only [World.setTable, upd] at he
  split at he
  · unfold upd at he
    split at he
    · exact ht k e he
    · subst_vars; exact h.tables _ _ _ _ he
  · exact h.tables _ _ _ _ he

theorem tremove_old (t : Table) (lend : ElemId → Int) (i : U32) (k : Nat) (e : ElemId)
    (h : (t.remove lend i).2.array[k]? = some (some e)) : t.array[k]? = some (some e) := by
  unfold Table.remove at h
  rcases hg : t.get i with x | _ | _ | _ <;> rw [hg] at h <;> simp only at h
  · split at h
    · exact h
    · simp only [List.getElem?_set] at h
      split at h
      · split at h <;> cases h
      · exact h
  · exact h
  · exact h
  · exact h

/-- Both worlds answer the same and stay alike. -/
structure Stays {α : Type} (x x' : Res α × World) : Prop where
  res : x'.1 = x.1
  sim : Sim x.2 x'.2
  exist : Exist x.2

theorem remove_stays {w w' : World} (h : Sim w w') (hx : Exist w) (inst : InstId) (rt : RT) (i : U32) :
    Stays (remove inst rt i w) (remove inst rt i w') ∧ (∀ e, (remove inst rt i w).1 = .ok e → e < w.next) ∧
    (remove inst rt i w).2.next = w.next := by
  obtain ⟨h1, h2⟩ := h.tremove hx inst rt i
  have h3 := tremove_old (w.tables inst rt) (fun e => (w.elems e).lendCount) i
  have h4 : ∀ e, ((w.tables inst rt).remove (fun e => (w.elems e).lendCount) i).1 = .ok e → e < w.next := by
    intro e he
    unfold Table.remove at he
    rcases hg : (w.tables inst rt).get i with x | _ | _ | _ <;> rw [hg] at he <;> simp only at he
    · split at he
      · cases he
      · cases he; exact hx.tables _ _ _ _ (Table.get_mem hg)
    · cases he
    · cases he
    · cases he
  unfold remove
  simp only
  rcases hr : (w.tables inst rt).remove (fun e => (w.elems e).lendCount) i with ⟨r, t⟩
  rcases hr' : (w'.tables inst rt).remove (fun e => (w'.elems e).lendCount) i with ⟨r', t'⟩
  rw [hr, hr'] at h1 h2
  rw [hr] at h3 h4
  simp only at h1 h2 h3 h4
  subst h1
  have s1 := h.setTable inst rt t t' h2
  have x1 := hx.setTable inst rt t (fun k e he => hx.tables _ _ _ _ (h3 k e he))
  cases r' with
  | ok e =>
    have hlt := h4 e rfl
    have he : (w'.setTable inst rt t').elems e = (w.setTable inst rt t).elems e := s1.elems e hlt
    simp only [he]
    split
    · rename_i c hc
      refine ⟨⟨rfl, ⟨s1.array, s1.elems, s1.next, ?_, s1.enter, s1.dtors⟩, ⟨x1.tables, ?_⟩⟩, ?_, rfl⟩
      · simp only [World.setCtx, s1.ctxs]
      · intro c' e' he'
        simp only [World.setCtx, upd] at he'
        split at he'
        · exact x1.lenders _ _ he'
        · exact x1.lenders _ _ he'
      · intro e' he'; cases he'; exact hlt
    · exact ⟨⟨rfl, s1, x1⟩, fun e' he' => by cases he'; exact hlt, rfl⟩
  | err => exact ⟨⟨rfl, s1, x1⟩, (fun _ h => by cases h), rfl⟩
  | panic => exact ⟨⟨rfl, s1, x1⟩, (fun _ h => by cases h), rfl⟩
  | diverge => exact ⟨⟨rfl, s1, x1⟩, (fun _ h => by cases h), rfl⟩

theorem release_sim (n : Nat) : (hs : List ElemId) → (∀ h ∈ hs, h < n) → (f f' : ElemId → Elem) →
    (∀ e, e < n → f' e = f e) → ∀ e, e < n → release f' hs e = release f hs e
  | [], _, _, _, hf, e, he => hf e he
  | h :: hs, hh, f, f', hf, e, he => by
    unfold release
    refine release_sim n hs (fun x hx => hh x (List.mem_cons_of_mem _ hx)) _ _ ?_ e he
    intro x hx
    unfold upd
    rw [hf h (hh h List.mem_cons_self)]
    split
    · rfl
    · exact hf x hx

theorem step_stays (info : RTInfo) {w w' : World} (h : Sim w w') (hx : Exist w) (op : Op) (ha : op.adds = false) :
    Stays (step info w op) (step info w' op) := by
  cases op with
  | new => cases ha
  | lowerOwn => cases ha
  | lowerBorrow => cases ha
  | rep inst rt i =>
    simp only [step, canonResourceRep]
    have e1 : get inst rt i w = ((w.tables inst rt).get i, w) := rfl
    have e2 : get inst rt i w' = ((w.tables inst rt).get i, w') := by rw [← h.get]; rfl
    rcases hg : (w.tables inst rt).get i with e | _ | _ | _ <;> rw [hg] at e1 e2
    · rw [SM.bind_ok e1, SM.bind_ok e2, SM.bind_get, SM.bind_get,
        h.elems e (hx.tables _ _ _ _ (Table.get_mem hg))]
      exact ⟨rfl, h, hx⟩
    · rw [SM.bind_err e1, SM.bind_err e2]; exact ⟨rfl, h, hx⟩
    · rw [SM.bind_panic e1, SM.bind_panic e2]; exact ⟨rfl, h, hx⟩
    · rw [SM.bind_diverge e1, SM.bind_diverge e2]; exact ⟨rfl, h, hx⟩
  | liftBorrow inst cx rt i =>
    simp only [step, liftBorrow]
    have e1 : get inst rt i w = ((w.tables inst rt).get i, w) := rfl
    have e2 : get inst rt i w' = ((w.tables inst rt).get i, w') := by rw [← h.get]; rfl
    rcases hg : (w.tables inst rt).get i with e | _ | _ | _ <;> rw [hg] at e1 e2
    · rw [SM.bind_ok e1, SM.bind_ok e2]
      have hlt := hx.tables _ _ _ _ (Table.get_mem hg)
      have hel := h.elems e hlt
      refine ⟨?_, ⟨h.array, ?_, h.next, ?_, h.enter, h.dtors⟩, ⟨hx.tables, ?_⟩⟩
      · show Res.ok (upd w'.elems e _ e).rep = Res.ok (upd w.elems e _ e).rep
        rw [upd_same, upd_same, hel]
      · intro x hx'
        show upd w'.elems e _ x = upd w.elems e _ x
        unfold upd
        rw [hel]
        split
        · rfl
        · exact h.elems x hx'
      · show upd w'.ctxs cx _ = upd w.ctxs cx _
        rw [h.ctxs]
      · intro c x hx'
        change x ∈ (upd w.ctxs cx _ c).lenders at hx'
        unfold upd at hx'
        split at hx'
        · simp only [List.mem_append, List.mem_singleton] at hx'
          rcases hx' with hx' | rfl
          · exact hx.lenders _ _ hx'
          · exact hlt
        · exact hx.lenders _ _ hx'
    · rw [SM.bind_err e1, SM.bind_err e2]; exact ⟨rfl, h, hx⟩
    · rw [SM.bind_panic e1, SM.bind_panic e2]; exact ⟨rfl, h, hx⟩
    · rw [SM.bind_diverge e1, SM.bind_diverge e2]; exact ⟨rfl, h, hx⟩
  | flag inst b =>
    exact ⟨rfl, ⟨h.array, h.elems, h.next, h.ctxs, by simp only [step, h.enter], h.dtors⟩, ⟨hx.tables, hx.lenders⟩⟩
  | exit cx =>
    simp only [step, exitCall, h.ctxs]
    split
    · exact ⟨rfl, h, hx⟩
    · refine ⟨rfl, ⟨h.array, ?_, h.next, rfl, h.enter, h.dtors⟩, ⟨hx.tables, hx.lenders⟩⟩
      exact release_sim w.next _ (hx.lenders cx) _ _ h.elems
  | liftOwn inst rt i =>
    obtain ⟨⟨h1, h2, h3⟩, h4, h5⟩ := remove_stays h hx inst rt i
    simp only [step, liftOwn]
    rcases hr : remove inst rt i w with ⟨r, w1⟩
    rcases hr' : remove inst rt i w' with ⟨r', w1'⟩
    rw [hr, hr'] at h1 h2
    rw [hr] at h3 h4 h5
    simp only at h1 h2 h3 h4 h5
    subst h1
    cases r' with
    | ok e =>
      rw [SM.bind_ok hr, SM.bind_ok hr', SM.bind_get, SM.bind_get, h2.elems e (by rw [h5]; exact h4 e rfl)]
      exact ⟨rfl, h2, h3⟩
    | err => rw [SM.bind_err hr, SM.bind_err hr']; exact ⟨rfl, h2, h3⟩
    | panic => rw [SM.bind_panic hr, SM.bind_panic hr']; exact ⟨rfl, h2, h3⟩
    | diverge => rw [SM.bind_diverge hr, SM.bind_diverge hr']; exact ⟨rfl, h2, h3⟩
  | drop inst rt i =>
    obtain ⟨⟨h1, h2, h3⟩, h4, h5⟩ := remove_stays h hx inst rt i
    have key : Stays (canonResourceDrop info inst rt i w) (canonResourceDrop info inst rt i w') := by
      unfold canonResourceDrop
      rcases hr : remove inst rt i w with ⟨r, w1⟩
      rcases hr' : remove inst rt i w' with ⟨r', w1'⟩
      rw [hr, hr'] at h1 h2
      rw [hr] at h3 h4 h5
      simp only at h1 h2 h3 h4 h5
      subst h1
      cases r' with
      | ok e =>
        rw [SM.bind_ok hr, SM.bind_ok hr', SM.bind_get, SM.bind_get, SM.ite_app, SM.ite_app,
          h2.elems e (by rw [h5]; exact h4 e rfl), h2.enter]
        split
        · exact ⟨rfl, h2, h3⟩
        · rcases info.impl rt with _ | k
          · exact ⟨rfl, h2, h3⟩
          · simp only [SM.ite_app]
            split
            · exact ⟨rfl, h2, h3⟩
            · split
              · refine ⟨rfl, ⟨h2.array, h2.elems, h2.next, h2.ctxs, h2.enter, ?_⟩, ⟨h3.tables, h3.lenders⟩⟩
                show (rt, (w1'.elems e).rep) :: w1'.dtors = (rt, (w1.elems e).rep) :: w1.dtors
                rw [h2.dtors, h2.elems e (by rw [h5]; exact h4 e rfl)]
              · exact ⟨rfl, h2, h3⟩
      | err => rw [SM.bind_err hr, SM.bind_err hr']; exact ⟨rfl, h2, h3⟩
      | panic => rw [SM.bind_panic hr, SM.bind_panic hr']; exact ⟨rfl, h2, h3⟩
      | diverge => rw [SM.bind_diverge hr, SM.bind_diverge hr']; exact ⟨rfl, h2, h3⟩
    simp only [step]
    obtain ⟨k1, k2, k3⟩ := key
    rcases hq : canonResourceDrop info inst rt i w with ⟨r, w1⟩
    rcases hq' : canonResourceDrop info inst rt i w' with ⟨r', w1'⟩
    rw [hq, hq'] at k1 k2
    rw [hq] at k3
    simp only at k1 k2 k3
    subst k1
    cases r' <;> exact ⟨rfl, k2, k3⟩

theorem answers_sim (info : RTInfo) : (ops : List Op) → (∀ op ∈ ops, op.adds = false) → {w w' : World} → Sim w w' →
    Exist w → answers info w' ops = answers info w ops
  | [], _, _, _, h, _ => by unfold answers; rw [h.dtors]
  | op :: ops, ha, w, w', h, hx => by
    have hs := step_stays info h hx op (ha op List.mem_cons_self)
    unfold answers
    rw [hs.res, answers_sim info ops (fun o ho => ha o (List.mem_cons_of_mem _ ho)) hs.sim hs.exist]

/-! ### Reachable states -/

theorem Sim.refl (w : World) : Sim w w := ⟨fun _ _ => rfl, fun _ _ => rfl, Nat.le_refl _, rfl, rfl, rfl⟩

theorem tadd_old (t : Table) (x : ElemId) (k : Nat) (e : ElemId) (h : (t.add x).2.array[k]? = some (some e)) :
    t.array[k]? = some (some e) ∨ e = x := by
  unfold Table.add at h
  split at h
  · split at h
    · exact .inl h
    · exact .inl h
    · simp only [List.getElem?_set] at h
      split at h
      · split at h
        · simp only [Option.some.injEq] at h; exact .inr h.symm
        · cases h
      · exact .inl h
  · simp only [List.getElem?_append] at h
    split at h
    · exact .inl h
    · rcases hk : k - t.array.length with _ | n
      · rw [hk] at h
        simp only [List.getElem?_cons_zero, Option.some.injEq] at h; exact .inr h.symm
      · rw [hk] at h; simp at h

theorem tadd_err (t : Table) (x : ElemId) (h : (t.add x).1 = .err) : (t.add x).2.array = t.array := by
  unfold Table.add at h ⊢
  split
  · rename_i i fr hf
    rw [hf] at h
    simp only at h ⊢
    split
    · rfl
    · rfl
    · rename_i hn; rw [hn] at h; cases h
  · rename_i hf; rw [hf] at h; cases h

/-- Making a handle. -/
theorem make_exist {w : World} (hx : Exist w) (x : Elem) (inst : InstId) (rt : RT) :
    Exist ((alloc x >>= add inst rt) w).2 ∧
    (((alloc x >>= add inst rt) w).1 = .err → Sim w ((alloc x >>= add inst rt) w).2) := by
  have e0 : alloc x w = (.ok w.next, { w with elems := upd w.elems w.next x, next := w.next + 1 }) := rfl
  rw [SM.bind_ok e0]
  have h1 := tadd_old (w.tables inst rt) w.next
  have h2 := tadd_err (w.tables inst rt) w.next
  unfold add
  simp only
  rcases ht : (w.tables inst rt).add w.next with ⟨r, t⟩
  rw [ht] at h1 h2
  simp only at h1 h2 ⊢
  have x0 : Exist { w with elems := upd w.elems w.next x, next := w.next + 1 } :=
    ⟨fun i r k e he => Nat.lt_succ_of_lt (hx.tables i r k e he), fun c e he => Nat.lt_succ_of_lt (hx.lenders c e he)⟩
  have x1 := x0.setTable inst rt t (by
    intro k e he
    rcases h1 k e he with h | h
    · exact Nat.lt_succ_of_lt (hx.tables _ _ _ _ h)
    · rw [h]; exact Nat.lt_succ_self _)
  cases r with
  | ok i =>
    simp only
    split
    · refine ⟨⟨x1.tables, ?_⟩, fun h => by cases h⟩
      intro c' e' he'
      simp only [World.setCtx, upd] at he'
      split at he'
      · exact x1.lenders _ _ he'
      · exact x1.lenders _ _ he'
    · exact ⟨x1, fun h => by cases h⟩
  | err =>
    refine ⟨x1, fun _ => ?_⟩
    refine ⟨?_, ?_, Nat.le_succ _, rfl, rfl, rfl⟩
    · intro i r
      simp only [World.setTable, upd]
      split
      · subst_vars
        unfold upd
        split
        · subst_vars; exact h2 rfl
        · rfl
      · rfl
    · intro e he
      show upd w.elems w.next x e = w.elems e
      rw [upd_other _ _ (Nat.ne_of_lt he)]
  | panic => exact ⟨x1, fun h => by cases h⟩
  | diverge => exact ⟨x1, fun h => by cases h⟩

theorem step_exist (info : RTInfo) {w : World} (hx : Exist w) (op : Op) : Exist (step info w op).2 := by
  by_cases ha : op.adds = false
  · exact (step_stays info (Sim.refl w) hx op ha).exist
  · cases op with
    | new inst rt rep => exact (make_exist hx _ inst rt).1
    | lowerOwn inst rt rep => exact (make_exist hx _ inst rt).1
    | lowerBorrow inst cx rt rep =>
      simp only [step, lowerBorrow]
      rw [SM.ite_app]
      split
      · exact hx
      · exact (make_exist hx _ inst rt).1
    | _ => exact absurd rfl ha

theorem run_exist (info : RTInfo) : (ops : List Op) → (w : World) → (a : State) → Exist w → Exist (run info w a ops).1
  | [], _, _, h => h
  | op :: ops, w, a, h => by
    unfold run
    exact run_exist info ops _ _ (step_exist info h op)

theorem after_exist (info : RTInfo) (ops : List Op) : Exist (World.after info ops) :=
  run_exist info ops _ _ ⟨fun _ _ k e h => by simp [World.init, Table.empty] at h, fun _ e h => by
    simp [World.init] at h⟩

/-- **C114**, for operations that ask for a new handle, after every history: once such an operation is refused,
whatever comes after it without asking for another handle is answered as if it had not been tried.
Missing: later operations that do ask for one, see `refused_add_seen`. -/
theorem refused_add_partial (info : RTInfo) (hist : List Op) (op : Op) (ha : op.adds = true)
    (h : (step info (World.after info hist) op).1 = .err) (ops : List Op) (hops : ∀ o ∈ ops, o.adds = false) :
    answers info (step info (World.after info hist) op).2 ops = answers info (World.after info hist) ops := by
  have hx := after_exist info hist
  generalize World.after info hist = w at *
  have hs : Sim w (step info w op).2 := by
    cases op with
    | new inst rt rep => exact (make_exist hx _ inst rt).2 h
    | lowerOwn inst rt rep => exact (make_exist hx _ inst rt).2 h
    | lowerBorrow inst cx rt rep =>
      simp only [step, lowerBorrow] at h ⊢
      rw [SM.ite_app] at h ⊢
      split at h
      · cases h
      · rename_i hi
        rw [if_neg hi]
        exact (make_exist hx _ inst rt).2 h
    | _ => cases ha
  exact answers_sim info ops hops hs hx

/-- C114 is false of the code for additions: a refused addition takes an entry off the free list, so that the same
operation tried again is accepted. -/
theorem refused_add_seen :
    let hist : List Op := [.new 0 5 10, .new 0 5 11, .drop 0 5 1]
    let w := World.after demoInfo hist
    (step demoInfo w (.new 0 5 12)).1 = .err ∧
    answers demoInfo w [.new 0 5 12] ≠ answers demoInfo (step demoInfo w (.new 0 5 12)).2 [.new 0 5 12] := by decide

/-! ## The hypotheses are met -/

example (ops : List Op) :
    let w := World.after demoInfo [.new 0 5 10, .liftBorrow 0 1 5 0]
    answers demoInfo (step demoInfo w (.liftOwn 0 5 0)).2 ops = answers demoInfo w ops :=
  refused_unseen_partial demoInfo _ (.liftOwn 0 5 0) rfl (fun _ _ _ _ h => by cases h) (by decide) ops

example (ops : List Op) :
    let w := World.after demoInfo [.new 0 5 10, .liftBorrow 0 1 5 0]
    answers demoInfo (step demoInfo w (.drop 0 5 0)).2 ops = answers demoInfo w ops :=
  refused_unseen_partial demoInfo _ (.drop 0 5 0) rfl
    (fun inst rt i k h1 h2 => by cases h1; exact .inl (by injection h2)) (by decide) ops

example :
    let hist : List Op := [.new 0 5 10, .new 0 5 11, .drop 0 5 1]
    answers demoInfo (step demoInfo (World.after demoInfo hist) (.new 0 5 12)).2 [.rep 0 5 0, .drop 0 5 0] =
      answers demoInfo (World.after demoInfo hist) [.rep 0 5 0, .drop 0 5 0] :=
  refused_add_partial demoInfo _ _ rfl (by decide) _ (by decide)

end Verif.Handles
