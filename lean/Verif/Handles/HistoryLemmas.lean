import Verif.Handles.HistorySpec
import Verif.Abi.FlagsKept

/-!
# Lemmas: histories of operations on handles
-/

namespace Verif.Handles
open Verif.Abi (RT)

theorem then_append (info : RTInfo) (w : World) (l r : List Op) :
    w.then info (l ++ r) = (w.then info l).then info r := by
  induction l generalizing w with
  | nil => rfl
  | cons op l ih => exact ih _

theorem run_then (info : RTInfo) (w : World) (a : State) (ops : List Op) : (run info w a ops).1 = w.then info ops := by
  induction ops generalizing w a with
  | nil => rfl
  | cons op ops ih => exact ih _ _

theorem after_then (info : RTInfo) (l r : List Op) : World.after info (l ++ r) = (World.after info l).then info r := by
  unfold World.after
  rw [run_then, run_then, then_append]

theorem SameHandles.refl (w : World) : SameHandles w w := ⟨w.mayLeave, rfl⟩
theorem SameHandles.trans {a b c : World} (h1 : SameHandles a b) (h2 : SameHandles b c) : SameHandles a c := by
  obtain ⟨f, rfl⟩ := h1
  obtain ⟨g, rfl⟩ := h2
  exact ⟨g, rfl⟩

theorem add_leave (inst : InstId) (rt : RT) (h : ElemId) (w : World) (f : InstId → Bool) :
    add inst rt h { w with mayLeave := f } = ((add inst rt h w).1, { (add inst rt h w).2 with mayLeave := f }) := by
  unfold add
  simp only
  rcases (w.tables inst rt).add h with ⟨r, t⟩
  cases r with
  | ok i =>
    show (match (w.elems h).scope with | some c => _ | none => _) = _
    cases e : (w.elems h).scope with
    | none => simp only [World.setTable, e]
    | some c => simp only [World.setTable, World.setCtx, e]
  | err => rfl
  | panic => rfl
  | diverge => rfl

theorem remove_leave (inst : InstId) (rt : RT) (i : U32) (w : World) (f : InstId → Bool) :
    remove inst rt i { w with mayLeave := f } = ((remove inst rt i w).1, { (remove inst rt i w).2 with mayLeave := f }) := by
  unfold remove
  simp only
  rcases (w.tables inst rt).remove (fun e => (w.elems e).lendCount) i with ⟨r, t⟩
  cases r with
  | ok h =>
    show (match (w.elems h).scope with | some c => _ | none => _) = _
    cases e : (w.elems h).scope with
    | none => simp only [World.setTable, e]
    | some c => simp only [World.setTable, World.setCtx, e]
  | err => rfl
  | panic => rfl
  | diverge => rfl

theorem bind_leave {α β : Type} {m : SM World α} {k : α → SM World β} (f : InstId → Bool)
    (hm : ∀ w : World, m { w with mayLeave := f } = ((m w).1, { (m w).2 with mayLeave := f }))
    (hk : ∀ a (w : World), k a { w with mayLeave := f } = ((k a w).1, { (k a w).2 with mayLeave := f })) (w : World) :
    (m >>= k) { w with mayLeave := f } = (((m >>= k) w).1, { ((m >>= k) w).2 with mayLeave := f }) := by
  rw [SM.bind_def, SM.bind_def, hm]
  rcases m w with ⟨r, u⟩
  cases r with
  | ok a => exact hk a u
  | err => rfl
  | panic => rfl
  | diverge => rfl

/-- No operation looks at or changes which instances may be left. -/
theorem step_leave (info : RTInfo) (op : Op) (w : World) (f : InstId → Bool) :
    step info { w with mayLeave := f } op = ((step info w op).1, { (step info w op).2 with mayLeave := f }) := by
  have hget : ∀ (k : World → SM World U32) (hk : ∀ (v w : World), k { v with mayLeave := f } { w with mayLeave := f } =
      ((k v w).1, { (k v w).2 with mayLeave := f })) (w : World), (SM.get >>= k) { w with mayLeave := f } =
      (((SM.get >>= k) w).1, { ((SM.get >>= k) w).2 with mayLeave := f }) := fun k hk w => by
    rw [SM.bind_get, SM.bind_get]; exact hk w w
  have hg : ∀ inst rt i (w : World), get inst rt i { w with mayLeave := f } =
    ((get inst rt i w).1, { (get inst rt i w).2 with mayLeave := f }) := fun _ _ _ _ => rfl
  have hmake : ∀ (e : Elem) inst rt (w : World), (do let h ← alloc e; add inst rt h : SM World U32) { w with mayLeave := f } =
      (((do let h ← alloc e; add inst rt h : SM World U32) w).1,
        { ((do let h ← alloc e; add inst rt h : SM World U32) w).2 with mayLeave := f }) := fun e inst rt w =>
    bind_leave f (fun _ => rfl) (fun a w => add_leave inst rt a w f) w
  cases op with
  | new inst rt rep => exact hmake _ _ _ _
  | lowerOwn inst rt rep => exact hmake _ _ _ _
  | lowerBorrow inst cx rt rep =>
    show lowerBorrow info inst cx rt rep _ = ((lowerBorrow info inst cx rt rep w).1, { (lowerBorrow info inst cx rt rep w).2 with mayLeave := f })
    unfold lowerBorrow
    split
    · rfl
    · exact hmake _ _ _ _
  | rep inst rt i => exact bind_leave f (hg inst rt i) (fun a w => hget _ (fun _ _ => rfl) w) w
  | liftOwn inst rt i => exact bind_leave f (fun w => remove_leave inst rt i w f) (fun a w => hget _ (fun _ _ => rfl) w) w
  | liftBorrow inst cx rt i =>
    exact bind_leave f (hg inst rt i) (fun a w => bind_leave f (fun _ => rfl) (fun _ w => hget _ (fun _ _ => rfl) w) w) w
  | drop inst rt i =>
    have h : canonResourceDrop info inst rt i { w with mayLeave := f } =
        ((canonResourceDrop info inst rt i w).1, { (canonResourceDrop info inst rt i w).2 with mayLeave := f }) := by
      refine bind_leave f (fun w => remove_leave inst rt i w f) (fun a w => ?_) w
      rw [SM.bind_get, SM.bind_get]
      show (if (!(w.elems a).own) = true then _ else _ : SM World Unit) _ = _
      split
      · rfl
      · cases info.impl rt with
        | none => rfl
        | some impl =>
          show (if inst ≠ impl ∧ w.mayEnter impl = false then _ else _ : SM World Unit) _ = _
          simp only
          split
          · rfl
          · split <;> rfl
    show unitRes _ = ((unitRes _).1, { (unitRes _).2 with mayLeave := f })
    rw [h]
    rcases canonResourceDrop info inst rt i w with ⟨r, u⟩
    cases r <;> rfl
  | exit cx =>
    show unitRes (exitCall cx _) = ((unitRes (exitCall cx w)).1, { (unitRes (exitCall cx w)).2 with mayLeave := f })
    unfold exitCall
    simp only
    split <;> rfl
  | flag inst b => rfl

theorem then_leave (info : RTInfo) (ops : List Op) (w : World) (f : InstId → Bool) :
    World.then info { w with mayLeave := f } ops = { w.then info ops with mayLeave := f } := by
  induction ops generalizing w with
  | nil => rfl
  | cons op ops ih => unfold World.then; rw [step_leave]; exact ih _

/-! ## Calls that are not used stay fresh -/

theorem fresh_alloc_add {w : World} {c : CtxId} (h : w.Fresh c) (e : Elem) (he : e.scope ≠ some c) (inst : InstId) (rt : RT) :
    ((do let h ← alloc e; add inst rt h : SM World U32) w).2.Fresh c := by
  rw [SM.bind_ok (show alloc e w = (.ok w.next, { w with elems := upd w.elems w.next e, next := w.next + 1 }) from rfl)]
  have hs : ∀ x, (upd w.elems w.next e x).scope ≠ some c := by
    intro x
    unfold upd
    split
    · exact he
    · exact h.scope x
  unfold add
  simp only
  rcases (w.tables inst rt).add w.next with ⟨r, t⟩
  cases r with
  | ok i =>
    show ((match (upd w.elems w.next e w.next).scope with | some c => _ | none => _ : Res U32 × World).2).Fresh c
    cases e1 : (upd w.elems w.next e w.next).scope with
    | none => exact ⟨h.empty, hs⟩
    | some c' =>
      have hc : c ≠ c' := by rintro rfl; exact hs _ e1
      refine ⟨?_, hs⟩
      show upd w.ctxs c' _ c = _
      rw [upd_other _ _ hc]
      exact h.empty
  | err => exact ⟨h.empty, hs⟩
  | panic => exact ⟨h.empty, hs⟩
  | diverge => exact ⟨h.empty, hs⟩

theorem fresh_remove {w : World} {c : CtxId} (h : w.Fresh c) (inst : InstId) (rt : RT) (i : U32) :
    (remove inst rt i w).2.Fresh c := by
  unfold remove
  simp only
  rcases (w.tables inst rt).remove (fun e => (w.elems e).lendCount) i with ⟨r, t⟩
  cases r with
  | ok x =>
    show ((match (w.elems x).scope with | some c => _ | none => _ : Res ElemId × World).2).Fresh c
    cases e1 : (w.elems x).scope with
    | none => exact ⟨h.empty, h.scope⟩
    | some c' =>
      have hc : c ≠ c' := by rintro rfl; exact h.scope _ e1
      refine ⟨?_, h.scope⟩
      show upd w.ctxs c' _ c = _
      rw [upd_other _ _ hc]
      exact h.empty
  | err => exact ⟨h.empty, h.scope⟩
  | panic => exact ⟨h.empty, h.scope⟩
  | diverge => exact ⟨h.empty, h.scope⟩

theorem release_scope (hs : List ElemId) (elems : ElemId → Elem) (e : ElemId) :
    (release elems hs e).scope = (elems e).scope := by
  induction hs generalizing elems with
  | nil => rfl
  | cons h hs ih =>
    rw [release, ih]
    by_cases he : e = h
    · subst he; rw [upd_same]
    · rw [upd_other _ _ he]

/-- An operation that does not use the call leaves it fresh. -/
theorem step_fresh (info : RTInfo) (op : Op) {w : World} {c : CtxId} (h : w.Fresh c) (hc : op.ctx ≠ some c) :
    (step info w op).2.Fresh c := by
  have hb : ∀ {α β : Type} {m : SM World α} {k : α → SM World β}, (m w).2.Fresh c → (∀ a u, u.Fresh c → (k a u).2.Fresh c) →
      ((m >>= k) w).2.Fresh c := by
    intro α β m k h1 h2
    rw [SM.bind_def]
    rcases e : m w with ⟨r, u⟩
    rw [e] at h1
    cases r with
    | ok a => exact h2 a u h1
    | err => exact h1
    | panic => exact h1
    | diverge => exact h1
  cases op with
  | new inst rt rep => exact fresh_alloc_add h _ (by simp) _ _
  | lowerOwn inst rt rep => exact fresh_alloc_add h _ (by simp) _ _
  | lowerBorrow inst cx rt rep =>
    show (lowerBorrow info inst cx rt rep w).2.Fresh c
    unfold lowerBorrow
    split
    · exact h
    · exact fresh_alloc_add h _ (by simpa [Op.ctx] using hc) _ _
  | rep inst rt i => exact hb (m := get inst rt i) h fun a u hu => hu
  | liftOwn inst rt i => exact hb (m := remove inst rt i) (fresh_remove h _ _ _) fun a u hu => hu
  | liftBorrow inst cx rt i =>
    refine hb (m := get inst rt i) h fun a u hu => ?_
    rw [SM.bind_ok (show liftBorrowFrom cx a u = (.ok (), (liftBorrowFrom cx a u).2) from rfl), SM.bind_get]
    have hx : c ≠ cx := by rintro rfl; exact hc rfl
    refine ⟨?_, fun e => ?_⟩
    · show upd u.ctxs cx _ c = _
      rw [upd_other _ _ hx]
      exact hu.empty
    · show (upd u.elems a _ e).scope ≠ some c
      unfold upd
      split
      · exact hu.scope a
      · exact hu.scope e
  | drop inst rt i =>
    have hd : (canonResourceDrop info inst rt i w).2.Fresh c := by
      refine hb (m := remove inst rt i) (fresh_remove h _ _ _) fun a u hu => ?_
      rw [SM.bind_get]
      show ((if (!(u.elems a).own) = true then _ else _ : SM World Unit) u).2.Fresh c
      split
      · exact hu
      · cases info.impl rt with
        | none => exact hu
        | some impl =>
          simp only
          split
          · exact hu
          · split
            · exact ⟨hu.empty, hu.scope⟩
            · exact hu
    show (unitRes _).2.Fresh c
    rcases e : canonResourceDrop info inst rt i w with ⟨r, u⟩
    rw [e] at hd
    cases r <;> exact hd
  | exit cx =>
    show (unitRes (exitCall cx w)).2.Fresh c
    unfold exitCall
    split
    · exact h
    · exact ⟨h.empty, fun e => by
        show (release w.elems (w.ctxs cx).lenders e).scope ≠ some c
        rw [release_scope]; exact h.scope e⟩
  | flag inst b => exact ⟨h.empty, h.scope⟩

theorem then_fresh (info : RTInfo) (ops : List Op) {w : World} {c : CtxId} (h : w.Fresh c)
    (hc : ∀ op ∈ ops, op.ctx ≠ some c) : (w.then info ops).Fresh c := by
  induction ops generalizing w with
  | nil => exact h
  | cons op ops ih => exact ih (step_fresh info op h (hc op (by simp))) fun op h => hc op (by simp [h])

theorem fresh_init (c : CtxId) : World.init.Fresh c := ⟨rfl, fun _ => by simp [World.init]⟩

theorem fresh_same {w w' : World} {c : CtxId} (h : SameHandles w w') : w'.Fresh c ↔ w.Fresh c := by
  obtain ⟨f, rfl⟩ := h
  exact ⟨fun h => ⟨h.empty, h.scope⟩, fun h => ⟨h.empty, h.scope⟩⟩

/-! ## Histories that do not use a call after its end -/

theorem noneAfterExit_nil : NoneAfterExit [] := fun l c r h => by simp at h

theorem noneAfterExit_append {l r : List Op} (h1 : NoneAfterExit l) (h2 : NoneAfterExit r)
    (h : ∀ c, Op.exit c ∈ l → ∀ op ∈ r, op.ctx ≠ some c) : NoneAfterExit (l ++ r) := by
  intro a c b e op ho
  rcases List.append_eq_append_iff.1 e with ⟨x, hx, hr⟩ | ⟨x, hx, hr⟩
  · exact h2 x c b hr op ho
  · cases x with
    | nil => exact h2 [] c b (by simpa using hr.symm) op ho
    | cons y ys =>
      simp only [List.cons_append, List.cons.injEq] at hr
      obtain ⟨rfl, rfl⟩ := hr
      rcases List.mem_append.1 ho with ho | ho
      · exact h1 a c ys hx op ho
      · exact h c (by rw [hx]; simp) op ho

theorem noneAfterExit_tail {op : Op} {ops : List Op} (h : NoneAfterExit (op :: ops)) : NoneAfterExit ops :=
  fun l c r e => h (op :: l) c r (by rw [e]; rfl)

theorem next_exited (info : RTInfo) (a : State) (op : Op) (r : Res U32) (c : CtxId)
    (h : (a.next info op r).exited c = true) : a.exited c = true ∨ op = .exit c := by
  have hadd : ∀ inst rt x, (a.added inst rt x r).exited = a.exited := by
    intro inst rt x; unfold State.added; split <;> rfl
  have hrem : ∀ l, (a.removed l).exited = a.exited := by
    intro l; unfold State.removed; split <;> rfl
  cases op with
  | new inst rt rep => exact .inl (by simpa [State.next, hadd] using h)
  | lowerOwn inst rt rep => exact .inl (by simpa [State.next, hadd] using h)
  | lowerBorrow inst cx rt rep =>
    refine .inl ?_
    have h' : (if info.impl rt = some inst then a else a.added inst rt ⟨rep, false, some cx⟩ r).exited c = true := h
    split at h'
    · exact h'
    · rwa [hadd] at h'
  | rep inst rt i => exact .inl h
  | drop inst rt i => exact .inl (by simpa [State.next, hrem] using h)
  | liftOwn inst rt i => exact .inl (by simpa [State.next, hrem] using h)
  | liftBorrow inst cx rt i => cases r <;> exact .inl h
  | exit cx =>
    by_cases hx : c = cx
    · exact .inr (by rw [hx])
    · refine .inl ?_
      cases r with
      | ok x =>
        have h' : upd a.exited cx true c = true := h
        rwa [upd_other _ _ hx] at h'
      | err => exact h
      | panic => exact h
      | diverge => exact h
  | flag inst b => exact .inl h

theorem proper_of_noneAfterExit (info : RTInfo) (w : World) (a : State) (ops : List Op) (h : NoneAfterExit ops)
    (ha : ∀ c, a.exited c = true → ∀ op ∈ ops, op.ctx ≠ some c) : Proper info w a ops := by
  induction ops generalizing w a with
  | nil => trivial
  | cons op ops ih =>
    refine ⟨fun c hc => ?_, ih _ _ (noneAfterExit_tail h) fun c hc o ho => ?_⟩
    · cases e : a.exited c with
      | false => rfl
      | true => exact absurd hc (ha c e op (by simp))
    · rcases next_exited info a op _ c hc with h1 | rfl
      · exact ha c h1 o (by simp [ho])
      · exact h [] c ops rfl o ho

/-- Such a history is valid, if no table gets too large. -/
theorem valid_of_noneAfterExit (info : RTInfo) (ops : List Op) (h : NoneAfterExit ops) (hf : (World.after info ops).Fits) :
    Valid info ops :=
  ⟨proper_of_noneAfterExit info _ _ ops h fun c hc => by simp [State.init] at hc, hf⟩

/-! ## Operations of other instances -/

theorem added_liveAt (a : State) (inst : InstId) (rt : RT) (h : Handle) (r : Res U32) (l : Loc) (hl : l.inst ≠ inst) :
    (a.added inst rt h r).live l = a.live l := by
  unfold State.added
  split
  · exact upd_other _ _ fun e => hl (by rw [e])
  · rfl
theorem added_lends (a : State) (inst : InstId) (rt : RT) (h : Handle) (r : Res U32) : (a.added inst rt h r).lends = a.lends := by
  unfold State.added
  split <;> rfl
theorem removed_liveAt (a : State) (l' l : Loc) (hl : l.inst ≠ l'.inst) : (a.removed l').live l = a.live l := by
  unfold State.removed
  split
  · rfl
  · exact upd_other _ _ fun e => hl (by rw [e])
theorem removed_lends (a : State) (l' : Loc) : (a.removed l').lends = a.lends := by
  unfold State.removed
  split <;> rfl

/-- An operation of another instance, in a call that has borrowed nothing from this one, leaves this one's handles. -/
theorem next_elsewhere (info : RTInfo) (a : State) (op : Op) (r : Res U32) (k : InstId) (h : op.inst ≠ some k)
    (hc : ∀ c l, (c, l) ∈ a.lends → l.inst = k → op.ctx ≠ some c) (l : Loc) (hl : l.inst = k) :
    (a.next info op r).live l = a.live l ∧ ∀ c, (c, l) ∈ (a.next info op r).lends ↔ (c, l) ∈ a.lends := by
  have hne : ∀ i, op.inst = some i → l.inst ≠ i := fun i e e' => h (by rw [e, ← e', hl])
  cases op with
  | new i rt rep => exact ⟨added_liveAt _ _ _ _ _ _ (hne i rfl), fun c => by rw [State.next, added_lends]⟩
  | lowerOwn i rt rep => exact ⟨added_liveAt _ _ _ _ _ _ (hne i rfl), fun c => by rw [State.next, added_lends]⟩
  | rep i rt x => exact ⟨rfl, fun _ => Iff.rfl⟩
  | drop i rt x => exact ⟨removed_liveAt _ _ _ (hne i rfl), fun c => by rw [State.next, removed_lends]⟩
  | liftOwn i rt x => exact ⟨removed_liveAt _ _ _ (hne i rfl), fun c => by rw [State.next, removed_lends]⟩
  | lowerBorrow i cx rt rep =>
    show (if info.impl rt = some i then a else a.added i rt ⟨rep, false, some cx⟩ r).live l = _ ∧ ∀ c,
      (c, l) ∈ (if info.impl rt = some i then a else a.added i rt ⟨rep, false, some cx⟩ r).lends ↔ _
    split
    · exact ⟨rfl, fun _ => Iff.rfl⟩
    · exact ⟨added_liveAt _ _ _ _ _ _ (hne i rfl), fun c => by rw [added_lends]⟩
  | liftBorrow i cx rt x =>
    cases r with
    | ok v =>
      refine ⟨rfl, fun c => ?_⟩
      show (c, l) ∈ (cx, ⟨i, rt, x⟩) :: a.lends ↔ _
      rw [List.mem_cons]
      refine ⟨fun h => h.resolve_left fun e => hne i rfl ?_, .inr⟩
      rw [(Prod.mk.inj e).2]
    | err => exact ⟨rfl, fun _ => Iff.rfl⟩
    | panic => exact ⟨rfl, fun _ => Iff.rfl⟩
    | diverge => exact ⟨rfl, fun _ => Iff.rfl⟩
  | exit cx =>
    cases r with
    | ok v =>
      refine ⟨rfl, fun c => ?_⟩
      show (c, l) ∈ a.lends.filter (fun p => p.1 ≠ cx) ↔ _
      rw [List.mem_filter]
      refine ⟨And.left, fun h => ⟨h, ?_⟩⟩
      have := hc c l h hl
      simp only [Op.ctx, ne_eq, Option.some.injEq] at this
      simpa using fun e => this e.symm
    | err => exact ⟨rfl, fun _ => Iff.rfl⟩
    | panic => exact ⟨rfl, fun _ => Iff.rfl⟩
    | diverge => exact ⟨rfl, fun _ => Iff.rfl⟩
  | flag i b => exact ⟨rfl, fun _ => Iff.rfl⟩

theorem run_elsewhere (info : RTInfo) (ops : List Op) (w : World) (a : State) (k : InstId)
    (h : ∀ op ∈ ops, op.inst ≠ some k) (hc : ∀ op ∈ ops, ∀ c l, (c, l) ∈ a.lends → l.inst = k → op.ctx ≠ some c) (l : Loc)
    (hl : l.inst = k) :
    (run info w a ops).2.live l = a.live l ∧ ∀ c, (c, l) ∈ (run info w a ops).2.lends ↔ (c, l) ∈ a.lends := by
  induction ops generalizing w a with
  | nil => exact ⟨rfl, fun _ => Iff.rfl⟩
  | cons op ops ih =>
    have h1 := next_elsewhere info a op (step info w op).1 k (h op (by simp)) (hc op (by simp))
    obtain ⟨h2, h3⟩ := ih (step info w op).2 (a.next info op (step info w op).1) (fun o ho => h o (by simp [ho]))
      (fun o ho c l hm hk => hc o (by simp [ho]) c l (((h1 l hk).2 c).1 hm) hk)
    exact ⟨h2.trans (h1 l hl).1, fun c => (h3 c).trans ((h1 l hl).2 c)⟩

/-- What is lent is lent to a call that was used. -/
theorem next_lends (info : RTInfo) (a : State) (op : Op) (r : Res U32) (c : CtxId) (l : Loc)
    (h : (c, l) ∈ (a.next info op r).lends) : (c, l) ∈ a.lends ∨ op.ctx = some c := by
  cases op with
  | new i rt rep => rw [State.next, added_lends] at h; exact .inl h
  | lowerOwn i rt rep => rw [State.next, added_lends] at h; exact .inl h
  | rep i rt x => exact .inl h
  | drop i rt x => rw [State.next, removed_lends] at h; exact .inl h
  | liftOwn i rt x => rw [State.next, removed_lends] at h; exact .inl h
  | lowerBorrow i cx rt rep =>
    have h' : (c, l) ∈ (if info.impl rt = some i then a else a.added i rt ⟨rep, false, some cx⟩ r).lends := h
    split at h'
    · exact .inl h'
    · rw [added_lends] at h'; exact .inl h'
  | liftBorrow i cx rt x =>
    cases r with
    | ok v =>
      have h' : (c, l) ∈ (cx, ⟨i, rt, x⟩) :: a.lends := h
      rw [List.mem_cons] at h'
      rcases h' with e | h'
      · right; rw [(Prod.mk.inj e).1]; rfl
      · exact .inl h'
    | err => exact .inl h
    | panic => exact .inl h
    | diverge => exact .inl h
  | exit cx =>
    cases r with
    | ok v =>
      have h' : (c, l) ∈ a.lends.filter (fun p => p.1 ≠ cx) := h
      exact .inl (List.mem_filter.1 h').1
    | err => exact .inl h
    | panic => exact .inl h
    | diverge => exact .inl h
  | flag i b => exact .inl h

theorem run_lends (info : RTInfo) (ops : List Op) (w : World) (a : State) (c : CtxId) (l : Loc)
    (h : (c, l) ∈ (run info w a ops).2.lends) : (c, l) ∈ a.lends ∨ ∃ op ∈ ops, op.ctx = some c := by
  induction ops generalizing w a with
  | nil => exact .inl h
  | cons op ops ih =>
    rcases ih _ _ h with h | ⟨o, ho, h⟩
    · rcases next_lends info a op _ c l h with h | h
      · exact .inl h
      · exact .inr ⟨op, by simp, h⟩
    · exact .inr ⟨o, by simp [ho], h⟩

/-- After operations of other instances, in new calls, the handles of an instance are what they were. -/
theorem after_elsewhere (info : RTInfo) (past ops : List Op) (k : InstId) (h : ∀ op ∈ ops, op.inst ≠ some k)
    (hc : ∀ op ∈ ops, ∀ c, op.ctx = some c → ∀ o ∈ past, o.ctx ≠ some c) (l : Loc) (hl : l.inst = k) :
    (State.after info (past ++ ops)).live l = (State.after info past).live l ∧
    ((State.after info (past ++ ops)).Lent l ↔ (State.after info past).Lent l) := by
  unfold State.after
  rw [run_append]
  obtain ⟨h1, h2⟩ := run_elsewhere info ops (run info World.init State.init past).1 (run info World.init State.init past).2 k h
    (fun op ho c l hm _ e => by
      rcases run_lends info past _ _ c l hm with h | ⟨o, ho', h⟩
      · simp [State.init] at h
      · exact hc op ho c e o ho' h) l hl
  exact ⟨h1, exists_congr h2⟩

/-- What does not drop handles destroys nothing. -/
theorem step_dtors (info : RTInfo) (op : Op) (w : World) (h : ∀ inst rt i, op ≠ .drop inst rt i) :
    (step info w op).2.dtors = w.dtors := by
  have hadd : ∀ inst rt x, Pres World.dtors (add inst rt x) := by
    refine fun inst rt x => ⟨fun w => ?_⟩
    unfold add
    simp only
    split
    · split <;> rfl
    all_goals rfl
  have hrem : ∀ inst rt x, Pres World.dtors (remove inst rt x) := by
    refine fun inst rt x => ⟨fun w => ?_⟩
    unfold remove
    simp only
    split
    · split <;> rfl
    all_goals rfl
  have hal : ∀ e, Pres World.dtors (alloc e) := fun e => ⟨fun _ => rfl⟩
  have hget : ∀ inst rt i, Pres World.dtors (get inst rt i) := fun _ _ _ => ⟨fun _ => rfl⟩
  cases op with
  | new i rt rep => exact (Pres.bind (hal _) fun _ => hadd ..).keep w
  | lowerOwn i rt rep => exact (Pres.bind (hal _) fun _ => hadd ..).keep w
  | rep i rt x => exact (Pres.bind (hget ..) fun _ => .bind .get fun _ => .pure _).keep w
  | drop i rt x => exact absurd rfl (h i rt x)
  | liftOwn i rt x => exact (Pres.bind (hrem ..) fun _ => .bind .get fun _ => .pure _).keep w
  | lowerBorrow i cx rt rep => exact (Pres.ite (.pure _) (Pres.bind (hal _) fun _ => hadd ..)).keep w
  | liftBorrow i cx rt x =>
    exact (Pres.bind (hget ..) fun _ => .bind (⟨fun _ => rfl⟩ : Pres World.dtors (liftBorrowFrom cx _)) fun _ =>
      .bind .get fun _ => .pure _).keep w
  | exit cx =>
    show (unitRes (exitCall cx w)).2.dtors = _
    unfold exitCall
    split <;> rfl
  | flag i b => rfl

theorem then_dtors (info : RTInfo) (ops : List Op) (w : World) (h : ∀ op ∈ ops, ∀ inst rt i, op ≠ .drop inst rt i) :
    (w.then info ops).dtors = w.dtors := by
  induction ops generalizing w with
  | nil => rfl
  | cons op ops ih =>
    exact (ih _ fun o ho => h o (by simp [ho])).trans (step_dtors info op w (h op (by simp)))

end Verif.Handles
