import Verif.Handles.Refine
import Mathlib.Data.List.Induction

/-!
# Properties C32 to C37 and C64
-/

namespace Verif.Handles
open Verif.Abi (RT)

/-! ## C32: handle indices identify live handles -/

theorem outIndex_ok (i : U32) : outIndex (.ok i) = .index i := rfl
theorem outIndex_err : outIndex .err = .trap := rfl

theorem tstep_ok (t : Table) (op : TOp) (ht : TInv t) (hf : (tstep t op).2.array.length < 2 ^ 32) :
    TAllowed t.slot op (tstep t op).1 ∧ TInv (tstep t op).2 ∧
    (tstep t op).2.slot = liveAfter t.slot [(op, (tstep t op).1)] := by
  cases op with
  | add h =>
    simp only [tstep] at hf
    obtain ⟨h1, h2⟩ := add_cases t h ht hf
    rcases h2 with ⟨h2, h3⟩ | ⟨i, h2, h3, h4⟩
    · simp only [tstep, h2, outIndex_err]
      exact ⟨.inl rfl, h1, h3⟩
    · simp only [tstep, h2, outIndex_ok]
      exact ⟨.inr ⟨i, rfl, h3⟩, h1, h4⟩
  | get i =>
    simp only [tstep] at hf ⊢
    rw [get_eq t i hf]
    refine ⟨?_, ht, ?_⟩
    · simp only [TAllowed]; cases t.slot i <;> rfl
    · cases t.slot i <;> rfl
  | remove i lend =>
    have hl : t.array.length < 2 ^ 32 := by
      simp only [tstep] at hf
      rwa [remove_length] at hf
    simp only [tstep, TAllowed]
    rcases remove_cases t lend i ht hl with ⟨h1, h2⟩ | ⟨h, h1, h2, h3⟩ | ⟨h, t', h1, h2, h3, h4, h5, _⟩
    · rw [h2, h1]; exact ⟨rfl, ht, rfl⟩
    · rw [h3, h1]
      refine ⟨?_, ht, rfl⟩
      simp [h2, outElem]
    · rw [h3, h1]
      refine ⟨?_, h4, h5⟩
      simp [h2, outElem]

theorem tstep_length (t : Table) (op : TOp) : t.array.length ≤ (tstep t op).2.array.length := by
  cases op with
  | add h => exact add_length_le t h
  | get i => exact Nat.le_refl _
  | remove i lend => exact Nat.le_of_eq (remove_length t lend i).symm

theorem trun_length (t : Table) (ops : List TOp) : t.array.length ≤ (trun t ops).2.array.length := by
  induction ops generalizing t with
  | nil => exact Nat.le_refl _
  | cons op ops ih => exact Nat.le_trans (tstep_length t op) (ih _)

theorem liveAfter_cons (live : U32 → Option ElemId) (x : TOp × TOut) (tr : List (TOp × TOut)) :
    liveAfter live (x :: tr) = liveAfter (liveAfter live [x]) tr := by
  rcases x with ⟨op, o⟩
  cases op <;> cases o <;> rfl

theorem trun_ok (t : Table) (ops : List TOp) (ht : TInv t) (hf : (trun t ops).2.array.length < 2 ^ 32) :
    TInv (trun t ops).2 ∧ (trun t ops).2.slot = liveAfter t.slot (trun t ops).1 := by
  induction ops generalizing t with
  | nil => exact ⟨ht, rfl⟩
  | cons op ops ih =>
    have h1 := trun_length (tstep t op).2 ops
    have hlt : (trun (tstep t op).2 ops).2.array.length < 2 ^ 32 := by simpa only [trun] using hf
    obtain ⟨_, h2, h3⟩ := tstep_ok t op ht (by omega)
    obtain ⟨h4, h5⟩ := ih _ h2 hlt
    refine ⟨h4, ?_⟩
    show (trun (tstep t op).2 ops).2.slot = liveAfter t.slot ((op, (tstep t op).1) :: (trun (tstep t op).2 ops).1)
    rw [h5, liveAfter_cons, h3]

/-- **C32.** After any sequence of `Add`, `Get` and `Remove` calls on a fresh table (with fewer than `2 ^ 32`
slots), the next call has a result the specification allows: an `Add` returns an index no live handle has (or an
error), `Get` returns exactly the element last added at a live index and traps on any other, `Remove` takes it out
if it is not lent and traps otherwise. In particular no call panics.
Missing: tables of `2 ^ 32` slots or more, where it is false (`add_returns_live`). -/
theorem table_spec_partial (ops : List TOp) (op : TOp)
    (hf : (tstep (trun .empty ops).2 op).2.array.length < 2 ^ 32) :
    TAllowed (Live (trun .empty ops).1) op (tstep (trun .empty ops).2 op).1 := by
  have h1 := tstep_length (trun .empty ops).2 op
  obtain ⟨h2, h3⟩ := trun_ok .empty ops TInv.empty (by omega)
  have h4 := (tstep_ok _ op h2 hf).1
  have : (Table.empty).slot = fun _ => none := by funext i; simp [Table.slot, Table.empty]
  rw [h3, this] at h4
  exact h4

/-- **C32.** No call ever panics.
Missing: tables of `2 ^ 32` slots or more, where it is false (`add_returns_live`). -/
theorem table_never_panics_partial (ops : List TOp) (op : TOp)
    (hf : (tstep (trun .empty ops).2 op).2.array.length < 2 ^ 32) :
    (tstep (trun .empty ops).2 op).1 ≠ .panicked := by
  have h := table_spec_partial ops op hf
  revert h
  generalize (tstep (trun .empty ops).2 op).1 = o
  intro h e
  subst e
  cases op with
  | add _ => rcases h with h | ⟨_, h, _⟩ <;> cases h
  | get i =>
    simp only [TAllowed] at h
    split at h <;> cases h
  | remove i lend =>
    simp only [TAllowed] at h
    split at h
    · split at h <;> cases h
    · cases h

/-- A history with additions, a removal, a refused removal of a lent handle and a reuse of index 0. -/
example : (trun .empty [.add 7, .add 8, .remove 1 (fun _ => 1), .remove 0 (fun _ => 0), .add 9, .get 0, .get 1,
      .get 2]).1.map (·.2) =
    [.index 0, .index 1, .trap, .elem 7, .index 0, .elem 9, .elem 8, .trap] := by decide

/-! ## C33: freed slots are reused -/

/-- **C33 is false of the code.** After removing index 1 the next `Add` fails although nothing is wrong: `Remove`
records the length of the free list instead of the freed index. -/
theorem add_fails_after_remove :
    (trun .empty [.add 7, .add 8, .remove 1 (fun _ => 0), .add 9]).1.map (·.2) =
      [.index 0, .index 1, .elem 8, .trap] := by decide

/-- **C33 is false of the code.** The table grows to three slots although no more than two handles are ever
live. -/
theorem table_outgrows_live :
    (trun .empty [.add 7, .add 8, .remove 1 (fun _ => 0), .add 9, .add 9]).1.map (·.2) =
      [.index 0, .index 1, .elem 8, .trap, .index 2] := by decide

/-- The call is an `Add`. -/
def TOp.isAdd : TOp → Bool
  | .add _ => true
  | _ => false

/-- The number of `Add` calls that grew the table is its length; nothing else grows it. -/
theorem table_length_le_adds (ops : List TOp) :
    (trun .empty ops).2.array.length ≤ ops.countP TOp.isAdd := by
  suffices h : ∀ (t : Table), (trun t ops).2.array.length ≤
      t.array.length + ops.countP TOp.isAdd by
    simpa [Table.empty] using h .empty
  induction ops with
  | nil => intro t; exact Nat.le_refl _
  | cons op ops ih =>
    intro t
    have h1 := ih (tstep t op).2
    have h2 : (tstep t op).2.array.length ≤ t.array.length +
        (if op.isAdd = true then 1 else 0) := by
      cases op with
      | add h =>
        show (t.add h).2.array.length ≤ t.array.length + 1
        unfold Table.add
        split
        · split <;> simp
        · simp
      | get i => exact Nat.le_refl _
      | remove i lend => exact Nat.le_of_eq (remove_length t lend i)
    rw [List.countP_cons]
    show (trun (tstep t op).2 ops).2.array.length ≤ _
    omega

/-- **C33, part.** What does hold: as long as nothing was removed every `Add` succeeds, with indices counting up
from 0; and if the handles are removed in the order of their indices, lowest first, the next `Add` returns the
index removed last. Missing: all other orders of removal, where the code fails (see the two theorems above). -/
theorem freed_reused_partial (ops : List TOp) (hadd : ∀ op ∈ ops, ∃ h, op = .add h) (k : Nat)
    (hk : 0 < k) (hk' : k ≤ ops.length) (hf : ops.length < 2 ^ 32) (h : ElemId) :
    (trun .empty ops).1.map (·.2) = (List.range ops.length).map (fun i => .index (BitVec.ofNat 32 i)) ∧
    (tstep (trun (trun .empty ops).2
        ((List.range k).map (fun i => .remove (BitVec.ofNat 32 i) (fun _ => 0)))).2 (.add h)).1 =
      .index (BitVec.ofNat 32 (k - 1)) := by
  have hadds : ∀ (ops : List TOp) (t : Table), (∀ op ∈ ops, ∃ h, op = .add h) → t.free = [] →
      (trun t ops).1.map (·.2) =
        (List.range ops.length).map (fun i => .index (BitVec.ofNat 32 (t.array.length + i))) ∧
      (trun t ops).2.free = [] ∧ ∃ es : List ElemId, es.length = ops.length ∧
        (trun t ops).2.array = t.array ++ es.map some := by
    intro ops
    induction ops with
    | nil => intro t _ h; exact ⟨rfl, h, [], rfl, by simp [trun]⟩
    | cons op ops ih =>
      intro t hall ht
      obtain ⟨e, rfl⟩ := hall op (by simp)
      have hs : tstep t (.add e) = (.index (BitVec.ofNat 32 t.array.length), { t with array := t.array ++ [some e] }) := by
        simp only [tstep, Table.add, ht, outIndex_ok]
      have ih' := ih { t with array := t.array ++ [some e] } (fun op hop => hall op (by simp [hop])) ht
      obtain ⟨h1, h2, es, h3, h4⟩ := ih'
      refine ⟨?_, ?_, e :: es, by simp [h3], ?_⟩
      · show (tstep t (.add e)).1 :: ((trun (tstep t (.add e)).2 ops).1.map (·.2)) = _
        rw [hs, h1, List.length_cons, List.range_succ_eq_map]
        simp only [List.map_cons, List.map_map, Nat.add_zero, List.length_append, List.length_singleton]
        congr 1
        apply List.map_congr_left
        intro i _
        simp only [Function.comp, TOut.index.injEq]
        rw [show t.array.length + 1 + i = t.array.length + (i + 1) by omega]
      · show (trun (tstep t (.add e)).2 ops).2.free = []
        rw [hs]; exact h2
      · show (trun (tstep t (.add e)).2 ops).2.array = _
        rw [hs, h4]; simp
  obtain ⟨h1, h2, es, h3, h4⟩ := hadds ops .empty hadd rfl
  refine ⟨by simpa [Table.empty] using h1, ?_⟩
  -- removing 0, 1, ..., k - 1
  have hrem : ∀ (k : Nat), k ≤ es.length →
      (trun ⟨es.map some, []⟩ ((List.range k).map (fun i => .remove (BitVec.ofNat 32 i) (fun _ => 0)))).2 =
      ⟨List.replicate k none ++ (es.drop k).map some, ((List.range k).map (BitVec.ofNat 32)).reverse⟩ := by
    have happ : ∀ (ops ops' : List TOp) (t : Table), (trun t (ops ++ ops')).2 = (trun (trun t ops).2 ops').2 := by
      intro ops ops'
      induction ops with
      | nil => intro t; rfl
      | cons op ops ih => intro t; exact ih _
    intro k
    induction k with
    | zero => intro _; simp [trun]
    | succ k ih =>
      intro hk
      rw [List.range_succ, List.map_append, happ, ih (by omega)]
      have hkb : (BitVec.ofNat 32 k).toNat = k := by simp; omega
      have hlen : (List.replicate k none ++ (es.drop k).map some).length = es.length := by simp; omega
      have hdrop : es.drop k = es[k] :: es.drop (k + 1) := List.drop_eq_getElem_cons (by omega)
      have hget : (List.replicate k none ++ (es.drop k).map some)[k]? = some (some es[k]) := by
        rw [List.getElem?_append_right (by simp), hdrop]
        simp
      have hslot : Table.slot ⟨List.replicate k none ++ (es.drop k).map some,
          ((List.range k).map (BitVec.ofNat 32)).reverse⟩ (BitVec.ofNat 32 k) = some es[k] := by
        unfold Table.slot; rw [hkb, hget]; rfl
      simp only [List.map_cons, List.map_nil, trun, tstep, Table.remove]
      rw [get_eq _ _ (by simp only [hlen]; omega), hslot]
      simp only [ne_eq, not_true, if_false, hkb, List.length_reverse, List.length_map, List.length_range]
      congr 1
      · rw [hdrop, List.replicate_succ']
        rw [List.set_append_right _ _ (by simp), List.length_replicate, Nat.sub_self, List.map_cons, List.set_cons_zero]
        simp
      · simp
  have ht : (trun .empty ops).2 = ⟨es.map some, []⟩ := by
    rcases he : (trun .empty ops).2 with ⟨a, f⟩
    rw [he] at h2 h4
    simp only at h2 h4
    rw [h2, h4]; simp [Table.empty]
  rw [ht, hrem k (by omega)]
  obtain ⟨j, rfl⟩ : ∃ j, k = j + 1 := ⟨k - 1, by omega⟩
  have hjb : (BitVec.ofNat 32 j).toNat = j := by simp; omega
  simp only [tstep, Table.add]
  have hfree : ((List.range (j + 1)).map (BitVec.ofNat 32)).reverse =
      BitVec.ofNat 32 j :: ((List.range j).map (BitVec.ofNat 32)).reverse := by
    rw [List.range_succ]; simp
  have hget : (List.replicate (j + 1) none ++ (es.drop (j + 1)).map some)[j]? = some none := by
    rw [List.getElem?_append_left (by simp)]
    simp [List.getElem?_replicate]
  rw [hfree]
  simp only [hjb, hget, outIndex_ok]
  rfl

/-- The hypotheses are met: three handles, two removed in order, the next `Add` gets index 1. -/
example : (tstep (trun (trun .empty [.add 5, .add 6, .add 7]).2
      ((List.range 2).map (fun i => .remove (BitVec.ofNat 32 i) (fun _ => 0)))).2 (.add 9)).1 = .index 1 := by
  decide

/-! ## Histories of canonical-ABI operations

`World.after info ops` and `State.after info ops` are the world and its meaning after the history `ops`; a history
is `Valid` if it uses no call after its end and no table reaches `2 ^ 32` slots. -/

/-- The world after a history. -/
def World.after (info : RTInfo) (ops : List Op) : World := (run info .init .init ops).1
/-- Its meaning. -/
def State.after (info : RTInfo) (ops : List Op) : State := (run info .init .init ops).2
/-- No call is used after its end, no table reaches `2 ^ 32` slots. -/
def Valid (info : RTInfo) (ops : List Op) : Prop :=
  Proper info .init .init ops ∧ (World.after info ops).Fits

theorem run_append (info : RTInfo) (w : World) (a : State) (ops ops' : List Op) :
    run info w a (ops ++ ops') = run info (run info w a ops).1 (run info w a ops).2 ops' := by
  induction ops generalizing w a with
  | nil => rfl
  | cons op ops ih => exact ih _ _

theorem proper_append (info : RTInfo) (w : World) (a : State) (ops ops' : List Op) :
    Proper info w a (ops ++ ops') ↔
      Proper info w a ops ∧ Proper info (run info w a ops).1 (run info w a ops).2 ops' := by
  induction ops generalizing w a with
  | nil => simp [Proper, run]
  | cons op ops ih => simp only [List.cons_append, Proper, ih, run, and_assoc]

theorem after_snoc (info : RTInfo) (ops : List Op) (op : Op) :
    World.after info (ops ++ [op]) = (step info (World.after info ops) op).2 ∧
    State.after info (ops ++ [op]) =
      (State.after info ops).next info op (step info (World.after info ops) op).1 := by
  simp only [World.after, State.after, run_append, run, and_self]

theorem Valid.prefix {info : RTInfo} {ops ops' : List Op} (h : Valid info (ops ++ ops')) : Valid info ops := by
  refine ⟨((proper_append ..).1 h.1).1, ?_⟩
  have := h.2
  simp only [World.after, run_append] at this
  exact run_fits info _ _ ops' this

theorem Valid.rel {info : RTInfo} {ops : List Op} (h : Valid info ops) :
    R (World.after info ops) (State.after info ops) := run_ok info _ _ ops R.init h.1 h.2

/-- **C32, C34 to C37.** Every operation of every valid history, on any mixture of instances, calls and resource
types, has a result and makes the destructor calls that the specification `State.Allowed` allows.
Missing: histories that are not `Valid`; `ledger_spec_partial` says what happens when calls are used after their end. -/
theorem history_spec_partial (info : RTInfo) (ops : List Op) (op : Op) (h : Valid info (ops ++ [op])) :
    ∃ calls, (World.after info (ops ++ [op])).dtors = calls ++ (World.after info ops).dtors ∧
      (State.after info ops).Allowed info calls op (step info (World.after info ops) op).1 := by
  have h0 := h.prefix
  have h1 := (after_snoc info ops op).1
  obtain ⟨calls, h2, h3, _⟩ := step_ok h0.rel info op (h1 ▸ h.2) h0.2
    ((proper_append ..).1 h.1).2.1
  exact ⟨calls, by rw [h1]; exact h2, h3⟩

/-- A concrete valid history: a handle is created, lent, refused for removal while lent, released and dropped,
with its destructor called once. -/
def demo : List Op :=
  [.new 0 5 42, .liftBorrow 0 1 5 0, .liftOwn 0 5 0, .exit 1, .drop 0 5 0, .rep 0 5 0, .lowerBorrow 2 3 5 42, .exit 3]

/-- Resource type 5 is implemented by instance 0 and has a destructor. -/
def demoInfo : RTInfo := ⟨fun rt => if rt = 5 then some 0 else none, fun rt => rt = 5⟩

/-- The results of a history, oldest first. -/
def results (info : RTInfo) (w : World) : List Op → List (Res U32)
  | [] => []
  | op :: ops => (step info w op).1 :: results info (step info w op).2 ops

example : results demoInfo .init demo = [.ok 0, .ok 42, .err, .ok 0, .ok 0, .err, .ok 0, .err] ∧
    (World.after demoInfo demo).dtors = [(5, 42)] := by decide

theorem setTable_length_succ (w w0 : World) (inst : InstId) (rt : RT) (t : Table) (ht : w.tables = w0.tables)
    (h : t.array.length ≤ (w0.tables inst rt).array.length + 1) (inst' : InstId) (rt' : RT) :
    ((w.setTable inst rt t).tables inst' rt').array.length ≤ (w0.tables inst' rt').array.length + 1 := by
  simp only [World.setTable, ht]
  by_cases h1 : inst' = inst
  · subst h1
    by_cases h2 : rt' = rt
    · subst h2; simpa using h
    · rw [upd_same, upd_other _ _ h2]; exact Nat.le_succ _
  · rw [upd_other _ _ h1]; exact Nat.le_succ _

theorem add_tables_succ (inst : InstId) (rt : RT) (h : ElemId) (w w0 : World) (ht : w.tables = w0.tables)
    (inst' : InstId) (rt' : RT) :
    ((add inst rt h w).2.tables inst' rt').array.length ≤ (w0.tables inst' rt').array.length + 1 := by
  have hl : ((w.tables inst rt).add h).2.array.length ≤ (w.tables inst rt).array.length + 1 := by
    unfold Table.add
    split
    · split <;> simp
    · simp
  simp only [add]
  rcases hadd : (w.tables inst rt).add h with ⟨r1, t1⟩
  rw [hadd] at hl
  have := setTable_length_succ w w0 inst rt t1 ht (by rw [← ht]; exact hl) inst' rt'
  rcases r1 with i | _ | _ | _
  · simp only
    split <;> exact this
  all_goals exact this

theorem remove_tables_succ (inst : InstId) (rt : RT) (i : U32) (w : World) (inst' : InstId) (rt' : RT) :
    ((remove inst rt i w).2.tables inst' rt').array.length ≤ (w.tables inst' rt').array.length + 1 := by
  have hl := remove_length (w.tables inst rt) (fun e => (w.elems e).lendCount) i
  simp only [remove]
  rcases hadd : (w.tables inst rt).remove (fun e => (w.elems e).lendCount) i with ⟨r1, t1⟩
  rw [hadd] at hl
  have := setTable_length_succ w w inst rt t1 rfl (by simp only at hl; omega) inst' rt'
  rcases r1 with i | _ | _ | _
  · simp only
    split <;> exact this
  all_goals exact this

/-- An operation adds at most one slot. -/
theorem step_tables_succ (info : RTInfo) (w : World) (op : Op) (inst' : InstId) (rt' : RT) :
    ((step info w op).2.tables inst' rt').array.length ≤ (w.tables inst' rt').array.length + 1 := by
  cases op with
  | new inst rt rep =>
    exact add_tables_succ inst rt w.next { w with elems := upd w.elems w.next ⟨rep, 0, true, none⟩, next := w.next + 1 } w rfl inst' rt'
  | lowerOwn inst rt rep =>
    exact add_tables_succ inst rt w.next { w with elems := upd w.elems w.next ⟨rep, 0, true, none⟩, next := w.next + 1 } w rfl inst' rt'
  | lowerBorrow inst cx rt rep =>
    simp only [step, lowerBorrow]
    split
    · exact Nat.le_succ _
    · exact add_tables_succ inst rt w.next { w with elems := upd w.elems w.next ⟨rep, 0, false, some cx⟩, next := w.next + 1 } w rfl inst' rt'
  | rep inst rt i =>
    simp only [step, canonResourceRep, SM.bind_def, get]
    cases (w.tables inst rt).get i <;> exact Nat.le_succ _
  | liftBorrow inst cx rt i =>
    simp only [step, liftBorrow, SM.bind_def, get]
    cases (w.tables inst rt).get i <;> exact Nat.le_succ _
  | liftOwn inst rt i =>
    have := remove_tables_succ inst rt i w inst' rt'
    simp only [step, liftOwn, SM.bind_def]
    rcases h : remove inst rt i w with ⟨r, w1⟩
    rw [h] at this
    cases r <;> exact this
  | drop inst rt i =>
    have := remove_tables_succ inst rt i w inst' rt'
    simp only [step, canonResourceDrop, SM.bind_def]
    rcases h : remove inst rt i w with ⟨r, w1⟩
    rw [h] at this
    cases r with
    | ok e =>
      simp only [SM.get_def]
      cases (w1.elems e).own
      · exact this
      · cases info.impl rt with
        | none => exact this
        | some impl =>
          by_cases hg : inst ≠ impl ∧ w1.mayEnter impl = false
          · simp only [SM.ite_app, if_pos hg]; exact this
          · simp only [SM.ite_app, if_neg hg]
            cases info.hasDtor rt <;> exact this
    | _ => exact this
  | exit cx =>
    simp only [step, exitCall]
    split <;> exact Nat.le_succ _
  | flag inst b => exact Nat.le_succ _

theorem run_tables_length (info : RTInfo) (w : World) (a : State) (ops : List Op) (inst : InstId) (rt : RT) :
    ((run info w a ops).1.tables inst rt).array.length ≤ (w.tables inst rt).array.length + ops.length := by
  induction ops generalizing w a with
  | nil => exact Nat.le_refl _
  | cons op ops ih =>
    have h1 := step_tables_succ info w op inst rt
    have h2 := ih (step info w op).2 (a.next info op (step info w op).1)
    simp only [run, List.length_cons]
    omega

/-- A history of fewer than `2 ^ 32` operations in which no call is used after its end is valid. -/
theorem valid_of_short (info : RTInfo) (ops : List Op) (hp : Proper info .init .init ops)
    (hl : ops.length < 2 ^ 32) : Valid info ops := by
  refine ⟨hp, fun inst rt => ?_⟩
  have := run_tables_length info .init .init ops inst rt
  simp only [World.init, Table.empty, List.length_nil, Nat.zero_add] at this
  exact Nat.lt_of_le_of_lt this hl

theorem demo_valid : Valid demoInfo demo := by
  refine valid_of_short _ _ ?_ (by decide)
  refine ⟨?_, ?_, ?_, ?_, ?_, ?_, ?_, ?_, trivial⟩ <;> intro c h <;> cases h <;> decide

/-! ## C34: a lent handle cannot be removed -/

/-- **C34.** Removing a handle that is lent, by lifting it or dropping it, fails and changes nothing at all.
Missing: histories that are not `Valid`, where it is false (`Handles.lent_taken_after_second_exit`, `Handles.add_returns_live`). -/
theorem lent_stays_partial (info : RTInfo) (ops : List Op) (h : Valid info ops) (l : Loc)
    (hl : (State.after info ops).Lent l) :
    step info (World.after info ops) (.liftOwn l.inst l.rt l.idx) = (.err, World.after info ops) ∧
    step info (World.after info ops) (.drop l.inst l.rt l.idx) = (.err, World.after info ops) := by
  have hR := h.rel
  rcases hrm : remove l.inst l.rt l.idx (World.after info ops) with ⟨r, w'⟩
  obtain ⟨_, _, _, _, h4⟩ := removeHandle hR l.inst l.rt l.idx h.2 r w' hrm
  rcases h4 with ⟨rfl, rfl, _⟩ | ⟨e, rfl, h4, _⟩
  · constructor
    · exact SM.bind_err hrm
    · have : canonResourceDrop info l.inst l.rt l.idx (World.after info ops) = (.err, World.after info ops) :=
        SM.bind_err hrm
      simp only [step, this, unitRes]
  · exact absurd hl h4

/-- A lent handle is a live one: the lender cannot have been replaced.
Missing: histories that are not `Valid`, where it is false (`Handles.lent_taken_after_second_exit`, `Handles.add_returns_live`). -/
theorem lent_live_partial (info : RTInfo) (ops : List Op) (h : Valid info ops) (l : Loc)
    (hl : (State.after info ops).Lent l) : (State.after info ops).live l ≠ none := by
  obtain ⟨c, hc⟩ := hl
  have h1 := h.rel.lentLive _ hc
  rw [h.rel.live]
  rcases hs : (World.after info ops).slot l with _ | e
  · exact absurd hs h1
  · simp

/-- **C34.** Ending a call fails exactly when some live handle was lowered as a borrow for it; then nothing
changes.
Missing: histories that are not `Valid`, where it is false (`Handles.lent_taken_after_second_exit`, `Handles.add_returns_live`). -/
theorem exit_fails_iff_partial (info : RTInfo) (ops : List Op) (cx : CtxId) (h : Valid info (ops ++ [.exit cx])) :
    ((step info (World.after info ops) (.exit cx)).1 = .err ↔
      ∃ l hd, (State.after info ops).live l = some hd ∧ hd.scope = some cx) ∧
    ((step info (World.after info ops) (.exit cx)).1 = .err →
      (step info (World.after info ops) (.exit cx)).2 = World.after info ops) ∧
    ((step info (World.after info ops) (.exit cx)).1 ≠ .err →
      (step info (World.after info ops) (.exit cx)).1 = .ok 0) := by
  have h0 := h.prefix
  rcases hrm : exitCall cx (World.after info ops) with ⟨r, w'⟩
  obtain ⟨_, h2⟩ := exitHandle h0.rel info cx (((proper_append ..).1 h.1).2.1 cx rfl) r w' hrm
  have hs : step info (World.after info ops) (.exit cx) = unitRes (r, w') := by simp only [step, hrm]
  rw [hs]
  rcases h2 with ⟨rfl, h2, _⟩ | ⟨rfl, rfl, h2⟩
  · refine ⟨⟨fun e => (by cases e), ?_⟩, fun e => (by cases e), fun _ => rfl⟩
    rintro ⟨l, hd, e1, e2⟩; exact absurd e2 (h2 l hd e1)
  · exact ⟨⟨fun _ => h2, fun _ => rfl⟩, fun _ => rfl, fun e => absurd rfl e⟩

/-- **C34.** After a call has ended, every handle it had borrowed from, and no other call has, can be taken out
again.
Missing: histories that are not `Valid`, where it is false (`Handles.lent_taken_after_second_exit`, `Handles.add_returns_live`). -/
theorem exit_releases_partial (info : RTInfo) (ops : List Op) (cx : CtxId) (h : Valid info (ops ++ [.exit cx]))
    (hok : (step info (World.after info ops) (.exit cx)).1 = .ok 0) (l : Loc) (hd : Handle)
    (hlive : (State.after info ops).live l = some hd)
    (hlent : ∀ c, (c, l) ∈ (State.after info ops).lends → c = cx) :
    (step info (World.after info (ops ++ [.exit cx])) (.liftOwn l.inst l.rt l.idx)).1 = .ok hd.rep := by
  have hst := (after_snoc info ops (.exit cx)).2
  rw [hok] at hst
  have hlive' : (State.after info (ops ++ [.exit cx])).live l = some hd := by rw [hst]; exact hlive
  have hnl : ¬ (State.after info (ops ++ [.exit cx])).Lent l := by
    rw [hst]
    rintro ⟨c, hc⟩
    have hc' : (c, l) ∈ (State.after info ops).lends.filter (fun p => p.1 ≠ cx) := hc
    rw [List.mem_filter] at hc'
    exact absurd (hlent c hc'.1) (by simpa using hc'.2)
  rcases hrm : remove l.inst l.rt l.idx (World.after info (ops ++ [.exit cx])) with ⟨r, w'⟩
  obtain ⟨_, _, h5, _, h4⟩ := removeHandle h.rel l.inst l.rt l.idx h.2 r w' hrm
  rcases h4 with ⟨_, _, h4 | h4⟩ | ⟨e, rfl, h4, h6⟩
  · rw [hlive'] at h4; cases h4
  · exact absurd h4 hnl
  · show (liftOwn l.inst l.rt l.idx _).1 = _
    unfold liftOwn
    rw [SM.bind_ok hrm, SM.bind_get, h5]
    rw [hlive'] at h6; injection h6 with h6; subst h6; rfl

/-- In `demo` the lend, the refusal and the release all happen. -/
example : (State.after demoInfo (demo.take 2)).Lent ⟨0, 5, 0⟩ ∧
    (results demoInfo .init demo)[2]? = some .err ∧ (results demoInfo .init demo)[3]? = some (.ok 0) := by decide
/-- At the end of `demo` the borrow lowered for call 3 is still live, so the exit fails. -/
example : (State.after demoInfo demo).live ⟨2, 5, 0⟩ = some ⟨42, false, some 3⟩ ∧
    (step demoInfo (World.after demoInfo demo) (.exit 3)).1 = .err := by decide

/-! ## C35: lifting an own handle transfers it -/

/-- The operation may make an index of a resource type in an instance live. -/
def Op.addsTo (op : Op) (inst : InstId) (rt : RT) : Prop :=
  match op with
  | .new i r _ => i = inst ∧ r = rt
  | .lowerOwn i r _ => i = inst ∧ r = rt
  | .lowerBorrow i _ r _ => i = inst ∧ r = rt
  | _ => False

theorem removed_live (a : State) (l l' : Loc) (h : a.live l = none) : (a.removed l').live l = none := by
  unfold State.removed
  split
  · exact h
  · show upd a.live l' none l = none
    by_cases e : l = l'
    · subst e; simp
    · rw [upd_other _ _ e]; exact h

theorem added_live (a : State) (inst : InstId) (rt : RT) (hd : Handle) (r : Res U32) (l : Loc)
    (h : a.live l = none) (h' : (a.added inst rt hd r).live l ≠ none) :
    inst = l.inst ∧ rt = l.rt ∧ r = .ok l.idx := by
  cases r with
  | ok i =>
    by_cases e : l = ⟨inst, rt, i⟩
    · subst e; exact ⟨rfl, rfl, rfl⟩
    · exact absurd (show upd a.live ⟨inst, rt, i⟩ (some hd) l = none by rw [upd_other _ _ e]; exact h) h'
  | _ => exact absurd h h'

theorem next_live (info : RTInfo) (a : State) (op : Op) (r : Res U32) (l : Loc) (h : a.live l = none)
    (h' : (a.next info op r).live l ≠ none) : op.addsTo l.inst l.rt ∧ r = .ok l.idx := by
  cases op with
  | new inst rt rep => obtain ⟨h1, h2, h3⟩ := added_live a inst rt _ r l h h'; exact ⟨⟨h1, h2⟩, h3⟩
  | lowerOwn inst rt rep => obtain ⟨h1, h2, h3⟩ := added_live a inst rt _ r l h h'; exact ⟨⟨h1, h2⟩, h3⟩
  | lowerBorrow inst cx rt rep =>
    simp only [State.next] at h'
    split at h'
    · exact absurd h h'
    · obtain ⟨h1, h2, h3⟩ := added_live a inst rt _ r l h h'; exact ⟨⟨h1, h2⟩, h3⟩
  | rep inst rt i => exact absurd h h'
  | drop inst rt i => exact absurd (removed_live a l _ h) h'
  | liftOwn inst rt i => exact absurd (removed_live a l _ h) h'
  | liftBorrow inst cx rt i => cases r <;> exact absurd h h'
  | exit cx => cases r <;> exact absurd h h'
  | flag inst b => exact absurd h h'

/-- A dead index stays dead until an operation that adds a handle returns it. -/
theorem dead_until_added (info : RTInfo) (w : World) (a : State) (ops : List Op) (l : Loc) (h : a.live l = none)
    (h' : (run info w a ops).2.live l ≠ none) :
    ∃ ops1 op ops2, ops = ops1 ++ op :: ops2 ∧ op.addsTo l.inst l.rt ∧
      (step info (run info w a ops1).1 op).1 = .ok l.idx := by
  induction ops generalizing w a with
  | nil => exact absurd h h'
  | cons op ops ih =>
    by_cases hn : (a.next info op (step info w op).1).live l = none
    · obtain ⟨ops1, op', ops2, h1, h2, h3⟩ := ih _ _ hn h'
      exact ⟨op :: ops1, op', ops2, by rw [h1]; rfl, h2, h3⟩
    · obtain ⟨h1, h2⟩ := next_live info a op _ l h hn
      exact ⟨[], op, ops, rfl, h1, h2⟩

/-- **C35.** Lifting the index of an own handle returns the representation the handle was created with and takes
the handle out.
Missing: histories that are not `Valid`; see `index_keeps_partial` and `lifted_index_dead_partial`, which need only tables below `2 ^ 32`
slots. -/
theorem liftOwn_moves_partial (info : RTInfo) (ops : List Op) (h : Valid info ops) (l : Loc) (hd : Handle)
    (hlive : (State.after info ops).live l = some hd) (hnl : ¬ (State.after info ops).Lent l) :
    (step info (World.after info ops) (.liftOwn l.inst l.rt l.idx)).1 = .ok hd.rep ∧
    (State.after info (ops ++ [.liftOwn l.inst l.rt l.idx])).live l = none := by
  constructor
  · rcases hrm : remove l.inst l.rt l.idx (World.after info ops) with ⟨r, w'⟩
    obtain ⟨_, _, h5, _, h4⟩ := removeHandle h.rel l.inst l.rt l.idx h.2 r w' hrm
    rcases h4 with ⟨_, _, h4 | h4⟩ | ⟨e, rfl, h4, h6⟩
    · rw [show (⟨l.inst, l.rt, l.idx⟩ : Loc) = l from rfl, hlive] at h4; cases h4
    · exact absurd h4 hnl
    · show (liftOwn l.inst l.rt l.idx _).1 = _
      unfold liftOwn
      rw [SM.bind_ok hrm, SM.bind_get, h5]
      rw [show (⟨l.inst, l.rt, l.idx⟩ : Loc) = l from rfl, hlive] at h6; injection h6 with h6; subst h6; rfl
  · rw [(after_snoc info ops _).2]
    show (State.removed _ ⟨l.inst, l.rt, l.idx⟩).live l = none
    unfold State.removed
    rw [if_neg hnl]
    exact upd_same _ _ _

/-- **C35.** After an index was lifted, every use of it fails until an operation that adds a handle returns that
index again.
Missing: histories that are not `Valid`; see `lifted_index_dead_partial`, which needs only tables below `2 ^ 32` slots. -/
theorem lifted_dead_partial (info : RTInfo) (ops more : List Op) (l : Loc)
    (hnl : ¬ (State.after info ops).Lent l)
    (h : Valid info (ops ++ .liftOwn l.inst l.rt l.idx :: more))
    (hno : ∀ more1 op more2, more = more1 ++ op :: more2 → op.addsTo l.inst l.rt →
      (step info (World.after info (ops ++ .liftOwn l.inst l.rt l.idx :: more1)) op).1 ≠ .ok l.idx)
    (cx : CtxId) :
    let w := World.after info (ops ++ .liftOwn l.inst l.rt l.idx :: more)
    (step info w (.rep l.inst l.rt l.idx)).1 = .err ∧ (step info w (.liftOwn l.inst l.rt l.idx)).1 = .err ∧
    (step info w (.liftBorrow l.inst cx l.rt l.idx)).1 = .err ∧ (step info w (.drop l.inst l.rt l.idx)).1 = .err := by
  intro w
  have hdead : (State.after info (ops ++ [.liftOwn l.inst l.rt l.idx])).live l = none := by
    rw [(after_snoc info ops _).2]
    show (State.removed _ ⟨l.inst, l.rt, l.idx⟩).live l = none
    unfold State.removed
    rw [if_neg hnl]
    exact upd_same _ _ _
  have heq : ∀ m, ops ++ .liftOwn l.inst l.rt l.idx :: m = (ops ++ [.liftOwn l.inst l.rt l.idx]) ++ m := by simp
  have hdead' : (State.after info (ops ++ .liftOwn l.inst l.rt l.idx :: more)).live l = none := by
    by_contra hc
    rw [heq] at hc
    unfold State.after at hc
    rw [run_append] at hc
    obtain ⟨m1, op, m2, h1, h2, h3⟩ := dead_until_added info _ _ more l hdead hc
    refine hno m1 op m2 h1 h2 ?_
    rw [heq]
    unfold World.after
    rw [run_append]; exact h3
  have hR := h.rel
  have hslot : w.slot ⟨l.inst, l.rt, l.idx⟩ = none := by
    have := hR.live l
    rw [hdead'] at this
    rcases hs : w.slot l with _ | e
    · rfl
    · rw [show (World.after info (ops ++ Op.liftOwn l.inst l.rt l.idx :: more)) = w from rfl, hs] at this; cases this
  have hget : (w.tables l.inst l.rt).get l.idx = .err := by
    rw [get_eq _ _ (h.2 l.inst l.rt)]
    rw [show (w.tables l.inst l.rt).slot l.idx = none from hslot]
  have hrm : (remove l.inst l.rt l.idx w).1 = .err := by
    simp only [remove, Table.remove, hget]
  rcases hrm' : remove l.inst l.rt l.idx w with ⟨r, w'⟩
  rw [hrm'] at hrm
  simp only at hrm
  subst hrm
  refine ⟨?_, ?_, ?_, ?_⟩
  · have : step info w (.rep l.inst l.rt l.idx) = (.err, w) := SM.bind_err (by simp [get, hget])
    rw [this]
  · have : step info w (.liftOwn l.inst l.rt l.idx) = (.err, w') := SM.bind_err hrm'
    rw [this]
  · have : step info w (.liftBorrow l.inst cx l.rt l.idx) = (.err, w) := SM.bind_err (by simp [get, hget])
    rw [this]
  · have : canonResourceDrop info l.inst l.rt l.idx w = (.err, w') := SM.bind_err hrm'
    simp only [step, this, unitRes]

/-- **C35.** Lifting a borrow returns the representation and leaves every handle alive.
Missing: histories that are not `Valid`; see `index_keeps_partial`, which needs only tables below `2 ^ 32` slots. -/
theorem liftBorrow_keeps_partial (info : RTInfo) (ops : List Op) (l : Loc) (cx : CtxId)
    (h : Valid info (ops ++ [.liftBorrow l.inst cx l.rt l.idx])) (hd : Handle)
    (hlive : (State.after info ops).live l = some hd) :
    (step info (World.after info ops) (.liftBorrow l.inst cx l.rt l.idx)).1 = .ok hd.rep ∧
    (step info (World.after info (ops ++ [.liftBorrow l.inst cx l.rt l.idx])) (.rep l.inst l.rt l.idx)).1 =
      .ok hd.rep := by
  have h0 := h.prefix
  have h1 := lendHandle h0.rel l.inst cx l.rt l.idx h0.2 (((proper_append ..).1 h.1).2.1 cx rfl) _ _ rfl
  obtain ⟨_, _, h1⟩ := h1
  rw [show (⟨l.inst, l.rt, l.idx⟩ : Loc) = l from rfl, hlive] at h1
  refine ⟨h1, ?_⟩
  have hst := (after_snoc info ops (.liftBorrow l.inst cx l.rt l.idx)).2
  have hlive' : (State.after info (ops ++ [.liftBorrow l.inst cx l.rt l.idx])).live l = some hd := by
    rw [hst]
    rw [show (step info (World.after info ops) (.liftBorrow l.inst cx l.rt l.idx)).1 = .ok hd.rep from h1]
    exact hlive
  have hl := h.rel.live l
  rw [hlive'] at hl
  rcases hs : (World.after info (ops ++ [.liftBorrow l.inst cx l.rt l.idx])).slot l with _ | e
  · rw [hs] at hl; cases hl
  · rw [hs] at hl
    injection hl with hl
    have hg := get_eq _ l.idx (h.2 l.inst l.rt)
    have hs' : ((World.after info (ops ++ [.liftBorrow l.inst cx l.rt l.idx])).tables l.inst l.rt).slot l.idx =
      some e := hs
    rw [hs'] at hg
    show (canonResourceRep l.inst l.rt l.idx _).1 = _
    unfold canonResourceRep
    rw [SM.bind_ok (a := e) (s' := World.after info (ops ++ [.liftBorrow l.inst cx l.rt l.idx]))
      (by simp [get, hg])]
    rw [SM.bind_get, hl]; rfl

example : (State.after demoInfo (demo.take 1)).live ⟨0, 5, 0⟩ = some ⟨42, true, none⟩ ∧
    ¬ (State.after demoInfo (demo.take 1)).Lent ⟨0, 5, 0⟩ ∧
    results demoInfo .init [.new 0 5 42, .liftOwn 0 5 0, .rep 0 5 0, .new 0 5 43, .rep 0 5 0] =
      [.ok 0, .ok 42, .err, .ok 0, .ok 43] := by decide

/-! ## C36: the destructor runs exactly once -/

/-- **C36.** A drop calls the destructor exactly when the index is that of a live own handle that is not lent, the
implementing instance is the dropping one or may be entered, and the type has a destructor; it is called with the
handle's representation. No other operation calls a destructor.
Missing: histories that are not `Valid`; see `drop_destructs_any_partial`, which needs only tables below `2 ^ 32` slots. -/
theorem drop_destructs_partial (info : RTInfo) (ops : List Op) (op : Op) (h : Valid info (ops ++ [op])) :
    ∃ calls, (World.after info (ops ++ [op])).dtors = calls ++ (World.after info ops).dtors ∧
      ∀ rt rep, (rt, rep) ∈ calls ↔ calls = [(rt, rep)] ∧ ∃ inst i impl hd,
        op = .drop inst rt i ∧ (State.after info ops).live ⟨inst, rt, i⟩ = some hd ∧ hd.own = true ∧ hd.rep = rep ∧
        ¬ (State.after info ops).Lent ⟨inst, rt, i⟩ ∧ info.impl rt = some impl ∧
        (inst = impl ∨ (State.after info ops).mayEnter impl = true) ∧ info.hasDtor rt = true := by
  obtain ⟨calls, h1, h2⟩ := history_spec_partial info ops op h
  refine ⟨calls, h1, fun rt rep => ?_⟩
  by_cases hop : ∃ inst rt i, op = .drop inst rt i
  · obtain ⟨inst, rt', i, rfl⟩ := hop
    simp only [State.Allowed] at h2
    rcases hl : (State.after info ops).live ⟨inst, rt', i⟩ with _ | hd
    · rw [hl] at h2
      rw [h2.2]
      simp
    · rw [hl] at h2
      simp only at h2
      by_cases hlent : (State.after info ops).Lent ⟨inst, rt', i⟩
      · rw [if_pos hlent] at h2
        rw [h2.2]; simp
      · rw [if_neg hlent] at h2
        by_cases ho : hd.own = false
        · rw [if_pos ho] at h2; rw [h2.2]; simp
        · rw [if_neg ho] at h2
          rcases hi : info.impl rt' with _ | impl
          · rw [hi] at h2; rw [h2.2]; simp
          · rw [hi] at h2
            simp only at h2
            by_cases hg : inst ≠ impl ∧ (State.after info ops).mayEnter impl = false
            · rw [if_pos hg] at h2; rw [h2.2]; simp
            · rw [if_neg hg] at h2
              by_cases hd' : info.hasDtor rt'
              · rw [if_pos hd'] at h2
                rw [h2.2]
                constructor
                · intro hm
                  simp only [List.mem_singleton, Prod.mk.injEq] at hm
                  obtain ⟨rfl, rfl⟩ := hm
                  refine ⟨rfl, inst, i, impl, hd, rfl, hl, by simpa using ho, rfl, hlent, hi, ?_, hd'⟩
                  by_cases he : inst = impl
                  · exact .inl he
                  · right
                    by_contra hc
                    exact hg ⟨he, by simpa using hc⟩
                · rintro ⟨h3, _⟩; rw [h3]; simp
              · rw [if_neg hd'] at h2; rw [h2.2]; simp
  · have hc : calls = [] := by
      cases op with
      | drop inst rt i => exact absurd ⟨_, _, _, rfl⟩ hop
      | _ => exact h2.1
    rw [hc]
    constructor
    · intro h; cases h
    · rintro ⟨h, _⟩; cases h

/-- The operation of a history creates an own handle of a type with a representation. -/
def Op.creates (op : Op) (rt : RT) (rep : U32) : Bool :=
  match op with
  | .new _ r p => r = rt ∧ p = rep
  | .lowerOwn _ r p => r = rt ∧ p = rep
  | _ => false

/-- **C36.** The destructor of a type is called with a representation at most as often as own handles with that
representation were created: never twice for the same handle.
Missing: histories that are not `Valid`; `destructs_at_most_once` needs no assumption. -/
theorem destructs_at_most_once_partial (info : RTInfo) (ops : List Op) (h : Valid info ops) (rt : RT) (rep : U32) :
    (World.after info ops).dtors.count (rt, rep) ≤ ops.countP (fun op => op.creates rt rep) := by
  suffices hs : ∃ ll : List Loc, ll.Nodup ∧
      (∀ l, l ∈ ll ↔ l.rt = rt ∧ ∃ hd, (State.after info ops).live l = some hd ∧ hd.own = true ∧ hd.rep = rep) ∧
      (World.after info ops).dtors.count (rt, rep) + ll.length ≤ ops.countP (fun op => op.creates rt rep) by
    obtain ⟨ll, _, _, h3⟩ := hs; omega
  induction ops using List.reverseRecOn with
  | nil => exact ⟨[], by simp, by simp [State.after, run, State.init], by simp [World.after, run, World.init]⟩
  | append_singleton ops op ih =>
    have h0 := h.prefix
    obtain ⟨ll, hn, hm, hc⟩ := ih h0
    obtain ⟨calls, h1, h2⟩ := history_spec_partial info ops op h
    have hst := (after_snoc info ops op).2
    rw [h1, List.countP_append, List.count_append]
    generalize hr : (step info (World.after info ops) op).1 = r at h2 hst
    have keep : calls.count (rt, rep) = 0 → (∀ l, (State.after info (ops ++ [op])).live l = (State.after info ops).live l) →
        ∃ ll : List Loc, ll.Nodup ∧
        (∀ l, l ∈ ll ↔ l.rt = rt ∧ ∃ hd, (State.after info (ops ++ [op])).live l = some hd ∧ hd.own = true ∧ hd.rep = rep) ∧
        calls.count (rt, rep) + (World.after info ops).dtors.count (rt, rep) + ll.length ≤
          ops.countP (fun op => op.creates rt rep) + [op].countP (fun op => op.creates rt rep) := by
      intro hz hl
      refine ⟨ll, hn, ?_, by omega⟩
      intro l; rw [hl]; exact hm l
    have added : ∀ inst rt' (hd0 : Handle), calls = [] → State.after info (ops ++ [op]) = (State.after info ops).added inst rt' hd0 r →
        (State.after info ops).AddAllowed inst rt' r →
        (hd0.own = true → op.creates rt rep = decide (rt' = rt ∧ hd0.rep = rep)) →
        ∃ ll : List Loc, ll.Nodup ∧
        (∀ l, l ∈ ll ↔ l.rt = rt ∧ ∃ hd, (State.after info (ops ++ [op])).live l = some hd ∧ hd.own = true ∧ hd.rep = rep) ∧
        calls.count (rt, rep) + (World.after info ops).dtors.count (rt, rep) + ll.length ≤
          ops.countP (fun op => op.creates rt rep) + [op].countP (fun op => op.creates rt rep) := by
      intro inst rt' hd0 hcalls hadd hall hcr
      rcases hall with rfl | ⟨i, rfl, hfree⟩
      · exact keep (by rw [hcalls]; rfl) (fun l => by rw [hadd]; rfl)
      · have hlv : ∀ l, (State.after info (ops ++ [op])).live l =
            upd (State.after info ops).live ⟨inst, rt', i⟩ (some hd0) l := fun l => by rw [hadd]; rfl
        by_cases hmine : hd0.own = true ∧ rt' = rt ∧ hd0.rep = rep
        · obtain ⟨ho, rfl, rfl⟩ := hmine
          have hnot : (⟨inst, rt', i⟩ : Loc) ∉ ll := by
            rw [hm]; rintro ⟨_, hd, h', _⟩; rw [hfree] at h'; cases h'
          refine ⟨⟨inst, rt', i⟩ :: ll, List.nodup_cons.2 ⟨hnot, hn⟩, ?_, ?_⟩
          · intro l
            rw [hlv, List.mem_cons]
            by_cases e : l = ⟨inst, rt', i⟩
            · subst e
              simp [ho]
            · rw [upd_other _ _ e, hm]; simp [e]
          · rw [hcalls, List.countP_singleton, hcr ho]
            simp only [List.count_nil, List.length_cons, and_self, decide_true, if_true]
            omega
        · refine ⟨ll, hn, ?_, by rw [hcalls]; simp only [List.count_nil]; omega⟩
          intro l
          rw [hlv]
          by_cases e : l = ⟨inst, rt', i⟩
          · subst e
            rw [upd_same, hm]
            constructor
            · rintro ⟨_, hd, h', _⟩; rw [hfree] at h'; cases h'
            · rintro ⟨e1, hd, h', h2', h3'⟩
              injection h' with h'; subst h'
              exact absurd ⟨h2', e1, h3'⟩ hmine
          · rw [upd_other _ _ e, hm]
    have removed : ∀ inst rt' i, State.after info (ops ++ [op]) = (State.after info ops).removed ⟨inst, rt', i⟩ →
        (calls.count (rt, rep) = 0 ∨ (calls = [(rt, rep)] ∧ rt' = rt ∧ ¬ (State.after info ops).Lent ⟨inst, rt', i⟩ ∧
          ∃ hd, (State.after info ops).live ⟨inst, rt', i⟩ = some hd ∧ hd.own = true ∧ hd.rep = rep)) →
        ∃ ll : List Loc, ll.Nodup ∧
        (∀ l, l ∈ ll ↔ l.rt = rt ∧ ∃ hd, (State.after info (ops ++ [op])).live l = some hd ∧ hd.own = true ∧ hd.rep = rep) ∧
        calls.count (rt, rep) + (World.after info ops).dtors.count (rt, rep) + ll.length ≤
          ops.countP (fun op => op.creates rt rep) + [op].countP (fun op => op.creates rt rep) := by
      intro inst rt' i hrem hcalls
      by_cases hlent : (State.after info ops).Lent ⟨inst, rt', i⟩
      · rcases hcalls with hz | ⟨_, _, hnl, _⟩
        · refine keep hz (fun l => ?_)
          rw [hrem, State.removed, if_pos hlent]
        · exact absurd hlent hnl
      · rw [State.removed, if_neg hlent] at hrem
        have hlv : ∀ l, (State.after info (ops ++ [op])).live l =
            upd (State.after info ops).live ⟨inst, rt', i⟩ none l := fun l => by rw [hrem]
        refine ⟨ll.erase ⟨inst, rt', i⟩, hn.erase _, ?_, ?_⟩
        · intro l
          rw [hn.mem_erase_iff, hm, hlv]
          by_cases e : l = ⟨inst, rt', i⟩
          · subst e; simp
          · rw [upd_other _ _ e]; simp [e]
        · rcases hcalls with hz | ⟨hz, rfl, _, hd, h1', h2', h3'⟩
          · have := List.length_erase_le (a := (⟨inst, rt', i⟩ : Loc)) (l := ll)
            omega
          · have hmem : (⟨inst, rt', i⟩ : Loc) ∈ ll := (hm _).2 ⟨rfl, hd, h1', h2', h3'⟩
            have h4 := List.length_erase_of_mem hmem
            have h5 : 0 < ll.length := List.length_pos_of_mem hmem
            rw [hz]
            simp only [List.count_singleton_self]
            omega
    cases op with
    | new inst rt' rep' =>
      exact added inst rt' ⟨rep', true, none⟩ h2.1 hst h2.2 (fun _ => by simp [Op.creates])
    | lowerOwn inst rt' rep' =>
      exact added inst rt' ⟨rep', true, none⟩ h2.1 hst h2.2 (fun _ => by simp [Op.creates])
    | lowerBorrow inst cx rt' rep' =>
      simp only [State.Allowed] at h2
      simp only [State.next] at hst
      by_cases hi : info.impl rt' = some inst
      · rw [if_pos hi] at hst
        exact keep (by rw [h2.1]; rfl) (fun l => by rw [hst])
      · rw [if_neg hi] at hst h2
        exact added inst rt' ⟨rep', false, some cx⟩ h2.1 hst h2.2 (fun h => by cases h)
    | rep inst rt' i => exact keep (by rw [h2.1]; rfl) (fun l => by rw [hst]; rfl)
    | liftBorrow inst cx rt' i => exact keep (by rw [h2.1]; rfl) (fun l => by rw [hst]; cases r <;> rfl)
    | exit cx => exact keep (by rw [h2.1]; rfl) (fun l => by rw [hst]; cases r <;> rfl)
    | flag inst b => exact keep (by rw [h2.1]; rfl) (fun l => by rw [hst]; rfl)
    | liftOwn inst rt' i => exact removed inst rt' i hst (.inl (by rw [h2.1]; rfl))
    | drop inst rt' i =>
      refine removed inst rt' i hst ?_
      obtain ⟨calls', h1', h3⟩ := drop_destructs_partial info ops (.drop inst rt' i) h
      have hcc : calls' = calls := by
        rw [h1] at h1'; exact (List.append_cancel_right h1').symm
      subst hcc
      by_cases hmem : (rt, rep) ∈ calls'
      · obtain ⟨h4, inst2, i2, impl, hd, h5, h6, h7, h8, h9, _⟩ := (h3 rt rep).1 hmem
        injection h5 with e1 e2 e3
        subst e1; subst e2; subst e3
        exact .inr ⟨h4, rfl, h9, hd, h6, h7, h8⟩
      · exact .inl (List.count_eq_zero.2 hmem)

/-- In `demo` one handle is created for (5, 42) and the destructor is called once. -/
example : (World.after demoInfo demo).dtors.count (5, 42) = 1 ∧
    demo.countP (fun op => op.creates 5 42) = 1 := by decide

/-! ## C37: resource types are isolated -/

/-- The resource type an operation works on. -/
def Op.rt : Op → Option RT
  | .new _ rt _ | .rep _ rt _ | .drop _ rt _ | .liftOwn _ rt _ | .liftBorrow _ _ rt _ | .lowerOwn _ rt _
  | .lowerBorrow _ _ rt _ => some rt
  | .exit _ | .flag _ _ => none

theorem removed_other (a : State) (l l' : Loc) (h : l ≠ l') : (a.removed l').live l = a.live l := by
  unfold State.removed
  split
  · rfl
  · exact upd_other _ _ h

theorem added_other (a : State) (inst : InstId) (rt : RT) (hd : Handle) (r : Res U32) (l : Loc) (h : rt ≠ l.rt) :
    (a.added inst rt hd r).live l = a.live l := by
  cases r with
  | ok i => exact upd_other _ _ (fun e => h (by rw [e]))
  | _ => rfl

/-- **C37.** An operation on one resource type changes no handle of another type: what every index of another type
stands for, in any instance, stays the same, and so does whether it is lent. -/
theorem types_isolated (info : RTInfo) (a : State) (op : Op) (r : Res U32) (rt : RT) (hop : op.rt = some rt)
    (l : Loc) (hl : l.rt ≠ rt) :
    (a.next info op r).live l = a.live l ∧ ((a.next info op r).Lent l ↔ a.Lent l) := by
  have key : ∀ inst rt' hd, rt' = rt → (a.added inst rt' hd r).live l = a.live l ∧ ((a.added inst rt' hd r).Lent l ↔ a.Lent l) := by
    rintro inst rt' hd rfl
    refine ⟨added_other a inst rt' hd r l (fun e => hl e.symm), ?_⟩
    cases r <;> rfl
  have key2 : ∀ inst rt' i, rt' = rt → (a.removed ⟨inst, rt', i⟩).live l = a.live l ∧ ((a.removed ⟨inst, rt', i⟩).Lent l ↔ a.Lent l) := by
    rintro inst rt' i rfl
    refine ⟨removed_other a l _ (fun e => hl (by rw [e])), ?_⟩
    unfold State.removed; split <;> rfl
  cases op with
  | new inst rt' rep => injection hop with h; exact key _ _ _ h
  | lowerOwn inst rt' rep => injection hop with h; exact key _ _ _ h
  | lowerBorrow inst cx rt' rep =>
    injection hop with h
    simp only [State.next]
    split
    · exact ⟨rfl, Iff.rfl⟩
    · exact key _ _ _ h
  | rep inst rt' i => exact ⟨rfl, Iff.rfl⟩
  | drop inst rt' i => injection hop with h; exact key2 _ _ _ h
  | liftOwn inst rt' i => injection hop with h; exact key2 _ _ _ h
  | liftBorrow inst cx rt' i =>
    injection hop with h
    cases r with
    | ok v =>
      refine ⟨rfl, ?_⟩
      constructor
      · rintro ⟨c, hc⟩
        rcases List.mem_cons.1 hc with e | hc
        · injection e with _ e; subst e; exact absurd h hl
        · exact ⟨c, hc⟩
      · rintro ⟨c, hc⟩; exact ⟨c, List.mem_cons_of_mem _ hc⟩
    | _ => exact ⟨rfl, Iff.rfl⟩
  | exit cx => cases hop
  | flag inst b => cases hop

theorem rep_result (info : RTInfo) (ops : List Op) (h : Valid info ops) (l : Loc) :
    (step info (World.after info ops) (.rep l.inst l.rt l.idx)).1 =
      match (State.after info ops).live l with | some hd => .ok hd.rep | none => .err := by
  have hw : (step info (World.after info ops) (.rep l.inst l.rt l.idx)).2 = World.after info ops := by
    simp only [step, canonResourceRep, SM.bind_def, get]
    cases ((World.after info ops).tables l.inst l.rt).get l.idx <;> rfl
  obtain ⟨_, _, h2, _⟩ := step_ok h.rel info (.rep l.inst l.rt l.idx) (by rw [hw]; exact h.2) h.2
    (fun c hc => by cases hc)
  exact h2.2

theorem liftOwn_result (info : RTInfo) (ops : List Op) (h : Valid info ops) (l : Loc) :
    (step info (World.after info ops) (.liftOwn l.inst l.rt l.idx)).1 =
      match (State.after info ops).live l with
      | some hd => if (State.after info ops).Lent l then .err else .ok hd.rep
      | none => .err := by
  rcases hrm : remove l.inst l.rt l.idx (World.after info ops) with ⟨r, w'⟩
  obtain ⟨_, _, h5, _, h4⟩ := removeHandle h.rel l.inst l.rt l.idx h.2 r w' hrm
  rcases h4 with ⟨rfl, _, h4⟩ | ⟨e, rfl, h4, h6⟩
  · have : step info (World.after info ops) (.liftOwn l.inst l.rt l.idx) = (.err, w') := SM.bind_err hrm
    rw [this]
    rcases h4 with h4 | h4
    · rw [show (State.after info ops).live l = none from h4]
    · simp only [if_pos (show (State.after info ops).Lent l from h4)]
      cases (State.after info ops).live l <;> rfl
  · rw [show (State.after info ops).live l = _ from h6]
    simp only [if_neg (show ¬ (State.after info ops).Lent l from h4)]
    show (liftOwn l.inst l.rt l.idx _).1 = _
    unfold liftOwn
    rw [SM.bind_ok hrm, SM.bind_get, h5]; rfl

/-- Replace the tables of every resource type but one. -/
def World.otherTables (w : World) (rt : RT) (ts : InstId → RT → Table) : World :=
  { w with tables := fun inst r => if r = rt then w.tables inst r else ts inst r }

theorem otherTables_setTable (w : World) (rt : RT) (ts : InstId → RT → Table) (inst : InstId) (t : Table) :
    (w.otherTables rt ts).setTable inst rt t = (w.setTable inst rt t).otherTables rt ts := by
  simp only [World.otherTables, World.setTable, World.mk.injEq, true_and, and_true]
  funext i r
  by_cases h1 : i = inst
  · subst h1
    by_cases h2 : r = rt
    · subst h2; simp
    · simp [upd, h2]
  · simp [upd, h1]

theorem add_other (inst : InstId) (rt : RT) (h : ElemId) (w : World) (ts : InstId → RT → Table) :
    add inst rt h (w.otherTables rt ts) = ((add inst rt h w).1, (add inst rt h w).2.otherTables rt ts) := by
  have ht : (w.otherTables rt ts).tables inst rt = w.tables inst rt := by simp [World.otherTables]
  simp only [add, ht]
  rcases (w.tables inst rt).add h with ⟨r, t⟩
  simp only [otherTables_setTable]
  rcases r with i | _ | _ | _
  · have : ((w.setTable inst rt t).otherTables rt ts).elems = (w.setTable inst rt t).elems := rfl
    rw [this]
    rcases ((w.setTable inst rt t).elems h).scope with _ | c <;> rfl
  all_goals rfl

theorem remove_other (inst : InstId) (rt : RT) (i : U32) (w : World) (ts : InstId → RT → Table) :
    remove inst rt i (w.otherTables rt ts) = ((remove inst rt i w).1, (remove inst rt i w).2.otherTables rt ts) := by
  have ht : (w.otherTables rt ts).tables inst rt = w.tables inst rt := by simp [World.otherTables]
  have he : (w.otherTables rt ts).elems = w.elems := rfl
  simp only [remove, ht, he]
  rcases (w.tables inst rt).remove (fun e => (w.elems e).lendCount) i with ⟨r, t⟩
  simp only [otherTables_setTable]
  rcases r with h | _ | _ | _
  · have : ((w.setTable inst rt t).otherTables rt ts).elems = (w.setTable inst rt t).elems := rfl
    simp only [this]
    rcases ((w.setTable inst rt t).elems h).scope with _ | c <;> rfl
  all_goals rfl

theorem get_other (inst : InstId) (rt : RT) (i : U32) (w : World) (ts : InstId → RT → Table) :
    get inst rt i (w.otherTables rt ts) = ((get inst rt i w).1, w.otherTables rt ts) := by
  have ht : (w.otherTables rt ts).tables inst rt = w.tables inst rt := by simp [World.otherTables]
  simp only [get, ht]

/-- **C37.** An operation on one resource type does not observe the tables of the others: whatever they hold, its
result and its effect are the same. -/
theorem types_unobserved (info : RTInfo) (w : World) (op : Op) (rt : RT) (hop : op.rt = some rt)
    (ts : InstId → RT → Table) :
    step info (w.otherTables rt ts) op = ((step info w op).1, (step info w op).2.otherTables rt ts) := by
  have hnew : ∀ inst (e : Elem), (do let h ← alloc e; add inst rt h : SM World U32) (w.otherTables rt ts) =
      (((do let h ← alloc e; add inst rt h : SM World U32) w).1,
        ((do let h ← alloc e; add inst rt h : SM World U32) w).2.otherTables rt ts) := fun inst e =>
    add_other inst rt w.next { w with elems := upd w.elems w.next e, next := w.next + 1 } ts
  cases op with
  | new inst rt' rep => injection hop with h; subst h; exact hnew inst _
  | lowerOwn inst rt' rep => injection hop with h; subst h; exact hnew inst _
  | lowerBorrow inst cx rt' rep =>
    injection hop with h; subst h
    simp only [step, lowerBorrow]
    split
    · rfl
    · exact hnew inst _
  | rep inst rt' i =>
    injection hop with h; subst h
    simp only [step, canonResourceRep, SM.bind_def, get_other]
    have : (get inst rt' i w).2 = w := rfl
    rcases hg : get inst rt' i w with ⟨r, w1⟩
    rw [hg] at this; simp only at this; subst this
    cases r <;> rfl
  | liftBorrow inst cx rt' i =>
    injection hop with h; subst h
    simp only [step, liftBorrow, SM.bind_def, get_other]
    have : (get inst rt' i w).2 = w := rfl
    rcases hg : get inst rt' i w with ⟨r, w1⟩
    rw [hg] at this; simp only at this; subst this
    cases r <;> rfl
  | liftOwn inst rt' i =>
    injection hop with h; subst h
    simp only [step, liftOwn, SM.bind_def, remove_other]
    rcases remove inst rt' i w with ⟨r, w1⟩
    cases r <;> rfl
  | drop inst rt' i =>
    injection hop with h; subst h
    simp only [step, canonResourceDrop, SM.bind_def, remove_other]
    rcases remove inst rt' i w with ⟨r, w1⟩
    cases r with
    | ok e =>
      simp only [SM.get_def]
      have h1 : (w1.otherTables rt' ts).elems = w1.elems := rfl
      have h2 : (w1.otherTables rt' ts).mayEnter = w1.mayEnter := rfl
      rw [h1, h2]
      cases (w1.elems e).own
      · rfl
      · cases info.impl rt' with
        | none => rfl
        | some impl =>
          by_cases hg : inst ≠ impl ∧ w1.mayEnter impl = false
          · simp only [SM.ite_app, if_pos hg]; rfl
          · simp only [SM.ite_app, if_neg hg]
            cases info.hasDtor rt' <;> rfl
    | _ => rfl
  | exit cx => cases hop
  | flag inst b => cases hop

/-- Index 0 of type 5 and index 0 of type 6 are different handles; dropping one leaves the other. -/
example : results demoInfo .init [.new 0 5 42, .new 0 6 77, .drop 0 5 0, .rep 0 5 0, .rep 0 6 0] =
    [.ok 0, .ok 0, .ok 0, .err, .ok 77] := by decide

/-! ## C64: own and borrow handles are kept apart -/

/-- **C64 is false of the code.** A handle that was lowered as a borrow can be lifted as an own: the callee takes
ownership of what it was only lent, and the call then ends without complaint. -/
theorem borrow_lifted_as_own :
    results demoInfo .init [.lowerBorrow 2 3 5 42, .liftOwn 2 5 0, .exit 3] = [.ok 0, .ok 42, .ok 0] ∧
    (State.after demoInfo [.lowerBorrow 2 3 5 42]).live ⟨2, 5, 0⟩ = some ⟨42, false, some 3⟩ := by decide

/-- **C64, part.** Dropping does keep them apart: dropping a borrow handle never calls the destructor. Missing:
lifting a borrow handle as an own should trap and does not (above). -/
theorem drop_borrow_partial (info : RTInfo) (ops : List Op) (l : Loc) (hd : Handle)
    (h : Valid info (ops ++ [.drop l.inst l.rt l.idx])) (hlive : (State.after info ops).live l = some hd)
    (hb : hd.own = false) :
    (World.after info (ops ++ [.drop l.inst l.rt l.idx])).dtors = (World.after info ops).dtors := by
  obtain ⟨calls, h1, h2⟩ := history_spec_partial info ops _ h
  simp only [State.Allowed] at h2
  rw [show (⟨l.inst, l.rt, l.idx⟩ : Loc) = l from rfl, hlive] at h2
  simp only [hb, if_true] at h2
  have : calls = [] := by split at h2 <;> exact h2.2
  rw [h1, this]; rfl

example : results demoInfo .init [.lowerBorrow 2 3 5 42, .drop 2 5 0] = [.ok 0, .ok 0] ∧
    (World.after demoInfo [.lowerBorrow 2 3 5 42, .drop 2 5 0]).dtors = [] := by decide

end Verif.Handles
