import Verif.Handles.Model

/-!
# What handles mean to a user

Two small specifications. Neither mentions slots, free lists or counters.

* `Live`: the meaning of a sequence of `Add`/`Get`/`Remove` calls on one table, computed from the calls and
  their results only.
* `State`: the meaning of a sequence of canonical-ABI operations on any number of instances, contexts and
  resource types.
-/

namespace Verif.Handles
open Verif.Abi (RT)

/-! ## One table -/

/-- A call on a table. A removal sees the lend counts at the time of the call, which other code may have changed
in any way. -/
inductive TOp where
  | add (h : ElemId)
  | get (i : U32)
  | remove (i : U32) (lend : ElemId → Int)

/-- What the caller sees. -/
inductive TOut where
  | index (i : U32)
  | elem (h : ElemId)
  | trap
  | panicked
  deriving DecidableEq, Repr

/-- Outcome of a call returning an index. -/
def outIndex : Res U32 → TOut
  | .ok i => .index i
  | .err => .trap
  | _ => .panicked
/-- Outcome of a call returning an element. -/
def outElem : Res ElemId → TOut
  | .ok h => .elem h
  | .err => .trap
  | _ => .panicked

/-- One call on the model of the table. -/
def tstep (t : Table) : TOp → TOut × Table
  | .add h => (outIndex (t.add h).1, (t.add h).2)
  | .get i => (outElem (t.get i), t)
  | .remove i lend => (outElem (t.remove lend i).1, (t.remove lend i).2)

/-- A sequence of calls: the table it leads to and what was seen, oldest first. -/
def trun (t : Table) : List TOp → List (TOp × TOut) × Table
  | [] => ([], t)
  | op :: ops =>
    let (o, t) := tstep t op
    let (tr, t) := trun t ops
    ((op, o) :: tr, t)

/-- Which element each index stands for, according to the calls and results alone: the one an `Add` returned
the index for, until a successful `Remove` of it. -/
def liveAfter (live : U32 → Option ElemId) : List (TOp × TOut) → U32 → Option ElemId
  | [] => live
  | (.add h, .index i) :: tr => liveAfter (upd live i (some h)) tr
  | (.remove i _, .elem _) :: tr => liveAfter (upd live i none) tr
  | _ :: tr => liveAfter live tr

/-- The element an index stands for after a history starting with an empty table. -/
def Live (tr : List (TOp × TOut)) : U32 → Option ElemId := liveAfter (fun _ => none) tr

/-- The results a call may have. -/
def TAllowed (live : U32 → Option ElemId) : TOp → TOut → Prop
  | .add _, o => o = .trap ∨ ∃ i, o = .index i ∧ live i = none
  | .get i, o => o = match live i with | some h => .elem h | none => .trap
  | .remove i lend, o => o = match live i with
    | some h => if lend h = 0 then .elem h else .trap
    | none => .trap

/-! ## The canonical-ABI operations -/

/-- A place a handle can be at: an index of a resource type in an instance. -/
structure Loc where
  inst : InstId
  rt : RT
  idx : U32
  deriving DecidableEq, Repr

/-- What a live handle stands for. -/
structure Handle where
  rep : U32
  own : Bool
  scope : Option CtxId
  deriving DecidableEq, Repr

/-- The operations. `flag` is any change of an instance's `MayEnter` by other code. -/
inductive Op where
  | new (inst : InstId) (rt : RT) (rep : U32)
  | rep (inst : InstId) (rt : RT) (i : U32)
  | drop (inst : InstId) (rt : RT) (i : U32)
  | liftOwn (inst : InstId) (rt : RT) (i : U32)
  | liftBorrow (inst : InstId) (cx : CtxId) (rt : RT) (i : U32)
  | lowerOwn (inst : InstId) (rt : RT) (rep : U32)
  | lowerBorrow (inst : InstId) (cx : CtxId) (rt : RT) (rep : U32)
  | exit (cx : CtxId)
  | flag (inst : InstId) (b : Bool)
  deriving DecidableEq, Repr

/-- The call a operation uses, if it uses one. -/
def Op.ctx : Op → Option CtxId
  | .liftBorrow _ cx _ _ | .lowerBorrow _ cx _ _ | .exit cx => some cx
  | _ => none

/-- The abstract state: the live handles, the outstanding lends, which calls are over and which instances may be
entered. -/
structure State where
  live : Loc → Option Handle
  lends : List (CtxId × Loc)
  exited : CtxId → Bool
  mayEnter : InstId → Bool

/-- Nothing exists yet. -/
def State.init : State := ⟨fun _ => none, [], fun _ => false, fun _ => true⟩

/-- A handle is lent while a borrow was lifted from it by a call that is not over. -/
def State.Lent (a : State) (l : Loc) : Prop := ∃ c, (c, l) ∈ a.lends

instance (a : State) (l : Loc) : Decidable (a.Lent l) :=
  decidable_of_iff (∃ p ∈ a.lends, p.2 = l) (by
    constructor
    · rintro ⟨⟨c, l'⟩, h, rfl⟩; exact ⟨c, h⟩
    · rintro ⟨c, h⟩; exact ⟨_, h, rfl⟩)

/-- Adding a handle makes the returned index live. -/
def State.added (a : State) (inst : InstId) (rt : RT) (h : Handle) : Res U32 → State
  | .ok i => { a with live := upd a.live ⟨inst, rt, i⟩ (some h) }
  | _ => a

/-- A handle that is not lent can be taken out. -/
def State.removed (a : State) (l : Loc) : State :=
  if a.Lent l then a else { a with live := upd a.live l none }

/-- The state after an operation with a given result. -/
def State.next (info : RTInfo) (a : State) : Op → Res U32 → State
  | .new inst rt rep, r => a.added inst rt ⟨rep, true, none⟩ r
  | .lowerOwn inst rt rep, r => a.added inst rt ⟨rep, true, none⟩ r
  | .lowerBorrow inst cx rt rep, r =>
    if info.impl rt = some inst then a else a.added inst rt ⟨rep, false, some cx⟩ r
  | .rep _ _ _, _ => a
  | .drop inst rt i, _ => a.removed ⟨inst, rt, i⟩
  | .liftOwn inst rt i, _ => a.removed ⟨inst, rt, i⟩
  | .liftBorrow inst cx rt i, .ok _ => { a with lends := (cx, ⟨inst, rt, i⟩) :: a.lends }
  | .exit cx, .ok _ => { a with lends := a.lends.filter (fun p => p.1 ≠ cx), exited := upd a.exited cx true }
  | .flag inst b, _ => { a with mayEnter := upd a.mayEnter inst b }
  | _, _ => a

/-- Adding a handle returns an index that is not live (or an error). -/
def State.AddAllowed (a : State) (inst : InstId) (rt : RT) (r : Res U32) : Prop :=
  r = .err ∨ ∃ i, r = .ok i ∧ a.live ⟨inst, rt, i⟩ = none

/-- The results an operation may have, and the destructor calls (type and representation) it makes. -/
def State.Allowed (info : RTInfo) (a : State) (calls : List (RT × U32)) : Op → Res U32 → Prop
  | .new inst rt _, r => calls = [] ∧ a.AddAllowed inst rt r
  | .lowerOwn inst rt _, r => calls = [] ∧ a.AddAllowed inst rt r
  | .lowerBorrow inst _ rt rep, r =>
    calls = [] ∧ if info.impl rt = some inst then r = .ok rep else a.AddAllowed inst rt r
  | .rep inst rt i, r =>
    calls = [] ∧ r = match a.live ⟨inst, rt, i⟩ with | some h => .ok h.rep | none => .err
  | .liftBorrow inst _ rt i, r =>
    calls = [] ∧ r = match a.live ⟨inst, rt, i⟩ with | some h => .ok h.rep | none => .err
  | .liftOwn inst rt i, r =>
    calls = [] ∧ r = match a.live ⟨inst, rt, i⟩ with
      | some h => if a.Lent ⟨inst, rt, i⟩ then .err else .ok h.rep
      | none => .err
  | .drop inst rt i, r =>
    match a.live ⟨inst, rt, i⟩ with
    | none => r = .err ∧ calls = []
    | some h =>
      if a.Lent ⟨inst, rt, i⟩ then r = .err ∧ calls = []
      else if h.own = false then r = .ok 0 ∧ calls = []
      else match info.impl rt with
        | none => r = .panic ∧ calls = []
        | some impl =>
          if inst ≠ impl ∧ a.mayEnter impl = false then r = .err ∧ calls = []
          else r = .ok 0 ∧ calls = if info.hasDtor rt then [(rt, h.rep)] else []
  | .exit cx, r =>
    calls = [] ∧ ((r = .ok 0 ∧ ∀ l h, a.live l = some h → h.scope ≠ some cx) ∨
      (r = .err ∧ ∃ l h, a.live l = some h ∧ h.scope = some cx))
  | .flag _ _, r => calls = [] ∧ r = .ok 0

/-! ## Histories of the model -/

/-- The number 0 stands for the empty result. -/
def unitRes : Res Unit × World → Res U32 × World
  | (.ok (), w) => (.ok 0, w)
  | (.err, w) => (.err, w)
  | (.panic, w) => (.panic, w)
  | (.diverge, w) => (.diverge, w)

/-- One operation of the model. -/
def step (info : RTInfo) (w : World) : Op → Res U32 × World
  | .new inst rt rep => canonResourceNew inst rt rep w
  | .rep inst rt i => canonResourceRep inst rt i w
  | .drop inst rt i => unitRes (canonResourceDrop info inst rt i w)
  | .liftOwn inst rt i => liftOwn inst rt i w
  | .liftBorrow inst cx rt i => liftBorrow inst cx rt i w
  | .lowerOwn inst rt rep => lowerOwn inst rt rep w
  | .lowerBorrow inst cx rt rep => lowerBorrow info inst cx rt rep w
  | .exit cx => unitRes (exitCall cx w)
  | .flag inst b => (.ok 0, { w with mayEnter := upd w.mayEnter inst b })

/-- Nothing exists yet. -/
def World.init : World where
  elems _ := ⟨0, 0, false, none⟩
  next := 0
  tables _ _ := .empty
  ctxs _ := ⟨[], 0⟩
  mayEnter _ := true
  mayLeave _ := true
  dtors := []

/-- Run a history, with the abstract state beside the world. -/
def run (info : RTInfo) (w : World) (a : State) : List Op → World × State
  | [] => (w, a)
  | op :: ops => run info (step info w op).2 (a.next info op (step info w op).1) ops

/-- No call is used after it is over. (`ExitCall` does not clear the list of lenders, a second one would release
the lends twice.) -/
def Proper (info : RTInfo) (w : World) (a : State) : List Op → Prop
  | [] => True
  | op :: ops => (∀ c, op.ctx = some c → a.exited c = false) ∧
      Proper info (step info w op).2 (a.next info op (step info w op).1) ops

/-- No table has `2 ^ 32` slots or more (indices are `uint32`). -/
def World.Fits (w : World) : Prop := ∀ inst rt, (w.tables inst rt).array.length < 2 ^ 32

end Verif.Handles
