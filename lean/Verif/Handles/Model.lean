import Verif.Go.SM
import Verif.Abi.Types

/-!
# Model of resource handles

`abi/types/handle.go`, `abi/types/context.go`, `abi/io/canon.go` and the handle parts of `lift.go` and
`lower.go`. A `*HandleElem`, a `*CallContext` and a `*ComponentInstance` are identified by numbers; `World` is
the store they point into.
-/

namespace Verif.Handles
open Verif.Abi (RT)

/-- Identity of a `*types.HandleElem`. -/
abbrev ElemId := Nat
/-- Identity of a `*types.CallContext`. -/
abbrev CtxId := Nat
/-- Identity of a `*types.ComponentInstance`. -/
abbrev InstId := Nat

/-! ## One table -/

/-- `types.HandleTable`. The head of `free` is the top of the stack (the last element of the Go slice).
-- models abi/types/handle.go:16-19 -/
structure Table where
  array : List (Option ElemId)
  free : List U32
  deriving DecidableEq, Repr

/-- A fresh table.
-- models abi/types/handle.go:76 -/
def Table.empty : Table := ⟨[], []⟩

/-- `HandleTable.Add`, without the update of the handle's scope, which is in `add`.
-- models abi/types/handle.go:21-37, internal/collections/stack/stack.go:12-19 (`Pop`) -/
def Table.add (t : Table) (h : ElemId) : Res U32 × Table :=
  match t.free with
  | i :: free =>
    match t.array[i.toNat]? with
    | none => (.panic, { t with free := free })
    | some (some _) => (.err, { t with free := free })
    | some none => (.ok i, { array := t.array.set i.toNat (some h), free := free })
  | [] => (.ok (BitVec.ofNat 32 t.array.length), { t with array := t.array ++ [some h] })

/-- `HandleTable.Get`.
-- models abi/types/handle.go:39-48 (`uint32(len(ht.Array))` takes the low 32 bits; indexing past the end panics) -/
def Table.get (t : Table) (i : U32) : Res ElemId :=
  if i.toNat ≥ (BitVec.ofNat 32 t.array.length).toNat then .err
  else match t.array[i.toNat]? with
    | none => .panic
    | some none => .err
    | some (some h) => .ok h

/-- `HandleTable.Remove`, given the lend counts of the elements; without the update of the scope, which is in
`remove`. The freed slot recorded is the length of the free list, not `i`.
-- models abi/types/handle.go:50-67 -/
def Table.remove (t : Table) (lend : ElemId → Int) (i : U32) : Res ElemId × Table :=
  match t.get i with
  | .ok h =>
    if lend h ≠ 0 then (.err, t)
    else (.ok h, { array := t.array.set i.toNat none, free := BitVec.ofNat 32 t.free.length :: t.free })
  | .err => (.err, t)
  | .panic => (.panic, t)
  | .diverge => (.diverge, t)

/-! ## The store -/

/-- `types.HandleElem`.
-- models abi/types/handle.go:9-14 -/
structure Elem where
  rep : U32
  lendCount : Int
  own : Bool
  scope : Option CtxId
  deriving DecidableEq, Repr

/-- The part of `types.CallContext` that concerns handles.
-- models abi/types/context.go:3-8 -/
structure Ctx where
  lenders : List ElemId
  borrowCount : Int
  deriving DecidableEq, Repr

/-- Everything reachable through the pointers. `next` is the number of elements created so far; `dtors` is the
log of destructor calls, newest first (ghost: the destructor itself is a Go function outside the model, taken
not to touch handles). -/
structure World where
  elems : ElemId → Elem
  next : ElemId
  tables : InstId → RT → Table
  ctxs : CtxId → Ctx
  mayEnter : InstId → Bool
  mayLeave : InstId → Bool
  dtors : List (RT × U32)

/-- Functions of a resource type: the instance implementing it (nil allowed) and whether it has a destructor.
-- models abi/types/resource_type.go:3-8 -/
structure RTInfo where
  impl : RT → Option InstId
  hasDtor : RT → Bool

/-- Replace the value of a function at one point. -/
def upd {α β : Type} [DecidableEq α] (f : α → β) (a : α) (b : β) : α → β := fun x => if x = a then b else f x

@[simp] theorem upd_same {α β : Type} [DecidableEq α] (f : α → β) (a : α) (b : β) : upd f a b a = b := by
  simp [upd]
theorem upd_other {α β : Type} [DecidableEq α] (f : α → β) {a x : α} (b : β) (h : x ≠ a) : upd f a b x = f x := by
  simp [upd, h]

/-- Replace one table. -/
def World.setTable (w : World) (inst : InstId) (rt : RT) (t : Table) : World :=
  { w with tables := upd w.tables inst (upd (w.tables inst) rt t) }

/-- Change one context. -/
def World.setCtx (w : World) (c : CtxId) (x : Ctx) : World := { w with ctxs := upd w.ctxs c x }

/-- Allocate a `HandleElem`.
-- models the composite literals in abi/io/canon.go:6-9 and abi/io/lower.go:249-252, 264-268 -/
def alloc (e : Elem) : SM World ElemId := fun w =>
  (.ok w.next, { w with elems := upd w.elems w.next e, next := w.next + 1 })

/-- `HandleTables.Add`, with the scope's borrow count.
-- models abi/types/handle.go:21-37, 82-84 and abi/types/context.go:19-21 (the table map is taken non-nil, a
missing table is an empty one) -/
def add (inst : InstId) (rt : RT) (h : ElemId) : SM World U32 := fun w =>
  let (r, t) := (w.tables inst rt).add h
  let w := w.setTable inst rt t
  match r with
  | .ok i =>
    match (w.elems h).scope with
    | some c => (.ok i, w.setCtx c { w.ctxs c with borrowCount := (w.ctxs c).borrowCount + 1 })
    | none => (.ok i, w)
  | .err => (.err, w)
  | .panic => (.panic, w)
  | .diverge => (.diverge, w)

/-- `HandleTables.Get`.
-- models abi/types/handle.go:86-88 -/
def get (inst : InstId) (rt : RT) (i : U32) : SM World ElemId := fun w => ((w.tables inst rt).get i, w)

/-- `HandleTables.Remove`, with the scope's borrow count.
-- models abi/types/handle.go:50-67, 90-92 and abi/types/context.go:15-17 -/
def remove (inst : InstId) (rt : RT) (i : U32) : SM World ElemId := fun w =>
  let (r, t) := (w.tables inst rt).remove (fun e => (w.elems e).lendCount) i
  let w := w.setTable inst rt t
  match r with
  | .ok h =>
    match (w.elems h).scope with
    | some c => (.ok h, w.setCtx c { w.ctxs c with borrowCount := (w.ctxs c).borrowCount - 1 })
    | none => (.ok h, w)
  | .err => (.err, w)
  | .panic => (.panic, w)
  | .diverge => (.diverge, w)

/-- `CallContext.LiftBorrowFrom`.
-- models abi/types/context.go:10-13 -/
def liftBorrowFrom (cx : CtxId) (h : ElemId) : SM World Unit := fun w =>
  (.ok (), { w with
    elems := upd w.elems h { w.elems h with lendCount := (w.elems h).lendCount + 1 }
    ctxs := upd w.ctxs cx { w.ctxs cx with lenders := (w.ctxs cx).lenders ++ [h] } })

/-- Decrement the lend counts of the lenders, one by one.
-- models abi/types/context.go:27-29 -/
def release (elems : ElemId → Elem) : List ElemId → ElemId → Elem
  | [] => elems
  | h :: hs => release (upd elems h { elems h with lendCount := (elems h).lendCount - 1 }) hs

/-- `CallContext.ExitCall`. The list of lenders is not cleared.
-- models abi/types/context.go:23-31 -/
def exitCall (cx : CtxId) : SM World Unit := fun w =>
  if (w.ctxs cx).borrowCount ≠ 0 then (.err, w)
  else (.ok (), { w with elems := release w.elems (w.ctxs cx).lenders })

/-- `io.LiftOwn`.
-- models abi/io/lift.go:11-17 -/
def liftOwn (inst : InstId) (rt : RT) (i : U32) : SM World U32 := do
  let h ← remove inst rt i
  let w ← SM.get
  pure (w.elems h).rep

/-- `io.LiftBorrow`.
-- models abi/io/lift.go:19-26 -/
def liftBorrow (inst : InstId) (cx : CtxId) (rt : RT) (i : U32) : SM World U32 := do
  let h ← get inst rt i
  liftBorrowFrom cx h
  let w ← SM.get
  pure (w.elems h).rep

/-- `io.LowerOwn` on a value that is a `uint32`.
-- models abi/io/lower.go:244-254 (the cast of the argument is in `Abi.lowerFlat`) -/
def lowerOwn (inst : InstId) (rt : RT) (rep : U32) : SM World U32 := do
  let h ← alloc { rep := rep, lendCount := 0, own := true, scope := none }
  add inst rt h

/-- `io.LowerBorrow` on a value that is a `uint32`.
-- models abi/io/lower.go:256-270 -/
def lowerBorrow (info : RTInfo) (inst : InstId) (cx : CtxId) (rt : RT) (rep : U32) : SM World U32 :=
  if info.impl rt = some inst then pure rep
  else do
    let h ← alloc { rep := rep, lendCount := 0, own := false, scope := some cx }
    add inst rt h

/-- `io.CanonResourceNew`.
-- models abi/io/canon.go:5-11 -/
def canonResourceNew (inst : InstId) (rt : RT) (rep : U32) : SM World U32 := do
  let h ← alloc { rep := rep, lendCount := 0, own := true, scope := none }
  add inst rt h

/-- `io.CanonResourceRep`.
-- models abi/io/canon.go:13-19 -/
def canonResourceRep (inst : InstId) (rt : RT) (i : U32) : SM World U32 := do
  let h ← get inst rt i
  let w ← SM.get
  pure (w.elems h).rep

/-- `io.CanonResourceDrop`. A resource type without implementing instance panics when `inst` drops an own
handle of it (nil dereference).
-- models abi/io/canon.go:21-36 -/
def canonResourceDrop (info : RTInfo) (inst : InstId) (rt : RT) (i : U32) : SM World Unit := do
  let h ← remove inst rt i
  let w ← SM.get
  if !(w.elems h).own then pure ()
  else
    match info.impl rt with
    | none => SM.crash
    | some impl =>
      if inst ≠ impl ∧ w.mayEnter impl = false then SM.fail
      else if info.hasDtor rt then SM.modify fun w => { w with dtors := (rt, (w.elems h).rep) :: w.dtors }
      else pure ()

end Verif.Handles
