import Verif.Abi.Flat

/-!
# Model of `abi/io/canon_lift.go` and `abi/io/canon_lower.go`

A call between components involves two instances, each with its own memory and allocator, so the state here is a
family of memories together with the handles.
-/

namespace Verif.Abi

variable {σ : Type}

/-- The state of a system of components: the memories and allocators behind the canonical options, and the world of
handles and instances. -/
structure Sys (σ : Type) where
  mems : Nat → Mem
  heaps : Nat → σ
  world : Handles.World

/-- What a call under the options `o` sees of the system. -/
def Sys.view (s : Sys σ) (o : Nat) : St σ := ⟨s.mems o, s.heaps o, s.world⟩

/-- The system after such a call. -/
def Sys.put (s : Sys σ) (o : Nat) (t : St σ) : Sys σ := ⟨Handles.upd s.mems o t.mem, Handles.upd s.heaps o t.heap, t.world⟩

/-- Run a call under the options `o`. -/
def inMem {α : Type} (o : Nat) (m : SM (St σ) α) : SM (Sys σ) α := fun s => ((m (s.view o)).1, s.put o (m (s.view o)).2)

/-- Run a call under the options `o` with an iterator; the iterator it leaves is returned. -/
def withIter {α : Type} (o : Nat) (it : Iter) (m : SM (LSt σ) α) : SM (Sys σ) (α × Iter) := fun s =>
  match m ⟨s.view o, it⟩ with
  | (.ok a, t) => (.ok (a, t.it), s.put o t.st)
  | (.err, t) => (.err, s.put o t.st)
  | (.panic, t) => (.panic, s.put o t.st)
  | (.diverge, t) => (.diverge, s.put o t.st)

/-- An element of a `[]any` of core values: a `values.Value`, or a Go value of another type.
-- models the dynamic types in the slices of abi/io/canon_lift.go:51-57 and abi/io/canon_lower.go:78-87, 139 -/
inductive Core where
  | fv (x : FV)
  | raw (x : Val)

/-- `types.NewTuple(ts...)`, expanded.
-- models abi/types/tuple.go:20-24, abi/io/despecialize.go:11-19 -/
def fieldsFrom : Nat → List Ty → Fields
  | _, [] => .nil
  | i, t :: ts => .cons (toString i) t (fieldsFrom (i + 1) ts)

/-- The casting closure handed to `collections.Select`.
-- models abi/io/canon_lift.go:51-57, abi/io/canon_lower.go:33-39, internal/collections/select.go -/
def castValues : List Core → Res (List FV)
  | [] => .ok []
  | .fv x :: cs => do
    let xs ← castValues cs
    .ok (x :: xs)
  | .raw _ :: _ => .err

/-- `collections.Select(ts, liftFlat)`.
-- models abi/io/canon_lift.go:87-90, internal/collections/select.go -/
def liftEach (E : Env σ) : List Ty → SM (LSt σ) (List Val)
  | [] => pure []
  | t :: ts => do
    let v ← liftFlat E t
    let vs ← liftEach E ts
    pure (v :: vs)

/-- `LiftValues`. `ord` is the order in which Go happens to range over a map. Here and below the limits on flat values are
taken not to be negative (they are Go `int`s).
-- models abi/io/canon_lift.go:79-143 -/
def liftValues (E : Env σ) (ord : List (String × Val) → List (String × Val)) (maxFlat : Nat) (ts : List Ty) :
    SM (LSt σ) (List Val) := do
  let flat ← SM.lift (flattenTypes ts)
  if flat.length ≤ maxFlat then liftEach E ts
  else do
    let ptr ← nextU32
    let a ← SM.lift (alignment (.record (fieldsFrom 0 ts)))
    if ptr ≠ alignTo ptr a then SM.fail
    else do
      let n ← SM.lift (size (.record (fieldsFrom 0 ts)))
      let s ← SM.get
      if (ptr + n).toNat > s.st.mem.len32.toNat then SM.fail
      else do
        match ← onSt (load E (.record (fieldsFrom 0 ts)) ptr) with
        | .map m => pure ((ord m).map Prod.snd)
        | _ => SM.fail

/-- The loop of `LowerValues`; `ts[i]` panics when there are more values than types.
-- models abi/io/canon_lower.go:79-87 -/
def lowerEach (E : Env σ) : List Ty → List Val → SM (St σ) (List FV)
  | _, [] => pure []
  | [], _ :: _ => SM.crash
  | t :: ts, v :: vs => do
    let a ← lowerFlat E t v
    let b ← lowerEach E ts vs
    pure (a ++ b)

/-- Where the tuple is to go: asked from the guest's allocator, or read from the caller's iterator.
-- models abi/io/canon_lower.go:111-128 -/
def tuplePtr (E : Env σ) (o : Nat) (a n : U32) : Option Iter → SM (Sys σ) U32
  | none => inMem o (alloc E a n)
  | some it => do
    let r ← withIter o it nextU32
    pure r.1

/-- `LowerValuesToTuple`. The tuple value is built and then not stored, so that it is left out here; the pointer is returned as a plain `uint32`.
-- models abi/io/canon_lower.go:94-140 -/
def lowerTuple (E : Env σ) (o : Nat) (ts : List Ty) (out : Option Iter) : SM (Sys σ) (List Core) := do
  let a ← SM.lift (alignment (.record (fieldsFrom 0 ts)))
  let n ← SM.lift (size (.record (fieldsFrom 0 ts)))
  let ptr ← tuplePtr E o a n out
  if ptr ≠ alignTo ptr a then SM.fail
  else do
    let s ← SM.get
    if (ptr + n).toNat > (s.mems o).len32.toNat then SM.fail
    else pure [.raw (.u32 ptr)]

/-- `LowerValues`.
-- models abi/io/canon_lower.go:71-92 -/
def lowerValues (E : Env σ) (o : Nat) (maxFlat : Nat) (vs : List Val) (ts : List Ty) (out : Option Iter) :
    SM (Sys σ) (List Core) := do
  let flat ← SM.lift (flattenTypes ts)
  if flat.length ≤ maxFlat then do
    let fs ← inMem o (lowerEach E ts vs)
    pure (fs.map .fv)
  else lowerTuple E o ts out

/-- The canonical options, the instance and the new call context of one call: `E.inst`, `E.cx`; `post` is
`opts.PostReturn`, nil if absent. The context's number is chosen by the caller of the model (in Go it is a fresh pointer).
-- models abi/types/canonical_options.go:13-18 (the fields used), abi/io/canon_lift.go:27-30, abi/io/canon_lower.go:23-26 -/
structure Side (σ : Type) where
  E : Env σ
  o : Nat
  post : Option (SM (Sys σ) Unit)

/-- A new `CallContext`: no lenders, no borrows.
-- models abi/io/canon_lift.go:27-30, abi/io/canon_lower.go:23-26 -/
def newCtx (S : Side σ) : SM (Sys σ) Unit :=
  SM.modify fun s => { s with world := s.world.setCtx S.E.cx ⟨[], 0⟩ }

/-- `inst.MayLeave = b`. -/
def setLeave (S : Side σ) (b : Bool) : SM (Sys σ) Unit :=
  SM.modify fun s => { s with world := { s.world with mayLeave := Handles.upd s.world.mayLeave S.E.inst b } }

/-- `inst.MayEnter = b`. -/
def setEnter (S : Side σ) (b : Bool) : SM (Sys σ) Unit :=
  SM.modify fun s => { s with world := { s.world with mayEnter := Handles.upd s.world.mayEnter S.E.inst b } }

/-- `cx.ExitCall()` with its error dropped.
-- models abi/io/canon_lift.go:73, abi/io/canon_lower.go:63 -/
def exitIgnored (S : Side σ) : SM (Sys σ) Unit := fun s =>
  match Handles.exitCall S.E.cx s.world with
  | (.err, w) => (.ok (), { s with world := w })
  | (r, w) => (r, { s with world := w })

/-- The closure `postResult`.
-- models abi/io/canon_lift.go:67-74 -/
def postResult (S : Side σ) : SM (Sys σ) Unit :=
  match S.post with
  | some p => do p; exitIgnored S
  | none => exitIgnored S

/-- `CanonLift`. The callee may do anything to the system; `none` stands for a result that is not a `[]any`.
-- models abi/io/canon_lift.go:12-77 -/
def canonLift (S : Side σ) (ord : List (String × Val) → List (String × Val))
    (callee : List Core → SM (Sys σ) (Option (List Core))) (ft : FuncTy) (args : List Val)
    (maxParams maxResults : Nat) : SM (Sys σ) (List Val × Option (SM (Sys σ) Unit)) := do
  let s ← SM.get
  if s.world.mayEnter S.E.inst = false then SM.fail
  else if s.world.mayLeave S.E.inst = false then SM.fail
  else do
    newCtx S
    setLeave S false
    let flatArgs ← lowerValues S.E S.o maxParams args ft.params none
    setLeave S true
    match ← callee flatArgs with
    | none => SM.fail
    | some results => do
      let vs ← SM.lift (castValues results)
      let r ← withIter S.o (newIterator vs) (liftValues S.E ord maxResults ft.results)
      pure (r.1, some (postResult S))

/-- `CanonLower`. The callee may do anything to the system; the function it returns to be called afterwards is nil if
absent.
-- models abi/io/canon_lower.go:13-69 -/
def canonLower (S : Side σ) (ord : List (String × Val) → List (String × Val))
    (callee : List Val → SM (Sys σ) (List Val × Option (SM (Sys σ) Unit))) (callingImport : Bool) (ft : FuncTy)
    (flatArgs : List Core) (maxParams maxResults : Nat) : SM (Sys σ) (List Core) := do
  newCtx S
  let s ← SM.get
  if s.world.mayLeave S.E.inst = false then SM.fail
  else if s.world.mayEnter S.E.inst = false then SM.fail
  else do
    let vs ← SM.lift (castValues flatArgs)
    let args ← withIter S.o (newIterator vs) (liftValues S.E ord maxParams ft.params)
    let r ← callee args.1
    setLeave S false
    let flat ← lowerValues S.E S.o maxResults r.1 ft.results (some args.2)
    setLeave S true
    match r.2 with
    | none => SM.crash
    | some post => do
      post
      exitIgnored S
      if callingImport then setEnter S true else pure ()
      pure flat

end Verif.Abi
