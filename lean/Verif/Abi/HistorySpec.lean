import Verif.Abi.ConfineSpec
import Verif.Handles.HistorySpec

/-!
# Calls as histories of operations on handles
-/

namespace Verif.Abi.Spec
open Handles

variable {σ : Type}

/-- The ways in which values that carry handles are taken from the instance of `E` in the call of `E`. -/
def LiftsFor (E : Env σ) (op : Op) : Prop :=
  ∃ rt i, op = .liftOwn E.inst rt i ∨ op = .liftBorrow E.inst E.cx rt i

/-- The ways in which values that carry handles are given to the instance of `E` in the call of `E`. -/
def LowersFor (E : Env σ) (op : Op) : Prop :=
  ∃ rt rep, op = .lowerOwn E.inst rt rep ∨ op = .lowerBorrow E.inst E.cx rt rep

/-- Whatever the outcome, what happened to the handles is a sequence of operations out of `L`, and nothing else. -/
def HandledBy (info : RTInfo) (L : Op → Prop) (w w' : World) : Prop := ∃ ops, (∀ op ∈ ops, L op) ∧ w' = w.then info ops

/-- First operations of the first kind, then of the second, and so on; there may be none of a kind. -/
def InTurn : List (Op → Prop) → List Op → Prop
  | [], ops => ops = []
  | L :: Ls, ops => ∃ a b, ops = a ++ b ∧ (∀ op ∈ a, L op) ∧ InTurn Ls b

/-- Started when nothing has been done in the calls `N`, and whatever the outcome, all that happens to the handles is a
sequence of operations of the kinds `Ls`, one kind after the other, none of which uses a call after its end. -/
def Operates (info : RTInfo) (N : CtxId → Prop) (Ls : List (Op → Prop)) {α : Type} (m : SM (Sys σ) α) : Prop :=
  ∀ s, (∀ c, N c → s.world.Fresh c) → ∃ ops, InTurn Ls ops ∧ NoneAfterExit ops ∧
    SameHandles (s.world.then info ops) (m s).2.world

/-- A call between components, and what the code it runs does: `acts` are the operations on handles it may perform, and
`own` the calls it makes in turn. -/
structure Job (σ : Type) where
  call : CompCall σ
  own : CtxId → Prop
  acts : Op → Prop

/-- The calls that are made. -/
def Job.Makes (j : Job σ) (c : CtxId) : Prop := c = j.call.A.E.cx ∨ c = j.call.B.E.cx ∨ j.own c

/-- What may be seen to happen to handles while the call is made: the arguments are taken from the caller and given to the
called side, the code does what it does, the results are taken from the called side and given to the caller, the
post-return function does what it does, the called side's end, the caller's end, and the caller can be entered again. -/
def Job.phases (j : Job σ) : List (Op → Prop) :=
  [LiftsFor j.call.A.E, LowersFor j.call.B.E, j.acts, LiftsFor j.call.B.E, LowersFor j.call.A.E,
    (fun op => j.acts op ∧ op.ctx = none), (· = .exit j.call.B.E.cx), (· = .exit j.call.A.E.cx),
    fun op => j.call.imp = true ∧ op = .flag j.call.A.E.inst true]

/-- The calls made are different ones, and the code does what it is said to. -/
structure Job.Sound (info : RTInfo) (j : Job σ) : Prop where
  infoA : j.call.A.E.info = info
  infoB : j.call.B.E.info = info
  sides : j.call.A.E.cx ≠ j.call.B.E.cx
  ownA : ¬ j.own j.call.A.E.cx
  ownB : ¬ j.own j.call.B.E.cx
  actsOwn : ∀ op c, j.acts op → op.ctx = some c → j.own c
  code : ∀ fs, Operates info j.own [j.acts] (j.call.f fs)
  post : ∀ p, j.call.B.post = some p → Operates info (fun _ => False) [fun op => j.acts op ∧ op.ctx = none] p

end Verif.Abi.Spec
