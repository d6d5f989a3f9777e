import Verif.Handles.Spec

/-!
# What handles mean when calls are used in any way

The specification `State` of `Verif.Handles.Spec` says what handles mean while no call is used after its end.
This one says it for every history: handles are numbered in the order in which they are made, and the books say
which handle each index stands for and how many loans of it are open. `ExitCall` gives back every loan the call
has ever taken, also when it has given them back before; that is what the code does, and for calls that end once it
is what `State` says. As there, slots, free lists and elements are not mentioned.
-/

namespace Verif.Handles
open Verif.Abi (RT)

/-- The books: which handle an index stands for, what each handle is, how many there are, the loans taken less those
given back, the loans each call has taken, the borrowed handles of each call that are in a table, and which
instances may be entered. -/
structure Ledger where
  stands : Loc → Option Nat
  handle : Nat → Handle
  count : Nat
  loans : Nat → Int
  taken : CtxId → List Nat
  held : CtxId → Int
  mayEnter : InstId → Bool

/-- Nothing exists yet. -/
def Ledger.init : Ledger := ⟨fun _ => none, fun _ => ⟨0, false, none⟩, 0, fun _ => 0, fun _ => [], fun _ => 0, fun _ => true⟩

/-- One borrowed handle of the call more or less. -/
def Ledger.hold (g : Ledger) (scope : Option CtxId) (k : Int) : Ledger :=
  match scope with
  | some c => { g with held := upd g.held c (g.held c + k) }
  | none => g

/-- A handle is made; the index returned stands for it. -/
def Ledger.made (g : Ledger) (inst : InstId) (rt : RT) (h : Handle) (r : Res U32) : Ledger :=
  let g' := { g with handle := upd g.handle g.count h, count := g.count + 1, loans := upd g.loans g.count 0 }
  match r with
  | .ok i => { g' with stands := upd g.stands ⟨inst, rt, i⟩ (some g.count) }.hold h.scope 1
  | _ => g'

/-- The handle at a place is taken out if it has no open loans. -/
def Ledger.removed (g : Ledger) (l : Loc) : Ledger :=
  match g.stands l with
  | some n => if g.loans n = 0 then { g with stands := upd g.stands l none }.hold (g.handle n).scope (-1) else g
  | none => g

/-- The books after an operation with a given result. -/
def Ledger.next (info : RTInfo) (g : Ledger) : Op → Res U32 → Ledger
  | .new inst rt rep, r => g.made inst rt ⟨rep, true, none⟩ r
  | .lowerOwn inst rt rep, r => g.made inst rt ⟨rep, true, none⟩ r
  | .lowerBorrow inst cx rt rep, r =>
    if info.impl rt = some inst then g else g.made inst rt ⟨rep, false, some cx⟩ r
  | .rep _ _ _, _ => g
  | .drop inst rt i, _ => g.removed ⟨inst, rt, i⟩
  | .liftOwn inst rt i, _ => g.removed ⟨inst, rt, i⟩
  | .liftBorrow inst cx rt i, _ =>
    match g.stands ⟨inst, rt, i⟩ with
    | some n => { g with loans := upd g.loans n (g.loans n + 1), taken := upd g.taken cx (g.taken cx ++ [n]) }
    | none => g
  | .exit cx, _ => if g.held cx = 0 then { g with loans := fun n => g.loans n - (g.taken cx).count n } else g
  | .flag inst b, _ => { g with mayEnter := upd g.mayEnter inst b }

/-- Adding a handle returns an index that stands for nothing (or an error). -/
def Ledger.AddAllowed (g : Ledger) (inst : InstId) (rt : RT) (r : Res U32) : Prop :=
  r = .err ∨ ∃ i, r = .ok i ∧ g.stands ⟨inst, rt, i⟩ = none

/-- The results an operation may have, and the destructor calls it makes. -/
def Ledger.Allowed (info : RTInfo) (g : Ledger) (calls : List (RT × U32)) : Op → Res U32 → Prop
  | .new inst rt _, r => calls = [] ∧ g.AddAllowed inst rt r
  | .lowerOwn inst rt _, r => calls = [] ∧ g.AddAllowed inst rt r
  | .lowerBorrow inst _ rt rep, r =>
    calls = [] ∧ if info.impl rt = some inst then r = .ok rep else g.AddAllowed inst rt r
  | .rep inst rt i, r =>
    calls = [] ∧ r = match g.stands ⟨inst, rt, i⟩ with | some n => .ok (g.handle n).rep | none => .err
  | .liftBorrow inst _ rt i, r =>
    calls = [] ∧ r = match g.stands ⟨inst, rt, i⟩ with | some n => .ok (g.handle n).rep | none => .err
  | .liftOwn inst rt i, r =>
    calls = [] ∧ r = match g.stands ⟨inst, rt, i⟩ with
      | some n => if g.loans n = 0 then .ok (g.handle n).rep else .err
      | none => .err
  | .drop inst rt i, r =>
    match g.stands ⟨inst, rt, i⟩ with
    | none => r = .err ∧ calls = []
    | some n =>
      if g.loans n ≠ 0 then r = .err ∧ calls = []
      else if (g.handle n).own = false then r = .ok 0 ∧ calls = []
      else match info.impl rt with
        | none => r = .panic ∧ calls = []
        | some impl =>
          if inst ≠ impl ∧ g.mayEnter impl = false then r = .err ∧ calls = []
          else r = .ok 0 ∧ calls = if info.hasDtor rt then [(rt, (g.handle n).rep)] else []
  | .exit cx, r => calls = [] ∧ r = if g.held cx = 0 then .ok 0 else .err
  | .flag _ _, r => calls = [] ∧ r = .ok 0

/-- The books after a history of the model. -/
def booksFrom (info : RTInfo) (w : World) (g : Ledger) : List Op → Ledger
  | [] => g
  | op :: ops => booksFrom info (step info w op).2 (g.next info op (step info w op).1) ops

/-- The books after a history that starts with nothing. -/
def Ledger.after (info : RTInfo) (ops : List Op) : Ledger := booksFrom info .init .init ops

end Verif.Handles
