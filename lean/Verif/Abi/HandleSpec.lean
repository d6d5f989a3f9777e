import Verif.Abi.ValueSpec
import Verif.Handles.Spec
import Mathlib.Data.List.Forall2

/-!
# The handles in a value, and what happens to them

`Carried t v hs` lists the handles a value has, from left to right. What lowering and lifting do to the tables is then
said in terms of the operations of `Handles.Op`, whose meaning is `Handles.State`.
-/

namespace Verif.Abi.Spec
open Verif.Handles (Op State Loc Handle)

/-- A handle in a value: owned or borrowed, its resource type and the representation of the resource. -/
structure Held where
  own : Bool
  rt : RT
  rep : U32
  deriving DecidableEq, Repr

mutual
/-- The handles in a value of a type, from left to right. -/
def Carried : Ty → Val → List Held → Prop
  | .own rt, v, hs => ∃ x, v = .u32 x ∧ hs = [⟨true, rt, x⟩]
  | .borrow rt, v, hs => ∃ x, v = .u32 x ∧ hs = [⟨false, rt, x⟩]
  | .list t, v, hs => ∃ vs hss, v = .list vs ∧ List.Forall₂ (fun x h => Carried t x h) vs hss ∧ hs = hss.flatten
  | .record fs, v, hs => ∃ m, v = .map m ∧ CarriedFields fs m hs
  | .variant cs, v, hs => ∃ key p i, v = .map [(key, p)] ∧ Selects cs key i ∧ CarriedPayload cs i p hs
  | _, _, hs => hs = []
/-- The handles in the fields of a record. -/
def CarriedFields : Fields → List (String × Val) → List Held → Prop
  | .nil, _, hs => hs = []
  | .cons l t fs, m, hs => ∃ a b, Carried t (mapGet m l) a ∧ CarriedFields fs m b ∧ hs = a ++ b
/-- The handles in the payload of case `i`. -/
def CarriedPayload : Cases → Nat → Val → List Held → Prop
  | .nil, _, _, _ => False
  | .cons _ t _ _, 0, p, hs => (t = .nil ∧ hs = []) ∨ (t ≠ .nil ∧ Carried t p hs)
  | .cons _ _ _ cs, i + 1, p, hs => CarriedPayload cs i p hs
end

/-- Giving a handle to the instance of `E`. -/
def lowerOp {σ : Type} (E : Env σ) (h : Held) : Op :=
  if h.own then .lowerOwn E.inst h.rt h.rep else .lowerBorrow E.inst E.cx h.rt h.rep

/-- Taking or lending the handle at index `i` from the instance of `E`. -/
def liftOp {σ : Type} (E : Env σ) (h : Held) (i : U32) : Op :=
  if h.own then .liftOwn E.inst h.rt i else .liftBorrow E.inst E.cx h.rt i

/-- Every handle is lowered once, in order, with success; the indices are those returned. -/
inductive Lowers {σ : Type} (E : Env σ) : Handles.World → List Held → List U32 → Handles.World → Prop where
  | nil (w) : Lowers E w [] [] w
  | cons {w w1 w2 : Handles.World} {h : Held} {i : U32} {hs : List Held} {is : List U32} :
      Handles.step E.info w (lowerOp E h) = (.ok i, w1) → Lowers E w1 hs is w2 → Lowers E w (h :: hs) (i :: is) w2

/-- Every handle is lifted once, in order, from the indices given, and the representation is what lifting returned. -/
inductive Lifts {σ : Type} (E : Env σ) : Handles.World → List Held → List U32 → Handles.World → Prop where
  | nil (w) : Lifts E w [] [] w
  | cons {w w1 w2 : Handles.World} {h : Held} {i : U32} {hs : List Held} {is : List U32} :
      Handles.step E.info w (liftOp E h i) = (.ok h.rep, w1) → Lifts E w1 hs is w2 → Lifts E w (h :: hs) (i :: is) w2

/-- Where the handle is in the instance of `E`. -/
def placeOf {σ : Type} (E : Env σ) (p : Held × U32) : Loc := ⟨E.inst, p.1.rt, p.2⟩

/-- What the handle is there: a borrowed one belongs to the call. -/
def handleOf {σ : Type} (E : Env σ) (h : Held) : Handle := ⟨h.rep, h.own, if h.own then none else some E.cx⟩

/-- The instance gets a handle: it is owned, or the instance does not implement the resource type (an instance that
does gets the representation itself for a borrow). -/
def Enters {σ : Type} (E : Env σ) (h : Held) : Prop := h.own = true ∨ E.info.impl h.rt ≠ some E.inst

/-- Between the two states the instance of `E` got the handles `hs`, at the indices `is`, and nothing else happened to
any handle: each place was free and now has the handle; only an instance that implements the resource type of a borrow
gets the representation instead. -/
structure Given {σ : Type} (E : Env σ) (hs : List Held) (is : List U32) (a a' : State) : Prop where
  length : is.length = hs.length
  new : ∀ p ∈ hs.zip is, Enters E p.1 → a.live (placeOf E p) = none ∧ a'.live (placeOf E p) = some (handleOf E p.1)
  rep : ∀ p ∈ hs.zip is, ¬ Enters E p.1 → p.2 = p.1.rep
  apart : (∀ h ∈ hs, Enters E h) → ((hs.zip is).map (placeOf E)).Nodup
  others : ∀ l, (∀ p ∈ hs.zip is, Enters E p.1 → placeOf E p ≠ l) → a'.live l = a.live l
  lends : a'.lends = a.lends

/-- Between the two states the handles `hs` were taken from the instance of `E`, where they had the indices `is`, and
nothing else happened to any handle: each was there, the owned ones are gone, the borrowed ones are still there and are
lent to the call. -/
structure Taken {σ : Type} (E : Env σ) (hs : List Held) (is : List U32) (a a' : State) : Prop where
  length : is.length = hs.length
  had : ∀ p ∈ hs.zip is, ∃ h, a.live (placeOf E p) = some h ∧ h.rep = p.1.rep
  gone : ∀ p ∈ hs.zip is, p.1.own = true → a'.live (placeOf E p) = none
  others : ∀ l, (∀ p ∈ hs.zip is, p.1.own = true → placeOf E p ≠ l) → a'.live l = a.live l
  lends : ∀ q, q ∈ a'.lends ↔ q ∈ a.lends ∨ ∃ p ∈ hs.zip is, p.1.own = false ∧ q = (E.cx, placeOf E p)

end Verif.Abi.Spec
