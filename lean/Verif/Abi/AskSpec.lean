import Verif.Abi.LoadSpec
import Mathlib.Data.List.Forall2

/-!
# What the guest's allocator is asked for

`Asks enc t v as` lists the blocks that a value of the type needs apart from its own bytes: one for every string and one
for every list, from left to right, the block of a list before the blocks of its elements.
-/

namespace Verif.Abi.Spec

/-- A request to the allocator. -/
structure Ask where
  align : Nat
  size : Nat
  deriving DecidableEq, Repr

/-- The bytes of one code unit of the string in the encoding. -/
def stringUnit (enc : String) (s : String) : Nat :=
  if enc = "utf-8" ∨ enc = "latin1" ∨ (enc = "latin1+utf16" ∧ ∀ c ∈ s.toList, c.toNat < 256) then 1 else 2

mutual
/-- The blocks a value of the type needs, from left to right. -/
def Asks (enc : String) : Ty → Val → List Ask → Prop
  | .string, v, as => ∃ s, v = .str s ∧ as = [⟨stringAlign enc, codeUnits enc s * stringUnit enc s⟩]
  | .list t, v, as => ∃ vs ass, v = .list vs ∧ List.Forall₂ (fun x a => Asks enc t x a) vs ass ∧
      as = ⟨align t, vs.length * size t⟩ :: ass.flatten
  | .record fs, v, as => ∃ m, v = .map m ∧ AsksFields enc fs m as
  | .variant cs, v, as => ∃ key p i, v = .map [(key, p)] ∧ Selects cs key i ∧ AsksPayload enc cs i p as
  | _, _, as => as = []
/-- The blocks the fields of a record need. -/
def AsksFields (enc : String) : Fields → List (String × Val) → List Ask → Prop
  | .nil, _, as => as = []
  | .cons l t fs, m, as => ∃ a b, Asks enc t (mapGet m l) a ∧ AsksFields enc fs m b ∧ as = a ++ b
/-- The blocks the payload of case `i` needs. -/
def AsksPayload (enc : String) : Cases → Nat → Val → List Ask → Prop
  | .nil, _, _, _ => False
  | .cons _ t _ _, 0, p, as => (t = .nil ∧ as = []) ∨ (t ≠ .nil ∧ Asks enc t p as)
  | .cons _ _ _ cs, i + 1, p, as => AsksPayload enc cs i p as
end

/-- The blocks of several values, from left to right. -/
inductive AsksEach (enc : String) : List Ty → List Val → List Ask → Prop where
  | nil : AsksEach enc [] [] []
  | cons {t : Ty} {v : Val} {as bs : List Ask} {ts : List Ty} {vs : List Val} :
      Asks enc t v as → AsksEach enc ts vs bs → AsksEach enc (t :: ts) (v :: vs) (as ++ bs)

/-- The guest's allocator remembers what it was asked for: `log` reads that from its state. What it answers, and what
else it does, is left open. -/
def Remembers {σ : Type} (E : Env σ) (log : σ → List Ask) : Prop :=
  ∀ a n m h, log (E.realloc a n (m, h)).2.2 = log h ++ [⟨a.toNat, n.toNat⟩]

/-- While the call ran, the allocator was asked for the blocks `as`, in this order and for nothing else; if the call did
not succeed, perhaps only for the first of them. -/
def Asked {σ α : Type} (log : σ → List Ask) (as : List Ask) (h : σ) (r : Res α) (h' : σ) : Prop :=
  ∃ l, log h' = log h ++ l ∧ l <+: as ∧ ((∃ a, r = .ok a) → l = as)

end Verif.Abi.Spec
