/-!
# Outcomes of Go calls

Shared vocabulary of the model. Nothing here models a particular Go function.
-/

namespace Verif

/-- A byte, Go's `byte`/`uint8`. -/
abbrev Byte := BitVec 8

/-- Go's `uint32`. -/
abbrev U32 := BitVec 32

/-- Go's `uint64`. -/
abbrev U64 := BitVec 64

/-- The outcome of a Go call: a result, a returned `error` (the message is not modelled), a run-time
panic (index or slice bounds out of range, failed type assertion, call of a nil function), or a loop that
never ends. -/
inductive Res (α : Type) where
  | ok (a : α)
  | err
  | panic
  | diverge
  deriving DecidableEq, Repr

namespace Res

/-- Sequencing: `if err != nil { return err }`. -/
@[inline] def bind {α β : Type} : Res α → (α → Res β) → Res β
  | ok a, f => f a
  | err, _ => err
  | panic, _ => panic
  | diverge, _ => diverge

/-- Apply a function to the result. -/
@[inline] def map {α β : Type} (f : α → β) : Res α → Res β
  | ok a => ok (f a)
  | err => err
  | panic => panic
  | diverge => diverge

instance : Monad Res where
  pure := ok
  bind := bind

@[simp] theorem bind_ok {α β : Type} (a : α) (f : α → Res β) : (ok a >>= f) = f a := rfl
@[simp] theorem bind_err {α β : Type} (f : α → Res β) : ((err : Res α) >>= f) = err := rfl
@[simp] theorem bind_panic {α β : Type} (f : α → Res β) : ((panic : Res α) >>= f) = panic := rfl
@[simp] theorem bind_diverge {α β : Type} (f : α → Res β) : ((diverge : Res α) >>= f) = diverge := rfl
@[simp] theorem pure_eq {α : Type} (a : α) : (pure a : Res α) = ok a := rfl

/-- A successful sequence splits into successful steps. -/
theorem bind_eq_ok {α β : Type} {r : Res α} {f : α → Res β} {b : β} :
    (r >>= f) = ok b ↔ ∃ a, r = ok a ∧ f a = ok b := by
  cases r <;> simp

theorem bind_ne_panic {α β : Type} {r : Res α} {f : α → Res β} :
    (r >>= f) ≠ panic ↔ r ≠ panic ∧ ∀ a, r = ok a → f a ≠ panic := by
  cases r <;> simp

/-- The call returned to its caller with a result or an error. -/
def Returns {α : Type} (r : Res α) : Prop := (∃ a, r = ok a) ∨ r = err

@[simp] theorem returns_ok {α : Type} (a : α) : Returns (ok a) := .inl ⟨a, rfl⟩
@[simp] theorem returns_err {α : Type} : Returns (err : Res α) := .inr rfl
@[simp] theorem not_returns_panic {α : Type} : ¬ Returns (panic : Res α) := by simp [Returns]
@[simp] theorem not_returns_diverge {α : Type} : ¬ Returns (diverge : Res α) := by simp [Returns]

end Res

end Verif
