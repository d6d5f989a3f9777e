import Verif.Go.Basic

/-!
# Go functions with side effects

A call maps the state before it to its outcome and the state after it. The state survives an error or a panic,
as it does in Go.
-/

namespace Verif

/-- A Go call working on a state of type `S`. -/
def SM (S α : Type) : Type := S → Res α × S

namespace SM
variable {S α β : Type}

/-- Sequencing; stops at the first call that does not succeed. -/
@[inline] def bind (m : SM S α) (f : α → SM S β) : SM S β := fun s =>
  match m s with
  | (.ok a, s') => f a s'
  | (.err, s') => (.err, s')
  | (.panic, s') => (.panic, s')
  | (.diverge, s') => (.diverge, s')

instance : Monad (SM S) where
  pure a := fun s => (.ok a, s)
  bind := bind

/-- Return an error. -/
def fail : SM S α := fun s => (.err, s)
/-- Panic. -/
def crash : SM S α := fun s => (.panic, s)
/-- Read the state. -/
def get : SM S S := fun s => (.ok s, s)
/-- Change the state. -/
def modify (f : S → S) : SM S Unit := fun s => (.ok (), f s)
/-- A call without side effects. -/
def lift (r : Res α) : SM S α := fun s => (r, s)

theorem bind_def (m : SM S α) (f : α → SM S β) (s : S) :
    (m >>= f) s = match m s with
      | (.ok a, s') => f a s'
      | (.err, s') => (.err, s')
      | (.panic, s') => (.panic, s')
      | (.diverge, s') => (.diverge, s') := rfl

@[simp] theorem pure_def (a : α) (s : S) : (pure a : SM S α) s = (.ok a, s) := rfl
@[simp] theorem fail_def (s : S) : (fail : SM S α) s = (.err, s) := rfl
@[simp] theorem crash_def (s : S) : (crash : SM S α) s = (.panic, s) := rfl
@[simp] theorem get_def (s : S) : (get : SM S S) s = (.ok s, s) := rfl
@[simp] theorem modify_def (f : S → S) (s : S) : (modify f : SM S Unit) s = (.ok (), f s) := rfl
@[simp] theorem lift_def (r : Res α) (s : S) : (lift r : SM S α) s = (r, s) := rfl

theorem bind_ok {m : SM S α} {f : α → SM S β} {s s' : S} {a : α} (h : m s = (.ok a, s')) :
    (m >>= f) s = f a s' := by rw [bind_def, h]
theorem bind_err {m : SM S α} {f : α → SM S β} {s s' : S} (h : m s = (.err, s')) :
    (m >>= f) s = (.err, s') := by rw [bind_def, h]
theorem bind_panic {m : SM S α} {f : α → SM S β} {s s' : S} (h : m s = (.panic, s')) :
    (m >>= f) s = (.panic, s') := by rw [bind_def, h]
theorem bind_diverge {m : SM S α} {f : α → SM S β} {s s' : S} (h : m s = (.diverge, s')) :
    (m >>= f) s = (.diverge, s') := by rw [bind_def, h]

@[simp] theorem ite_app (c : Prop) [Decidable c] (x y : SM S α) (s : S) :
    (if c then x else y : SM S α) s = if c then x s else y s := by split <;> rfl

theorem bind_get (f : S → SM S β) (s : S) : (get >>= f) s = f s s := rfl

/-- A successful sequence splits into successful steps. -/
theorem bind_eq_ok {m : SM S α} {f : α → SM S β} {s s' : S} {b : β} :
    (m >>= f) s = (.ok b, s') ↔ ∃ a s1, m s = (.ok a, s1) ∧ f a s1 = (.ok b, s') := by
  rw [bind_def]
  rcases h : m s with ⟨r, s1⟩
  cases r with
  | ok a =>
    constructor
    · intro e; exact ⟨a, s1, rfl, e⟩
    · rintro ⟨a', s2, e, e'⟩
      injection e with e1 e2
      injection e1 with e1
      subst e1; subst e2; exact e'
  | _ => simp

/-- Any property kept by both steps is kept by the sequence. -/
theorem bind_inv {m : SM S α} {f : α → SM S β} {s : S} (P : S → Prop) (h1 : P (m s).2)
    (h2 : ∀ a s1, m s = (.ok a, s1) → P s1 → P (f a s1).2) : P ((m >>= f) s).2 := by
  rw [bind_def]
  rcases h : m s with ⟨r, s1⟩
  rw [h] at h1
  cases r with
  | ok a => exact h2 a s1 h h1
  | _ => exact h1

end SM

end Verif
