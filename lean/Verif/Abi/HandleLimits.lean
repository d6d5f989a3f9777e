import Verif.Abi.HandleProps

/-!
# C88 and C90 for types with repeated labels

The theorems of C88 and C90 ask for types whose record labels differ. The component model asks for that too, but the code
does not check it, and the statements are false without it.
-/

namespace Verif.Abi
open Verif.Handles (Op State World)

/-- A record of two owned handles under the same label. -/
def twice : VT := .record (.cons "a" (.own 0) (.cons "a" (.own 0) .nil))

/-- Instance 0, which has the handles, and instance 1. -/
def exGiver : Env Nat := bumpEnv "utf-8"
def exTaker : Env Nat := { bumpEnv "utf-8" with inst := 1, cx := 1 }

/-- Instance 0 has handles to the resources 5 and 6. -/
def twoHandles : List Op := [.new 0 0 5, .new 0 0 6]

/-- **C88 and C90, where they fail.** Both handles are taken out of the first instance, but the value has only the second
one; lowering the value gives the second instance two owned handles to the same resource, and nobody has the other. -/
theorem repeated_label_two_owners :
    let s : LSt Nat := ⟨{ bumpSt with world := World.after exGiver.info twoHandles }, newIterator [.u32 0, .u32 1]⟩
    let r := twice.lift exGiver s
    let u := twice.lower exTaker (.map [("a", .u32 6)]) r.2.st
    r.1 = .ok (.map [("a", .u32 6)]) ∧
    (Handles.step exGiver.info r.2.st.world (.rep 0 0 0)).1 = .err ∧
    (Handles.step exGiver.info r.2.st.world (.rep 0 0 1)).1 = .err ∧
    u.1 = .ok [.u32 0, .u32 1] ∧
    (Handles.step exTaker.info u.2.world (.liftOwn 1 0 0)).1 = .ok 6 ∧
    (Handles.step exTaker.info u.2.world (.liftOwn 1 0 1)).1 = .ok 6 :=
  ⟨rfl, rfl, rfl, rfl, rfl, rfl⟩

end Verif.Abi
