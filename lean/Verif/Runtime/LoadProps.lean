import Verif.Runtime.Props
import Verif.Binary.Props

/-!
# Property C94: from a binary to an instance
-/

namespace Verif.Runtime

/-- The module that was read, as `NewModuleInstance` gets it. The bytes of a name stand for the characters with those
numbers, so that equal names are equal bytes.
-- models the use of an `api.Module` made by binary/read.go in runtime/instance.go:20-30 -/
def ofBinary (m : Binary.Module) : Module Binary.Func :=
  ⟨m.funcs, m.exports.map fun e => (String.ofList (e.name.map fun b => Char.ofNat b.toNat), e.func)⟩

namespace Spec

/-- What is in a store for a function of a module: its type, the locals one by one, and its code up to the end. -/
def Holds (f : Binary.StdFunc) (x : Option Binary.Func) : Prop :=
  ∃ g, x = some g ∧ g.type = f.type ∧ g.locals = (f.locals.flatMap fun l => List.replicate l.1.toNat l.2) ∧
    g.body = some (f.body ++ [.end_])

/-- The signature of a function as the instance knows it. -/
def signature (mi : ModuleInstance) (f : Binary.StdFunc) : Option Binary.FuncType := mi.types[f.type.toNat]?

end Spec

open Spec

/-- **C94**, what holds of it: the standard bytes of a module without locals are read, and after instantiating what was
read the addresses of the instance are, in order, where its functions are in the store, also when other modules
are instantiated later. Missing: locals (C05), 2^32 functions and more (C57), and `loaded_is_not_callable`. -/
theorem load_standard_partial (m : Binary.StdModule) (bs : List Byte) (h : Binary.StdBytes m bs) (hl : ∀ f ∈ m.funcs, f.locals = [])
    (st : Store Binary.Func) (later : List (Module Binary.Func))
    (hs : st.funcs.length + m.funcs.length + (later.flatMap Module.funcs).length ≤ 2 ^ 32) :
    ∃ doc M, (Binary.read bs).1 = .ok doc ∧ doc.directive = .module M ∧
      (newModuleInstance st (ofBinary M)).1.functionAddresses.length = m.funcs.length ∧
      (∀ (i : Nat) f a, m.funcs[i]? = some f → (newModuleInstance st (ofBinary M)).1.functionAddresses[i]? = some a →
        Holds f (resolve (instantiateAll (newModuleInstance st (ofBinary M)).2 later).store a)) ∧
      (newModuleInstance st (ofBinary M)).1.functionAddresses.Nodup := by
  refine ⟨⟨1, 0, .module m.shown⟩, m.shown, by rw [Binary.standard_read_partial m bs h hl], rfl, ?_⟩
  rw [← and_assoc]
  constructor
  · have k := (instantiation_partial st (ofBinary m.shown :: later) (by
      simp only [List.flatMap_cons, List.length_append, ofBinary, Binary.StdModule.shown, List.length_map]; omega)).1
      ((newModuleInstance st (ofBinary m.shown)).1, (ofBinary m.shown).funcs) (List.mem_cons_self ..)
    have e : (instantiateAll st (ofBinary m.shown :: later)).store =
      (instantiateAll (newModuleInstance st (ofBinary m.shown)).2 later).store := rfl
    rw [e] at k
    have e2 : (ofBinary m.shown).funcs.map some = m.funcs.map fun f => some (⟨f.type,
        f.locals.flatMap fun l => List.replicate l.1.toNat l.2, some (f.body ++ [.end_])⟩ : Binary.Func) := by
      simp only [ofBinary, Binary.StdModule.shown, List.map_map]
      rfl
    rw [e2] at k
    generalize (newModuleInstance st (ofBinary m.shown)).1.functionAddresses = as at *
    constructor
    · simpa using congrArg List.length k
    · intro i f a hf ha
      have k := congrArg (fun l => l[i]?) k
      simp only [List.getElem?_map, hf, ha, Option.map_some, Option.some.injEq] at k
      exact ⟨_, k, rfl, rfl, rfl⟩
  · have k := (instantiation_partial st [ofBinary m.shown] (by
      simp only [List.flatMap_cons, List.flatMap_nil, List.length_append, ofBinary, Binary.StdModule.shown, List.length_map,
        List.length_nil]; omega)).2.1
    simpa [History.addresses, instantiateAll] using k

/-- **C94**, negatively: whatever was read, the instance finds none of its exports and knows the signature of none of its
functions. -/
theorem loaded_is_not_callable (M : Binary.Module) (st : Store Binary.Func) :
    (∀ name, getExport (newModuleInstance st (ofBinary M)).1 name = none) ∧
    ∀ f, signature (newModuleInstance st (ofBinary M)).1 f = none := by
  refine ⟨exports_never_found _ _, fun f => ?_⟩
  simp only [newModuleInstance, instantiateLoop_eq, signature]
  rfl

/-- The module of one exported function that adds, in a store that has a function already. -/
example : Binary.StdBytes Binary.addModule Binary.addBytes ∧ (∀ f ∈ Binary.addModule.funcs, f.locals = []) ∧
    Binary.addModule.funcs ≠ [] ∧ Binary.addModule.exports ≠ [] ∧
    (newModuleInstance ⟨[⟨0, [], none⟩]⟩ (ofBinary Binary.addModule.shown)).1.functionAddresses = [1] :=
  ⟨Binary.addBytes_std, by decide, by decide, by decide, by decide⟩

end Verif.Runtime
