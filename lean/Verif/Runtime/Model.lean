import Verif.Go.Basic
import Verif.Binary.Model

/-!
# Model of `runtime/instance.go`
-/

namespace Verif.Runtime

/-- `runtime.ExportInstance`; the value is a function address (the only external value modelled).
-- models runtime/instance.go:15-18 -/
structure ExportInstance where
  name : String
  value : U32
  deriving DecidableEq, Repr

/-- `api.Module` as far as `NewModuleInstance` could use it: the functions (pointers, of any type) and the exports
(name and function index).
-- models api/directive.go:22-35, 46-50, 56-67 -/
structure Module (φ : Type) where
  funcs : List φ
  exports : List (String × U32)

/-- `runtime.Store`; the other tables are not used.
-- models runtime/store.go:7-15 -/
structure Store (φ : Type) where
  funcs : List φ

/-- `runtime.ModuleInstance` without the pointer to the store.
-- models runtime/instance.go:8-13 -/
structure ModuleInstance where
  functionAddresses : List U32
  exports : List ExportInstance
  types : List Binary.FuncType

/-- The loop of `NewModuleInstance`. `address.Function` is a `uint32`, so the address wraps.
-- models runtime/instance.go:24-28, address/function.go:3 -/
def instantiateLoop {φ : Type} : List φ → Store φ → ModuleInstance → ModuleInstance × Store φ
  | [], st, mi => (mi, st)
  | fn :: fns, st, mi =>
    let funcAddr := st.funcs.length
    instantiateLoop fns { st with funcs := st.funcs ++ [fn] }
      { mi with functionAddresses := mi.functionAddresses ++ [BitVec.ofNat 32 funcAddr] }

/-- `NewModuleInstance`: the instance and the store after the call. It never returns an error.
-- models runtime/instance.go:20-30 -/
def newModuleInstance {φ : Type} (st : Store φ) (m : Module φ) : ModuleInstance × Store φ :=
  instantiateLoop m.funcs st ⟨[], [], []⟩

/-- `ModuleInstance.GetExport`; `none` is the false result.
-- models runtime/instance.go:32-39 -/
def getExport (mi : ModuleInstance) (name : String) : Option ExportInstance :=
  go mi.exports
where
  /-- The loop. -/
  go : List ExportInstance → Option ExportInstance
    | [] => none
    | e :: es => if e.name = name then some e else go es

end Verif.Runtime
