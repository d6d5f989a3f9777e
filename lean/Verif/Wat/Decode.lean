import Verif.Wat.Parse

/-!
# Model of `wat/decoder.go`
-/

namespace Verif.Wat

/-- What a reader delivers to `io.ReadAll`: the bytes before its end, and whether it ends with an error other than the
end of file.
-- models the argument of `io.ReadAll` in wat/decoder.go:29; `io.ReadAll` is the library's -/
structure Source where
  bytes : List Byte
  fails : Bool

/-- `io.ReadAll`: all bytes, or the error of the reader.
-- models the call at wat/decoder.go:29-32 -/
def Source.readAll (r : Source) : Res (List Byte) := if r.fails then .err else .ok r.bytes

/-- `api.Module` as far as a text can describe it. The entries are those of the tree: the types of `api` say no more about
them. The elements, data, start, imports and exports, which `Decode` leaves zero too, are left out.
-- models api/directive.go:22-35 -/
structure ApiModule where
  types : List TypeDef
  funcs : List Function
  tables : List Table
  mems : List Memory
  globals : List Global

/-- `api.Directive` as `Decode` returns it: a module, or a component, which may be a nil pointer in the interface.
-- models api/directive.go:3-5, 35-39 -/
inductive ApiDirective where
  | module (m : ApiModule)
  | component (isNil : Bool)

/-- `decoder.component` always returns the nil pointer.
-- models wat/decoder.go:50-52 -/
def decodeComponent : Res ApiDirective := .ok (.component true)

/-- `decoder.module` always returns the zero module.
-- models wat/decoder.go:54-56 -/
def decodeModule (_ : Module) : Res ApiDirective := .ok (.module ⟨[], [], [], [], []⟩)

/-- `decoder.directive`. The last return is not reached: the parser makes no other directives.
-- models wat/decoder.go:40-48 -/
def decodeDirective : Directive → Res ApiDirective
  | .component => decodeComponent
  | .module m => decodeModule m

/-- `NewDecoder(own).Decode(reader)`, with a bound on loops and recursion of the parser. The reader given to `NewDecoder`
is kept and never read.
-- models wat/decoder.go:17-38 -/
def decode (lib : Lib) (n : Nat) (_own reader : Source) : Res ApiDirective := do
  let text ← reader.readAll
  let d ← parseText lib n text
  decodeDirective d

end Verif.Wat
