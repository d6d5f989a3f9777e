import Verif.Wast.Parse
import Verif.Wat.Grammar

/-!
# A grammar of WAST scripts

For every script the sequences of tokens it can be written as. It is the grammar of what the parser of this repository
accepts, which is more and less than WAST: see the comments. Modules and components are those of the grammar of WAT.
-/

namespace Verif.Wast.Spec

open Verif.Wat Verif.Wat.Spec

/-- A constant without its parentheses. Liberties of the parser: `f64.const` without a number is 0, and `ref.null` and
`ref.extern` have nothing after them and leave nothing in the tree. -/
def const (lib : Lib) : Option Const → Lang
  | some (.i32 v) => word (txt "i32.const") ⬝ int32 v
  | some (.i64 v) => word (txt "i64.const") ⬝ int64 v
  | some (.f32 v) => word (txt "f32.const") ⬝ float32 lib v
  | some (.f64 v) => word (txt "f64.const") ⬝ (float64 lib v ∣∣ only (v = 0))
  | none => word (txt "ref.null") ∣∣ word (txt "ref.extern")

/-- Results. Lack of the parser: after `(ref.null` and `(ref.extern` there is no closing parenthesis. -/
inductive IsResults (lib : Lib) : List Const → List Sig → Prop
  | nil : IsResults lib [] []
  | const {c : Const} {cs : List Const} {ts us : List Sig} :
    par (const lib (some c)) ts → IsResults lib cs us → IsResults lib (c :: cs) (ts ++ us)
  | ref {cs : List Const} {ts us : List Sig} : const lib none ts → IsResults lib cs us → IsResults lib cs (lp :: (ts ++ us))

/-- An action. Lack of the parser: there is no `get`. Liberty of the parser: any other word is an action that does nothing. -/
def action (lib : Lib) : Option Invoke → Lang
  | some i => par (word (txt "invoke") ⬝ optIdent i.name ⬝ str i.string ⬝ many (fun c => par (const lib c)) i.const)
  | none => par fun ts => ∃ w, w ≠ txt "invoke" ∧ w ≠ txt "get" ∧ ts = [kw w]

/-- A module or component, or the text of one. -/
def quoteWat (lib : Lib) : QuoteWat → Lang
  | .wat d => Wat.Spec.directive lib d
  | .quoteModule s => par (tok ⟨.module, txt "module"⟩ ⬝ word (txt "quote") ⬝ str s)
  | .quoteComponent s => par (tok ⟨.component, txt "component"⟩ ⬝ word (txt "quote") ⬝ str s)

/-- A directive. -/
def directive (lib : Lib) : Directive → Lang
  | .wat q => quoteWat lib q
  | .assertReturn a rs => par (word (txt "assert_return") ⬝ action lib a ⬝ IsResults lib rs)
  | .assertInvalid q s => par (word (txt "assert_invalid") ⬝ quoteWat lib q ⬝ str s)
  | .assertMalformed q s => par (word (txt "assert_malformed") ⬝ quoteWat lib q ⬝ str s)
  | .assertTrap a s => par (word (txt "assert_trap") ⬝ action lib a ⬝ str s)

/-- A script: one directive after the other. -/
def script (lib : Lib) (ds : List Directive) : Lang := many (directive lib) ds

end Verif.Wast.Spec
