import Verif.Wat.NumberLemmas
import Verif.Wat.GrammarProps

/-!
# Reading single items from a WAT text

The WAT parser exports, beside `Parse`, a reader for each kind of item, which the WAST parser and other callers use on
a lexer of their own.
-/

namespace Verif.Wat

open Spec

/-- `Unwrap` in a function that does not recover: an error becomes a panic.
-- models wat/parse/parser.go:762-763 -/
def unrecovered {S α : Type} (f : SM S α) : SM S α := fun s =>
  match f s with
  | (.err, s') => (.panic, s')
  | r => r

/-- `ParseString`. Unlike the other readers it does not recover.
-- models wat/parse/parser.go:758-768 -/
def parseStringItem {S : Type} (o : Ops S) : SM S (List Byte) := do
  let tok ← unrecovered o.next
  if tok.type ≠ .string then SM.fail else pure (trimQuotes tok.capture)

/-- The exported readers. -/
inductive Item
  | peek
  | string
  | int32
  | int64
  | float32
  | float64
  deriving DecidableEq, Repr

/-- What a reader returns. -/
inductive Got
  | token (t : Sig)
  | string (s : List Byte)
  | int32 (v : U32)
  | int64 (v : U64)
  | float32 (v : U32)
  | float64 (v : U64)
  deriving DecidableEq, Repr

/-- A call of `Peek`, `ParseString`, `ParseInt32`, `ParseInt64`, `ParseFloat32` or `ParseFloat64`.
-- models wat/parse/parser.go:23-25, 758-760, 770-772, 789-791, 814-816, 869-871 -/
def readItem {S : Type} (o : Ops S) (lib : Lib) : Item → SM S Got
  | .peek => do let t ← o.peek; pure (.token t)
  | .string => do let s ← parseStringItem o; pure (.string s)
  | .int32 => do let v ← parseInt32 o; pure (.int32 v)
  | .int64 => do let v ← parseInt64 o; pure (.int64 v)
  | .float32 => do let v ← parseFloat32 o lib; pure (.float32 v)
  | .float64 => do let v ← parseFloat64 o lib; pure (.float64 v)

/-- Calls one after another on one lexer, up to the first that does not return a value. -/
def readItems {S : Type} (o : Ops S) (lib : Lib) : List Item → S → List (Res Got)
  | [], _ => []
  | i :: is, s =>
    match readItem o lib i s with
    | (.ok g, s') => .ok g :: readItems o lib is s'
    | (r, _) => [r]

namespace Spec

/-- `s` is `w` without the quotes at its ends. -/
def Unquoted (w s : List Byte) : Prop :=
  ∃ i j, w = List.replicate i (ch '"') ++ (s ++ List.replicate j (ch '"')) ∧ s.head? ≠ some (ch '"') ∧ s.getLast? ≠ some (ch '"')

/-- What a reader makes of a token. -/
inductive Value (lib : Lib) : Item → Sig → Got → Prop
  | peek (t : Sig) : Value lib .peek t (.token t)
  | string (w s : List Byte) : Unquoted w s → Value lib .string ⟨.string, w⟩ (.string s)
  | int32 (w : List Byte) (i : Int) : ConstInt w i → Value lib .int32 ⟨.integer, w⟩ (.int32 (BitVec.ofInt 32 i))
  | int64 (w : List Byte) (i : Int) : ConstInt w i → Value lib .int64 ⟨.integer, w⟩ (.int64 (BitVec.ofInt 64 i))
  | float32 (w : List Byte) (v : BitVec 32) : ConstFloat32 (fun w v => lib.parseFloat32 w = .ok v) w v →
      Value lib .float32 ⟨.float, w⟩ (.float32 v)
  | float64 (w : List Byte) (v : BitVec 64) : lib.parseFloat64 w = .ok v → Value lib .float64 ⟨.float, w⟩ (.float64 v)

/-- The answers to calls on a text of which these tokens are left. They are followed by the end of the text if `ended`
and by something that is no token otherwise. -/
inductive Answers (lib : Lib) (ended : Bool) : List Item → List Sig → List (Res Got) → Prop
  | nil (ts : List Sig) : Answers lib ended [] ts []
  | peek (is : List Item) (t : Sig) (ts : List Sig) (rs : List (Res Got)) : Answers lib ended is (t :: ts) rs →
      Answers lib ended (.peek :: is) (t :: ts) (.ok (.token t) :: rs)
  | take (i : Item) (is : List Item) (t : Sig) (ts : List Sig) (g : Got) (rs : List (Res Got)) : i ≠ .peek → Value lib i t g →
      Answers lib ended is ts rs → Answers lib ended (i :: is) (t :: ts) (.ok g :: rs)
  | refuse (i : Item) (is : List Item) (t : Sig) (ts : List Sig) : (∀ g, ¬ Value lib i t g) → Answers lib ended (i :: is) (t :: ts) [.err]
  | peekEnd (is : List Item) (rs : List (Res Got)) : ended = true → Answers lib ended is [] rs →
      Answers lib ended (.peek :: is) [] (.ok (.token ⟨.endOfStream, []⟩) :: rs)
  | takeEnd (i : Item) (is : List Item) : ended = true → i ≠ .peek → Answers lib ended (i :: is) [] [.err]
  | noToken (i : Item) (is : List Item) : ended = false → i ≠ .string → Answers lib ended (i :: is) [] [.err]
  | noString (is : List Item) : ended = false → Answers lib ended (.string :: is) [] [.panic]

end Spec

end Verif.Wat
