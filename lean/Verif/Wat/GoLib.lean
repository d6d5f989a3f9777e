import Verif.Wat.Parse
import Verif.Go.Float

/-!
# The library calls of the WAT parser
-/

namespace Verif.Wat

open Ieee

/-- The calls into Go's standard library that the parser makes for floating point constants. `ParseFloat` is called with 32
bits for both types; its result, a `float64`, is turned into a `float32` for `f32.const`, which loses nothing.
-- models wat/parse/parser.go:435, 446, 865-866, 879-880 -/
def goLib : Lib where
  parseFloat32 s := do
    let b ← Strconv.parseFloat single s
    .ok (BitVec.ofNat 32 b)
  parseFloat64 s := do
    let b ← Strconv.parseFloat single s
    .ok (BitVec.ofNat 64 (Strconv.widen b))
  float32OfInt i := BitVec.ofNat 32 (Strconv.ofInt single i.toInt)
  float64OfInt i := BitVec.ofNat 64 (Strconv.ofInt double i.toInt)

end Verif.Wat
