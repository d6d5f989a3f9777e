import Verif.Abi.Store

/-!
# Model of `StoreStringCopy` and `StoreUtf8ToUtf16`

The two functions are exported; nothing in the repository calls them.
-/

namespace Verif.Abi
open Encoding

variable {σ : Type}

/-- `types.MaxStringByteLength`.
-- models abi/types/string.go:4 -/
def maxStringByteLength : U32 := 0x7FFFFFFF

/-- `StoreStringCopy`. The encoder is one of the library's. `copy` stops at the end of the shorter slice.
-- models abi/io/store.go:291-321 -/
def storeStringCopy (E : Env σ) (src : String) (srcCodeUnits dstCodeUnitSize dstAlignment : U32) (enc : TextEnc) :
    SM (St σ) (U32 × U32) := do
  let n := dstCodeUnitSize * srcCodeUnits
  if n.toNat > maxStringByteLength.toNat then SM.fail
  else do
    let ptr ← alloc E dstAlignment n
    if ptr ≠ alignTo ptr dstAlignment then SM.fail
    else do
      let st ← SM.get
      if (ptr + n).toNat > st.mem.len32.toNat then SM.fail
      else do
        let bs ← SM.lift (enc.encode src)
        SM.lift (st.mem.slice ptr (ptr + n))
        writeAt ptr (bs.take n.toNat)
        pure (ptr, srcCodeUnits)

/-- How `Realloc(ptr, oldSize, alignment, newSize)` changes a block. -/
abbrev Resize (σ : Type) := U32 → U32 → U32 → U32 → Mem × σ → Res U32 × (Mem × σ)

/-- `cx.Options.Realloc(ptr, old, alignment, size)` of a block.
-- models the call at abi/io/store.go:360 -/
def resize (Z : Resize σ) (p old a n : U32) : SM (St σ) U32 := fun s =>
  ((Z p old a n (s.mem, s.heap)).1,
    { s with mem := (Z p old a n (s.mem, s.heap)).2.1, heap := (Z p old a n (s.mem, s.heap)).2.2 })

/-- `StoreUtf8ToUtf16`. `Z` is how the guest's `Realloc` answers for a block it has handed out.
-- models abi/io/store.go:323-378 -/
def storeUtf8ToUtf16 (E : Env σ) (Z : Resize σ) (src : String) (srcCodeUnits : U32) : SM (St σ) (U32 × U32) := do
  let worst := 2 * srcCodeUnits
  if worst.toNat > maxStringByteLength.toNat then SM.fail
  else do
    let ptr ← alloc E 2 worst
    if ptr ≠ alignTo ptr 2 then SM.fail
    else do
      let st ← SM.get
      if (ptr + worst).toNat > st.mem.len32.toNat then SM.fail
      else do
        let bs ← SM.lift ((TextEnc.utf16 false).encode src)
        let n := BitVec.ofNat 32 bs.length
        let hi := ptr + n
        SM.lift (st.mem.slice ptr hi)
        writeAt ptr (bs.take (hi - ptr).toNat)
        if bs.length < worst.toNat then do
          let ptr' ← resize Z ptr worst 2 n
          if ptr' ≠ alignTo ptr' 2 then SM.fail
          else do
            let st' ← SM.get
            if hi.toNat > st'.mem.len32.toNat then SM.fail
            else pure (ptr', BitVec.ofNat 32 (bs.length / 2))
        else pure (ptr, BitVec.ofNat 32 (bs.length / 2))

end Verif.Abi
