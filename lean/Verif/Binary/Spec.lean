import Verif.Binary.Model
import Verif.Leb128.Spec

/-!
# The binary grammar

What a byte string has to look like to be a given module, after the binary format chapter of the WebAssembly
specification, independent of the reader. `num n bs` says that `bs` is an encoding of the number `n`; the grammar is
used once with the numbers of the standard and once with every byte string the LEB128 decoder takes.
-/

namespace Verif.Binary

/-- Any base-128 number, however long, taken modulo 2^32. -/
def AnyNum (n : U32) (bs : List Byte) : Prop := Leb128.Delimited bs ∧ BitVec.ofNat 32 (Leb128.denotes bs) = n

/-- `u32` in the standard: at most five bytes denoting the number. -/
def StdNum (n : U32) (bs : List Byte) : Prop := Leb128.Delimited bs ∧ bs.length ≤ 5 ∧ Leb128.denotes bs = n.toNat

/-- A concatenation of encodings. -/
inductive Seq {α : Type} (G : α → List Byte → Prop) : List α → List Byte → Prop
  | nil : Seq G [] []
  | cons {x xs u v} : G x u → Seq G xs v → Seq G (x :: xs) (u ++ v)

section
variable (num : U32 → List Byte → Prop)

/-- `vec(B)`: the number of elements and the elements. -/
def Vec {α : Type} (G : α → List Byte → Prop) (xs : List α) (bs : List Byte) : Prop :=
  ∃ n c body, num n c ∧ n.toNat = xs.length ∧ Seq G xs body ∧ bs = c ++ body

/-- `name`: a vector of bytes. -/
def Name (name bs : List Byte) : Prop := ∃ n c, num n c ∧ n.toNat = name.length ∧ bs = c ++ name

/-- `valtype`. -/
def IsValType : ValType → List Byte → Prop
  | .i32, bs => bs = [0x7f]
  | .i64, bs => bs = [0x7e]
  | .f32, bs => bs = [0x7d]
  | .f64, bs => bs = [0x7c]

/-- `functype`. -/
def IsFuncType (t : FuncType) (bs : List Byte) : Prop :=
  ∃ a b, Vec num IsValType t.params a ∧ Vec num IsValType t.results b ∧ bs = 0x60 :: (a ++ b)

/-- `export` of a function. -/
def IsExport (e : Export) (bs : List Byte) : Prop :=
  ∃ a b, Name num e.name a ∧ num e.func b ∧ bs = a ++ 0x00 :: b

/-- `instr`. -/
def IsInstr : Instr → List Byte → Prop
  | .end_, bs => bs = [0x0b]
  | .i32Add, bs => bs = [0x6a]
  | .localGet i, bs => ∃ a, num i a ∧ bs = 0x20 :: a

/-- `expr`: instructions and a closing `end`, which belongs to the list. -/
def IsExpr (is : List Instr) (bs : List Byte) : Prop :=
  Seq (IsInstr num) is bs ∧ ∃ body, is = body ++ [.end_] ∧ .end_ ∉ body

end

/-! ## What the reader takes -/

/-- A section as the reader takes it. A function has the locals and instructions of its code entry. -/
inductive Sec where
  | types (ts : List FuncType)
  | funcs (is : List U32)
  | exports (es : List Export)
  | code (cs : List (List ValType × List Instr))
  | other (id : Byte) (payload : List Byte)

/-- A code entry as the reader takes it: a number, a vector of value types, an expression. -/
def TakenCode (c : List ValType × List Instr) (bs : List Byte) : Prop :=
  ∃ n s a b, AnyNum n s ∧ Vec AnyNum IsValType c.1 a ∧ IsExpr AnyNum c.2 b ∧ bs = s ++ (a ++ b)

/-- A section as the reader takes it: the size of a known section may be any number. -/
def TakenSec : Sec → List Byte → Prop
  | .types ts, bs => ∃ n s b, AnyNum n s ∧ Vec AnyNum (IsFuncType AnyNum) ts b ∧ bs = 0x01 :: (s ++ b)
  | .funcs is, bs => ∃ n s b, AnyNum n s ∧ Vec AnyNum AnyNum is b ∧ bs = 0x03 :: (s ++ b)
  | .exports es, bs => ∃ n s b, AnyNum n s ∧ Vec AnyNum (IsExport AnyNum) es b ∧ bs = 0x07 :: (s ++ b)
  | .code cs, bs => ∃ n s b, AnyNum n s ∧ Vec AnyNum TakenCode cs b ∧ bs = 0x0a :: (s ++ b)
  | .other id p, bs =>
    (id ≠ 0x01 ∧ id ≠ 0x03 ∧ id ≠ 0x07 ∧ id ≠ 0x0a) ∧ ∃ n s, AnyNum n s ∧ n.toNat = p.length ∧ bs = id :: (s ++ p)

/-- Code entries put into functions, the first entry into the first function and so on. -/
def fill : List Func → List (List ValType × List Instr) → List Func
  | fs, [] => fs
  | [], _ :: _ => []
  | f :: fs, c :: cs => { f with locals := c.1, body := some c.2 } :: fill fs cs

/-- The module after a section: a later section of a kind replaces an earlier one; code for functions that are not
there is refused. -/
def Sec.run (m : Module) : Sec → Option Module
  | .types ts => some { m with types := ts }
  | .funcs is => some { m with funcs := is.map fun i => ⟨i, [], none⟩ }
  | .exports es => some { m with exports := es }
  | .code cs => if cs.length ≤ m.funcs.length then some { m with funcs := fill m.funcs cs } else none
  | .other _ _ => some m

/-- The module after some sections. -/
def runAll (m : Module) : List Sec → Option Module
  | [] => some m
  | s :: ss => s.run m >>= fun m => runAll m ss

/-! ## The standard -/

/-- A function of a standard module: type index, groups of locals, instructions without the closing `end`. -/
structure StdFunc where
  type : U32
  locals : List (U32 × ValType)
  body : List Instr

/-- A module of the subset: types, functions and function exports. -/
structure StdModule where
  types : List FuncType
  funcs : List StdFunc
  exports : List Export

/-- A group of locals: how many, of which type. -/
def IsLocals (l : U32 × ValType) (bs : List Byte) : Prop := ∃ a b, StdNum l.1 a ∧ IsValType l.2 b ∧ bs = a ++ b

/-- `code`: the size in bytes, the groups of locals, the instructions. -/
def StdCode (f : StdFunc) (bs : List Byte) : Prop :=
  ∃ n s a b, StdNum n s ∧ n.toNat = (a ++ b).length ∧ Vec StdNum IsLocals f.locals a ∧
    IsExpr StdNum (f.body ++ [.end_]) b ∧ bs = s ++ (a ++ b)

/-- A section: its id, its size in bytes, its contents. -/
def StdSec (id : Byte) (contents : List Byte → Prop) (bs : List Byte) : Prop :=
  ∃ n s b, StdNum n s ∧ n.toNat = b.length ∧ contents b ∧ bs = id :: (s ++ b)

/-- A section that may be left out when it would have no elements. -/
def OptSec {α : Type} (id : Byte) (G : α → List Byte → Prop) (xs : List α) (bs : List Byte) : Prop :=
  (xs = [] ∧ bs = []) ∨ StdSec id (Vec StdNum G xs) bs

/-- Custom sections, any number of them. -/
def Customs (bs : List Byte) : Prop := ∃ ps : List (List Byte), Seq (fun p u => StdSec 0x00 (· = p) u) ps bs

/-- `module`: magic, version 1, then the sections in order with custom sections in between. -/
def StdBytes (m : StdModule) (bs : List Byte) : Prop :=
  ∃ c0 t c1 f c2 e c3 k c4, Customs c0 ∧ OptSec 0x01 (IsFuncType StdNum) m.types t ∧ Customs c1 ∧
    OptSec 0x03 StdNum (m.funcs.map StdFunc.type) f ∧ Customs c2 ∧ OptSec 0x07 (IsExport StdNum) m.exports e ∧
    Customs c3 ∧ OptSec 0x0a StdCode m.funcs k ∧ Customs c4 ∧
    bs = [0x00, 0x61, 0x73, 0x6d, 0x01, 0x00, 0x00, 0x00] ++ (c0 ++ (t ++ (c1 ++ (f ++ (c2 ++ (e ++ (c3 ++ (k ++ c4))))))))

/-- The module as the API shows it: the groups of locals written out, the `end` kept in the body. -/
def StdModule.shown (m : StdModule) : Module :=
  ⟨m.types,
   m.funcs.map fun f => ⟨f.type, f.locals.flatMap fun l => List.replicate l.1.toNat l.2, some (f.body ++ [.end_])⟩,
   m.exports⟩

end Verif.Binary
