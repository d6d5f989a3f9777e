import Verif.Wat.Stream

/-!
# The parser on a stream of tokens, step by step
-/

namespace Verif.Wat

/-- `(`. -/
def lp : Sig := ⟨.openParen, txt "("⟩
/-- `)`. -/
def rp : Sig := ⟨.closeParen, txt ")"⟩
/-- A word. -/
def kw (w : List Byte) : Sig := ⟨.reserved, w⟩

variable {α β : Type}

theorem next_cons (t : Sig) (ts : List Sig) (e : Bool) : streamOps.next ⟨t :: ts, e⟩ = (.ok t, ⟨ts, e⟩) := rfl
theorem peek_cons (t : Sig) (ts : List Sig) (e : Bool) : streamOps.peek ⟨t :: ts, e⟩ = (.ok t, ⟨t :: ts, e⟩) := rfl

theorem next_bind (g : Sig → SM Stream β) (t : Sig) (ts : List Sig) (e : Bool) :
    (streamOps.next >>= g) ⟨t :: ts, e⟩ = g t ⟨ts, e⟩ := rfl
theorem peek_bind (g : Sig → SM Stream β) (t : Sig) (ts : List Sig) (e : Bool) :
    (streamOps.peek >>= g) ⟨t :: ts, e⟩ = g t ⟨t :: ts, e⟩ := rfl

theorem expect_cons (t : Sig) (ts : List Sig) (e : Bool) : expect streamOps t.type ⟨t :: ts, e⟩ = (.ok (), ⟨ts, e⟩) := by
  unfold expect
  rw [next_bind, if_pos rfl]
  rfl

theorem expectWord_cons (w : List Byte) (ts : List Sig) (e : Bool) :
    expectWord streamOps w ⟨kw w :: ts, e⟩ = (.ok (), ⟨ts, e⟩) := by
  unfold expectWord
  rw [next_bind, if_neg (by simp [kw]), if_neg (by simp [kw])]
  rfl

theorem eat_cons (t : Sig) (ts : List Sig) (e : Bool) : eat streamOps t.type ⟨t :: ts, e⟩ = (.ok true, ⟨ts, e⟩) := by
  unfold eat
  rw [peek_bind, if_neg (by simp), SM.bind_ok (expect_cons t ts e)]
  rfl

theorem eat_not (t : Sig) (ts : List Sig) (e : Bool) (ty : TokenType) (h : t.type ≠ ty) :
    eat streamOps ty ⟨t :: ts, e⟩ = (.ok false, ⟨t :: ts, e⟩) := by
  unfold eat
  rw [peek_bind, if_pos h]
  rfl

theorem parseId_cons (w : List Byte) (ts : List Sig) (e : Bool) :
    parseId streamOps ⟨⟨.id, w⟩ :: ts, e⟩ = (.ok w, ⟨ts, e⟩) := by
  unfold parseId
  rw [next_bind, if_neg (by simp)]
  rfl

theorem parseOptionalId_some (w : List Byte) (ts : List Sig) (e : Bool) :
    parseOptionalId streamOps ⟨⟨.id, w⟩ :: ts, e⟩ = (.ok (some w), ⟨ts, e⟩) := by
  unfold parseOptionalId
  rw [peek_bind, if_pos rfl, SM.bind_ok (parseId_cons w ts e)]
  rfl

theorem parseOptionalId_none (t : Sig) (ts : List Sig) (e : Bool) (h : t.type ≠ .id) :
    parseOptionalId streamOps ⟨t :: ts, e⟩ = (.ok none, ⟨t :: ts, e⟩) := by
  unfold parseOptionalId
  rw [peek_bind, if_neg h]
  rfl

theorem parseString_cons (w : List Byte) (ts : List Sig) (e : Bool) :
    parseString streamOps ⟨⟨.string, w⟩ :: ts, e⟩ = (.ok (trimQuotes w), ⟨ts, e⟩) := by
  unfold parseString
  rw [next_bind, if_neg (by simp)]
  rfl

theorem parseInt32_cons (w : List Byte) (v : Int) (h : integerValue w = .ok v) (ts : List Sig) (e : Bool) :
    parseInt32 streamOps ⟨⟨.integer, w⟩ :: ts, e⟩ = (.ok (BitVec.ofInt 32 v), ⟨ts, e⟩) := by
  unfold parseInt32
  rw [next_bind, if_neg (by simp)]
  simp only [h]
  rfl

theorem parseInt32_err (w : List Byte) (h : integerValue w = .err) (ts : List Sig) (e : Bool) :
    parseInt32 streamOps ⟨⟨.integer, w⟩ :: ts, e⟩ = (.err, ⟨ts, e⟩) := by
  unfold parseInt32
  rw [next_bind, if_neg (by simp)]
  simp only [h]
  rfl

theorem parseInt64_cons (w : List Byte) (v : Int) (h : integerValue w = .ok v) (ts : List Sig) (e : Bool) :
    parseInt64 streamOps ⟨⟨.integer, w⟩ :: ts, e⟩ = (.ok (BitVec.ofInt 64 v), ⟨ts, e⟩) := by
  unfold parseInt64
  rw [next_bind, if_neg (by simp)]
  simp only [h]
  rfl

theorem parseInt64_err (w : List Byte) (h : integerValue w = .err) (ts : List Sig) (e : Bool) :
    parseInt64 streamOps ⟨⟨.integer, w⟩ :: ts, e⟩ = (.err, ⟨ts, e⟩) := by
  unfold parseInt64
  rw [next_bind, if_neg (by simp)]
  simp only [h]
  rfl

theorem parseFloat32_cons (lib : Lib) (w : List Byte) (ts : List Sig) (e : Bool) :
    parseFloat32 streamOps lib ⟨⟨.float, w⟩ :: ts, e⟩ = (float32Value lib w, ⟨ts, e⟩) := by
  unfold parseFloat32
  rw [next_bind, if_neg (by simp)]
  rfl

theorem parseFloat64_cons (lib : Lib) (w : List Byte) (ts : List Sig) (e : Bool) :
    parseFloat64 streamOps lib ⟨⟨.float, w⟩ :: ts, e⟩ = (lib.parseFloat64 w, ⟨ts, e⟩) := by
  unfold parseFloat64
  rw [next_bind, if_neg (by simp)]
  rfl

theorem constFloat32_cons (lib : Lib) (w : List Byte) (ts : List Sig) (e : Bool) :
    constFloat32 streamOps lib ⟨⟨.float, w⟩ :: ts, e⟩ = (float32Value lib w, ⟨ts, e⟩) := by
  unfold constFloat32
  rw [SM.bind_ok (show peekFloat streamOps ⟨⟨.float, w⟩ :: ts, e⟩ = (.ok true, ⟨⟨.float, w⟩ :: ts, e⟩) from rfl), if_pos rfl]
  exact parseFloat32_cons lib w ts e

theorem constFloat64_cons (lib : Lib) (w : List Byte) (ts : List Sig) (e : Bool) :
    constFloat64 streamOps lib ⟨⟨.float, w⟩ :: ts, e⟩ = (lib.parseFloat64 w, ⟨ts, e⟩) := by
  unfold constFloat64
  rw [SM.bind_ok (show peekFloat streamOps ⟨⟨.float, w⟩ :: ts, e⟩ = (.ok true, ⟨⟨.float, w⟩ :: ts, e⟩) from rfl), if_pos rfl]
  exact parseFloat64_cons lib w ts e

theorem parseValType_cons (ty : TokenType) (w : List Byte) (t : ValType) (h : valTypes.lookup w = some t) (ts : List Sig) (e : Bool) :
    parseValType streamOps ⟨⟨ty, w⟩ :: ts, e⟩ = (.ok t, ⟨ts, e⟩) := by
  unfold parseValType
  rw [next_bind, h]
  rfl

theorem parseInstruction_cons (lib : Lib) (n : Nat) (w : List Byte) (ts : List Sig) (e : Bool) :
    parseInstruction streamOps lib (n + 1) ⟨kw w :: ts, e⟩ =
      (parseHead streamOps lib (parseInstruction streamOps lib n) n w >>=
        parseFolded streamOps (parseInstruction streamOps lib n) n) ⟨ts, e⟩ := by
  rw [parseInstruction, next_bind, if_neg (by simp [kw])]
  rfl

theorem parseFolded_not (f : SM Stream Inst) (n : Nat) (i : Inst) (t : Sig) (h : t.type ≠ .openParen) (ts : List Sig) (e : Bool) :
    parseFolded streamOps f n i ⟨t :: ts, e⟩ = (.ok i, ⟨t :: ts, e⟩) := by
  unfold parseFolded
  rw [peek_bind, if_pos h]
  rfl

theorem parseFolded_end (f : SM Stream Inst) (n : Nat) (i : Inst) : parseFolded streamOps f n i ⟨[], true⟩ = (.ok i, ⟨[], true⟩) := rfl

end Verif.Wat
