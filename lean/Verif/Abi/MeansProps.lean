import Verif.Abi.MeansLemmas
import Verif.Abi.StringReadProps
import Verif.Abi.MeansOnce

/-!
# C115: `Load` returns what the bytes stand for

`Spec.Means` says what they stand for, apart from the model of `Load`.
-/

namespace Verif.Abi

open Encoding Spec

variable {σ : Type}

/-- A type and an address for which `Load` is asked to follow the Canonical ABI: no handles in the type, its labels
differ, the address is aligned and the value inside a 32-bit memory; see `Spec.Orderly` for the pairs met there. -/
structure Readable (enc : String) (m : Mem) (t : Ty) (p : Nat) : Prop where
  known : enc ∈ Spec.encodings
  laid : Laid t
  plain : Plain t
  wf : Wf t
  small : m.len < 2 ^ 32
  cap : m.len ≤ m.cap
  aligned : align t ∣ p
  inside : p + Spec.size t ≤ m.len
  orderly : Orderly enc m t p

theorem Readable.decided {E : Env σ} {s : St σ} {t : Ty} {ptr : U32} (h : Readable E.enc s.mem t ptr.toNat) :
    Decided (load E t ptr s) s fun R => Means R E.enc s.mem t ptr.toNat :=
  load_decided E h.known s h.small h.cap t h.laid h.plain h.wf ptr h.aligned h.inside h.orderly

/-- **C115**: where the bytes stand for `v`, `Load` returns `v` and changes nothing.
Missing: types with handles (C88), more than 64 flags (C25), repeated labels; pairs that wrap around (C63), length words
with a highest bit that is no tag (`untagged_length_accepted`). -/
theorem load_means_partial (E : Env σ) (t : VT) (ptr : U32) (s : St σ) (h : Readable E.enc s.mem t.core ptr.toNat)
    (v : Val) (hv : Means Exactly E.enc s.mem t.core ptr.toNat v) : t.load E ptr s = (.ok v, s) := by
  show Abi.load E t.core ptr s = _
  rcases h.decided with ⟨w, e, -, hu⟩ | ⟨-, hn⟩
  · rw [hu v hv]; exact e
  · exact absurd hv (hn _ _)

/-- What `Load` returns, the bytes stand for, but for strings that the bytes do not write, which have U+FFFD in them.
Missing: as above, and that such bytes are refused, which they are not (`malformed_string_accepted`). -/
theorem load_only_means_partial (E : Env σ) (t : VT) (ptr : U32) (s s' : St σ)
    (h : Readable E.enc s.mem t.core ptr.toNat) (v : Val) (hv : t.load E ptr s = (.ok v, s')) :
    s' = s ∧ Means Leniently E.enc s.mem t.core ptr.toNat v := by
  have hv' : Abi.load E t.core ptr s = (.ok v, s') := hv
  rcases h.decided with ⟨w, e, hl, -⟩ | ⟨e, -⟩
  · rw [e] at hv'
    cases hv'
    exact ⟨rfl, hl⟩
  · rw [e] at hv'
    cases hv'

/-- Where the bytes stand for nothing (a case that does not exist, a character that does not exist, a list or string that
is misaligned or not inside the memory), `Load` returns an error and changes nothing; and it returns an error only there.
Missing: as above. -/
theorem load_refuses_partial (E : Env σ) (t : VT) (ptr : U32) (s : St σ) (h : Readable E.enc s.mem t.core ptr.toNat) :
    t.load E ptr s = (.err, s) ↔ ∀ v, ¬ Means Leniently E.enc s.mem t.core ptr.toNat v := by
  show Abi.load E t.core ptr s = _ ↔ _
  constructor
  · intro he v hv
    rcases h.decided with ⟨w, e, -, -⟩ | ⟨-, hn⟩
    · rw [e] at he; cases he
    · exact hn _ _ hv
  · intro hn
    rcases h.decided with ⟨w, e, hl, -⟩ | ⟨e, -⟩
    · exact absurd hl (hn w)
    · exact e

/-- Bytes stand for one value only. -/
theorem means_unique (enc : String) (m : Mem) (t : Ty) (p : Nat) (v w : Val) (hv : Means Exactly enc m t p v)
    (hw : Means Exactly enc m t p w) : v = w :=
  means_once (fun _ _ _ _ hs ht => writes_once hs ht) t p v w hv hw

/-- A length word with a highest bit is taken for the one without it, also in the encodings without tag: `2^31 + n` code
units at the end of the memory should be refused and are read as `n`. -/
theorem untagged_length_accepted (E : Env σ) (henc : E.enc ≠ "latin1+utf16") (p n : U32) :
    loadStringFromRange E p (n ||| 0x80000000) = loadStringFromRange E p (n &&& 0x7FFFFFFF) := by
  have h1 : (toTagged (n ||| 0x80000000)).codeUnits = (toTagged (n &&& 0x7FFFFFFF)).codeUnits := by
    apply BitVec.eq_of_getLsbD_eq
    intro i hi
    unfold toTagged
    have : ~~~utf16Tag = (0x7FFFFFFF : U32) := by decide
    simp only [this, BitVec.getLsbD_and, BitVec.getLsbD_or]
    have hk : (0x80000000 : U32).getLsbD i = !(0x7FFFFFFF : U32).getLsbD i := by
      have := (by decide : ∀ i : Fin 32, (0x80000000 : U32).getLsbD i = !(0x7FFFFFFF : U32).getLsbD i) ⟨i, hi⟩
      exact this
    rw [hk]
    cases (0x7FFFFFFF : U32).getLsbD i <;> simp
  have h2 : ∀ t, srcEncoding E.enc t = E.enc := fun t => by rw [srcEncoding, if_neg (show ¬ E.enc = Latin1Utf16 from henc)]
  unfold loadStringFromRange
  simp only [h1, h2]

/-! ## The hypotheses are met -/

/-- A byte and a string. -/
def meansTy : VT := .record (.cons "n" .u8 (.cons "s" .string .nil))

/-- The byte 7 at 4, the pair (32, 6) at 8, the six bytes at 32. -/
def meansSt : St Nat :=
  { stringSt 6 0 [0xC3, 0xA9, 0xF0, 0x9F, 0x98, 0x80] with
    mem := (stringSt 6 0 [0xC3, 0xA9, 0xF0, 0x9F, 0x98, 0x80]).mem.write 4 [7] }

theorem meansSt_readable : Readable (bumpEnv "utf-8").enc meansSt.mem meansTy.core (4 : U32).toNat := by
  refine ⟨by decide, ?_, ?_, ?_, by decide, by decide, by decide, by decide, ?_⟩
  · simp [meansTy, VT.core, VFields.core, Laid, LaidFields]
  · simp [meansTy, VT.core, VFields.core, Plain, PlainFields]
  · simp [meansTy, VT.core, VFields.core, Wf, WfFields, Fields.labels]
  · simp only [meansTy, VT.core, VFields.core, Orderly, OrderlyFields]
    decide

example : meansTy.load (bumpEnv "utf-8") 4 meansSt =
    (.ok (.map [("n", .u8 7), ("s", .str "é😀")]), meansSt) := by
  refine load_means_partial _ _ _ _ meansSt_readable _ ?_
  simp only [meansTy, VT.core, VFields.core, Means, MeansFields]
  refine ⟨_, rfl, .u8 7, _, rfl, congrArg Val.u8 (by decide), .str "é😀", _, rfl, ⟨_, rfl, by decide, by decide, ?_⟩, rfl⟩
  rw [show bytesAt _ _ _ = [0xC3, 0xA9, 0xF0, 0x9F, 0x98, 0x80] by decide]
  exact writes_utf8

/-- A word that is no character is refused. -/
example : VT.char.load (bumpEnv "utf-8") 4 { meansSt with mem := meansSt.mem.write 4 [0, 0xD8, 0, 0] } =
    (.err, { meansSt with mem := meansSt.mem.write 4 [0, 0xD8, 0, 0] }) := by
  refine (load_refuses_partial _ _ _ _ ⟨by decide, by simp [VT.core, Laid], by simp [VT.core, Plain],
    by simp [VT.core, Wf], by decide, by decide, by decide, by decide, by simp [VT.core, Orderly]⟩).2 fun v => ?_
  simp only [VT.core, Means]
  rintro ⟨c, hc, -⟩
  have h := c.valid
  have h' : c.toNat.isValidChar := h
  rw [hc] at h'
  revert h'
  decide

example : (bumpEnv "utf-8").enc ≠ "latin1+utf16" := by decide

end Verif.Abi
