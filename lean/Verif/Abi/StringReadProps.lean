import Verif.Abi.StringReadLemmas
import Verif.Abi.StoreProps

/-!
# C113: a string in memory is what its bytes write

`Spec.Writes` says which bytes write which characters, apart from the model of the codecs.
-/

namespace Verif.Abi

open Encoding Spec

variable {σ : Type}

/-- `n` is the length word of a string of the encoding, whose bytes are aligned and inside the memory. Outside of
`latin1+utf16` the highest bit of a length word is no tag, and 32-bit memories hold no strings so long in UTF-16. -/
structure StringThere (enc : String) (m : Mem) (p n : Nat) : Prop where
  small : m.len < 2 ^ 32
  cap : m.len ≤ m.cap
  word : n < 2 ^ 31 ∨ enc = "latin1+utf16"
  aligned : stringAlign enc ∣ p
  inside : p + stringBytes enc n ≤ m.len

/-- The bytes of the string. -/
def stringAt (enc : String) (m : Mem) (p n : Nat) : List Byte :=
  (List.range (stringBytes enc n)).map fun i => m.data (p + i)

/-- **C113**, for strings given by address and length word (as flat values and the bytes of `Load` give them): where
the bytes write `str`, the result is `str`, and nothing changes.
Missing: that bytes which write no string are refused; they are not, see `malformed_string_accepted`. -/
theorem string_read_partial (E : Env σ) (henc : E.enc ∈ Spec.encodings) (p n : U32) (s : St σ)
    (h : StringThere E.enc s.mem p.toNat n.toNat) (str : String)
    (hw : Writes (script E.enc n.toNat) str.toList (stringAt E.enc s.mem p.toNat n.toNat)) :
    loadStringFromRange E p n s = (.ok str, s) := by
  rw [loadStringFromRange_script E henc p n h.word s h.small h.cap h.aligned h.inside]
  exact Prod.ext hw.decode rfl

/-- What is read without U+FFFD is what the bytes write. -/
theorem string_read_sound (E : Env σ) (henc : E.enc ∈ Spec.encodings) (p n : U32) (s s' : St σ)
    (h : StringThere E.enc s.mem p.toNat n.toNat) (str : String) (he : loadStringFromRange E p n s = (.ok str, s'))
    (hr : '�' ∉ str.toList) :
    Writes (script E.enc n.toNat) str.toList (stringAt E.enc s.mem p.toNat n.toNat) := by
  rw [loadStringFromRange_script E henc p n h.word s h.small h.cap h.aligned h.inside] at he
  obtain ⟨str', h1, h2⟩ := decode_writes (script E.enc n.toNat) (stringAt E.enc s.mem p.toNat n.toNat)
  have e : (Res.ok str' : Res String) = .ok str := h1.symm.trans (congrArg Prod.fst he)
  cases e
  exact h2 hr

/-- The refusal C113 asks for never happens: bytes that write no string are read as a string with U+FFFD in it. -/
theorem malformed_string_accepted (E : Env σ) (henc : E.enc ∈ Spec.encodings) (p n : U32) (s : St σ)
    (h : StringThere E.enc s.mem p.toNat n.toNat)
    (hw : ∀ cs, ¬ Writes (script E.enc n.toNat) cs (stringAt E.enc s.mem p.toNat n.toNat)) :
    ∃ str, loadStringFromRange E p n s = (.ok str, s) ∧ '�' ∈ str.toList := by
  obtain ⟨str, h1, h2⟩ := decode_writes (script E.enc n.toNat) (stringAt E.enc s.mem p.toNat n.toNat)
  refine ⟨str, ?_, ?_⟩
  · rw [loadStringFromRange_script E henc p n h.word s h.small h.cap h.aligned h.inside]
    exact Prod.ext h1 rfl
  · exact Classical.byContradiction fun hr => hw _ (h2 hr)

/-- Bytes that are not aligned, or reach beyond the memory but not beyond `2^32`, are refused. -/
theorem string_refused (E : Env σ) (henc : E.enc ∈ Spec.encodings) (p n : U32) (s : St σ) (hs : s.mem.len < 2 ^ 32)
    (hc : s.mem.len ≤ s.mem.cap) (hn : n.toNat < 2 ^ 31 ∨ E.enc = "latin1+utf16")
    (hw : p.toNat + stringBytes E.enc n.toNat < 2 ^ 32)
    (h : ¬ stringAlign E.enc ∣ p.toNat ∨ s.mem.len < p.toNat + stringBytes E.enc n.toNat) :
    loadStringFromRange E p n s = (.err, s) := by
  obtain ⟨c, k, -, hk, key⟩ := loadStringFromRange_cases E henc p n
  rw [key s hs hc (by rw [hk hn]; exact hw), if_neg]
  rw [hk hn]
  rintro ⟨h1, h2⟩
  rcases h with h | h
  · exact h h1
  · omega

/-- **C113** for `Load`: the two words at `q` are the address and the length word.
Missing: as above. -/
theorem string_load_partial (E : Env σ) (henc : E.enc ∈ Spec.encodings) (q : U32) (s : St σ)
    (hq : q.toNat + 8 ≤ s.mem.len) (p n : Nat) (hp : natAt s.mem q.toNat 4 = p) (hn : natAt s.mem (q.toNat + 4) 4 = n)
    (h : StringThere E.enc s.mem p n) (str : String)
    (hw : Writes (script E.enc n) str.toList (stringAt E.enc s.mem p n)) :
    load E .string q s = (.ok (.str str), s) := by
  subst hp hn
  have hs := h.small
  have hc := h.cap
  rw [load, loadString]
  have e1 := loadUInt32_ok q s (by omega) (by omega)
  have a1 := loadUInt32_natAt q s s _ h.small h.cap (by omega) e1
  have h4 := toNat_add_4 q (by omega)
  have e2 := loadUInt32_ok (q + 4) s (by omega) (by omega)
  have a2 := loadUInt32_natAt (q + 4) s s _ h.small h.cap (by omega) e2
  rw [h4] at a2
  rw [← a1, ← a2] at h hw
  have e3 := string_read_partial E henc _ _ s h str hw
  have e : (do let b ← loadUInt32 q; let n ← loadUInt32 (q + 4); loadStringFromRange E b n) s = (.ok str, s) := by
    rw [SM.bind_ok e1, SM.bind_ok e2, h4]
    exact e3
  rw [SM.bind_ok e]
  rfl

/-! ## The hypotheses are met -/

/-- 256 bytes of memory: the pair (32, `n`) at 8, with `tag` in the highest byte of the length word, and bytes at 32. -/
def stringSt (n : Byte) (tag : Byte) (bs : List Byte) : St Nat :=
  { bumpSt with mem := (((bumpSt.mem.write 8 [32, 0, 0, 0]).write 12 [n, 0, 0, tag]).write 32 bs) }

/-- Its bytes in UTF-8. -/
theorem writes_utf8 : Writes .utf8 "é😀".toList [0xC3, 0xA9, 0xF0, 0x9F, 0x98, 0x80] :=
  .cons 'é' [0xC3, 0xA9] _ _ (show _ = _ by decide)
    (.cons '😀' [0xF0, 0x9F, 0x98, 0x80] _ _ (show _ = _ by decide) .nil)

/-- Its bytes in UTF-16, least significant byte first. -/
theorem writes_utf16 : Writes .utf16le "é😀".toList [0xE9, 0, 0x3D, 0xD8, 0, 0xDE] :=
  .cons 'é' [0xE9, 0] _ _ ⟨[0xE9], .inl ⟨by decide, by decide⟩, .cons 0xE9 0 _ _ .nil⟩
    (.cons '😀' [0x3D, 0xD8, 0, 0xDE] _ _
      ⟨[0xD83D, 0xDE00], .inr ⟨0x3D, 0x200, by decide, by decide, by decide, by decide⟩,
        .cons 0x3D 0xD8 _ _ (.cons 0 0xDE _ _ .nil)⟩ .nil)

example : load (bumpEnv "utf-8") .string 8 (stringSt 6 0 [0xC3, 0xA9, 0xF0, 0x9F, 0x98, 0x80]) =
    (.ok (.str "é😀"), stringSt 6 0 [0xC3, 0xA9, 0xF0, 0x9F, 0x98, 0x80]) :=
  string_load_partial _ (by decide) _ _ (by decide) 32 6 (by decide) (by decide)
    ⟨by decide, by decide, by decide, by decide, by decide⟩ _ writes_utf8

example : load (bumpEnv "latin1+utf16") .string 8 (stringSt 3 0x80 [0xE9, 0, 0x3D, 0xD8, 0, 0xDE]) =
    (.ok (.str "é😀"), stringSt 3 0x80 [0xE9, 0, 0x3D, 0xD8, 0, 0xDE]) :=
  string_load_partial _ (by decide) _ _ (by decide) 32 (2 ^ 31 + 3) (by decide) (by decide)
    ⟨by decide, by decide, by decide, by decide, by decide⟩ _ (by
      rw [show script (bumpEnv "latin1+utf16").enc (2 ^ 31 + 3) = .utf16le by decide,
        show stringAt (bumpEnv "latin1+utf16").enc (stringSt 3 0x80 [0xE9, 0, 0x3D, 0xD8, 0, 0xDE]).mem 32
          (2 ^ 31 + 3) = [0xE9, 0, 0x3D, 0xD8, 0, 0xDE] by decide]
      exact writes_utf16)

/-- A lone continuation byte writes nothing in UTF-8. -/
theorem stray_writes_nothing (cs : List Char) : ¬ Writes .utf8 cs [0x80] := by
  intro h
  have h1 := writes_encode h
  have h2 := TextEnc.roundtrip _ _ _ h1
  have h3 : utf8Decode 0 [0x80] = ['�'] := by decide
  have h4 : (TextEnc.utf8.decode [0x80]) = .ok (String.ofList ['�']) := by rw [TextEnc.decode, h3]
  have h5 : String.ofList cs = String.ofList ['�'] := by
    have := h2.symm.trans h4
    injection this
  have h6 : cs = ['�'] := by
    have := congrArg String.toList h5
    rwa [String.toList_ofList, String.toList_ofList] at this
  rw [h6] at h1
  have : TextEnc.utf8.encode (String.ofList ['�']) = .ok [0xEF, 0xBF, 0xBD] := by decide
  have := h1.symm.trans this
  cases this

example : ∃ str, loadStringFromRange (bumpEnv "utf-8") 32 1 (stringSt 1 0 [0x80]) = (.ok str, stringSt 1 0 [0x80]) ∧
    '�' ∈ str.toList :=
  malformed_string_accepted _ (by decide) _ _ _ ⟨by decide, by decide, by decide, by decide, by decide⟩
    (fun cs => stray_writes_nothing cs)

example : Writes .utf8 "é😀".toList [0xC3, 0xA9, 0xF0, 0x9F, 0x98, 0x80] :=
  string_read_sound (bumpEnv "utf-8") (by decide) 32 6 (stringSt 6 0 [0xC3, 0xA9, 0xF0, 0x9F, 0x98, 0x80]) _
    ⟨by decide, by decide, by decide, by decide, by decide⟩ "é😀"
    (string_read_partial _ (by decide) _ _ _ ⟨by decide, by decide, by decide, by decide, by decide⟩ _ writes_utf8)
    (by decide)

example : loadStringFromRange (bumpEnv "utf-16") 32 113 bumpSt = (.err, bumpSt) :=
  string_refused _ (by decide) _ _ _ (by decide) (by decide) (by decide) (by decide) (.inr (by decide))

end Verif.Abi
