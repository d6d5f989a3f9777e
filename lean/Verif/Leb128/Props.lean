import Verif.Leb128.Lemmas

/-!
# Properties of `leb128` (C01, C02, C03)
-/

namespace Verif.Leb128

/-- C01. The encoding of any 32-bit value, followed by any bytes, decodes through all three entry points to
that value; the reported count is the length of the encoding and the following bytes are left unread. -/
theorem roundtrip (n : U32) (rest : List Byte) :
    decodeReader (encode n ++ rest) = .ok (n, (encode n).length, rest)
    ∧ decode (encode n ++ rest) = .ok (n, (encode n).length, rest)
    ∧ decodeSlice (encode n ++ rest) = .ok (n, (encode n).length) := by
  obtain ⟨init, last, h1, h2, h3, h4, -, -⟩ := encode_spec n
  have h := decodeLoop_delimited init last rest h2 h3 0 0 0 (by decide)
  have key : decode (encode n ++ rest) = .ok (n, (encode n).length, rest) := by
    have e : encode n ++ rest = init ++ last :: rest := by rw [h1]; simp
    have e2 : (encode n).length = init.length + 1 := by rw [h1]; simp
    rw [e2, e, decode]
    refine h.trans ?_
    rw [h4]; simp
  refine ⟨by rw [decodeReader_eq_decode]; exact key, key, ?_⟩
  rw [decodeSlice, decodeSliceLoop_eq _ _ _ _ _ _ _ key]

example : decodeReader (encode 624485#32 ++ [1#8, 2#8]) = .ok (624485#32, 3, [1#8, 2#8]) := by
  have := (roundtrip 624485#32 [1#8, 2#8]).1
  have h : encode 624485#32 = [0xE5#8, 0x8E#8, 0x26#8] := by simp [encode]
  rw [h] at this ⊢
  exact this

/-- C02. On an input with a byte below 128 the three decoders agree: they stop right after the first such
byte and return the number its seven-bit digits denote, modulo 2^32. -/
theorem decoders_agree (pre : List Byte) (last : Byte) (rest : List Byte)
    (hpre : ∀ x ∈ pre, 128 ≤ x.toNat) (hlast : last.toNat < 128) :
    decodeReader (pre ++ last :: rest) = .ok (BitVec.ofNat 32 (denotes (pre ++ [last])), pre.length + 1, rest)
    ∧ decode (pre ++ last :: rest) = .ok (BitVec.ofNat 32 (denotes (pre ++ [last])), pre.length + 1, rest)
    ∧ decodeSlice (pre ++ last :: rest) = .ok (BitVec.ofNat 32 (denotes (pre ++ [last])), pre.length + 1) := by
  have key : decode (pre ++ last :: rest)
      = .ok (BitVec.ofNat 32 (denotes (pre ++ [last])), pre.length + 1, rest) := by
    have := decodeLoop_delimited pre last rest hpre hlast 0 0 0 (by decide)
    rw [decode]; simpa using this
  refine ⟨by rw [decodeReader_eq_decode]; exact key, key, ?_⟩
  rw [decodeSlice, decodeSliceLoop_eq _ _ _ _ _ _ _ key]

/-- An over-long encoding of 3 in seven bytes, followed by another byte. -/
example : (∀ x ∈ [0x83#8, 0x80#8, 0x80#8, 0x80#8, 0x80#8, 0xff#8], 128 ≤ x.toNat) ∧ (0x7f#8 : Byte).toNat < 128 := by
  decide

/-- C02, truncated inputs: without a byte below 128 the stream decoders report an error. -/
theorem truncated_is_error (bs : List Byte) (h : ∀ x ∈ bs, 128 ≤ x.toNat) :
    decodeReader bs = .err ∧ decode bs = .err := by
  have key : decode bs = .err := decodeLoop_truncated bs h _ _ _
  exact ⟨by rw [decodeReader_eq_decode]; exact key, key⟩

example : ∀ x ∈ [0x80#8, 0xff#8, 0xff#8], 128 ≤ x.toNat := by decide

/-- The hypotheses of `decoders_agree` and `truncated_is_error` together cover every input. -/
theorem inputs_covered (bs : List Byte) :
    (∃ pre last rest, bs = pre ++ last :: rest ∧ (∀ x ∈ pre, 128 ≤ x.toNat) ∧ last.toNat < 128)
      ∨ (∀ x ∈ bs, 128 ≤ x.toNat) := split_first bs

/-- The slice decoder, unlike the other two, accepts truncated input: it returns what it has read. -/
theorem decodeSlice_accepts_truncated (bs : List Byte) (h : ∀ x ∈ bs, 128 ≤ x.toNat) :
    decodeSlice bs = .ok (BitVec.ofNat 32 (denotes bs), bs.length) := by
  rw [decodeSlice]
  have := decodeSliceLoop_truncated bs h 0 0 0 (by decide)
  simpa using this

/-- No decoder panics on any input. -/
theorem decoders_never_panic (bs : List Byte) :
    decodeReader bs ≠ .panic ∧ decode bs ≠ .panic ∧ decodeSlice bs ≠ .panic := by
  refine ⟨?_, ?_, by simp [decodeSlice]⟩
  all_goals
    rcases split_first bs with ⟨pre, last, rest, rfl, h2, h3⟩ | h
    · have := decoders_agree pre last rest h2 h3
      simp [this]
    · have := truncated_is_error bs h
      simp [this]

/-- C03. An encoding has one to five bytes, exactly the last of which lacks the high bit. -/
theorem encode_shape (n : U32) :
    1 ≤ (encode n).length ∧ (encode n).length ≤ 5 ∧ Delimited (encode n) := by
  obtain ⟨init, last, h1, h2, h3, -, -, h6⟩ := encode_spec n
  refine ⟨by rw [h1]; simp, ?_, ⟨init, last, h1, h2, h3⟩⟩
  rw [h1]
  simp only [List.length_append, List.length_cons, List.length_nil]
  have hn : n.toNat < 2 ^ 32 := n.isLt
  have h7 : 128 ^ init.length < 128 ^ 5 := by
    have : max 1 n.toNat < 128 ^ 5 := by omega
    omega
  have := (Nat.pow_lt_pow_iff_right (a := 128) (by decide)).1 h7
  omega

/-- A non-empty string of bytes denoting `n` modulo 2^32 is at least as long as the encoding of `n`. -/
private theorem encode_le_denotes (n : U32) (bs : List Byte) (hb : bs ≠ [])
    (hv : BitVec.ofNat 32 (denotes bs) = n) : (encode n).length ≤ bs.length := by
  obtain ⟨init, l, e1, -, -, -, -, e6⟩ := encode_spec n
  rw [e1]
  simp only [List.length_append, List.length_cons, List.length_nil]
  have hd := denotes_lt bs
  have hle : n.toNat ≤ denotes bs := by
    rw [← hv]; simp only [BitVec.toNat_ofNat]; exact Nat.mod_le _ _
  have hne : bs.length ≠ 0 := by simpa using hb
  have hpos : 1 < 128 ^ bs.length := Nat.one_lt_pow hne (by decide)
  have h7 : 128 ^ init.length < 128 ^ bs.length := by omega
  have := (Nat.pow_lt_pow_iff_right (a := 128) (by decide)).1 h7
  omega

/-- C03. Minimality: any byte string that a decoder maps to `n` takes at least as many bytes.
Partial: the full statement has no exception, but the slice decoder maps the empty slice to 0
(`empty_slice_is_zero`), which is one byte shorter than the encoding of 0. -/
theorem encode_minimal_partial (n : U32) (bs : List Byte) (count : Nat) :
    (∀ rest, decodeReader bs = .ok (n, count, rest) → (encode n).length ≤ count) ∧
    (∀ rest, decode bs = .ok (n, count, rest) → (encode n).length ≤ count) ∧
    (decodeSlice bs = .ok (n, count) → bs ≠ [] → (encode n).length ≤ count) := by
  rcases split_first bs with ⟨pre, last, rest', rfl, h2, h3⟩ | h'
  · obtain ⟨k1, k2, k3⟩ := decoders_agree pre last rest' h2 h3
    have key : BitVec.ofNat 32 (denotes (pre ++ [last])) = n → (encode n).length ≤ pre.length + 1 := fun hv => by
      simpa using encode_le_denotes n (pre ++ [last]) (by simp) hv
    refine ⟨fun rest h => ?_, fun rest h => ?_, fun h _ => ?_⟩
    · rw [k1] at h
      simp only [Res.ok.injEq, Prod.mk.injEq] at h
      exact h.2.1 ▸ key h.1
    · rw [k2] at h
      simp only [Res.ok.injEq, Prod.mk.injEq] at h
      exact h.2.1 ▸ key h.1
    · rw [k3] at h
      simp only [Res.ok.injEq, Prod.mk.injEq] at h
      exact h.2 ▸ key h.1
  · obtain ⟨k1, k2⟩ := truncated_is_error bs h'
    refine ⟨fun rest h => absurd (k1 ▸ h) (by simp), fun rest h => absurd (k2 ▸ h) (by simp), fun h hb => ?_⟩
    rw [decodeSlice_accepts_truncated bs h'] at h
    simp only [Res.ok.injEq, Prod.mk.injEq] at h
    exact h.2 ▸ encode_le_denotes n bs hb h.1

/-- C03, where it fails: the empty slice decodes to 0, whose encoding has one byte. -/
theorem empty_slice_is_zero : decodeSlice [] = .ok (0#32, 0) ∧ (encode 0#32).length = 1 := by
  refine ⟨by decide, ?_⟩
  simp [encode]

example : decodeSlice [0x85#8, 0x80#8] = .ok (5#32, 2) := by decide
example : decodeReader [0x85#8, 0x80#8, 0x00#8, 0x07#8] = .ok (5#32, 3, [0x07#8]) := by decide

/-- C03. Distinct values have distinct encodings, and no encoding is a prefix of another one. -/
theorem encode_prefix_free (n m : U32) (rest : List Byte) (h : encode n ++ rest = encode m) :
    n = m ∧ rest = [] := by
  have h1 := (roundtrip n rest).2.1
  have h2 := (roundtrip m []).2.1
  rw [List.append_nil, ← h, h1] at h2
  simp only [Res.ok.injEq, Prod.mk.injEq] at h2
  exact ⟨h2.1, h2.2.2⟩

example : encode 300#32 ++ [] = encode 300#32 := by simp

end Verif.Leb128
