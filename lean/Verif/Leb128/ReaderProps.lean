import Verif.Leb128.Reader
import Verif.Leb128.Props
import Verif.Binary.StreamProps

/-!
# Decoding from a buffered reader: C104
-/

namespace Verif.Leb128

open Io Verif.Binary.Stream Verif.Binary.Stream.Spec

variable {σ : Type} {R : Reader σ} {I : σ → List Byte → Prop}

namespace Spec

/-- A reader that reports no error but end of file, and that does not return nothing a hundred times in a row: `μ` counts how
often it may still do so. -/
structure Patient (R : Reader σ) (I : σ → List Byte → Prop) (μ : σ → Nat) : Prop where
  delivers : Delivers R I
  sound : ∀ s n, (R.read s n).2.1 ≠ some .other
  few : ∀ s, μ s < 100
  less : ∀ s n s', 0 < n → R.read s n = ([], none, s') → μ s' < μ s

/-- The bytes that a buffered reader has still to hand out. -/
def Ahead (I : σ → List Byte → Prop) (b : Buffer σ) (bs : List Byte) : Prop :=
  0 < b.cap ∧ ∃ rest, bs = b.buf ++ rest ∧ I b.src rest ∧ b.err ≠ some .other ∧ (b.err = some .eof → rest = [])

end Spec

open Spec

theorem fill_ahead {μ : σ → Nat} (P : Patient R I μ) : ∀ k (b : Buffer σ) bs, b.buf = [] → b.err = none → Ahead I b bs →
    μ b.src < k → Ahead I (b.fill R k) bs ∧ ((b.fill R k).buf ≠ [] ∨ (b.fill R k).err = some .eof ∧ bs = [])
  | 0, b, bs, hb, he, hA, hk => by omega
  | k + 1, b, bs, hb, he, hA, hk => by
    unfold Buffer.fill
    obtain ⟨hc, rest, rfl, hI, -, -⟩ := hA
    obtain ⟨d, e, s1, r, h1, -, rfl, h4, h5⟩ := P.delivers b.src rest b.cap hI hc
    have hs := P.sound b.src b.cap
    have hl := fun s' => P.less b.src b.cap s' hc
    rw [h1] at hs hl ⊢
    rw [hb, List.nil_append]
    match d, e, hs, hl, h5 with
    | d, some .eof, _, _, h5 =>
      have hr := h5 rfl
      subst hr
      refine ⟨⟨hc, [], rfl, h4, by simp, fun _ => rfl⟩, ?_⟩
      cases d with
      | nil => exact .inr ⟨rfl, rfl⟩
      | cons x xs => exact .inl (by simp)
    | d, some .other, hs, _, _ => exact absurd rfl hs
    | [], none, _, hl, _ =>
      have := hl s1 rfl
      simp only [List.nil_append]
      exact fill_ahead P k { b with buf := [], src := s1 } r rfl he ⟨hc, r, rfl, h4, by simp [he], by simp [he]⟩
        (by show μ s1 < k; omega)
    | x :: xs, none, _, _, _ =>
      exact ⟨⟨hc, r, rfl, h4, by simp [he], by simp [he]⟩, .inl (by simp)⟩

theorem readByte_buf (k : Nat) (b : Buffer σ) (c : Byte) (cs : List Byte) (h : b.buf = c :: cs) :
    b.readByte R (k + 1) = (.ok c, { b with buf := cs }) := by
  unfold Buffer.readByte
  rw [h]

theorem readByte_ahead {μ : σ → Nat} (P : Patient R I μ) (b : Buffer σ) (bs : List Byte) (hA : Ahead I b bs) :
    (bs = [] → (b.readByte R 2).1 = .eof) ∧
    (∀ c cs, bs = c :: cs → (b.readByte R 2).1 = .ok c ∧ Ahead I (b.readByte R 2).2 cs) := by
  rcases hb : b.buf with _ | ⟨c, cs⟩
  · rcases he : b.err with _ | _ | _
    · obtain ⟨⟨f0, r, f1, f2, f3, f4⟩, hf⟩ := fill_ahead P 100 b bs hb he hA (P.few _)
      have e : b.readByte R 2 = (b.fill R 100).readByte R 1 := by
        conv => lhs; unfold Buffer.readByte
        rw [hb, he]
      rw [e]
      rcases hd : (b.fill R 100).buf with _ | ⟨c, cs⟩
      · rcases hf with hf | ⟨hf, rfl⟩
        · exact absurd hd hf
        · refine ⟨fun _ => ?_, fun _ _ h => by cases h⟩
          unfold Buffer.readByte
          rw [hd, hf]
      · rw [readByte_buf 0 _ c cs hd]
        rw [hd] at f1
        subst f1
        refine ⟨fun h => by simp at h, fun _ _ h => ?_⟩
        cases h
        exact ⟨rfl, f0, r, rfl, f2, f3, f4⟩
    · obtain ⟨-, r, rfl, -, -, h5⟩ := hA
      have hr := h5 he
      subst hr
      refine ⟨fun _ => ?_, fun _ _ h => by simp [hb] at h⟩
      unfold Buffer.readByte
      rw [hb, he]
    · obtain ⟨-, r, rfl, -, h4, -⟩ := hA
      exact absurd he h4
  · obtain ⟨h0, r, rfl, h3, h4, h5⟩ := hA
    rw [readByte_buf 1 b c cs hb]
    refine ⟨fun h => by simp [hb] at h, fun _ _ h => ?_⟩
    rw [hb] at h
    cases h
    exact ⟨rfl, h0, r, rfl, h3, h4, h5⟩

theorem decodeBufLoop_ahead {μ : σ → Nat} (P : Patient R I μ) : ∀ bs k val shift total (b : Buffer σ), Ahead I b bs → bs.length < k →
    (match decodeLoop val shift total bs with
    | .ok (v, n, rest) => (decodeBufLoop R k val shift total b).1 = .ok (v, n) ∧ Ahead I (decodeBufLoop R k val shift total b).2 rest
    | _ => (decodeBufLoop R k val shift total b).1 = .eof)
  | [], k + 1, val, shift, total, b, hA, hk => by
    have h1 := (readByte_ahead P b [] hA).1 rfl
    unfold decodeLoop decodeBufLoop
    rcases e : b.readByte R 2 with ⟨o, b1⟩
    rw [e] at h1
    simp only at h1
    subst h1
    rfl
  | c :: cs, k + 1, val, shift, total, b, hA, hk => by
    have h1 := (readByte_ahead P b (c :: cs) hA).2 c cs rfl
    unfold decodeLoop decodeBufLoop
    rcases e : b.readByte R 2 with ⟨o, b1⟩
    rw [e] at h1
    simp only at h1
    obtain ⟨rfl, h2⟩ := h1
    simp only
    by_cases hc : c &&& 0b10000000#8 = 0#8
    · rw [if_pos hc, if_pos hc]
      exact ⟨rfl, h2⟩
    · rw [if_neg hc, if_neg hc]
      exact decodeBufLoop_ahead P cs k _ _ _ b1 h2 (by simp at hk; omega)
  | bs, 0, _, _, _, _, _, hk => by omega

/-- **C104**. From a buffered reader in front of any reader that keeps to the contract of `io.Reader`, in whatever portions it
hands out its bytes, with empty calls in between and end of file with the last bytes or after them, `Decode` returns the
number that the bytes begin with and the count of its bytes, and leaves exactly the bytes after it to be read; bytes that do
not contain a whole number are reported as the end of the file. By C02 the number is the one the digits denote. -/
theorem decode_buffered {μ : σ → Nat} (P : Patient R I μ) (b : Buffer σ) (bs : List Byte) (h : Ahead I b bs) (fuel : Nat)
    (hf : bs.length < fuel) :
    (∀ pre last rest, bs = pre ++ last :: rest → (∀ x ∈ pre, 128 ≤ x.toNat) → last.toNat < 128 →
      (decodeBuf R fuel b).1 = .ok (BitVec.ofNat 32 (denotes (pre ++ [last])), pre.length + 1) ∧
      Ahead I (decodeBuf R fuel b).2 rest) ∧
    ((∀ x ∈ bs, 128 ≤ x.toNat) → (decodeBuf R fuel b).1 = .eof) := by
  have h1 := decodeBufLoop_ahead P bs fuel 0#32 0 0 b h hf
  constructor
  · rintro pre last rest rfl hp hl
    have h2 := (decoders_agree pre last rest hp hl).2.1
    unfold decode at h2
    rw [h2] at h1
    exact h1
  · intro hb
    have h2 := (truncated_is_error bs hb).2
    unfold decode at h2
    rw [h2] at h1
    exact h1

/-- The readers that `DecodeReader` cannot read from are patient. -/
theorem lastWithEof_patient : Patient lastWithEof (fun s bs => s = bs) (fun _ => 0) where
  delivers := lastWithEof_delivers
  sound s n := by
    show (if s.length ≤ n then some IoErr.eof else none) ≠ some .other
    split <;> simp
  few s := by decide
  less s n s' hn h := by
    rcases s with _ | ⟨b, s⟩
    · simp [lastWithEof] at h
    · simp [lastWithEof] at h
      omega

theorem hesitant_patient : Patient hesitant (fun s bs => s.2 = bs) (fun s => cond s.1 1 0) where
  delivers := hesitant_delivers
  sound s n := by rcases s with ⟨_ | _, _ | ⟨b, s⟩⟩ <;> simp [hesitant]
  few s := by cases s.1 <;> decide
  less s n s' hn h := by
    rcases s with ⟨_ | _, _ | ⟨b, s⟩⟩
    · simp [hesitant] at h
    · simp [hesitant] at h
      omega
    · simp [hesitant] at h
    · simp [hesitant] at h
      rw [← h]
      simp

/-- Meets the hypotheses of `decode_buffered`: a number of three bytes, the last of which comes with end of file. -/
example : Ahead (fun s bs => s = bs) (⟨16, [], none, [0xE5, 0x8E, 0x26]⟩ : Buffer (List Byte)) [0xE5, 0x8E, 0x26] ∧
    (decodeBuf lastWithEof 10 ⟨16, [], none, [0xE5, 0x8E, 0x26]⟩).1 = .ok (624485, 3) :=
  ⟨⟨by decide, _, rfl, rfl, by simp, by simp⟩, by decide⟩

end Verif.Leb128
