import Verif.Binary.StreamProps
import Verif.Wat.DecodeStream
import Verif.Wat.DecodeProps

/-!
# Decoding text from an `io.Reader`: C102
-/

namespace Verif.Wat

open Io Verif.Binary.Stream Verif.Binary.Stream.Spec

variable {σ : Type} {R : Reader σ} {I : σ → List Byte → Prop} {room : Nat → Nat}

theorem readAllLoop_ok (D : Delivers R I) (hr : ∀ k, 0 < room k) : ∀ k got s bs b s', I s bs →
    readAllLoop R room k got s = (.ok b, s') → b = got ++ bs
  | 0, got, s, bs, b, s', hI, h => by cases h
  | k + 1, got, s, bs, b, s', hI, h => by
    unfold readAllLoop at h
    obtain ⟨d, e, s1, rest, h1, -, rfl, h4, h5⟩ := D s bs (room got.length) hI (hr _)
    rw [h1] at h
    match e, h5, h with
    | none, _, h =>
      rw [readAllLoop_ok D hr k _ s1 rest b s' h4 h, List.append_assoc]
    | some .eof, h5, h =>
      cases h
      rw [h5 rfl, List.append_nil]
    | some .other, _, h => cases h

theorem readAllLoop_all (D : Delivers R I) (hr : ∀ k, 0 < room k) (ho : ∀ s n, (R.read s n).2.1 ≠ some .other) (μ : σ → Nat)
    (hμ : ∀ s n, 0 < n → (R.read s n).2.1 = none → μ (R.read s n).2.2 < μ s) : ∀ k got s bs, I s bs → μ s < k →
    (readAllLoop R room k got s).1 = .ok (got ++ bs)
  | 0, got, s, bs, hI, hk => by omega
  | k + 1, got, s, bs, hI, hk => by
    unfold readAllLoop
    obtain ⟨d, e, s1, rest, h1, -, rfl, h4, h5⟩ := D s bs (room got.length) hI (hr _)
    have ho1 := ho s (room got.length)
    have hμ1 := hμ s (room got.length) (hr _)
    rw [h1] at ho1 hμ1 ⊢
    match e, h5, ho1, hμ1 with
    | none, _, _, hμ1 =>
      simp only at hμ1 ⊢
      rw [readAllLoop_all D hr ho μ hμ k _ s1 rest h4 (by have := hμ1 trivial; omega), List.append_assoc]
    | some .eof, h5, _, _ =>
      simp only
      rw [h5 rfl, List.append_nil]
    | some .other, _, ho1, _ => exact absurd rfl ho1

theorem readAllLoop_no_eof (h : ∀ s n, (R.read s n).2.1 ≠ some .eof) : ∀ k got s b, (readAllLoop R room k got s).1 ≠ .ok b
  | 0, got, s, b => by unfold readAllLoop; simp
  | k + 1, got, s, b => by
    unfold readAllLoop
    have h1 := h s (room got.length)
    rcases e0 : R.read s (room got.length) with ⟨d, e, s1⟩
    rw [e0] at h1
    match e, h1 with
    | none, _ => exact readAllLoop_no_eof h k _ s1 b
    | some .eof, h1 => exact absurd rfl h1
    | some .other, _ => simp

/-- **C102**. A reader that keeps to the contract of `io.Reader`, that does not fail and does not put off its end for ever
(`μ` counts the calls it may still take), makes `Decode` come to the same as the bytes it hands out, in whatever portions they
come, with empty calls in between, and whether end of file comes with the last bytes or after them. -/
theorem text_portions (D : Delivers R I) (hr : ∀ k, 0 < room k) (ho : ∀ s n, (R.read s n).2.1 ≠ some .other) (μ : σ → Nat)
    (hμ : ∀ s n, 0 < n → (R.read s n).2.1 = none → μ (R.read s n).2.2 < μ s) (s : σ) (bs : List Byte) (hI : I s bs)
    (fuel : Nat) (hf : μ s < fuel) (lib : Lib) (n : Nat) (own : Source) :
    decodeFrom R room fuel lib n s = decode lib n own ⟨bs, false⟩ := by
  unfold decodeFrom decode readAll
  rw [readAllLoop_all D hr ho μ hμ fuel [] s bs hI hf]
  rfl

/-- **C102**. What `Decode` returns is always that of the bytes the reader hands out up to its end, also if the reader fails
or goes on for ever in other states. -/
theorem text_reads_bytes (D : Delivers R I) (hr : ∀ k, 0 < room k) (s : σ) (bs : List Byte) (hI : I s bs) (fuel : Nat)
    (lib : Lib) (n : Nat) (own : Source) (d : ApiDirective) (h : decodeFrom R room fuel lib n s = .ok d) :
    decode lib n own ⟨bs, false⟩ = .ok d := by
  unfold decodeFrom readAll at h
  rcases e : readAllLoop R room fuel [] s with ⟨o, s'⟩
  rw [e] at h
  cases o with
  | ok b =>
    rw [readAllLoop_ok D hr fuel [] s bs b s' hI e] at h
    exact h
  | _ => cases h

/-- **C102**. A reader that never says end of file never makes `Decode` return anything. -/
theorem text_failing_reader (R : Reader σ) (room : Nat → Nat) (h : ∀ s n, (R.read s n).2.1 ≠ some .eof) (s : σ) (fuel : Nat)
    (lib : Lib) (n : Nat) (d : ApiDirective) : decodeFrom R room fuel lib n s ≠ .ok d := by
  unfold decodeFrom readAll
  have h1 := readAllLoop_no_eof (room := room) h fuel [] s
  rcases e : readAllLoop R room fuel [] s with ⟨o, s'⟩
  rw [e] at h1
  cases o with
  | ok b => exact absurd rfl (h1 b)
  | _ => intro h; cases h

/-- Meets the hypotheses of `text_portions`, with a reader the binary reader cannot read from: end of file comes with the last
bytes. -/
example (bs : List Byte) (lib : Lib) (n : Nat) (own : Source) :
    decodeFrom lastWithEof (fun _ => 512) (bs.length + 1) lib n bs = decode lib n own ⟨bs, false⟩ := by
  refine text_portions lastWithEof_delivers (fun _ => by decide) (fun s n => ?_) List.length (fun s n hn h => ?_) bs bs rfl _
    (Nat.lt_succ_self _) lib n own
  · show (if s.length ≤ n then some IoErr.eof else none) ≠ some .other
    split <;> simp
  · change (if s.length ≤ n then some IoErr.eof else none) = none at h
    show (s.drop n).length < s.length
    split at h
    · cases h
    · rw [List.length_drop]; omega

/-- The same for a reader half of whose calls return nothing. -/
example (bs : List Byte) (lib : Lib) (n : Nat) (own : Source) :
    decodeFrom hesitant (fun _ => 512) (2 * bs.length + 3) lib n (true, bs) = decode lib n own ⟨bs, false⟩ := by
  refine text_portions hesitant_delivers (fun _ => by decide) (fun s n => ?_) (fun s => 2 * s.2.length + cond s.1 1 0)
    (fun s n hn h => ?_) (true, bs) bs rfl _ (by simp) lib n own
  · rcases s with ⟨_ | _, _ | ⟨b, s⟩⟩ <;> simp [hesitant]
  · rcases s with ⟨_ | _, _ | ⟨b, s⟩⟩
    · simp [hesitant] at h
    · simp [hesitant]; omega
    · simp [hesitant] at h
    · simp [hesitant]

/-- Meets the hypothesis of `text_failing_reader`: the connection breaks after a whole component. -/
example : decodeFrom breaking (fun _ => 512) 100 someLib 100 (txt "(component)") = .err := by rfl

end Verif.Wat
