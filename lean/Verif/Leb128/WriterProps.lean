import Verif.Leb128.Writer
import Verif.Leb128.Props

/-!
# Encoding to a buffered writer: C103
-/

namespace Verif.Leb128

open Io

variable {σ : Type} {W : Writer σ} {out : σ → List Byte}

namespace Spec

/-- `out s` are the bytes that a writer in the state `s` has taken: a call takes the first so many of those it is given, as it
says. It may take fewer, and it may report errors as it likes. -/
def Accepts (W : Writer σ) (out : σ → List Byte) : Prop :=
  ∀ s p, (W.write s p).1 ≤ p.length ∧ out (W.write s p).2.2 = out s ++ p.take (W.write s p).1

/-- `w` are numbers one after the other: `Decode` called again and again returns these and leaves nothing. -/
def Reads : List Byte → List U32 → Prop
  | w, [] => w = []
  | w, v :: vs => ∃ n rest, decode w = .ok (v, n, rest) ∧ Reads rest vs

end Spec

open Spec

/-- Bytes written one by one until one fails. -/
def putAll (W : Writer σ) : List Byte → Buffered σ → Bool × Buffered σ
  | [], w => (true, w)
  | c :: cs, w =>
    match w.writeByte W c with
    | (false, w) => (false, w)
    | (true, w) => putAll W cs w

theorem encodeLoop_eq (v : U32) (total : Nat) (w : Buffered σ) : encodeLoop W v total w =
    ((if (putAll W (encode v) w).1 then (total + (encode v).length, true) else (0, false)), (putAll W (encode v) w).2) := by
  unfold encodeLoop encode
  simp only
  split
  · rename_i h
    unfold putAll
    rcases w.writeByte W _ with ⟨_ | _, w1⟩
    · rfl
    · simp only
      rw [encodeLoop_eq (v >>> 7) (total + 1) w1]
      simp only [List.length_cons]
      rw [show total + 1 + (encode (v >>> 7)).length = total + ((encode (v >>> 7)).length + 1) from by omega]
  · unfold putAll
    rcases w.writeByte W _ with ⟨_ | _, w1⟩
    · rfl
    · simp [putAll]
termination_by v.toNat
decreasing_by
  rename_i h
  have h1 : (v >>> 7).toNat ≠ 0 := fun h2 => h (BitVec.eq_of_toNat_eq h2)
  simp only [BitVec.toNat_ushiftRight, Nat.shiftRight_eq_div_pow] at *
  omega

/-- What was written up to now: taken by the writer behind, or still in the buffer. -/
def written (out : σ → List Byte) (w : Buffered σ) : List Byte := out w.sink ++ w.buf

theorem flush_written (h : Accepts W out) (w : Buffered σ) :
    written out (w.flush W).2 = written out w ∧ (w.flush W).2.failed = !(w.flush W).1 ∧ (w.flush W).2.cap = w.cap ∧
    ((w.flush W).1 = true → (w.flush W).2.buf = []) := by
  unfold Buffered.flush
  by_cases hf : w.failed
  · rw [if_pos hf]; simp [hf]
  · rw [if_neg hf]
    by_cases hb : w.buf = []
    · rw [if_pos hb]; simp [hb, hf]
    · rw [if_neg hb]
      obtain ⟨h1, h2⟩ := h w.sink w.buf
      rcases e : W.write w.sink w.buf with ⟨n, er, s⟩
      rw [e] at h1 h2
      simp only at h1 h2 ⊢
      by_cases hc : (er || n < w.buf.length) = true
      · rw [if_pos hc]
        simp [written, h2]
      · rw [if_neg hc]
        have hn : w.buf.length ≤ n := by
          refine Nat.le_of_not_lt fun hlt => hc ?_
          simp [hlt]
        simp [written, h2, List.take_of_length_le hn, hf]

theorem writeByte_written (h : Accepts W out) (c : Byte) (w : Buffered σ) :
    ((w.writeByte W c).1 = true → w.failed = false ∧ (w.writeByte W c).2.failed = false ∧
      written out (w.writeByte W c).2 = written out w ++ [c]) ∧
    ((w.writeByte W c).1 = false → (w.writeByte W c).2.failed = true ∧ written out (w.writeByte W c).2 = written out w) := by
  unfold Buffered.writeByte
  by_cases hf : w.failed
  · rw [if_pos hf]; simp [hf]
  · rw [if_neg hf]
    by_cases hb : w.buf.length < w.cap
    · rw [if_pos hb]; simp [written, hf]
    · rw [if_neg hb]
      obtain ⟨h1, h2, h3, h4⟩ := flush_written h w
      rcases e : w.flush W with ⟨_ | _, w1⟩
      · rw [e] at h1 h2
        simp only at h1 h2 ⊢
        simp [h1, h2]
      · rw [e] at h1 h2 h4
        simp only at h1 h2 h4 ⊢
        refine ⟨fun _ => ⟨by simpa using hf, by simpa using h2, ?_⟩, fun h => by cases h⟩
        rw [← h1]
        simp [written]

theorem putAll_written (h : Accepts W out) : ∀ p w,
    ((putAll W p w).1 = true → p ≠ [] → w.failed = false) ∧
    ((putAll W p w).1 = true → (putAll W p w).2.failed = w.failed ∧ written out (putAll W p w).2 = written out w ++ p) ∧
    ((putAll W p w).1 = false → (putAll W p w).2.failed = true ∧
      ∃ q, q <+: p ∧ written out (putAll W p w).2 = written out w ++ q)
  | [], w => ⟨fun _ h => absurd rfl h, fun _ => ⟨rfl, by simp [putAll]⟩, fun h => by cases h⟩
  | c :: cs, w => by
    unfold putAll
    obtain ⟨h1, h2⟩ := writeByte_written h c w
    rcases e : w.writeByte W c with ⟨_ | _, w1⟩
    · rw [e] at h2
      refine ⟨(fun h => by cases h), (fun h => by cases h), fun _ => ⟨(h2 rfl).1, [], List.nil_prefix, ?_⟩⟩
      rw [List.append_nil]
      exact (h2 rfl).2
    · rw [e] at h1
      obtain ⟨k1, k2, k3⟩ := h1 rfl
      obtain ⟨-, i2, i3⟩ := putAll_written h cs w1
      simp only at k2 k3 ⊢
      refine ⟨fun _ _ => k1, fun hp => ⟨by rw [(i2 hp).1, k1, k2], by rw [(i2 hp).2, k3]; simp⟩, fun hp => ?_⟩
      obtain ⟨j1, q, j2, j3⟩ := i3 hp
      exact ⟨j1, c :: q, (List.cons_prefix_cons).2 ⟨rfl, j2⟩, by rw [j3, k3]; simp⟩

theorem flush_grows (h : Accepts W out) (w : Buffered σ) : out w.sink <+: out (w.flush W).2.sink := by
  unfold Buffered.flush
  by_cases hf : w.failed
  · rw [if_pos hf]; exact List.prefix_refl _
  · rw [if_neg hf]
    by_cases hb : w.buf = []
    · rw [if_pos hb]; exact List.prefix_refl _
    · rw [if_neg hb]
      obtain ⟨-, h2⟩ := h w.sink w.buf
      rcases e : W.write w.sink w.buf with ⟨n, er, s⟩
      rw [e] at h2
      simp only at h2 ⊢
      split <;> exact ⟨_, h2.symm⟩

theorem writeByte_grows (h : Accepts W out) (c : Byte) (w : Buffered σ) : out w.sink <+: out (w.writeByte W c).2.sink := by
  unfold Buffered.writeByte
  by_cases hf : w.failed
  · rw [if_pos hf]; exact List.prefix_refl _
  · rw [if_neg hf]
    by_cases hb : w.buf.length < w.cap
    · rw [if_pos hb]; exact List.prefix_refl _
    · rw [if_neg hb]
      have h1 := flush_grows h w
      rcases e : w.flush W with ⟨_ | _, w1⟩ <;> rw [e] at h1 <;> exact h1

theorem putAll_grows (h : Accepts W out) : ∀ p w, out w.sink <+: out (putAll W p w).2.sink
  | [], w => List.prefix_refl _
  | c :: cs, w => by
    unfold putAll
    have h1 := writeByte_grows h c w
    rcases e : w.writeByte W c with ⟨_ | _, w1⟩ <;> rw [e] at h1
    · exact h1
    · exact h1.trans (putAll_grows h cs w1)

theorem encodeAll_grows (h : Accepts W out) : ∀ vs w, out w.sink <+: out (encodeAll W vs w).2.sink
  | [], w => List.prefix_refl _
  | v :: vs, w => by
    unfold encodeAll encodeTo
    rw [encodeLoop_eq]
    exact (putAll_grows h (encode v) w).trans (encodeAll_grows h vs _)

theorem putAll_failed (p : List Byte) (hp : p ≠ []) (w : Buffered σ) (hw : w.failed = true) : putAll W p w = (false, w) := by
  match p with
  | [] => exact absurd rfl hp
  | c :: cs =>
    unfold putAll Buffered.writeByte
    rw [if_pos hw]

theorem encode_ne_nil (v : U32) : encode v ≠ [] := by
  unfold encode
  simp only
  split <;> simp

theorem encodeAll_written (h : Accepts W out) : ∀ vs w,
    ((encodeAll W vs w).2.failed = false → w.failed = false ∧
      written out (encodeAll W vs w).2 = written out w ++ vs.flatMap encode ∧
      (encodeAll W vs w).1 = vs.map fun v => ((encode v).length, true)) ∧
    (∃ q, q <+: vs.flatMap encode ∧ written out (encodeAll W vs w).2 = written out w ++ q) ∧
    (w.failed = true → (encodeAll W vs w).2 = w) ∧
    (∀ r ∈ (encodeAll W vs w).1, r.2 = false → r.1 = 0)
  | [], w => ⟨fun hf => ⟨hf, by simp [encodeAll], rfl⟩, ⟨[], List.nil_prefix, by simp [encodeAll]⟩, fun _ => rfl,
      fun _ h => by cases h⟩
  | v :: vs, w => by
    unfold encodeAll encodeTo
    rw [encodeLoop_eq]
    obtain ⟨p1, p2, p3⟩ := putAll_written h (encode v) w
    have p4 := fun hw => putAll_failed (W := W) (encode v) (encode_ne_nil v) w hw
    rcases e : putAll W (encode v) w with ⟨ok, w1⟩
    rw [e] at p1 p2 p3 p4
    obtain ⟨i1, i2, i3, i4⟩ := encodeAll_written h vs w1
    simp only at p1 p2 p3 p4 ⊢
    cases ok with
    | true =>
      obtain ⟨k2, k3⟩ := p2 rfl
      have k1 := p1 rfl (encode_ne_nil v)
      refine ⟨fun hf => ?_, ?_, fun hw => ?_, ?_⟩
      · obtain ⟨j1, j2, j3⟩ := i1 hf
        exact ⟨k1, by rw [j2, k3]; simp, by rw [j3]; simp⟩
      · obtain ⟨q, j1, j2⟩ := i2
        obtain ⟨t, j1⟩ := j1
        exact ⟨encode v ++ q, ⟨t, by rw [List.append_assoc, j1]; rfl⟩, by rw [j2, k3]; simp⟩
      · rw [hw] at k1; cases k1
      · intro r hr hz
        rcases List.mem_cons.1 hr with rfl | hr
        · cases hz
        · exact i4 r hr hz
    | false =>
      obtain ⟨k1, q, k2, k3⟩ := p3 rfl
      have k4 := i3 k1
      refine ⟨fun hf => ?_, ?_, fun hw => ?_, ?_⟩
      · rw [k4, k1] at hf; cases hf
      · refine ⟨q, k2.trans (List.prefix_append _ _), ?_⟩
        rw [k4, k3]
      · rw [k4]
        have := p4 hw
        cases this
        rfl
      · intro r hr hz
        rcases List.mem_cons.1 hr with rfl | hr
        · rfl
        · exact i4 r hr hz

theorem reads_encoded : ∀ vs : List U32, Reads (vs.flatMap encode) vs
  | [] => rfl
  | v :: vs => ⟨_, _, (roundtrip v (vs.flatMap encode)).2.1, reads_encoded vs⟩

/-- **C103**. Values are encoded one after the other to a new buffered writer of any size in front of any writer, whatever
`Encode` returns on the way, and then the buffer is flushed. If `Flush` reports no error, none of the calls did, each returned
the number of its bytes, and what the writer behind has got, after what it had, is numbers that `Decode` reads as the values
given. In any case it has got nothing but the beginning of those bytes, and calls that report an error return 0. -/
theorem encoded_or_reported (h : Accepts W out) (cap : Nat) (s : σ) (vs : List U32) :
    ∃ bytes, Reads bytes vs ∧
      (((encodeAll W vs ⟨cap, [], false, s⟩).2.flush W).1 = true →
        out ((encodeAll W vs ⟨cap, [], false, s⟩).2.flush W).2.sink = out s ++ bytes ∧
        (encodeAll W vs ⟨cap, [], false, s⟩).1 = vs.map fun v => ((encode v).length, true)) ∧
      (∃ q, q <+: bytes ∧ out ((encodeAll W vs ⟨cap, [], false, s⟩).2.flush W).2.sink = out s ++ q) ∧
      (∀ r ∈ (encodeAll W vs ⟨cap, [], false, s⟩).1, r.2 = false → r.1 = 0) := by
  obtain ⟨h1, ⟨q, h2, h3⟩, -, h4⟩ := encodeAll_written h vs ⟨cap, [], false, s⟩
  obtain ⟨f1, f2, -, f3⟩ := flush_written h (encodeAll W vs ⟨cap, [], false, s⟩).2
  refine ⟨vs.flatMap encode, reads_encoded vs, fun hf => ?_, ?_, h4⟩
  · have hw : (encodeAll W vs ⟨cap, [], false, s⟩).2.failed = false := by
      cases hx : (encodeAll W vs ⟨cap, [], false, s⟩).2.failed with
      | false => rfl
      | true =>
        unfold Buffered.flush at hf
        rw [if_pos hx] at hf
        cases hf
    obtain ⟨-, k2, k3⟩ := h1 hw
    rw [k2] at f1
    simp only [written, f3 hf, List.append_nil] at f1
    exact ⟨f1, k3⟩
  · rw [h3] at f1
    simp only [written, List.append_nil] at f1
    have hp : out ((encodeAll W vs ⟨cap, [], false, s⟩).2.flush W).2.sink <+: out s ++ q := ⟨_, f1⟩
    have hq : out s <+: out ((encodeAll W vs ⟨cap, [], false, s⟩).2.flush W).2.sink :=
      (encodeAll_grows h vs ⟨cap, [], false, s⟩).trans (flush_grows h _)
    obtain ⟨t, ht⟩ := hq
    rw [← ht] at hp ⊢
    exact ⟨t, ((List.prefix_append_right_inj _).1 hp).trans h2, rfl⟩

/-- **C103**, what the calls report on the way. From the first call that reports an error on all do, and all of those return
0. The calls before it returned the number of their bytes, and all of their bytes have been taken by the writer behind or
are still in the buffer; of the first call that reports an error there may be a beginning, but not everything, and of the
later ones nothing. -/
theorem reported_at_once (h : Accepts W out) (cap : Nat) (s : σ) (vs : List U32) :
    ∃ k q, k ≤ vs.length ∧
      (encodeAll W vs ⟨cap, [], false, s⟩).1 =
        ((vs.take k).map fun v => ((encode v).length, true)) ++ List.replicate (vs.length - k) (0, false) ∧
      out (encodeAll W vs ⟨cap, [], false, s⟩).2.sink ++ (encodeAll W vs ⟨cap, [], false, s⟩).2.buf =
        out s ++ (vs.take k).flatMap encode ++ q ∧
      (k = vs.length → q = []) ∧
      (∀ v, vs[k]? = some v → q <+: encode v ∧ q ≠ encode v) := by
  have hs : ∀ p (w : Buffered σ), (putAll W p w).1 = false →
      ∃ q, q <+: p ∧ q ≠ p ∧ written out (putAll W p w).2 = written out w ++ q := by
    intro p
    induction p with
    | nil => intro w h; cases h
    | cons c cs ih =>
      intro w hp
      unfold putAll at hp ⊢
      obtain ⟨h1, h2⟩ := writeByte_written h c w
      rcases e : w.writeByte W c with ⟨_ | _, w1⟩ <;> rw [e] at h1 h2 hp
      · refine ⟨[], List.nil_prefix, (fun hx => by cases hx), ?_⟩
        rw [List.append_nil]
        exact (h2 rfl).2
      · obtain ⟨q, i1, i2, i3⟩ := ih w1 hp
        refine ⟨c :: q, (List.cons_prefix_cons).2 ⟨rfl, i1⟩, fun hx => i2 (List.cons.inj hx).2, ?_⟩
        have h3 := (h1 rfl).2.2
        simp only at i3 h3 ⊢
        rw [i3, h3]
        simp
  have hd : ∀ vs (w : Buffered σ), w.failed = true → encodeAll W vs w = (List.replicate vs.length (0, false), w) := by
    intro vs
    induction vs with
    | nil => intro w _; rfl
    | cons v vs ih =>
      intro w hw
      unfold encodeAll encodeTo
      rw [encodeLoop_eq, putAll_failed (encode v) (encode_ne_nil v) w hw]
      simp only
      rw [ih w hw]
      rfl
  have key : ∀ vs (w : Buffered σ), ∃ k q, k ≤ vs.length ∧
      (encodeAll W vs w).1 =
        ((vs.take k).map fun v => ((encode v).length, true)) ++ List.replicate (vs.length - k) (0, false) ∧
      written out (encodeAll W vs w).2 = written out w ++ (vs.take k).flatMap encode ++ q ∧
      (k = vs.length → q = []) ∧ (∀ v, vs[k]? = some v → q <+: encode v ∧ q ≠ encode v) := by
    intro vs
    induction vs with
    | nil => exact fun w => ⟨0, [], Nat.le_refl _, rfl, by simp [encodeAll], fun _ => rfl, fun v h => by cases h⟩
    | cons v vs ih =>
      intro w
      unfold encodeAll encodeTo
      rw [encodeLoop_eq]
      obtain ⟨-, p2, p3⟩ := putAll_written h (encode v) w
      have p4 := hs (encode v) w
      rcases e : putAll W (encode v) w with ⟨ok, w1⟩
      rw [e] at p2 p3 p4
      simp only at p2 p3 p4 ⊢
      cases ok with
      | true =>
        obtain ⟨k, q, h1, h2, h3, h4, h5⟩ := ih w1
        refine ⟨k + 1, q, Nat.succ_le_succ h1, ?_, ?_, fun hk => h4 (by simpa using hk), fun u hu => h5 u (by simpa using hu)⟩
        · rw [h2]; simp
        · rw [h3, (p2 rfl).2]; simp
      | false =>
        obtain ⟨q, h1, h2, h3⟩ := p4 rfl
        refine ⟨0, q, Nat.zero_le _, ?_, ?_, fun hk => by simp at hk, fun u hu => ?_⟩
        · rw [hd vs w1 (p3 rfl).1]; simp [List.replicate_succ]
        · rw [hd vs w1 (p3 rfl).1]; simpa using h3
        · simp only [List.getElem?_cons_zero, Option.some.injEq] at hu
          subst hu
          exact ⟨h1, h2⟩
  obtain ⟨k, q, h1, h2, h3, h4⟩ := key vs ⟨cap, [], false, s⟩
  refine ⟨k, q, h1, h2, ?_, h4⟩
  simpa [written] using h3

/-- A writer that always takes everything reports no error, so none is reported. -/
theorem nothing_to_report (hW : ∀ s p, W.write s p = (p.length, false, (W.write s p).2.2)) (cap : Nat)
    (s : σ) (vs : List U32) : ((encodeAll W vs ⟨cap, [], false, s⟩).2.flush W).1 = true := by
  have hf : ∀ w : Buffered σ, w.failed = false → (w.flush W).1 = true ∧ (w.flush W).2.failed = false := by
    intro w hw
    unfold Buffered.flush
    rw [if_neg (by rw [hw]; decide)]
    split
    · exact ⟨rfl, hw⟩
    · rw [hW]
      simp [hw]
  have hb : ∀ c (w : Buffered σ), w.failed = false → (w.writeByte W c).1 = true ∧ (w.writeByte W c).2.failed = false := by
    intro c w hw
    unfold Buffered.writeByte
    rw [if_neg (by rw [hw]; decide)]
    split
    · exact ⟨rfl, hw⟩
    · have := hf w hw
      rcases e : w.flush W with ⟨_ | _, w1⟩ <;> rw [e] at this
      · cases this.1
      · exact ⟨rfl, this.2⟩
  have hp : ∀ p (w : Buffered σ), w.failed = false → (putAll W p w).2.failed = false := by
    intro p
    induction p with
    | nil => exact fun w hw => hw
    | cons c cs ih =>
      intro w hw
      unfold putAll
      have := hb c w hw
      rcases e : w.writeByte W c with ⟨_ | _, w1⟩ <;> rw [e] at this
      · cases this.1
      · exact ih w1 this.2
  have ha : ∀ vs (w : Buffered σ), w.failed = false → (encodeAll W vs w).2.failed = false := by
    intro vs
    induction vs with
    | nil => exact fun w hw => hw
    | cons v vs ih =>
      intro w hw
      unfold encodeAll encodeTo
      rw [encodeLoop_eq]
      exact ih _ (hp _ w hw)
  exact (hf _ (ha vs _ rfl)).1

/-- A writer that has room for so many bytes more, and then takes what fits and reports an error. -/
def disk : Writer (Nat × List Byte) where
  write s p := (min s.1 p.length, s.1 < p.length, (s.1 - p.length, s.2 ++ p.take s.1))

theorem disk_accepts : Accepts disk Prod.snd := by
  intro s p
  refine ⟨Nat.min_le_right _ _, ?_⟩
  show s.2 ++ p.take s.1 = s.2 ++ p.take (min s.1 p.length)
  rcases Nat.le_total s.1 p.length with h | h
  · rw [Nat.min_eq_left h]
  · rw [Nat.min_eq_right h, List.take_of_length_le h, List.take_of_length_le (Nat.le_refl _)]

/-- Meets the hypothesis of `encoded_or_reported`, with room for everything, and with a disk that gets full in the middle of a
number: the error is seen at the next one and by `Flush`. -/
example : Accepts disk Prod.snd ∧
    (encodeAll disk [624485, 3] ⟨2, [], false, (9, [7])⟩).1 = [(3, true), (1, true)] ∧
    ((encodeAll disk [624485, 3] ⟨2, [], false, (9, [7])⟩).2.flush disk).1 = true ∧
    ((encodeAll disk [624485, 3] ⟨2, [], false, (9, [7])⟩).2.flush disk).2.sink.2 = [7, 0xE5, 0x8E, 0x26, 3] ∧
    (encodeAll disk [624485, 3, 5] ⟨2, [], false, (3, [7])⟩).1 = [(3, true), (1, true), (0, false)] ∧
    ((encodeAll disk [624485, 3, 5] ⟨2, [], false, (3, [7])⟩).2.flush disk).1 = false := by
  refine ⟨disk_accepts, ?_⟩
  simp [encodeAll, encodeTo, encodeLoop, Buffered.writeByte, Buffered.flush, disk]

end Verif.Leb128
