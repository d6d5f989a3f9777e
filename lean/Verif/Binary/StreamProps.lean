import Verif.Binary.Stream
import Verif.Binary.Lemmas

/-!
# Reading from an `io.Reader`: C100 and C101
-/

namespace Verif.Binary.Stream

open Io

variable {σ α β : Type} {R : Reader σ} {fuel : Nat} {I : σ → List Byte → Prop}

/-! ## Specification -/

namespace Spec

/-- `I s bs` is kept by a reader that, in the state `s`, has still to hand out the bytes `bs`: a call gives at most as many
bytes as it is asked for, the next ones; end of file is only said when nothing is left. Calls without bytes, an error together
with bytes, and errors other than end of file are all allowed, as the documentation of `io.Reader` allows them. -/
def Delivers (R : Reader σ) (I : σ → List Byte → Prop) : Prop :=
  ∀ s bs n, I s bs → 0 < n → ∃ d e s' rest, R.read s n = (d, e, s') ∧ d.length ≤ n ∧ bs = d ++ rest ∧ I s' rest ∧
    (e = some .eof → rest = [])

/-- A reader that always hands out a byte while it has one, without an error, and then says end of file, as files, buffers
and strings do. -/
structure Polite (R : Reader σ) (I : σ → List Byte → Prop) : Prop where
  more : ∀ s bs n, I s bs → bs ≠ [] → 0 < n → ∃ d s' rest, R.read s n = (d, none, s') ∧ d ≠ [] ∧ d.length ≤ n ∧
    bs = d ++ rest ∧ I s' rest
  done : ∀ s n, I s [] → 0 < n → ∃ s', R.read s n = ([], some .eof, s') ∧ I s' []

/-- The bytes of a section's id and of a size of which nothing is known but that it does not go on before its last byte. -/
def BareHeader (q : List Byte) : Prop := ∃ id w b, q = id :: (w ++ [b]) ∧ ∀ x ∈ w, 128 ≤ x.toNat

end Spec

open Spec

theorem Polite.delivers (h : Polite R I) : Delivers R I := by
  intro s bs n hI hn
  by_cases hb : bs = []
  · subst hb
    obtain ⟨s', h1, h2⟩ := h.done s n hI hn
    exact ⟨[], _, s', [], h1, Nat.zero_le _, rfl, h2, fun _ => rfl⟩
  · obtain ⟨d, s', rest, h1, -, h3, h4, h5⟩ := h.more s bs n hI hb hn
    exact ⟨d, _, s', rest, h1, h3, h4, h5, fun e => by cases e⟩

/-! ## A success is one of the bytes -/

/-- What is read from the reader is read from its bytes. -/
def Sound (I : σ → List Byte → Prop) (m : SM σ α) (r : Rd α) : Prop :=
  ∀ s bs a s', I s bs → m s = (.ok a, s') → ∃ rest, r bs = (.ok a, rest) ∧ I s' rest

theorem Sound.pure (a : α) : Sound I (pure a : SM σ α) (pure a) := by
  intro s bs b s' hI h
  cases h
  exact ⟨bs, rfl, hI⟩

theorem Sound.fail : Sound I (SM.fail : SM σ α) SM.fail := by
  intro s bs b s' hI h
  cases h

theorem Sound.bind {m : SM σ α} {r : Rd α} {f : α → SM σ β} {g : α → Rd β} (h : Sound I m r) (h' : ∀ a, Sound I (f a) (g a)) :
    Sound I (m >>= f) (r >>= g) := by
  intro s bs b s' hI e
  obtain ⟨a, s1, e1, e2⟩ := SM.bind_eq_ok.1 e
  obtain ⟨t, k1, k2⟩ := h s bs a s1 hI e1
  obtain ⟨rest, k3, k4⟩ := h' a s1 t b s' k2 e2
  exact ⟨rest, by rw [SM.bind_ok k1, k3], k4⟩

theorem Sound.ite {c : Prop} [Decidable c] {m n : SM σ α} {r t : Rd α} (h : Sound I m r) (h' : Sound I n t) :
    Sound I (if c then m else n) (if c then r else t) := by
  by_cases hc : c
  · rw [if_pos hc, if_pos hc]; exact h
  · rw [if_neg hc, if_neg hc]; exact h'

theorem Sound.many {m : SM σ α} {r : Rd α} (h : Sound I m r) : ∀ n, Sound I (readMany m n) (Binary.readMany r n)
  | 0 => .pure _
  | n + 1 => h.bind fun _ => (Sound.many h n).bind fun _ => .pure _

theorem fullLoop_sound (D : Delivers R I) (n : Nat) : ∀ k got s bs, I s bs → got.length ≤ n →
    (∀ p s', readFullLoop R n k got s = (.ok p, s') → ∃ rest, got ++ bs = p ++ rest ∧ p.length = n ∧ I s' rest) ∧
    (∀ s', readFullLoop R n k got s = (.eof, s') → got = [] ∧ bs = [])
  | 0, got, s, bs, hI, hg => by
    unfold readFullLoop
    constructor
    · intro p s' e
      by_cases h : n ≤ got.length
      · rw [if_pos h] at e
        cases e
        exact ⟨bs, rfl, by omega, hI⟩
      · rw [if_neg h] at e; cases e
    · intro s' e
      by_cases h : n ≤ got.length
      · rw [if_pos h] at e; cases e
      · rw [if_neg h] at e; cases e
  | k + 1, got, s, bs, hI, hg => by
    unfold readFullLoop
    by_cases h : n ≤ got.length
    · rw [if_pos h]
      constructor
      · intro p s' e
        cases e
        exact ⟨bs, rfl, by omega, hI⟩
      · intro s' e; cases e
    · rw [if_neg h]
      obtain ⟨d, e, s1, rest, h1, h2, h3, h4, h5⟩ := D s bs (n - got.length) hI (by omega)
      rw [h1]
      have hl : (got ++ d).length ≤ n := by rw [List.length_append]; omega
      have ih := fullLoop_sound D n k (got ++ d) s1 rest h4 hl
      cases e with
      | none =>
        simp only
        constructor
        · intro p s' e
          obtain ⟨r, k1, k2, k3⟩ := ih.1 p s' e
          exact ⟨r, by rw [h3, ← List.append_assoc]; exact k1, k2, k3⟩
        · intro s' e
          obtain ⟨k1, k2⟩ := ih.2 s' e
          obtain ⟨k3, k4⟩ := List.append_eq_nil_iff.1 k1
          exact ⟨k3, by rw [h3, k4, k2]; rfl⟩
      | some e =>
        simp only
        by_cases hn : n ≤ (got ++ d).length
        · rw [if_pos hn]
          constructor
          · intro p s' e
            cases e
            exact ⟨rest, by rw [h3, List.append_assoc], by omega, h4⟩
          · intro s' e; cases e
        · rw [if_neg hn]
          by_cases he : e = .eof ∧ got ++ d = []
          · rw [if_pos he]
            constructor
            · intro p s' e; cases e
            · intro s' _
              obtain ⟨k3, k4⟩ := List.append_eq_nil_iff.1 he.2
              exact ⟨k3, by rw [h3, k4, h5 (by rw [he.1])]; rfl⟩
          · rw [if_neg he]
            constructor
            · intro p s' e; cases e
            · intro s' e; cases e

theorem passing_ok {f : σ → Out α × σ} {s s' : σ} {a : α} (h : passing f s = (.ok a, s')) : f s = (.ok a, s') := by
  unfold passing at h
  rcases e : f s with ⟨o, t⟩
  rw [e] at h
  cases o <;> simp_all [Out.res]

theorem sound_bytes (D : Delivers R I) (n : Nat) : Sound I (readBytes R fuel n) (Binary.readBytes n) := by
  intro s bs p s' hI e
  obtain ⟨rest, h1, h2, h3⟩ := (fullLoop_sound D n fuel [] s bs hI (Nat.zero_le _)).1 p s' (passing_ok e)
  refine ⟨rest, ?_, h3⟩
  rw [List.nil_append] at h1
  subst h1
  unfold Binary.readBytes
  rw [if_neg (by rw [List.length_append]; omega), ← h2, List.take_left, List.drop_left]

theorem byteOut_ok (D : Delivers R I) {s s' : σ} {bs : List Byte} {b : Byte} (hI : I s bs) (h : byteOut R fuel s = (.ok b, s')) :
    ∃ rest, bs = b :: rest ∧ I s' rest := by
  unfold byteOut at h
  rcases e : readFull R fuel 1 s with ⟨o, t⟩
  rw [e] at h
  cases o with
  | ok p =>
    obtain ⟨rest, h1, h2, h3⟩ := (fullLoop_sound D 1 fuel [] s bs hI (Nat.zero_le _)).1 p t e
    match p, h2 with
    | [c], _ =>
      cases h
      exact ⟨rest, h1, h3⟩
  | _ => cases h

theorem byteOut_eof (D : Delivers R I) {s s' : σ} {bs : List Byte} (hI : I s bs) (h : byteOut R fuel s = (.eof, s')) : bs = [] := by
  unfold byteOut at h
  rcases e : readFull R fuel 1 s with ⟨o, t⟩
  rw [e] at h
  cases o with
  | eof => exact ((fullLoop_sound D 1 fuel [] s bs hI (Nat.zero_le _)).2 t e).2
  | _ => cases h

theorem sound_byte (D : Delivers R I) : Sound I (readByte R fuel) Binary.readByte := by
  intro s bs b s' hI e
  obtain ⟨rest, rfl, h⟩ := byteOut_ok D hI (passing_ok e)
  exact ⟨rest, rfl, h⟩

theorem top_bit (b : Byte) (h : ¬ b &&& 0b10000000#8 = 0#8) : 128 ≤ b.toNat := by
  revert h; revert b; decide

theorem lebLoop_sound (D : Delivers R I) : ∀ k val shift total s bs, I s bs →
    (∀ v s', lebLoop R k val shift s = (.ok v, s') → ∃ n rest, Leb128.decodeReaderLoop val shift total bs = .ok (v, n, rest) ∧ I s' rest) ∧
    (∀ s', lebLoop R k val shift s = (.eof, s') → ∃ w b, bs = w ++ [b] ∧ ∀ x ∈ w, 128 ≤ x.toNat)
  | 0, val, shift, total, s, bs, hI => by
    unfold lebLoop
    exact ⟨fun v s' e => (by cases e), fun s' e => by cases e⟩
  | k + 1, val, shift, total, s, bs, hI => by
    unfold lebLoop
    obtain ⟨d, e, s1, rest, h1, h2, h3, h4, h5⟩ := D s bs 1 hI Nat.one_pos
    rw [h1]
    match d, h2 with
    | [], _ =>
      simp only
      exact ⟨fun v s' e => (by cases e), fun s' e => by cases e⟩
    | [b], _ =>
      cases e with
      | some e =>
        cases e with
        | eof =>
          refine ⟨fun v s' e => (by cases e), fun s' _ => ⟨[], b, ?_, by simp⟩⟩
          rw [h3, h5 rfl]; rfl
        | other => exact ⟨fun v s' e => (by cases e), fun s' e => by cases e⟩
      | none =>
        simp only
        rw [h3, List.singleton_append, Leb128.decodeReaderLoop]
        by_cases hb : b &&& 0b10000000#8 = 0#8
        · rw [if_pos hb, if_pos hb]
          refine ⟨fun v s' e => ?_, fun s' e => by cases e⟩
          cases e
          exact ⟨_, rest, rfl, h4⟩
        · rw [if_neg hb, if_neg hb]
          have ih := lebLoop_sound D k (val ||| ((b &&& 0b01111111#8).zeroExtend 32 <<< shift)) (shift + 7) (total + 1) s1 rest h4
          refine ⟨ih.1, fun s' e => ?_⟩
          obtain ⟨w, c, k1, k2⟩ := ih.2 s' e
          refine ⟨b :: w, c, by rw [k1]; rfl, ?_⟩
          intro x hx
          rcases List.mem_cons.1 hx with rfl | hx
          · exact top_bit _ hb
          · exact k2 x hx

theorem lebOut_ok (D : Delivers R I) {s s' : σ} {bs : List Byte} {v : U32} (hI : I s bs) (h : lebOut R fuel s = (.ok v, s')) :
    ∃ rest, Binary.readLeb bs = (.ok v, rest) ∧ I s' rest := by
  obtain ⟨n, rest, h1, h2⟩ := (lebLoop_sound D fuel 0#32 0 0 s bs hI).1 v s' h
  refine ⟨rest, ?_, h2⟩
  unfold Binary.readLeb Leb128.decodeReader
  rw [h1]

theorem sound_leb (D : Delivers R I) : Sound I (readLeb R fuel) Binary.readLeb :=
  fun _ _ _ _ hI e => lebOut_ok D hI (passing_ok e)

theorem sound_uint16 (D : Delivers R I) : Sound I (readUInt16 R fuel) Binary.readUInt16 := by
  intro s bs v s' hI e
  obtain ⟨p, s1, e1, e2⟩ := SM.bind_eq_ok.1 e
  obtain ⟨rest, h1, h2, h3⟩ := (fullLoop_sound D 2 fuel [] s bs hI (Nat.zero_le _)).1 p s1 (passing_ok e1)
  match p, h2 with
  | [lo, hi], _ =>
    cases e2
    rw [List.nil_append] at h1
    subst h1
    exact ⟨rest, rfl, h3⟩

theorem sound_valueType (D : Delivers R I) : Sound I (readValueType R fuel) Binary.readValueType :=
  (sound_byte D).bind fun _ => .ite (.pure _) (.ite (.pure _) (.ite (.pure _) (.ite (.pure _) .fail)))

theorem sound_valueTypes (D : Delivers R I) : Sound I (readValueTypes R fuel) Binary.readValueTypes :=
  (sound_leb D).bind fun n => (sound_valueType D).many n.toNat

theorem sound_type (D : Delivers R I) : Sound I (readType R fuel) Binary.readType :=
  (sound_byte D).bind fun _ => .ite .fail ((sound_valueTypes D).bind fun _ => (sound_valueTypes D).bind fun _ => .pure _)

theorem sound_export (D : Delivers R I) : Sound I (readExport R fuel) Binary.readExport :=
  ((sound_leb D).bind fun n => .ite (.pure _) (sound_bytes D n.toNat)).bind fun _ =>
    (sound_byte D).bind fun _ => (sound_leb D).bind fun _ => .ite (.pure _) .fail

theorem sound_instruction (D : Delivers R I) : Sound I (readInstruction R fuel) Binary.readInstruction :=
  (sound_byte D).bind fun _ => .ite (.pure _) (.ite ((sound_leb D).bind fun _ => .pure _) (.ite (.pure _) .fail))

theorem sound_expressionLoop (D : Delivers R I) : ∀ k, Sound I (readExpressionLoop R fuel k) (Binary.readExpressionLoop k)
  | 0 => fun _ _ _ _ _ e => by cases e
  | k + 1 => (sound_instruction D).bind fun _ => .ite (.pure _) ((sound_expressionLoop D k).bind fun _ => .pure _)

/-- More rounds change nothing. -/
theorem expressionLoop_mono : ∀ (k l : Nat) (bs : List Byte), k ≤ l → (Binary.readExpressionLoop k bs).1 ≠ .diverge →
    Binary.readExpressionLoop l bs = Binary.readExpressionLoop k bs
  | 0, _, _, _, h => absurd rfl h
  | k + 1, l + 1, bs, hkl, h => by
    unfold Binary.readExpressionLoop at h ⊢
    rcases e : Binary.readInstruction bs with ⟨x, t⟩
    rw [SM.bind_def, e] at h ⊢
    rw [SM.bind_def, e]
    cases x with
    | ok i =>
      simp only at h ⊢
      by_cases hi : i = .end_
      · rw [if_pos hi, if_pos hi]
      · rw [if_neg hi] at h ⊢
        rw [if_neg hi]
        have : (Binary.readExpressionLoop k t).1 ≠ .diverge := by
          intro hd
          apply h
          rw [SM.bind_def]
          rcases e' : Binary.readExpressionLoop k t with ⟨y, u⟩
          rw [e'] at hd
          cases y <;> simp_all
        rw [SM.bind_def, SM.bind_def, expressionLoop_mono k l t (by omega) this]
    | _ => rfl

theorem sound_expression (D : Delivers R I) : Sound I (readExpression R fuel) Binary.readExpression := by
  intro s bs is s' hI e
  obtain ⟨rest, h1, h2⟩ := sound_expressionLoop D fuel s bs is s' hI e
  refine ⟨rest, ?_, h2⟩
  unfold Binary.readExpression
  by_cases hle : fuel ≤ bs.length + 1
  · rw [expressionLoop_mono fuel _ bs hle (by rw [h1]; simp), h1]
  · have ht := exprLoop_tame (bs.length + 1) bs (Nat.lt_succ_self _)
    have hd : (Binary.readExpressionLoop (bs.length + 1) bs).1 ≠ .diverge := by
      intro hd; rw [hd] at ht; simp at ht
    rw [← expressionLoop_mono (bs.length + 1) fuel bs (by omega) hd, h1]

theorem sound_updateLoop (D : Delivers R I) : ∀ n i fs, Sound I (updateFuncsLoop R fuel n i fs) (Binary.updateFuncsLoop n i fs)
  | 0, _, _ => .pure _
  | n + 1, i, fs => by
    unfold updateFuncsLoop Binary.updateFuncsLoop
    cases fs[i]? with
    | none => exact .fail
    | some f => exact (sound_leb D).bind fun _ => (sound_valueTypes D).bind fun _ => (sound_expression D).bind fun _ =>
        sound_updateLoop D n (i + 1) _

theorem sound_update (D : Delivers R I) (fs : List Func) : Sound I (updateFuncs R fuel fs) (Binary.updateFuncs fs) :=
  (sound_leb D).bind fun n => sound_updateLoop D n.toNat 0 fs

theorem sound_section (D : Delivers R I) (m : Module) (id : Byte) (size : U32) :
    Sound I (readSection R fuel m id size) (Binary.readSection m id size) :=
  .ite (((sound_leb D).bind fun n => (sound_type D).many n.toNat).bind fun _ => .pure _)
    (.ite (((sound_leb D).bind fun n => Sound.many ((sound_leb D).bind fun _ => .pure _) n.toNat).bind fun _ => .pure _)
      (.ite ((sound_update D _).bind fun _ => .pure _)
        (.ite (((sound_leb D).bind fun n => (sound_export D).many n.toNat).bind fun _ => .pure _)
          ((sound_bytes D _).bind fun _ => .pure _))))

theorem header_sound (D : Delivers R I) {s s' : σ} {bs : List Byte} (hI : I s bs) :
    (∀ id size, readSectionHeader R fuel s = (.ok (some (id, size)), s') →
      ∃ rest, bs = id :: rest ∧ ∃ rest', Binary.readLeb rest = (.ok size, rest') ∧ I s' rest') ∧
    (readSectionHeader R fuel s = (.ok none, s') → bs = [] ∨ BareHeader bs) := by
  unfold readSectionHeader
  rcases e : byteOut R fuel s with ⟨o, t⟩
  cases o with
  | ok id =>
    obtain ⟨rest, rfl, h1⟩ := byteOut_ok D hI e
    simp only
    rcases e' : lebOut R fuel t with ⟨o, u⟩
    cases o with
    | ok size =>
      refine ⟨fun id' size' h => ?_, fun h => by cases h⟩
      cases h
      obtain ⟨rest', h2, h3⟩ := lebOut_ok D h1 e'
      exact ⟨rest, rfl, rest', h2, h3⟩
    | eof =>
      refine ⟨fun id' size' h => (by cases h), fun _ => .inr ?_⟩
      obtain ⟨w, b, rfl, hw⟩ := (lebLoop_sound D fuel 0#32 0 0 t rest h1).2 u e'
      exact ⟨id, w, b, rfl, hw⟩
    | _ => exact ⟨fun id' size' h => (by cases h), fun h => by cases h⟩
  | eof => exact ⟨fun id' size' h => (by cases h), fun _ => .inl (byteOut_eof D hI e)⟩
  | _ => exact ⟨fun id' size' h => (by cases h), fun h => by cases h⟩

theorem moduleLoop_sound (D : Delivers R I) : ∀ k m s bs m' s', I s bs → readModuleLoop R fuel k m s = (.ok m', s') →
    ∃ p q, bs = p ++ q ∧ (∃ secs, Binary.Seq TakenSec secs p ∧ runAll m secs = some m') ∧ (q = [] ∨ BareHeader q)
  | 0, _, _, _, _, _, _, e => by cases e
  | k + 1, m, s, bs, m', s', hI, e => by
    unfold readModuleLoop at e
    obtain ⟨o, s1, e1, e2⟩ := SM.bind_eq_ok.1 e
    cases o with
    | none =>
      cases e2
      exact ⟨[], bs, rfl, ⟨[], .nil, rfl⟩, (header_sound D hI).2 e1⟩
    | some hd =>
      obtain ⟨id, size⟩ := hd
      obtain ⟨rest, rfl, rest', h1, h2⟩ := (header_sound D hI).1 id size e1
      obtain ⟨m1, s2, e3, e4⟩ := SM.bind_eq_ok.1 e2
      obtain ⟨rest2, h3, h4⟩ := sound_section D m id size s1 rest' m1 s2 h2 e3
      have h5 : oneSection m (id :: rest) = (.ok m1, rest2) := by
        unfold oneSection
        rw [SM.bind_ok (show Binary.readByte (id :: rest) = (.ok id, rest) from rfl), SM.bind_ok h1, h3]
      obtain ⟨u, hu, sec, g, hr⟩ := ((takes_section m).ok_iff _ _ _).1 h5
      obtain ⟨p, q, hp, ⟨secs, k1, k2⟩, k3⟩ := moduleLoop_sound D k m1 s2 rest2 m' s' h4 e4
      refine ⟨u ++ p, q, ?_, ⟨sec :: secs, .cons g k1, ?_⟩, k3⟩
      · rw [hu, hp, List.append_assoc]
      · simp [runAll, hr, k2]

theorem takes_uint16 : Takes Binary.readUInt16 (fun v u => ∃ lo hi : Byte, u = [lo, hi] ∧ v = hi ++ lo) :=
  (takes_byte.bind fun lo => takes_byte.bind fun hi => .pure (hi ++ lo)).congr fun v u => by
    constructor
    · rintro ⟨lo, a, b, rfl, rfl, hi, c, d, rfl, rfl, rfl, rfl⟩
      exact ⟨lo, hi, rfl, rfl⟩
    · rintro ⟨lo, hi, rfl, rfl⟩
      exact ⟨lo, [lo], [hi], rfl, rfl, hi, [hi], [], rfl, rfl, rfl, rfl⟩

theorem sound_preamble (D : Delivers R I) : Sound I (readPreamble R fuel) Binary.readPreamble :=
  (sound_bytes D _).bind fun _ => .ite .fail ((sound_uint16 D).bind fun _ => (sound_uint16 D).bind fun _ => .pure _)

theorem takes_preamble : ∃ G, Takes Binary.readPreamble G :=
  ⟨_, (takes_bytes _).bind fun _ => Takes.ite (fun _ => Takes.fail) fun _ => takes_uint16.bind fun _ => takes_uint16.bind fun _ => .pure _⟩

/-- C100, what can be trusted with every reader. Whatever the reader does that the documentation of `io.Reader` allows, a
document that is returned is the one of its bytes, or of its bytes without an id and a size at their end. -/
theorem accepted_reads_bytes (D : Delivers R I) (s : σ) (bs : List Byte) (hI : I s bs) (d : Document)
    (h : (read R fuel s).1 = .ok d) :
    ∃ p q, bs = p ++ q ∧ (Binary.read p).1 = .ok d ∧ (q = [] ∨ BareHeader q) := by
  rcases e : read R fuel s with ⟨o, s'⟩
  rw [e] at h
  simp only at h
  subst h
  unfold read at e
  obtain ⟨⟨v, l⟩, s1, e1, e2⟩ := SM.bind_eq_ok.1 e
  obtain ⟨rest, h1, h2⟩ := sound_preamble D s bs _ s1 hI e1
  by_cases hc : v = 0x0a
  · simp only [hc, if_true] at e2
    cases e2
    refine ⟨bs, [], by simp, ?_, .inl rfl⟩
    unfold Binary.read
    rw [SM.bind_ok h1]
    simp only [hc, if_true]
    rfl
  · by_cases hm : v = 0x01
    · simp only [hm, if_true] at e2
      rw [if_neg (by decide)] at e2
      obtain ⟨m, s2, e3, e4⟩ := SM.bind_eq_ok.1 e2
      cases e4
      obtain ⟨p, q, rfl, hs, hq⟩ := moduleLoop_sound D fuel _ s1 rest m _ h2 e3
      obtain ⟨G, hG⟩ := takes_preamble
      obtain ⟨u, rfl, hu⟩ := (hG.ok_iff _ _ _).1 h1
      refine ⟨u ++ p, q, by rw [List.append_assoc], ?_, hq⟩
      unfold Binary.read
      rw [SM.bind_ok ((hG.ok_iff _ _ _).2 ⟨u, rfl, hu⟩)]
      simp only [hm, if_true]
      rw [if_neg (by decide), SM.bind_ok ((readModule_ok p m []).2 ⟨rfl, hs⟩)]
      rfl
    · simp only [hc, hm, if_false] at e2
      cases e2

/-! ## Polite readers -/

/-- The reader and its bytes have the same outcome. -/
def Same (I : σ → List Byte → Prop) (fuel : Nat) (m : SM σ α) (r : Rd α) : Prop :=
  ∀ s bs, I s bs → bs.length < fuel → (r bs).1.Returns → (m s).1 = (r bs).1 ∧
    ∀ a, (r bs).1 = .ok a → I (m s).2 (r bs).2 ∧ (r bs).2.length ≤ bs.length

theorem Same.pure (a : α) : Same I fuel (pure a : SM σ α) (pure a) :=
  fun _ _ hI _ _ => ⟨rfl, fun _ _ => ⟨hI, Nat.le_refl _⟩⟩

theorem Same.fail : Same I fuel (SM.fail : SM σ α) SM.fail :=
  fun _ _ _ _ _ => ⟨rfl, fun _ h => by cases h⟩

theorem Same.bind {m : SM σ α} {r : Rd α} {f : α → SM σ β} {g : α → Rd β} (h : Same I fuel m r)
    (h' : ∀ a, Same I fuel (f a) (g a)) : Same I fuel (m >>= f) (r >>= g) := by
  intro s bs hI hf hr
  rcases e : r bs with ⟨x, t⟩
  have hx := h s bs hI hf
  rw [e] at hx
  cases x with
  | ok a =>
    obtain ⟨k1, k2⟩ := hx (by simp)
    obtain ⟨k3, k4⟩ := k2 a rfl
    have e1 : m s = (.ok a, (m s).2) := Prod.ext k1 rfl
    rw [SM.bind_ok e] at hr ⊢
    rw [SM.bind_ok e1]
    obtain ⟨k5, k6⟩ := h' a (m s).2 t k3 (Nat.lt_of_le_of_lt k4 hf) hr
    exact ⟨k5, fun b hb => ⟨(k6 b hb).1, Nat.le_trans (k6 b hb).2 k4⟩⟩
  | err =>
    obtain ⟨k1, -⟩ := hx (by simp)
    have e1 : m s = (.err, (m s).2) := Prod.ext k1 rfl
    rw [SM.bind_err e, SM.bind_err e1]
    exact ⟨rfl, fun b hb => by cases hb⟩
  | panic => rw [SM.bind_panic e] at hr; simp at hr
  | diverge => rw [SM.bind_def, e] at hr; simp at hr

theorem Same.ite {c : Prop} [Decidable c] {m n : SM σ α} {r t : Rd α} (h : Same I fuel m r) (h' : Same I fuel n t) :
    Same I fuel (if c then m else n) (if c then r else t) := by
  by_cases hc : c
  · rw [if_pos hc, if_pos hc]; exact h
  · rw [if_neg hc, if_neg hc]; exact h'

theorem Same.many {m : SM σ α} {r : Rd α} (h : Same I fuel m r) : ∀ n, Same I fuel (readMany m n) (Binary.readMany r n)
  | 0 => .pure _
  | n + 1 => h.bind fun _ => (Same.many h n).bind fun _ => .pure _

theorem fullLoop_same (P : Polite R I) (n : Nat) : ∀ k got s bs, I s bs → bs.length < k → got.length ≤ n →
    (n ≤ got.length + bs.length → ∃ s', readFullLoop R n k got s = (.ok (got ++ bs.take (n - got.length)), s') ∧
      I s' (bs.drop (n - got.length))) ∧
    (got.length + bs.length < n → ∃ s', readFullLoop R n k got s = (if got = [] ∧ bs = [] then .eof else .err, s'))
  | 0, got, s, bs, hI, hk, hg => by omega
  | k + 1, got, s, bs, hI, hk, hg => by
    unfold readFullLoop
    by_cases h : n ≤ got.length
    · rw [if_pos h]
      have : n - got.length = 0 := by omega
      rw [this]
      exact ⟨fun _ => ⟨s, by simp, by simpa using hI⟩, fun h' => by omega⟩
    · rw [if_neg h]
      by_cases hb : bs = []
      · subst hb
        obtain ⟨s', h1, h2⟩ := P.done s (n - got.length) hI (by omega)
        rw [h1]
        simp only [List.append_nil, List.length_nil]
        refine ⟨fun h' => absurd h' (by omega), fun _ => ⟨s', ?_⟩⟩
        rw [if_neg h]
        by_cases hg' : got = []
        · rw [if_pos (by simp [hg']), if_pos (by simp [hg'])]
        · rw [if_neg (fun x => hg' x.2), if_neg (fun x => hg' x.1)]
      · obtain ⟨d, s1, rest, h1, h2, h3, h4, h5⟩ := P.more s bs (n - got.length) hI hb (by omega)
        rw [h1]
        simp only
        have hd : 0 < d.length := List.length_pos_iff.2 h2
        have hl : bs.length = d.length + rest.length := by rw [h4, List.length_append]
        have hgl : (got ++ d).length = got.length + d.length := List.length_append
        obtain ⟨i1, i2⟩ := fullLoop_same P n k (got ++ d) s1 rest h5 (by omega) (by omega)
        constructor
        · intro h'
          obtain ⟨s', k1, k2⟩ := i1 (by omega)
          refine ⟨s', ?_, ?_⟩
          · rw [k1, h4, hgl, List.take_append, List.take_of_length_le h3, ← List.append_assoc, Nat.sub_sub]
          · rw [h4, List.drop_append, List.drop_eq_nil_of_le h3, List.nil_append, Nat.sub_sub, ← hgl]
            exact k2
        · intro h'
          obtain ⟨s', k1⟩ := i2 (by omega)
          refine ⟨s', ?_⟩
          rw [k1, if_neg (fun x => h2 (List.append_eq_nil_iff.1 x.1).2), if_neg (fun x => hb x.2)]

theorem same_bytes (P : Polite R I) (n : Nat) : Same I fuel (readBytes R fuel n) (Binary.readBytes n) := by
  intro s bs hI hf _
  obtain ⟨h1, h2⟩ := fullLoop_same P n fuel [] s bs hI hf (Nat.zero_le _)
  simp only [List.length_nil, Nat.zero_add, Nat.sub_zero, List.nil_append] at h1 h2
  unfold readBytes passing Binary.readBytes readFull
  by_cases h : bs.length < n
  · rw [if_pos h]
    obtain ⟨s', k⟩ := h2 h
    rw [k]
    refine ⟨?_, fun a ha => by cases ha⟩
    by_cases hb : bs = []
    · simp [hb, Out.res]
    · simp [hb, Out.res]
  · rw [if_neg h]
    obtain ⟨s', k1, k2⟩ := h1 (by omega)
    rw [k1]
    exact ⟨rfl, fun a _ => ⟨k2, by simp⟩⟩

theorem byteOut_polite (P : Polite R I) (s : σ) (bs : List Byte) (hI : I s bs) (hf : bs.length < fuel) :
    (∀ b rest, bs = b :: rest → ∃ s', byteOut R fuel s = (.ok b, s') ∧ I s' rest) ∧
    (bs = [] → ∃ s', byteOut R fuel s = (.eof, s')) := by
  obtain ⟨h1, h2⟩ := fullLoop_same P 1 fuel [] s bs hI hf (Nat.zero_le _)
  simp only [List.length_nil, Nat.zero_add, Nat.sub_zero, List.nil_append] at h1 h2
  constructor
  · intro b rest e
    subst e
    obtain ⟨s', k1, k2⟩ := h1 (by simp)
    refine ⟨s', ?_, k2⟩
    unfold byteOut readFull
    rw [k1]
    rfl
  · intro e
    subst e
    obtain ⟨s', k⟩ := h2 (by simp)
    refine ⟨s', ?_⟩
    unfold byteOut readFull
    rw [k]
    rfl

theorem same_byte (P : Polite R I) : Same I fuel (readByte R fuel) Binary.readByte := by
  intro s bs hI hf _
  obtain ⟨h1, h2⟩ := byteOut_polite P s bs hI hf
  unfold readByte passing
  cases bs with
  | nil =>
    obtain ⟨s', k⟩ := h2 rfl
    rw [k]
    exact ⟨rfl, fun a ha => by cases ha⟩
  | cons b rest =>
    obtain ⟨s', k1, k2⟩ := h1 b rest rfl
    rw [k1]
    exact ⟨rfl, fun a _ => ⟨k2, by show rest.length ≤ _; simp⟩⟩

theorem lebLoop_polite (P : Polite R I) : ∀ k val shift total s bs, I s bs → bs.length < k →
    match Leb128.decodeReaderLoop val shift total bs with
    | .ok (v, _, rest) => rest.length ≤ bs.length ∧ ∃ s', lebLoop R k val shift s = (.ok v, s') ∧ I s' rest
    | _ => ∃ s', lebLoop R k val shift s = (.err, s')
  | 0, val, shift, total, s, bs, hI, hk => by omega
  | k + 1, val, shift, total, s, [], hI, hk => by
    obtain ⟨s', h1, h2⟩ := P.done s 1 hI Nat.one_pos
    unfold lebLoop
    rw [h1]
    exact ⟨s', rfl⟩
  | k + 1, val, shift, total, s, b :: bs, hI, hk => by
    obtain ⟨d, s1, rest, h1, h2, h3, h4, h5⟩ := P.more s (b :: bs) 1 hI (by simp) Nat.one_pos
    match d, h2, h3 with
    | [c], _, _ =>
      obtain ⟨rfl, rfl⟩ := List.cons.inj h4
      have ih := lebLoop_polite P k (val ||| ((b &&& 0b01111111#8).zeroExtend 32 <<< shift)) (shift + 7) (total + 1) s1 bs h5
        (by simp only [List.length_cons] at hk; omega)
      unfold lebLoop Leb128.decodeReaderLoop
      rw [h1]
      simp only
      by_cases hb : b &&& 0b10000000#8 = 0#8
      · rw [if_pos hb, if_pos hb]
        exact ⟨by simp, s1, rfl, h5⟩
      · rw [if_neg hb, if_neg hb]
        revert ih
        cases Leb128.decodeReaderLoop (val ||| ((b &&& 0b01111111#8).zeroExtend 32 <<< shift)) (shift + 7) (total + 1) bs with
        | ok x => exact fun ih => ⟨Nat.le_trans ih.1 (by simp), ih.2⟩
        | _ => exact id

theorem leb_returns (val : U32) (shift total : Nat) (bs : List Byte) : (Leb128.decodeReaderLoop val shift total bs).Returns := by
  induction bs generalizing val shift total with
  | nil => exact .inr rfl
  | cons b bs ih =>
    unfold Leb128.decodeReaderLoop
    simp only
    split
    · exact .inl ⟨_, rfl⟩
    · exact ih _ _ _

theorem same_leb (P : Polite R I) : Same I fuel (readLeb R fuel) Binary.readLeb := by
  intro s bs hI hf _
  have h := lebLoop_polite P fuel 0#32 0 0 s bs hI hf
  have ht := leb_returns 0#32 0 0 bs
  unfold readLeb passing lebOut Binary.readLeb Leb128.decodeReader
  revert h ht
  cases Leb128.decodeReaderLoop 0#32 0 0 bs with
  | ok x =>
    obtain ⟨v, n, rest⟩ := x
    rintro ⟨k1, s', k2, k3⟩ -
    rw [k2]
    exact ⟨rfl, fun a _ => ⟨k3, k1⟩⟩
  | err =>
    rintro ⟨s', k⟩ -
    rw [k]
    exact ⟨rfl, fun a ha => by cases ha⟩
  | panic => intro _ ht; simp at ht
  | diverge => intro _ ht; simp at ht

theorem same_uint16 (P : Polite R I) : Same I fuel (readUInt16 R fuel) Binary.readUInt16 := by
  have h : Same I fuel (readUInt16 R fuel) (do
      let bs ← Binary.readBytes 2
      pure (bs.getD 1 0 ++ bs.getD 0 0)) := (same_bytes P 2).bind fun _ => .pure _
  have e : ∀ bs, (do
      let bs ← Binary.readBytes 2
      pure (bs.getD 1 0 ++ bs.getD 0 0) : Rd (BitVec 16)) bs = Binary.readUInt16 bs := by
    intro bs
    match bs with
    | [] => rfl
    | [_] => rfl
    | a :: b :: bs =>
      rw [SM.bind_ok (show Binary.readBytes 2 (a :: b :: bs) = (.ok [a, b], bs) from by
        unfold Binary.readBytes
        rw [if_neg (by simp)]
        rfl)]
      rfl
  intro s bs hI hf hr
  have := h s bs hI hf
  rw [e bs] at this
  exact this hr

theorem same_valueType (P : Polite R I) : Same I fuel (readValueType R fuel) Binary.readValueType :=
  (same_byte P).bind fun _ => .ite (.pure _) (.ite (.pure _) (.ite (.pure _) (.ite (.pure _) .fail)))

theorem same_valueTypes (P : Polite R I) : Same I fuel (readValueTypes R fuel) Binary.readValueTypes :=
  (same_leb P).bind fun n => (same_valueType P).many n.toNat

theorem same_type (P : Polite R I) : Same I fuel (readType R fuel) Binary.readType :=
  (same_byte P).bind fun _ => .ite .fail ((same_valueTypes P).bind fun _ => (same_valueTypes P).bind fun _ => .pure _)

theorem same_export (P : Polite R I) : Same I fuel (readExport R fuel) Binary.readExport :=
  ((same_leb P).bind fun n => .ite (.pure _) (same_bytes P n.toNat)).bind fun _ =>
    (same_byte P).bind fun _ => (same_leb P).bind fun _ => .ite (.pure _) .fail

theorem same_instruction (P : Polite R I) : Same I fuel (readInstruction R fuel) Binary.readInstruction :=
  (same_byte P).bind fun _ => .ite (.pure _) (.ite ((same_leb P).bind fun _ => .pure _) (.ite (.pure _) .fail))

theorem same_expressionLoop (P : Polite R I) : ∀ k, Same I fuel (readExpressionLoop R fuel k) (Binary.readExpressionLoop k)
  | 0 => fun _ _ _ _ h => by simp [Binary.readExpressionLoop] at h
  | k + 1 => (same_instruction P).bind fun _ => .ite (.pure _) ((same_expressionLoop P k).bind fun _ => .pure _)

theorem same_expression (P : Polite R I) : Same I fuel (readExpression R fuel) Binary.readExpression := by
  intro s bs hI hf hr
  have hd : (Binary.readExpressionLoop (bs.length + 1) bs).1 ≠ .diverge := by
    intro hd
    unfold Binary.readExpression at hr
    rw [hd] at hr; simp at hr
  have e := expressionLoop_mono (bs.length + 1) fuel bs hf hd
  have := same_expressionLoop P fuel s bs hI hf
  rw [e] at this
  exact this hr

theorem same_updateLoop (P : Polite R I) : ∀ n i fs, Same I fuel (updateFuncsLoop R fuel n i fs) (Binary.updateFuncsLoop n i fs)
  | 0, _, _ => .pure _
  | n + 1, i, fs => by
    unfold updateFuncsLoop Binary.updateFuncsLoop
    cases fs[i]? with
    | none => exact .fail
    | some f => exact (same_leb P).bind fun _ => (same_valueTypes P).bind fun _ => (same_expression P).bind fun _ =>
        same_updateLoop P n (i + 1) _

theorem same_update (P : Polite R I) (fs : List Func) : Same I fuel (updateFuncs R fuel fs) (Binary.updateFuncs fs) :=
  (same_leb P).bind fun n => same_updateLoop P n.toNat 0 fs

theorem same_section (P : Polite R I) (m : Module) (id : Byte) (size : U32) :
    Same I fuel (readSection R fuel m id size) (Binary.readSection m id size) :=
  .ite (((same_leb P).bind fun n => (same_type P).many n.toNat).bind fun _ => .pure _)
    (.ite (((same_leb P).bind fun n => Same.many ((same_leb P).bind fun _ => .pure _) n.toNat).bind fun _ => .pure _)
      (.ite ((same_update P _).bind fun _ => .pure _)
        (.ite (((same_leb P).bind fun n => (same_export P).many n.toNat).bind fun _ => .pure _)
          ((same_bytes P _).bind fun _ => .pure _))))

theorem same_header (P : Polite R I) : Same I fuel (readSectionHeader R fuel) Binary.readSectionHeader := by
  intro s bs hI hf hr
  obtain ⟨h1, h2⟩ := byteOut_polite P s bs hI hf
  cases bs with
  | nil =>
    obtain ⟨s', k⟩ := h2 rfl
    -- the state after the end of the file has nothing left either
    have hI' : I s' [] := by
      have h3 := (fullLoop_same P 1 fuel [] s [] hI hf (Nat.zero_le _))
      unfold byteOut readFull at k
      unfold readFullLoop at k
      cases fuel with
      | zero => omega
      | succ f =>
        obtain ⟨t, j1, j2⟩ := P.done s 1 hI Nat.one_pos
        simp [j1] at k
        rw [← k]; exact j2
    unfold readSectionHeader
    rw [k]
    exact ⟨rfl, fun a _ => ⟨hI', Nat.le_refl _⟩⟩
  | cons id rest =>
    obtain ⟨s1, k1, k2⟩ := h1 id rest rfl
    have h := lebLoop_polite P fuel 0#32 0 0 s1 rest k2 (by simp only [List.length_cons] at hf; omega)
    have ht := leb_returns 0#32 0 0 rest
    have er : Binary.readSectionHeader (id :: rest) =
        match Leb128.decodeReaderLoop 0#32 0 0 rest with
        | .ok (v, _, r) => (.ok (some (id, v)), r)
        | .err => (.err, [])
        | .panic => (.panic, [])
        | .diverge => (.diverge, []) := by
      show (Binary.readByte >>= _) (id :: rest) = _
      rw [SM.bind_ok (show Binary.readByte (id :: rest) = (.ok id, rest) from rfl), SM.bind_def]
      unfold Binary.readLeb Leb128.decodeReader
      cases Leb128.decodeReaderLoop 0#32 0 0 rest <;> rfl
    rw [er]
    unfold readSectionHeader lebOut
    rw [k1]
    revert h ht
    cases Leb128.decodeReaderLoop 0#32 0 0 rest with
    | ok x =>
      obtain ⟨v, n, r⟩ := x
      rintro ⟨j1, s', j2, j3⟩ -
      simp only [j2]
      exact ⟨trivial, fun a _ => ⟨j3, Nat.le_trans j1 (by simp)⟩⟩
    | err =>
      rintro ⟨s', j⟩ -
      simp only [j]
      exact ⟨trivial, fun a ha => by cases ha⟩
    | panic => intro _ ht; simp at ht
    | diverge => intro _ ht; simp at ht

theorem same_moduleLoop (P : Polite R I) : ∀ k m, Same I fuel (readModuleLoop R fuel k m) (Binary.readModuleLoop k m)
  | 0, _ => fun _ _ _ _ h => by simp [Binary.readModuleLoop] at h
  | k + 1, m => (same_header P).bind fun o => by
      cases o with
      | none => exact .pure _
      | some h => exact (same_section P m h.1 h.2).bind fun m => same_moduleLoop P k m

/-- More rounds change nothing. -/
theorem moduleLoop_mono : ∀ (k l : Nat) (m : Module) (bs : List Byte), k ≤ l → (Binary.readModuleLoop k m bs).1 ≠ .diverge →
    Binary.readModuleLoop l m bs = Binary.readModuleLoop k m bs
  | 0, _, _, _, _, h => absurd rfl h
  | k + 1, l + 1, m, [], hkl, h => rfl
  | k + 1, l + 1, m, b :: bs, hkl, h => by
    rw [moduleLoop_cons] at h ⊢
    rw [moduleLoop_cons]
    rcases e : oneSection m (b :: bs) with ⟨x, t⟩
    rw [SM.bind_def, e] at h ⊢
    rw [SM.bind_def, e]
    cases x with
    | ok m1 => exact moduleLoop_mono k l m1 t (by omega) h
    | _ => rfl

theorem same_module (P : Polite R I) : Same I fuel (readModule R fuel) Binary.readModule := by
  intro s bs hI hf hr
  have hd : (Binary.readModuleLoop (bs.length + 1) ⟨[], [], []⟩ bs).1 ≠ .diverge := by
    intro hd
    unfold Binary.readModule at hr
    rw [hd] at hr; simp at hr
  have e := moduleLoop_mono (bs.length + 1) fuel ⟨[], [], []⟩ bs hf hd
  have := same_moduleLoop P fuel ⟨[], [], []⟩ s bs hI hf
  rw [e] at this
  exact this hr

theorem same_read (P : Polite R I) : Same I fuel (read R fuel) Binary.read :=
  ((same_bytes P _).bind fun _ => .ite .fail ((same_uint16 P).bind fun _ => (same_uint16 P).bind fun _ => .pure _)).bind fun _ =>
    .ite (.pure _) (.ite ((same_module P).bind fun _ => .pure _) .fail)

theorem read_returns (bs : List Byte) : (Binary.read bs).1.Returns := by
  obtain ⟨G, hG⟩ := takes_preamble
  have h1 := hG.tame bs
  unfold Binary.read
  rw [SM.bind_def]
  rcases e : Binary.readPreamble bs with ⟨x, t⟩
  rw [e] at h1
  cases x with
  | ok p =>
    simp only
    rw [SM.ite_app]
    split
    · simp
    · rw [SM.ite_app]
      split
      · have h2 := readModule_tame t
        rw [SM.bind_def]
        rcases e' : Binary.readModule t with ⟨y, u⟩
        rw [e'] at h2
        cases y <;> simp_all
      · simp
  | err => simp
  | panic => simp at h1
  | diverge => simp at h1

/-- C100, for polite readers. However a reader cuts its bytes into portions, as long as every call hands out a byte while
there is one, without an error, `Read` comes to the same as on the bytes themselves: the same document or an error. Missing:
readers that return no byte without being at their end, and readers that say end of file together with their last bytes, as
the documentation of `io.Reader` allows (`empty_read_refused`, `eof_with_byte_refused`, `eof_with_byte_accepted`). -/
theorem portions_partial (P : Polite R I) (s : σ) (bs : List Byte) (hI : I s bs) (hf : bs.length < fuel) :
    (read R fuel s).1 = (Binary.read bs).1 :=
  (same_read P s bs hI hf (read_returns bs)).1

/-! ## Readers -/

/-- A reader that hands out the given portions, or as much of a portion as is asked for. -/
def portions : Reader (List (List Byte)) where
  read s n := match s with
    | [] => ([], some .eof, [])
    | c :: cs => if c.length ≤ n then (c, none, cs) else (c.take n, none, c.drop n :: cs)

theorem portions_polite : Polite portions (fun s bs => s.flatten = bs ∧ ∀ c ∈ s, c ≠ []) where
  more := by
    rintro s bs n ⟨rfl, hc⟩ hne hn
    match s with
    | [] => exact absurd rfl hne
    | c :: cs =>
      have hc1 := hc c (List.mem_cons_self ..)
      have hc2 : ∀ x ∈ cs, x ≠ [] := fun x hx => hc x (List.mem_cons_of_mem _ hx)
      unfold portions
      simp only
      by_cases h : c.length ≤ n
      · rw [if_pos h]
        exact ⟨c, cs, cs.flatten, rfl, hc1, h, rfl, rfl, hc2⟩
      · rw [if_neg h]
        refine ⟨c.take n, c.drop n :: cs, (c.drop n :: cs).flatten, rfl, ?_, by simp; omega, ?_, rfl, ?_⟩
        · intro e
          have := congrArg List.length e
          rw [List.length_take] at this
          simp only [List.length_nil] at this
          omega
        · simp [← List.append_assoc]
        · intro x hx
          rcases List.mem_cons.1 hx with rfl | hx
          · intro e
            have := congrArg List.length e
            rw [List.length_drop] at this
            simp only [List.length_nil] at this
            omega
          · exact hc2 x hx
  done := by
    rintro s n ⟨h, hc⟩ hn
    match s with
    | [] => exact ⟨[], rfl, rfl, fun _ h => by cases h⟩
    | c :: cs =>
      exact absurd (List.append_eq_nil_iff.1 h).1 (hc c (List.mem_cons_self ..))

/-- Two ways to cut the same bytes into portions make no difference. -/
theorem cuts_agree (xs ys : List (List Byte)) (h : xs.flatten = ys.flatten) (hx : ∀ c ∈ xs, c ≠ []) (hy : ∀ c ∈ ys, c ≠ [])
    (hf : xs.flatten.length < fuel) : (read portions fuel xs).1 = (read portions fuel ys).1 := by
  rw [portions_partial portions_polite xs _ ⟨rfl, hx⟩ hf, portions_partial portions_polite ys _ ⟨rfl, hy⟩ (h ▸ hf), h]

/-- The preamble of a module. -/
def modulePreamble : List Byte := [0x00, 0x61, 0x73, 0x6d, 1, 0, 0, 0]

/-- Meets the hypotheses of `portions_partial`: a module with a type, byte by byte and in one piece. -/
example : (read portions 100 ((modulePreamble ++ [1, 4, 1, 0x60, 0, 0]).map fun b => [b])).1 =
    .ok ⟨1, 0, .module ⟨[⟨[], []⟩], [], []⟩⟩ := by decide +kernel
example : (read portions 100 [modulePreamble ++ [1, 4, 1, 0x60, 0, 0]]).1 = .ok ⟨1, 0, .module ⟨[⟨[], []⟩], [], []⟩⟩ := by
  decide +kernel

/-- A reader that says end of file together with its last byte, as `io.Reader` allows. -/
def lastWithEof : Reader (List Byte) where
  read s n := (s.take n, if s.length ≤ n then some .eof else none, s.drop n)

theorem lastWithEof_delivers : Delivers lastWithEof (fun s bs => s = bs) := by
  rintro s bs n rfl hn
  refine ⟨_, _, _, s.drop n, rfl, by simp; omega, by simp, rfl, fun h => ?_⟩
  by_cases hl : s.length ≤ n
  · exact List.drop_eq_nil_of_le hl
  · rw [if_neg hl] at h; cases h

/-- A reader that first comes back with nothing, then with something, as `io.Reader` allows. -/
def hesitant : Reader (Bool × List Byte) where
  read s n := match s with
    | (true, b :: bs) => ([], none, (false, b :: bs))
    | (_, bs) => (bs.take n, if bs = [] then some .eof else none, (true, bs.drop n))

theorem hesitant_delivers : Delivers hesitant (fun s bs => s.2 = bs) := by
  rintro ⟨f, s⟩ bs n rfl hn
  unfold hesitant
  match f, s with
  | true, b :: s => exact ⟨[], none, (false, b :: s), b :: s, rfl, Nat.zero_le _, rfl, rfl, fun h => by cases h⟩
  | true, [] => exact ⟨_, _, _, [], rfl, by simp, by simp, by simp, fun _ => rfl⟩
  | false, [] => exact ⟨_, _, _, [], rfl, by simp, by simp, by simp, fun _ => rfl⟩
  | false, b :: s => exact ⟨_, _, _, (b :: s).drop n, rfl, by simp; omega, by simp, rfl, fun h => by simp at h⟩

/-- C100 fails: a module that ends with an empty type section is refused if its last byte comes with the end of file: the
byte is thrown away. -/
theorem eof_with_byte_refused :
    (Binary.read (modulePreamble ++ [1, 1, 0])).1 = .ok ⟨1, 0, .module ⟨[], [], []⟩⟩ ∧
    (read lastWithEof 100 (modulePreamble ++ [1, 1, 0])).1 = .err := by decide +kernel

theorem one_byte_leb : ∀ b : Byte, b ≠ 0 → (Binary.readLeb [b]).2 = [] ∧
    ((∃ v, (Binary.readLeb [b]).1 = .ok v ∧ v ≠ 0) ∨ (Binary.readLeb [b]).1 = .err) := by
  have h : ∀ b : Byte, b ≠ 0 → (Binary.readLeb [b]).2 = [] ∧
      ((match (Binary.readLeb [b]).1 with | .ok v => decide (v ≠ 0) | .err => true | _ => false) = true) := by
    decide +kernel
  intro b hb
  refine ⟨(h b hb).1, ?_⟩
  have := (h b hb).2
  clear h
  generalize (Binary.readLeb [b]).1 = x at this ⊢
  cases x with
  | ok v => exact .inl ⟨v, rfl, of_decide_eq_true this⟩
  | err => exact .inr rfl
  | panic => cases this
  | diverge => cases this

theorem lastWithEof_bytes (p w : List Byte) (n k : Nat) (hp : p.length = n) (hn : 0 < n) :
    readBytes lastWithEof (k + 2) n (p ++ w) = (.ok p, w) := by
  have h : readFull lastWithEof (k + 2) n (p ++ w) = (.ok p, w) := by
    unfold readFull readFullLoop
    rw [if_neg (show ¬ n ≤ ([] : List Byte).length from by simp; omega)]
    have e : lastWithEof.read (p ++ w) (n - ([] : List Byte).length) = (p, if (p ++ w).length ≤ n then some .eof else none, w) := by
      unfold lastWithEof
      simp [← hp]
    rw [e]
    simp only [List.nil_append]
    split
    · unfold readFullLoop
      rw [if_pos (by omega)]
    · rw [if_pos (by omega)]
  unfold readBytes passing
  rw [h]
  rfl

/-- C100 fails: a module that breaks off after the id and the first byte of the size of a section is refused, but accepted
if that byte comes with the end of file, whatever the section and its size. So C07 holds for polite readers only. -/
theorem eof_with_byte_accepted (id size : Byte) (h : size ≠ 0) (n : Nat) :
    (Binary.read (modulePreamble ++ [id, size])).1 = .err ∧
    (read lastWithEof (n + 9) (modulePreamble ++ [id, size])).1 = .ok ⟨1, 0, .module ⟨[], [], []⟩⟩ := by
  constructor
  · have h1 : oneSection ⟨[], [], []⟩ [id, size] = (.err, []) := by
      show (Binary.readLeb >>= fun size => Binary.readSection ⟨[], [], []⟩ id size) [size] = _
      rw [SM.bind_def]
      have hl := one_byte_leb size h
      rcases e : Binary.readLeb [size] with ⟨x, t⟩
      rw [e] at hl
      obtain ⟨rfl, hl⟩ := hl
      rcases hl with ⟨v, rfl, hv⟩ | rfl
      · show Binary.readSection ⟨[], [], []⟩ id v [] = _
        unfold Binary.readSection
        repeat rw [SM.ite_app]
        have hb : Binary.readBytes v.toNat [] = (.err, []) := by
          unfold Binary.readBytes
          rw [if_pos (show ([] : List Byte).length < v.toNat from Nat.pos_of_ne_zero fun h0 => hv (BitVec.eq_of_toNat_eq h0))]
        repeat' split
        all_goals first
          | rfl
          | (rw [SM.bind_def, hb])
      · rfl
    show (((Binary.readModule >>= fun m => (Pure.pure ⟨1, 0, .module m⟩ : Rd Document)) [id, size]).1 : Res Document) = _
    rw [SM.bind_def]
    have h2 : Binary.readModule [id, size] = (.err, []) := by
      show Binary.readModuleLoop (2 + 1) ⟨[], [], []⟩ [id, size] = _
      rw [moduleLoop_cons, SM.bind_def, h1]
    rw [h2]
  · have h1 : readPreamble lastWithEof (n + 9) (modulePreamble ++ [id, size]) = (.ok (1, 0), [id, size]) := by
      unfold readPreamble
      rw [SM.bind_def, show modulePreamble ++ [id, size] = magic ++ ([1, 0, 0, 0, id, size]) from rfl,
        lastWithEof_bytes magic _ _ (n + 7) rfl (by decide)]
      simp only
      rw [if_neg (by simp)]
      have k1 : readUInt16 lastWithEof (n + 9) [1, 0, 0, 0, id, size] = (.ok 1, [0, 0, id, size]) := by
        unfold readUInt16
        rw [SM.bind_def, show ([1, 0, 0, 0, id, size] : List Byte) = [1, 0] ++ [0, 0, id, size] from rfl,
          lastWithEof_bytes _ _ 2 (n + 7) rfl (by decide)]
        rfl
      have k2 : readUInt16 lastWithEof (n + 9) [0, 0, id, size] = (.ok 0, [id, size]) := by
        unfold readUInt16
        rw [SM.bind_def, show ([0, 0, id, size] : List Byte) = [0, 0] ++ [id, size] from rfl,
          lastWithEof_bytes _ _ 2 (n + 7) rfl (by decide)]
        rfl
      rw [SM.bind_def, k1]
      simp only
      rw [SM.bind_def, k2]
      rfl
    have h2 : readSectionHeader lastWithEof (n + 9) [id, size] = (.ok none, []) := by
      rfl
    unfold read
    rw [SM.bind_def, h1]
    rfl

/-- C100 fails: a module with an empty section is refused if a call of `Read` comes back with nothing before the end, which
the documentation of `io.Reader` says to treat as nothing happened. -/
theorem empty_read_refused :
    (Binary.read (modulePreamble ++ [0, 0])).1 = .ok ⟨1, 0, .module ⟨[], [], []⟩⟩ ∧
    (read hesitant 100 (true, modulePreamble ++ [0, 0])).1 = .err := by decide +kernel

/-! ## Readers that never come to an end -/

theorem fullLoop_no_eof (h : ∀ s n, (R.read s n).2.1 ≠ some .eof) (n : Nat) : ∀ k got s, (readFullLoop R n k got s).1 ≠ .eof
  | 0, got, s => by
    unfold readFullLoop
    split <;> simp
  | k + 1, got, s => by
    unfold readFullLoop
    have hs := h s (n - got.length)
    rcases e : R.read s (n - got.length) with ⟨d, o, s1⟩
    rw [e] at hs
    simp only at hs ⊢
    split
    · simp
    · cases o with
      | none => exact fullLoop_no_eof h n k _ _
      | some x =>
        simp only
        split
        · simp
        · rw [if_neg (fun hx => hs (by rw [hx.1]))]
          simp

theorem lebLoop_no_eof (h : ∀ s n, (R.read s n).2.1 ≠ some .eof) : ∀ k val shift s, (lebLoop R k val shift s).1 ≠ .eof
  | 0, _, _, _ => by unfold lebLoop; simp
  | k + 1, val, shift, s => by
    unfold lebLoop
    have hs := h s 1
    rcases e : R.read s 1 with ⟨d, o, s1⟩
    rw [e] at hs
    match d, o, hs with
    | [], _, _ => simp
    | _ :: _, some .eof, hs => exact absurd rfl hs
    | _ :: _, some .other, _ => simp
    | b :: _, none, _ =>
      simp only
      split
      · simp
      · exact lebLoop_no_eof h k _ _ _

theorem header_no_eof (h : ∀ s n, (R.read s n).2.1 ≠ some .eof) (s s' : σ) : readSectionHeader R fuel s ≠ (.ok none, s') := by
  have hb : (byteOut R fuel s).1 ≠ .eof := by
    have hf := fullLoop_no_eof h 1 fuel [] s
    unfold byteOut readFull
    rcases e : readFullLoop R 1 fuel [] s with ⟨o, t⟩
    rw [e] at hf
    cases o <;> simp_all
  unfold readSectionHeader
  rcases e : byteOut R fuel s with ⟨o, t⟩
  rw [e] at hb
  cases o with
  | ok id =>
    simp only
    have hl := lebLoop_no_eof h fuel 0#32 0 t
    unfold lebOut
    rcases e2 : lebLoop R fuel 0#32 0 t with ⟨o, u⟩
    rw [e2] at hl
    cases o <;> simp_all
  | eof => exact absurd rfl hb
  | _ => simp

theorem moduleLoop_no_eof (h : ∀ s n, (R.read s n).2.1 ≠ some .eof) : ∀ k m s m' s', readModuleLoop R fuel k m s ≠ (.ok m', s')
  | 0, _, _, _, _ => by unfold readModuleLoop; simp
  | k + 1, m, s, m', s' => by
    intro e
    unfold readModuleLoop at e
    obtain ⟨o, s1, e1, e2⟩ := SM.bind_eq_ok.1 e
    cases o with
    | none => exact header_no_eof h s s1 e1
    | some hd =>
      obtain ⟨m1, s2, e3, e4⟩ := SM.bind_eq_ok.1 e2
      exact moduleLoop_no_eof h k m1 s2 m' s' e4

/-- C101. A reader that never says end of file, because it fails instead or because it goes on for ever, never makes `Read`
return a module. -/
theorem failing_reader (R : Reader σ) (h : ∀ s n, (R.read s n).2.1 ≠ some .eof) (fuel : Nat) (s : σ) (d : Document)
    (hd : (read R fuel s).1 = .ok d) : d.directive = .component := by
  rcases e : read R fuel s with ⟨o, s'⟩
  rw [e] at hd
  simp only at hd
  subst hd
  unfold read at e
  obtain ⟨p, s1, e1, e2⟩ := SM.bind_eq_ok.1 e
  rw [SM.ite_app] at e2
  split at e2
  · cases e2; rfl
  · rw [SM.ite_app] at e2
    split at e2
    · obtain ⟨m, s2, e3, -⟩ := SM.bind_eq_ok.1 e2
      exact absurd e3 (moduleLoop_no_eof h fuel _ s1 m s2)
    · cases e2

/-- A reader whose connection breaks where the bytes end. -/
def breaking : Reader (List Byte) where
  read s n := (s.take n, if s = [] then some .other else none, s.drop n)

/-- Meets the hypothesis of `failing_reader`; the bytes are those of a module. -/
example : (∀ s n, (breaking.read s n).2.1 ≠ some .eof) ∧ (read breaking 100 (modulePreamble ++ [1, 1, 0])).1 = .err := by
  refine ⟨fun s n => ?_, by decide +kernel⟩
  show (if s = [] then some IoErr.other else none) ≠ some .eof
  split <;> simp

end Verif.Binary.Stream
