import Verif.Abi.StringReadSpec
import Verif.Abi.LoadLemmas
import Verif.Encoding.Lemmas

/-! # Decoding bytes that write a string, and bytes that do not -/

namespace Verif.Abi

open Encoding Spec

/-- The library encoding of a script. -/
def Spec.Script.lib : Script → TextEnc
  | .utf8 => .utf8
  | .utf16le => .utf16 false
  | .utf16be => .utf16 true
  | .latin1 => .latin1

theorem cons_eq {α : Type} {a b : α} {as bs : List α} (h : a = b) (h' : as = bs) : a :: as = b :: bs := by
  rw [h, h']

theorem byte_eq_ofNat {b : Byte} {n : Nat} (h : b.toNat = n) : b = BitVec.ofNat 8 n := by
  subst h
  apply BitVec.eq_of_toNat_eq
  rw [BitVec.toNat_ofNat, Nat.mod_eq_of_lt b.isLt]

/-- Lean's bytes of a character are those of the model. -/
theorem utf8Char_core (c : Char) : (utf8Char c).map (·.toNat) = (String.utf8EncodeChar c).map (·.toNat) := by
  have hr := char_range c
  have hc : c.val.toNat = c.toNat := rfl
  unfold utf8Char String.utf8EncodeChar
  simp only [hc]
  generalize c.toNat = n at hr
  by_cases h1 : n < 0x80
  · rw [if_pos h1, if_pos (show n ≤ 0x7f by omega)]
    simp; try omega
  · rw [if_neg h1, if_neg (show ¬ n ≤ 0x7f by omega)]
    by_cases h2 : n < 0x800
    · rw [if_pos h2, if_pos (show n ≤ 0x7ff by omega)]
      simp; omega
    · rw [if_neg h2, if_neg (show ¬ n ≤ 0x7ff by omega)]
      by_cases h3 : n < 0x10000
      · rw [if_pos h3, if_pos (show n ≤ 0xffff by omega)]
        simp; omega
      · rw [if_neg h3, if_neg (show ¬ n ≤ 0xffff by omega)]
        simp; omega

theorem map_toNat_inj {as bs : List Byte} (h : as.map (·.toNat) = bs.map (·.toNat)) : as = bs := by
  induction as generalizing bs with
  | nil => cases bs with
    | nil => rfl
    | cons b bs => cases h
  | cons a as ih => cases bs with
    | nil => cases h
    | cons b bs =>
      simp only [List.map_cons, List.cons.injEq] at h
      rw [BitVec.eq_of_toNat_eq h.1, ih h.2]

theorem units16_model {c : Char} {us : List Nat} (h : Units16 c us) : us = utf16Units c := by
  unfold utf16Units
  simp only
  rcases h with ⟨h1, rfl⟩ | ⟨hi, lo, h1, h2, h3, rfl⟩
  · rw [if_pos h1]
  · rw [if_neg (by omega), h3]
    exact cons_eq (by omega) (cons_eq (by omega) rfl)

theorem unitBytes_model {big : Bool} {us : List Nat} {bs : List Byte} (h : UnitBytes big us bs) :
    bs = us.flatMap (unitBytes big) := by
  induction h with
  | nil => rfl
  | cons lo hi us bs _ ih =>
    rw [List.flatMap_cons, ← ih]
    have h1 := hi.isLt
    have h2 := lo.isLt
    have e1 : BitVec.ofNat 8 ((hi.toNat * 256 + lo.toNat) / 256) = hi := (byte_eq_ofNat (by omega)).symm
    have e2 : BitVec.ofNat 8 (hi.toNat * 256 + lo.toNat) = lo := by
      apply BitVec.eq_of_toNat_eq
      rw [BitVec.toNat_ofNat]; omega
    unfold unitBytes
    rw [e1, e2]
    cases big <;> rfl

theorem writes_encode {k : Script} {cs : List Char} {bs : List Byte} (h : Writes k cs bs) :
    k.lib.encode (String.ofList cs) = .ok bs := by
  cases k with
  | utf8 =>
    show Res.ok _ = _
    rw [String.toList_ofList]; congr 1
    induction h with
    | nil => rfl
    | cons c bs cs rest hc _ ih =>
      rw [List.flatMap_cons, ih, map_toNat_inj ((utf8Char_core c).trans hc.symm)]
  | utf16le =>
    show Res.ok _ = _
    rw [String.toList_ofList]; congr 1
    induction h with
    | nil => rfl
    | cons c bs cs rest hc _ ih =>
      obtain ⟨us, h1, h2⟩ := hc
      rw [List.flatMap_cons, ih, unitBytes_model h2, units16_model h1]
  | utf16be =>
    show Res.ok _ = _
    rw [String.toList_ofList]; congr 1
    induction h with
    | nil => rfl
    | cons c bs cs rest hc _ ih =>
      obtain ⟨us, h1, h2⟩ := hc
      rw [List.flatMap_cons, ih, unitBytes_model h2, units16_model h1]
  | latin1 =>
    have key : cs.all latin1Has = true ∧ cs.map (fun c => BitVec.ofNat 8 c.toNat) = bs := by
      induction h with
      | nil => exact ⟨rfl, rfl⟩
      | cons c bs cs rest hc _ ih =>
        obtain ⟨b, rfl, hb⟩ := hc
        have := b.isLt
        refine ⟨?_, ?_⟩
        · rw [List.all_cons, ih.1, latin1Has, hb, decide_eq_true this]; rfl
        · rw [List.map_cons, ih.2, hb, ← byte_eq_ofNat rfl]; rfl
    show (if _ then _ else _) = _
    rw [String.toList_ofList, if_pos key.1, key.2]

theorem Spec.Writes.decode {k : Script} {str : String} {bs : List Byte} (h : Writes k str.toList bs) :
    k.lib.decode bs = .ok str := by
  have := k.lib.roundtrip _ _ (writes_encode h)
  rwa [String.ofList_toList] at this

/-! ## Bytes decoded without U+FFFD write what was decoded -/

theorem charOf_valid {n : Nat} (h : n.isValidChar) : (charOf n).toNat = n := by
  rw [charOf, if_pos h]
  unfold Char.ofNat
  rw [dif_pos h]
  rfl

theorem utf8Decode_skip : (k : Nat) → (bs : List Byte) → utf8Decode k bs = utf8Decode 0 (bs.drop k)
  | 0, bs => by rw [List.drop_zero]
  | k + 1, [] => by rw [List.drop_nil, utf8Decode, utf8Decode]
  | k + 1, b :: bs => by rw [utf8Decode, utf8Decode_skip k bs, List.drop_succ_cons]

theorem utf16Decode_skip : (k : Nat) → (us : List (Option Nat)) → utf16Decode k us = utf16Decode 0 (us.drop k)
  | 0, us => by rw [List.drop_zero]
  | k + 1, [] => by rw [List.drop_nil, utf16Decode, utf16Decode]
  | k + 1, b :: bs => by rw [utf16Decode, utf16Decode_skip k bs, List.drop_succ_cons]

theorem isCont_iff (b : Byte) : isCont b = true ↔ 0x80 ≤ b.toNat ∧ b.toNat < 0xC0 := by
  simp [isCont]

/-- A character other than U+FFFD comes from the bytes that write it. -/
theorem utf8Head_writes (b0 : Byte) (rest : List Byte) (h : (utf8Head b0 rest).1 ≠ replacement) :
    b0 :: rest.take (utf8Head b0 rest).2 = utf8Char (utf8Head b0 rest).1 := by
  have hb0 := b0.isLt
  unfold utf8Head at h ⊢
  simp only at h ⊢
  by_cases h1 : b0.toNat < 0x80
  · rw [if_pos h1] at h ⊢
    simp only
    have hv : (charOf b0.toNat).toNat = b0.toNat := charOf_valid (.inl (by omega))
    unfold utf8Char
    simp only [hv]
    rw [if_pos h1, List.take_zero, ← byte_eq_ofNat rfl]
  · rw [if_neg h1] at h ⊢
    by_cases h2 : b0.toNat < 0xE0
    · rw [if_pos h2] at h ⊢
      match rest with
      | [] => exact absurd rfl h
      | b1 :: r =>
        simp only at h ⊢
        by_cases hc : 0xC2 ≤ b0.toNat ∧ isCont b1 = true
        · rw [if_pos hc] at h ⊢
          obtain ⟨c1, c2⟩ := hc
          rw [isCont_iff] at c2
          simp only
          have hv := charOf_valid (n := (b0.toNat - 0xC0) * 64 + (b1.toNat - 0x80)) (.inl (by omega))
          unfold utf8Char
          simp only [hv]
          rw [if_neg (by omega), if_pos (by omega), List.take_succ_cons, List.take_zero]
          exact cons_eq (byte_eq_ofNat (by omega)) (cons_eq (byte_eq_ofNat (by omega)) rfl)
        · rw [if_neg hc] at h; exact absurd rfl h
    · rw [if_neg h2] at h ⊢
      by_cases h3 : b0.toNat < 0xF0
      · rw [if_pos h3] at h ⊢
        match rest with
        | [] => exact absurd rfl h
        | [b1] => exact absurd rfl h
        | b1 :: b2 :: r =>
          simp only at h ⊢
          split at h
          · rename_i hc
            rw [if_pos hc]
            obtain ⟨c1, c2, c3, c4⟩ := hc
            rw [isCont_iff] at c1 c2
            simp only
            have hv := charOf_valid c4
            unfold utf8Char
            simp only [hv]
            rw [if_neg (by omega), if_neg (by omega), if_pos (by omega), List.take_succ_cons, List.take_succ_cons,
              List.take_zero]
            exact cons_eq (byte_eq_ofNat (by omega)) (cons_eq (byte_eq_ofNat (by omega)) (cons_eq (byte_eq_ofNat (by omega)) rfl))
          · exact absurd rfl h
      · rw [if_neg h3] at h ⊢
        match rest with
        | [] => exact absurd rfl h
        | [b1] => exact absurd rfl h
        | [b1, b2] => exact absurd rfl h
        | b1 :: b2 :: b3 :: r =>
          simp only at h ⊢
          split at h
          · rename_i hc
            rw [if_pos hc]
            obtain ⟨c1, c2, c3, c4, c5⟩ := hc
            rw [isCont_iff] at c1 c2 c3
            simp only
            have hv := charOf_valid c5
            unfold utf8Char
            simp only [hv]
            rw [if_neg (by omega), if_neg (by omega), if_neg (by omega), List.take_succ_cons, List.take_succ_cons,
              List.take_succ_cons, List.take_zero]
            exact cons_eq (byte_eq_ofNat (by omega)) (cons_eq (byte_eq_ofNat (by omega)) (cons_eq (byte_eq_ofNat (by omega))
              (cons_eq (byte_eq_ofNat (by omega)) rfl)))
          · exact absurd rfl h

theorem utf8_writes (n : Nat) : (bs : List Byte) → bs.length ≤ n → replacement ∉ utf8Decode 0 bs →
    Writes .utf8 (utf8Decode 0 bs) bs := by
  induction n with
  | zero =>
    intro bs h _
    rw [List.eq_nil_of_length_eq_zero (Nat.le_zero.1 h)]
    exact .nil
  | succ n ih =>
    intro bs h hr
    match bs with
    | [] => exact .nil
    | b0 :: rest =>
      rw [utf8Decode, List.mem_cons, not_or, utf8Decode_skip] at hr
      rw [utf8Decode, utf8Decode_skip]
      have hw := utf8Head_writes b0 rest (fun e => hr.1 e.symm)
      have := ih (rest.drop (utf8Head b0 rest).2) (by
        rw [List.length_drop]; simp only [List.length_cons] at h; omega) hr.2
      have := Writes.cons (k := .utf8) (utf8Head b0 rest).1 (b0 :: rest.take (utf8Head b0 rest).2) _ _
        (by show _ = _; rw [hw, utf8Char_core]) this
      rwa [List.cons_append, List.take_append_drop] at this

theorem utf16_writes (big : Bool) (n : Nat) : (bs : List Byte) → bs.length ≤ n →
    replacement ∉ utf16Decode 0 (bytesUnits big bs) →
    Writes (if big then .utf16be else .utf16le) (utf16Decode 0 (bytesUnits big bs)) bs := by
  have one : ∀ (a b : Byte) (us : List Nat) (r : List Byte), UnitBytes big us r →
      UnitBytes big ((if big then a.toNat * 256 + b.toNat else b.toNat * 256 + a.toNat) :: us) (a :: b :: r) := by
    intro a b us r h
    cases big
    · exact .cons a b _ _ h
    · exact .cons b a _ _ h
  have cb : ∀ c us r, Units16 c us → UnitBytes big us r → CharBytes (if big then .utf16be else .utf16le) c r := by
    intro c us r h1 h2
    cases big <;> exact ⟨us, h1, h2⟩
  induction n with
  | zero =>
    intro bs h _
    rw [List.eq_nil_of_length_eq_zero (Nat.le_zero.1 h)]
    exact .nil
  | succ n ih =>
    intro bs h hr
    match bs with
    | [] => exact .nil
    | [b] => exact absurd (List.mem_cons_self ..) hr
    | a :: b :: rest =>
      simp only [List.length_cons] at h
      rw [bytesUnits] at hr ⊢
      have ha := a.isLt
      have hb := b.isLt
      have hu : (if big then a.toNat * 256 + b.toNat else b.toNat * 256 + a.toNat) < 65536 := by
        cases big <;> simp <;> omega
      have o1 := one a b
      generalize hg : (if big then a.toNat * 256 + b.toNat else b.toNat * 256 + a.toNat) = u at hr hu o1
      rw [utf16Decode, List.mem_cons, not_or, utf16Decode_skip] at hr
      rw [utf16Decode, utf16Decode_skip]
      obtain ⟨h1, h2⟩ := hr
      unfold utf16Head at h1 h2 ⊢
      simp only at h1 h2 ⊢
      by_cases hs : u < 0xD800 ∨ 0xE000 ≤ u
      · rw [if_pos hs] at h1 h2 ⊢
        rw [List.drop_zero] at h2 ⊢
        have hv : (charOf u).toNat = u := charOf_valid (hs.elim .inl fun h => .inr ⟨by omega, by omega⟩)
        exact .cons _ [a, b] _ _ (cb _ [u] _ (.inl ⟨by rw [hv]; exact hu, by rw [hv]⟩) (o1 _ _ .nil)) (ih rest (by omega) h2)
      · rw [if_neg hs] at h1 h2 ⊢
        match rest with
        | [] => exact absurd rfl h1
        | [x] => exact absurd rfl h1
        | c :: d :: rest =>
          simp only [List.length_cons] at h
          rw [bytesUnits] at h1 h2 ⊢
          have o2 := one c d
          generalize (if big then c.toNat * 256 + d.toNat else d.toNat * 256 + c.toNat) = v at h1 h2 o2
          simp only at h1 h2 ⊢
          by_cases hc : u < 0xDC00 ∧ 0xDC00 ≤ v ∧ v < 0xE000
          · rw [if_pos hc] at h1 h2 ⊢
            simp only at h1 h2 ⊢
            rw [List.drop_succ_cons, List.drop_zero] at h2 ⊢
            have hv : (charOf (0x10000 + (u - 0xD800) * 1024 + (v - 0xDC00))).toNat = _ :=
              charOf_valid (.inr ⟨by omega, by omega⟩)
            refine .cons _ [a, b, c, d] _ _ (cb _ [u, v] _ (.inr ⟨u - 0xD800, v - 0xDC00, by omega, by omega, hv, ?_⟩)
              (o1 _ _ (o2 _ _ .nil))) (ih rest (by omega) h2)
            rw [show 0xD800 + (u - 0xD800) = u by omega, show 0xDC00 + (v - 0xDC00) = v by omega]
          · rw [if_neg hc] at h1; exact absurd rfl h1

theorem latin1_writes : (bs : List Byte) → Writes .latin1 (bs.map fun b => charOf b.toNat) bs
  | [] => .nil
  | b :: bs => .cons _ [b] _ _ ⟨b, rfl, charOf_valid (.inl (by have := b.isLt; omega))⟩ (latin1_writes bs)

/-- Decoding never fails; without U+FFFD in the outcome the bytes write it. -/
theorem decode_writes (k : Script) (bs : List Byte) :
    ∃ str, k.lib.decode bs = .ok str ∧ (replacement ∉ str.toList → Writes k str.toList bs) := by
  cases k with
  | utf8 => exact ⟨_, rfl, by rw [String.toList_ofList]; exact utf8_writes _ bs (Nat.le_refl _)⟩
  | utf16le => exact ⟨_, rfl, by rw [String.toList_ofList]; exact utf16_writes false _ bs (Nat.le_refl _)⟩
  | utf16be => exact ⟨_, rfl, by rw [String.toList_ofList]; exact utf16_writes true _ bs (Nat.le_refl _)⟩
  | latin1 => exact ⟨_, rfl, by rw [String.toList_ofList]; intro _; exact latin1_writes bs⟩

/-! ## The code decodes in the script of the call -/

theorem codec_script (enc : String) (henc : enc ∈ Spec.encodings) (n : U32) (c : Codec)
    (h : defaultFactory.get (srcEncoding enc (toTagged n)) = .ok c) : c.enc = (script enc n.toNat).lib := by
  have ht := toTagged_tag n
  simp only [Spec.encodings, List.mem_cons, List.not_mem_nil, or_false] at henc
  rcases henc with rfl | rfl | rfl | rfl | rfl | rfl
  · cases (show Res.ok newUTF8 = _ from h); rfl
  · cases (show Res.ok newUTF16 = _ from h); rfl
  · cases (show Res.ok (newUTF16WithEndianess true) = _ from h); rfl
  · cases (show Res.ok (newUTF16WithEndianess false) = _ from h); rfl
  · cases (show Res.ok newLatin1 = _ from h); rfl
  · rw [srcEncoding, if_pos (by rfl), ht] at h
    by_cases h31 : 2 ^ 31 ≤ n.toNat
    · rw [decide_eq_true h31] at h
      cases (show Res.ok (newUTF16WithEndianess false) = _ from h)
      rw [script, if_neg (by decide), if_neg (by decide), if_neg (by
        rintro (h | h)
        · exact absurd h (by decide)
        · omega)]
      rfl
    · rw [decide_eq_false h31] at h
      cases (show Res.ok newLatin1 = _ from h)
      rw [script, if_neg (by decide), if_neg (by decide), if_pos (.inr ⟨rfl, by omega⟩)]
      rfl

/-- Where the bytes are aligned and inside the memory, the outcome is what the script's decoder makes of them. -/
theorem loadStringFromRange_script {σ : Type} (E : Env σ) (henc : E.enc ∈ Spec.encodings) (p n : U32)
    (hn : n.toNat < 2 ^ 31 ∨ E.enc = "latin1+utf16") (s : St σ) (hs : s.mem.len < 2 ^ 32) (hc : s.mem.len ≤ s.mem.cap)
    (ha : stringAlign E.enc ∣ p.toNat) (hl : p.toNat + stringBytes E.enc n.toNat ≤ s.mem.len) :
    loadStringFromRange E p n s =
      ((script E.enc n.toNat).lib.decode (s.mem.read p.toNat (stringBytes E.enc n.toNat)), s) := by
  obtain ⟨c, h1, h2, h3, h4, h5⟩ := string_codec E.enc henc n
  rw [← codec_script E.enc henc n c h1, ← h5 hn] at *
  have hal := ofNat_toNat_isAl (stringAlign_isAl E.enc)
  unfold loadStringFromRange
  rw [h1, SM.bind_ok (SM.lift_def _ _), h2, SM.ite_app,
    if_neg (by rw [Classical.not_not, alignTo_eq_iff _ _ (by rw [hal]; exact stringAlign_isAl _), hal]; exact ha),
    SM.bind_get, SM.ite_app, Mem.len32, toNat_ofNat_lt hs, BitVec.toNat_add, h3, Nat.mod_eq_of_lt (by omega),
    if_neg (by omega), slice_ok _ _ _ (by rw [h3]; omega) (by rw [h3]; omega), SM.bind_ok (SM.lift_def _ _)]
  rfl

end Verif.Abi
