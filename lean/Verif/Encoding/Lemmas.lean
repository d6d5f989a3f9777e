import Verif.Encoding.Model

/-!
# Every codec gives back what it encoded
-/

namespace Verif.Encoding

theorem char_valid (c : Char) : c.toNat.isValidChar := c.valid

theorem char_range (c : Char) : c.toNat < 0xD800 ∨ (0xDFFF < c.toNat ∧ c.toNat < 0x110000) := c.valid

theorem charOf_toNat (c : Char) : charOf c.toNat = c := by
  unfold charOf
  rw [if_pos (char_valid c), Char.ofNat_toNat]

theorem byte_toNat {n : Nat} (h : n < 256) : (BitVec.ofNat 8 n).toNat = n := by
  rw [BitVec.toNat_ofNat, Nat.mod_eq_of_lt (by omega)]

theorem isCont_ofNat {n : Nat} (h : n < 64) : isCont (BitVec.ofNat 8 (0x80 + n)) = true := by
  unfold isCont
  rw [byte_toNat (by omega)]
  simp only [Bool.and_eq_true, decide_eq_true_eq]
  omega

theorem utf8Decode_char (c : Char) (rest : List Byte) :
    utf8Decode 0 (utf8Char c ++ rest) = c :: utf8Decode 0 rest := by
  have hr := char_range c
  have hc := charOf_toNat c
  have hv := char_valid c
  generalize hn : c.toNat = n at hr hc hv
  unfold utf8Char
  simp only [hn]
  split
  · rename_i h1
    have e : (BitVec.ofNat 8 n).toNat = n := byte_toNat (by omega)
    have hh : ∀ r, utf8Head (BitVec.ofNat 8 n) r = (c, 0) := by
      intro r
      unfold utf8Head
      simp only [e]
      rw [if_pos h1, hc]
    show utf8Decode 0 (BitVec.ofNat 8 n :: rest) = _
    rw [utf8Decode, hh]
  · split
    · rename_i h1 h2
      have e0 : (BitVec.ofNat 8 (0xC0 + n / 64)).toNat = 0xC0 + n / 64 := byte_toNat (by omega)
      have e1 : (BitVec.ofNat 8 (0x80 + n % 64)).toNat = 0x80 + n % 64 := byte_toNat (by omega)
      have c1 := isCont_ofNat (n := n % 64) (by omega)
      have hh : ∀ r, utf8Head (BitVec.ofNat 8 (0xC0 + n / 64)) (BitVec.ofNat 8 (0x80 + n % 64) :: r) = (c, 1) := by
        intro r
        unfold utf8Head
        simp only [e0, e1]
        rw [if_neg (by omega), if_pos (by omega), if_pos ⟨by omega, c1⟩,
          show (0xC0 + n / 64 - 0xC0) * 64 + (0x80 + n % 64 - 0x80) = n by omega, hc]
      show utf8Decode 0 (BitVec.ofNat 8 (0xC0 + n / 64) :: BitVec.ofNat 8 (0x80 + n % 64) :: rest) = _
      rw [utf8Decode, hh, utf8Decode]
    · split
      · rename_i h1 h2 h3
        have e0 : (BitVec.ofNat 8 (0xE0 + n / 4096)).toNat = 0xE0 + n / 4096 := byte_toNat (by omega)
        have e1 : (BitVec.ofNat 8 (0x80 + n / 64 % 64)).toNat = 0x80 + n / 64 % 64 := byte_toNat (by omega)
        have e2 : (BitVec.ofNat 8 (0x80 + n % 64)).toNat = 0x80 + n % 64 := byte_toNat (by omega)
        have c1 := isCont_ofNat (n := n / 64 % 64) (by omega)
        have c2 := isCont_ofNat (n := n % 64) (by omega)
        have en : (0xE0 + n / 4096 - 0xE0) * 4096 + (0x80 + n / 64 % 64 - 0x80) * 64 + (0x80 + n % 64 - 0x80) = n := by
          omega
        have hh : ∀ r, utf8Head (BitVec.ofNat 8 (0xE0 + n / 4096))
            (BitVec.ofNat 8 (0x80 + n / 64 % 64) :: BitVec.ofNat 8 (0x80 + n % 64) :: r) = (c, 2) := by
          intro r
          unfold utf8Head
          simp only [e0, e1, e2, en]
          rw [if_neg (by omega), if_neg (by omega), if_pos (by omega), if_pos ⟨c1, c2, by omega, hv⟩, hc]
        show utf8Decode 0 (BitVec.ofNat 8 (0xE0 + n / 4096) :: BitVec.ofNat 8 (0x80 + n / 64 % 64) ::
          BitVec.ofNat 8 (0x80 + n % 64) :: rest) = _
        rw [utf8Decode, hh, utf8Decode, utf8Decode]
      · rename_i h1 h2 h3
        have e0 : (BitVec.ofNat 8 (0xF0 + n / 262144)).toNat = 0xF0 + n / 262144 := byte_toNat (by omega)
        have e1 : (BitVec.ofNat 8 (0x80 + n / 4096 % 64)).toNat = 0x80 + n / 4096 % 64 := byte_toNat (by omega)
        have e2 : (BitVec.ofNat 8 (0x80 + n / 64 % 64)).toNat = 0x80 + n / 64 % 64 := byte_toNat (by omega)
        have e3 : (BitVec.ofNat 8 (0x80 + n % 64)).toNat = 0x80 + n % 64 := byte_toNat (by omega)
        have c1 := isCont_ofNat (n := n / 4096 % 64) (by omega)
        have c2 := isCont_ofNat (n := n / 64 % 64) (by omega)
        have c3 := isCont_ofNat (n := n % 64) (by omega)
        have en : (0xF0 + n / 262144 - 0xF0) * 262144 + (0x80 + n / 4096 % 64 - 0x80) * 4096 +
            (0x80 + n / 64 % 64 - 0x80) * 64 + (0x80 + n % 64 - 0x80) = n := by
          omega
        have hh : ∀ r, utf8Head (BitVec.ofNat 8 (0xF0 + n / 262144))
            (BitVec.ofNat 8 (0x80 + n / 4096 % 64) :: BitVec.ofNat 8 (0x80 + n / 64 % 64) ::
              BitVec.ofNat 8 (0x80 + n % 64) :: r) = (c, 3) := by
          intro r
          unfold utf8Head
          simp only [e0, e1, e2, e3, en]
          rw [if_neg (by omega), if_neg (by omega), if_neg (by omega), if_pos ⟨c1, c2, c3, by omega, hv⟩, hc]
        show utf8Decode 0 (BitVec.ofNat 8 (0xF0 + n / 262144) :: BitVec.ofNat 8 (0x80 + n / 4096 % 64) ::
          BitVec.ofNat 8 (0x80 + n / 64 % 64) :: BitVec.ofNat 8 (0x80 + n % 64) :: rest) = _
        rw [utf8Decode, hh, utf8Decode, utf8Decode, utf8Decode]

theorem utf8_roundtrip : (cs : List Char) → utf8Decode 0 (cs.flatMap utf8Char) = cs
  | [] => rfl
  | c :: cs => by rw [List.flatMap_cons, utf8Decode_char, utf8_roundtrip cs]

theorem bytesUnits_unit (big : Bool) (u : Nat) (hu : u < 65536) (rest : List Byte) :
    bytesUnits big (unitBytes big u ++ rest) = some u :: bytesUnits big rest := by
  have e0 : (BitVec.ofNat 8 (u / 256)).toNat = u / 256 := byte_toNat (by omega)
  have e1 : (BitVec.ofNat 8 u).toNat = u % 256 := BitVec.toNat_ofNat ..
  cases big
  · show bytesUnits false (BitVec.ofNat 8 u :: BitVec.ofNat 8 (u / 256) :: rest) = _
    rw [bytesUnits]
    simp only [e0, e1]
    rw [if_neg (by simp), show u / 256 * 256 + u % 256 = u by omega]
  · show bytesUnits true (BitVec.ofNat 8 (u / 256) :: BitVec.ofNat 8 u :: rest) = _
    rw [bytesUnits]
    simp only [e0, e1]
    rw [if_pos trivial, show u / 256 * 256 + u % 256 = u by omega]

theorem units_lt (c : Char) : ∀ u ∈ utf16Units c, u < 65536 := by
  have hr := char_range c
  unfold utf16Units
  simp only
  split
  · intro u hu
    simp only [List.mem_singleton] at hu
    omega
  · intro u hu
    simp only [List.mem_cons, List.not_mem_nil, or_false] at hu
    omega

theorem bytesUnits_units (big : Bool) (rest : List Byte) : (us : List Nat) → (∀ u ∈ us, u < 65536) →
    bytesUnits big (us.flatMap (unitBytes big) ++ rest) = us.map some ++ bytesUnits big rest
  | [], _ => rfl
  | u :: us, h => by
    rw [List.flatMap_cons, List.append_assoc, bytesUnits_unit big u (h u (by simp)),
      bytesUnits_units big rest us (fun v hv => h v (by simp [hv]))]
    rfl

theorem utf16Decode_char (c : Char) (rest : List (Option Nat)) :
    utf16Decode 0 ((utf16Units c).map some ++ rest) = c :: utf16Decode 0 rest := by
  have hr := char_range c
  have hc := charOf_toNat c
  generalize hn : c.toNat = n at hr hc
  unfold utf16Units
  simp only [hn]
  split
  · have hh : ∀ r, utf16Head (some n) r = (c, 0) := by
      intro r
      unfold utf16Head
      simp only
      rw [if_pos (by omega), hc]
    show utf16Decode 0 (some n :: rest) = _
    rw [utf16Decode, hh]
  · have hh : ∀ r, utf16Head (some (0xD800 + (n - 0x10000) / 1024)) (some (0xDC00 + (n - 0x10000) % 1024) :: r) =
        (c, 1) := by
      intro r
      unfold utf16Head
      simp only
      rw [if_neg (by omega), if_pos (by omega),
        show 0x10000 + (0xD800 + (n - 0x10000) / 1024 - 0xD800) * 1024 + (0xDC00 + (n - 0x10000) % 1024 - 0xDC00) = n by
          omega, hc]
    show utf16Decode 0 (some _ :: some _ :: rest) = _
    rw [utf16Decode, hh, utf16Decode]

theorem utf16_roundtrip (big : Bool) : (cs : List Char) →
    utf16Decode 0 (bytesUnits big (cs.flatMap fun c => (utf16Units c).flatMap (unitBytes big))) = cs
  | [] => rfl
  | c :: cs => by
    rw [List.flatMap_cons, bytesUnits_units big _ _ (units_lt c), utf16Decode_char, utf16_roundtrip big cs]

theorem latin1_roundtrip : (cs : List Char) → cs.all latin1Has = true →
    (cs.map fun c => BitVec.ofNat 8 c.toNat).map (fun b : Byte => charOf b.toNat) = cs
  | [], _ => rfl
  | c :: cs, h => by
    simp only [List.all_cons, Bool.and_eq_true, latin1Has, decide_eq_true_eq] at h
    rw [List.map_cons, List.map_cons, byte_toNat h.1, charOf_toNat, latin1_roundtrip cs h.2]

/-- What was encoded is decoded to the same string. -/
theorem TextEnc.roundtrip (e : TextEnc) (s : String) (bs : List Byte) (h : e.encode s = .ok bs) :
    e.decode bs = .ok s := by
  cases e with
  | utf8 =>
    injection h with h
    rw [← h, TextEnc.decode, utf8_roundtrip, String.ofList_toList]
  | utf16 big =>
    injection h with h
    rw [← h, TextEnc.decode, utf16_roundtrip, String.ofList_toList]
  | latin1 =>
    rw [TextEnc.encode] at h
    split at h
    · rename_i ha
      injection h with h
      rw [← h, TextEnc.decode, latin1_roundtrip _ ha, String.ofList_toList]
    · cases h

theorem unitBytes_length (big : Bool) (u : Nat) : (unitBytes big u).length = 2 := by
  cases big <;> rfl

theorem flatMap_even {α : Type} (f : α → List Byte) (h : ∀ a, 2 ∣ (f a).length) : (l : List α) → 2 ∣ (l.flatMap f).length
  | [] => by simp
  | a :: l => by
    rw [List.flatMap_cons, List.length_append]
    exact Nat.dvd_add (h a) (flatMap_even f h l)

/-- UTF-16 takes whole code units. -/
theorem utf16_even (big : Bool) (s : String) (bs : List Byte) (h : (TextEnc.utf16 big).encode s = .ok bs) :
    2 ∣ bs.length := by
  injection h with h
  rw [← h]
  exact flatMap_even _ (fun c => flatMap_even _ (fun u => ⟨1, by rw [unitBytes_length]⟩) _) _

end Verif.Encoding
