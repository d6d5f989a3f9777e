import Verif.Abi.StoreLoad

/-!
# Strings and flags in memory
-/

namespace Verif.Abi
open Spec Encoding

variable {σ : Type}

/-! ### Lengths of encoded strings -/

theorem utf8Char_length (c : Char) : (utf8Char c).length =
    if c.toNat < 0x80 then 1 else if c.toNat < 0x800 then 2 else if c.toNat < 0x10000 then 3 else 4 := by
  unfold utf8Char
  simp only
  split
  · rfl
  · split
    · rfl
    · split <;> rfl

theorem utf16Units_length (c : Char) : (utf16Units c).length = if c.toNat < 0x10000 then 1 else 2 := by
  unfold utf16Units
  simp only
  split <;> rfl

theorem units_length (big : Bool) : (us : List Nat) → (us.flatMap (unitBytes big)).length = us.length * 2
  | [] => rfl
  | u :: us => by
    rw [List.flatMap_cons, List.length_append, unitBytes_length, units_length big us, List.length_cons]
    omega

theorem utf8_length : (cs : List Char) → (cs.flatMap utf8Char).length = (cs.map fun c =>
    if c.toNat < 0x80 then 1 else if c.toNat < 0x800 then 2 else if c.toNat < 0x10000 then 3 else 4).sum
  | [] => rfl
  | c :: cs => by
    rw [List.flatMap_cons, List.length_append, utf8Char_length, utf8_length cs, List.map_cons, List.sum_cons]

theorem utf16_length (big : Bool) : (cs : List Char) →
    (cs.flatMap fun c => (utf16Units c).flatMap (unitBytes big)).length =
      (cs.map fun c => if c.toNat < 0x10000 then 1 else 2).sum * 2
  | [] => rfl
  | c :: cs => by
    rw [List.flatMap_cons, List.length_append, units_length, utf16Units_length, utf16_length big cs, List.map_cons,
      List.sum_cons, Nat.add_mul]

/-- The supported string encodings. -/
def Spec.encodings : List String := ["utf-8", "utf-16", "utf-16-be", "utf-16-le", "latin1", "latin1+utf16"]

/-- The codec a string is written with, and the word stored for its length. -/
theorem codec_for (enc : String) (henc : enc ∈ Spec.encodings) (str : String) (hn : codeUnits enc str < 2 ^ 31)
    (hl : enc = "latin1" → ∀ c ∈ str.toList, c.toNat < 256) :
    ∃ (c : Codec) (bs : List Byte) (tag : Bool),
      c.enc.encode str = .ok bs ∧ bs.length = codeUnits enc str * c.runeSize ∧ (c.runeSize = 1 ∨ c.runeSize = 2) ∧
      (c.alignment = 1 ∨ c.alignment = 2) ∧
      (tag = true ↔ enc = "latin1+utf16" ∧ ¬ ∀ c ∈ str.toList, c.toNat < 256) ∧
      (∀ E : Env σ, E.enc = enc → storeStringIntoRange E str = (do
        let r ← storeStringDynamic E str c
        pure (r.1, TaggedCodeUnits.toU32 ⟨r.2, tag⟩))) ∧
      ∀ w, toTagged w = ⟨BitVec.ofNat 32 (codeUnits enc str), tag⟩ →
        defaultFactory.get (srcEncoding enc (toTagged w)) = .ok c := by
  have pb : ∀ (m : SM (St σ) (U32 × U32)), m = (do
      let r ← m
      pure (r.1, TaggedCodeUnits.toU32 ⟨r.2, false⟩)) := by
    intro m
    funext s
    rcases e : m s with ⟨r, s'⟩
    cases r with
    | ok a => rw [SM.bind_ok e]; rfl
    | err => rw [SM.bind_err e]
    | panic => rw [SM.bind_panic e]
    | diverge => rw [SM.bind_diverge e]
  have step : ∀ (E : Env σ) (c : Codec), E.enc ≠ Latin1Utf16 → defaultFactory.get E.enc = .ok c →
      storeStringIntoRange E str = (do
        let r ← storeStringDynamic E str c
        pure (r.1, TaggedCodeUnits.toU32 ⟨r.2, false⟩)) := by
    intro E c h1 h2
    rw [← pb]
    funext s
    unfold storeStringIntoRange
    rw [h2, SM.bind_ok (SM.lift_def _ _), if_pos h1]
  simp only [Spec.encodings, List.mem_cons, List.not_mem_nil, or_false] at henc
  rcases henc with rfl | rfl | rfl | rfl | rfl | rfl
  · refine ⟨newUTF8, _, false, rfl, ?_, .inl rfl, .inl rfl, by simp, fun E e => step E _ (by rw [e]; decide) (by rw [e]; rfl), ?_⟩
    · rw [utf8_length]
      simp [codeUnits, newUTF8]
    · intro w _; rfl
  · refine ⟨newUTF16, _, false, rfl, ?_, .inr rfl, .inr rfl, by simp, fun E e => step E _ (by rw [e]; decide) (by rw [e]; rfl), ?_⟩
    · rw [utf16_length]
      simp [codeUnits, newUTF16]
    · intro w _; rfl
  · refine ⟨newUTF16WithEndianess true, _, false, rfl, ?_, .inr rfl, .inr rfl, by simp,
      fun E e => step E _ (by rw [e]; decide) (by rw [e]; rfl), ?_⟩
    · rw [utf16_length]
      simp [codeUnits, newUTF16WithEndianess]
    · intro w _; rfl
  · refine ⟨newUTF16WithEndianess false, _, false, rfl, ?_, .inr rfl, .inr rfl, by simp,
      fun E e => step E _ (by rw [e]; decide) (by rw [e]; rfl), ?_⟩
    · rw [utf16_length]
      simp [codeUnits, newUTF16WithEndianess]
    · intro w _; rfl
  · have ha : str.toList.all latin1Has = true := by
      rw [List.all_eq_true]
      intro c hc
      simpa [latin1Has] using hl rfl c hc
    refine ⟨newLatin1, str.toList.map (fun c => BitVec.ofNat 8 c.toNat), false, ?_, ?_, .inl rfl, .inr rfl, by simp,
      fun E e => step E _ (by rw [e]; decide) (by rw [e]; rfl), ?_⟩
    · show (if str.toList.all latin1Has then _ else _) = _
      rw [if_pos ha]
    · simp [codeUnits, newLatin1, String.length]
    · intro w _; rfl
  · by_cases hc : ∀ c ∈ str.toList, c.toNat < 256
    · have ha : str.toList.all latin1Has = true := by
        rw [List.all_eq_true]
        intro c h
        simpa [latin1Has] using hc c h
      refine ⟨newLatin1, str.toList.map (fun c => BitVec.ofNat 8 c.toNat), false, ?_, ?_, .inl rfl, .inr rfl, ?_, ?_, ?_⟩
      · show (if str.toList.all latin1Has then _ else _) = _
        rw [if_pos ha]
      · unfold codeUnits
        rw [if_neg (by decide), if_pos (.inr ⟨rfl, hc⟩)]
        simp [newLatin1, String.length]
      · exact ⟨(fun h => by cases h), fun h => absurd hc h.2⟩
      · intro E e
        unfold storeStringIntoRange
        have hd : defaultFactory.get E.enc = .ok newLatin1Utf16 := by rw [e]; rfl
        have hi : isLatin1 str = true := ha
        funext s
        rw [hd, SM.bind_ok (SM.lift_def _ _), if_neg (by rw [e]; decide)]
        simp only [hi, if_true]
        rw [show defaultFactory.get Latin1 = .ok newLatin1 from rfl, SM.bind_ok (SM.lift_def _ _)]
        rfl
      · intro w hw
        rw [hw]; rfl
    · have ha : ¬ str.toList.all latin1Has = true := by
        intro h
        apply hc
        intro c hm
        have := (List.all_eq_true.1 h) c hm
        simpa [latin1Has] using this
      refine ⟨newUTF16WithEndianess false, _, true, rfl, ?_, .inr rfl, .inr rfl, ?_, ?_, ?_⟩
      · rw [utf16_length]
        unfold codeUnits
        rw [if_neg (by decide), if_neg (by
          rintro (h | h)
          · exact absurd h (by decide)
          · exact hc h.2)]
        rfl
      · exact ⟨fun _ => ⟨rfl, hc⟩, fun _ => rfl⟩
      · intro E e
        unfold storeStringIntoRange
        have hd : defaultFactory.get E.enc = .ok newLatin1Utf16 := by rw [e]; rfl
        have hi : isLatin1 str = false := by
          unfold isLatin1; simpa using ha
        funext s
        rw [hd, SM.bind_ok (SM.lift_def _ _), if_neg (by rw [e]; decide)]
        simp only [hi, Bool.false_eq_true, if_false]
        rw [show defaultFactory.get UTF16LE = .ok (newUTF16WithEndianess false) from rfl, SM.bind_ok (SM.lift_def _ _)]
        rfl
      · intro w hw
        rw [hw]; rfl

section
variable {E : Env σ} {used : σ → Nat → Prop} (G : GoodAlloc E used) {R : σ → Prop}
  (hR : ∀ a n m h, (∃ p, (E.realloc a n (m, h)).1 = .ok p) ∨ R (E.realloc a n (m, h)).2.2)

include G hR in
theorem storeStringDynamic_does (str : String) (c : Codec) (bs : List Byte) (he : c.enc.encode str = .ok bs)
    (hb : bs.length < 2 ^ 32) (s : St σ) (hg : Good s.mem) (ha : c.alignment = 1 ∨ c.alignment = 2) :
    Does R (storeStringDynamic E str c) s fun r s' =>
      Wrote used (fun _ => False) (fun s'' => s''.mem.read r.1.toNat bs.length = bs) s s' ∧
      r.2 = BitVec.ofNat 32 (bs.length / c.runeSize) ∧ c.alignment ∣ r.1.toNat ∧
      r.1.toNat + bs.length ≤ s'.mem.len := by
  unfold storeStringDynamic
  refine .liftBind he ?_
  have hn := toNat_ofNat_lt hb
  have hal : (BitVec.ofNat 32 c.alignment).toNat = c.alignment := toNat_ofNat_lt (by omega)
  apply Does.bind (alloc_does G hR _ _ s hg)
  intro p s1 ⟨st, b1, b2, b3⟩
  rw [hn] at b2 b3
  have hp := put_does (R := R) (used := used) p (BitVec.ofNat 32 bs.length) bs s1 hn.symm st.good (by omega)
  obtain ⟨g1, g2⟩ := st.good
  have hsl := slice_ok s1.mem p (BitVec.ofNat 32 bs.length) (by omega) (by omega)
  apply Does.get
  refine .liftBind hsl ?_
  rw [List.take_of_length_le (by omega)]
  have hw : put p (BitVec.ofNat 32 bs.length) bs s1 = writeAt p bs s1 := put_ok _ _ _ _ hsl
  unfold Does at hp
  rw [hw] at hp
  apply Does.bind hp
  intro _ s2 w
  apply Does.pure
  rw [hn] at w ⊢
  exact ⟨w.fresh st b3, rfl, by rwa [hal] at b1, Nat.le_trans b2 w.step.len⟩

omit G hR in
theorem loadStringFromRange_ok (str : String) (c : Codec) (bs : List Byte) (he : c.enc.encode str = .ok bs)
    (p w : U32) (s : St σ) (hc : defaultFactory.get (srcEncoding E.enc (toTagged w)) = .ok c)
    (hn : (toTagged w).codeUnits * BitVec.ofNat 32 c.runeSize = BitVec.ofNat 32 bs.length) (hb : bs.length < 2 ^ 32)
    (ha : c.alignment = 1 ∨ c.alignment = 2) (hd : c.alignment ∣ p.toNat) (hg : Good s.mem)
    (hl : p.toNat + bs.length ≤ s.mem.len) (hr : s.mem.read p.toNat bs.length = bs) :
    loadStringFromRange E p w s = (.ok str, s) := by
  obtain ⟨g1, g2⟩ := hg
  have hal : (BitVec.ofNat 32 c.alignment).toNat = c.alignment := toNat_ofNat_lt (by omega)
  have hn' := toNat_ofNat_lt hb
  unfold loadStringFromRange
  simp only
  rw [hc, SM.bind_ok (SM.lift_def _ _), hn, SM.ite_app, if_neg, SM.bind_get, SM.ite_app, if_neg,
    slice_ok s.mem p (BitVec.ofNat 32 bs.length) (by omega) (by omega), SM.bind_ok (SM.lift_def _ _), hn', hr,
    c.enc.roundtrip str bs he]
  · rfl
  · rw [BitVec.toNat_add, hn', Mem.len32, toNat_ofNat_lt g1, Nat.mod_eq_of_lt (by omega)]
    omega
  · rw [Classical.not_not, alignTo_eq_iff _ _ (by rw [hal]; rcases ha with h | h <;> rw [h] <;> simp [IsAl]), hal]
    exact hd

include G hR in
/-- The string is in memory, and the pair returned says where and how. -/
theorem storeStringIntoRange_does (str : String) (henc : E.enc ∈ Spec.encodings) (hn : codeUnits E.enc str < 2 ^ 31)
    (hl : E.enc = "latin1" → ∀ c ∈ str.toList, c.toNat < 256) (s : St σ) (hg : Good s.mem) :
    Does R (storeStringIntoRange E str) s fun r s' =>
      Wrote used (fun _ => False) (fun s'' => loadStringFromRange E r.1 r.2 s'' = (.ok str, s'')) s s' ∧
      (toTagged r.2).codeUnits.toNat = codeUnits E.enc str ∧
      ((toTagged r.2).utf16 = true ↔ E.enc = "latin1+utf16" ∧ ¬ ∀ c ∈ str.toList, c.toNat < 256) := by
  obtain ⟨c, bs, tag, h1, h2, h3, h4, h5, h6, h7⟩ := codec_for (σ := σ) E.enc henc str hn hl
  have hb : bs.length < 2 ^ 32 := by
    rw [h2]; rcases h3 with h | h <;> rw [h] <;> omega
  rw [h6 E rfl]
  apply Does.bind (storeStringDynamic_does G hR str c bs h1 hb s hg h4)
  rintro ⟨p, n⟩ s1 ⟨w, e, hd, hle⟩
  apply Does.pure
  simp only at e hd hle w ⊢
  have hq : bs.length / c.runeSize = codeUnits E.enc str := by
    rw [h2]; rcases h3 with h | h <;> rw [h] <;> omega
  rw [hq] at e
  subst e
  have hcu := toNat_ofNat_lt (n := codeUnits E.enc str) (by omega)
  have ht := tagged_roundtrip ⟨BitVec.ofNat 32 (codeUnits E.enc str), tag⟩ (by simp only; omega)
  refine ⟨w.imp (fun _ h => h) ?_, ?_, ?_⟩
  · intro s'' k1 k2 k3
    refine loadStringFromRange_ok str c bs h1 p _ s'' (h7 _ ht) ?_ hb h4 hd k2 (by omega) k3
    rw [ht, h2]
    simp only
    apply BitVec.eq_of_toNat_eq
    rw [BitVec.toNat_mul, BitVec.toNat_ofNat, BitVec.toNat_ofNat, BitVec.toNat_ofNat, ← Nat.mul_mod]
  · rw [ht]; exact hcu
  · rw [ht]; exact h5

/-! ### Flags -/

omit G hR in
theorem one_shl_getLsbD (i j : Nat) (hj : j < 64) : ((1 : U64) <<< i).getLsbD j = decide (i = j) := by
  rw [BitVec.getLsbD_shiftLeft]
  by_cases h : j < i
  · simp [h, hj]; omega
  · simp only [hj, h, decide_true, decide_false, Bool.not_false, Bool.true_and]
    rw [show (1 : U64) = 1#64 from rfl, BitVec.getLsbD_one]
    simp; omega

omit G hR in
/-- The packed flags: bit `i + j` is flag `j`, all other bits are zero. -/
theorem packFlags_spec (m : List (String × Val)) : (ls : List String) → (i : Nat) →
    (∀ l ∈ ls, ∃ b, mapGet m l = .bool b) → ∃ x, packFlagsFrom m ls i = .ok x ∧
      ∀ j < 64, (x.getLsbD j = true ↔ i ≤ j ∧ ∃ l, ls[j - i]? = some l ∧ mapGet m l = .bool true)
  | [], i, _ => ⟨0, rfl, by simp⟩
  | l :: ls, i, h => by
    obtain ⟨b, hb⟩ := h l (by simp)
    obtain ⟨x, hx, hs⟩ := packFlags_spec m ls (i + 1) (fun l' hl' => h l' (by simp [hl']))
    refine ⟨(if b then (1 : U64) <<< i else 0) ||| x, by rw [packFlagsFrom, hb, hx]; rfl, ?_⟩
    intro j hj
    have h1 : (if b then (1 : U64) <<< i else 0).getLsbD j = (b && decide (i = j)) := by
      cases b with
      | false => simp
      | true => rw [if_pos rfl, one_shl_getLsbD i j hj, Bool.true_and]
    rw [BitVec.getLsbD_or, h1, Bool.or_eq_true, Bool.and_eq_true, decide_eq_true_eq, hs j hj]
    constructor
    · rintro (⟨rfl, rfl⟩ | ⟨h1, l', h2, h3⟩)
      · exact ⟨Nat.le_refl _, l, by simp, hb⟩
      · exact ⟨by omega, l', by rw [show j - i = (j - (i + 1)) + 1 by omega, List.getElem?_cons_succ]; exact h2, h3⟩
    · rintro ⟨h1, l', h2, h3⟩
      by_cases e : i = j
      · subst e
        simp only [Nat.sub_self, List.getElem?_cons_zero, Option.some.injEq] at h2
        subst h2
        rw [hb] at h3
        injection h3 with h3
        exact .inl ⟨h3, rfl⟩
      · rw [show j - i = (j - (i + 1)) + 1 by omega, List.getElem?_cons_succ] at h2
        exact .inr ⟨by omega, l', h2, h3⟩

/-- The flags value `LoadFlags` builds. -/
def normFlags (m : List (String × Val)) : List String → List (String × Val) → List (String × Val)
  | [], acc => acc
  | l :: ls, acc => normFlags m ls (mapSet acc l (mapGet m l))

omit G hR in
theorem and_one_eq (x : U64) : (x &&& 1 == 1) = x.getLsbD 0 := by
  have h : x &&& 1 = if x.getLsbD 0 then 1 else 0 := by
    apply BitVec.eq_of_getLsbD_eq
    intro i hi
    rw [BitVec.getLsbD_and, show (1 : U64) = 1#64 from rfl, BitVec.getLsbD_one]
    cases h0 : x.getLsbD 0 with
    | true =>
      rw [if_pos rfl, BitVec.getLsbD_one]
      by_cases e : i = 0
      · subst e; simp [h0]
      · simp [e]
    | false =>
      rw [if_neg (by simp)]
      by_cases e : i = 0
      · subst e; rw [h0]; simp
      · simp [e]
  rw [h]
  cases x.getLsbD 0 <;> decide

omit G hR in
theorem unpackFlags_norm (m : List (String × Val)) : (ls : List String) → (x : U64) → (acc : List (String × Val)) →
    ls.length ≤ 64 → (∀ j l, ls[j]? = some l → mapGet m l = .bool (x.getLsbD j)) →
    unpackFlagsOnto ls x acc = normFlags m ls acc
  | [], _, _, _, _ => rfl
  | l :: ls, x, acc, hl, h => by
    rw [unpackFlagsOnto, normFlags, and_one_eq, ← h 0 l rfl]
    apply unpackFlags_norm m ls
    · simp at hl; omega
    · intro j l' hj
      rw [h (j + 1) l' (by rw [List.getElem?_cons_succ]; exact hj), BitVec.getLsbD_ushiftRight, Nat.add_comm]

omit G hR in
theorem sizeFlags_eq (n : Nat) (h : n ≤ 64) : (n = 0 ∧ sizeFlags n = 0) ∨ (0 < n ∧ n ≤ 8 ∧ sizeFlags n = 1) ∨
    (8 < n ∧ n ≤ 16 ∧ sizeFlags n = 2) ∨ (16 < n ∧ n ≤ 32 ∧ sizeFlags n = 4) ∨ (32 < n ∧ n ≤ 64 ∧ sizeFlags n = 8) := by
  have e := size_eq (.flags (List.replicate n "")) (by simp [Laid]) (by
    simp only [Spec.size, List.length_replicate]; split <;> (try omega); split <;> (try omega); split <;> omega)
  rw [Abi.size, List.length_replicate] at e
  injection e with e
  simp only [Spec.size, List.length_replicate] at e
  rw [e]
  rcases Nat.eq_zero_or_pos n with h0 | h0
  · subst h0; exact .inl ⟨rfl, rfl⟩
  · by_cases h1 : n ≤ 8
    · refine .inr (.inl ⟨h0, h1, ?_⟩)
      rw [if_neg (by omega), if_pos h1]; rfl
    · by_cases h2 : n ≤ 16
      · refine .inr (.inr (.inl ⟨by omega, h2, ?_⟩))
        rw [if_neg (by omega), if_neg h1, if_pos h2]; rfl
      · by_cases h3 : n ≤ 32
        · refine .inr (.inr (.inr (.inl ⟨by omega, h3, ?_⟩)))
          rw [if_neg (by omega), if_neg h1, if_neg h2, show (n + 31) / 32 = 1 by omega]; rfl
        · refine .inr (.inr (.inr (.inr ⟨by omega, h, ?_⟩)))
          rw [if_neg (by omega), if_neg h1, if_neg h2, show (n + 31) / 32 = 2 by omega]; rfl

omit G hR in
theorem packed_lt (x : U64) (n : Nat) (h : ∀ j < 64, x.getLsbD j = true → j < n) : x.toNat < 2 ^ n := by
  apply Nat.lt_pow_two_of_testBit
  intro i hi
  rcases Nat.lt_or_ge i 64 with hlt | hge
  · rcases hb : x.getLsbD i with _ | _
    · rw [← hb]; rfl
    · have := h i hlt hb; omega
  · exact Nat.testBit_lt_two_pow (Nat.lt_of_lt_of_le x.isLt (Nat.pow_le_pow_right (by omega) hge))

omit G hR in
theorem storeFlags_does (m : List (String × Val)) (ls : List String) (hl : ls.length ≤ 64)
    (hm : ∀ l ∈ ls, ∃ b, mapGet m l = .bool b) (ptr : U32) (s : St σ) (hg : Good s.mem)
    (hle : ptr.toNat + (sizeFlags ls.length).toNat ≤ s.mem.len) :
    Does R (storeFlags (.map m) ptr ls) s fun _ s' => Wrote used (Dst ptr.toNat (sizeFlags ls.length).toNat)
      (fun s'' => loadFlags ptr ls s'' = (.ok (.map (normFlags m ls [])), s'')) s s' := by
  obtain ⟨x, hx, hb⟩ := packFlags_spec m ls 0 hm
  have hlt : x.toNat < 2 ^ ls.length := packed_lt x ls.length (by
    intro j hj h
    obtain ⟨-, l, h1, -⟩ := (hb j hj).1 h
    exact (List.getElem?_eq_some_iff.1 h1).1)
  have hnorm : unpackFlagsOnto ls x [] = normFlags m ls [] := by
    apply unpackFlags_norm m ls x [] hl
    intro j l hj
    have hj' := (List.getElem?_eq_some_iff.1 hj).1
    obtain ⟨b, e⟩ := hm l (List.mem_of_getElem? hj)
    have := hb j (by omega)
    rw [e]
    congr 1
    cases b with
    | true => exact (this.2 ⟨by omega, l, hj, e⟩).symm
    | false =>
      rcases hg : x.getLsbD j with _ | _
      · rfl
      · obtain ⟨-, l', h1, h2⟩ := this.1 hg
        rw [Nat.sub_zero, hj] at h1
        injection h1 with h1
        subst h1
        rw [e] at h2; cases h2
  unfold storeFlags
  refine .liftBind hx ?_
  obtain ⟨g1, g2⟩ := hg
  have fin : ∀ (n : U32) (k : Nat), n.toNat = k → ls.length ≤ 8 * k → ∀ q, q = x.toNat % 256 ^ n.toNat → q = x.toNat := by
    intro n k hk h q hq
    rw [hq, hk, Nat.mod_eq_of_lt]
    apply Nat.lt_of_lt_of_le hlt
    rw [show (256 : Nat) = 2 ^ 8 from rfl, ← Nat.pow_mul]
    exact Nat.pow_le_pow_right (by omega) h
  rcases sizeFlags_eq ls.length hl with ⟨h0, e⟩ | ⟨h0, h1, e⟩ | ⟨h0, h1, e⟩ | ⟨h0, h1, e⟩ | ⟨h0, h1, e⟩
  · rw [e] at hle ⊢
    have e0 : storeInt (.u64 x) ptr 0 false s = put ptr 0 [] s := by
      rw [storeInt_eq]; rfl
    have := put_does (R := R) (used := used) ptr 0 [] s rfl ⟨g1, g2⟩ hle
    unfold Does at this ⊢
    rw [e0]
    refine this.imp_left ?_
    rintro ⟨a, s', k1, k2⟩
    refine ⟨a, s', k1, k2.imp (fun _ h => h) ?_⟩
    intro s'' _ _ _
    unfold loadFlags loadFlagsWord
    rw [e]
    have : ls = [] := List.eq_nil_of_length_eq_zero h0
    subst this
    rfl
  all_goals rw [e] at hle ⊢
  · apply (storeInt_does (R := R) (used := used) (.u64 x) _ ptr 1 false s rfl rfl (.inl rfl) ⟨g1, g2⟩ hle).imp
    intro _ s' w
    refine w.imp (fun _ h => h) ?_
    intro s'' k1 k2 k3
    have hq := fin 1 1 rfl (by omega) _ k3
    have := w.step.len
    have h4 : (1 : U32).toNat = 1 := rfl
    rw [h4] at hle
    obtain ⟨k4, k5⟩ := k2
    unfold loadFlags
    rw [e]
    have : loadIntWithSize ptr 1 false s'' = (.ok (.u8 (BitVec.ofNat 8 x.toNat)), s'') := by
      show loadInt ptr .u8 s'' = _
      rw [loadInt_ok .u8 1 rfl ptr s'' (by omega) (by omega), hq]; rfl
    have hw : (BitVec.ofNat 8 x.toNat).setWidth 64 = x := by
      apply BitVec.eq_of_toNat_eq
      have : x.toNat < 2 ^ 8 := Nat.lt_of_lt_of_le hlt (Nat.pow_le_pow_right (by omega) h1)
      rw [BitVec.toNat_setWidth, BitVec.toNat_ofNat, Nat.mod_eq_of_lt this, Nat.mod_eq_of_lt x.isLt]
    have : loadFlagsWord ptr 1 s'' = (.ok x, s'') := by
      unfold loadFlagsWord
      rw [SM.bind_ok this]
      show (Res.ok ((BitVec.ofNat 8 x.toNat).setWidth 64), s'') = _
      rw [hw]
    rw [SM.bind_ok this, hnorm]; rfl
  · apply (storeInt_does (R := R) (used := used) (.u64 x) _ ptr 2 false s rfl rfl (.inr (.inl rfl)) ⟨g1, g2⟩ hle).imp
    intro _ s' w
    refine w.imp (fun _ h => h) ?_
    intro s'' k1 k2 k3
    have hq := fin 2 2 rfl (by omega) _ k3
    have := w.step.len
    have h4 : (2 : U32).toNat = 2 := rfl
    rw [h4] at hle
    obtain ⟨k4, k5⟩ := k2
    unfold loadFlags
    rw [e]
    have : loadIntWithSize ptr 2 false s'' = (.ok (.u16 (BitVec.ofNat 16 x.toNat)), s'') := by
      show loadInt ptr .u16 s'' = _
      rw [loadInt_ok .u16 2 rfl ptr s'' (by omega) (by omega), hq]; rfl
    have hw : (BitVec.ofNat 16 x.toNat).setWidth 64 = x := by
      apply BitVec.eq_of_toNat_eq
      have : x.toNat < 2 ^ 16 := Nat.lt_of_lt_of_le hlt (Nat.pow_le_pow_right (by omega) h1)
      rw [BitVec.toNat_setWidth, BitVec.toNat_ofNat, Nat.mod_eq_of_lt this, Nat.mod_eq_of_lt x.isLt]
    have : loadFlagsWord ptr 2 s'' = (.ok x, s'') := by
      unfold loadFlagsWord
      rw [SM.bind_ok this]
      show (Res.ok ((BitVec.ofNat 16 x.toNat).setWidth 64), s'') = _
      rw [hw]
    rw [SM.bind_ok this, hnorm]; rfl
  · apply (storeInt_does (R := R) (used := used) (.u64 x) _ ptr 4 false s rfl rfl (.inr (.inr (.inl rfl))) ⟨g1, g2⟩ hle).imp
    intro _ s' w
    refine w.imp (fun _ h => h) ?_
    intro s'' k1 k2 k3
    have hq := fin 4 4 rfl (by omega) _ k3
    have := w.step.len
    have h4 : (4 : U32).toNat = 4 := rfl
    rw [h4] at hle
    obtain ⟨k4, k5⟩ := k2
    unfold loadFlags
    rw [e]
    have : loadIntWithSize ptr 4 false s'' = (.ok (.u32 (BitVec.ofNat 32 x.toNat)), s'') := by
      show loadInt ptr .u32 s'' = _
      rw [loadInt_ok .u32 4 rfl ptr s'' (by omega) (by omega), hq]; rfl
    have hw : (BitVec.ofNat 32 x.toNat).setWidth 64 = x := by
      apply BitVec.eq_of_toNat_eq
      have : x.toNat < 2 ^ 32 := Nat.lt_of_lt_of_le hlt (Nat.pow_le_pow_right (by omega) h1)
      rw [BitVec.toNat_setWidth, BitVec.toNat_ofNat, Nat.mod_eq_of_lt this, Nat.mod_eq_of_lt x.isLt]
    have : loadFlagsWord ptr 4 s'' = (.ok x, s'') := by
      unfold loadFlagsWord
      rw [SM.bind_ok this]
      show (Res.ok ((BitVec.ofNat 32 x.toNat).setWidth 64), s'') = _
      rw [hw]
    rw [SM.bind_ok this, hnorm]; rfl
  · apply (storeInt_does (R := R) (used := used) (.u64 x) _ ptr 8 false s rfl rfl (.inr (.inr (.inr rfl))) ⟨g1, g2⟩ hle).imp
    intro _ s' w
    refine w.imp (fun _ h => h) ?_
    intro s'' k1 k2 k3
    have hq := fin 8 8 rfl (by omega) _ k3
    have := w.step.len
    have h4 : (8 : U32).toNat = 8 := rfl
    rw [h4] at hle
    obtain ⟨k4, k5⟩ := k2
    unfold loadFlags
    rw [e]
    have : loadIntWithSize ptr 8 false s'' = (.ok (.u64 x), s'') := by
      show loadInt ptr .u64 s'' = _
      rw [loadInt_ok .u64 8 rfl ptr s'' (by omega) (by omega), hq]
      show (Res.ok (Val.u64 (BitVec.ofNat 64 x.toNat)), s'') = _
      rw [BitVec.ofNat_toNat, BitVec.setWidth_eq]
    have : loadFlagsWord ptr 8 s'' = (.ok x, s'') := by
      unfold loadFlagsWord
      rw [SM.bind_ok this]
      rfl
    rw [SM.bind_ok this, hnorm]; rfl

end

end Verif.Abi
