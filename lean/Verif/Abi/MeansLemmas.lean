import Verif.Abi.MeansSpec
import Verif.Abi.StringReadLemmas
import Verif.Abi.LoadOwn
import Verif.Abi.Typed

/-!
# `Load` against what the bytes stand for
-/

namespace Verif.Abi

open Encoding Spec

variable {σ : Type}

/-- The outcome: a value that the bytes stand for, the only one that they write; or a refusal where they stand for
nothing. -/
def Decided (r : Res α × St σ) (s : St σ) (M : Reading → α → Prop) : Prop :=
  (∃ v, r = (.ok v, s) ∧ M Leniently v ∧ ∀ w, M Exactly w → w = v) ∨ (r = (.err, s) ∧ ∀ R w, ¬ M R w)

theorem Decided.value {r : Res α × St σ} {s : St σ} {M : Reading → α → Prop} (v : α) (h : r = (.ok v, s))
    (hM : ∀ R w, ¬ R.neat → (M R w ↔ w = v)) : Decided r s M :=
  .inl ⟨v, h, (hM _ _ id).2 rfl, fun w hw => (hM _ _ id).1 hw⟩

theorem Decided.refuse {r : Res α × St σ} {s : St σ} {M : Reading → α → Prop} (h : r = (.err, s))
    (hM : ∀ R w, ¬ M R w) : Decided r s M := .inr ⟨h, hM⟩

/-- Apply a function to the value. -/
theorem Decided.map {m : SM (St σ) α} {s : St σ} {M : Reading → α → Prop} {N : Reading → β → Prop} (f : α → β)
    (h : Decided (m s) s M) (h1 : ∀ R a, M R a → N R (f a)) (h2 : ∀ R b, N R b → ∃ a, M R a ∧ b = f a) :
    Decided ((m >>= fun a => pure (f a)) s) s N := by
  rcases h with ⟨v, e, hl, hu⟩ | ⟨e, hn⟩
  · refine .inl ⟨f v, by rw [SM.bind_ok e]; rfl, h1 _ _ hl, fun w hw => ?_⟩
    obtain ⟨a, ha, rfl⟩ := h2 _ _ hw
    rw [hu a ha]
  · refine .inr ⟨by rw [SM.bind_err e], fun R w hw => ?_⟩
    obtain ⟨a, ha, -⟩ := h2 _ _ hw
    exact hn _ _ ha

theorem Decided.congr {r : Res α × St σ} {s : St σ} {M N : Reading → α → Prop} (h : Decided r s M)
    (e : ∀ R a, M R a ↔ N R a) : Decided r s N := by
  rcases h with ⟨v, h1, h2, h3⟩ | ⟨h1, h2⟩
  · exact .inl ⟨v, h1, (e _ _).1 h2, fun w hw => h3 w ((e _ _).2 hw)⟩
  · exact .inr ⟨h1, fun R w hw => h2 R w ((e _ _).2 hw)⟩

/-! ## Numbers -/

theorem loadInt_natAt (t : Ty) (n : U32) (hn : size t = .ok n) (ptr : U32) (s : St σ) (hs : s.mem.len < 2 ^ 32)
    (hc : s.mem.len ≤ s.mem.cap) (hl : ptr.toNat + n.toNat ≤ s.mem.len) :
    loadInt ptr t s = (.ok (intVal t (natAt s.mem ptr.toNat n.toNat)), s) := by
  rw [natAt_eq]
  exact loadInt_ok t n hn ptr s (by omega) (by omega)

theorem loadUInt32_at (ptr : U32) (s : St σ) (hs : s.mem.len < 2 ^ 32) (hc : s.mem.len ≤ s.mem.cap)
    (hl : ptr.toNat + 4 ≤ s.mem.len) :
    ∃ x : U32, loadUInt32 ptr s = (.ok x, s) ∧ x.toNat = natAt s.mem ptr.toNat 4 := by
  have e := loadUInt32_ok ptr s (by omega) (by omega)
  exact ⟨_, e, loadUInt32_natAt ptr s s _ hs hc hl e⟩

theorem char_iff (x : U32) : IsScalar x ↔ ∃ c : Char, c.toNat = x.toNat := by
  constructor
  · intro hs
    unfold IsScalar at hs
    have hv : x.toNat.isValidChar := by unfold Nat.isValidChar; omega
    exact ⟨Char.ofNat x.toNat, by unfold Char.ofNat; rw [dif_pos hv]; rfl⟩
  · rintro ⟨c, hc⟩
    have := c.valid
    have h : c.toNat.isValidChar := this
    unfold Nat.isValidChar at h
    unfold IsScalar
    omega

theorem loadDisc_at (n : Nat) (d : Disc) (hd : discriminantType n = .ok d) (ptr : U32) (s : St σ)
    (hs : s.mem.len < 2 ^ 32) (hc : s.mem.len ≤ s.mem.cap) (hl : ptr.toNat + discBytes n ≤ s.mem.len) :
    ∃ x : U32, loadDisc ptr d s = (.ok x, s) ∧ x.toNat = natAt s.mem ptr.toNat (discBytes n) := by
  have hb := disc_bytes n d hd
  have hr : ∀ k, natAt s.mem ptr.toNat k < 256 ^ k := fun k => by
    have := leNat_lt (s.mem.read ptr.toNat k); rwa [Mem.read_length, ← natAt_eq] at this
  rw [← hb] at hl ⊢
  cases d with
  | u8 =>
    have g := hr 1
    refine ⟨(BitVec.ofNat 8 (natAt s.mem ptr.toNat 1)).setWidth 32, ?_, ?_⟩
    · unfold loadDisc Disc.ty; simp only
      rw [SM.bind_ok (loadInt_natAt .u8 1 rfl ptr s hs hc hl)]; rfl
    · show _ = natAt s.mem ptr.toNat 1
      simp only [BitVec.toNat_setWidth, BitVec.toNat_ofNat]; omega
  | u16 =>
    have g := hr 2
    refine ⟨(BitVec.ofNat 16 (natAt s.mem ptr.toNat 2)).setWidth 32, ?_, ?_⟩
    · unfold loadDisc Disc.ty; simp only
      rw [SM.bind_ok (loadInt_natAt .u16 2 rfl ptr s hs hc hl)]; rfl
    · show _ = natAt s.mem ptr.toNat 2
      simp only [BitVec.toNat_setWidth, BitVec.toNat_ofNat]; omega
  | u32 =>
    have g := hr 4
    refine ⟨BitVec.ofNat 32 (natAt s.mem ptr.toNat 4), ?_, ?_⟩
    · unfold loadDisc Disc.ty; simp only
      rw [SM.bind_ok (loadInt_natAt .u32 4 rfl ptr s hs hc hl)]; rfl
    · show _ = natAt s.mem ptr.toNat 4
      simp only [BitVec.toNat_ofNat]; omega

/-! ## Strings -/

theorem loadStringFromRange_decided (E : Env σ) (henc : E.enc ∈ Spec.encodings) (p n : U32) (s : St σ)
    (hs : s.mem.len < 2 ^ 32) (hc : s.mem.len ≤ s.mem.cap) (hn : n.toNat < 2 ^ 31 ∨ E.enc = "latin1+utf16")
    (hw : p.toNat + stringBytes E.enc n.toNat < 2 ^ 32) :
    Decided (loadStringFromRange E p n s) s fun R str => StringMeans R E.enc s.mem p.toNat n.toNat str := by
  by_cases h : stringAlign E.enc ∣ p.toNat ∧ p.toNat + stringBytes E.enc n.toNat ≤ s.mem.len
  · have e := loadStringFromRange_script E henc p n hn s hs hc h.1 h.2
    obtain ⟨str, h1, h2⟩ := decode_writes (script E.enc n.toNat) (s.mem.read p.toNat (stringBytes E.enc n.toNat))
    have hu : ∀ cs, Writes (script E.enc n.toNat) cs (s.mem.read p.toNat (stringBytes E.enc n.toNat)) →
        String.ofList cs = str := by
      intro cs hcs
      have := Writes.decode (str := String.ofList cs) (by rw [String.toList_ofList]; exact hcs)
      rw [h1] at this
      injection this with this
      exact this.symm
    refine .inl ⟨str, by rw [e, h1], ⟨h.1, h.2, ?_⟩, fun w hw => ?_⟩
    · by_cases hr : replacement ∈ str.toList
      · by_cases hW : Writes (script E.enc n.toNat) str.toList (s.mem.read p.toNat (stringBytes E.enc n.toNat))
        · exact .inl hW
        · refine .inr ⟨fun cs hcs => hW ?_, hr⟩
          rw [← hu cs hcs, String.toList_ofList]
          exact hcs
      · exact .inl (h2 hr)
    · have := hu w.toList hw.2.2
      rwa [String.ofList_toList] at this
  · obtain ⟨c, k, -, hk, key⟩ := loadStringFromRange_cases E henc p n
    refine .refuse (by rw [key s hs hc (by rw [hk hn]; exact hw), if_neg (by rw [hk hn]; exact h)]) ?_
    rintro R w ⟨h1, h2, -⟩
    exact h ⟨h1, h2⟩

/-! ## Lists -/

theorem loadElems_decided (f : U32 → SM (St σ) Val) (ptr sz : U32) (s : St σ) (M : Reading → Nat → Val → Prop) :
    (n i : Nat) → (∀ j, i ≤ j → j < i + n → Decided (f (ptr + BitVec.ofNat 32 j * sz) s) s fun R => M R j) →
    Decided (loadElems f ptr sz n i s) s fun R vs =>
      vs.length = n ∧ ∀ (k : Nat) x, vs[k]? = some x → M R (i + k) x
  | 0, i, _ => by
    refine .value [] rfl fun R w _ => ?_
    constructor
    · rintro ⟨h, -⟩; exact List.length_eq_zero_iff.1 h
    · rintro rfl; exact ⟨rfl, by simp⟩
  | n + 1, i, h => by
    have ih := loadElems_decided f ptr sz s M n (i + 1) fun j h1 h2 => h j (by omega) (by omega)
    rw [loadElems]
    rcases h i (Nat.le_refl _) (by omega) with ⟨v, e, hl, hu⟩ | ⟨e, hn⟩
    · rw [SM.bind_ok e]
      rcases ih with ⟨vs, e2, hl2, hu2⟩ | ⟨e2, hn2⟩
      · refine .inl ⟨v :: vs, by rw [SM.bind_ok e2]; rfl, ⟨by rw [List.length_cons, hl2.1], ?_⟩, ?_⟩
        · intro k x hk
          cases k with
          | zero => cases hk; exact hl
          | succ k => rw [show i + (k + 1) = i + 1 + k by omega]; exact hl2.2 k x hk
        · rintro w ⟨h1, h2⟩
          cases w with
          | nil => simp at h1
          | cons x w =>
            rw [hu x (h2 0 x rfl), hu2 w ⟨by simpa using h1, fun k y hk => by
              rw [show i + 1 + k = i + (k + 1) by omega]; exact h2 (k + 1) y hk⟩]
      · refine .refuse (by rw [SM.bind_err e2]) ?_
        rintro R w ⟨h1, h2⟩
        cases w with
        | nil => simp at h1
        | cons x w =>
          exact hn2 R w ⟨by simpa using h1, fun k y hk => by
            rw [show i + 1 + k = i + (k + 1) by omega]; exact h2 (k + 1) y hk⟩
    · rw [SM.bind_err e]
      refine .refuse rfl ?_
      rintro R w ⟨h1, h2⟩
      cases w with
      | nil => simp at h1
      | cons x w => exact hn R x (by simpa using h2 0 x rfl)

/-! ## Flags -/

theorem mapSet_fresh : (m : List (String × Val)) → (k : String) → (v : Val) → k ∉ m.map Prod.fst →
    mapSet m k v = m ++ [(k, v)]
  | [], _, _, _ => rfl
  | (l, w) :: m, k, v, h => by
    rw [List.map_cons, List.mem_cons, not_or] at h
    rw [mapSet, if_neg h.1, mapSet_fresh m k v h.2]
    rfl

theorem unpack_zip : (ls : List String) → (x : U64) → (acc : List (String × Val)) → (k : Nat) → ls.Nodup →
    (∀ l ∈ ls, l ∉ acc.map Prod.fst) → (b : Nat → Bool) → (∀ i < ls.length, x.getLsbD i = b (k + i)) →
    unpackFlagsOnto ls x acc = acc ++ (ls.zipIdx k).map fun q => (q.1, .bool (b q.2))
  | [], _, acc, _, _, _, _, _ => by simp [unpackFlagsOnto]
  | l :: ls, x, acc, k, hn, hd, b, hb => by
    rw [List.nodup_cons] at hn
    have h0 := mapSet_fresh acc l (.bool (x &&& 1 == 1)) (hd l (by simp))
    have hx : (x &&& 1 == 1) = b k := by rw [and_one_eq]; exact hb 0 (by simp)
    rw [unpackFlagsOnto, h0, unpack_zip ls _ _ (k + 1) hn.2 ?_ b ?_, hx, List.zipIdx_cons, List.map_cons,
      List.append_assoc]
    · rfl
    · intro l' hl'
      rw [List.map_append, List.mem_append, not_or]
      refine ⟨hd l' (by simp [hl']), fun e => ?_⟩
      simp at e
      exact hn.1 (e ▸ hl')
    · intro i hi
      rw [BitVec.getLsbD_ushiftRight, hb (1 + i) (by simp; omega), Nat.add_assoc]

theorem loadFlags_at (ls : List String) (hd : ls.Nodup) (hl : ls.length ≤ 64) (ptr : U32) (s : St σ)
    (hs : s.mem.len < 2 ^ 32) (hc : s.mem.len ≤ s.mem.cap) (hle : ptr.toNat + Spec.size (.flags ls) ≤ s.mem.len) :
    loadFlags ptr ls s = (.ok (.map (ls.zipIdx.map fun q => (q.1, .bool (bitAt s.mem ptr.toNat q.2)))), s) := by
  have hz := sizeFlags_spec ls (by omega)
  obtain ⟨x, h1, h2, h3⟩ := loadFlagsWord_ok ls.length hl ptr s ⟨hs, hc⟩ (by omega)
  unfold loadFlags
  rw [SM.bind_ok h1]
  show (Res.ok (Val.map (unpackFlagsOnto ls x [])), s) = _
  rw [unpack_zip ls x [] 0 hd (by simp) (bitAt s.mem ptr.toNat) fun i hi => by
    rw [Nat.zero_add, ← natAt_testBit s.mem ptr.toNat (sizeFlags ls.length).toNat i (by omega), ← h3]
    rfl]
  rfl

/-! ## All types -/

theorem Cases.get?_lt : (cs : Cases) → (i : Nat) → (x : String × Ty × Option String) → cs.get? i = some x →
    i < cs.length
  | .nil, _, _, h => by simp [Cases.get?] at h
  | .cons _ _ _ cs, 0, _, _ => by simp [Cases.length]
  | .cons _ _ _ cs, i + 1, x, h => by
    rw [Cases.get?] at h
    have := Cases.get?_lt cs i x h
    simp [Cases.length]; omega

mutual
/-- `Load` decides what the bytes stand for. -/
theorem load_decided (E : Env σ) (henc : E.enc ∈ Spec.encodings) (s : St σ) (hs : s.mem.len < 2 ^ 32)
    (hc : s.mem.len ≤ s.mem.cap) : (t : Ty) → Laid t → Plain t → Wf t → (ptr : U32) → align t ∣ ptr.toNat →
    ptr.toNat + Spec.size t ≤ s.mem.len → Orderly E.enc s.mem t ptr.toNat →
    Decided (load E t ptr s) s fun R => Means R E.enc s.mem t ptr.toNat
  | .bool, _, _, _, ptr, _, hl, _ => by
    refine .value _ ?_ fun R w hR => by rw [Means]; exact and_iff_left fun h => absurd h hR
    rw [load, loadBool, SM.bind_ok (loadInt_natAt .u8 1 rfl ptr s hs hc hl)]
    have : natAt s.mem ptr.toNat 1 < 256 ^ 1 := by
      have := leNat_lt (s.mem.read ptr.toNat 1); rwa [Mem.read_length, ← natAt_eq] at this
    show (Res.ok (Val.bool (BitVec.ofNat 8 (natAt s.mem ptr.toNat 1) != 0)), s) = _
    congr 3
    rw [bne, bne]
    congr 1
    rw [Bool.eq_iff_iff, beq_iff_eq, beq_iff_eq, ← BitVec.toNat_inj, BitVec.toNat_ofNat]
    show natAt s.mem ptr.toNat 1 % 2 ^ 8 = 0 ↔ _
    rw [Nat.mod_eq_of_lt (by omega)]
  | .u8, _, _, _, ptr, _, hl, _ => by
    refine .value _ ?_ fun R w _ => by rw [Means]
    rw [load, loadInt_natAt .u8 1 rfl ptr s hs hc hl]; rfl
  | .u16, _, _, _, ptr, _, hl, _ => by
    refine .value _ ?_ fun R w _ => by rw [Means]
    rw [load, loadInt_natAt .u16 2 rfl ptr s hs hc hl]; rfl
  | .u32, _, _, _, ptr, _, hl, _ => by
    refine .value _ ?_ fun R w _ => by rw [Means]
    rw [load, loadInt_natAt .u32 4 rfl ptr s hs hc hl]; rfl
  | .u64, _, _, _, ptr, _, hl, _ => by
    refine .value _ ?_ fun R w _ => by rw [Means]
    rw [load, loadInt_natAt .u64 8 rfl ptr s hs hc hl]; rfl
  | .s8, _, _, _, ptr, _, hl, _ => by
    refine .value _ ?_ fun R w _ => by rw [Means]
    rw [load, loadInt_natAt .s8 1 rfl ptr s hs hc hl]; rfl
  | .s16, _, _, _, ptr, _, hl, _ => by
    refine .value _ ?_ fun R w _ => by rw [Means]
    rw [load, loadInt_natAt .s16 2 rfl ptr s hs hc hl]; rfl
  | .s32, _, _, _, ptr, _, hl, _ => by
    refine .value _ ?_ fun R w _ => by rw [Means]
    rw [load, loadInt_natAt .s32 4 rfl ptr s hs hc hl]; rfl
  | .s64, _, _, _, ptr, _, hl, _ => by
    refine .value _ ?_ fun R w _ => by rw [Means]
    rw [load, loadInt_natAt .s64 8 rfl ptr s hs hc hl]; rfl
  | .f32, _, _, _, ptr, _, hl, _ => by
    refine .value _ ?_ fun R w hR => by rw [Means]; exact and_iff_left fun h => absurd h hR
    rw [Spec.size] at hl
    rw [load, loadFloat32, SM.bind_ok (loadUInt32_ok ptr s (by omega) (by omega)), canon32_eq, natAt_eq]; rfl
  | .f64, _, _, _, ptr, _, hl, _ => by
    refine .value _ ?_ fun R w hR => by rw [Means]; exact and_iff_left fun h => absurd h hR
    rw [Spec.size] at hl
    rw [load, loadFloat64, SM.bind_ok (loadUInt64_ok ptr s (by omega) (by omega)), canon64_eq, natAt_eq]; rfl
  | .char, _, _, _, ptr, _, hl, _ => by
    rw [Spec.size] at hl
    have h32 : natAt s.mem ptr.toNat 4 < 256 ^ 4 := by
      have := leNat_lt (s.mem.read ptr.toNat 4); rwa [Mem.read_length, ← natAt_eq] at this
    have e1 : loadIntWithSize (σ := σ) ptr 4 false = loadInt ptr .u32 := rfl
    have e : load E .char ptr s = (match (if IsScalar (BitVec.ofNat 32 (natAt s.mem ptr.toNat 4)) then
        Res.ok (BitVec.ofNat 32 (natAt s.mem ptr.toNat 4)) else .err : Res U32) with
        | .ok r => (.ok (.s32 r), s) | .err => (.err, s) | .panic => (.panic, s) | .diverge => (.diverge, s)) := by
      rw [load, loadChar, e1, SM.bind_ok (loadInt_natAt .u32 4 rfl ptr s hs hc hl), ← convert_iff]
      show (SM.lift (convertU32ToRune (BitVec.ofNat 32 (natAt s.mem ptr.toNat 4))) >>= fun r => pure (Val.s32 r)) s = _
      rcases convertU32ToRune (BitVec.ofNat 32 (natAt s.mem ptr.toNat 4)) <;> rfl
    have hx : (BitVec.ofNat 32 (natAt s.mem ptr.toNat 4)).toNat = natAt s.mem ptr.toNat 4 := by
      rw [BitVec.toNat_ofNat, Nat.mod_eq_of_lt (by omega)]
    by_cases h : IsScalar (BitVec.ofNat 32 (natAt s.mem ptr.toNat 4))
    · rw [if_pos h] at e
      obtain ⟨c, hc'⟩ := (char_iff _).1 h
      rw [hx] at hc'
      refine .value _ e fun R w _ => ?_
      rw [Means]
      constructor
      · rintro ⟨c, h1, rfl⟩; rw [h1]
      · rintro rfl; exact ⟨c, hc', by rw [hc']⟩
    · rw [if_neg h] at e
      refine .refuse e fun R w => ?_
      rw [Means]
      rintro ⟨c, h1, -⟩
      exact h ((char_iff _).2 ⟨c, by rw [hx]; exact h1⟩)
  | .string, _, _, _, ptr, _, hl, ht => by
    rw [Spec.size] at hl
    rw [Orderly] at ht
    obtain ⟨b, e1, a1⟩ := loadUInt32_at ptr s hs hc (by omega)
    have h4 := toNat_add_4 ptr (by omega)
    obtain ⟨n, e2, a2⟩ := loadUInt32_at (ptr + 4) s hs hc (by omega)
    rw [h4] at a2
    rw [← a1, ← a2] at ht
    have key := loadStringFromRange_decided E henc b n s hs hc ht.2 ht.1
    rw [load]
    have e : loadString E ptr s = loadStringFromRange E b n s := by
      rw [loadString, SM.bind_ok e1, SM.bind_ok e2]
    rw [← e] at key
    refine key.map Val.str (fun R a ha => ?_) fun R v hv => ?_
    · rw [Means, ← a1, ← a2]; exact ⟨a, rfl, ha⟩
    · rw [Means, ← a1, ← a2] at hv
      obtain ⟨a, h1, h2⟩ := hv
      exact ⟨a, h2, h1⟩
  | .list t, _, hp, hwf, ptr, _, hl, ht => by
    rw [Spec.size] at hl
    rw [Orderly] at ht
    rw [Plain] at hp
    rw [Wf] at hwf
    obtain ⟨b, e1, a1⟩ := loadUInt32_at ptr s hs hc (by omega)
    have h4 := toNat_add_4 ptr (by omega)
    obtain ⟨n, e2, a2⟩ := loadUInt32_at (ptr + 4) s hs hc (by omega)
    rw [h4] at a2
    rw [← a1, ← a2] at ht
    obtain ⟨hw, hsz, ht⟩ := ht
    have k1 := loadListFromRange_cases (load E t) t hwf.1 b n s hs hw hsz
    have e : loadList (load E t) t ptr s = loadListFromRange (load E t) t b n s := by
      rw [loadList, SM.bind_ok e1, SM.bind_ok e2]
    have key : Decided (loadList (load E t) t ptr s) s fun R vs => vs.length = n.toNat ∧ align t ∣ b.toNat ∧
        b.toNat + n.toNat * Spec.size t ≤ s.mem.len ∧
        ∀ (i : Nat) x, vs[i]? = some x → Means R E.enc s.mem t (b.toNat + i * Spec.size t) x := by
      rw [e, k1]
      by_cases hb : align t ∣ b.toNat ∧ b.toNat + n.toNat * Spec.size t ≤ s.mem.len
      · rw [if_pos hb]
        refine (loadElems_decided (load E t) b _ s (fun R i => Means R E.enc s.mem t (b.toNat + i * Spec.size t))
          n.toNat 0 fun j _ hj => ?_).congr fun R vs => ?_
        · have hj' : j + 1 ≤ n.toNat := by omega
          have hmul := Nat.mul_le_mul_right (Spec.size t) hj'
          rw [Nat.add_mul, Nat.one_mul] at hmul
          have ha := toNat_elem b j (Spec.size t) (by omega) hsz
          have := load_decided E henc s hs hc t hwf.1 hp hwf.2 (b + BitVec.ofNat 32 j * BitVec.ofNat 32 (Spec.size t))
            (by rw [ha]; exact Nat.dvd_add hb.1 (Nat.dvd_trans (align_dvd_size t) (Nat.dvd_mul_left _ _)))
            (by rw [ha]; omega) (by rw [ha]; exact ht hb.1 hb.2 j (by omega))
          rw [ha] at this
          exact this
        · simp only [Nat.zero_add]
          exact ⟨fun h => ⟨h.1, hb.1, hb.2, h.2⟩, fun h => ⟨h.1, h.2.2.2⟩⟩
      · rw [if_neg hb]
        exact .refuse rfl fun R w h => hb ⟨h.2.1, h.2.2.1⟩
    rw [load]
    refine key.map Val.list (fun R vs h => ?_) fun R v hv => ?_
    · rw [Means, ← a1, ← a2]; exact ⟨vs, rfl, h⟩
    · rw [Means, ← a1, ← a2] at hv
      obtain ⟨vs, h1, h2⟩ := hv
      exact ⟨vs, h2, h1⟩
  | .record fs, hlt, hp, hwf, ptr, ha, hl, ht => by
    simp only [Laid] at hlt
    rw [Orderly] at ht
    rw [align] at ha
    rw [Spec.size] at hl
    rw [Plain] at hp
    rw [Wf] at hwf
    rw [load]
    have h1 := le_alignUp (n := fieldsEnd fs 0) (alignFields_isAl fs).pos
    have := loadFields_decided E henc s hs hc fs hlt hp hwf.2 hwf.1 ptr 0 [] (by simp) _ (alignFields_isAl fs)
      (Nat.le_refl _) ha (by omega) ht
    simp only [Nat.add_zero] at this
    rw [show ptr + 0#32 = ptr from BitVec.add_zero ptr] at this
    refine this.congr fun R v => ?_
    rw [Means]
    rfl
  | .variant cs, hlt, hp, hwf, ptr, ha, hl, ht => by
    simp only [Laid] at hlt
    rw [Orderly] at ht
    rw [align] at ha
    rw [Plain] at hp
    rw [Wf] at hwf
    have hls := laid_size_cases (cs := cs) (by omega)
    have hd := discBytes_isAl cs.length
    have hca := alignCases_isAl cs
    have hle : payloadOffset cs + sizeCases cs ≤ Spec.size (.variant cs) := by
      rw [Spec.size]
      exact le_alignUp (hd.max hca).pos
    have hdo : discBytes cs.length ≤ payloadOffset cs := le_alignUp hca.pos
    have hdt := discriminantType_eq cs.length hlt.1 hlt.2.1
    rw [load, hdt, SM.bind_ok (SM.lift_def _ _)]
    obtain ⟨i, e1, hi⟩ := loadDisc_at cs.length _ hdt ptr s hs hc (by omega)
    have hbytes := disc_bytes _ _ hdt
    rw [SM.bind_ok e1, disc_size, SM.bind_ok (SM.lift_def _ _), SM.ite_app, toNat_ofNat_lt (show cs.length < 2 ^ 32 by omega)]
    by_cases hir : i.toNat ≥ cs.length
    · rw [if_pos hir]
      refine .refuse rfl fun R v => ?_
      rw [Means]
      rintro ⟨l, t, r, ls, w, hg, -⟩
      have := Cases.get?_lt cs _ _ hg
      omega
    · rw [if_neg hir, maxCaseAlignment_eq cs hlt.2.2 1 (.inl rfl), SM.bind_ok (SM.lift_def _ _)]
      have hmx : max (1 : U32).toNat (alignCases cs) = alignCases cs := by
        have := hca.pos
        show max 1 _ = _
        omega
      rw [hmx]
      have hbd : ∀ d : Disc, d.bytes.toNat = discBytes cs.length → d.bytes = BitVec.ofNat 32 (discBytes cs.length) := by
        intro d hb
        apply BitVec.eq_of_toNat_eq
        rw [hb, ofNat_toNat_isAl hd]
      have hcd : alignCases cs ∣ ptr.toNat := Nat.dvd_trans (hd.dvd_max_right hca) ha
      rw [hbd _ hbytes, alignTo_add ptr _ _ hca hcd]
      have hpo : payloadOffset cs = alignUp (discBytes cs.length) (alignCases cs) := rfl
      have hpt : (ptr + BitVec.ofNat 32 (alignUp (discBytes cs.length) (alignCases cs))).toNat =
          ptr.toNat + payloadOffset cs := by
        rw [BitVec.toNat_add, toNat_ofNat_lt (by omega), Nat.mod_eq_of_lt (by omega)]; rfl
      have := loadCase_decided E henc s hs hc cs hwf.2.2.1 cs i.toNat (by omega) (fun j => j)
        (fun j => rfl) hlt.2.2 hp hwf.2.2.2 (ptr + BitVec.ofNat 32 (alignUp (discBytes cs.length) (alignCases cs)))
        (by rw [hpt]; exact Nat.dvd_add hcd (alignUp_dvd _ _)) (by rw [hpt]; omega) (by rw [hpt, hi]; exact ht)
      refine this.congr fun R v => ?_
      rw [Means, hpt, hi]
  | .flags ls, _, _, hwf, ptr, _, hl, _ => by
    rw [Wf] at hwf
    refine .value _ ?_ fun R w hR => by rw [Means]; exact and_iff_left fun h => absurd h hR
    rw [load, loadFlags_at ls hwf.1 hwf.2 ptr s hs hc hl]
  | .own _, _, hp, _, _, _, _, _ | .borrow _, _, hp, _, _, _, _, _ => by simp [Plain] at hp
  | .nil, hlt, _, _, _, _, _, _ | .other, hlt, _, _, _, _, _, _ => by simp [Laid] at hlt
theorem loadFields_decided (E : Env σ) (henc : E.enc ∈ Spec.encodings) (s : St σ) (hs : s.mem.len < 2 ^ 32)
    (hc : s.mem.len ≤ s.mem.cap) : (fs : Fields) → LaidFields fs → PlainFields fs → WfFields fs → fs.labels.Nodup →
    (base : U32) → (k : Nat) → (acc : List (String × Val)) → (∀ l ∈ fs.labels, l ∉ acc.map Prod.fst) → (B : Nat) →
    IsAl B → alignFields fs ≤ B → B ∣ base.toNat → base.toNat + fieldsEnd fs k ≤ s.mem.len →
    OrderlyFields E.enc s.mem fs (base.toNat + k) →
    Decided (loadFields E fs (base + BitVec.ofNat 32 k) acc s) s fun R v =>
      ∃ es, v = .map (acc ++ es) ∧ MeansFields R E.enc s.mem fs (base.toNat + k) es
  | .nil, _, _, _, _, base, k, acc, _, _, _, _, _, _, _ => by
    refine .value (.map acc) (by rw [loadFields]; rfl) fun R v _ => ?_
    simp only [MeansFields]
    constructor
    · rintro ⟨es, rfl, rfl⟩; rw [List.append_nil]
    · rintro rfl; exact ⟨[], by rw [List.append_nil], rfl⟩
  | .cons l t fs, hlt, hp, hwf, hnd, base, k, acc, hac, B, hB, hBl, hBd, he, ht => by
    simp only [LaidFields] at hlt
    rw [PlainFields] at hp
    rw [WfFields] at hwf
    rw [Fields.labels, List.nodup_cons] at hnd
    rw [Fields.labels] at hac
    rw [alignFields] at hBl
    rw [fieldsEnd] at he
    rw [OrderlyFields] at ht
    have g1 := fieldsEnd_ge fs (alignUp k (align t) + Spec.size t)
    have g2 := le_alignUp (n := k) (align_isAl t).pos
    have hd : align t ∣ base.toNat := Nat.dvd_trans ((align_isAl t).dvd_of_le hB (by omega)) hBd
    rw [alignUp_add (align_isAl t).pos hd] at ht
    simp only [MeansFields]
    rw [alignUp_add (align_isAl t).pos hd]
    rw [loadFields, alignment_eq t hlt.1, SM.bind_ok (SM.lift_def _ _)]
    rw [alignTo_add base k _ (align_isAl t) hd]
    have hpt : (base + BitVec.ofNat 32 (alignUp k (align t))).toNat = base.toNat + alignUp k (align t) := by
      rw [BitVec.toNat_add, toNat_ofNat_lt (by omega), Nat.mod_eq_of_lt (by omega)]
    have h1 := load_decided E henc s hs hc t hlt.1 hp.1 hwf.1 (base + BitVec.ofNat 32 (alignUp k (align t)))
      (by rw [hpt]; exact Nat.dvd_add hd (alignUp_dvd _ _)) (by rw [hpt]; omega) (by rw [hpt]; exact ht.1)
    rw [hpt] at h1
    have hl := mapSet_fresh acc l
    rcases h1 with ⟨v, e, hlv, huv⟩ | ⟨e, hn⟩
    · have h2 := loadFields_decided E henc s hs hc fs hlt.2 hp.2 hwf.2 hnd.2 base (alignUp k (align t) + Spec.size t)
        (acc ++ [(l, v)]) (by
          intro l' hl'
          rw [List.map_append, List.mem_append, not_or]
          refine ⟨hac l' (by simp [hl']), fun e => ?_⟩
          simp at e
          exact hnd.1 (e ▸ hl')) B hB (by omega) hBd he (by rw [← Nat.add_assoc]; exact ht.2)
      rw [← Nat.add_assoc] at h2
      rw [SM.bind_ok e, size_eq t hlt.1 (by omega), SM.bind_ok (SM.lift_def _ _),
        show base + BitVec.ofNat 32 (alignUp k (align t)) + BitVec.ofNat 32 (Spec.size t) =
        base + BitVec.ofNat 32 (alignUp k (align t) + Spec.size t) by rw [BitVec.ofNat_add, BitVec.add_assoc],
        mapSet_fresh acc l v (hac l (by simp))]
      rcases h2 with ⟨w, e2, ⟨es, rfl, hes⟩, hu2⟩ | ⟨e2, hn2⟩
      · refine .inl ⟨_, e2, ⟨(l, v) :: es, by simp, v, es, rfl, hlv, hes⟩, ?_⟩
        rintro w ⟨_, rfl, x, es', rfl, hx, hes'⟩
        rw [huv x hx]
        exact hu2 _ ⟨es', by simp, hes'⟩
      · refine .refuse e2 ?_
        rintro R w ⟨_, rfl, x, es', rfl, hx, hes'⟩
        exact hn2 R _ ⟨es', rfl, hes'⟩
    · rw [SM.bind_err e]
      refine .refuse rfl ?_
      rintro R w ⟨_, rfl, x, es', rfl, hx, hes'⟩
      exact hn R x hx
theorem loadCase_decided (E : Env σ) (henc : E.enc ∈ Spec.encodings) (s : St σ) (hs : s.mem.len < 2 ^ 32)
    (hc : s.mem.len ≤ s.mem.cap) (all : Cases)
    (hch : ∀ i l t r, all.get? i = some (l, t, r) → ∃ ls, Chain all l r ls) : (cs : Cases) → (i : Nat) → i < cs.length →
    (g : Nat → Nat) → (∀ j, all.get? (g j) = cs.get? j) → LaidCases cs → PlainCases cs → WfCases cs → (ptr : U32) →
    alignCases cs ∣ ptr.toNat → ptr.toNat + sizeCases cs ≤ s.mem.len → OrderlyCase E.enc s.mem cs i ptr.toNat →
    Decided (loadCase E all cs i ptr s) s fun R v => ∃ l t r ls w, cs.get? i = some (l, t, r) ∧ Chain all l r ls ∧
      v = .map [(bars ls, w)] ∧ MeansCase R E.enc s.mem cs i ptr.toNat w
  | .nil, i, h, _, _, _, _, _, _, _, _, _ => by simp [Cases.length] at h
  | .cons l t r cs, 0, _, g, hg, hlt, hp, hwf, ptr, ha, hl, ht => by
    simp only [LaidCases] at hlt
    rw [PlainCases] at hp
    rw [WfCases] at hwf
    rw [alignCases] at ha
    rw [sizeCases] at hl
    rw [OrderlyCase] at ht
    obtain ⟨ls, hls⟩ := hch (g 0) l t r (by rw [hg]; rfl)
    rw [loadCase, caseLabel_chain hls, SM.bind_ok (SM.lift_def _ _)]
    have hun : ∀ l' t' r' ls', Cases.get? (.cons l t r cs) 0 = some (l', t', r') → Chain all l' r' ls' →
        bars ls' = bars ls := by
      intro l' t' r' ls' h1 h2
      cases h1
      exact (caseLabel_ok h2 (caseLabel_chain hls)).symm
    by_cases htn : t = .nil
    · rw [if_pos htn]
      refine .value (.map [(bars ls, .nil)]) rfl fun R v _ => ?_
      simp only [MeansCase]
      constructor
      · rintro ⟨l', t', r', ls', w, h1, h2, rfl, h3⟩
        rw [hun _ _ _ _ h1 h2]
        rcases h3 with ⟨-, rfl⟩ | ⟨h3, -⟩
        · rfl
        · exact absurd htn h3
      · rintro rfl
        exact ⟨l, t, r, ls, .nil, rfl, hls, rfl, .inl ⟨htn, rfl⟩⟩
    · rw [if_neg htn]
      have h1 := load_decided E henc s hs hc t (hlt.1.resolve_left htn) hp.1 hwf.1 ptr
        (Nat.dvd_trans ((align_isAl t).dvd_max_left (alignCases_isAl cs)) ha) (by omega) ht
      refine h1.map (fun v => Val.map [(bars ls, v)]) (fun R w hw => ?_) fun R v hv => ?_
      · exact ⟨l, t, r, ls, w, rfl, hls, rfl, by rw [MeansCase]; exact .inr ⟨htn, hw⟩⟩
      · obtain ⟨l', t', r', ls', w, h2, h3, rfl, h4⟩ := hv
        rw [MeansCase] at h4
        rcases h4 with ⟨h4, -⟩ | ⟨-, h4⟩
        · exact absurd h4 htn
        · exact ⟨w, h4, by rw [hun _ _ _ _ h2 h3]⟩
  | .cons l t r cs, i + 1, hi, g, hg, hlt, hp, hwf, ptr, ha, hl, ht => by
    simp only [LaidCases] at hlt
    rw [PlainCases] at hp
    rw [WfCases] at hwf
    rw [alignCases] at ha
    rw [sizeCases] at hl
    rw [OrderlyCase] at ht
    rw [Cases.length] at hi
    rw [loadCase]
    refine (loadCase_decided E henc s hs hc all hch cs i (by omega) (fun j => g (j + 1)) (fun j => by rw [hg]; rfl) hlt.2
      hp.2 hwf.2 ptr (Nat.dvd_trans ((align_isAl t).dvd_max_right (alignCases_isAl cs)) ha) (by omega) ht).congr
      fun R v => ?_
    simp only [MeansCase]
    rfl
end

end Verif.Abi
