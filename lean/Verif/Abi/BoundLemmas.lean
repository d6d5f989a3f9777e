import Verif.Abi.BoundSpec
import Verif.Abi.LiftTame
import Verif.Abi.LayoutLemmas

/-!
# What is read is bounded by the memory: lemmas
-/

namespace Verif.Abi
open Spec Encoding

variable {σ : Type}

/-! ### Strings -/

theorem utf8Decode_length : (bs : List Byte) → (k : Nat) → (utf8Decode k bs).length ≤ bs.length
  | [], k => by simp [utf8Decode]
  | b :: bs, 0 => by
    rw [utf8Decode]
    have := utf8Decode_length bs (utf8Head b bs).2
    simp only [List.length_cons]; omega
  | b :: bs, k + 1 => by
    rw [utf8Decode]
    have := utf8Decode_length bs k
    simp only [List.length_cons]; omega

theorem utf16Decode_length : (us : List (Option Nat)) → (k : Nat) → (utf16Decode k us).length ≤ us.length
  | [], k => by simp [utf16Decode]
  | b :: bs, 0 => by
    rw [utf16Decode]
    have := utf16Decode_length bs (utf16Head b bs).2
    simp only [List.length_cons]; omega
  | b :: bs, k + 1 => by
    rw [utf16Decode]
    have := utf16Decode_length bs k
    simp only [List.length_cons]; omega

theorem bytesUnits_length (big : Bool) : (bs : List Byte) → (bytesUnits big bs).length ≤ bs.length
  | a :: b :: rest => by
    rw [bytesUnits]
    have := bytesUnits_length big rest
    simp only [List.length_cons]; omega
  | [_] => by simp [bytesUnits]
  | [] => by simp [bytesUnits]

theorem decode_length (e : TextEnc) (bs : List Byte) (s : String) (h : e.decode bs = .ok s) : s.length ≤ bs.length := by
  cases e <;> rw [TextEnc.decode] at h <;> injection h with h <;> subst h <;> rw [String.length_ofList]
  · exact utf8Decode_length _ _
  · exact Nat.le_trans (utf16Decode_length _ _) (bytesUnits_length _ _)
  · simp

theorem slice_inv {m : Mem} {a b : U32} {u : Unit} (h : m.slice a b = .ok u) : a.toNat ≤ b.toNat ∧ b.toNat ≤ m.cap := by
  unfold Mem.slice at h
  split at h
  · assumption
  · cases h

theorem loadStringFromRange_bound {E : Env σ} {p n : U32} {s s' : St σ} {x : String}
    (h : loadStringFromRange E p n s = (.ok x, s')) : x.length ≤ s.mem.cap := by
  unfold loadStringFromRange at h
  obtain ⟨c, s1, hc, h⟩ := SM.bind_eq_ok.1 h
  simp only [SM.lift_def, Prod.mk.injEq] at hc
  obtain ⟨-, rfl⟩ := hc
  simp only [SM.ite_app] at h
  split at h
  · simp at h
  rw [SM.bind_get] at h
  simp only [SM.ite_app] at h
  split at h
  · simp at h
  obtain ⟨u, s2, h1, h2⟩ := SM.bind_eq_ok.1 h
  simp only [SM.lift_def, Prod.mk.injEq] at h1 h2
  obtain ⟨h1, rfl⟩ := h1
  have hs := slice_inv h1
  have hl := decode_length _ _ _ h2.1
  simp only [Mem.read, List.length_map, List.length_range] at hl
  rw [BitVec.toNat_add] at hs
  have := BitVec.isLt ((toTagged n).codeUnits * BitVec.ofNat 32 c.runeSize)
  have := BitVec.isLt p
  omega

/-! ### A successful load of something reads within the memory -/

theorem loadBytes_inside {p z : U32} {s s' : St σ} {x : Nat} (h : loadBytes p z s = (.ok x, s')) (hz : 0 < z.toNat) :
    p.toNat < s.mem.cap := by
  unfold loadBytes at h
  rw [SM.bind_get] at h
  obtain ⟨u, s2, h1, h2⟩ := SM.bind_eq_ok.1 h
  simp only [SM.lift_def, Prod.mk.injEq] at h1
  have hs := slice_inv h1.1
  rw [BitVec.toNat_add] at hs
  have := z.isLt
  have := p.isLt
  omega

theorem loadInt_inside {p z : U32} {t : Ty} {s s' : St σ} {x : Val} (h : loadInt p t s = (.ok x, s'))
    (ht : size t = .ok z) (hz : 0 < z.toNat) : p.toNat < s.mem.cap := by
  unfold loadInt at h
  rw [ht] at h
  obtain ⟨z', s1, h1, h⟩ := SM.bind_eq_ok.1 h
  simp only [SM.lift_def, Prod.mk.injEq, Res.ok.injEq] at h1
  obtain ⟨rfl, rfl⟩ := h1
  obtain ⟨_, _, h2, -⟩ := SM.bind_eq_ok.1 h
  exact loadBytes_inside h2 hz

theorem loadIntWithSize_inside {p n : U32} {b : Bool} {s s' : St σ} {x : Val} (h : loadIntWithSize p n b s = (.ok x, s'))
    (hn : n ≠ 0) : p.toNat < s.mem.cap := by
  unfold loadIntWithSize at h
  rw [if_neg hn] at h
  repeat' split at h
  all_goals first
    | exact loadInt_inside h rfl (by decide)
    | (unfold loadInt at h; simp [size, SM.bind_def] at h)

theorem loadUInt32_inside {p : U32} {s s' : St σ} {x : U32} (h : loadUInt32 p s = (.ok x, s')) : p.toNat < s.mem.cap := by
  unfold loadUInt32 at h
  obtain ⟨_, _, h1, -⟩ := SM.bind_eq_ok.1 h
  exact loadInt_inside h1 rfl (by decide)

theorem loadUInt64_inside {p : U32} {s s' : St σ} {x : U64} (h : loadUInt64 p s = (.ok x, s')) : p.toNat < s.mem.cap := by
  unfold loadUInt64 at h
  obtain ⟨_, _, h1, -⟩ := SM.bind_eq_ok.1 h
  exact loadInt_inside h1 rfl (by decide)

theorem loadDisc_inside {p : U32} {d : Disc} {s s' : St σ} {x : U32} (h : loadDisc p d s = (.ok x, s')) :
    p.toNat < s.mem.cap := by
  unfold loadDisc at h
  obtain ⟨_, _, h1, -⟩ := SM.bind_eq_ok.1 h
  exact loadInt_inside h1 (disc_size d) (by cases d <;> decide)

theorem alignTo_of_zero (a : U32) : alignTo 0 a = 0 := by
  apply BitVec.eq_of_toNat_eq
  rcases Nat.eq_zero_or_pos a.toNat with h | h
  · simp [alignTo, h]
  · rw [alignTo_toNat _ _ h, show (0 : U32).toNat = 0 from rfl, alignUp_of_dvd h (Nat.dvd_zero _)]

theorem size_dvd (T : Ty) (s : U32) (h : Abi.size T = .ok s) : align T ∣ s.toNat := by
  have hl := laid_of_size T s h
  cases T with
  | record fs =>
    rw [Abi.size] at h
    obtain ⟨s', -, h⟩ := Res.bind_eq_ok.1 h
    obtain ⟨a, h2, h⟩ := Res.bind_eq_ok.1 h
    have h3 := alignment_eq (.record fs) hl
    rw [Abi.alignment, h2] at h3
    injection h3 with h3
    injection h with h
    have := alignTo_dvd s' a (by rw [h3, ofNat_toNat_isAl (align_isAl _)]; exact align_isAl _)
    rwa [h, h3, ofNat_toNat_isAl (align_isAl _)] at this
  | variant cs =>
    rw [Abi.size] at h
    obtain ⟨dt, -, h⟩ := Res.bind_eq_ok.1 h
    obtain ⟨a, -, h⟩ := Res.bind_eq_ok.1 h
    obtain ⟨m, -, h⟩ := Res.bind_eq_ok.1 h
    obtain ⟨b, h2, h⟩ := Res.bind_eq_ok.1 h
    rw [alignment_eq (.variant cs) hl] at h2
    injection h2 with h2
    injection h with h
    have := alignTo_dvd (alignTo dt.bytes a + m) b
      (by rw [← h2, ofNat_toNat_isAl (align_isAl _)]; exact align_isAl _)
    rwa [h, ← h2, ofNat_toNat_isAl (align_isAl _)] at this
  | flags ls =>
    rw [Abi.size] at h
    injection h with h
    subst h
    rw [align, sizeFlags]
    by_cases h0 : ls.length = 0
    · rw [if_pos h0]; exact Nat.dvd_zero _
    by_cases h8 : ls.length ≤ 8
    · rw [if_pos h8, if_neg h0, if_pos h8]; decide
    by_cases h16 : ls.length ≤ 16
    · rw [if_neg h8, if_pos h16, if_neg h0, if_neg h8, if_pos h16]; decide
    · rw [if_neg h8, if_neg h16, if_neg h0, if_neg h8, if_neg h16, BitVec.toNat_mul]
      exact (Nat.dvd_mod_iff (by decide)).2 ⟨_, rfl⟩
  | nil => simp [Abi.size] at h
  | other => simp [Abi.size] at h
  | _ => simp only [Abi.size, Res.ok.injEq] at h; subst h; simp [align]

theorem al_of_size {t : Ty} {z a : U32} (hz : size t = .ok z) (ha : alignment t = .ok a) : a.toNat = align t := by
  have := alignment_eq t (laid_of_size t z hz)
  rw [ha] at this
  injection this with this
  rw [this, ofNat_toNat_isAl (align_isAl t)]

mutual
/-- What takes up bytes lies within the memory if it was loaded. -/
theorem load_inside (E : Env σ) : (t : Ty) → (p : U32) → (s s' : St σ) → (v : Val) → (z : U32) →
    load E t p s = (.ok v, s') → size t = .ok z → 0 < z.toNat → align t ∣ p.toNat → p.toNat < s.mem.cap
  | .bool, p, s, s', v, z, h, _, _, _ => by
    rw [load, loadBool] at h
    obtain ⟨_, _, h1, -⟩ := SM.bind_eq_ok.1 h
    exact loadInt_inside h1 rfl (by decide)
  | .u8, p, s, s', v, z, h, _, _, _ | .u16, p, s, s', v, z, h, _, _, _ | .u32, p, s, s', v, z, h, _, _, _
  | .u64, p, s, s', v, z, h, _, _, _ | .s8, p, s, s', v, z, h, _, _, _ | .s16, p, s, s', v, z, h, _, _, _
  | .s32, p, s, s', v, z, h, _, _, _ | .s64, p, s, s', v, z, h, _, _, _ => by
    rw [load] at h; exact loadInt_inside h rfl (by decide)
  | .f32, p, s, s', v, z, h, _, _, _ => by
    rw [load, loadFloat32] at h
    obtain ⟨_, _, h1, -⟩ := SM.bind_eq_ok.1 h
    exact loadUInt32_inside h1
  | .f64, p, s, s', v, z, h, _, _, _ => by
    rw [load, loadFloat64] at h
    obtain ⟨_, _, h1, -⟩ := SM.bind_eq_ok.1 h
    exact loadUInt64_inside h1
  | .char, p, s, s', v, z, h, _, _, _ => by
    rw [load, loadChar] at h
    obtain ⟨_, _, h1, -⟩ := SM.bind_eq_ok.1 h
    exact loadIntWithSize_inside h1 (by decide)
  | .string, p, s, s', v, z, h, _, _, _ => by
    rw [load] at h
    obtain ⟨_, _, h1, -⟩ := SM.bind_eq_ok.1 h
    unfold loadString at h1
    obtain ⟨_, _, h1, -⟩ := SM.bind_eq_ok.1 h1
    exact loadUInt32_inside h1
  | .list t, p, s, s', v, z, h, _, _, _ => by
    rw [load] at h
    obtain ⟨_, _, h1, -⟩ := SM.bind_eq_ok.1 h
    unfold loadList at h1
    obtain ⟨_, _, h1, -⟩ := SM.bind_eq_ok.1 h1
    exact loadUInt32_inside h1
  | .record fs, p, s, s', v, z, h, hz, h0, hp => by
    rw [load] at h
    rw [size] at hz
    obtain ⟨z', h1, hz⟩ := Res.bind_eq_ok.1 hz
    obtain ⟨a, -, hz⟩ := Res.bind_eq_ok.1 hz
    injection hz with hz
    subst hz
    rw [align] at hp
    refine loadFields_inside E fs p [] s s' v z' h h1 ?_ hp
    rcases Nat.eq_zero_or_pos z'.toNat with e | e
    · have : z' = 0 := BitVec.eq_of_toNat_eq e
      rw [this, alignTo_of_zero] at h0
      exact absurd h0 (by decide)
    · exact e
  | .variant cs, p, s, s', v, z, h, _, _, _ => by
    rw [load] at h
    obtain ⟨d, _, h1, h⟩ := SM.bind_eq_ok.1 h
    simp only [SM.lift_def, Prod.mk.injEq] at h1
    obtain ⟨-, rfl⟩ := h1
    obtain ⟨_, _, h1, -⟩ := SM.bind_eq_ok.1 h
    exact loadDisc_inside h1
  | .flags ls, p, s, s', v, z, h, hz, h0, _ => by
    rw [load, loadFlags, loadFlagsWord] at h
    obtain ⟨_, _, h, -⟩ := SM.bind_eq_ok.1 h
    obtain ⟨_, _, h, -⟩ := SM.bind_eq_ok.1 h
    rw [size] at hz
    injection hz with hz
    refine loadIntWithSize_inside h (fun e => ?_)
    rw [← hz, e] at h0
    exact absurd h0 (by decide)
  | .own _, p, s, s', v, z, h, _, _, _ => by
    rw [load] at h
    obtain ⟨_, _, h1, -⟩ := SM.bind_eq_ok.1 h
    exact loadUInt32_inside h1
  | .borrow _, p, s, s', v, z, h, _, _, _ => by
    rw [load] at h
    obtain ⟨_, _, h1, -⟩ := SM.bind_eq_ok.1 h
    exact loadUInt32_inside h1
  | .nil, p, s, s', v, z, h, _, _, _ => by simp [load] at h
  | .other, p, s, s', v, z, h, _, _, _ => by simp [load] at h
theorem loadFields_inside (E : Env σ) : (fs : Fields) → (p : U32) → (acc : List (String × Val)) → (s s' : St σ) →
    (v : Val) → (z : U32) → loadFields E fs p acc s = (.ok v, s') → sizeFields fs 0 = .ok z → 0 < z.toNat →
    alignFields fs ∣ p.toNat → p.toNat < s.mem.cap
  | .nil, p, acc, s, s', v, z, _, hz, h0, _ => by
    rw [sizeFields] at hz
    injection hz with hz
    subst hz
    exact absurd h0 (by decide)
  | .cons l t fs, p, acc, s, s', v, z, h, hz, h0, hp => by
    rw [loadFields] at h
    rw [sizeFields] at hz
    obtain ⟨a, ha, hz⟩ := Res.bind_eq_ok.1 hz
    obtain ⟨y, hy, hz⟩ := Res.bind_eq_ok.1 hz
    rw [alignTo_of_zero, show (0 : U32) + y = y from BitVec.zero_add y] at hz
    rw [ha] at h
    obtain ⟨_, _, h1, h⟩ := SM.bind_eq_ok.1 h
    simp only [SM.lift_def, Prod.mk.injEq, Res.ok.injEq] at h1
    obtain ⟨rfl, rfl⟩ := h1
    rw [alignFields] at hp
    have hd : align t ∣ p.toNat := Nat.dvd_trans ((align_isAl t).dvd_max_left (alignFields_isAl fs)) hp
    have hd' : alignFields fs ∣ p.toNat := Nat.dvd_trans ((align_isAl t).dvd_max_right (alignFields_isAl fs)) hp
    have hal := al_of_size hy ha
    have e : alignTo p a = p := ((alignTo_eq_iff p a (by rw [hal]; exact align_isAl t)).2 (by rw [hal]; exact hd)).symm
    simp only [e] at h
    obtain ⟨w, s1, h1, h⟩ := SM.bind_eq_ok.1 h
    rw [hy] at h
    obtain ⟨_, _, h2, h⟩ := SM.bind_eq_ok.1 h
    simp only [SM.lift_def, Prod.mk.injEq, Res.ok.injEq] at h2
    obtain ⟨rfl, rfl⟩ := h2
    rcases Nat.eq_zero_or_pos y.toNat with e | e
    · have : y = 0 := BitVec.eq_of_toNat_eq e
      subst this
      rw [show p + (0 : U32) = p from BitVec.add_zero p] at h
      have := loadFields_inside E fs _ _ s1 s' v z h hz h0 hd'
      rwa [load_mem h1] at this
    · exact load_inside E t _ s s1 w y h1 hy e hd
end

/-! ### Lists -/

theorem loadElems_inside {E : Env σ} {t : Ty} {z : U32} (hz : size t = .ok z) (h0 : 0 < z.toNat) (p : U32)
    (hd : align t ∣ p.toNat) : (n i : Nat) → (s s' : St σ) → (vs : List Val) → s.mem.cap + z.toNat ≤ 2 ^ 32 →
    p.toNat + i * z.toNat < s.mem.cap + z.toNat → loadElems (load E t) p z n i s = (.ok vs, s') →
    p.toNat + (i + n) * z.toNat < s.mem.cap + z.toNat
  | 0, i, s, s', vs, _, hi, _ => by simpa using hi
  | n + 1, i, s, s', vs, hc, hi, h => by
    rw [loadElems] at h
    obtain ⟨v, s1, h1, h⟩ := SM.bind_eq_ok.1 h
    obtain ⟨ws, s2, h2, -⟩ := SM.bind_eq_ok.1 h
    have hm := load_mem h1
    have hi' : i < 2 ^ 32 := by
      have := Nat.le_mul_of_pos_right i h0
      omega
    have e : (p + BitVec.ofNat 32 i * z).toNat = p.toNat + i * z.toNat := by
      rw [BitVec.toNat_add, BitVec.toNat_mul, BitVec.toNat_ofNat, Nat.mod_eq_of_lt hi', Nat.mod_eq_of_lt (a := i * z.toNat) (by omega),
        Nat.mod_eq_of_lt (by omega)]
    have g := load_inside E t _ s s1 v z h1 hz h0
      (by rw [e]; exact Nat.dvd_add hd (Nat.dvd_trans (size_dvd t z hz) (Nat.dvd_mul_left _ _)))
    rw [e] at g
    have := loadElems_inside hz h0 p hd n (i + 1) s1 s2 ws (by rw [hm]; exact hc)
      (by rw [hm, Nat.succ_mul]; omega) h2
    rw [hm] at this
    rwa [show i + 1 + n = i + (n + 1) by omega] at this

theorem loadElems_length {f : U32 → SM (St σ) Val} (p z : U32) : (n i : Nat) → (s s' : St σ) → (vs : List Val) →
    loadElems f p z n i s = (.ok vs, s') → vs.length = n
  | 0, i, s, s', vs, h => by
    rw [loadElems] at h
    simp only [SM.pure_def, Prod.mk.injEq, Res.ok.injEq] at h
    rw [← h.1]; rfl
  | n + 1, i, s, s', vs, h => by
    rw [loadElems] at h
    obtain ⟨v, s1, -, h⟩ := SM.bind_eq_ok.1 h
    obtain ⟨ws, s2, h2, h⟩ := SM.bind_eq_ok.1 h
    simp only [SM.pure_def, Prod.mk.injEq, Res.ok.injEq] at h
    rw [← h.1, List.length_cons, loadElems_length p z n (i + 1) s1 s2 ws h2]

/-- A successful `loadListFromRange` is a successful element loop from an aligned address. -/
theorem loadListFromRange_elems {f : U32 → SM (St σ) Val} {t : Ty} {z p n : U32} {s s' : St σ} {vs : List Val}
    (hz : size t = .ok z) (h : loadListFromRange f t p n s = (.ok vs, s')) :
    align t ∣ p.toNat ∧ loadElems f p z n.toNat 0 s = (.ok vs, s') := by
  unfold loadListFromRange at h
  obtain ⟨a, _, h1, h⟩ := SM.bind_eq_ok.1 h
  simp only [SM.lift_def, Prod.mk.injEq] at h1
  obtain ⟨ha, rfl⟩ := h1
  simp only [SM.ite_app] at h
  split at h
  · simp at h
  rename_i hal
  rw [hz] at h
  obtain ⟨_, _, h1, h⟩ := SM.bind_eq_ok.1 h
  simp only [SM.lift_def, Prod.mk.injEq, Res.ok.injEq] at h1
  obtain ⟨rfl, rfl⟩ := h1
  rw [SM.bind_get] at h
  simp only [SM.ite_app] at h
  split at h
  · simp at h
  have e := al_of_size hz ha
  refine ⟨?_, h⟩
  rw [← e]
  exact (alignTo_eq_iff p a (by rw [e]; exact align_isAl t)).1 (Classical.not_not.1 hal)

/-- The elements loaded fit side by side in the memory, up to the padding of the last one. -/
theorem loadListFromRange_length {E : Env σ} {t : Ty} {z p n : U32} {s s' : St σ} {vs : List Val} (hz : size t = .ok z)
    (h0 : 0 < z.toNat) (hc : s.mem.cap + z.toNat ≤ 2 ^ 32) (h : loadListFromRange (load E t) t p n s = (.ok vs, s')) :
    vs ≠ [] → p.toNat + vs.length * z.toNat < s.mem.cap + z.toNat := by
  obtain ⟨hd, h⟩ := loadListFromRange_elems hz h
  intro hne
  have hl := loadElems_length _ _ _ _ _ _ _ h
  cases hn : n.toNat with
  | zero => rw [hn] at hl; exact absurd (List.length_eq_zero_iff.1 hl) hne
  | succ k =>
    rw [hn] at h hl
    have hp : p.toNat < s.mem.cap + z.toNat := by
      have h' := h
      rw [loadElems] at h'
      obtain ⟨v, s1, h1, -⟩ := SM.bind_eq_ok.1 h'
      simp only [BitVec.zero_mul, BitVec.add_zero] at h1
      have := load_inside E t p s s1 v z h1 hz h0 hd
      omega
    have := loadElems_inside hz h0 p hd (k + 1) 0 s s' vs hc (by simpa using hp) h
    rw [hl]
    simpa using this

theorem loadListFromRange_count {E : Env σ} {t : Ty} {z p n : U32} {s s' : St σ} {vs : List Val} (hz : size t = .ok z)
    (h0 : 0 < z.toNat) (hc : s.mem.cap + z.toNat ≤ 2 ^ 32) (h : loadListFromRange (load E t) t p n s = (.ok vs, s')) :
    vs.length ≤ s.mem.cap := by
  have g := loadListFromRange_length hz h0 hc h
  rcases vs with _ | ⟨v, vs⟩
  · simp
  · have g := g (by simp)
    rw [List.length_cons, Nat.succ_mul] at g
    have := Nat.le_mul_of_pos_right vs.length h0
    rw [List.length_cons]
    omega

/-! ### Weights -/

theorem weightMap_mapSet (v : Val) (k : String) : (m : List (String × Val)) →
    weightMap (mapSet m k v) ≤ weightMap m + weight v
  | [] => by simp [mapSet, weightMap]
  | (l, w) :: m => by
    rw [mapSet]
    split
    · simp only [weightMap]; omega
    · have := weightMap_mapSet v k m
      simp only [weightMap]; omega

theorem weight_flags : (ls : List String) → (acc : List (String × Val)) → (x : U64) →
    weightMap (unpackFlagsOnto ls x acc) ≤ weightMap acc + ls.length
  | [], acc, x => by simp [unpackFlagsOnto]
  | l :: ls, acc, x => by
    rw [unpackFlagsOnto]
    have h1 := weight_flags ls (mapSet acc l (.bool (x &&& 1 == 1))) (x >>> 1)
    have h2 := weightMap_mapSet (.bool (x &&& 1 == 1)) l acc
    simp only [weight] at h2
    rw [List.length_cons]
    omega

theorem pow_one_le (c n : Nat) : 1 ≤ (c + 1) ^ n := Nat.one_le_pow _ _ (by omega)

theorem bound_one (c n k : Nat) (h : 1 ≤ k) : 1 ≤ k * (c + 1) ^ n := Nat.mul_pos h (pow_one_le c n)

theorem pow_mono (c : Nat) {n m : Nat} (h : n ≤ m) : (c + 1) ^ n ≤ (c + 1) ^ m := Nat.pow_le_pow_right (by omega) h

theorem parts_pos : (t : Ty) → 1 ≤ parts t
  | .list _ | .record _ | .variant _ | .flags _ => by rw [parts]; omega
  | .nil | .bool | .u8 | .u16 | .u32 | .u64 | .s8 | .s16 | .s32 | .s64 | .f32 | .f64 | .char | .string | .own _ | .borrow _
  | .other => by simp [parts]

theorem intVal_weight (t : Ty) (x : Nat) : weight (intVal t x) = 1 := by
  unfold intVal; split <;> simp [weight]

theorem loadInt_weight {p : U32} {t : Ty} {s s' : St σ} {v : Val} (h : loadInt p t s = (.ok v, s')) : weight v = 1 := by
  unfold loadInt at h
  obtain ⟨_, _, -, h⟩ := SM.bind_eq_ok.1 h
  obtain ⟨_, _, -, h⟩ := SM.bind_eq_ok.1 h
  simp only [SM.pure_def, Prod.mk.injEq, Res.ok.injEq] at h
  rw [← h.1]; exact intVal_weight _ _

theorem loadElems_weight {f : U32 → SM (St σ) Val} {B c : Nat}
    (hf : ∀ p s s' v, s.mem.cap = c → f p s = (.ok v, s') → weight v ≤ B ∧ s'.mem.cap = c) (p z : U32) :
    (n i : Nat) → (s s' : St σ) → (vs : List Val) → s.mem.cap = c → loadElems f p z n i s = (.ok vs, s') →
    weightList vs ≤ n * B
  | 0, i, s, s', vs, _, h => by
    rw [loadElems] at h
    simp only [SM.pure_def, Prod.mk.injEq, Res.ok.injEq] at h
    rw [← h.1]; simp [weightList]
  | n + 1, i, s, s', vs, hc, h => by
    rw [loadElems] at h
    obtain ⟨v, s1, h1, h⟩ := SM.bind_eq_ok.1 h
    obtain ⟨ws, s2, h2, h⟩ := SM.bind_eq_ok.1 h
    simp only [SM.pure_def, Prod.mk.injEq, Res.ok.injEq] at h
    obtain ⟨g1, g2⟩ := hf _ _ _ _ hc h1
    have := loadElems_weight hf p z n (i + 1) s1 s2 ws g2 h2
    rw [← h.1, weightList, Nat.succ_mul]
    omega

theorem bound_list {c W n : Nat} {t : Ty} (hW : W ≤ n * bound c t) (hn : n ≤ c) : 1 + W ≤ bound c (.list t) := by
  unfold bound at *
  rw [parts, nesting, Nat.add_comm 1 (nesting t), Nat.pow_succ]
  have h1 : n * (parts t * (c + 1) ^ nesting t) ≤ c * (parts t * (c + 1) ^ nesting t) := Nat.mul_le_mul_right _ hn
  have h2 := pow_one_le c (nesting t)
  generalize (c + 1) ^ nesting t = X at *
  have e : (1 + parts t) * (X * (c + 1)) = X * (c + 1) + c * (parts t * X) + parts t * X := by
    rw [Nat.add_mul, Nat.one_mul, ← Nat.mul_assoc, Nat.mul_add (parts t * X), Nat.mul_one, Nat.mul_comm (parts t * X) c,
      Nat.add_assoc]
  rw [e]
  have : X ≤ X * (c + 1) := Nat.le_mul_of_pos_right X (by omega)
  omega

theorem bound_string (c : Nat) : 1 + c ≤ bound c .string := by
  simp only [bound, parts, nesting, Nat.one_mul, Nat.pow_one]; omega

/-- What the fields may hold. -/
def boundFields (c : Nat) : Fields → Nat
  | .nil => 0
  | .cons _ t fs => bound c t + boundFields c fs

theorem boundFields_le (c : Nat) : (fs : Fields) → boundFields c fs ≤ partsFields fs * (c + 1) ^ nestingFields fs
  | .nil => by simp [boundFields]
  | .cons _ t fs => by
    have ih := boundFields_le c fs
    rw [boundFields, partsFields, nestingFields, bound, Nat.add_mul]
    have h1 := Nat.mul_le_mul_left (parts t) (pow_mono c (Nat.le_max_left (nesting t) (nestingFields fs)))
    have h2 := Nat.mul_le_mul_left (partsFields fs) (pow_mono c (Nat.le_max_right (nesting t) (nestingFields fs)))
    omega

theorem bound_record (c : Nat) (fs : Fields) : 1 + boundFields c fs ≤ bound c (.record fs) := by
  have := boundFields_le c fs
  rw [bound, parts, nesting, Nat.add_mul, Nat.one_mul]
  have := pow_one_le c (nestingFields fs)
  omega

/-- What the payload of a case may hold, whichever case it is. -/
def boundCases (c : Nat) (cs : Cases) : Nat := partsCases cs * (c + 1) ^ nestingCases cs

theorem boundCases_head (c : Nat) (l : String) (t : Ty) (r : Option String) (cs : Cases) :
    bound c t ≤ boundCases c (.cons l t r cs) := by
  rw [bound, boundCases, partsCases, nestingCases, Nat.add_mul]
  have h1 := Nat.mul_le_mul_left (parts t) (pow_mono c (Nat.le_max_left (nesting t) (nestingCases cs)))
  omega

theorem boundCases_tail (c : Nat) (l : String) (t : Ty) (r : Option String) (cs : Cases) :
    boundCases c cs ≤ boundCases c (.cons l t r cs) := by
  rw [boundCases, boundCases, partsCases, nestingCases, Nat.add_mul]
  have h1 := Nat.mul_le_mul_left (partsCases cs) (pow_mono c (Nat.le_max_right (nesting t) (nestingCases cs)))
  omega

theorem bound_variant (c : Nat) (cs : Cases) : 1 + boundCases c cs ≤ bound c (.variant cs) := by
  rw [bound, boundCases, parts, nesting, Nat.add_mul, Nat.one_mul]
  have := pow_one_le c (nestingCases cs)
  omega

theorem bound_pos (c : Nat) (t : Ty) : 1 ≤ bound c t := bound_one c _ _ (parts_pos t)

/-- A list loaded element by element, the elements bounded. -/
theorem loadListFromRange_weight {E : Env σ} {t : Ty} {c : Nat}
    (ht : ∀ p s s' v, s.mem.cap = c → load E t p s = (.ok v, s') → weight v ≤ bound c t) {p n : U32} {s s' : St σ}
    {vs : List Val} (hs : ∃ z, size t = .ok z ∧ 0 < z.toNat ∧ c + z.toNat ≤ 2 ^ 32) (hc : s.mem.cap = c)
    (h : loadListFromRange (load E t) t p n s = (.ok vs, s')) : weight (.list vs) ≤ bound c (.list t) := by
  obtain ⟨z, hz, h0, hb⟩ := hs
  have hn := loadListFromRange_count hz h0 (by rw [hc]; exact hb) h
  obtain ⟨-, h⟩ := loadListFromRange_elems hz h
  have hl := loadElems_length _ _ _ _ _ _ _ h
  have hw := loadElems_weight (c := c) (B := bound c t)
    (fun p s s' v hs hv => ⟨ht p s s' v hs hv, by rw [load_mem hv]; exact hs⟩) p z n.toNat 0 s s' vs hc h
  rw [weight]
  rw [hl, hc] at hn
  exact bound_list hw hn

mutual
/-- What was loaded holds no more than the bound. -/
theorem load_bound (E : Env σ) (c : Nat) : (t : Ty) → Sized c t → (p : U32) → (s s' : St σ) → (v : Val) →
    s.mem.cap = c → load E t p s = (.ok v, s') → weight v ≤ bound c t
  | .bool, _, p, s, s', v, _, h => by
    rw [load, loadBool] at h
    obtain ⟨x, _, -, h⟩ := SM.bind_eq_ok.1 h
    have := bound_pos c .bool
    cases x <;> simp at h
    rw [← h.1]; simp only [weight]; exact this
  | .u8, _, p, s, s', v, _, h | .u16, _, p, s, s', v, _, h | .u32, _, p, s, s', v, _, h
  | .u64, _, p, s, s', v, _, h | .s8, _, p, s, s', v, _, h | .s16, _, p, s, s', v, _, h
  | .s32, _, p, s, s', v, _, h | .s64, _, p, s, s', v, _, h => by
    rw [load] at h; rw [loadInt_weight h]; exact bound_pos c _
  | .f32, _, p, s, s', v, _, h => by
    rw [load, loadFloat32] at h
    obtain ⟨x, _, -, h⟩ := SM.bind_eq_ok.1 h
    simp only [SM.pure_def, Prod.mk.injEq, Res.ok.injEq] at h
    rw [← h.1]; simp only [weight]; exact bound_pos c _
  | .f64, _, p, s, s', v, _, h => by
    rw [load, loadFloat64] at h
    obtain ⟨x, _, -, h⟩ := SM.bind_eq_ok.1 h
    simp only [SM.pure_def, Prod.mk.injEq, Res.ok.injEq] at h
    rw [← h.1]; simp only [weight]; exact bound_pos c _
  | .char, _, p, s, s', v, _, h => by
    rw [load, loadChar] at h
    obtain ⟨x, _, -, h⟩ := SM.bind_eq_ok.1 h
    have := bound_pos c .char
    cases x <;> simp at h
    obtain ⟨r, _, -, h⟩ := SM.bind_eq_ok.1 h
    simp only [SM.pure_def, Prod.mk.injEq, Res.ok.injEq] at h
    rw [← h.1]; simp only [weight]; exact this
  | .string, _, p, s, s', v, hc, h => by
    rw [load] at h
    obtain ⟨x, _, h1, h⟩ := SM.bind_eq_ok.1 h
    simp only [SM.pure_def, Prod.mk.injEq, Res.ok.injEq] at h
    unfold loadString at h1
    obtain ⟨b, s1, e1, h1⟩ := SM.bind_eq_ok.1 h1
    obtain ⟨n, s2, e2, h1⟩ := SM.bind_eq_ok.1 h1
    have k1 := (tame_mem (C := False) (D := False) (loadUInt32_tame (σ := σ) p)).keep s
    have k2 := (tame_mem (C := False) (D := False) (loadUInt32_tame (σ := σ) (p + 4))).keep s1
    rw [e1] at k1
    rw [e2] at k2
    have := loadStringFromRange_bound h1
    rw [k2, k1, hc] at this
    have := bound_string c
    rw [← h.1, weight]; omega
  | .list t, ht, p, s, s', v, hc, h => by
    rw [Sized] at ht
    rw [load] at h
    obtain ⟨x, _, h1, h⟩ := SM.bind_eq_ok.1 h
    simp only [SM.pure_def, Prod.mk.injEq, Res.ok.injEq] at h
    unfold loadList at h1
    obtain ⟨b, s1, e1, h1⟩ := SM.bind_eq_ok.1 h1
    obtain ⟨n, s2, e2, h1⟩ := SM.bind_eq_ok.1 h1
    have k1 := (tame_mem (C := False) (D := False) (loadUInt32_tame (σ := σ) p)).keep s
    have k2 := (tame_mem (C := False) (D := False) (loadUInt32_tame (σ := σ) (p + 4))).keep s1
    rw [e1] at k1
    rw [e2] at k2
    rw [← h.1]
    exact loadListFromRange_weight (fun p s s' v hs hv => load_bound E c t ht.2 p s s' v hs hv) ht.1
      (by rw [k2, k1, hc]) h1
  | .record fs, ht, p, s, s', v, hc, h => by
    rw [Sized] at ht
    rw [load] at h
    have := loadFields_bound E c fs ht p [] s s' v hc h
    simp only [weightMap] at this
    have := bound_record c fs
    omega
  | .variant cs, ht, p, s, s', v, hc, h => by
    rw [Sized] at ht
    rw [load] at h
    obtain ⟨d, _, h1, h⟩ := SM.bind_eq_ok.1 h
    simp only [SM.lift_def, Prod.mk.injEq] at h1
    obtain ⟨-, rfl⟩ := h1
    obtain ⟨i, s1, e1, h⟩ := SM.bind_eq_ok.1 h
    obtain ⟨_, _, h1, h⟩ := SM.bind_eq_ok.1 h
    simp only [SM.lift_def, Prod.mk.injEq] at h1
    obtain ⟨-, rfl⟩ := h1
    simp only [SM.ite_app] at h
    split at h
    · simp at h
    obtain ⟨_, _, h1, h⟩ := SM.bind_eq_ok.1 h
    simp only [SM.lift_def, Prod.mk.injEq] at h1
    obtain ⟨-, rfl⟩ := h1
    have k1 := (tame_mem (C := False) (D := False) (loadDisc_tame (σ := σ) p d)).keep s
    rw [e1] at k1
    have := loadCase_bound E c cs cs ht i.toNat _ s1 s' v (by rw [k1, hc]) h
    have := bound_variant c cs
    omega
  | .flags ls, _, p, s, s', v, _, h => by
    rw [load, loadFlags] at h
    obtain ⟨x, _, -, h⟩ := SM.bind_eq_ok.1 h
    simp only [SM.pure_def, Prod.mk.injEq, Res.ok.injEq] at h
    have := weight_flags ls [] x
    rw [← h.1]
    simp only [weight, bound, parts, nesting, Nat.pow_zero, Nat.mul_one]
    simp only [weightMap] at this
    omega
  | .own _, _, p, s, s', v, _, h => by
    rw [load] at h
    obtain ⟨x, _, -, h⟩ := SM.bind_eq_ok.1 h
    obtain ⟨r, _, -, h⟩ := SM.bind_eq_ok.1 h
    simp only [SM.pure_def, Prod.mk.injEq, Res.ok.injEq] at h
    rw [← h.1]; simp only [weight]; exact bound_pos c _
  | .borrow _, _, p, s, s', v, _, h => by
    rw [load] at h
    obtain ⟨x, _, -, h⟩ := SM.bind_eq_ok.1 h
    obtain ⟨r, _, -, h⟩ := SM.bind_eq_ok.1 h
    simp only [SM.pure_def, Prod.mk.injEq, Res.ok.injEq] at h
    rw [← h.1]; simp only [weight]; exact bound_pos c _
  | .nil, _, p, s, s', v, _, h => by simp [load] at h
  | .other, _, p, s, s', v, _, h => by simp [load] at h
theorem loadFields_bound (E : Env σ) (c : Nat) : (fs : Fields) → SizedFields c fs → (p : U32) →
    (acc : List (String × Val)) → (s s' : St σ) → (v : Val) → s.mem.cap = c → loadFields E fs p acc s = (.ok v, s') →
    weight v ≤ 1 + weightMap acc + boundFields c fs
  | .nil, _, p, acc, s, s', v, _, h => by
    rw [loadFields] at h
    simp only [SM.pure_def, Prod.mk.injEq, Res.ok.injEq] at h
    rw [← h.1, weight, boundFields]; omega
  | .cons l t fs, ht, p, acc, s, s', v, hc, h => by
    rw [SizedFields] at ht
    rw [loadFields] at h
    obtain ⟨_, _, h1, h⟩ := SM.bind_eq_ok.1 h
    simp only [SM.lift_def, Prod.mk.injEq] at h1
    obtain ⟨-, rfl⟩ := h1
    obtain ⟨w, s1, e1, h⟩ := SM.bind_eq_ok.1 h
    obtain ⟨_, _, h1, h⟩ := SM.bind_eq_ok.1 h
    simp only [SM.lift_def, Prod.mk.injEq] at h1
    obtain ⟨-, rfl⟩ := h1
    have g1 := load_bound E c t ht.1 _ s s1 w hc e1
    have g2 := loadFields_bound E c fs ht.2 _ _ s1 s' v (by rw [load_mem e1, hc]) h
    have g3 := weightMap_mapSet w l acc
    rw [boundFields]
    omega
theorem loadCase_bound (E : Env σ) (c : Nat) (all : Cases) : (cs : Cases) → SizedCases c cs → (i : Nat) → (p : U32) →
    (s s' : St σ) → (v : Val) → s.mem.cap = c → loadCase E all cs i p s = (.ok v, s') → weight v ≤ 1 + boundCases c cs
  | .nil, _, i, p, s, s', v, _, h => by simp [loadCase] at h
  | .cons l t r cs, ht, 0, p, s, s', v, hc, h => by
    rw [SizedCases] at ht
    rw [loadCase] at h
    obtain ⟨label, _, h1, h⟩ := SM.bind_eq_ok.1 h
    simp only [SM.lift_def, Prod.mk.injEq] at h1
    obtain ⟨-, rfl⟩ := h1
    simp only [SM.ite_app] at h
    have hb := boundCases_head c l t r cs
    have hp := bound_pos c t
    split at h
    · simp only [SM.pure_def, Prod.mk.injEq, Res.ok.injEq] at h
      rw [← h.1]
      simp only [weight, weightMap]
      omega
    · obtain ⟨w, s1, e1, h⟩ := SM.bind_eq_ok.1 h
      simp only [SM.pure_def, Prod.mk.injEq, Res.ok.injEq] at h
      have := load_bound E c t ht.1 _ s s1 w hc e1
      rw [← h.1]
      simp only [weight, weightMap]
      omega
  | .cons l t r cs, ht, i + 1, p, s, s', v, hc, h => by
    rw [SizedCases] at ht
    rw [loadCase] at h
    have := loadCase_bound E c all cs ht.2 i p s s' v hc h
    have := boundCases_tail c l t r cs
    omega
end

end Verif.Abi
