import Verif.Abi.FullMemory
import Verif.Abi.LayoutProps
import Verif.Abi.LoadLemmas

/-!
# Where C11 and C62 end, and loads from the largest memory

Types whose size reaches `2 ^ 32`, strings of `2 ^ 31` code units and more, strings Latin-1 cannot write, and loads of
all integer types from a memory of `2 ^ 32` bytes.
-/

namespace Verif.Abi
open Spec Encoding
variable {σ : Type}

/-! ## C11 -/

/-- A type of `2 ^ n` bytes: pairs of pairs of … bytes. -/
def doubled : Nat → Ty
  | 0 => .u8
  | n + 1 => .record (.cons "a" (doubled n) (.cons "b" (doubled n) .nil))

theorem alignTo_one (p : U32) : alignTo p 1 = p := by
  unfold alignTo
  simp

theorem doubled_layout (n : Nat) : alignment (doubled n) = .ok 1 ∧ size (doubled n) = .ok (BitVec.ofNat 32 (2 ^ n)) ∧
    Spec.align (doubled n) = 1 ∧ Spec.size (doubled n) = 2 ^ n ∧ Laid (doubled n) := by
  induction n with
  | zero => exact ⟨rfl, rfl, rfl, rfl, trivial⟩
  | succ n ih =>
    obtain ⟨h1, h2, h3, h4, h5⟩ := ih
    have ha : alignment (doubled (n + 1)) = .ok 1 := by
      simp only [doubled, alignment, alignmentRecord, h1]; rfl
    refine ⟨ha, ?_, ?_, ?_, ?_⟩
    · have e : ∀ fs, size (.record fs) = (sizeFields fs 0).bind fun s => (alignment (.record fs)).bind fun a =>
          .ok (alignTo s a) := fun fs => by rw [size]; rfl
      simp only [doubled] at ha ⊢
      rw [e, ha]
      have : sizeFields (.cons "a" (doubled n) (.cons "b" (doubled n) .nil)) 0 = .ok (BitVec.ofNat 32 (2 ^ (n + 1))) := by
        rw [sizeFields, h1]
        show Res.bind (size (doubled n)) _ = _
        rw [h2]
        show sizeFields _ _ = _
        rw [sizeFields, h1]
        show Res.bind (size (doubled n)) _ = _
        rw [h2]
        show sizeFields .nil _ = _
        rw [sizeFields, alignTo_one, alignTo_one]
        congr 1
        apply BitVec.eq_of_toNat_eq
        simp only [BitVec.toNat_add, BitVec.toNat_ofNat, Nat.pow_succ]
        simp
        omega
      rw [this]
      show Res.ok _ = _
      rw [alignTo_one]
    · simp only [doubled, Spec.align, Spec.alignFields, h3]; rfl
    · simp only [doubled, Spec.size, Spec.fieldsEnd, Spec.alignFields, h3, h4, alignUp, Nat.pow_succ]
      simp
      omega
    · simp only [doubled, Laid, LaidFields]; exact ⟨h5, h5, trivial⟩

theorem alignTo_one1 (p : U32) : alignTo p 1#32 = p := alignTo_one p

/-- A field whose size comes out as 0. -/
theorem overlap_of_zero (t : Ty) (h1 : alignment t = .ok 1) (h2 : size t = .ok 0) (base : U32) :
    fieldAddrs (.cons "x" t (.cons "y" .u8 .nil)) base = .ok [base, base] ∧
    size (.record (.cons "x" t (.cons "y" .u8 .nil))) = .ok 1 := by
  have e1 : alignment .u8 = .ok 1 := rfl
  have e2 : size .u8 = .ok 1 := rfl
  constructor
  · simp [fieldAddrs, h1, h2, e1, e2, alignTo_one1]
  · simp [size, sizeFields, alignmentRecord, h1, h2, e1, umax, alignTo_one1]

/-- **C11, where it fails.** Sizes are 32 bit numbers: a field of `2 ^ 32` bytes counts as none, and the next field is put
on top of it. The size of the record is 1. -/
theorem fields_overlap (base : U32) :
    let fs : Fields := .cons "x" (doubled 32) (.cons "y" .u8 .nil)
    LaidFields fs ∧ Spec.size (doubled 32) = 2 ^ 32 ∧ fieldAddrs fs base = .ok [base, base] ∧ size (.record fs) = .ok 1 := by
  intro fs
  obtain ⟨h1, h2, -, h4, h5⟩ := doubled_layout 32
  have h2' : size (doubled 32) = .ok 0 := by
    rw [h2]
    exact congrArg Res.ok (by decide)
  exact ⟨⟨h5, trivial, trivial⟩, h4, overlap_of_zero _ h1 h2' base⟩

/-! ## C62 -/

/-- C62, strings Latin-1 cannot write: they are refused and nothing changes. -/
theorem latin1_refused (E : Env σ) (h : E.enc = "latin1") (str : String) (c : Char) (hc : c ∈ str.toList) (hn : 256 ≤ c.toNat)
    (s : St σ) : storeStringIntoRange E str s = (.err, s) := by
  unfold storeStringIntoRange
  rw [show Encoding.defaultFactory.get E.enc = .ok newLatin1 by rw [h]; rfl, SM.bind_ok (SM.lift_def _ _), if_pos (by rw [h]; decide)]
  unfold storeStringDynamic
  have : newLatin1.enc.encode str = .err := by
    show (if str.toList.all latin1Has then _ else _) = _
    rw [if_neg]
    intro ha
    have := List.all_eq_true.1 ha c hc
    simp only [latin1Has, decide_eq_true_eq] at this
    omega
  rw [this]
  rfl

example : '€' ∈ "5 €".toList ∧ 256 ≤ '€'.toNat := by decide

theorem utf8_ascii : (cs : List Char) → (∀ c ∈ cs, c.toNat < 128) →
    cs.flatMap utf8Char = cs.map fun c => BitVec.ofNat 8 c.toNat
  | [], _ => rfl
  | c :: cs, h => by
    rw [List.flatMap_cons, utf8_ascii cs fun x hx => h x (List.mem_cons_of_mem _ hx), List.map_cons]
    have hc := h c (List.mem_cons_self ..)
    unfold utf8Char
    simp only
    rw [if_pos (by omega)]
    rfl

theorem read_take (m : Mem) (p n k : Nat) (h : k ≤ n) : m.read p k = (m.read p n).take k := by
  unfold Mem.read
  rw [← List.map_take, List.take_range, Nat.min_eq_left h]

/-- **C62, where it fails.** A string of `2 ^ 31` ASCII characters or more is stored, but the top bit of its length is
lost: loading it gives only as many characters as are left of its length without `2 ^ 31`. -/
theorem long_string_cut (E : Env σ) (used : σ → Nat → Prop) (G : GoodAlloc E used) (refused : σ → Prop)
    (hr : ∀ a n m h, (∃ p, (E.realloc a n (m, h)).1 = .ok p) ∨ refused (E.realloc a n (m, h)).2.2)
    (henc : E.enc = "utf-8") (str : String) (ha : ∀ c ∈ str.toList, c.toNat < 128) (hn : 2 ^ 31 ≤ str.toList.length)
    (hn' : str.toList.length < 2 ^ 32) (s : St σ) (hg : s.mem.len < 2 ^ 32 ∧ s.mem.len ≤ s.mem.cap) :
    (∃ ptr n s', storeStringIntoRange E str s = (.ok (ptr, n), s') ∧ n.toNat = str.toList.length ∧
      loadStringFromRange E ptr n s' = (.ok (String.ofList (str.toList.take (str.toList.length - 2 ^ 31))), s')) ∨
    refused (storeStringIntoRange E str s).2.heap := by
  have hget : Encoding.defaultFactory.get E.enc = .ok newUTF8 := by rw [henc]; rfl
  have hst : storeStringIntoRange E str s = storeStringDynamic E str newUTF8 s := by
    unfold storeStringIntoRange
    rw [hget, SM.bind_ok (SM.lift_def _ _), if_pos (by rw [henc]; decide)]
  have he : newUTF8.enc.encode str = .ok (str.toList.map fun c => BitVec.ofNat 8 c.toNat) :=
    congrArg Res.ok (utf8_ascii _ ha)
  rw [hst]
  rcases storeStringDynamic_does G hr str newUTF8 _ he (by rw [List.length_map]; exact hn') s hg (.inl rfl) with
    ⟨⟨p, n⟩, s', e, w, h2, h3, h4⟩ | ⟨-, h⟩
  · left
    rw [List.length_map] at h2 h4
    simp only at h2 h4
    rw [show newUTF8.runeSize = 1 from rfl, Nat.div_one] at h2
    have hnn : n.toNat = str.toList.length := by rw [h2, toNat_ofNat_lt hn']
    refine ⟨p, n, s', e, hnn, ?_⟩
    obtain ⟨F, -, hF⟩ := w.foot
    have hread := hF s' (Nat.le_refl _) w.step.good (fun _ _ => rfl)
    simp only [List.length_map] at hread
    have hk : str.toList.length - 2 ^ 31 ≤ str.toList.length := Nat.sub_le ..
    have htl : (str.toList.take (str.toList.length - 2 ^ 31)).length = str.toList.length - 2 ^ 31 := by
      rw [List.length_take, Nat.min_eq_left hk]
    have hu : (toTagged n).codeUnits.toNat = str.toList.length - 2 ^ 31 := by
      rw [toTagged_units, hnn]
      omega
    refine loadStringFromRange_ok _ newUTF8
      ((str.toList.take (str.toList.length - 2 ^ 31)).map fun c => BitVec.ofNat 8 c.toNat) ?_ p n s' ?_ ?_ ?_ (.inl rfl)
      (Nat.one_dvd _) w.step.good ?_ ?_
    · refine congrArg Res.ok ?_
      rw [String.toList_ofList]
      exact utf8_ascii _ fun c hc => ha c (List.mem_of_mem_take hc)
    · rw [henc]
      rfl
    · rw [List.length_map, htl, ← hu]
      show (toTagged n).codeUnits * 1#32 = _
      rw [BitVec.mul_one, BitVec.ofNat_toNat, BitVec.setWidth_eq]
    · rw [List.length_map, htl]
      omega
    · rw [List.length_map, htl]
      omega
    · rw [List.length_map, htl, read_take _ _ _ _ hk, hread, List.map_take]
  · exact .inr h

/-- There are such strings. -/
example : let str := String.ofList (List.replicate (2 ^ 31 + 5) 'a')
    (∀ c ∈ str.toList, c.toNat < 128) ∧ 2 ^ 31 ≤ str.toList.length ∧ str.toList.length < 2 ^ 32 := by
  intro str
  have e : str.toList = List.replicate (2 ^ 31 + 5) 'a' := String.toList_ofList
  rw [e]
  refine ⟨?_, ?_, ?_⟩
  · intro c hc
    rw [List.eq_of_mem_replicate hc]
    decide
  · rw [List.length_replicate]
    omega
  · rw [List.length_replicate]
    omega

/-! ## C96 -/

/-- **C96, part.** What does hold in a memory of `2 ^ 32` bytes: an integer of any of the eight types that is there in
little-endian two's complement, in a slot that does not end at the last byte, is loaded.
Missing: all stores and the last slot. -/
theorem full_memory_integers_partial (E : Env σ) (t : Ty) (ht : t ∈ integerTypes) (v : Val) (hv : HasType t v) (z : Int)
    (hz : intValue v = some z) (ptr : U32) (s : St σ) (hm : s.mem.len = 2 ^ 32) (hc : s.mem.len ≤ s.mem.cap)
    (hw : ptr.toNat + Spec.size t < 2 ^ 32) (hb : ∀ i < Spec.size t, s.mem.data (ptr.toNat + i) = byteOf z i) :
    load E t ptr s = (.ok v, s) := by
  obtain ⟨n, signed, i, ⟨h1, h2, h3, h4, ⟨z', h5, h6⟩, h7⟩, -⟩ := intStored t ht v hv
  rw [hz] at h5
  obtain rfl := Option.some.inj h5
  have hlaid := laid_of_size t n h4
  have hn : n.toNat = Spec.size t := by
    have := size_eq t hlaid (by omega)
    rw [h4] at this
    injection this with this
    rw [this, toNat_ofNat_lt (by omega)]
  have hn8 : n.toNat ≤ 8 := by rcases h3 with h | h | h | h <;> subst h <;> decide
  have hl : load E t ptr = loadInt ptr t := by
    simp only [integerTypes, List.mem_cons, List.not_mem_nil, or_false] at ht
    rcases ht with rfl | rfl | rfl | rfl | rfl | rfl | rfl | rfl <;> rw [load]
  rw [hl, loadInt_ok t n h4 ptr _ (by omega) (by omega)]
  have hread : s.mem.read ptr.toNat n.toNat = leBytes n.toNat i.u64.toNat := by
    apply List.ext_getElem?
    intro k
    by_cases hk : k < n.toNat
    · rw [leBytes_get n.toNat _ k hk, byteOf_u64 _ _ h6 k (by omega), ← hb k (by omega)]
      simp [Mem.read, hk]
    · rw [List.getElem?_eq_none (by simp [Mem.read]; omega), List.getElem?_eq_none (by rw [leBytes_length]; omega)]
  rw [hread, leNat_leBytes, h7]

/-- -1 as a signed 64-bit integer in a memory full of `FF`. -/
example : HasType .s64 (.s64 (-1)) ∧ intValue (.s64 (-1)) = some (-1) ∧ (8 : U32).toNat + Spec.size .s64 < 2 ^ 32 ∧
    ∀ i < Spec.size .s64, (⟨fun _ => 0xFF, 2 ^ 32, 2 ^ 32⟩ : Mem).data ((8 : U32).toNat + i) = byteOf (-1) i := by
  refine ⟨⟨_, rfl⟩, by decide, by decide, ?_⟩
  intro i hi
  have : Spec.size .s64 = 8 := rfl
  have : i = 0 ∨ i = 1 ∨ i = 2 ∨ i = 3 ∨ i = 4 ∨ i = 5 ∨ i = 6 ∨ i = 7 := by omega
  rcases this with rfl | rfl | rfl | rfl | rfl | rfl | rfl | rfl <;> decide

end Verif.Abi
