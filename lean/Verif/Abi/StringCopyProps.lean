import Verif.Abi.StringCopy
import Verif.Abi.StringLemmas
import Verif.Abi.StoreProps

/-!
# Property C95: the helpers that store a string
-/

namespace Verif.Abi
open Encoding Spec

variable {σ : Type}

theorem alignTo_of_dvd (p a : U32) (h : a.toNat ∣ p.toNat) : alignTo p a = p := by
  unfold alignTo
  apply BitVec.eq_of_toNat_eq
  rw [BitVec.toNat_ofNat]
  obtain ⟨k, hk⟩ := h
  rcases Nat.eq_zero_or_pos a.toNat with h0 | h0
  · rw [h0] at hk ⊢; simp [hk]
  · have : (p.toNat + a.toNat - 1) / a.toNat = k := by
      rw [hk, Nat.add_sub_assoc h0, Nat.mul_add_div h0, Nat.div_eq_of_lt (by omega), Nat.add_zero]
    rw [this, Nat.mul_comm, ← hk, Nat.mod_eq_of_lt p.isLt]

/-- What the call does when the allocator hands out a good block. -/
theorem storeStringCopy_run {E : Env σ} {used : σ → Nat → Prop} (G : GoodAlloc E used) (src : String) (units size align : U32)
    (enc : TextEnc) (bs : List Byte) (he : enc.encode src = .ok bs) (s : St σ) (hg : Good s.mem)
    (hn : (size * units).toNat < 2 ^ 31) (p : U32) (m' : Mem) (h' : σ)
    (ha : E.realloc align (size * units) (s.mem, s.heap) = (.ok p, (m', h'))) :
    storeStringCopy E src units size align enc s =
      (.ok (p, units), { s with mem := m'.write p.toNat (bs.take (size * units).toNat), heap := h' }) := by
  obtain ⟨b1, b2, b3⟩ := G.block _ _ _ _ _ _ _ ha hg.1 hg.2
  have gr := G.grows align (size * units) s.mem s.heap hg.1 hg.2
  rw [ha] at gr
  simp only at gr
  have hadd : (p + size * units).toNat = p.toNat + (size * units).toNat := by
    rw [BitVec.toNat_add, Nat.mod_eq_of_lt (by omega)]
  have hlen : m'.len32.toNat = m'.len := by unfold Mem.len32; rw [BitVec.toNat_ofNat, Nat.mod_eq_of_lt gr.2.1]
  have hal : alloc E align (size * units) s = (.ok p, { s with mem := m', heap := h' }) := by
    unfold alloc; rw [ha]
  unfold storeStringCopy
  simp only [SM.ite_app]
  rw [if_neg (by show ¬ _ > 0x7FFFFFFF; omega), SM.bind_ok hal, SM.ite_app, if_neg (by rw [alignTo_of_dvd p align b1]; simp),
    SM.bind_get, SM.ite_app, if_neg (by simp only; omega), he, SM.bind_ok (SM.lift_def _ _),
    slice_ok m' p (size * units) (by omega) (by omega), SM.bind_ok (SM.lift_def _ _)]
  rfl

namespace Spec

/-- A block changed by the guest's allocator keeps its first bytes: the new block is aligned, inside the memory and in use,
has the bytes of the old one, and the bytes in use outside the old block stay. -/
structure GoodResize {σ : Type} (Z : Resize σ) (used : σ → Nat → Prop) : Prop where
  grows : ∀ p old a n m h, m.len < 2 ^ 32 → m.len ≤ m.cap →
    m.len ≤ (Z p old a n (m, h)).2.1.len ∧ (Z p old a n (m, h)).2.1.len < 2 ^ 32 ∧
      (Z p old a n (m, h)).2.1.len ≤ (Z p old a n (m, h)).2.1.cap
  block : ∀ p old a n m h q m' h', Z p old a n (m, h) = (.ok q, (m', h')) → n.toNat ≤ old.toNat →
    (∀ x, p.toNat ≤ x → x < p.toNat + old.toNat → used h x) → m.len < 2 ^ 32 → m.len ≤ m.cap →
    a.toNat ∣ q.toNat ∧ q.toNat + n.toNat ≤ m'.len ∧ (∀ i < n.toNat, m'.data (q.toNat + i) = m.data (p.toNat + i)) ∧
      (∀ x, q.toNat ≤ x → x < q.toNat + n.toNat → used h' x) ∧
      ∀ x, used h x → ¬ (p.toNat ≤ x ∧ x < p.toNat + old.toNat) → used h' x ∧ m'.data x = m.data x

end Spec

theorem read_write_take (m : Mem) (p n : Nat) (bs : List Byte) :
    ∃ rest, (m.write p (bs.take n)).read p n = bs.take n ++ rest ∧ rest = m.read (p + bs.length) (n - bs.length) := by
  refine ⟨_, ?_, rfl⟩
  apply List.ext_getElem?
  intro i
  simp only [Mem.read, Mem.write, List.getElem?_map, List.length_take, List.getElem?_append, List.length_map,
    List.length_range]
  by_cases h1 : i < n
  · rw [List.getElem?_range h1, Option.map_some]
    by_cases h2 : i < bs.length
    · rw [if_pos (by omega), if_pos (by omega), List.getD_eq_getElem?_getD, Nat.add_sub_cancel_left, List.getElem?_take, if_pos h1,
        List.getElem?_eq_getElem h2]
      rfl
    · rw [if_neg (by omega), if_neg (by omega), List.getElem?_range (by omega), Option.map_some]
      congr 2
      omega
  · rw [List.getElem?_eq_none (by simpa using h1)]
    by_cases h2 : i < min n bs.length
    · omega
    · rw [if_neg h2, List.getElem?_eq_none (by simp; omega)]
      rfl

/-- **C95**, `StoreStringCopy`, what holds of it: whenever the number of code units given is that of the string in the encoding
and the allocator hands out a block, the call succeeds with the block and the number, the bytes there decode to the
string, and no byte that was in use has changed. Missing: other numbers of code units, see `string_copy_cut` and
`string_copy_stale`. -/
theorem string_copy_partial {E : Env σ} {used : σ → Nat → Prop} (G : GoodAlloc E used) (src : String) (units size align : U32)
    (enc : TextEnc) (bs : List Byte) (he : enc.encode src = .ok bs) (hu : size.toNat * units.toNat = bs.length)
    (hb : bs.length < 2 ^ 31) (s : St σ) (hg : s.mem.len < 2 ^ 32 ∧ s.mem.len ≤ s.mem.cap) (p : U32)
    (hp : (E.realloc align (size * units) (s.mem, s.heap)).1 = .ok p) :
    ∃ s', storeStringCopy E src units size align enc s = (.ok (p, units), s') ∧
      enc.decode (s'.mem.read p.toNat (size.toNat * units.toNat)) = .ok src ∧
      p.toNat + size.toNat * units.toNat ≤ s'.mem.len ∧ align.toNat ∣ p.toNat ∧
      (∀ x, p.toNat ≤ x → x < p.toNat + size.toNat * units.toNat → ¬ used s.heap x ∧ used s'.heap x) ∧
      ∀ x, used s.heap x → used s'.heap x ∧ s'.mem.data x = s.mem.data x := by
  have hn : (size * units).toNat = bs.length := by rw [BitVec.toNat_mul, hu, Nat.mod_eq_of_lt (by omega)]
  rcases ha : E.realloc align (size * units) (s.mem, s.heap) with ⟨r, m', h'⟩
  rw [ha] at hp
  simp only at hp
  subst hp
  obtain ⟨b1, b2, b3⟩ := G.block _ _ _ _ _ _ _ ha hg.1 hg.2
  refine ⟨_, storeStringCopy_run G src units size align enc bs he s hg (by omega) p m' h' ha, ?_, ?_, b1, ?_, ?_⟩
  · simp only
    rw [hn, List.take_length, hu, Mem.read_write]
    exact enc.roundtrip src bs he
  · rw [hu, ← hn]; exact b2
  · rw [hu, ← hn]; exact b3
  · intro x hx
    have k := G.keeps align (size * units) s.mem s.heap x hx
    rw [ha] at k
    refine ⟨k.1, ?_⟩
    simp only
    rw [Mem.write_out _ _ _ _ (fun c => ?_)]
    · exact k.2
    · rw [List.length_take] at c
      exact (b3 x c.1 (by omega)).1 hx

/-- **C95**, negatively: with a number of code units that is too small the call succeeds all the same, and strings that only
differ after the part that fits cannot be told apart afterwards. -/
theorem string_copy_cut {E : Env σ} {used : σ → Nat → Prop} (G : GoodAlloc E used) (src src' : String) (units size align : U32)
    (enc : TextEnc) (bs bs' : List Byte) (he : enc.encode src = .ok bs) (he' : enc.encode src' = .ok bs')
    (hn : (size * units).toNat < 2 ^ 31) (hc : bs.take (size * units).toNat = bs'.take (size * units).toNat) (s : St σ)
    (hg : s.mem.len < 2 ^ 32 ∧ s.mem.len ≤ s.mem.cap) (p : U32)
    (hp : (E.realloc align (size * units) (s.mem, s.heap)).1 = .ok p) :
    (storeStringCopy E src units size align enc s).1 = .ok (p, units) ∧
    storeStringCopy E src units size align enc s = storeStringCopy E src' units size align enc s := by
  rcases ha : E.realloc align (size * units) (s.mem, s.heap) with ⟨r, m', h'⟩
  rw [ha] at hp
  simp only at hp
  subst hp
  rw [storeStringCopy_run G src units size align enc bs he s hg hn p m' h' ha,
    storeStringCopy_run G src' units size align enc bs' he' s hg hn p m' h' ha, hc]
  exact ⟨rfl, rfl⟩

/-- **C95**, negatively: with a number of code units that is too large the call succeeds all the same, and after the string
there is what the allocator left there. -/
theorem string_copy_stale {E : Env σ} {used : σ → Nat → Prop} (G : GoodAlloc E used) (src : String) (units size align : U32)
    (enc : TextEnc) (bs : List Byte) (he : enc.encode src = .ok bs) (hn : (size * units).toNat < 2 ^ 31)
    (hl : bs.length ≤ (size * units).toNat) (s : St σ) (hg : s.mem.len < 2 ^ 32 ∧ s.mem.len ≤ s.mem.cap) (p : U32) (m' : Mem)
    (h' : σ) (ha : E.realloc align (size * units) (s.mem, s.heap) = (.ok p, (m', h'))) :
    ∃ s', storeStringCopy E src units size align enc s = (.ok (p, units), s') ∧
      s'.mem.read p.toNat (size * units).toNat =
        bs ++ m'.read (p.toNat + bs.length) ((size * units).toNat - bs.length) := by
  refine ⟨_, storeStringCopy_run G src units size align enc bs he s hg hn p m' h' ha, ?_⟩
  obtain ⟨rest, e1, e2⟩ := read_write_take m' p.toNat (size * units).toNat bs
  simp only
  rw [e1, e2, List.take_of_length_le hl]

theorem utf16_bytes_length (big : Bool) (l : List Char) :
    (l.flatMap fun c => (utf16Units c).flatMap (unitBytes big)).length = 2 * (l.flatMap utf16Units).length := by
  have hu : ∀ us : List Nat, (us.flatMap (unitBytes big)).length = 2 * us.length := by
    intro us
    induction us with
    | nil => rfl
    | cons u us ih =>
      rw [List.flatMap_cons, List.length_append, ih, List.length_cons]
      have : (unitBytes big u).length = 2 := by unfold unitBytes; split <;> rfl
      omega
  induction l with
  | nil => rfl
  | cons c l ih => rw [List.flatMap_cons, List.flatMap_cons, List.length_append, List.length_append, ih, hu]; omega

/-- A string has no more code units in UTF-16 than bytes in UTF-8. -/
theorem utf16_le_utf8 (l : List Char) : (l.flatMap utf16Units).length ≤ (l.flatMap utf8Char).length := by
  induction l with
  | nil => exact Nat.le_refl _
  | cons c l ih =>
    rw [List.flatMap_cons, List.flatMap_cons, List.length_append, List.length_append]
    have : (utf16Units c).length ≤ (utf8Char c).length := by
      unfold utf16Units utf8Char
      simp only
      split <;> split <;> (try split) <;> (try split) <;> simp <;> omega
    omega

/-- **C95**, `StoreUtf8ToUtf16`, what holds of it: when the number given is at least the length of the string in UTF-8, as the
function assumes, and the allocator answers both requests, the call succeeds; the bytes at the pointer returned,
two for each code unit returned, decode to the string, and no byte that was in use has changed. Missing: smaller numbers,
see `utf8_to_utf16_overruns`. -/
theorem utf8_to_utf16_partial {E : Env σ} {Z : Resize σ} {used : σ → Nat → Prop} (G : GoodAlloc E used) (GZ : GoodResize Z used)
    (src : String) (units : U32) (hu : (src.toList.flatMap utf8Char).length ≤ units.toNat) (hb : units.toNat < 2 ^ 30)
    (s : St σ) (hg : s.mem.len < 2 ^ 32 ∧ s.mem.len ≤ s.mem.cap)
    (hp : ∃ p, (E.realloc 2 (2 * units) (s.mem, s.heap)).1 = .ok p)
    (hz : ∀ p n m h, 2 ∣ p.toNat → p.toNat + 2 * units.toNat ≤ m.len → ∃ q, (Z p (2 * units) 2 n (m, h)).1 = .ok q) :
    ∃ q k s', storeUtf8ToUtf16 E Z src units s = (.ok (q, k), s') ∧
      (TextEnc.utf16 false).decode (s'.mem.read q.toNat (2 * k.toNat)) = .ok src ∧
      k.toNat = (src.toList.flatMap utf16Units).length ∧ q.toNat + 2 * k.toNat ≤ s'.mem.len ∧ 2 ∣ q.toNat ∧
      (∀ x, q.toNat ≤ x → x < q.toNat + 2 * k.toNat → used s'.heap x) ∧
      ∀ x, used s.heap x → used s'.heap x ∧ s'.mem.data x = s.mem.data x := by
  have hle := utf16_le_utf8 src.toList
  have hlen := utf16_bytes_length false src.toList
  generalize hbs : (src.toList.flatMap fun c => (utf16Units c).flatMap (unitBytes false)) = bs at hlen
  have he : (TextEnc.utf16 false).encode src = .ok bs := by rw [← hbs]; rfl
  generalize hN : (src.toList.flatMap utf16Units).length = N at *
  have hw : (2 * units).toNat = 2 * units.toNat := by
    rw [BitVec.toNat_mul, show (2 : U32).toNat = 2 from rfl, Nat.mod_eq_of_lt (by omega)]
  obtain ⟨p, hp⟩ := hp
  rcases ha : E.realloc 2 (2 * units) (s.mem, s.heap) with ⟨r, m', h'⟩
  rw [ha] at hp
  simp only at hp
  subst hp
  obtain ⟨b1, b2, b3⟩ := G.block _ _ _ _ _ _ _ ha hg.1 hg.2
  have gr := G.grows 2 (2 * units) s.mem s.heap hg.1 hg.2
  rw [ha] at gr
  simp only at gr
  rw [hw] at b2 b3
  have hadd : (p + 2 * units).toNat = p.toNat + 2 * units.toNat := by
    rw [BitVec.toNat_add, hw, Nat.mod_eq_of_lt (by omega)]
  have hnn : (BitVec.ofNat 32 bs.length).toNat = bs.length := by
    rw [BitVec.toNat_ofNat, Nat.mod_eq_of_lt (by omega)]
  have hhi : (p + BitVec.ofNat 32 bs.length).toNat = p.toNat + bs.length := by
    rw [BitVec.toNat_add, hnn, Nat.mod_eq_of_lt (by omega)]
  have hdiff : p + BitVec.ofNat 32 bs.length - p = BitVec.ofNat 32 bs.length := by
    rw [BitVec.add_comm, BitVec.add_sub_cancel]
  have hl32 : m'.len32.toNat = m'.len := by unfold Mem.len32; rw [BitVec.toNat_ofNat, Nat.mod_eq_of_lt gr.2.1]
  have hal : alloc E 2 (2 * units) s = (.ok p, { s with mem := m', heap := h' }) := by
    unfold alloc; rw [ha]
  have hk2 : (BitVec.ofNat 32 (bs.length / 2)).toNat = N := by
    rw [BitVec.toNat_ofNat, Nat.mod_eq_of_lt (by omega)]; omega
  have keep : ∀ x, used s.heap x → used h' x ∧ (m'.write p.toNat bs).data x = s.mem.data x := by
    intro x hx
    have k := G.keeps 2 (2 * units) s.mem s.heap x hx
    rw [ha] at k
    refine ⟨k.1, ?_⟩
    rw [Mem.write_out _ _ _ _ (fun c => ?_)]
    · exact k.2
    · exact (b3 x c.1 (by omega)).1 hx
  have run : storeUtf8ToUtf16 E Z src units s = (if bs.length < (2 * units).toNat then do
          let ptr' ← resize Z p (2 * units) 2 (BitVec.ofNat 32 bs.length)
          if ptr' ≠ alignTo ptr' 2 then SM.fail
          else do
            let st' ← SM.get
            if (p + BitVec.ofNat 32 bs.length).toNat > st'.mem.len32.toNat then SM.fail
            else pure (ptr', BitVec.ofNat 32 (bs.length / 2))
        else pure (p, BitVec.ofNat 32 (bs.length / 2)) : SM (St σ) (U32 × U32))
        { s with mem := m'.write p.toNat bs, heap := h' } := by
    unfold storeUtf8ToUtf16
    simp only [SM.ite_app]
    rw [if_neg (by show ¬ _ > 0x7FFFFFFF; omega), SM.bind_ok hal, SM.ite_app, if_neg (by rw [alignTo_of_dvd p 2 b1]; simp),
      SM.bind_get, SM.ite_app, if_neg (by simp only; omega), he, SM.bind_ok (SM.lift_def _ _),
      slice_ok m' p (BitVec.ofNat 32 bs.length) (by omega) (by omega), SM.bind_ok (SM.lift_def _ _), hdiff, hnn,
      List.take_length, SM.bind_ok (a := ()) (s' := { s with mem := m'.write p.toNat bs, heap := h' })
        (show writeAt p bs _ = _ from rfl), SM.ite_app]
  rw [run, SM.ite_app]
  by_cases hlt : bs.length < (2 * units).toNat
  · rw [if_pos hlt]
    obtain ⟨q, hq⟩ := hz p (BitVec.ofNat 32 bs.length) (m'.write p.toNat bs) h' b1 b2
    rcases hza : Z p (2 * units) 2 (BitVec.ofNat 32 bs.length) (m'.write p.toNat bs, h') with ⟨r2, m2, h2⟩
    rw [hza] at hq
    simp only at hq
    subst hq
    obtain ⟨z1, z2, z3, z4, z5⟩ := GZ.block _ _ _ _ _ _ _ _ _ hza (by omega)
      (fun x h1 h2 => (b3 x h1 (by omega)).2) gr.2.1 gr.2.2
    have gz := GZ.grows p (2 * units) 2 (BitVec.ofNat 32 bs.length) (m'.write p.toNat bs) h' gr.2.1 gr.2.2
    rw [hza] at gz
    simp only [Mem.write_len] at gz
    have hl2 : m2.len32.toNat = m2.len := by unfold Mem.len32; rw [BitVec.toNat_ofNat, Nat.mod_eq_of_lt gz.2.1]
    have hrs : resize Z p (2 * units) 2 (BitVec.ofNat 32 bs.length) { s with mem := m'.write p.toNat bs, heap := h' } =
        (.ok q, { s with mem := m2, heap := h2 }) := by unfold resize; simp only [hza]
    rw [hnn] at z2 z3 z4
    rw [SM.bind_ok hrs, SM.ite_app, if_neg (by rw [alignTo_of_dvd q 2 z1]; simp), SM.bind_get, SM.ite_app,
      if_neg (by simp only; omega)]
    refine ⟨q, _, _, rfl, ?_, hk2, ?_, z1, ?_, ?_⟩
    · rw [hk2, ← hlen]
      have : m2.read q.toNat bs.length = bs := by
        refine Eq.trans ?_ (Mem.read_write m' p.toNat bs)
        unfold Mem.read
        apply List.map_congr_left
        intro i hi
        rw [List.mem_range] at hi
        exact z3 i hi
      simp only
      rw [this]
      exact (TextEnc.utf16 false).roundtrip src bs he
    · rw [hk2, ← hlen]; exact z2
    · rw [hk2, ← hlen]; exact z4
    · intro x hx
      obtain ⟨k1, k2⟩ := keep x hx
      obtain ⟨j1, j2⟩ := z5 x k1 (fun c => (b3 x c.1 (by omega)).1 hx)
      exact ⟨j1, by simp only; rw [j2, k2]⟩
  · rw [if_neg hlt]
    refine ⟨p, _, _, rfl, ?_, hk2, ?_, b1, ?_, keep⟩
    · rw [hk2, ← hlen]
      simp only
      rw [Mem.read_write]
      exact (TextEnc.utf16 false).roundtrip src bs he
    · rw [hk2, ← hlen]; simp only [Mem.write_len]; omega
    · rw [hk2, ← hlen]; exact fun x h1 h2 => (b3 x h1 (by omega)).2

/-- **C95**, negatively: with a number of code units that is too small for the string the call succeeds all the same, and the
string is written past the end of the block that the allocator handed out. -/
theorem utf8_to_utf16_overruns {E : Env σ} {Z : Resize σ} {used : σ → Nat → Prop} (G : GoodAlloc E used)
    (src : String) (units : U32) (bs : List Byte) (he : (TextEnc.utf16 false).encode src = .ok bs)
    (hu : 2 * units.toNat < bs.length) (hb : units.toNat < 2 ^ 30)
    (s : St σ) (hg : s.mem.len < 2 ^ 32 ∧ s.mem.len ≤ s.mem.cap) (p : U32) (m' : Mem) (h' : σ)
    (ha : E.realloc 2 (2 * units) (s.mem, s.heap) = (.ok p, (m', h')))
    (hc : p.toNat + bs.length ≤ m'.cap) (hw : p.toNat + bs.length < 2 ^ 32) :
    ∃ s', storeUtf8ToUtf16 E Z src units s = (.ok (p, BitVec.ofNat 32 (bs.length / 2)), s') ∧ s'.heap = h' ∧
      ∀ i b, bs[i]? = some b → s'.mem.data (p.toNat + i) = b := by
  have hw2 : (2 * units).toNat = 2 * units.toNat := by
    rw [BitVec.toNat_mul, show (2 : U32).toNat = 2 from rfl, Nat.mod_eq_of_lt (by omega)]
  obtain ⟨b1, b2, b3⟩ := G.block _ _ _ _ _ _ _ ha hg.1 hg.2
  have gr := G.grows 2 (2 * units) s.mem s.heap hg.1 hg.2
  rw [ha] at gr
  simp only at gr
  rw [hw2] at b2
  have hadd : (p + 2 * units).toNat = p.toNat + 2 * units.toNat := by
    rw [BitVec.toNat_add, hw2, Nat.mod_eq_of_lt (by omega)]
  have hnn : (BitVec.ofNat 32 bs.length).toNat = bs.length := by
    rw [BitVec.toNat_ofNat, Nat.mod_eq_of_lt (by omega)]
  have hdiff : p + BitVec.ofNat 32 bs.length - p = BitVec.ofNat 32 bs.length := by
    rw [BitVec.add_comm, BitVec.add_sub_cancel]
  have hl32 : m'.len32.toNat = m'.len := by unfold Mem.len32; rw [BitVec.toNat_ofNat, Nat.mod_eq_of_lt gr.2.1]
  have hal : alloc E 2 (2 * units) s = (.ok p, { s with mem := m', heap := h' }) := by
    unfold alloc; rw [ha]
  refine ⟨{ s with mem := m'.write p.toNat bs, heap := h' }, ?_, rfl, ?_⟩
  · unfold storeUtf8ToUtf16
    simp only [SM.ite_app]
    rw [if_neg (by show ¬ _ > 0x7FFFFFFF; omega), SM.bind_ok hal, SM.ite_app, if_neg (by rw [alignTo_of_dvd p 2 b1]; simp),
      SM.bind_get, SM.ite_app, if_neg (by simp only; omega), he, SM.bind_ok (SM.lift_def _ _),
      slice_ok m' p (BitVec.ofNat 32 bs.length) (by omega) (by omega), SM.bind_ok (SM.lift_def _ _), hdiff, hnn,
      List.take_length, SM.bind_ok (a := ()) (s' := { s with mem := m'.write p.toNat bs, heap := h' })
        (show writeAt p bs _ = _ from rfl), SM.ite_app, if_neg (by omega)]
    rfl
  · intro i b hi
    have hi' := (List.getElem?_eq_some_iff.1 hi).1
    simp only [Mem.write]
    rw [if_pos (by omega), Nat.add_sub_cancel_left, List.getD_eq_getElem?_getD, hi, Option.getD_some]

/-! ## Examples -/

/-- An allocator with one free block of two bytes at address 0; the two bytes after it are in use. -/
def tightEnv : Env Bool where
  enc := "utf-8"
  realloc := fun _ n (m, h) => if h = false ∧ n.toNat ≤ 2 ∧ 2 ≤ m.len then (.ok 0, (m, true)) else (.err, (m, h))
  inst := 0
  cx := 0
  info := ⟨fun _ => none, fun _ => false⟩

/-- What is in use. -/
def tightUsed (h : Bool) (x : Nat) : Prop := (h = true ∧ x < 2) ∨ (2 ≤ x ∧ x < 4)

theorem tight_good : GoodAlloc tightEnv tightUsed where
  keeps := by
    intro a n m h x hx
    simp only [tightEnv]
    split
    · rename_i c
      exact ⟨by rcases hx with hx | hx; · exact absurd hx.1 (by rw [c.1]; decide)
                · exact .inr hx, rfl⟩
    · exact ⟨hx, rfl⟩
  grows := by
    intro a n m h h1 h2
    simp only [tightEnv]
    split <;> exact ⟨Nat.le_refl _, h1, h2⟩
  block := by
    intro a n m h p m' h' e h1 h2
    simp only [tightEnv] at e
    split at e
    · rename_i c
      simp only [Prod.mk.injEq, Res.ok.injEq] at e
      obtain ⟨rfl, rfl, rfl⟩ := e
      refine ⟨by simp, by simp; omega, fun x _ hx => ?_⟩
      have h0 : (0 : U32).toNat = 0 := rfl
      rw [h0] at hx
      exact ⟨fun k => by rcases k with k | k; · rw [c.1] at k; exact absurd k.1 (by decide)
                         · omega, .inl ⟨rfl, by omega⟩⟩
    · simp at e

/-- A memory of four bytes. -/
def tightSt : St Bool := ⟨⟨fun _ => 7, 4, 4⟩, false, Handles.World.init⟩

/-- One character, given as one code unit, that takes two: the byte at address 2, which is in use, changes. -/
example : ∃ s', storeUtf8ToUtf16 tightEnv (fun _ _ _ _ x => (.err, x)) "😀" 1 tightSt = (.ok (0, 2), s') ∧
    tightUsed tightSt.heap 2 ∧ s'.mem.data 2 ≠ tightSt.mem.data 2 := by
  obtain ⟨s', h1, -, h3⟩ := utf8_to_utf16_overruns (Z := fun _ _ _ _ x => (.err, x)) tight_good "😀" 1 [0x3D, 0xD8, 0x00, 0xDE]
    (by decide) (by decide) (by decide) tightSt (by decide) 0 ⟨fun _ => 7, 4, 4⟩ true (by rfl) (by decide) (by decide)
  refine ⟨s', h1, .inr ⟨by decide, by decide⟩, ?_⟩
  have := h3 2 0 rfl
  rw [show (0 : U32).toNat + 2 = 2 from rfl] at this
  rw [this]
  decide

/-- Two different strings, stored alike. -/
example : storeStringCopy tightEnv "ab" 1 1 1 .utf8 tightSt = storeStringCopy tightEnv "ac" 1 1 1 .utf8 tightSt ∧
    (storeStringCopy tightEnv "ab" 1 1 1 .utf8 tightSt).1 = .ok (0, 1) := by
  have := string_copy_cut tight_good "ab" "ac" 1 1 1 .utf8 [0x61, 0x62] [0x61, 0x63] (by decide) (by decide) (by decide)
    (by decide) tightSt (by decide) 0 rfl
  exact ⟨this.2, this.1⟩

/-- The string "é" copied as two code units of UTF-8 satisfies the hypotheses of `string_copy_partial`, as one of Latin 1 too. -/
example : TextEnc.utf8.encode "é" = .ok [0xC3, 0xA9] ∧ TextEnc.latin1.encode "é" = .ok [0xE9] ∧
    (tightEnv.realloc 2 (1 * 2) (tightSt.mem, tightSt.heap)).1 = .ok 0 := by decide

/-- So is "a" with a number too large: the byte after it stays. -/
example : ((storeStringCopy tightEnv "a" 2 1 1 .utf8 tightSt).2.mem.read 0 2) = [0x61, 7] := by decide

/-- Blocks of the bump allocator shrink in place. -/
def shrink : Resize Nat := fun p old a _ (m, h) =>
  if a.toNat ∣ p.toNat ∧ p.toNat + old.toNat ≤ m.len then (.ok p, (m, h)) else (.err, (m, h))

theorem shrink_good : GoodResize shrink (fun h x => x < h) where
  grows := by
    intro p old a n m h h1 h2
    simp only [shrink]
    split <;> exact ⟨Nat.le_refl _, h1, h2⟩
  block := by
    intro p old a n m h q m' h' e hn hu h1 h2
    simp only [shrink] at e
    split at e
    · rename_i c
      simp only [Prod.mk.injEq, Res.ok.injEq] at e
      obtain ⟨rfl, rfl, rfl⟩ := e
      exact ⟨c.1, by omega, fun _ _ => rfl, fun x k1 k2 => hu x k1 (by omega), fun x k1 _ => ⟨k1, rfl⟩⟩
    · simp at e

/-- The hypotheses of `utf8_to_utf16_partial` hold of a string with characters of one, two and four bytes. -/
example : ("aé😀".toList.flatMap utf8Char).length = 7 ∧ (∃ p, ((bumpEnv "utf-8").realloc 2 (2 * 7) (bumpSt.mem, bumpSt.heap)).1 = .ok p) ∧
    (∀ p n m h, 2 ∣ p.toNat → p.toNat + 2 * (7 : U32).toNat ≤ m.len → ∃ q, (shrink p (2 * 7) 2 n (m, h)).1 = .ok q) := by
  refine ⟨by decide, ⟨64, by decide⟩, fun p n m h h1 h2 => ⟨p, ?_⟩⟩
  simp only [shrink]
  rw [if_pos ⟨h1, h2⟩]
example : (storeUtf8ToUtf16 (bumpEnv "utf-8") shrink "aé😀" 7 bumpSt).1 = .ok (64, 4) := by decide

end Verif.Abi
