import Verif.Abi.LoadReads
import Verif.Abi.StoreProps

/-!
# Loading: C27, C28, C30, C31, C63
-/

namespace Verif.Abi
open Encoding Spec

variable {σ : Type}

/-! ## C27 -/

/-- C27, strings, for bytes that end below `2^32` and, except for `latin1+utf16`, lengths below `2^31`. Misaligned or not
inside memory: an error. Otherwise a string, which depends only on the bytes described. Nothing changes.
Missing: the other pairs, for which the statement is false (`string_wrap_panics`, `string_length_bit_dropped`). -/
theorem load_string_range_partial (E : Env σ) (henc : E.enc ∈ Spec.encodings) (p n : U32)
    (hn : n.toNat < 2 ^ 31 ∨ E.enc = "latin1+utf16") (hw : p.toNat + stringBytes E.enc n.toNat < 2 ^ 32)
    (s : St σ) (hs : s.mem.len < 2 ^ 32) (hc : s.mem.len ≤ s.mem.cap) :
    (¬ stringAlign E.enc ∣ p.toNat ∨ s.mem.len < p.toNat + stringBytes E.enc n.toNat →
      loadStringFromRange E p n s = (.err, s)) ∧
    (stringAlign E.enc ∣ p.toNat → p.toNat + stringBytes E.enc n.toNat ≤ s.mem.len → ∃ str, ∀ s' : St σ,
      s'.mem.len = s.mem.len → s'.mem.len ≤ s'.mem.cap →
      (∀ x, p.toNat ≤ x → x < p.toNat + stringBytes E.enc n.toNat → s'.mem.data x = s.mem.data x) →
      loadStringFromRange E p n s' = (.ok str, s')) := by
  obtain ⟨c, k, -, hk, key⟩ := loadStringFromRange_cases E henc p n
  have hk := hk hn
  subst hk
  constructor
  · intro h
    rw [key s hs hc hw, if_neg]
    rintro ⟨h1, h2⟩
    rcases h with h | h
    · exact h h1
    · omega
  · intro ha hl
    obtain ⟨str, hd⟩ := decode_ok c.enc (s.mem.read p.toNat (stringBytes E.enc n.toNat))
    refine ⟨str, fun s' h1 h2 h3 => ?_⟩
    rw [key s' (by omega) h2 hw, if_pos ⟨ha, by omega⟩, Mem.read_congr s.mem s'.mem _ _ h3, hd]

/-- Both cases of the theorem happen: in a memory of 256 bytes, 4 wide code units fit at 64 and not at 250. -/
example : (250 : U32).toNat + stringBytes "latin1+utf16" (0x80000004 : U32).toNat < 2 ^ 32 ∧
    bumpSt.mem.len < (250 : U32).toNat + stringBytes "latin1+utf16" (0x80000004 : U32).toNat ∧
    (64 : U32).toNat + stringBytes "latin1+utf16" (0x80000004 : U32).toNat ≤ bumpSt.mem.len ∧
    stringAlign "latin1+utf16" ∣ (64 : U32).toNat := by decide

/-- Where the code fails C27: the end of the bytes is computed in 32 bits, passes the check when it wraps around, and
the slice expression panics. -/
theorem string_wrap_panics (s : St Nat) (h1 : 2 ≤ s.mem.len) (h2 : s.mem.len < 2 ^ 32) :
    loadStringFromRange (bumpEnv "utf-8") 0xFFFFFFFE 4 s = (.panic, s) := by
  unfold loadStringFromRange
  have h : defaultFactory.get (srcEncoding (bumpEnv "utf-8").enc (toTagged 4)) = .ok newUTF8 := rfl
  have e : ((0xFFFFFFFE : U32) + (toTagged 4).codeUnits * BitVec.ofNat 32 newUTF8.runeSize) = 2 := by decide
  rw [h, SM.bind_ok (SM.lift_def _ _), SM.ite_app, if_neg (by decide), SM.bind_get, SM.ite_app]
  simp only [e]
  rw [Mem.len32, toNat_ofNat_lt h2, if_neg (show ¬ ((2 : U32).toNat > s.mem.len) from by
    show ¬ (2 > s.mem.len); omega)]
  apply SM.bind_panic
  rw [SM.lift_def, Mem.slice, if_neg]
  rintro ⟨c, -⟩
  exact absurd c (by decide)

example : 2 ≤ bumpSt.mem.len ∧ bumpSt.mem.len < 2 ^ 32 := by decide

/-- The top bit of the length is dropped whatever the encoding: a UTF-8 string of `2^31 + 1` bytes is read as one of one
byte. -/
theorem string_length_bit_dropped :
    bumpSt.mem.len < 64 + stringBytes "utf-8" (0x80000001 : U32).toNat ∧
    ∃ str, loadStringFromRange (bumpEnv "utf-8") 64 0x80000001 bumpSt = (.ok str, bumpSt) := ⟨by decide, _, rfl⟩

/-- C27, lists, for bytes that end below `2^32`: misaligned or not inside memory is an error, and nothing changes.
Missing: elements described to lie at or beyond `2^32`, for which the statement is false (`list_wrap_panics`). That a
list that is accepted is read inside memory is part of `load_returns_partial`. -/
theorem load_list_range_partial (E : Env σ) (t : VT) (hl : Laid t.core) (hsz : Spec.size t.core < 2 ^ 32) (p n : U32)
    (hw : p.toNat + n.toNat * Spec.size t.core < 2 ^ 32) (s : St σ) (hs : s.mem.len < 2 ^ 32)
    (h : ¬ align t.core ∣ p.toNat ∨ s.mem.len < p.toNat + n.toNat * Spec.size t.core) :
    loadListFromRange (t.load E) t.core p n s = (.err, s) := by
  rw [loadListFromRange_cases _ _ hl _ _ _ hs hw hsz, if_neg]
  rintro ⟨h1, h2⟩
  rcases h with h | h
  · exact h h1
  · omega

example : Laid (VT.option .u16).core ∧ bumpSt.mem.len < (80 : U32).toNat + (100 : U32).toNat *
    Spec.size (VT.option .u16).core ∧ ¬ align (VT.option .u16).core ∣ (81 : U32).toNat := by
  refine ⟨?_, by decide, by decide⟩
  simp [VT.core, Laid, LaidCases, Cases.length]

/-- Where the code fails C27: the size of the list is computed in 32 bits; a list of `2^30` words at 0 passes the check
in a memory of no bytes, and reading its first element panics. -/
theorem list_wrap_panics (E : Env σ) (s : St σ) (h : s.mem.cap < 4) :
    loadListFromRange (VT.u32.load E) VT.u32.core 0 0x40000000 s = (.panic, s) := by
  have h1 : loadListFromRange (VT.u32.load E) VT.u32.core 0 0x40000000 s =
      loadElems (VT.u32.load E) 0 4 (0x40000000 : U32).toNat 0 s := by
    unfold loadListFromRange
    rw [show alignment VT.u32.core = .ok 4 from rfl, SM.bind_ok (SM.lift_def _ _), SM.ite_app, if_neg (by decide),
      show Abi.size VT.u32.core = .ok 4 from rfl, SM.bind_ok (SM.lift_def _ _), SM.bind_get, SM.ite_app, if_neg]
    have : ((0 : U32) + 0x40000000 * 4).toNat = 0 := by decide
    omega
  rw [h1, show (0x40000000 : U32).toNat = (2 ^ 30 - 1) + 1 by decide, loadElems]
  apply SM.bind_panic
  show Abi.load E .u32 _ s = _
  rw [load, loadInt, show Abi.size .u32 = .ok 4 from rfl, SM.bind_ok (SM.lift_def _ _)]
  apply SM.bind_panic
  rw [loadBytes_eq, Mem.slice, if_neg]
  rintro ⟨-, c⟩
  have : ((0 : U32) + BitVec.ofNat 32 0 * 4 + 4).toNat = 4 := by decide
  omega

/-! ## C28 -/

theorem lift_inv {S α : Type} {r : Res α} {s s1 : S} {x : α} (h : SM.lift r s = (.ok x, s1)) : r = .ok x ∧ s1 = s := by
  rw [SM.lift_def] at h
  injection h with h1 h2
  exact ⟨h1, h2.symm⟩

theorem loadUInt32_inv (ptr : U32) (s s1 : St σ) (x : U32) (h : loadUInt32 ptr s = (.ok x, s1)) :
    s1 = s ∧ x.toNat = natAt s.mem ptr.toNat 4 ∧ ptr.toNat + 4 < 2 ^ 32 := by
  unfold loadUInt32 at h
  obtain ⟨v, s2, h1, h2⟩ := SM.bind_eq_ok.1 h
  unfold loadInt at h1
  rw [show Abi.size .u32 = .ok 4 from rfl, SM.bind_ok (SM.lift_def _ _)] at h1
  obtain ⟨y, s3, h3, h4⟩ := SM.bind_eq_ok.1 h1
  rw [loadBytes_eq] at h3
  rcases slice_cases s.mem ptr (ptr + 4) with ⟨e, e1, e2⟩ | e
  · rw [e] at h3
    injection h3 with h3 h5
    injection h3 with h3
    injection h4 with h4 h6
    injection h4 with h4
    rw [← h4] at h2
    injection h2 with h2 h7
    injection h2 with h2
    refine ⟨by rw [← h7, ← h6, ← h5], ?_, ?_⟩
    · rw [← h2, BitVec.toNat_ofNat, natAt_eq, ← h3, Nat.mod_eq_of_lt]
      · rfl
      · have := leNat_lt (s.mem.read ptr.toNat (4 : U32).toNat)
        rw [Mem.read_length] at this
        exact this
    · rw [BitVec.toNat_add] at e1
      have : (4 : U32).toNat = 4 := rfl
      have := ptr.isLt
      omega
  · rw [e] at h3; cases h3

theorem loadElems_inv {f : U32 → SM (St σ) Val} (hm : ∀ p s, ∃ w, (f p s).2 = { s with world := w })
    (ptr sz : U32) : (n i : Nat) → (s s' : St σ) → (vs : List Val) → loadElems f ptr sz n i s = (.ok vs, s') →
    ∃ ws : Nat → Handles.World, vs.length = n ∧ ws 0 = s.world ∧ s' = { s with world := ws n } ∧
      ∀ j < n, ∃ x, vs[j]? = some x ∧ f (ptr + BitVec.ofNat 32 (i + j) * sz) { s with world := ws j } =
        (.ok x, { s with world := ws (j + 1) })
  | 0, i, s, s', vs, h => by
    injection h with h1 h2
    injection h1 with h1
    subst h1; subst h2
    exact ⟨fun _ => s.world, rfl, rfl, rfl, fun j hj => absurd hj (by omega)⟩
  | n + 1, i, s, s', vs, h => by
    rw [loadElems] at h
    obtain ⟨v, s1, h1, h2⟩ := SM.bind_eq_ok.1 h
    obtain ⟨us, s2, h3, h4⟩ := SM.bind_eq_ok.1 h2
    injection h4 with h4 h5
    injection h4 with h4
    subst h4; subst h5
    obtain ⟨w, hw⟩ := hm (ptr + BitVec.ofNat 32 i * sz) s
    rw [h1] at hw
    simp only at hw
    subst hw
    obtain ⟨ws, g1, g2, g3, g4⟩ := loadElems_inv hm ptr sz n (i + 1) _ _ _ h3
    refine ⟨fun j => match j with | 0 => s.world | j + 1 => ws j, by simp [g1], rfl, g3, ?_⟩
    intro j hj
    cases j with
    | zero =>
      refine ⟨v, rfl, ?_⟩
      simp only [g2]
      exact h1
    | succ j =>
      obtain ⟨x, e1, e2⟩ := g4 j (by omega)
      refine ⟨x, e1, ?_⟩
      rw [show i + (j + 1) = i + 1 + j by omega]
      exact e2

/-- C28. A successful load of a list gives as many elements as the length word says; element `i` is what `Load` returns
at `b + i * Size(element)`, where `b` is the pointer word. Elements are loaded in order; loading handles changes the
handle tables, of which `ws i` is the state before element `i`. Nothing else changes. -/
theorem load_list_elements (E : Env σ) (t : VT) (ptr : U32) (s s' : St σ) (v : Val)
    (h : (VT.list t).load E ptr s = (.ok v, s')) :
    ∃ (z : U32) (vs : List Val) (ws : Nat → Handles.World), t.size = .ok z ∧ v = .list vs ∧
      vs.length = natAt s.mem (ptr.toNat + 4) 4 ∧ ws 0 = s.world ∧ s' = { s with world := ws vs.length } ∧
      ∀ i < vs.length, ∃ x, vs[i]? = some x ∧
        t.load E (BitVec.ofNat 32 (natAt s.mem ptr.toNat 4) + BitVec.ofNat 32 i * z) { s with world := ws i } =
          (.ok x, { s with world := ws (i + 1) }) := by
  have h : Abi.load E (.list t.core) ptr s = (.ok v, s') := h
  rw [load] at h
  obtain ⟨vs, s1, h1, h2⟩ := SM.bind_eq_ok.1 h
  injection h2 with h2 h3
  injection h2 with h2
  subst h2; subst h3
  unfold loadList at h1
  obtain ⟨b, s2, hb, k1⟩ := SM.bind_eq_ok.1 h1
  clear h1
  obtain ⟨e1, hb', hp⟩ := loadUInt32_inv _ _ _ _ hb
  clear hb
  subst e1
  obtain ⟨n, s3, hn, k2⟩ := SM.bind_eq_ok.1 k1
  clear k1
  obtain ⟨e1, hn', -⟩ := loadUInt32_inv _ _ _ _ hn
  clear hn
  subst e1
  rw [toNat_add_4 ptr hp] at hn'
  unfold loadListFromRange at k2
  obtain ⟨a, s4, ha, k3⟩ := SM.bind_eq_ok.1 k2
  clear k2
  obtain ⟨-, e1⟩ := lift_inv ha
  clear ha
  subst e1
  rw [SM.ite_app] at k3
  split at k3
  · cases k3
  obtain ⟨z, s5, hz, k4⟩ := SM.bind_eq_ok.1 k3
  clear k3
  obtain ⟨hz', e1⟩ := lift_inv hz
  clear hz
  subst e1
  rw [SM.bind_get, SM.ite_app] at k4
  split at k4
  · cases k4
  obtain ⟨ws, g1, g2, g3, g4⟩ := loadElems_inv (fun p u => by
    obtain ⟨⟨w, e, -⟩, -⟩ := load_tame E t.core p u
    exact ⟨w, e⟩) b z n.toNat 0 _ _ _ k4
  refine ⟨z, vs, ws, hz', rfl, by rw [g1, hn'], g2, by rw [g1]; exact g3, ?_⟩
  intro i hi
  obtain ⟨x, e1, e2⟩ := g4 i (by omega)
  refine ⟨x, e1, ?_⟩
  rw [← hb', BitVec.ofNat_toNat, BitVec.setWidth_eq]
  rw [Nat.zero_add] at e2
  exact e2

/-- Without handles all elements are loaded from the same state. -/
theorem load_unchanged (E : Env σ) (t : VT) (ht : Plain t.core) (ptr : U32) (s : St σ) : (t.load E ptr s).2 = s := by
  obtain ⟨⟨w, e, hw⟩, -⟩ := load_tame E t.core ptr s
  rw [hw ht] at e
  exact e

/-- A memory holding, at 8, a list of three `u16` at 20. -/
def listMem : Mem := ⟨fun x => if x = 8 then 20 else if x = 12 then 3 else if x = 20 then 7 else if x = 23 then 1 else 0, 64, 64⟩

example : ((VT.list .u16).load (bumpEnv "utf-8") 8 ⟨listMem, 0, .init⟩).1 = .ok (.list [.u16 7, .u16 256, .u16 0]) ∧
    Plain (VT.list .u16).core := ⟨rfl, by simp [VT.core, Plain]⟩

/-! ## C30 -/

/-- C30, first part: the case selected is the one named by the first label that the type has; otherwise an error. -/
theorem match_case (v : Val) (cs : Cases) (hl : cs.length < 2 ^ 32) :
    (∀ i p, matchCase v cs = .ok (i, p) ↔ ∃ key, v = .map [(key, p)] ∧ Selects cs key i.toNat) ∧
    ((∀ key p i, v = .map [(key, p)] → ¬ Selects cs key i) ↔ matchCase v cs = .err) := by
  refine ⟨fun i p => matchCase_ok v cs hl i p, matchCase_err v cs, ?_⟩
  rintro h key p i rfl hs
  have hi := hs.lt
  have := (matchCase_ok (.map [(key, p)]) cs hl (BitVec.ofNat 32 i) p).2
    ⟨key, rfl, by rw [toNat_ofNat_lt (by omega)]; exact hs⟩
  rw [h] at this
  cases this

/-- `none` and `some` of an option; `other` before `some`. -/
example : ∀ key p i, Val.map [("nobody", .nil)] = .map [(key, p)] → ¬ Selects (coreEnum ["a", "b"]) key i := by
  rintro key p i e hs
  injection e with e
  injection e with e _
  injection e with e _
  subst e
  have := (firstLabel_iff _ _ _).2 hs
  revert this
  simp [coreEnum, firstLabel, labelIndex, splitBar, splitBarFrom]

theorem loadDisc_inv (n : Nat) (d : Disc) (hd : discriminantType n = .ok d) (ptr : U32) (s s1 : St σ) (x : U32)
    (h : loadDisc ptr d s = (.ok x, s1)) : s1 = s ∧ x.toNat = natAt s.mem ptr.toNat (discBytes n) := by
  have hb := disc_bytes n d hd
  unfold loadDisc at h
  obtain ⟨v, s2, h1, h2⟩ := SM.bind_eq_ok.1 h
  unfold loadInt at h1
  rw [disc_size, SM.bind_ok (SM.lift_def _ _)] at h1
  obtain ⟨y, s3, h3, h4⟩ := SM.bind_eq_ok.1 h1
  rw [loadBytes_eq] at h3
  rcases slice_cases s.mem ptr (ptr + d.bytes) with ⟨e, e1, e2⟩ | e
  · rw [e] at h3
    injection h3 with h3 h5
    injection h3 with h3
    injection h4 with h4 h6
    injection h4 with h4
    rw [hb] at h3
    have hy : y < 256 ^ discBytes n := by
      have := leNat_lt (s.mem.read ptr.toNat (discBytes n))
      rw [Mem.read_length, h3] at this
      exact this
    rw [natAt_eq, h3]
    subst h4; subst h5; subst h6
    cases d <;> simp only [Disc.ty, intVal, Disc.bytes] at h2 hb <;> injection h2 with h2 h7 <;> injection h2 with h2 <;>
      refine ⟨h7.symm, ?_⟩
    · have hb : 1 = discBytes n := hb
      rw [← hb] at hy
      rw [← h2]; simp only [BitVec.toNat_setWidth, BitVec.toNat_ofNat]; omega
    · have hb : 2 = discBytes n := hb
      rw [← hb] at hy
      rw [← h2]; simp only [BitVec.toNat_setWidth, BitVec.toNat_ofNat]; omega
    · have hb : 4 = discBytes n := hb
      rw [← hb] at hy
      rw [← h2]; simp only [BitVec.toNat_ofNat]; omega
  · rw [e] at h3; cases h3

theorem loadCase_inv (E : Env σ) (all : Cases) : (cs : Cases) → (i : Nat) → (ptr : U32) → (s s' : St σ) → (v : Val) →
    loadCase E all cs i ptr s = (.ok v, s') →
    ∃ l t r ls p, cs.get? i = some (l, t, r) ∧ Chain all l r ls ∧ v = .map [(bars ls, p)]
  | .nil, i, ptr, s, s', v, h => by rw [loadCase] at h; cases h
  | .cons l t r cs, 0, ptr, s, s', v, h => by
    rw [loadCase] at h
    obtain ⟨label, s1, h1, h⟩ := SM.bind_eq_ok.1 h
    injection h1 with h1 _
    obtain ⟨ls, hc⟩ : ∃ ls, Chain all l r ls := by
      by_cases hc : ∃ ls, Chain all l r ls
      · exact hc
      · rw [caseLabel_diverges all l r hc] at h1; cases h1
    rw [caseLabel_chain hc] at h1
    injection h1 with h1
    subst h1
    rw [SM.ite_app] at h
    split at h
    · injection h with h _
      injection h with h
      exact ⟨l, t, r, ls, .nil, rfl, hc, h.symm⟩
    · obtain ⟨p, s2, -, h⟩ := SM.bind_eq_ok.1 h
      injection h with h _
      injection h with h
      exact ⟨l, t, r, ls, p, rfl, hc, h.symm⟩
  | .cons l t r cs, i + 1, ptr, s, s', v, h => by
    rw [loadCase] at h
    exact loadCase_inv E all cs i ptr s s' v h

/-- C30, second part, for labels that differ and contain no `|`: what loading case `i` is labelled with selects case `i`
again. The discriminant in memory says which case is loaded. -/
theorem loaded_label_selects (E : Env σ) (cs : VCases) (hd : cs.core.labels.Nodup) (hb : ∀ l ∈ cs.core.labels, NoBar l)
    (ptr : U32) (s s' : St σ) (v : Val) (h : (VT.variant cs).load E ptr s = (.ok v, s')) :
    ∃ label p, v = .map [(label, p)] ∧ Selects cs.core label (natAt s.mem ptr.toNat (discBytes cs.core.length)) ∧
      matchCase v cs.core = .ok (BitVec.ofNat 32 (natAt s.mem ptr.toNat (discBytes cs.core.length)), p) := by
  have h : Abi.load E (.variant cs.core) ptr s = (.ok v, s') := h
  generalize cs.core = cs at *
  rw [load] at h
  obtain ⟨d, s1, h1, k1⟩ := SM.bind_eq_ok.1 h
  clear h
  obtain ⟨hdt, e⟩ := lift_inv h1
  clear h1
  subst e
  obtain ⟨i, s2, h2, k2⟩ := SM.bind_eq_ok.1 k1
  clear k1
  obtain ⟨e, hi⟩ := loadDisc_inv _ _ hdt _ _ _ _ h2
  clear h2
  subst e
  obtain ⟨z, s3, h3, k3⟩ := SM.bind_eq_ok.1 k2
  clear k2
  obtain ⟨-, e⟩ := lift_inv h3
  clear h3
  subst e
  rw [SM.ite_app] at k3
  split at k3
  · cases k3
  obtain ⟨a, s4, h4, k4⟩ := SM.bind_eq_ok.1 k3
  clear k3
  obtain ⟨-, e⟩ := lift_inv h4
  clear h4
  subst e
  obtain ⟨l, t, r, ls, p, hg, hc, rfl⟩ := loadCase_inv E cs cs _ _ _ _ _ k4
  have hs := chain_selects hd hb hg hc
  rw [hi] at hs
  have hlen := (discriminantType_ok _ _ hdt).2
  refine ⟨bars ls, p, rfl, hs, ?_⟩
  apply (matchCase_ok _ cs (by omega) _ p).2
  refine ⟨bars ls, rfl, ?_⟩
  have := hs.lt
  rw [toNat_ofNat_lt (by omega)]
  exact hs

/-- Three cases, the first refining the third, which refines the second. -/
def refCases : VCases := .cons "c" .u8 (some "a") (.cons "b" .nil none (.cons "a" .u8 (some "b") .nil))

example : refCases.core.labels.Nodup ∧ (∀ l ∈ refCases.core.labels, NoBar l) ∧
    ((VT.variant refCases).load (bumpEnv "utf-8") 0 bumpSt).1 = .ok (.map [("c|a|b", .u8 0)]) := by
  refine ⟨by decide, by decide, rfl⟩

/-! ## C31 -/

/-- C31, for types in which following `refines` ends: loading ends, whatever is in memory.
Missing: cyclic `refines`, for which the statement is false (`cyclic_refines_diverges`). -/
theorem load_terminates_partial (E : Env σ) (t : VT) (ht : Chains t.core) (ptr : U32) (s : St σ) :
    (t.load E ptr s).1 ≠ .diverge := (load_tame E t.core ptr s).2 ht

/-- Dangling annotations are fine. -/
example : Chains (VT.variant (.cons "a" .u8 (some "nowhere") .nil)).core := by
  simp only [VT.core, VCases.core, Chains, ChainsCases, and_true]
  intro i l t r h
  cases i with
  | zero =>
    injection h with h
    injection h with h1 h
    injection h with h2 h3
    subst h1; subst h3
    exact ⟨_, .dangling _ _ (by simp [Cases.labels])⟩
  | succ i => cases h

/-- Where the code fails C31: two cases that refine each other. Loading either of them never ends; `labelLoop_forever`
shows that `diverge` in the model means that no number of rounds is enough. -/
theorem cyclic_refines_diverges (E : Env σ) (s : St σ) (ptr : U32) (h1 : ptr.toNat + 2 < 2 ^ 32)
    (h2 : ptr.toNat + 2 ≤ s.mem.cap) (h3 : (s.mem.data ptr.toNat).toNat < 2) :
    ((VT.variant (.cons "a" .u8 (some "b") (.cons "b" .u8 (some "a") .nil))).load E ptr s).1 = .diverge := by
  let cs : Cases := .cons "a" .u8 (some "b") (.cons "b" .u8 (some "a") .nil)
  show (Abi.load E (.variant cs) ptr s).1 = _
  rw [load, show discriminantType cs.length = .ok .u8 from (by decide : discriminantType 2 = .ok .u8), SM.bind_ok (SM.lift_def _ _)]
  have e : loadDisc ptr .u8 s = (.ok ((s.mem.data ptr.toNat).setWidth 32), s) := by
    unfold loadDisc
    rw [show Disc.u8.ty = .u8 from rfl, SM.bind_ok (loadInt_ok .u8 1 rfl ptr s (by show _ + 1 < _; omega)
      (by show _ + 1 ≤ _; omega))]
    have : leNat (s.mem.read ptr.toNat (1 : U32).toNat) = (s.mem.data ptr.toNat).toNat := by
      show leNat (s.mem.read ptr.toNat 1) = _
      rw [← natAt_eq]
      simp [natAt]
    rw [this]
    simp [intVal]
  have ei : ((s.mem.data ptr.toNat).setWidth 32).toNat = (s.mem.data ptr.toNat).toNat := by
    rw [BitVec.toNat_setWidth]; omega
  rw [SM.bind_ok e, show Abi.size Disc.u8.ty = .ok 1 from rfl, SM.bind_ok (SM.lift_def _ _), SM.ite_app, ei,
    show (BitVec.ofNat 32 cs.length).toNat = 2 from rfl, if_neg (by omega),
    show maxCaseAlignment cs 1 = .ok 1 from rfl, SM.bind_ok (SM.lift_def _ _)]
  have l0 : caseLabelWithRefinements cs "a" (some "b") = .diverge := rfl
  have l1 : caseLabelWithRefinements cs "b" (some "a") = .diverge := rfl
  rcases (by omega : (s.mem.data ptr.toNat).toNat = 0 ∨ (s.mem.data ptr.toNat).toNat = 1) with h | h
  · rw [h]
    show (loadCase E cs (.cons "a" .u8 (some "b") (.cons "b" .u8 (some "a") .nil)) 0 _ s).1 = _
    rw [loadCase, l0, SM.bind_diverge (SM.lift_def _ _)]
  · rw [h]
    show (loadCase E cs (.cons "a" .u8 (some "b") (.cons "b" .u8 (some "a") .nil)) 1 _ s).1 = _
    rw [loadCase, loadCase, l1, SM.bind_diverge (SM.lift_def _ _)]

example : (0 : U32).toNat + 2 < 2 ^ 32 ∧ (0 : U32).toNat + 2 ≤ bumpSt.mem.cap ∧
    (bumpSt.mem.data (0 : U32).toNat).toNat < 2 := by decide

/-! ## C63 -/

/-- C63 and the rest of C27, for types with finite `refines`, a destination inside memory and no pair reaching `2^32`:
`Load` returns a value or an error, and the same one whatever lies outside memory, be it in the spare capacity of the
buffer or elsewhere. Missing: addresses outside memory and pairs that wrap around, for which the statement is false
(`load_outside_panics`, `string_wrap_panics`, `list_wrap_panics`). -/
theorem load_returns_partial (E : Env σ) (t : VT) (hc : Chains t.core) (hl : Laid t.core) (ptr : U32) (s : St σ)
    (hs : s.mem.len < 2 ^ 32) (hcap : s.mem.len ≤ s.mem.cap) (ha : align t.core ∣ ptr.toNat)
    (hb : ptr.toNat + Spec.size t.core ≤ s.mem.len) (hw : NoWrap E.enc s.mem t.core ptr.toNat) :
    (t.load E ptr s).1.Returns ∧
    ∀ s' : St σ, s'.mem.len = s.mem.len → s'.mem.len ≤ s'.mem.cap → s'.world = s.world →
      (∀ x, x < s.mem.len → s'.mem.data x = s.mem.data x) → (t.load E ptr s').1 = (t.load E ptr s).1 := by
  constructor
  · obtain ⟨r, w, hr, e, -⟩ := load_reads E t.core hc hl ptr s s ⟨rfl, fun _ _ => rfl, hs, hcap, hcap, rfl⟩ ha hb hw
    show (Abi.load E t.core ptr s).1.Returns
    rw [e]; exact hr
  · intro s' h1 h2 h3 h4
    obtain ⟨r, w, -, e, e'⟩ := load_reads E t.core hc hl ptr s s' ⟨h1, h4, hs, hcap, h2, h3⟩ ha hb hw
    show (Abi.load E t.core ptr s').1 = (Abi.load E t.core ptr s).1
    rw [e, e']

example : Chains (VT.list .u16).core ∧ Laid (VT.list .u16).core ∧ align (VT.list .u16).core ∣ (8 : U32).toNat ∧
    (8 : U32).toNat + Spec.size (VT.list .u16).core ≤ listMem.len ∧
    NoWrap "utf-8" listMem (VT.list .u16).core (8 : U32).toNat := by
  refine ⟨by simp [VT.core, Chains], by simp [VT.core, Laid], by decide, by decide, ?_⟩
  simp only [VT.core, NoWrap]
  refine ⟨by decide, fun _ _ _ _ => trivial⟩

/-- Where the code fails C63: loading a word that does not lie inside the buffer's array panics. -/
theorem load_outside_panics (E : Env σ) (ptr : U32) (s : St σ) (h : s.mem.cap < ptr.toNat + 4) :
    VT.u32.load E ptr s = (.panic, s) := by
  show Abi.load E .u32 ptr s = _
  rw [load, loadInt, show Abi.size .u32 = .ok 4 from rfl, SM.bind_ok (SM.lift_def _ _)]
  apply SM.bind_panic
  rw [loadBytes_eq, Mem.slice, if_neg]
  rintro ⟨c1, c2⟩
  have : (4 : U32).toNat = 4 := rfl
  rw [BitVec.toNat_add] at c1 c2
  have := ptr.isLt
  omega

example : bumpSt.mem.cap < (253 : U32).toNat + 4 := by decide

/-- And where it fails C27's spirit: between the end of the memory and the end of the array, bytes outside memory are
read. -/
theorem load_spare_capacity (E : Env σ) (h : σ) (w : Handles.World) :
    (VT.u32.load E 0 ⟨⟨fun _ => 1, 0, 8⟩, h, w⟩).1 = .ok (.u32 0x01010101) := by
  show (Abi.load E .u32 0 _).1 = _
  rw [load, loadInt_ok .u32 4 rfl _ _ (by decide) (by show 0 + 4 ≤ 8; decide)]
  have : leNat (Mem.read ⟨fun _ => 1, 0, 8⟩ (0 : U32).toNat (4 : U32).toNat) = 0x01010101 := by decide
  simp only [this, intVal]
  rfl

end Verif.Abi
