import Verif.Abi.FlatRound
import Verif.Abi.StoreProps
import Verif.Abi.ScalarProps

/-!
# Properties of lowering and lifting: C14, C15, C17, C22, C40, and the lifting halves of C23, C24, C25
-/

namespace Verif.Abi
open Spec

variable {σ : Type}

/-- `io.LowerFlat` on user types.
-- models abi/io/lower.go:13-64, which expands specialised types (`Despecialize`) at every level -/
def VT.lower (E : Env σ) (t : VT) : Val → SM (St σ) (List FV) := lowerFlat E t.core
/-- `io.LiftFlat` on user types.
-- models abi/io/lift.go:28-89, which expands specialised types (`Despecialize`) at every level -/
def VT.lift (E : Env σ) (t : VT) : SM (LSt σ) Val := liftFlat E t.core

/-- The iterator over `vs` of which the first `i` values are consumed. -/
def itAt (vs : List FV) (i : Nat) : Iter := ⟨vs, i, []⟩

/-! ## C14 -/

/-- C14. -/
theorem lower_flatten (E : Env σ) (t : VT) (v : Val) (s s' : St σ) (fs : List FV)
    (h : t.lower E v s = (.ok fs, s')) : t.flatten = .ok (fs.map FV.kind) :=
  lower_kinds E t.core v s s' fs h

/-- A variant whose cases disagree on kinds. -/
def exMixed : VT := .variant (.cons "a" .f32 none (.cons "b" (.tuple (.cons .u64 (.cons .f32 .nil))) none
  (.cons "c" .nil none .nil)))

example : (exMixed.lower (bumpEnv "utf-8") (.map [("a", .f32 0x3F800000)]) bumpSt).1 =
    .ok [.u32 0, .u64 0x3F800000, .f32 0] ∧ exMixed.flatten = .ok [.u32, .u64, .f32] := by decide

/-! ## C15 -/

/-- C15. A successful lifting from the `i`-th value on leaves the iterator exactly as many values further as the type
has flat kinds, all of which were there. -/
theorem lift_consumes (E : Env σ) (t : VT) (vs : List FV) (i : Nat) (s : St σ) (s' : LSt σ) (v : Val)
    (h : t.lift E ⟨s, itAt vs i⟩ = (.ok v, s')) :
    ∃ ks, t.flatten = .ok ks ∧ s'.it = itAt vs (i + ks.length) ∧ ∀ j < ks.length, i + j < vs.length := by
  obtain ⟨ks, h1, h2, -, h3⟩ := lift_took E t.core _ _ _ h
  exact ⟨ks, h1, h2, h3⟩

/-- Lifting several parameters one after the other, as the callers do. -/
def liftSeq (E : Env σ) : List VT → SM (LSt σ) (List Val)
  | [] => pure []
  | t :: ts => do
    let v ← t.lift E
    let vs ← liftSeq E ts
    pure (v :: vs)

/-- C15, for parameters in sequence: the last one ends where the flat kinds of all of them end. -/
theorem liftSeq_consumes (E : Env σ) : (ts : List VT) → (vs : List FV) → (i : Nat) → (s : St σ) → (s' : LSt σ) →
    (xs : List Val) → liftSeq E ts ⟨s, itAt vs i⟩ = (.ok xs, s') →
    ∃ kss : List (List Kind), List.Forall₂ (fun t ks => t.flatten = .ok ks) ts kss ∧
      s'.it = itAt vs (i + kss.flatten.length) ∧ xs.length = ts.length
  | [], vs, i, s, s', xs, h => by
    obtain ⟨h1, h2⟩ := pure_inv h
    subst h1 h2
    exact ⟨[], .nil, rfl, rfl⟩
  | t :: ts, vs, i, s, s', xs, h => by
    obtain ⟨v, ⟨s1, it1⟩, h1, h2⟩ := SM.bind_eq_ok.1 h
    obtain ⟨ws, s2, h3, h4⟩ := SM.bind_eq_ok.1 h2
    obtain ⟨h5, h6⟩ := pure_inv h4
    subst h5 h6
    obtain ⟨ks, k1, k2, -⟩ := lift_consumes E t vs i s _ v h1
    simp only at k2
    subst k2
    obtain ⟨kss, k3, k4, k5⟩ := liftSeq_consumes E ts vs _ s1 s2 ws h3
    refine ⟨ks :: kss, .cons k1 k3, ?_, by simp [k5]⟩
    rw [k4, List.flatten_cons, List.length_append, Nat.add_assoc]

example : (liftSeq (bumpEnv "utf-8") [exMixed, .u8] ⟨bumpSt, itAt [.u32 0, .u64 0x3F800000, .f32 0, .u32 7] 0⟩).1 =
    .ok [.map [("a", .f32 0x3F800000)], .u8 7] := by rfl

/-! ## C17 -/

/-- C17. At every position where a case has a flat value, any value of the kind the case has there is coerced by
lowering to the kind the variant has there, and an iterator coercing back gives the value, bit for bit. -/
theorem joined_kind_carries (cs : Cases) (k0 : Kind) (ws : List Kind) (hv : flatten (.variant cs) = .ok (k0 :: ws))
    (i : Nat) (l : String) (t : Ty) (r : Option String) (hc : cs.get? i = some (l, t, r)) (ht : t ≠ .nil)
    (ks : List Kind) (hk : flatten t = .ok ks) (j : Nat) (k : Kind) (hj : ks[j]? = some k) :
    ∃ w, ws[j]? = some w ∧ ∀ x : FV, x.kind = k →
      (coerceTo x w).kind = w ∧
      (Iter.next ⟨[coerceTo x w], 0, [[w]]⟩ k).1 = .ok x.val := by
  obtain ⟨ws', e, h1⟩ := flatten_variant hv
  injection e with _ e
  subst e
  obtain ⟨-, h2⟩ := flattenCases_carries cs [] ws h1
  obtain ⟨ks', h3, h4⟩ := h2 i l t r hc ht
  rw [hk] at h3
  injection h3 with h3
  subst h3
  obtain ⟨w, h5, h6⟩ := h4.get j k hj
  refine ⟨w, h5, ?_⟩
  rintro x rfl
  refine ⟨coerce_kind x w h6, ?_⟩
  have hb : Iter.next ⟨[coerceTo x w], 0, []⟩ w = (.ok (coerceTo x w).val, ⟨[coerceTo x w], 1, []⟩) := by
    unfold Iter.next nextOn baseNext
    simp [coerce_kind x w h6]
  have := next_push (k := x.kind) (fts := []) hb
  unfold Iter.push at this
  rw [this, coerce_back x w h6]

/-- Every position of every case: the variant above joins f32 with u64, and f32 with nothing. -/
example : flatten exMixed.core = .ok [.u32, .u64, .f32] ∧ flatten (.record (.cons "0" .u64 (.cons "1" .f32 .nil))) =
    .ok [.u64, .f32] := by decide

/-! ## C22 -/

mutual
theorem laid_of_flatten : (t : Ty) → (ks : List Kind) → flatten t = .ok ks → Laid t
  | .bool, _, _ | .u8, _, _ | .s8, _, _ | .u16, _, _ | .s16, _, _ | .u32, _, _ | .s32, _, _ | .f32, _, _ | .char, _, _
  | .own _, _, _ | .borrow _, _, _ | .u64, _, _ | .s64, _, _ | .f64, _, _ | .string, _, _ | .list _, _, _
  | .flags _, _, _ => by simp [Laid]
  | .record fs, ks, h => by
    rw [flatten] at h
    simp only [Laid]; exact laidFields_of_flatten fs ks h
  | .variant cs, ks, h => by
    rw [flatten] at h
    obtain ⟨fl, h1, h2⟩ := Res.bind_eq_ok.1 h
    obtain ⟨d, h3, -⟩ := Res.bind_eq_ok.1 h2
    obtain ⟨h4, h5⟩ := discriminantType_ok _ _ h3
    simp only [Laid]
    exact ⟨h4, h5, laidCases_of_flatten cs [] fl h1⟩
  | .nil, _, h => by rw [flatten] at h; cases h
  | .other, _, h => by rw [flatten] at h; cases h
theorem laidFields_of_flatten : (fs : Fields) → (ks : List Kind) → flattenFields fs = .ok ks → LaidFields fs
  | .nil, _, _ => by simp [LaidFields]
  | .cons l t fs, ks, h => by
    rw [flattenFields] at h
    obtain ⟨a, h1, h2⟩ := Res.bind_eq_ok.1 h
    obtain ⟨b, h3, -⟩ := Res.bind_eq_ok.1 h2
    simp only [LaidFields]
    exact ⟨laid_of_flatten t a h1, laidFields_of_flatten fs b h3⟩
theorem laidCases_of_flatten : (cs : Cases) → (flat ks : List Kind) → flattenCases cs flat = .ok ks → LaidCases cs
  | .nil, _, _, _ => by simp [LaidCases]
  | .cons l t r cs, flat, ks, h => by
    rw [flattenCases] at h
    simp only [LaidCases]
    by_cases ht : t = .nil
    · rw [if_pos ht] at h
      exact ⟨.inl ht, laidCases_of_flatten cs flat ks h⟩
    · rw [if_neg ht] at h
      obtain ⟨a, h1, h2⟩ := Res.bind_eq_ok.1 h
      exact ⟨.inr (laid_of_flatten t a h1), laidCases_of_flatten cs _ ks h2⟩
end

/-- C22, for types without handles and with at most 64 flags, and values whose strings and lists fit a 32-bit memory.
If the allocator keeps its promises and `LowerFlat` succeeds, then `LiftFlat`, given the lowered values among any others,
returns the same value, reads exactly the lowered values and changes nothing. Missing: more than 64 flags
(`lower_flags_over_64`: false there); handles, where lowering and lifting move a resource between tables. -/
theorem lower_lift_partial (E : Env σ) (used : σ → Nat → Prop) (G : GoodAlloc E used) (henc : E.enc ∈ Spec.encodings)
    (t : VT) (v : Val) (hv : HasType t.core v) (hw : Wf t.core) (hp : Plain t.core) (hlf : ListsFit t.core v)
    (hsf : StringsFit E.enc t.core v) (s s' : St σ) (hg : s.mem.len < 2 ^ 32 ∧ s.mem.len ≤ s.mem.cap) (fs : List FV)
    (h : t.lower E v s = (.ok fs, s')) (before rest : List FV) :
    ∃ w, t.lift E ⟨s', itAt (before ++ fs ++ rest) before.length⟩ =
      (.ok w, ⟨s', itAt (before ++ fs ++ rest) (before.length + fs.length)⟩) ∧ Same t.core v w := by
  unfold VT.lower at h
  unfold VT.lift
  generalize t.core = t at *
  have hl := laid_of_flatten t _ (lower_kinds E t v s s' fs h)
  refine ⟨norm t v, ?_, same_norm t v hv hw⟩
  rcases lower_does G (R := fun _ => True) (fun _ _ _ _ => .inr trivial) henc t v hv hw hl hp hlf hsf s hg with
    ⟨fs', s2, e, w⟩ | ⟨e, -⟩
  · rw [h] at e
    injection e with e1 e
    injection e1 with e1
    subst e e1
    obtain ⟨F, -, hF⟩ := w.foot
    exact hF s' (Nat.le_refl _) w.step.good (fun _ _ => rfl) _ _ (feeds_base fs before rest)
  · rw [h] at e; exact absurd rfl (e fs)

/-- C22, success: under the same conditions, and if the type has a layout, `LowerFlat` does succeed unless the allocator
refused a request. -/
theorem lower_succeeds_partial (E : Env σ) (used : σ → Nat → Prop) (G : GoodAlloc E used) (refused : σ → Prop)
    (hr : ∀ a n m h, (∃ p, (E.realloc a n (m, h)).1 = .ok p) ∨ refused (E.realloc a n (m, h)).2.2)
    (henc : E.enc ∈ Spec.encodings)
    (t : VT) (v : Val) (hv : HasType t.core v) (hw : Wf t.core) (hl : Laid t.core) (hp : Plain t.core)
    (hlf : ListsFit t.core v) (hsf : StringsFit E.enc t.core v) (s : St σ)
    (hg : s.mem.len < 2 ^ 32 ∧ s.mem.len ≤ s.mem.cap) :
    (∃ fs, (t.lower E v s).1 = .ok fs) ∨ refused (t.lower E v s).2.heap := by
  unfold VT.lower
  rcases lower_does G hr henc t.core v hv hw hl hp hlf hsf s hg with ⟨fs, s2, e, -⟩ | ⟨-, r⟩
  · left; rw [e]; exact ⟨fs, rfl⟩
  · exact .inr r

/-- The example value of C19 meets the hypotheses of C22 too. -/
example : HasType exTy.core exVal ∧ Wf exTy.core ∧ Laid exTy.core ∧ Plain exTy.core ∧ ListsFit exTy.core exVal ∧
    StringsFit (bumpEnv "utf-8").enc exTy.core exVal ∧ (bumpEnv "utf-8").enc ∈ Spec.encodings ∧
    (exTy.lower (bumpEnv "utf-8") exVal bumpSt).1 =
      .ok [.u32 1, .u32 64, .u32 6, .u32 72, .u32 2, .u32 1, .u32 7, .u32 300, .u32 1] :=
  ⟨exHasType, exWf, exLaid.1, exLaid.2, exFits.1, exFits.2, by decide, by decide⟩

/-! ## C23, C24: chars and floats -/

/-- The next value, when there is one of that kind. -/
theorem next_at (vs : List FV) (i : Nat) (x : FV) (h : vs[i]? = some x) (s : St σ) :
    next x.kind (⟨s, itAt vs i⟩ : LSt σ) = (.ok x.val, ⟨s, itAt vs (i + 1)⟩) := by
  have h0 : vs.length ≠ 0 := by
    have := (List.getElem?_eq_some_iff.1 h).1
    omega
  unfold next Iter.next itAt nextOn baseNext
  simp only
  rw [if_neg h0, h]
  simp

theorem nextU32_at (vs : List FV) (i : Nat) (x : U32) (h : vs[i]? = some (.u32 x)) (s : St σ) :
    nextU32 (⟨s, itAt vs i⟩ : LSt σ) = (.ok x, ⟨s, itAt vs (i + 1)⟩) := by
  unfold nextU32
  rw [SM.bind_ok (show next .u32 _ = _ from next_at vs i (.u32 x) h s)]; rfl

/-- C23, lifting: a char is lifted from the word if it is a scalar value, otherwise there is an error. -/
theorem lift_char (E : Env σ) (vs : List FV) (i : Nat) (x : U32) (h : vs[i]? = some (.u32 x)) (s : St σ) :
    (IsScalar x → VT.char.lift E ⟨s, itAt vs i⟩ = (.ok (.s32 x), ⟨s, itAt vs (i + 1)⟩)) ∧
    (¬ IsScalar x → (VT.char.lift E ⟨s, itAt vs i⟩).1 = .err) := by
  have e : VT.char.lift E ⟨s, itAt vs i⟩ = (SM.lift (convertU32ToRune x) >>= fun r => pure (.s32 r))
      (⟨s, itAt vs (i + 1)⟩ : LSt σ) := by
    show liftFlat E .char _ = _
    rw [liftFlat, SM.bind_ok (nextU32_at vs i x h s)]
  rw [e, convert_iff]
  constructor
  · intro h; rw [if_pos h]; rfl
  · intro h; rw [if_neg h]; rfl

example : [FV.u32 5, .u32 0x1F600][1]? = some (.u32 0x1F600) ∧ IsScalar 0x1F600 := by decide

/-- C24, lifting: the float lifted is the canonical form of the bits given. -/
theorem lift_float (E : Env σ) (vs : List FV) (i : Nat) (s : St σ) (x : BitVec 32) (y : BitVec 64) :
    (vs[i]? = some (.f32 x) → VT.f32.lift E ⟨s, itAt vs i⟩ = (.ok (.f32 (canonical32 x)), ⟨s, itAt vs (i + 1)⟩)) ∧
    (vs[i]? = some (.f64 y) → VT.f64.lift E ⟨s, itAt vs i⟩ = (.ok (.f64 (canonical64 y)), ⟨s, itAt vs (i + 1)⟩)) := by
  constructor
  · intro h
    show liftFlat E .f32 _ = _
    have : nextF32 (⟨s, itAt vs i⟩ : LSt σ) = (.ok x, ⟨s, itAt vs (i + 1)⟩) := by
      unfold nextF32; rw [SM.bind_ok (show next .f32 _ = _ from next_at vs i (.f32 x) h s)]; rfl
    rw [liftFlat, SM.bind_ok this, canon32_eq]; rfl
  · intro h
    show liftFlat E .f64 _ = _
    have : nextF64 (⟨s, itAt vs i⟩ : LSt σ) = (.ok y, ⟨s, itAt vs (i + 1)⟩) := by
      unfold nextF64; rw [SM.bind_ok (show next .f64 _ = _ from next_at vs i (.f64 y) h s)]; rfl
    rw [liftFlat, SM.bind_ok this, canon64_eq]; rfl

/-- C24, lowering: the float lowered is the canonical form of the one given. -/
theorem lower_float (E : Env σ) (s : St σ) (x : BitVec 32) (y : BitVec 64) :
    VT.f32.lower E (.f32 x) s = (.ok [.f32 (canonical32 x)], s) ∧
    VT.f64.lower E (.f64 y) s = (.ok [.f64 (canonical64 y)], s) := by
  constructor
  · show lowerFlat E .f32 _ s = _
    unfold lowerFlat; rw [← canon32_eq]; rfl
  · show lowerFlat E .f64 _ s = _
    unfold lowerFlat; rw [← canon64_eq]; rfl

example : [FV.f32 0xFFC00001][0]? = some (.f32 0xFFC00001) ∧ canonical32 0xFFC00001 = 0x7FC00000 := by decide

/-! ## C65: narrow values -/

/-- C65, memory: a bool is true iff its byte is not zero. -/
theorem load_bool (E : Env σ) (ptr : U32) (s : St σ) (hg : s.mem.len < 2 ^ 32 ∧ s.mem.len ≤ s.mem.cap)
    (hle : ptr.toNat + 1 ≤ s.mem.len) :
    VT.bool.load E ptr s = (.ok (.bool (decide ((s.mem.data ptr.toNat).toNat ≠ 0))), s) := by
  have h := loadInt_ok .u8 1 rfl ptr s (by show _ + 1 < _; omega) (by show _ + 1 ≤ _; omega)
  have hx : leNat (s.mem.read ptr.toNat (1 : U32).toNat) = (s.mem.data ptr.toNat).toNat := by
    show leNat (s.mem.read ptr.toNat 1) = _
    rw [← natAt_eq, natAt, natAt]; omega
  rw [hx] at h
  show load E .bool ptr s = _
  rw [load]
  unfold loadBool
  rw [SM.bind_ok h]
  show (Res.ok (Val.bool (BitVec.ofNat 8 (s.mem.data ptr.toNat).toNat != 0)), s) = _
  rw [BitVec.ofNat_toNat, BitVec.setWidth_eq]
  congr 3
  by_cases hz : s.mem.data ptr.toNat = 0
  · rw [hz]; rfl
  · have : (s.mem.data ptr.toNat).toNat ≠ 0 := fun e => hz (BitVec.eq_of_toNat_eq e)
    rw [decide_eq_true this, bne_iff_ne.2 hz]

/-- C65, lifting: whatever word the guest gives. -/
theorem lift_narrow (E : Env σ) (vs : List FV) (i : Nat) (x : U32) (h : vs[i]? = some (.u32 x)) (s : St σ) :
    VT.bool.lift E ⟨s, itAt vs i⟩ = (.ok (.bool (decide (x.toNat ≠ 0))), ⟨s, itAt vs (i + 1)⟩) ∧
    VT.u8.lift E ⟨s, itAt vs i⟩ = (.ok (.u8 (BitVec.ofNat 8 (x.toNat % 2 ^ 8))), ⟨s, itAt vs (i + 1)⟩) ∧
    VT.u16.lift E ⟨s, itAt vs i⟩ = (.ok (.u16 (BitVec.ofNat 16 (x.toNat % 2 ^ 16))), ⟨s, itAt vs (i + 1)⟩) ∧
    VT.s8.lift E ⟨s, itAt vs i⟩ = (.ok (.s8 (BitVec.ofNat 8 (x.toNat % 2 ^ 8))), ⟨s, itAt vs (i + 1)⟩) ∧
    VT.s16.lift E ⟨s, itAt vs i⟩ = (.ok (.s16 (BitVec.ofNat 16 (x.toNat % 2 ^ 16))), ⟨s, itAt vs (i + 1)⟩) := by
  have e8 : x.setWidth 8 = BitVec.ofNat 8 (x.toNat % 2 ^ 8) := by
    apply BitVec.eq_of_toNat_eq; simp
  have e16 : x.setWidth 16 = BitVec.ofNat 16 (x.toNat % 2 ^ 16) := by
    apply BitVec.eq_of_toNat_eq; simp
  refine ⟨?_, ?_, ?_, ?_, ?_⟩
  · show liftFlat E .bool _ = _
    rw [liftFlat, SM.bind_ok (nextU32_at vs i x h s)]
    have : (x != 0) = decide (x.toNat ≠ 0) := by
      by_cases hz : x = 0
      · rw [hz]; rfl
      · have : x.toNat ≠ 0 := fun e => hz (BitVec.eq_of_toNat_eq e)
        rw [decide_eq_true this, bne_iff_ne.2 hz]
    rw [this]; rfl
  · show liftFlat E .u8 _ = _
    rw [liftFlat, SM.bind_ok (nextU32_at vs i x h s), e8]; rfl
  · show liftFlat E .u16 _ = _
    rw [liftFlat, SM.bind_ok (nextU32_at vs i x h s), e16]; rfl
  · show liftFlat E .s8 _ = _
    rw [liftFlat, SM.bind_ok (nextU32_at vs i x h s), e8]; rfl
  · show liftFlat E .s16 _ = _
    rw [liftFlat, SM.bind_ok (nextU32_at vs i x h s), e16]; rfl

/-- C65, lowering: the word is the value, modulo `2^32`. -/
theorem lower_narrow (E : Env σ) (s : St σ) (t : VT) (v : Val) (z : Int)
    (h : (t = .bool ∧ ((v = .bool true ∧ z = 1) ∨ (v = .bool false ∧ z = 0))) ∨
      (t.core ∈ [Ty.u8, .u16, .u32, .s8, .s16, .s32] ∧ HasType t.core v ∧ intValue v = some z)) :
    t.lower E v s = (.ok [.u32 (BitVec.ofInt 32 z)], s) := by
  show lowerFlat E t.core v s = _
  rcases h with ⟨rfl, h⟩ | ⟨h1, h2, h3⟩
  · rcases h with ⟨rfl, rfl⟩ | ⟨rfl, rfl⟩ <;> (show lowerFlat E .bool _ s = _; unfold lowerFlat; rfl)
  · generalize t.core = t at *
    simp only [List.mem_cons, List.not_mem_nil, or_false] at h1
    rcases h1 with rfl | rfl | rfl | rfl | rfl | rfl <;> simp only [HasType] at h2 <;> obtain ⟨x, rfl⟩ := h2 <;>
      simp only [intValue, Option.some.injEq] at h3 <;> subst h3 <;> unfold lowerFlat <;>
      simp only [SM.pure_def] <;> congr 4 <;> first
        | exact (BitVec.ofInt_toInt).symm
        | (rw [BitVec.ofInt_natCast]; apply BitVec.eq_of_toNat_eq; simp)

example : [FV.u32 0x80000100][0]? = some (.u32 0x80000100) ∧ (0x80000100 : U32).toNat % 2 ^ 8 = 0 ∧
    intValue (.s8 0xFF) = some (-1) ∧ BitVec.ofInt 32 (-1) = 0xFFFFFFFF := by decide

/-! ## C25: flags -/

theorem liftFlagWords_at (vs : List FV) : (n shift : Nat) → (i : Nat) → (x : U64) → (s : St σ) →
    (∀ j < n, ∃ w, vs[i + j]? = some (.u32 w)) →
    ∃ y, liftFlagWords n shift x (⟨s, itAt vs i⟩ : LSt σ) = (.ok y, ⟨s, itAt vs (i + n)⟩) ∧
      ∀ b < 64, y.getLsbD b = (x.getLsbD b || decide (∃ j < n, shift + 32 * j ≤ b ∧ b < shift + 32 * j + 32 ∧
        ∃ w, vs[i + j]? = some (.u32 w) ∧ w.getLsbD (b - (shift + 32 * j)) = true))
  | 0, shift, i, x, s, _ => ⟨x, rfl, by simp⟩
  | n + 1, shift, i, x, s, h => by
    obtain ⟨w, hw⟩ := h 0 (by omega)
    obtain ⟨y, e, hy⟩ := liftFlagWords_at vs n (shift + 32) (i + 1) (x ||| (w.setWidth 64 <<< shift)) s
      (fun j hj => by
        have := h (j + 1) (by omega)
        rwa [show i + (j + 1) = i + 1 + j by omega] at this)
    refine ⟨y, ?_, ?_⟩
    · rw [liftFlagWords, SM.bind_ok (nextU32_at vs i w hw s), e, show i + 1 + n = i + (n + 1) by omega]
    · intro b hb
      rw [hy b hb, BitVec.getLsbD_or, Bool.or_assoc]
      congr 1
      rw [Bool.eq_iff_iff, Bool.or_eq_true, decide_eq_true_iff, decide_eq_true_iff, BitVec.getLsbD_shiftLeft,
        BitVec.getLsbD_setWidth]
      simp only [hb, decide_true, Bool.true_and]
      constructor
      · rintro (h1 | ⟨j, hj, h1, h2, w', h3, h4⟩)
        · rw [Bool.and_eq_true, Bool.and_eq_true] at h1
          obtain ⟨h1, h2, h3⟩ := h1
          have hlt : b - shift < 32 := BitVec.lt_of_getLsbD h3
          simp at h1
          exact ⟨0, by omega, by omega, by omega, w, hw, by simpa using h3⟩
        · exact ⟨j + 1, by omega, by omega, by omega, w', by rwa [show i + (j + 1) = i + 1 + j by omega],
            by rwa [show shift + 32 * (j + 1) = shift + 32 + 32 * j by omega]⟩
      · rintro ⟨j, hj, h1, h2, w', h3, h4⟩
        rcases j with _ | j
        · left
          have h3' : vs[i]? = some (.u32 w') := h3
          have hw' : vs[i]? = some (.u32 w) := hw
          rw [hw'] at h3'
          injection h3' with h3'
          injection h3' with h3'
          subst h3'
          simp only [Nat.mul_zero, Nat.add_zero] at h1 h2 h4
          simp [h4, show ¬ b < shift by omega, show b - shift < 64 by omega]
        · right
          exact ⟨j, by omega, by omega, by omega, w', by rwa [show i + 1 + j = i + (j + 1) by omega],
            by rwa [show shift + 32 + 32 * j = shift + 32 * (j + 1) by omega]⟩

/-- C25, lifting, up to 64 labels: lifting flags from words gives exactly the labels of the type, label `b` the value of
bit `b % 32` of word `b / 32`. Missing: more than 64 labels, where the code is wrong, see `lift_flags_over_64`. -/
theorem lift_flags_partial (E : Env σ) (ls : List String) (hd : ls.Nodup) (hl : ls.length ≤ 64) (vs : List FV) (i : Nat)
    (words : Nat → U32) (hv : ∀ j < (ls.length + 31) / 32, vs[i + j]? = some (.u32 (words j))) (s : St σ) :
    ∃ m, (VT.flags ls).lift E ⟨s, itAt vs i⟩ = (.ok (.map m), ⟨s, itAt vs (i + (ls.length + 31) / 32)⟩) ∧
      m.map Prod.fst = ls ∧
      ∀ (b : Nat) l, ls[b]? = some l → mapGet m l = .bool ((words (b / 32)).getLsbD (b % 32)) := by
  have hw : (numI32Flags ls.length).toNat = (ls.length + 31) / 32 := by
    rw [numI32Flags, toNat_ofNat_lt (by omega)]
  obtain ⟨x, e, hx⟩ := liftFlagWords_at vs ((ls.length + 31) / 32) 0 i 0 s (fun j hj => ⟨_, hv j hj⟩)
  refine ⟨unpackFlagsOnto ls x [], ?_, by rw [unpack_keys ls x [] hd (by simp)]; rfl, ?_⟩
  · show liftFlat E (.flags ls) _ = _
    rw [liftFlat, hw, SM.bind_ok e]; rfl
  · intro b l hb
    have hb' := (List.getElem?_eq_some_iff.1 hb).1
    rw [unpack_get ls x [] hd b l hb, hx b (by omega)]
    congr 1
    rw [Bool.eq_iff_iff, Bool.or_eq_true, decide_eq_true_iff]
    constructor
    · rintro (h | ⟨j, hj, h1, h2, w, h3, h4⟩)
      · simp at h
      · rw [hv j hj] at h3
        injection h3 with h3
        injection h3 with h3
        subst h3
        obtain rfl : j = b / 32 := by omega
        rwa [show b % 32 = b - (0 + 32 * (b / 32)) by omega]
    · intro h
      right
      exact ⟨b / 32, by omega, by omega, by omega, _, hv _ (by omega),
        by rwa [show b - (0 + 32 * (b / 32)) = b % 32 by omega]⟩

/-- 33 labels in two words. -/
example : ((List.range 33).map toString).Nodup ∧ ((List.range 33).map toString).length ≤ 64 ∧
    (((List.range 33).map toString).length + 31) / 32 = 2 := by decide

/-- Where the code fails C25: with more than 64 labels, those from the 65th on are lost by lowering … -/
theorem lower_flags_over_64 (ls : List String) (m m' : List (String × Val)) (hm : ∀ l ∈ ls, ∃ b, mapGet m l = .bool b)
    (hm' : ∀ l ∈ ls, ∃ b, mapGet m' l = .bool b)
    (hs : ∀ (i : Nat) l, i < 64 → ls[i]? = some l → mapGet m' l = mapGet m l) (E : Env σ) (s : St σ) :
    (VT.flags ls).lower E (.map m) s = (VT.flags ls).lower E (.map m') s := by
  show lowerFlat E (.flags ls) _ s = lowerFlat E (.flags ls) _ s
  unfold lowerFlat lowerFlags
  simp only
  obtain ⟨x, hx, h1⟩ := packFlags_spec m ls 0 hm
  obtain ⟨y, hy, h2⟩ := packFlags_spec m' ls 0 hm'
  have : x = y := by
    apply BitVec.eq_of_getLsbD_eq
    intro j hj
    rw [Bool.eq_iff_iff, h1 j hj, h2 j hj]
    constructor
    · rintro ⟨g1, l, g2, g3⟩
      exact ⟨g1, l, g2, by rw [hs j l hj g2]; exact g3⟩
    · rintro ⟨g1, l, g2, g3⟩
      exact ⟨g1, l, g2, by rw [← hs j l hj g2]; exact g3⟩
  rw [hx, hy, this]

/-- … and false after lifting, whatever the words. -/
theorem lift_flags_over_64 (ls : List String) (hd : ls.Nodup) (E : Env σ) (s : St σ) (s' : LSt σ) (it : Iter) (v : Val)
    (h : (VT.flags ls).lift E ⟨s, it⟩ = (.ok v, s')) :
    ∃ m, v = .map m ∧ ∀ (b : Nat) l, 64 ≤ b → ls[b]? = some l → mapGet m l = .bool false := by
  have h' : liftFlat E (.flags ls) ⟨s, it⟩ = (.ok v, s') := h
  unfold liftFlat at h'
  obtain ⟨x, s1, h1, h2⟩ := SM.bind_eq_ok.1 h'
  obtain ⟨h3, -⟩ := pure_inv h2
  subst h3
  refine ⟨_, rfl, ?_⟩
  intro b l hb hl
  rw [unpack_get ls x [] hd b l hl, BitVec.getLsbD_of_ge _ _ hb]

/-- Seventy labels: one flag beyond the 64th is set, the other maps agree below; lifting three words gives a value. -/
example :
    let ls := (List.range 70).map toString
    let m := fun b => ls.map fun l => (l, Val.bool (l == "69" && b))
    ls.Nodup ∧ (ls.all fun l => match mapGet (m true) l, mapGet (m false) l with | .bool _, .bool _ => true | _, _ => false) ∧
      ((ls.take 64).all fun l => match mapGet (m true) l, mapGet (m false) l with | .bool a, .bool b => a == b | _, _ => false) ∧
      mapGet (m true) "69" matches .bool true ∧ mapGet (m false) "69" matches .bool false ∧
      (((VT.flags ls).lift (bumpEnv "utf-8") ⟨bumpSt, itAt [.u32 0, .u32 0, .u32 0x20] 0⟩).1 matches .ok _) := by
  decide +kernel

/-! ## C40: iterators -/

/-- `Next` asked for one kind after the other: the results in order. -/
def nexts (it : Iter) : List Kind → List (Res Val)
  | [] => []
  | k :: ks => (it.next k).1 :: nexts (it.next k).2 ks

/-- C40, up to the end of the list: the `i`-th call answers with the `i`-th value if it has the kind asked for, else
with an error. Missing: calls past the end of a list that is not empty, which panic, see `next_past_end`. -/
theorem nexts_in_order_partial (vs : List FV) (ks : List Kind) (h : ks.length ≤ vs.length) :
    nexts (newIterator vs) ks = List.zipWith (fun v k => if v.kind = k then .ok v.val else .err) vs ks := by
  have key : ∀ (rest before : List FV) (ks : List Kind), ks.length ≤ rest.length →
      nexts ⟨before ++ rest, before.length, []⟩ ks =
        List.zipWith (fun v k => if v.kind = k then .ok v.val else .err) rest ks := by
    intro rest
    induction rest with
    | nil =>
      intro before ks hk
      have : ks = [] := List.eq_nil_of_length_eq_zero (by simpa using hk)
      subst this
      simp [nexts]
    | cons v rest ih =>
      intro before ks hk
      rcases ks with _ | ⟨k, ks⟩
      · simp [nexts]
      · have h0 : (before ++ v :: rest).length ≠ 0 := by simp
        have hn : Iter.next ⟨before ++ v :: rest, before.length, []⟩ k =
            (if v.kind = k then .ok v.val else .err, ⟨before ++ [v] ++ rest, (before ++ [v]).length, []⟩) := by
          unfold Iter.next nextOn baseNext
          simp only
          rw [if_neg h0]
          by_cases e : v.kind = k <;> simp [e]
        rw [nexts, List.zipWith_cons_cons, hn, ih (before ++ [v]) ks (by simpa using hk)]
  exact key vs [] ks h

/-- On an empty list every call answers with an error. -/
theorem nexts_empty (ks : List Kind) : nexts (newIterator []) ks = ks.map fun _ => .err := by
  induction ks with
  | nil => rfl
  | cons k ks ih => rw [nexts, List.map_cons]; exact congrArg _ ih

/-- Where the code fails C40: past the end of a list that is not empty `Next` panics. -/
theorem next_past_end (vs : List FV) (hv : vs ≠ []) (i : Nat) (hi : vs.length ≤ i) (k : Kind) :
    (Iter.next (itAt vs i) k).1 = .panic := by
  have h0 : vs.length ≠ 0 := by simpa using hv
  unfold Iter.next itAt nextOn baseNext
  simp only
  rw [if_neg h0, List.getElem?_eq_none hi]

/-- The iterators lifting puts around another one answer with an error past the end of their flat types. -/
theorem coerce_past_end (vs : List FV) (i : Nat) (st : List (List Kind)) (k : Kind) :
    (Iter.next ⟨vs, i, [] :: st⟩ k).1 = .err := by
  unfold Iter.next nextOn
  rfl

/-- They do not check the kind asked for otherwise: asked for a `u64` where the flat type is `u32`, they give a `u32`. -/
theorem coerce_wrong_kind : (Iter.next ⟨[.u32 5], 0, [[.u32]]⟩ .u64).1 = .ok (.u32 5) := rfl

example : nexts (newIterator [.u32 1, .f32 2, .u64 3]) [.u32, .u64, .u64] = [.ok (.u32 1), .err, .ok (.u64 3)] := by
  rfl

end Verif.Abi
