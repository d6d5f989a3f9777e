import Verif.Abi.SameLemmas
import Verif.Abi.Simulate
import Verif.Abi.Surface
import Verif.Handles.Spec

/-!
# Properties of `Store`: C11 (stores and loads), C19, C20, C21, C29, C62
-/

namespace Verif.Abi
open Spec

variable {σ : Type}

/-- `io.Store` on user types.
-- models abi/io/store.go:13-72, which expands specialised types (`Despecialize`) at every level -/
def VT.store (E : Env σ) (t : VT) : Val → U32 → SM (St σ) Unit := Abi.store E t.core
/-- `io.Load` on user types.
-- models abi/io/load.go:13-65, which expands specialised types (`Despecialize`) at every level -/
def VT.load (E : Env σ) (t : VT) : U32 → SM (St σ) Val := Abi.load E t.core

/-! ## An allocator for the examples -/

/-- A guest allocator that hands out one block after the other and never takes any back. Its state is the address of
the first free byte; it refuses when the memory is full. -/
def bumpAlloc (a n : U32) : Mem × Nat → Res U32 × (Mem × Nat) := fun (m, h) =>
  if a = 0 ∨ m.len < alignUp h a.toNat + n.toNat ∨ 2 ^ 32 ≤ m.len then (.err, (m, h))
  else (.ok (BitVec.ofNat 32 (alignUp h a.toNat)), (m, alignUp h a.toNat + n.toNat))

/-- A call context using it. -/
def bumpEnv (enc : String) : Env Nat :=
  ⟨enc, bumpAlloc, 0, 0, ⟨fun _ => none, fun _ => false⟩⟩

/-- 256 bytes of memory, the first 64 in use. -/
def bumpSt : St Nat := ⟨⟨fun _ => 0, 256, 256⟩, 64, Handles.World.init⟩

/-- It keeps its promises: what is below the first free byte is in use. -/
theorem bump_good (enc : String) : GoodAlloc (bumpEnv enc) (fun h x => x < h) := by
  have e : ∀ a n m h, (bumpEnv enc).realloc a n (m, h) = bumpAlloc a n (m, h) := fun _ _ _ _ => rfl
  refine ⟨?_, ?_, ?_⟩
  · intro a n m h x hx
    rw [e]
    simp only [bumpAlloc]
    split
    · exact ⟨hx, rfl⟩
    · rename_i hc
      rw [not_or] at hc
      have := le_alignUp (n := h) (a := a.toNat) (by
        rcases Nat.eq_zero_or_pos a.toNat with h0 | h0
        · exact absurd (BitVec.eq_of_toNat_eq h0) hc.1
        · exact h0)
      refine ⟨?_, rfl⟩
      simp only
      omega
  · intro a n m h h1 h2
    rw [e]
    simp only [bumpAlloc]
    split <;> exact ⟨Nat.le_refl _, h1, h2⟩
  · intro a n m h p m' h' he h1 h2
    rw [e] at he
    simp only [bumpAlloc] at he
    split at he
    · cases he
    · rename_i hc
      rw [not_or, not_or] at hc
      have hpos : 0 < a.toNat := by
        rcases Nat.eq_zero_or_pos a.toNat with h0 | h0
        · exact absurd (BitVec.eq_of_toNat_eq h0) hc.1
        · exact h0
      have hle := le_alignUp (n := h) hpos
      injection he with he1 he2
      injection he1 with he1
      injection he2 with he2 he3
      subst he1 he2 he3
      rw [toNat_ofNat_lt (by omega)]
      refine ⟨alignUp_dvd _ _, by omega, ?_⟩
      intro x hx1 hx2
      exact ⟨by omega, by omega⟩

/-! ## C11: where stores and loads of records go -/

/-- Store the fields one after the other, each at the address given for it. -/
def storeAt (E : Env σ) : Fields → List (String × Val) → List U32 → SM (St σ) Unit
  | .cons l t fs, m, p :: ps => do
    Abi.store E t (mapGet m l) p
    storeAt E fs m ps
  | _, _, _ => pure ()

/-- Load the fields one after the other, each from the address given for it. -/
def loadAt (E : Env σ) : Fields → List U32 → List (String × Val) → SM (St σ) Val
  | .cons l t fs, p :: ps, acc => do
    let v ← Abi.load E t p
    loadAt E fs ps (mapSet acc l v)
  | _, _, acc => pure (.map acc)

/-- C11, `Store`: the fields are stored at the addresses `fieldAddrs`, about which `record_fields_placed_partial` speaks. -/
theorem storeFields_addrs (E : Env σ) : (fs : Fields) → (m : List (String × Val)) → (ptr : U32) → (as : List U32) →
    fieldAddrs fs ptr = .ok as → storeFields E fs m ptr = storeAt E fs m as
  | .nil, m, ptr, as, h => by
    simp only [fieldAddrs, Res.ok.injEq] at h
    subst h; rw [storeFields]; rfl
  | .cons l t fs, m, ptr, as, h => by
    rw [fieldAddrs] at h
    obtain ⟨a, ha, h⟩ := Res.bind_eq_ok.1 h
    obtain ⟨z, hz, h⟩ := Res.bind_eq_ok.1 h
    obtain ⟨r, hr, h⟩ := Res.bind_eq_ok.1 h
    injection h with h
    subst h
    rw [storeFields, storeAt, ha]
    funext s
    rw [SM.bind_ok (SM.lift_def _ _)]
    rcases e : Abi.store E t (mapGet m l) (alignTo ptr a) s with ⟨o, s1⟩
    cases o with
    | ok u => rw [SM.bind_ok e, SM.bind_ok e, hz, SM.bind_ok (SM.lift_def _ _), storeFields_addrs E fs m _ r hr]
    | err => rw [SM.bind_err e, SM.bind_err e]
    | panic => rw [SM.bind_panic e, SM.bind_panic e]
    | diverge => rw [SM.bind_diverge e, SM.bind_diverge e]

/-- C11, `Load`. -/
theorem loadFields_addrs (E : Env σ) : (fs : Fields) → (ptr : U32) → (as : List U32) → (acc : List (String × Val)) →
    fieldAddrs fs ptr = .ok as → loadFields E fs ptr acc = loadAt E fs as acc
  | .nil, ptr, as, acc, h => by
    simp only [fieldAddrs, Res.ok.injEq] at h
    subst h; rw [loadFields]; rfl
  | .cons l t fs, ptr, as, acc, h => by
    rw [fieldAddrs] at h
    obtain ⟨a, ha, h⟩ := Res.bind_eq_ok.1 h
    obtain ⟨z, hz, h⟩ := Res.bind_eq_ok.1 h
    obtain ⟨r, hr, h⟩ := Res.bind_eq_ok.1 h
    injection h with h
    subst h
    rw [loadFields, loadAt, ha]
    funext s
    rw [SM.bind_ok (SM.lift_def _ _)]
    rcases e : Abi.load E t (alignTo ptr a) s with ⟨o, s1⟩
    cases o with
    | ok u => rw [SM.bind_ok e, SM.bind_ok e, hz, SM.bind_ok (SM.lift_def _ _), loadFields_addrs E fs _ r _ hr]
    | err => rw [SM.bind_err e, SM.bind_err e]
    | panic => rw [SM.bind_panic e, SM.bind_panic e]
    | diverge => rw [SM.bind_diverge e, SM.bind_diverge e]

/-- A record with padding at address 8. -/
example : fieldAddrs (.cons "a" .u8 (.cons "b" .u32 (.cons "c" .u16 .nil))) 8 = .ok [8, 12, 16] := by decide

/-! ## C19 -/

/-- C19, for values whose strings and lists fit a 32-bit memory and types with at most 64 flags. If the allocator keeps
its promises and `Store` succeeds at an aligned address inside the memory, in bytes the allocator will not hand out,
then `Load` from that address returns the same value and changes nothing. `Wf` holds the conditions on the type: labels
differ, `refines` does not go in circles, no more than 64 flags. Missing: more than 64 flags (`flags_over_64`: the
statement is false there), and lists of `2^32` bytes or more, whose length the code truncates. -/
theorem store_load_partial (E : Env σ) (used : σ → Nat → Prop) (G : GoodAlloc E used) (henc : E.enc ∈ Spec.encodings)
    (t : VT) (v : Val) (hv : HasType t.core v) (hw : Wf t.core) (hlf : ListsFit t.core v)
    (hsf : StringsFit E.enc t.core v) (ptr : U32) (s s' : St σ) (hg : s.mem.len < 2 ^ 32 ∧ s.mem.len ≤ s.mem.cap)
    (ha : align t.core ∣ ptr.toNat) (hle : ptr.toNat + Spec.size t.core ≤ s.mem.len)
    (hu : ∀ x, ptr.toNat ≤ x → x < ptr.toNat + Spec.size t.core → used s.heap x)
    (h : t.store E v ptr s = (.ok (), s')) :
    ∃ w, t.load E ptr s' = (.ok w, s') ∧ Same t.core v w := by
  unfold VT.store at h
  unfold VT.load
  generalize t.core = t at *
  by_cases hl : Laid t
  · refine ⟨norm t v, ?_, same_norm t v hv hw⟩
    rcases store_does G (R := fun _ => True) (fun _ _ _ _ => .inr trivial) henc t v hv hw hl (.inr fun _ => trivial)
      hlf hsf ptr s hg ha hle (fun x hx => hu x hx.1 hx.2) with ⟨u, s2, e, w⟩ | ⟨e, -⟩
    · rw [h] at e
      injection e with _ e
      subst e
      obtain ⟨F, -, hF⟩ := w.foot
      exact hF s' (Nat.le_refl _) w.step.good (fun _ _ => rfl)
    · rw [h] at e; exact absurd rfl (e ())
  · exfalso
    -- a type without layout is never stored
    have : ∃ m : Unit → SM (St σ) Unit, Abi.store E t v ptr = (storeValidate t ptr >>= m) := by
      cases t <;> first
        | exact ⟨_, store_bool E v ptr⟩ | exact ⟨_, store_char E v ptr⟩ | exact ⟨_, store_string E v ptr⟩
        | exact ⟨_, store_record E _ v ptr⟩ | exact ⟨_, by rw [Abi.store]⟩
    obtain ⟨m, e⟩ := this
    rw [e] at h
    obtain ⟨u, s1, h1, -⟩ := SM.bind_eq_ok.1 h
    exact hl (storeValidate_ok t ptr s s1 h1).2.1

/-- C19, success: under the same conditions, and if the type has a layout and no handles in it, `Store` does succeed
unless the allocator refused a request. -/
theorem store_succeeds_partial (E : Env σ) (used : σ → Nat → Prop) (G : GoodAlloc E used) (refused : σ → Prop)
    (hr : ∀ a n m h, (∃ p, (E.realloc a n (m, h)).1 = .ok p) ∨ refused (E.realloc a n (m, h)).2.2)
    (henc : E.enc ∈ Spec.encodings)
    (t : VT) (v : Val) (hv : HasType t.core v) (hw : Wf t.core) (hl : Laid t.core) (hp : Plain t.core)
    (hlf : ListsFit t.core v) (hsf : StringsFit E.enc t.core v) (ptr : U32) (s : St σ)
    (hg : s.mem.len < 2 ^ 32 ∧ s.mem.len ≤ s.mem.cap)
    (ha : align t.core ∣ ptr.toNat) (hle : ptr.toNat + Spec.size t.core ≤ s.mem.len)
    (hu : ∀ x, ptr.toNat ≤ x → x < ptr.toNat + Spec.size t.core → used s.heap x) :
    (t.store E v ptr s).1 = .ok () ∨ refused (t.store E v ptr s).2.heap := by
  unfold VT.store
  rcases store_does G hr henc t.core v hv hw hl (.inl hp) hlf hsf ptr s hg ha hle (fun x hx => hu x hx.1 hx.2) with
    ⟨u, s2, e, -⟩ | ⟨-, r⟩
  · left; rw [e]
  · exact .inr r

/-- The example for C19: an option of a record of a string, a list of floats and a variant whose second case refines
the first. -/
def exTy : VT := .option (.record (.cons "name" .string (.cons "xs" (.list .f32)
  (.cons "v" (.variant (.cons "base" .u8 none (.cons "more" (.tuple (.cons .u8 (.cons .u16 .nil))) (some "base") .nil)))
    (.cons "fl" (.flags ["r", "w"]) .nil)))))

/-- A value of it, with a NaN and a case given by its refinement label. -/
def exVal : Val := .map [("some", .map [("name", .str "héllo"), ("xs", .list [.f32 0x7F800001, .f32 0x3F800000]),
  ("v", .map [("more|base", .map [("0", .u8 7), ("1", .u16 300)])]),
  ("fl", .map [("r", .bool true), ("w", .bool false)])])]

theorem exSelects1 : Selects (.cons "none" .nil none (.cons "some" t none .nil)) "some" 1 :=
  ⟨[], "some", [], rfl, by decide, by simp, rfl, by
    intro j h
    match j, h with
    | 0, h => exact absurd h (by simp [Cases.labels])
    | 1, _ => exact Nat.le_refl _
    | j + 2, h => exact absurd h (by simp [Cases.labels])⟩

theorem exSelects2 : Selects (.cons "base" t none (.cons "more" u (some "base") .nil)) "more|base" 1 :=
  ⟨[], "more", ["base"], rfl, by decide, by simp, rfl, by
    intro j h
    match j, h with
    | 0, h => exact absurd h (by simp [Cases.labels])
    | 1, _ => exact Nat.le_refl _
    | j + 2, h => exact absurd h (by simp [Cases.labels])⟩

theorem exHasType : HasType exTy.core exVal := by
  simp only [exTy, exVal, VT.core, VFields.core, VCases.core, VTys.fields]
  rw [HasType]
  refine ⟨"some", _, 1, rfl, exSelects1, ?_⟩
  simp only [HasPayload, HasType, HasFields]
  refine .inr ⟨_, rfl, ⟨_, rfl⟩, ⟨_, rfl, ?_⟩, ⟨_, _, 1, rfl, exSelects2, ?_⟩, ⟨_, rfl, ?_⟩, trivial⟩
  · intro x hx
    simp only [List.mem_cons, List.not_mem_nil, or_false] at hx
    rcases hx with rfl | rfl <;> exact ⟨_, rfl⟩
  · simp only [HasPayload, HasType, HasFields]
    exact .inr ⟨_, rfl, ⟨_, rfl⟩, ⟨_, rfl⟩, trivial⟩
  · intro l hl
    simp only [List.mem_cons, List.not_mem_nil, or_false] at hl
    rcases hl with rfl | rfl <;> exact ⟨_, rfl⟩

theorem exWf : Wf exTy.core := by
  simp only [exTy, VT.core, VFields.core, VCases.core, VTys.fields, Wf, WfCases, WfFields]
  refine ⟨by decide, by decide, ?_, trivial, ⟨by decide, trivial, ⟨by simp [Laid], trivial⟩, ⟨by decide, by decide, ?_, trivial, ?_, trivial⟩, by decide, trivial⟩, trivial⟩
  · intro i l t r h
    match i, h with
    | 0, h => simp only [Cases.get?, Option.some.injEq, Prod.mk.injEq] at h; obtain ⟨rfl, -, rfl⟩ := h; exact ⟨_, .stop _⟩
    | 1, h => simp only [Cases.get?, Option.some.injEq, Prod.mk.injEq] at h; obtain ⟨rfl, -, rfl⟩ := h; exact ⟨_, .stop _⟩
    | i + 2, h => simp [Cases.get?] at h
  · intro i l t r h
    match i, h with
    | 0, h => simp only [Cases.get?, Option.some.injEq, Prod.mk.injEq] at h; obtain ⟨rfl, -, rfl⟩ := h; exact ⟨_, .stop _⟩
    | 1, h =>
      simp only [Cases.get?, Option.some.injEq, Prod.mk.injEq] at h
      obtain ⟨rfl, -, rfl⟩ := h
      exact ⟨_, .step _ _ 0 _ none _ rfl (fun _ _ => Nat.zero_le _) (.stop _)⟩
    | i + 2, h => simp [Cases.get?] at h
  · exact ⟨by decide, trivial, trivial, trivial⟩

theorem exFits : ListsFit exTy.core exVal ∧ StringsFit "utf-8" exTy.core exVal := by
  simp only [exTy, exVal, VT.core, VFields.core, VCases.core, VTys.fields]
  constructor
  · rw [ListsFit]
    intro key p i h hs
    injection h with h
    injection h with h
    injection h with h1 h2
    subst h1 h2
    obtain rfl := hs.unique exSelects1
    simp only [ListsFitPayload, ListsFit, ListsFitFields]
    intro m h
    injection h with h
    subst h
    refine ⟨trivial, ?_, ?_, trivial, trivial⟩
    · intro vs h
      have : vs = [.f32 0x7F800001, .f32 0x3F800000] := by
        have h' : Val.list [.f32 0x7F800001, .f32 0x3F800000] = .list vs := h
        injection h' with h'; exact h'.symm
      subst this
      exact ⟨by decide, by decide, fun _ _ => trivial⟩
    · intro key p i h hs
      have h' : Val.map [("more|base", .map [("0", .u8 7), ("1", .u16 300)])] = .map [(key, p)] := h
      injection h' with h'
      injection h' with h'
      injection h' with h1 h2
      subst h1 h2
      obtain rfl := hs.unique exSelects2
      simp only [ListsFitPayload, ListsFit, ListsFitFields]
      exact fun _ _ => ⟨trivial, trivial, trivial⟩
  · rw [StringsFit]
    intro key p i h hs
    injection h with h
    injection h with h
    injection h with h1 h2
    subst h1 h2
    obtain rfl := hs.unique exSelects1
    simp only [StringsFitPayload, StringsFit, StringsFitFields]
    intro m h
    injection h with h
    subst h
    refine ⟨?_, ?_, ?_, trivial, trivial⟩
    · intro s h
      have h' : Val.str "héllo" = .str s := h
      injection h' with h'
      subst h'
      exact ⟨by decide, fun h => absurd h (by decide)⟩
    · exact fun _ _ _ _ => trivial
    · intro key p i h hs
      have h' : Val.map [("more|base", .map [("0", .u8 7), ("1", .u16 300)])] = .map [(key, p)] := h
      injection h' with h'
      injection h' with h'
      injection h' with h1 h2
      subst h1 h2
      obtain rfl := hs.unique exSelects2
      simp only [StringsFitPayload, StringsFit, StringsFitFields]
      exact fun _ _ => ⟨trivial, trivial, trivial⟩

theorem exLaid : Laid exTy.core ∧ Plain exTy.core := by
  simp only [exTy, VT.core, VFields.core, VCases.core, VTys.fields, Laid, LaidCases, LaidFields, Plain, PlainCases,
    PlainFields, Cases.length]
  simp

/-- The hypotheses of C19 are met by this value at address 8 of a 256 byte memory whose first 64 bytes are in use. -/
example : HasType exTy.core exVal ∧ Wf exTy.core ∧ Laid exTy.core ∧ Plain exTy.core ∧ ListsFit exTy.core exVal ∧
    StringsFit (bumpEnv "utf-8").enc exTy.core exVal ∧ (bumpEnv "utf-8").enc ∈ Spec.encodings ∧
    align exTy.core ∣ (8 : U32).toNat ∧ (8 : U32).toNat + Spec.size exTy.core ≤ bumpSt.mem.len ∧
    Spec.size exTy.core + 8 ≤ bumpSt.heap ∧ ((exTy.store (bumpEnv "utf-8") exVal 8 bumpSt).1 = .ok ()) :=
  ⟨exHasType, exWf, exLaid.1, exLaid.2, exFits.1, exFits.2, by decide, by decide, by decide, by decide, by decide⟩

end Verif.Abi
