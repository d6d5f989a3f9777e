import Verif.Abi.SameUnique
import Verif.Abi.FlatProps

/-!
# C106, C107: what is received is a value of the type, and is passed on exactly
-/

namespace Verif.Abi
open Spec

variable {σ τ : Type}

/-! ## C106 -/

/-- C106, `Load`: whatever the memory holds, wherever it is read, a value that comes back is a value of the type and in
canonical form. -/
theorem load_typed (E : Env σ) (t : VT) (hn : Named t.core) (ptr : U32) (s s' : St σ) (v : Val)
    (h : t.load E ptr s = (.ok v, s')) : HasType t.core v ∧ Same t.core v v :=
  load_canonical t.core hn ptr s v s' h

/-- C106, `LiftFlat`: whatever the flat values and the memory are. -/
theorem lift_typed (E : Env σ) (t : VT) (hn : Named t.core) (s s' : LSt σ) (v : Val)
    (h : t.lift E s = (.ok v, s')) : HasType t.core v ∧ Same t.core v v :=
  liftFlat_canonical t.core hn s v s' h

/-- C106: there is only one canonical form. Two canonical values which are the same value are equal. -/
theorem canonical_unique (t : VT) (hn : Named t.core) (u v w : Val) (h1 : Same t.core u v) (h2 : Same t.core u w) : v = w :=
  same_unique t.core hn u v w h1 h2

/-- The labels have to differ: with a label repeated, the later field takes the place of the earlier one, and what `Load`
returns, if it returns anything, is not a value of the type. -/
theorem repeated_label_untyped (E : Env σ) (l : String) (ptr : U32) (s s' : St σ) (v : Val)
    (h : (VT.record (.cons l .u8 (.cons l .u16 .nil))).load E ptr s = (.ok v, s')) :
    ¬ HasType (VT.record (.cons l .u8 (.cons l .u16 .nil))).core v := by
  simp only [VT.load, VT.core, VFields.core] at h ⊢
  rw [load, loadFields] at h
  obtain ⟨a, s1, h1, g1⟩ := SM.bind_eq_ok.1 h
  obtain ⟨x, s2, h2, g2⟩ := SM.bind_eq_ok.1 g1
  obtain ⟨z, s3, h3, g3⟩ := SM.bind_eq_ok.1 g2
  rw [loadFields] at g3
  obtain ⟨a', s4, h4, g4⟩ := SM.bind_eq_ok.1 g3
  obtain ⟨x', s5, h5, g5⟩ := SM.bind_eq_ok.1 g4
  obtain ⟨z', s6, h6, g6⟩ := SM.bind_eq_ok.1 g5
  rw [loadFields] at g6
  cases g6
  have hx := (load_canonical .u16 (by simp [Named]) _ _ _ _ h5).1
  rw [HasType] at hx
  obtain ⟨y, rfl⟩ := hx
  rw [HasType]
  rintro ⟨m, hm, hf⟩
  injection hm with hm
  subst hm
  rw [HasFields, mapGet_mapSet, HasType] at hf
  obtain ⟨⟨_, e⟩, -⟩ := hf
  cases e

/-- The type of the C19 example is one of those C106 speaks of, and its value is loaded from a memory that holds it. -/
example : Named exTy.core ∧ (∃ v s', exTy.load (bumpEnv "utf-8") 8 (exTy.store (bumpEnv "utf-8") exVal 8 bumpSt).2 =
    (.ok v, s')) ∧ (∃ v s', exTy.lift (bumpEnv "utf-8") ⟨(exTy.lower (bumpEnv "utf-8") exVal bumpSt).2,
      itAt [.u32 1, .u32 64, .u32 6, .u32 72, .u32 2, .u32 1, .u32 7, .u32 300, .u32 1] 0⟩ = (.ok v, s')) := by
  refine ⟨named_of_wf _ exWf, ⟨_, _, rfl⟩, ⟨_, _, rfl⟩⟩

/-- It is also returned from a memory nobody wrote a value into, as far as there is one: here all bytes are 0, except for
the discriminant 1 at address 8. -/
example : ∃ v s', exTy.load (bumpEnv "utf-8") 8 ⟨⟨fun a => if a = 8 then 1 else 0, 256, 256⟩, 64, Handles.World.init⟩ =
    (.ok v, s') := ⟨_, _, rfl⟩

/-- The record with the repeated label is loaded. -/
example : ∃ v s', (VT.record (.cons "a" .u8 (.cons "a" .u16 .nil))).load (bumpEnv "utf-8") 8 bumpSt = (.ok v, s') :=
  ⟨_, _, rfl⟩

/-! ## C107 -/

/-- `v` was received as a value of the type: `Load` or `LiftFlat` returned it, in some instance, in some state. -/
def Received (t : VT) (v : Val) : Prop :=
  ∃ (σ : Type) (E : Env σ), (∃ ptr s s', t.load E ptr s = (.ok v, s')) ∨ (∃ s s', t.lift E s = (.ok v, s'))

theorem received_canonical {t : VT} {v : Val} (hn : Named t.core) (h : Received t v) : Canonical t.core v := by
  obtain ⟨σ, E, ⟨ptr, s, s', h⟩ | ⟨s, s', h⟩⟩ := h
  · exact load_typed E t hn ptr s s' v h
  · exact lift_typed E t hn s s' v h

/-- C107, through memory: a value received from one instance and stored into the memory of another is loaded there as
exactly the value received. -/
theorem copy_exact (E : Env σ) (used : σ → Nat → Prop) (G : GoodAlloc E used) (henc : E.enc ∈ Spec.encodings)
    (t : VT) (v : Val) (hr : Received t v) (hw : Wf t.core) (hlf : ListsFit t.core v)
    (hsf : StringsFit E.enc t.core v) (ptr : U32) (s s' : St σ) (hg : s.mem.len < 2 ^ 32 ∧ s.mem.len ≤ s.mem.cap)
    (ha : align t.core ∣ ptr.toNat) (hle : ptr.toNat + Spec.size t.core ≤ s.mem.len)
    (hu : ∀ x, ptr.toNat ≤ x → x < ptr.toNat + Spec.size t.core → used s.heap x)
    (h : t.store E v ptr s = (.ok (), s')) : t.load E ptr s' = (.ok v, s') := by
  have hn := named_of_wf _ hw
  have hc := received_canonical hn hr
  obtain ⟨w, h1, h2⟩ := store_load_partial E used G henc t v hc.1 hw hlf hsf ptr s s' hg ha hle hu h
  rw [h1, same_unique t.core hn v w v h2 hc.2]

/-- C107, through flat values: passed on as an argument or result it is lifted as exactly the value received. -/
theorem forward_exact (E : Env σ) (used : σ → Nat → Prop) (G : GoodAlloc E used) (henc : E.enc ∈ Spec.encodings)
    (t : VT) (v : Val) (hr : Received t v) (hw : Wf t.core) (hp : Plain t.core) (hlf : ListsFit t.core v)
    (hsf : StringsFit E.enc t.core v) (s s' : St σ) (hg : s.mem.len < 2 ^ 32 ∧ s.mem.len ≤ s.mem.cap) (fs : List FV)
    (h : t.lower E v s = (.ok fs, s')) (before rest : List FV) :
    t.lift E ⟨s', itAt (before ++ fs ++ rest) before.length⟩ =
      (.ok v, ⟨s', itAt (before ++ fs ++ rest) (before.length + fs.length)⟩) := by
  have hn := named_of_wf _ hw
  have hc := received_canonical hn hr
  obtain ⟨w, h1, h2⟩ := lower_lift_partial E used G henc t v hc.1 hw hp hlf hsf s s' hg fs h before rest
  rw [h1, same_unique t.core hn v w v h2 hc.2]

/-- C107, it can be passed on: what was received is accepted by `Store` and `LowerFlat`, unless the allocator refuses a
request. -/
theorem received_sendable (E : Env σ) (used : σ → Nat → Prop) (G : GoodAlloc E used) (refused : σ → Prop)
    (hr : ∀ a n m h, (∃ p, (E.realloc a n (m, h)).1 = .ok p) ∨ refused (E.realloc a n (m, h)).2.2)
    (henc : E.enc ∈ Spec.encodings)
    (t : VT) (v : Val) (hv : Received t v) (hw : Wf t.core) (hl : Laid t.core) (hp : Plain t.core)
    (hlf : ListsFit t.core v) (hsf : StringsFit E.enc t.core v) (s : St σ)
    (hg : s.mem.len < 2 ^ 32 ∧ s.mem.len ≤ s.mem.cap) :
    ((∃ fs, (t.lower E v s).1 = .ok fs) ∨ refused (t.lower E v s).2.heap) ∧
    ∀ ptr : U32, align t.core ∣ ptr.toNat → ptr.toNat + Spec.size t.core ≤ s.mem.len →
      (∀ x, ptr.toNat ≤ x → x < ptr.toNat + Spec.size t.core → used s.heap x) →
      (t.store E v ptr s).1 = .ok () ∨ refused (t.store E v ptr s).2.heap := by
  have hc := received_canonical (named_of_wf _ hw) hv
  exact ⟨lower_succeeds_partial E used G refused hr henc t v hc.1 hw hl hp hlf hsf s hg,
    fun ptr ha hle hu => store_succeeds_partial E used G refused hr henc t v hc.1 hw hl hp hlf hsf ptr s hg ha hle hu⟩

/-- The type of the example: a name and some numbers. -/
def cpTy : VT := .record (.cons "name" .string (.cons "xs" (.list .f32) .nil))

/-- What is received. -/
def cpVal : Val := .map [("name", .str "hé"), ("xs", .list [.f32 0x7FC00000, .f32 0x3F800000])]

/-- The hypotheses of C107 are met: `cpVal` is what comes back from a memory in UTF-16 into which a value with another NaN
was stored, and it is stored at address 8 of a memory in UTF-8. -/
example : Received cpTy cpVal ∧ Wf cpTy.core ∧ Laid cpTy.core ∧ Plain cpTy.core ∧ ListsFit cpTy.core cpVal ∧
    StringsFit (bumpEnv "utf-8").enc cpTy.core cpVal ∧ (bumpEnv "utf-8").enc ∈ Spec.encodings ∧
    align cpTy.core ∣ (8 : U32).toNat ∧ (8 : U32).toNat + Spec.size cpTy.core ≤ bumpSt.mem.len ∧
    Spec.size cpTy.core + 8 ≤ bumpSt.heap ∧ (cpTy.store (bumpEnv "utf-8") cpVal 8 bumpSt).1 = .ok () ∧
    (cpTy.lower (bumpEnv "utf-8") cpVal bumpSt).1 = .ok [.u32 64, .u32 3, .u32 68, .u32 2] := by
  refine ⟨⟨Nat, bumpEnv "utf-16", .inl ⟨8, (cpTy.store (bumpEnv "utf-16") (.map [("name", .str "hé"),
    ("xs", .list [.f32 0x7F800001, .f32 0x3F800000])]) 8 bumpSt).2, _, rfl⟩⟩, ?_, ?_, ?_, ?_, ?_, by decide, by decide, by decide,
    by decide, by decide, by decide⟩
  · simp only [cpTy, VT.core, VFields.core, Wf, WfFields]
    exact ⟨by decide, trivial, ⟨by simp [Laid], trivial⟩, trivial⟩
  · simp [cpTy, VT.core, VFields.core, Laid, LaidFields]
  · simp [cpTy, VT.core, VFields.core, Plain, PlainFields]
  · simp only [cpTy, VT.core, VFields.core, ListsFit, ListsFitFields]
    intro m h
    injection h with h
    subst h
    refine ⟨trivial, fun vs h => ?_, trivial⟩
    have h' : Val.list [.f32 0x7FC00000, .f32 0x3F800000] = .list vs := h
    injection h' with h'
    subst h'
    exact ⟨by decide, by decide, fun _ _ => trivial⟩
  · simp only [cpTy, VT.core, VFields.core, StringsFit, StringsFitFields]
    intro m h
    injection h with h
    subst h
    refine ⟨fun s h => ?_, fun _ _ _ _ => trivial, trivial⟩
    have h' : Val.str "hé" = .str s := h
    injection h' with h'
    subst h'
    exact ⟨by decide, fun h => absurd h (by decide)⟩

end Verif.Abi
