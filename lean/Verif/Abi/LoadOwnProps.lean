import Verif.Abi.LoadOwn
import Verif.Abi.LoadProps

/-!
# C110: a value in memory is its own bytes and no others
-/

namespace Verif.Abi
open Spec

variable {σ : Type}

/-- C110. What `Load` returns from an aligned address inside a memory, it returns from every other memory that is at least
as large and has the same bytes where the value is, and does the same to the handle tables; padding, the bytes of cases
that are not selected and everything outside the value do not matter. -/
theorem load_own_bytes (E : Env σ) (t : VT) (hl : Laid t.core) (ptr : U32) (s s' : St σ)
    (hc : s.mem.len ≤ s.mem.cap) (hc' : s'.mem.len ≤ s'.mem.cap)
    (ha : align t.core ∣ ptr.toNat) (hb : ptr.toNat + Spec.size t.core ≤ s.mem.len)
    (hw : NoWrap E.enc s.mem t.core ptr.toNat)
    (hlen : s.mem.len ≤ s'.mem.len) (hs : s'.mem.len < 2 ^ 32) (hh : s'.world = s.world)
    (heq : ∀ a, Owns E.enc s.mem t.core ptr.toNat a → s'.mem.data a = s.mem.data a)
    (v : Val) (s1 : St σ) (h : t.load E ptr s = (.ok v, s1)) :
    t.load E ptr s' = (.ok v, { s' with world := s1.world }) := by
  unfold VT.load at h ⊢
  obtain ⟨w, rfl, e⟩ := load_follows E _ t.core hl ptr s s' ⟨hlen, heq, hs, hc, hc', hh⟩ ha hb hw (fun a h => h) v s1 h
  exact e

/-- C110, in place: a write to memory that touches no byte of the value leaves the value as it was. -/
theorem load_after_write (E : Env σ) (t : VT) (hl : Laid t.core) (ptr : U32) (s : St σ) (hs : s.mem.len < 2 ^ 32)
    (hc : s.mem.len ≤ s.mem.cap) (ha : align t.core ∣ ptr.toNat) (hb : ptr.toNat + Spec.size t.core ≤ s.mem.len)
    (hw : NoWrap E.enc s.mem t.core ptr.toNat) (v : Val) (s1 : St σ) (h : t.load E ptr s = (.ok v, s1))
    (p : Nat) (bs : List Byte) (hp : ∀ a, Owns E.enc s.mem t.core ptr.toNat a → a < p ∨ p + bs.length ≤ a) :
    (t.load E ptr { s with mem := s.mem.write p bs }).1 = .ok v := by
  have := load_own_bytes E t hl ptr s { s with mem := s.mem.write p bs } hc hc ha hb hw (Nat.le_refl _) hs rfl
    (fun a h => Mem.write_out _ _ _ _ (by have := hp a h; omega)) v s1 h
  rw [this]

/-- A record of a variant and a list of options. -/
def ownTy : VT := .record (.cons "v" (.variant (.cons "a" .u64 none (.cons "b" .u8 none .nil)))
  (.cons "l" (.list (.option .u16)) .nil))

/-- The case `b` of seven, and `some(5)`, `none`. -/
def ownMem : Mem := Mem.write ⟨fun _ => 0, 64, 64⟩ 0
  [1, 0, 0, 0, 0, 0, 0, 0, 7, 0, 0, 0, 0, 0, 0, 0, 32, 0, 0, 0, 2, 0, 0, 0, 0, 0, 0, 0, 0, 0, 0, 0, 1, 0, 5, 0, 0, 0, 0, 0]

/-- The same bytes where the value is, other bytes elsewhere, and more memory. -/
def ownMem' : Mem := ⟨fun a => if a ∈ [0, 8, 16, 17, 18, 19, 20, 21, 22, 23, 32, 34, 35, 36] then ownMem.data a else 0xEE, 80, 80⟩

theorem own_at (a : Nat) (h : Owns "utf-8" ownMem ownTy.core 0 a) :
    a ∈ [0, 8, 16, 17, 18, 19, 20, 21, 22, 23, 32, 34, 35, 36] := by
  have h0 : natAt ownMem 0 1 = 1 := by decide
  have h1 : natAt ownMem 16 4 = 32 := by decide
  have h2 : natAt ownMem 20 4 = 2 := by decide
  have h3 : natAt ownMem 32 1 = 1 := by decide
  have h4 : natAt ownMem 36 1 = 0 := by decide
  have e0 : alignUp 0 8 = 0 := by decide
  have e1 : alignUp 16 4 = 16 := by decide
  have e2 : alignUp 1 2 = 2 := by decide
  have e3 : alignUp 1 8 = 8 := by decide
  have e4 : alignUp 16 8 = 16 := by decide
  have e5 : alignUp 4 2 = 4 := by decide
  have hopt : ∀ p, natAt ownMem p 1 = 0 ∨ natAt ownMem p 1 = 1 → Owns "utf-8" ownMem (VT.option .u16).core p a →
      a = p ∨ (natAt ownMem p 1 = 1 ∧ (a = p + 2 ∨ a = p + 3)) := by
    intro p hp h
    simp only [VT.core, Owns, Cases.length, discBytes] at h
    rcases hp with hp | hp
    · simp [hp, OwnsCase] at h; omega
    · simp [hp, OwnsCase, Owns, payloadOffset, Cases.length, discBytes, alignCases, align, e2, Spec.size] at h
      omega
  simp [ownTy, VT.core, VFields.core, VCases.core, Owns, OwnsFields, OwnsCase, align, alignCases, Spec.size, sizeCases,
    Cases.length, discBytes, payloadOffset, e0, e1, e2, e3, e4, e5, h0, h1, h2] at h
  simp only [List.mem_cons, List.not_mem_nil, or_false]
  rcases h with (h | h) | h | ⟨i, hi, h⟩
  · omega
  · omega
  · omega
  · rcases Nat.lt_or_ge i 1 with g | g
    · have : i = 0 := by omega
      subst this
      have := hopt 32 (.inr h3) h
      omega
    · have : i = 1 := by omega
      subst this
      have := hopt 36 (.inl h4) h
      omega

/-- The hypotheses are met by the two memories, which agree in fourteen bytes only. -/
example : Laid ownTy.core ∧ align ownTy.core ∣ (0 : U32).toNat ∧ (0 : U32).toNat + Spec.size ownTy.core ≤ ownMem.len ∧
    NoWrap "utf-8" ownMem ownTy.core 0 ∧ (∀ a, Owns "utf-8" ownMem ownTy.core 0 a → ownMem'.data a = ownMem.data a) ∧
    (ownTy.load (bumpEnv "utf-8") 0 ⟨ownMem, 0, .init⟩).1 =
      .ok (.map [("v", .map [("b", .u8 7)]), ("l", .list [.map [("some", .u16 5)], .map [("none", .nil)]])]) ∧
    (ownTy.load (bumpEnv "utf-8") 0 ⟨ownMem', 0, .init⟩).1 =
      .ok (.map [("v", .map [("b", .u8 7)]), ("l", .list [.map [("some", .u16 5)], .map [("none", .nil)]])]) := by
  refine ⟨?_, by decide, by decide, ?_, fun a h => if_pos (own_at a h), rfl, rfl⟩
  · simp [ownTy, VT.core, VFields.core, VCases.core, Laid, LaidFields, LaidCases, Cases.length]
  · have h0 : natAt ownMem 16 4 = 32 := by decide
    have h1 : natAt ownMem 20 4 = 2 := by decide
    have e0 : alignUp (alignUp 0 8 + 16) 4 = 16 := by decide
    have h2 : natAt ownMem 0 1 = 1 := by decide
    have hopt : ∀ p, natAt ownMem p 1 = 0 ∨ natAt ownMem p 1 = 1 → NoWrap "utf-8" ownMem (VT.option .u16).core p := by
      rintro p (hp | hp) <;>
        simp [VT.core, NoWrap, NoWrapCase, Cases.length, discBytes, hp]
    have hi : ∀ i < 2, natAt ownMem (32 + i * Spec.size (VT.option .u16).core) 1 = 0 ∨
        natAt ownMem (32 + i * Spec.size (VT.option .u16).core) 1 = 1 := by decide
    have hsz : Spec.size (VT.option .u16).core = 4 := by decide
    show NoWrap "utf-8" ownMem (.variant _) _ ∧ NoWrap "utf-8" ownMem (.list _) (alignUp (alignUp 0 8 + 16) 4) ∧ True
    rw [e0, NoWrap, NoWrap, h0, h1]
    refine ⟨?_, ⟨?_, fun _ _ i hi' => hopt _ (hi i hi')⟩, trivial⟩
    · show NoWrapCase "utf-8" ownMem _ (natAt ownMem 0 1) _
      rw [h2]
      simp [VCases.core, VT.core, NoWrapCase, NoWrap]
    · show 32 + 2 * Spec.size (VT.option .u16).core < _
      rw [hsz]; decide

end Verif.Abi
