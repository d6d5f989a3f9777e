import Verif.Abi.ReceivedFits
import Verif.Abi.TypedProps

/-!
# C129: what comes out of a memory fits into a memory
-/

namespace Verif.Abi
open Spec

variable {σ τ : Type}

/-- **C129, lists.** Whatever the memory holds, the lists in a value that `Load` returns have fewer than `2^32` elements,
which take up fewer than `2^32` bytes. -/
theorem loaded_lists_fit (E : Env σ) (t : VT) (hn : Named t.core) (ptr : U32) (s s' : St σ) (v : Val)
    (hr : Roomy s.mem.cap t.core) (h : t.load E ptr s = (.ok v, s')) : ListsFit t.core v :=
  (load_fits (Q := False) (enc := "") False.elim t.core hn hr ptr s v s' rfl h).1

/-- The same for `LiftFlat`. -/
theorem lifted_lists_fit (E : Env σ) (t : VT) (hn : Named t.core) (s s' : LSt σ) (v : Val)
    (hr : Roomy s.st.mem.cap t.core) (h : t.lift E s = (.ok v, s')) : ListsFit t.core v :=
  (liftFlat_fits (Q := False) (enc := "") False.elim t.core hn hr s v s' rfl h).1

theorem units_small {c : Nat} (hc : c < 2 ^ 29) (enc : String) (henc : enc ≠ "latin1") (x : String) (hx : x.length ≤ c) :
    codeUnits enc x < 2 ^ 31 ∧ (enc = "latin1" → ∀ a ∈ x.toList, a.toNat < 256) :=
  ⟨by have := codeUnits_le enc x; omega, fun h => absurd h henc⟩

/-- **C129, strings.** From a memory of less than 512 MiB, the strings in it can be written in UTF-8 and UTF-16, whatever
the encoding they were read in. -/
theorem loaded_strings_fit (E : Env σ) (t : VT) (hn : Named t.core) (ptr : U32) (s s' : St σ) (v : Val)
    (hr : Roomy s.mem.cap t.core) (hc : s.mem.cap < 2 ^ 29) (enc : String) (henc : enc ≠ "latin1")
    (h : t.load E ptr s = (.ok v, s')) : StringsFit enc t.core v :=
  (load_fits (Q := True) (fun _ => units_small hc enc henc) t.core hn hr ptr s v s' rfl h).2 trivial

/-- The same for `LiftFlat`. -/
theorem lifted_strings_fit (E : Env σ) (t : VT) (hn : Named t.core) (s s' : LSt σ) (v : Val)
    (hr : Roomy s.st.mem.cap t.core) (hc : s.st.mem.cap < 2 ^ 29) (enc : String) (henc : enc ≠ "latin1")
    (h : t.lift E s = (.ok v, s')) : StringsFit enc t.core v :=
  (liftFlat_fits (Q := True) (fun _ => units_small hc enc henc) t.core hn hr s v s' rfl h).2 trivial

/-- **C129, passed on through memory.** A value loaded from one memory, whatever that memory holds, is stored in another
unless the allocator there refuses a request, and is loaded again exactly as it was. -/
theorem relay_memory (E : Env σ) (t : VT) (hw : Wf t.core) (hl : Laid t.core) (hp : Plain t.core) (ptr : U32) (s s' : St σ)
    (v : Val) (hr : Roomy s.mem.cap t.core) (hc : s.mem.cap < 2 ^ 29) (h : t.load E ptr s = (.ok v, s'))
    (F : Env τ) (used : τ → Nat → Prop) (G : GoodAlloc F used) (refused : τ → Prop)
    (hR : ∀ a n m h, (∃ p, (F.realloc a n (m, h)).1 = .ok p) ∨ refused (F.realloc a n (m, h)).2.2)
    (henc : F.enc ∈ Spec.encodings) (hne : F.enc ≠ "latin1") (q : U32) (u : St τ)
    (hg : u.mem.len < 2 ^ 32 ∧ u.mem.len ≤ u.mem.cap) (ha : align t.core ∣ q.toNat)
    (hle : q.toNat + Spec.size t.core ≤ u.mem.len)
    (hu : ∀ x, q.toNat ≤ x → x < q.toNat + Spec.size t.core → used u.heap x) :
    (∃ u', t.store F v q u = (.ok (), u') ∧ t.load F q u' = (.ok v, u')) ∨ refused (t.store F v q u).2.heap := by
  have hn := named_of_wf _ hw
  have hv : Received t v := ⟨σ, E, .inl ⟨ptr, s, s', h⟩⟩
  have h1 := loaded_lists_fit E t hn ptr s s' v hr h
  have h2 := loaded_strings_fit E t hn ptr s s' v hr hc F.enc hne h
  rcases (received_sendable F used G refused hR henc t v hv hw hl hp h1 h2 u hg).2 q ha hle hu with e | e
  · left
    rcases es : t.store F v q u with ⟨r, u'⟩
    rw [es] at e
    obtain rfl : r = .ok () := e
    exact ⟨u', rfl, copy_exact F used G henc t v hv hw h1 h2 q u u' hg ha hle hu es⟩
  · exact .inr e

/-- **C129, passed on as an argument or result.** A value lifted in one instance is lowered in another unless the allocator
there refuses a request, and is lifted there exactly as it was. -/
theorem relay_flat (E : Env σ) (t : VT) (hw : Wf t.core) (hl : Laid t.core) (hp : Plain t.core) (s s' : LSt σ)
    (v : Val) (hr : Roomy s.st.mem.cap t.core) (hc : s.st.mem.cap < 2 ^ 29) (h : t.lift E s = (.ok v, s'))
    (F : Env τ) (used : τ → Nat → Prop) (G : GoodAlloc F used) (refused : τ → Prop)
    (hR : ∀ a n m h, (∃ p, (F.realloc a n (m, h)).1 = .ok p) ∨ refused (F.realloc a n (m, h)).2.2)
    (henc : F.enc ∈ Spec.encodings) (hne : F.enc ≠ "latin1") (u : St τ)
    (hg : u.mem.len < 2 ^ 32 ∧ u.mem.len ≤ u.mem.cap) :
    (∃ fs u', t.lower F v u = (.ok fs, u') ∧ ∀ before rest, t.lift F ⟨u', itAt (before ++ fs ++ rest) before.length⟩ =
      (.ok v, ⟨u', itAt (before ++ fs ++ rest) (before.length + fs.length)⟩)) ∨ refused (t.lower F v u).2.heap := by
  have hn := named_of_wf _ hw
  have hv : Received t v := ⟨σ, E, .inr ⟨s, s', h⟩⟩
  have h1 := lifted_lists_fit E t hn s s' v hr h
  have h2 := lifted_strings_fit E t hn s s' v hr hc F.enc hne h
  rcases (received_sendable F used G refused hR henc t v hv hw hl hp h1 h2 u hg).1 with ⟨fs, e⟩ | e
  · left
    rcases es : t.lower F v u with ⟨r, u'⟩
    rw [es] at e
    obtain rfl : r = .ok fs := e
    exact ⟨fs, u', rfl, fun before rest => forward_exact F used G henc t v hv hw hp h1 h2 u u' hg fs es before rest⟩
  · exact .inr e

/-! ## Examples -/

/-- The memory is not one a value was stored in: every byte is 1 but for the words at 8 to 23, which say where a string of
three bytes and two numbers are. -/
def strayMem : Mem := ⟨fun a => if a = 8 then 200 else if a = 12 then 3 else if a = 16 then 100 else if a = 20 then 2
  else if 8 ≤ a ∧ a < 24 then 0 else 1, 256, 256⟩

/-- The hypotheses are met, by a memory that holds what nobody stored. -/
example : Wf cpTy.core ∧ Laid cpTy.core ∧ Plain cpTy.core ∧ Roomy strayMem.cap cpTy.core ∧ strayMem.cap < 2 ^ 29 ∧
    (∃ v s', cpTy.load (bumpEnv "utf-8") 8 ⟨strayMem, 64, Handles.World.init⟩ = (.ok v, s') ∧
      (cpTy.store (bumpEnv "utf-16") v 8 bumpSt).1 = .ok ()) ∧
    (∃ v s', cpTy.lift (bumpEnv "utf-8") ⟨⟨strayMem, 64, Handles.World.init⟩, itAt [.u32 200, .u32 3, .u32 100, .u32 2] 0⟩ =
      (.ok v, s')) := by
  refine ⟨?_, ?_, ?_, ?_, by decide, ⟨_, _, rfl, by decide⟩, ⟨_, _, rfl⟩⟩
  · simp only [cpTy, VT.core, VFields.core, Wf, WfFields]
    exact ⟨by decide, trivial, ⟨by simp [Laid], trivial⟩, trivial⟩
  · simp [cpTy, VT.core, VFields.core, Laid, LaidFields]
  · simp [cpTy, VT.core, VFields.core, Plain, PlainFields]
  · simp only [cpTy, VT.core, VFields.core, Roomy, RoomyFields]
    exact ⟨trivial, ⟨by decide, trivial⟩, trivial⟩

end Verif.Abi
