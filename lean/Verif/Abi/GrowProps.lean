import Verif.Abi.GrowLemmas
import Verif.Abi.ReceiveProps
import Verif.Abi.ClosedProps
import Verif.Abi.FullMemory

/-!
# C148: growing a guest's memory takes nothing away

`memory.grow` leaves the bytes of a memory as they are and adds bytes behind them. What succeeded before succeeds after it,
with the same result, as long as the memory stays below `2 ^ 32` bytes; at `2 ^ 32` bytes it does not (C96).
-/

namespace Verif.Abi
open Encoding Spec

variable {σ : Type}

/-- C148, `Load`. What can be read is read again, as the same value and with the same handles left, after the memory has
grown; the grown memory stays as it is. -/
theorem load_grown (E : Env σ) (t : VT) (ptr : U32) (s s1 : St σ) (v : Val) (m' : Mem) (hm : Grown s.mem m')
    (h : t.load E ptr s = (.ok v, s1)) : t.load E ptr { s with mem := m' } = (.ok v, { s1 with mem := m' }) := by
  have e : t.load E ptr { s with mem := m' } = (.ok v, (t.load E ptr { s with mem := m' }).2) ∧
      GrownSt s1 (t.load E ptr { s with mem := m' }).2 := by
    obtain ⟨u1, e, g⟩ := (load_up E t.core ptr).run s { s with mem := m' } ⟨hm, rfl, rfl⟩ v s1 h
    rw [show t.load E ptr _ = _ from e]
    exact ⟨rfl, g⟩
  have hr := load_reads_only E t ptr { s with mem := m' }
  rw [e.1]
  have h2 := e.2.heap
  have h3 := e.2.world
  generalize (t.load E ptr { s with mem := m' }).2 = u1 at *
  obtain ⟨a, b, c⟩ := u1
  cases h2
  cases h3
  cases hr.1
  rfl

/-- C148, `LiftFlat`. -/
theorem lift_grown (E : Env σ) (t : VT) (it : Iter) (s s1 : St σ) (it1 : Iter) (v : Val) (m' : Mem) (hm : Grown s.mem m')
    (h : t.lift E ⟨s, it⟩ = (.ok v, ⟨s1, it1⟩)) :
    t.lift E ⟨{ s with mem := m' }, it⟩ = (.ok v, ⟨{ s1 with mem := m' }, it1⟩) := by
  have e : t.lift E ⟨{ s with mem := m' }, it⟩ = (.ok v, (t.lift E ⟨{ s with mem := m' }, it⟩).2) ∧
      GrownLSt ⟨s1, it1⟩ (t.lift E ⟨{ s with mem := m' }, it⟩).2 := by
    obtain ⟨u1, e, g⟩ := (liftFlat_up E t.core).run ⟨s, it⟩ ⟨{ s with mem := m' }, it⟩ ⟨⟨hm, rfl, rfl⟩, rfl⟩ v _ h
    rw [show t.lift E _ = _ from e]
    exact ⟨rfl, g⟩
  have hr := lift_reads_only E t ⟨{ s with mem := m' }, it⟩
  rw [e.1]
  have h2 := e.2.st.heap
  have h3 := e.2.st.world
  have h4 := e.2.it
  generalize (t.lift E ⟨{ s with mem := m' }, it⟩).2 = u1 at *
  obtain ⟨⟨a, b, c⟩, d⟩ := u1
  cases h2
  cases h3
  cases h4
  cases hr.1
  rfl

/-- C148, `Store`. What can be stored is stored again after the memory has grown, and the bytes that were there before the
memory grew end up the same; so do the handles and what the allocator holds to be in use. -/
theorem store_grown (E : Env σ) (hE : Unharmed E) (t : VT) (v : Val) (ptr : U32) (s s1 : St σ) (m' : Mem) (hm : Grown s.mem m')
    (h : t.store E v ptr s = (.ok (), s1)) :
    ∃ m1', t.store E v ptr { s with mem := m' } = (.ok (), { s1 with mem := m1' }) ∧ Grown s1.mem m1' := by
  obtain ⟨⟨a, b, c⟩, e, g⟩ := (store_up E hE t.core v ptr).run s { s with mem := m' } ⟨hm, rfl, rfl⟩ () s1 h
  obtain ⟨g1, g2, g3⟩ := g
  cases g2
  cases g3
  exact ⟨a, e, g1⟩

/-- C148, `LowerFlat`: the same flat values, hence the same addresses. -/
theorem lower_grown (E : Env σ) (hE : Unharmed E) (t : VT) (v : Val) (s s1 : St σ) (fs : List FV) (m' : Mem)
    (hm : Grown s.mem m') (h : t.lower E v s = (.ok fs, s1)) :
    ∃ m1', t.lower E v { s with mem := m' } = (.ok fs, { s1 with mem := m1' }) ∧ Grown s1.mem m1' := by
  obtain ⟨⟨a, b, c⟩, e, g⟩ := (lowerFlat_up E hE t.core v).run s { s with mem := m' } ⟨hm, rfl, rfl⟩ fs s1 h
  obtain ⟨g1, g2, g3⟩ := g
  cases g2
  cases g3
  exact ⟨a, e, g1⟩

/-- A call to which more memory does no harm: the allocators of both sides, the function called and what is called after
it are such. -/
structure CallUnharmed (c : CompCall σ) : Prop where
  caller : Unharmed c.A.E
  called : Unharmed c.B.E
  code : ∀ fs, GoesOn GrownSys (c.f fs)
  post : ∀ p, c.B.post = some p → GoesOn GrownSys p

/-- C148, a call between components. If it succeeds, it succeeds with the same flat results after any of the memories have
grown, and leaves the same handles, flags and allocators, and the same bytes wherever there was room before. -/
theorem call_grown (c : CompCall σ) (hc : CallUnharmed c) (s u s1 : Sys σ) (fs : List Core) (h : GrownSys s u)
    (e : c.run s = (.ok fs, s1)) : ∃ u1, c.run u = (.ok fs, u1) ∧ GrownSys s1 u1 := by
  refine (canonLower_up c.A hc.caller c.ord _ (fun vs => (canonLift_up c.B hc.called c.ord' c.f hc.code ..).run)
    (fun vs s rs p u e => ?_) ..).run s u h fs s1 e
  have hp : p = postResult c.B := by
    unfold canonLift at e
    obtain ⟨_, _, -, e⟩ := SM.bind_eq_ok.1 e
    split at e
    · cases e
    split at e
    · cases e
    obtain ⟨_, _, -, e⟩ := SM.bind_eq_ok.1 e
    obtain ⟨_, _, -, e⟩ := SM.bind_eq_ok.1 e
    obtain ⟨_, _, -, e⟩ := SM.bind_eq_ok.1 e
    obtain ⟨_, _, -, e⟩ := SM.bind_eq_ok.1 e
    obtain ⟨r, _, -, e⟩ := SM.bind_eq_ok.1 e
    cases r with
    | none => cases e
    | some r =>
      obtain ⟨_, _, -, e⟩ := SM.bind_eq_ok.1 e
      obtain ⟨_, _, -, e⟩ := SM.bind_eq_ok.1 e
      cases e
      rfl
  rw [hp]
  exact (postResult_up c.B hc.post).run

/-- C148, any number of calls. -/
theorem calls_grown (cs : List (CompCall σ)) (hc : ∀ c ∈ cs, CallUnharmed c) (s u : Sys σ) (h : GrownSys s u)
    (hok : ∀ r ∈ (callAll cs s).1, ∃ fs, r = .ok fs) :
    (callAll cs u).1 = (callAll cs s).1 ∧ GrownSys (callAll cs s).2 (callAll cs u).2 := by
  induction cs generalizing s u with
  | nil => exact ⟨rfl, h⟩
  | cons c cs ih =>
    obtain ⟨fs, hfs⟩ := hok (c.run s).1 (by simp [callAll])
    obtain ⟨u1, e, g⟩ := call_grown c (hc c (by simp)) s u (c.run s).2 fs h (by rw [← hfs])
    have h2 := ih (fun c hc' => hc c (by simp [hc'])) (c.run s).2 u1 g fun r hr => hok r (by simp [callAll, hr])
    simp only [callAll, e, hfs]
    exact ⟨by rw [h2.1], h2.2⟩

/-! ## Where it stops -/

/-- **C148 ends at `2 ^ 32` bytes.** In a memory that has grown to its largest size no string can be read but the empty one,
whatever is in it, because the length is taken to be 0. -/
theorem full_memory_no_strings (E : Env σ) (ptr : U32) (s s1 : St σ) (v : Val) (hm : s.mem.len = 2 ^ 32)
    (h : VT.string.load E ptr s = (.ok v, s1)) : v = .str "" := by
  replace h : load E .string ptr s = (.ok v, s1) := h
  rw [load] at h
  obtain ⟨x, s2, h1, h2⟩ := SM.bind_eq_ok.1 h
  cases h2
  unfold loadString at h1
  obtain ⟨b, s3, hb, h1⟩ := SM.bind_eq_ok.1 h1
  obtain ⟨n, s4, hn, h1⟩ := SM.bind_eq_ok.1 h1
  have m4 : s4.mem = s.mem := by
    have e1 := (load_reads_only E .f32 ptr s).1
    have e2 := (load_reads_only E .f32 (ptr + 4) s3).1
    change (load E .f32 ptr s).2.mem = _ at e1
    change (load E .f32 (ptr + 4) s3).2.mem = _ at e2
    rw [load, loadFloat32, SM.bind_ok hb] at e1
    rw [load, loadFloat32, SM.bind_ok hn] at e2
    exact e2.trans e1
  unfold loadStringFromRange at h1
  obtain ⟨c, s5, hc, h1⟩ := SM.bind_eq_ok.1 h1
  simp only [SM.lift_def, Prod.mk.injEq] at hc
  obtain ⟨-, rfl⟩ := hc
  split at h1
  · cases h1
  rw [SM.bind_get] at h1
  split at h1
  · cases h1
  rename_i hle
  obtain ⟨_, s6, hs, h1⟩ := SM.bind_eq_ok.1 h1
  simp only [SM.lift_def, Prod.mk.injEq] at hs h1
  obtain ⟨hs, -⟩ := hs
  have hsl := slice_inv hs
  have hz : s4.mem.len32.toNat = 0 := by rw [m4, Mem.len32, hm]; decide
  have hd := decode_length _ _ _ h1.1
  generalize (toTagged n).codeUnits * BitVec.ofNat 32 c.runeSize = k at *
  rw [BitVec.toNat_add] at hsl hle
  have := b.isLt
  have := k.isLt
  have hk : k.toNat = 0 := by omega
  rw [hk] at hd
  have : x.length = 0 := by simpa [Mem.read] using hd
  rw [String.length_eq_zero_iff.1 this]

/-! ## Examples -/

theorem bump_unharmed (enc : String) : Unharmed (bumpEnv enc) := by
  intro a n m m' h p m1 h1 g e
  replace e : bumpAlloc a n (m, h) = (.ok p, (m1, h1)) := e
  show ∃ m1', bumpAlloc a n (m', h) = _ ∧ _
  have := g.len
  have := g.small
  unfold bumpAlloc at e ⊢
  simp only at e ⊢
  split at e
  · cases e
  · cases e
    rename_i hn
    rw [if_neg (by intro hh; apply hn; rcases hh with hh | hh | hh; exacts [.inl hh, .inr (.inl (by omega)), by omega])]
    exact ⟨_, rfl, g⟩

/-- The example memory, grown by a page of other bytes. -/
def grownMem : Mem := ⟨fun x => if x < 256 then 0 else 7, 65792, 65792⟩

theorem grown_example : Grown bumpSt.mem grownMem :=
  ⟨by decide, by decide, by decide, fun x hx => by
    show (if x < 256 then (0 : Byte) else 7) = 0
    rw [if_pos (show x < 256 from hx)]⟩

/-- A value with strings and lists is stored in 256 bytes, and so it is in a memory of 65792. -/
example : (exTy.store (bumpEnv "utf-8") exVal 8 bumpSt).1 = .ok () ∧
    (exTy.store (bumpEnv "utf-8") exVal 8 { bumpSt with mem := grownMem }).1 = .ok () := by
  have h : (exTy.store (bumpEnv "utf-8") exVal 8 bumpSt).1 = .ok () := by decide +kernel
  obtain ⟨m1', e, -⟩ := store_grown (bumpEnv "utf-8") (bump_unharmed _) exTy exVal 8 bumpSt _ grownMem grown_example
    (Prod.ext h rfl)
  exact ⟨h, by rw [e]⟩

/-- A store that succeeds in the grown memory and not in the small one: the converse is no part of the claim. -/
example : (VT.u32.store (bumpEnv "utf-8") (.u32 5) 256 bumpSt).1 = .err ∧
    (VT.u32.store (bumpEnv "utf-8") (.u32 5) 256 { bumpSt with mem := grownMem }).1 = .ok () := by
  constructor <;> rfl

/-- A function that gives back what it was given after writing in its memory. -/
def backFn (xs : List Core) : SM (Sys Nat) (Option (List Core)) := fun u =>
  (.ok (some (xs.drop 1)), { u with mems := Handles.upd u.mems 1 ((u.mems 1).write 200 [9]) })

/-- A call of it. -/
def backCall : CompCall Nat := { echoCall with f := backFn }

theorem backCall_unharmed : CallUnharmed backCall :=
  ⟨bump_unharmed "utf-8", bump_unharmed "utf-16", fun fs s u h a s1 e => by
    unfold backCall backFn at e ⊢
    cases e
    refine ⟨_, rfl, fun k => ?_, h.heaps, h.world⟩
    simp only [Handles.upd]
    split
    · exact grown_write (h.mems 1) _ _
    · exact h.mems k, fun p hp => by cases hp⟩

/-- Two calls that succeed, and go on succeeding when the called side's memory has grown. -/
example : ((callAll [backCall, backCall] callSys).1 matches [.ok _, .ok _]) ∧
    (∀ m', Grown (callSys.mems 1) m' → GrownSys callSys { callSys with mems := Handles.upd callSys.mems 1 m' }) ∧
    ∃ m', Grown (callSys.mems 1) m' ∧ (callSys.mems 1).len < m'.len := by
  refine ⟨by decide +kernel, fun m' hm => ⟨fun k => ?_, rfl, rfl⟩,
    ⟨(callSys.mems 1).data, 65792, 65792⟩, ⟨by decide, by decide, by decide, fun _ _ => rfl⟩, by decide⟩
  simp only [Handles.upd]
  split
  · exact hm
  · exact ⟨Nat.le_refl _, Nat.le_refl _, by show 256 < _; decide, fun _ _ => rfl⟩

/-- The empty string can be read in a memory of `2 ^ 32` bytes. -/
example : (⟨fun _ => 0, 2 ^ 32, 2 ^ 32⟩ : Mem).len = 2 ^ 32 ∧
    (VT.string.load (bumpEnv "utf-8") 8 { bumpSt with mem := ⟨fun _ => 0, 2 ^ 32, 2 ^ 32⟩ }).1 = .ok (.str "") := by
  constructor
  · rfl
  · rfl

end Verif.Abi
