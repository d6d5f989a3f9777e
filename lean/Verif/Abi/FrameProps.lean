import Verif.Abi.StoreProps

/-!
# What `Store` may touch, and what it refuses: C20, C21, C29, C62
-/

namespace Verif.Abi
open Spec

variable {σ : Type}

/-! ## C20 -/

/-- One call of the guest allocator: what it was asked, the memory before and after, and its answer. -/
structure AllocCall where
  size : U32
  before : Mem
  answer : Res U32
  after : Mem

/-- The same environment, with a log of the allocator calls. -/
def Env.logged (E : Env σ) : Env (σ × List AllocCall) where
  enc := E.enc
  realloc a n := fun (m, (h, log)) =>
    ((E.realloc a n (m, h)).1, ((E.realloc a n (m, h)).2.1, ((E.realloc a n (m, h)).2.2,
      log ++ [⟨n, m, (E.realloc a n (m, h)).1, (E.realloc a n (m, h)).2.1⟩])))
  inst := E.inst
  cx := E.cx
  info := E.info

/-- The same state, with an empty log. -/
def St.logged (s : St σ) : St (σ × List AllocCall) := ⟨s.mem, (s.heap, []), s.world⟩

/-- C20, for types of less than `2^32` bytes and lists that fit a 32-bit memory. Watch the allocator with a log, which
changes nothing (first line). Then a byte outside the destination, outside every block handed out during the call and
not changed by the allocator itself is as before, whether or not `Store` succeeded. Missing: lists of `2^32` bytes or
more, for which the statement is false (`list_overflow_escapes`). -/
theorem store_frame_partial (E : Env σ) (t : VT) (v : Val) (hf : ListsFit t.core v) (hs : Spec.size t.core < 2 ^ 32)
    (ptr : U32) (s : St σ) :
    ((t.store E.logged v ptr s.logged).1 = (t.store E v ptr s).1 ∧
      (t.store E.logged v ptr s.logged).2.mem = (t.store E v ptr s).2.mem ∧
      (t.store E.logged v ptr s.logged).2.heap.1 = (t.store E v ptr s).2.heap) ∧
    ∀ x, ¬ InBlock ptr (Spec.size t.core) x →
      (∀ c ∈ (t.store E.logged v ptr s.logged).2.heap.2, c.after.data x = c.before.data x ∧
        ∀ p, c.answer = .ok p → ¬ InBlock p c.size.toNat x) →
      (t.store E v ptr s).2.mem.data x = s.mem.data x := by
  unfold VT.store
  generalize t.core = t at *
  have S : Sim E.logged E (fun h k => h.1 = k) := ⟨rfl, by
    intro a n m h k e
    subst e
    exact ⟨rfl, rfl, rfl⟩⟩
  obtain ⟨e1, e2, e3, -⟩ := store_agree S t v ptr s.logged s ⟨rfl, rfl, rfl⟩
  refine ⟨⟨e1, e2, e3⟩, ?_⟩
  intro x hx hc
  rw [← e2]
  -- the invariant: if nothing in the log touches `x`, then `x` is as at the start
  let Q : List AllocCall → Prop := fun log => ∀ c ∈ log, c.after.data x = c.before.data x ∧
        ∀ p, c.answer = .ok p → ¬ InBlock p c.size.toNat x
  have V : Inv E.logged (fun m h => Q h.2 → m.data x = s.mem.data x) (fun h y => Q h.2 → y ≠ x) := by
    refine ⟨?_, ?_⟩
    · intro m h p bs hi ha hq
      rw [Mem.write_out _ _ _ _ (fun ⟨c1, c2⟩ => ha x c1 c2 hq rfl), hi hq]
    · intro a n m h hi
      refine ⟨?_, ?_, ?_⟩
      · intro hq
        have hq' : Q h.2 := fun c hc => hq c (List.mem_append_left _ hc)
        have := (hq _ (List.mem_append_right _ (List.mem_singleton.2 rfl))).1
        rw [← hi hq']
        exact this
      · intro y hy hq
        exact hy (fun c hc => hq c (List.mem_append_left _ hc))
      · intro p hp y hy hq e
        subst e
        exact (hq _ (List.mem_append_right _ (List.mem_singleton.2 rfl))).2 p hp hy
  have := (store_inv V t v hf ptr s.logged hs (by
    intro y hy _ e
    subst e
    exact hx hy) (fun _ => rfl)).1
  exact this hc

/-- The hypotheses are met by the value of `exTy`; the store allocates for its string and its list. -/
example : ListsFit exTy.core exVal ∧ Spec.size exTy.core < 2 ^ 32 ∧
    (exTy.store (bumpEnv "utf-8").logged exVal 8 bumpSt.logged).2.heap.2.length = 2 :=
  ⟨exFits.1, by decide, by decide⟩

/-- An allocator that always answers 8. -/
def eightEnv : Env Unit := ⟨"utf-8", fun _ _ s => (.ok 8, s), 0, 0, ⟨fun _ => none, fun _ => false⟩⟩

theorem storeElems_two {f : Val → U32 → SM (St σ) Unit} {ptr sz : U32} {v w : Val} {vs : List Val} {s s1 s2 : St σ}
    (h1 : f v (ptr + BitVec.ofNat 32 0 * sz) s = (.ok (), s1))
    (h2 : f w (ptr + BitVec.ofNat 32 (0 + 1) * sz) s1 = (.err, s2)) :
    storeElems f ptr sz (v :: w :: vs) 0 s = (.err, s2) := by
  rw [storeElems, SM.bind_ok h1, storeElems, SM.bind_err h2]

/-- Where the code fails C20: a list of `2^29` 8-byte elements asks the allocator for a block of `2^32 mod 2^32 = 0`
bytes and writes its elements over whatever is there. Here address 8 is neither in the destination nor in a block. -/
theorem list_overflow_escapes :
    let v : Val := .list (.u64 1 :: .u64 1 :: List.replicate (2 ^ 29 - 2) (.u64 1))
    let s : St Unit := ⟨⟨fun _ => 0, 16, 16⟩, (), Handles.World.init⟩
    let g := (VT.list .u64).store eightEnv.logged v 0 s.logged
    ¬ InBlock 0 (Spec.size (VT.list .u64).core) 8 ∧
    (∀ c ∈ g.2.heap.2, c.after.data 8 = c.before.data 8 ∧ ∀ p, c.answer = .ok p → ¬ InBlock p c.size.toNat 8) ∧
    g.2.mem.data 8 = 1 ∧ s.mem.data 8 = 0 := by
  intro v s g
  let log : List AllocCall := [⟨0, s.mem, .ok 8, s.mem⟩]
  let s1 : St (Unit × List AllocCall) := ⟨s.mem.write 8 (leBytes 8 1), ((), log), s.world⟩
  have hlen : BitVec.ofNat 32 ((.u64 1 :: .u64 1 :: List.replicate (2 ^ 29 - 2) (.u64 1) : List Val).length *
      (8 : U32).toNat) = 0 := by
    rw [List.length_cons, List.length_cons, List.length_replicate]
    decide
  have hg : g = (.err, s1) := by
    show Abi.store eightEnv.logged (.list .u64) v 0 s.logged = _
    have h0 : storeValidate (.list .u64) 0 s.logged = (.ok (), s.logged) := by rfl
    rw [Abi.store, SM.bind_ok h0]
    unfold storeList
    apply SM.bind_err
    unfold storeListIntoRange
    have hz : (SM.lift (Abi.size .u64) : SM (St (Unit × List AllocCall)) U32) s.logged = (.ok 8, s.logged) := rfl
    simp only [v]
    rw [SM.bind_ok hz]
    have ha : (SM.lift (Abi.alignment .u64) : SM (St (Unit × List AllocCall)) U32) s.logged = (.ok 8, s.logged) := rfl
    rw [SM.bind_ok ha, hlen]
    have hal : alloc eightEnv.logged 8 0 s.logged = (.ok 8, ⟨s.mem, ((), log), s.world⟩) := rfl
    rw [SM.bind_ok hal, SM.ite_app, if_neg (by decide), SM.bind_get, SM.ite_app, if_neg (by decide)]
    apply SM.bind_err
    apply storeElems_two (s1 := s1)
    · rfl
    · rfl
  rw [hg]
  refine ⟨?_, ?_, rfl, rfl⟩
  · rintro ⟨i, hi, e⟩
    have hi' : i < 8 := hi
    have e' : 8 = (0 + i) % 2 ^ 32 := e
    omega
  · intro c hc
    have hc' : c = ⟨0, s.mem, .ok 8, s.mem⟩ := List.mem_singleton.1 hc
    subst hc'
    refine ⟨rfl, ?_⟩
    rintro p - ⟨i, hi, -⟩
    exact absurd hi (Nat.not_lt_zero i)

/-! ## C21 -/

theorem store_validates (E : Env σ) (t : Ty) (v : Val) (ptr : U32) :
    ∃ m : Unit → SM (St σ) Unit, Abi.store E t v ptr = (storeValidate t ptr >>= m) := by
  cases t <;> first
    | exact ⟨_, store_bool E v ptr⟩ | exact ⟨_, store_char E v ptr⟩ | exact ⟨_, store_string E v ptr⟩
    | exact ⟨_, store_record E _ v ptr⟩ | exact ⟨_, by rw [Abi.store]⟩

/-- C21, as long as the end of the destination is below `2^32`: at an address that is not a multiple of the alignment,
or whose destination does not fit inside the memory, `Store` returns an error and changes nothing, whatever the value.
Missing: destinations reaching past `2^32`, for which the statement is false (`store_wrap_panics`). -/
theorem store_refuses_partial (E : Env σ) (t : VT) (v : Val) (ptr : U32) (s : St σ) (hl : Laid t.core)
    (hm : s.mem.len < 2 ^ 32) (hw : ptr.toNat + Spec.size t.core < 2 ^ 32)
    (h : ¬ align t.core ∣ ptr.toNat ∨ s.mem.len < ptr.toNat + Spec.size t.core) :
    t.store E v ptr s = (.err, s) := by
  unfold VT.store
  generalize t.core = t at *
  obtain ⟨m, e⟩ := store_validates E t v ptr
  rw [e]
  apply SM.bind_err
  unfold storeValidate
  have hal := ofNat_toNat_isAl (align_isAl t)
  rw [alignment_eq t hl, SM.bind_ok (SM.lift_def _ _), SM.ite_app]
  split
  · rfl
  · rename_i ha
    rw [Classical.not_not, alignTo_eq_iff _ _ (by rw [hal]; exact align_isAl t), hal] at ha
    rw [size_eq t hl (by omega), SM.bind_ok (SM.lift_def _ _), SM.bind_get, SM.ite_app, if_pos]
    · rfl
    · rw [BitVec.toNat_add, toNat_ofNat_lt (by omega), Mem.len32, toNat_ofNat_lt hm, Nat.mod_eq_of_lt hw]
      rcases h with h | h
      · exact absurd ha h
      · exact h

example : Laid exTy.core ∧ (12 : U32).toNat + Spec.size exTy.core < 2 ^ 32 ∧ ¬ 4 ∣ (13 : U32).toNat ∧
    bumpSt.mem.len < (248 : U32).toNat + Spec.size exTy.core := ⟨exLaid.1, by decide, by decide, by decide⟩

/-- A type without a layout is refused too. -/
theorem store_refuses_unlaid (E : Env σ) (t : VT) (v : Val) (ptr : U32) (s : St σ) (hl : ¬ Laid t.core) :
    (t.store E v ptr s).1 ≠ .ok () := by
  intro h
  unfold VT.store at h
  obtain ⟨m, e⟩ := store_validates E t.core v ptr
  have h' : Abi.store E t.core v ptr s = (.ok (), (Abi.store E t.core v ptr s).2) := by rw [← h]
  rw [e] at h'
  obtain ⟨u, s1, h1, -⟩ := SM.bind_eq_ok.1 h'
  exact hl (storeValidate_ok t.core ptr s s1 h1).2.1

example : ¬ Laid (VT.option .other).core := by simp [VT.core, Laid, LaidCases]

/-- Where the code fails C21: the check adds in 32 bits, so that the last word before `2^32` passes it, and the slice
expression panics. -/
theorem store_wrap_panics (E : Env σ) (x : U32) (s : St σ) :
    VT.u32.store E (.u32 x) 0xFFFFFFFC s = (.panic, s) ∧ align VT.u32.core ∣ (0xFFFFFFFC : U32).toNat := by
  refine ⟨?_, by decide⟩
  show Abi.store E .u32 (.u32 x) 0xFFFFFFFC s = _
  rw [Abi.store]
  have h : storeValidate .u32 0xFFFFFFFC s = (.ok (), s) := by
    unfold storeValidate
    rw [show alignment .u32 = .ok 4 from rfl, SM.bind_ok (SM.lift_def _ _), SM.ite_app, if_neg (by decide),
      show Abi.size .u32 = .ok 4 from rfl, SM.bind_ok (SM.lift_def _ _), SM.bind_get, SM.ite_app, if_neg]
    · rfl
    · have : ((0xFFFFFFFC : U32) + 4).toNat = 0 := by decide
      omega
  rw [SM.bind_ok h, storeInt_eq]
  simp only [intInfo, if_true]
  apply put_panic
  unfold Mem.slice
  rw [if_neg]
  rintro ⟨c, -⟩
  exact absurd c (by decide)

/-! ## C29 -/

mutual
/-- What `Store` checks about a value. Weaker than being of the type: an integer may be of the wrong width, and for an
unsigned type it may be no integer at all. -/
def Accepts : Ty → Val → Prop
  | .bool, v => ∃ b, v = .bool b
  | .u8, v | .u16, v | .u32, v | .u64, v =>
    (∀ x, v ≠ .s8 x) ∧ (∀ x, v ≠ .s16 x) ∧ (∀ x, v ≠ .s32 x) ∧ (∀ x, v ≠ .s64 x) ∧ (∀ x, v ≠ .int x) ∧ ∀ x, v ≠ .uint x
  | .s8, v | .s16, v | .s32, v | .s64, v =>
    (∃ x, v = .s8 x) ∨ (∃ x, v = .s16 x) ∨ (∃ x, v = .s32 x) ∨ ∃ x, v = .s64 x
  | .f32, v => ∃ x, v = .f32 x
  | .f64, v => ∃ x, v = .f64 x
  | .char, v => ∃ x, v = .s32 x
  | .string, v => ∃ s, v = .str s
  | .list t, v => ∃ vs, v = .list vs ∧ ∀ x ∈ vs, Accepts t x
  | .record fs, v => ∃ m, v = .map m ∧ AcceptsFields fs m
  | .variant cs, v => ∃ key p i, v = .map [(key, p)] ∧ Selects cs key i ∧ AcceptsPayload cs i p
  | .flags ls, v => ∃ m, v = .map m ∧ ∀ l ∈ ls, ∃ b, mapGet m l = .bool b
  | .own _, _ | .borrow _, _ | .nil, _ | .other, _ => False
/-- For every field. -/
def AcceptsFields : Fields → List (String × Val) → Prop
  | .nil, _ => True
  | .cons l t fs, m => Accepts t (mapGet m l) ∧ AcceptsFields fs m
/-- For the payload of the `i`-th case. -/
def AcceptsPayload : Cases → Nat → Val → Prop
  | .nil, _, _ => False
  | .cons _ t _ _, 0, p => t = .nil ∨ Accepts t p
  | .cons _ _ _ cs, i + 1, p => AcceptsPayload cs i p
end

theorem storeInt_accepts (v : Val) (ptr n : U32) (signed : Bool) (s s' : St σ)
    (h : storeInt v ptr n signed s = (.ok (), s')) : ∃ i, intInfo v = .ok i ∧ i.sign = signed := by
  rw [storeInt_eq] at h
  split at h
  · rename_i i hi
    split at h
    · rename_i hs; exact ⟨i, hi, hs⟩
    · cases h
  · cases h

theorem accepts_unsigned (v : Val) (i : IntInfo) (h : intInfo v = .ok i) (hs : i.sign = false) :
    (∀ x, v ≠ .s8 x) ∧ (∀ x, v ≠ .s16 x) ∧ (∀ x, v ≠ .s32 x) ∧ (∀ x, v ≠ .s64 x) ∧ (∀ x, v ≠ .int x) ∧ ∀ x, v ≠ .uint x := by
  cases v <;> simp only [intInfo, Res.ok.injEq, reduceCtorEq] at h <;> subst h <;> simp at hs ⊢

theorem accepts_signed (v : Val) (i : IntInfo) (h : intInfo v = .ok i) (hs : i.sign = true) :
    (∃ x, v = .s8 x) ∨ (∃ x, v = .s16 x) ∨ (∃ x, v = .s32 x) ∨ ∃ x, v = .s64 x := by
  cases v <;> simp only [intInfo, Res.ok.injEq, reduceCtorEq] at h <;> subst h <;> simp at hs ⊢

theorem packFlags_accepts (m : List (String × Val)) : (ls : List String) → (i : Nat) → (x : U64) →
    packFlagsFrom m ls i = .ok x → ∀ l ∈ ls, ∃ b, mapGet m l = .bool b
  | [], _, _, _ => by simp
  | l :: ls, i, x, h => by
    rw [packFlagsFrom] at h
    split at h
    · rename_i b hb
      obtain ⟨r, hr, -⟩ := Res.bind_eq_ok.1 h
      intro l' hl'
      rcases List.mem_cons.1 hl' with rfl | hl'
      · exact ⟨b, hb⟩
      · exact packFlags_accepts m ls (i + 1) r hr l' hl'
    · cases h

theorem storeElems_accepts {f : Val → U32 → SM (St σ) Unit} {P : Val → Prop}
    (hf : ∀ v p s s', f v p s = (.ok (), s') → P v) (ptr sz : U32) : (vs : List Val) → (i : Nat) → (s s' : St σ) →
    storeElems f ptr sz vs i s = (.ok (), s') → ∀ v ∈ vs, P v
  | [], _, _, _, _ => by simp
  | v :: vs, i, s, s', h => by
    rw [storeElems] at h
    obtain ⟨u, s1, h1, h2⟩ := SM.bind_eq_ok.1 h
    intro w hw
    rcases List.mem_cons.1 hw with rfl | hw
    · exact hf _ _ _ _ h1
    · exact storeElems_accepts hf ptr sz vs (i + 1) s1 s' h2 w hw

mutual
theorem store_accepts (E : Env σ) : (t : Ty) → (v : Val) → (ptr : U32) → (s s' : St σ) →
    Abi.store E t v ptr s = (.ok (), s') → Accepts t v
  | .bool, v, ptr, s, s', h => by
    rw [store_bool] at h
    obtain ⟨_, s1, -, h⟩ := SM.bind_eq_ok.1 h
    cases v <;> first | (cases h; done) | exact ⟨_, rfl⟩
  | .u8, v, ptr, s, s', h | .u16, v, ptr, s, s', h | .u32, v, ptr, s, s', h | .u64, v, ptr, s, s', h => by
    rw [Abi.store] at h
    obtain ⟨_, s1, -, h⟩ := SM.bind_eq_ok.1 h
    obtain ⟨i, h1, h2⟩ := storeInt_accepts _ _ _ _ _ _ h
    rw [Accepts]
    exact accepts_unsigned v i h1 h2
  | .s8, v, ptr, s, s', h | .s16, v, ptr, s, s', h | .s32, v, ptr, s, s', h | .s64, v, ptr, s, s', h => by
    rw [Abi.store] at h
    obtain ⟨_, s1, -, h⟩ := SM.bind_eq_ok.1 h
    obtain ⟨i, h1, h2⟩ := storeInt_accepts _ _ _ _ _ _ h
    rw [Accepts]
    exact accepts_signed v i h1 h2
  | .f32, v, ptr, s, s', h => by
    rw [Abi.store] at h
    obtain ⟨_, s1, -, h⟩ := SM.bind_eq_ok.1 h
    cases v <;> first | (cases h; done) | exact ⟨_, rfl⟩
  | .f64, v, ptr, s, s', h => by
    rw [Abi.store] at h
    obtain ⟨_, s1, -, h⟩ := SM.bind_eq_ok.1 h
    cases v <;> first | (cases h; done) | exact ⟨_, rfl⟩
  | .char, v, ptr, s, s', h => by
    rw [store_char] at h
    obtain ⟨_, s1, -, h⟩ := SM.bind_eq_ok.1 h
    cases v <;> first | (cases h; done) | exact ⟨_, rfl⟩
  | .string, v, ptr, s, s', h => by
    rw [store_string] at h
    obtain ⟨_, s1, -, h⟩ := SM.bind_eq_ok.1 h
    cases v <;> first | (cases h; done) | exact ⟨_, rfl⟩
  | .list t, v, ptr, s, s', h => by
    rw [Abi.store] at h
    obtain ⟨_, s1, -, h⟩ := SM.bind_eq_ok.1 h
    unfold storeList at h
    obtain ⟨r, s2, h, -⟩ := SM.bind_eq_ok.1 h
    unfold storeListIntoRange at h
    obtain ⟨vs, rfl⟩ : ∃ vs, v = .list vs := by cases v <;> first | exact ⟨_, rfl⟩ | (cases h; done)
    rw [Accepts]
    refine ⟨vs, rfl, ?_⟩
    simp only at h
    obtain ⟨z, s3, -, h⟩ := SM.bind_eq_ok.1 h
    obtain ⟨a, s4, -, h⟩ := SM.bind_eq_ok.1 h
    obtain ⟨p, s5, -, h⟩ := SM.bind_eq_ok.1 h
    rw [SM.ite_app] at h
    split at h
    · cases h
    · rw [SM.bind_get, SM.ite_app] at h
      split at h
      · cases h
      · obtain ⟨u, s6, h, -⟩ := SM.bind_eq_ok.1 h
        exact storeElems_accepts (fun v p s s' h => store_accepts E t v p s s' h) _ _ _ _ _ _ h
  | .record fs, v, ptr, s, s', h => by
    rw [store_record] at h
    obtain ⟨_, s1, -, h⟩ := SM.bind_eq_ok.1 h
    obtain ⟨m, rfl⟩ : ∃ m, v = .map m := by cases v <;> first | exact ⟨_, rfl⟩ | (cases h; done)
    rw [Accepts]
    exact ⟨m, rfl, storeFields_accepts E fs m ptr s1 s' h⟩
  | .variant cs, v, ptr, s, s', h => by
    rw [Abi.store] at h
    obtain ⟨_, s1, h0, h⟩ := SM.bind_eq_ok.1 h
    have hl := (storeValidate_ok _ _ _ _ h0).2.1
    simp only [Laid] at hl
    obtain ⟨⟨i, p⟩, s2, hm, h⟩ := SM.bind_eq_ok.1 h
    rw [SM.lift_def] at hm
    injection hm with hm _
    obtain ⟨dt, s3, -, h⟩ := SM.bind_eq_ok.1 h
    obtain ⟨z, s4, -, h⟩ := SM.bind_eq_ok.1 h
    obtain ⟨u, s5, -, h⟩ := SM.bind_eq_ok.1 h
    obtain ⟨a, s6, -, h'⟩ := SM.bind_eq_ok.1 h
    obtain ⟨key, rfl, hsel⟩ := (matchCase_ok v cs (by omega) i p).1 hm
    rw [Accepts]
    exact ⟨key, p, _, rfl, hsel, storeCase_accepts E cs _ p _ s6 s' h'⟩
  | .flags ls, v, ptr, s, s', h => by
    rw [Abi.store] at h
    obtain ⟨_, s1, -, h⟩ := SM.bind_eq_ok.1 h
    unfold storeFlags at h
    obtain ⟨m, rfl⟩ : ∃ m, v = .map m := by cases v <;> first | exact ⟨_, rfl⟩ | (cases h; done)
    simp only at h
    obtain ⟨x, s2, hx, -⟩ := SM.bind_eq_ok.1 h
    rw [SM.lift_def] at hx
    injection hx with hx _
    rw [Accepts]
    exact ⟨m, rfl, packFlags_accepts m ls 0 x hx⟩
  | .own _, v, ptr, s, s', h | .borrow _, v, ptr, s, s', h | .nil, v, ptr, s, s', h | .other, v, ptr, s, s', h => by
    rw [Abi.store] at h
    obtain ⟨_, s1, -, h⟩ := SM.bind_eq_ok.1 h
    cases h
theorem storeFields_accepts (E : Env σ) : (fs : Fields) → (m : List (String × Val)) → (ptr : U32) → (s s' : St σ) →
    storeFields E fs m ptr s = (.ok (), s') → AcceptsFields fs m
  | .nil, _, _, _, _, _ => by simp [AcceptsFields]
  | .cons l t fs, m, ptr, s, s', h => by
    rw [storeFields] at h
    obtain ⟨a, s1, -, h⟩ := SM.bind_eq_ok.1 h
    obtain ⟨u, s2, h1, h⟩ := SM.bind_eq_ok.1 h
    obtain ⟨z, s3, -, h⟩ := SM.bind_eq_ok.1 h
    rw [AcceptsFields]
    exact ⟨store_accepts E t _ _ _ _ h1, storeFields_accepts E fs m _ s3 s' h⟩
theorem storeCase_accepts (E : Env σ) : (cs : Cases) → (i : Nat) → (p : Val) → (ptr : U32) → (s s' : St σ) →
    storeCase E cs i p ptr s = (.ok (), s') → AcceptsPayload cs i p
  | .nil, _, _, _, _, _, h => by rw [storeCase] at h; cases h
  | .cons l t r cs, 0, p, ptr, s, s', h => by
    rw [storeCase, SM.ite_app] at h
    rw [AcceptsPayload]
    split at h
    · rename_i e; exact .inl e
    · exact .inr (store_accepts E t p ptr s s' h)
  | .cons l t r cs, i + 1, p, ptr, s, s', h => by
    rw [storeCase] at h
    rw [AcceptsPayload]
    exact storeCase_accepts E cs i p ptr s s' h
end

/-- C29, everything but integers: a successful `Store` was given a value with the shape of the type at every level. For
integer types only signedness is known. Missing: width, and that a value for an unsigned type is an integer; both are
false of the code (`store_truncates`, `store_takes_non_integer`). -/
theorem store_checks_type_partial (E : Env σ) (t : VT) (v : Val) (ptr : U32) (s s' : St σ)
    (h : t.store E v ptr s = (.ok (), s')) : Accepts t.core v := store_accepts E t.core v ptr s s' h

example : (exTy.store (bumpEnv "utf-8") exVal 8 bumpSt).1 = .ok () := by decide

/-- Where the code fails C29: 300 is accepted as a `u8` and stored as 44. -/
theorem store_truncates : ∃ s', VT.u8.store (bumpEnv "utf-8") (.u16 300) 0 bumpSt = (.ok (), s') ∧
    s'.mem.data 0 = 44 := ⟨_, rfl, rfl⟩

/-- A string is accepted as a `u32` and stored as 0. -/
theorem store_takes_non_integer : ∃ s', VT.u32.store (bumpEnv "utf-8") (.str "no") 0 bumpSt = (.ok (), s') ∧
    natAt s'.mem 0 4 = 0 := ⟨_, rfl, rfl⟩

/-- Instead of an error, a value that is not a float panics when stored as one. -/
theorem store_float_panics : (VT.f32.store (bumpEnv "utf-8") (.u32 1) 0 bumpSt).1 = .panic := rfl

/-! ## C62 -/

/-- C62, for strings of less than `2^31` code units. Unless the allocator refused, storing a string succeeds; the pair
returned counts the code units, its tag is set exactly for a `latin1+utf16` string that Latin-1 cannot write, and
loading from the pair returns the string. Latin-1 itself is only asked for strings it can write.
Missing: strings of `2^31` code units or more, whose count does not fit beside the tag. -/
theorem strings_in_memory_partial (E : Env σ) (used : σ → Nat → Prop) (G : GoodAlloc E used) (refused : σ → Prop)
    (hr : ∀ a n m h, (∃ p, (E.realloc a n (m, h)).1 = .ok p) ∨ refused (E.realloc a n (m, h)).2.2)
    (henc : E.enc ∈ Spec.encodings) (str : String) (hn : codeUnits E.enc str < 2 ^ 31)
    (hl : E.enc = "latin1" → ∀ c ∈ str.toList, c.toNat < 256) (s : St σ)
    (hg : s.mem.len < 2 ^ 32 ∧ s.mem.len ≤ s.mem.cap) :
    (∃ ptr n s', storeStringIntoRange E str s = (.ok (ptr, n), s') ∧
      loadStringFromRange E ptr n s' = (.ok str, s') ∧
      (toTagged n).codeUnits.toNat = codeUnits E.enc str ∧
      ((toTagged n).utf16 = true ↔ E.enc = "latin1+utf16" ∧ ¬ ∀ c ∈ str.toList, c.toNat < 256)) ∨
    refused (storeStringIntoRange E str s).2.heap := by
  rcases storeStringIntoRange_does G hr str henc hn hl s hg with ⟨⟨p, n⟩, s', e, w, h2, h3⟩ | ⟨-, h⟩
  · obtain ⟨F, -, hF⟩ := w.foot
    exact .inl ⟨p, n, s', e, hF s' (Nat.le_refl _) w.step.good (fun _ _ => rfl), h2, h3⟩
  · exact .inr h

/-- The tag on two strings, one of each kind. -/
example : codeUnits "latin1+utf16" "é" = 1 ∧ codeUnits "latin1+utf16" "é€😀" = 4 ∧
    (∃ p s', storeStringIntoRange (bumpEnv "latin1+utf16") "é€😀" bumpSt = (.ok (p, 0x80000004), s')) ∧
    (∃ p s', storeStringIntoRange (bumpEnv "latin1+utf16") "é" bumpSt = (.ok (p, 1), s')) :=
  ⟨by decide, by decide, ⟨_, _, rfl⟩, ⟨_, _, rfl⟩⟩

end Verif.Abi
