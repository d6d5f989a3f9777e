import Verif.Abi.MemLemmas
import Verif.Abi.CaseLemmas

/-!
# Invariants of `Store`

`store_inv`: whatever holds of memory and allocator, survives allocations, and survives writes to the destination and to
blocks handed out, survives `Store`, whether it succeeds or not.
-/

namespace Verif.Abi
open Spec Encoding

variable {σ : Type}

/-- `I` survives writes to addresses allowed by `A` and calls of the allocator, which allow at least its block. -/
structure Inv (E : Env σ) (I : Mem → σ → Prop) (A : σ → Nat → Prop) : Prop where
  write : ∀ m h p bs, I m h → (∀ a, p ≤ a → a < p + bs.length → A h a) → I (m.write p bs) h
  alloc : ∀ a n m h, I m h → I (E.realloc a n (m, h)).2.1 (E.realloc a n (m, h)).2.2 ∧
    (∀ x, A h x → A (E.realloc a n (m, h)).2.2 x) ∧
    ∀ p, (E.realloc a n (m, h)).1 = .ok p → ∀ x, InBlock p n.toNat x → A (E.realloc a n (m, h)).2.2 x

/-- The call keeps `I` and forbids nothing that was allowed. -/
def Keeps {α : Type} (I : Mem → σ → Prop) (A : σ → Nat → Prop) (m : SM (St σ) α) (s : St σ) : Prop :=
  I s.mem s.heap → I (m s).2.mem (m s).2.heap ∧ ∀ x, A s.heap x → A (m s).2.heap x

section
variable {I : Mem → σ → Prop} {A : σ → Nat → Prop} {α β : Type}

theorem Keeps.bind {m : SM (St σ) α} {f : α → SM (St σ) β} {s : St σ} (h1 : Keeps I A m s)
    (h2 : ∀ a s1, m s = (.ok a, s1) → (∀ x, A s.heap x → A s1.heap x) → Keeps I A (f a) s1) :
    Keeps I A (m >>= f) s := by
  intro hi
  obtain ⟨k1, k2⟩ := h1 hi
  rcases hm : m s with ⟨r, s1⟩
  rw [hm] at k1 k2
  cases r with
  | ok a =>
    rw [SM.bind_ok hm]
    obtain ⟨k3, k4⟩ := h2 a s1 hm k2 k1
    exact ⟨k3, fun x hx => k4 x (k2 x hx)⟩
  | err => rw [SM.bind_err hm]; exact ⟨k1, k2⟩
  | panic => rw [SM.bind_panic hm]; exact ⟨k1, k2⟩
  | diverge => rw [SM.bind_diverge hm]; exact ⟨k1, k2⟩

theorem Keeps.same {m : SM (St σ) α} {s : St σ} (h : (m s).2 = s) : Keeps I A m s := by
  intro hi; rw [h]; exact ⟨hi, fun _ hx => hx⟩

theorem Keeps.pure (a : α) (s : St σ) : Keeps I A (Pure.pure a : SM (St σ) α) s := .same rfl
theorem Keeps.fail (s : St σ) : Keeps I A (SM.fail : SM (St σ) α) s := .same rfl
theorem Keeps.crash (s : St σ) : Keeps I A (SM.crash : SM (St σ) α) s := .same rfl
theorem Keeps.lift (r : Res α) (s : St σ) : Keeps I A (SM.lift r : SM (St σ) α) s := .same rfl

theorem Keeps.ite {c : Prop} [Decidable c] {m n : SM (St σ) α} {s : St σ} (h1 : c → Keeps I A m s)
    (h2 : ¬ c → Keeps I A n s) : Keeps I A (if c then m else n) s := by
  split
  · rename_i h; exact h1 h
  · rename_i h; exact h2 h

theorem Keeps.get {f : St σ → SM (St σ) β} {s : St σ} (h : Keeps I A (f s) s) : Keeps I A (SM.get >>= f) s := h

/-- After `lift r` the state is unchanged. -/
theorem Keeps.liftBind {r : Res α} {f : α → SM (St σ) β} {s : St σ} (h : ∀ a, r = .ok a → Keeps I A (f a) s) :
    Keeps I A (SM.lift r >>= f) s := by
  apply Keeps.bind (.lift r s)
  intro a s1 e _
  rw [SM.lift_def] at e
  injection e with e1 e2
  subst e2
  exact h a e1

end

/-- The values `Store` takes apart, one level unfolded. -/
theorem store_bool (E : Env σ) (v : Val) (ptr : U32) : store E .bool v ptr = (do
    storeValidate .bool ptr
    match v with
    | .bool b => storeInt (.u8 (if b then 1 else 0)) ptr 1 false
    | _ => SM.fail) := by cases v <;> rw [store] <;> simp
theorem store_char (E : Env σ) (v : Val) (ptr : U32) : store E .char v ptr = (do
    storeValidate .char ptr
    match v with
    | .s32 r => storeInt (.u32 r) ptr 4 false
    | _ => SM.fail) := by cases v <;> rw [store] <;> simp
theorem store_string (E : Env σ) (v : Val) (ptr : U32) : store E .string v ptr = (do
    storeValidate .string ptr
    match v with
    | .str s => storeString E s ptr
    | _ => SM.fail) := by cases v <;> rw [store] <;> simp
theorem store_record (E : Env σ) (fs : Fields) (v : Val) (ptr : U32) : store E (.record fs) v ptr = (do
    storeValidate (.record fs) ptr
    match v with
    | .map m => storeFields E fs m ptr
    | _ => SM.fail) := by cases v <;> rw [store] <;> simp

theorem storeValidate_state (t : Ty) (ptr : U32) (s : St σ) : (storeValidate t ptr s).2 = s := by
  unfold storeValidate
  rcases h : alignment t with a | _ | _ | _
  · rw [SM.bind_ok (SM.lift_def _ _), SM.ite_app]
    split
    · rfl
    · rcases h' : size t with z | _ | _ | _
      · rw [SM.bind_ok (SM.lift_def _ _), SM.bind_get, SM.ite_app]
        split <;> rfl
      · rw [SM.bind_err (SM.lift_def _ _)]
      · rw [SM.bind_panic (SM.lift_def _ _)]
      · rw [SM.bind_diverge (SM.lift_def _ _)]
  · rw [SM.bind_err (SM.lift_def _ _)]
  · rw [SM.bind_panic (SM.lift_def _ _)]
  · rw [SM.bind_diverge (SM.lift_def _ _)]

/-- What `StoreValidate` has checked when it succeeds. -/
theorem storeValidate_ok (t : Ty) (ptr : U32) (s s' : St σ) (h : storeValidate t ptr s = (.ok (), s')) :
    s' = s ∧ Laid t ∧ align t ∣ ptr.toNat ∧ ∃ z, size t = .ok z ∧ (ptr + z).toNat ≤ s.mem.len32.toNat := by
  have e := storeValidate_state t ptr s
  rw [h] at e
  refine ⟨e, ?_⟩
  unfold storeValidate at h
  obtain ⟨a, s1, h1, h⟩ := SM.bind_eq_ok.1 h
  rw [SM.lift_def] at h1
  injection h1 with h1 h2
  subst h2
  rw [SM.ite_app] at h
  split at h
  · cases h
  · rename_i ha
    obtain ⟨z, s2, h2, h⟩ := SM.bind_eq_ok.1 h
    rw [SM.lift_def] at h2
    injection h2 with h2 h3
    subst h3
    rw [SM.bind_get, SM.ite_app] at h
    split at h
    · cases h
    · rename_i hz
      have hl := laid_of_size t z h2
      rw [alignment_eq t hl] at h1
      injection h1 with h1
      subst h1
      refine ⟨hl, ?_, z, h2, by omega⟩
      have := (alignTo_eq_iff ptr (BitVec.ofNat 32 (align t)) (by rw [ofNat_toNat_isAl (align_isAl t)]; exact align_isAl t)).1
        (Classical.not_not.1 ha)
      rwa [ofNat_toNat_isAl (align_isAl t)] at this

theorem inBlock_of_le {p : U32} {n x : Nat} (h1 : p.toNat ≤ x) (h2 : x < p.toNat + n) (h3 : x < 2 ^ 32) :
    InBlock p n x := ⟨x - p.toNat, by omega, by rw [Nat.add_sub_cancel' h1, Nat.mod_eq_of_lt h3]⟩

section
variable {E : Env σ} {I : Mem → σ → Prop} {A : σ → Nat → Prop} (V : Inv E I A)
include V

theorem put_keeps (ptr n : U32) (bs : List Byte) (hb : bs.length ≤ n.toNat) (s : St σ)
    (hA : ∀ x, InBlock ptr n.toNat x → A s.heap x) : Keeps I A (put ptr n bs) s := by
  intro hi
  rcases slice_cases s.mem ptr (ptr + n) with ⟨h, h1, -⟩ | h
  · rw [put_ok _ _ _ _ h]
    refine ⟨V.write _ _ _ _ hi ?_, fun _ hx => hx⟩
    intro a ha1 ha2
    apply hA
    have := (ptr + n).isLt
    rw [BitVec.toNat_add] at h1 this
    exact inBlock_of_le ha1 (by omega) (by
      have e : (ptr.toNat + n.toNat) % 2 ^ 32 = ptr.toNat + n.toNat := by
        have := n.isLt; have := ptr.isLt
        by_cases c : ptr.toNat + n.toNat < 2 ^ 32
        · exact Nat.mod_eq_of_lt c
        · rw [Nat.mod_eq_sub_mod (by omega), Nat.mod_eq_of_lt (by omega)] at h1
          omega
      omega)
  · rw [put_panic _ _ _ _ h]; exact ⟨hi, fun _ hx => hx⟩

theorem storeInt_keeps (v : Val) (ptr n : U32) (signed : Bool) (s : St σ)
    (hA : ∀ x, InBlock ptr n.toNat x → A s.heap x) : Keeps I A (storeInt v ptr n signed) s := by
  have e := storeInt_eq v ptr n signed s
  intro hi
  rw [e]
  split
  · rename_i i _
    split
    · exact put_keeps V ptr n _ (by split <;> simp [leBytes_length]) s hA hi
    · exact ⟨hi, fun _ hx => hx⟩
  · exact ⟨hi, fun _ hx => hx⟩

theorem storeUInt32_keeps (x ptr : U32) (s : St σ) (hA : ∀ x, InBlock ptr 4 x → A s.heap x) :
    Keeps I A (storeUInt32 x ptr) s := by
  intro hi
  rw [storeUInt32_eq]
  exact put_keeps V ptr 4 _ (by rw [leBytes_length]; decide) s hA hi

/-- The allocator's block is allowed afterwards. -/
theorem alloc_keeps (a n : U32) (s : St σ) : Keeps I A (alloc E a n) s := by
  intro hi
  obtain ⟨h1, h2, -⟩ := V.alloc a n s.mem s.heap hi
  exact ⟨h1, h2⟩

theorem alloc_block (a n p : U32) (s s' : St σ) (hi : I s.mem s.heap) (h : alloc E a n s = (.ok p, s')) :
    ∀ x, InBlock p n.toNat x → A s'.heap x := by
  obtain ⟨-, -, h3⟩ := V.alloc a n s.mem s.heap hi
  injection h with h1 h2
  subst h2
  exact h3 p h1

theorem alloc_bind {β : Type} (a n : U32) (f : U32 → SM (St σ) β) (s : St σ)
    (h : ∀ p s1, alloc E a n s = (.ok p, s1) → (∀ x, A s.heap x → A s1.heap x) →
      (∀ x, InBlock p n.toNat x → A s1.heap x) → Keeps I A (f p) s1) : Keeps I A (alloc E a n >>= f) s := by
  intro hi
  exact Keeps.bind (alloc_keeps V a n s)
    (fun p s1 e hx => h p s1 e hx (alloc_block V a n p s s1 hi e)) hi

theorem storeStringDynamic_keeps (str : String) (c : Codec) (s : St σ) :
    Keeps I A (storeStringDynamic E str c) s := by
  unfold storeStringDynamic
  apply Keeps.liftBind
  intro bs _
  apply alloc_bind V
  intro p s1 _ _ hb
  apply Keeps.get
  apply Keeps.liftBind
  intro u hs
  have hp := put_keeps V p (BitVec.ofNat 32 bs.length) (bs.take (BitVec.ofNat 32 bs.length).toNat)
    (List.length_take_le _ _) s1 hb
  have hsl : s1.mem.slice p (p + BitVec.ofNat 32 bs.length) = .ok () := hs
  intro hi
  have := hp hi
  rw [put_ok _ _ _ _ hsl] at this
  exact this

theorem storeStringIntoRange_keeps (str : String) (s : St σ) : Keeps I A (storeStringIntoRange E str) s := by
  unfold storeStringIntoRange
  apply Keeps.liftBind
  intro c _
  apply Keeps.ite
  · intro _; exact storeStringDynamic_keeps V str c s
  · intro _
    apply Keeps.liftBind
    intro c' _
    apply Keeps.bind (storeStringDynamic_keeps V str c' s)
    intro r s1 _ _
    exact Keeps.pure _ _

/-- Storing a pointer and a length over an 8-byte destination. -/
theorem storePair_keeps (x y ptr : U32) (s : St σ) (hA : ∀ x, InBlock ptr 8 x → A s.heap x) :
    Keeps I A (do storeUInt32 x ptr; storeUInt32 y (ptr + 4)) s := by
  apply Keeps.bind (storeUInt32_keeps V x ptr s _)
  · intro _ s1 _ hx
    apply storeUInt32_keeps V
    rintro z ⟨i, hi, rfl⟩
    apply hx
    apply hA
    refine ⟨4 + i, by omega, ?_⟩
    rw [BitVec.toNat_add]
    show ((ptr.toNat + 4) % 2 ^ 32 + i) % 2 ^ 32 = _
    omega
  · rintro z ⟨i, hi, rfl⟩
    exact hA _ ⟨i, by omega, rfl⟩

theorem storeElems_keeps (f : Val → U32 → SM (St σ) Unit) (ptr sz : U32) : (vs : List Val) → (i : Nat) → (s : St σ) →
    (∀ v ∈ vs, ∀ (p : U32) (s : St σ), (∀ x, InBlock p sz.toNat x → A s.heap x) → Keeps I A (f v p) s) →
    (∀ x, InBlock ptr ((i + vs.length) * sz.toNat) x → A s.heap x) → Keeps I A (storeElems f ptr sz vs i) s
  | [], _, s, _, _ => Keeps.pure _ _
  | v :: vs, i, s, hf, hA => by
    rw [storeElems]
    apply Keeps.bind
    · apply hf v (by simp)
      rintro x ⟨k, hk, rfl⟩
      apply hA
      refine ⟨i * sz.toNat + k, ?_, ?_⟩
      · rw [List.length_cons]
        have : (i + (vs.length + 1)) * sz.toNat = i * sz.toNat + vs.length * sz.toNat + sz.toNat := by
          rw [Nat.add_mul, Nat.add_mul]; omega
        have := Nat.zero_le (vs.length * sz.toNat)
        omega
      · rw [BitVec.toNat_add, BitVec.toNat_mul, BitVec.toNat_ofNat]
        have h1 : i % 2 ^ 32 * sz.toNat % 2 ^ 32 = i * sz.toNat % 2 ^ 32 := by rw [Nat.mod_mul_mod]
        rw [h1]
        generalize i * sz.toNat = q
        omega
    · intro _ s1 _ hx
      apply storeElems_keeps f ptr sz vs (i + 1) s1 (fun w hw => hf w (by simp [hw]))
      intro x h
      apply hx
      apply hA
      obtain ⟨k, hk, rfl⟩ := h
      refine ⟨k, ?_, rfl⟩
      rw [List.length_cons]
      rwa [show i + (vs.length + 1) = i + 1 + vs.length by omega]

omit V in
theorem alignTo_add (base : U32) (k a : Nat) (ha : IsAl a) (hd : a ∣ base.toNat) :
    alignTo (base + BitVec.ofNat 32 k) (BitVec.ofNat 32 a) = base + BitVec.ofNat 32 (alignUp k a) := by
  apply BitVec.eq_of_toNat_eq
  have ha' := ofNat_toNat_isAl ha
  rw [alignTo_toNat _ _ (by rw [ha']; exact ha.pos), ha', BitVec.toNat_add, BitVec.toNat_add, BitVec.toNat_ofNat,
    BitVec.toNat_ofNat, Nat.add_mod_mod, Nat.add_mod_mod, ← alignUp_add ha.pos hd]
  generalize base.toNat + k = y
  -- rounding up commutes with reduction modulo a multiple of the alignment
  have h1 : y = y % 2 ^ 32 + y / 2 ^ 32 * 2 ^ 32 := by
    have := Nat.mod_add_div y (2 ^ 32); omega
  obtain ⟨c, hc⟩ := ha.dvd_pow32
  have h2 : a ∣ y / 2 ^ 32 * 2 ^ 32 := ⟨y / 2 ^ 32 * c, by rw [hc]; ac_rfl⟩
  conv_rhs => rw [h1, Nat.add_comm, alignUp_add ha.pos h2, Nat.add_comm]
  rw [Nat.add_mul_mod_self_right]

omit V in
theorem toNat_ofNat_lt {n : Nat} (h : n < 2 ^ 32) : (BitVec.ofNat 32 n).toNat = n := by
  rw [BitVec.toNat_ofNat, Nat.mod_eq_of_lt h]

omit V in
theorem laid_size_cases {cs : Cases} (h1 : Spec.size (.variant cs) < 2 ^ 32) :
    payloadOffset cs + sizeCases cs < 2 ^ 32 := by
  rw [Spec.size] at h1
  have := le_alignUp (n := alignUp (discBytes cs.length) (alignCases cs) + sizeCases cs)
    ((discBytes_isAl cs.length).max (alignCases_isAl cs)).pos
  unfold payloadOffset
  omega

omit V in
theorem size_lt_of_mem_list {t : Ty} {vs : List Val} (h : vs.length * Spec.size t < 2 ^ 32) (hv : vs ≠ []) :
    Spec.size t < 2 ^ 32 := by
  have : 1 ≤ vs.length := List.length_pos_of_ne_nil hv
  have := Nat.mul_le_mul_right (Spec.size t) this
  omega

mutual
/-- `Store` keeps every invariant of its allowed writes. -/
theorem store_inv : (t : Ty) → (v : Val) → ListsFit t v → (ptr : U32) → (s : St σ) → Spec.size t < 2 ^ 32 →
    (∀ x, InBlock ptr (Spec.size t) x → A s.heap x) → Keeps I A (store E t v ptr) s
  | .bool, v, _, ptr, s, _, hA => by
    rw [store_bool]
    apply Keeps.bind (.same (storeValidate_state ..))
    intro _ s1 e _
    obtain rfl := (storeValidate_ok _ _ _ _ e).1
    split
    · exact storeInt_keeps V _ _ _ _ _ (by simpa [Spec.size] using hA)
    · exact Keeps.fail _
  | .u8, v, _, ptr, s, _, hA => by
    rw [store]
    apply Keeps.bind (.same (storeValidate_state ..))
    intro _ s1 e _
    obtain rfl := (storeValidate_ok _ _ _ _ e).1
    exact storeInt_keeps V _ _ _ _ _ (by simpa [Spec.size] using hA)
  | .u16, v, _, ptr, s, _, hA => by
    rw [store]
    apply Keeps.bind (.same (storeValidate_state ..))
    intro _ s1 e _
    obtain rfl := (storeValidate_ok _ _ _ _ e).1
    exact storeInt_keeps V _ _ _ _ _ (by simpa [Spec.size] using hA)
  | .u32, v, _, ptr, s, _, hA => by
    rw [store]
    apply Keeps.bind (.same (storeValidate_state ..))
    intro _ s1 e _
    obtain rfl := (storeValidate_ok _ _ _ _ e).1
    exact storeInt_keeps V _ _ _ _ _ (by simpa [Spec.size] using hA)
  | .u64, v, _, ptr, s, _, hA => by
    rw [store]
    apply Keeps.bind (.same (storeValidate_state ..))
    intro _ s1 e _
    obtain rfl := (storeValidate_ok _ _ _ _ e).1
    exact storeInt_keeps V _ _ _ _ _ (by simpa [Spec.size] using hA)
  | .s8, v, _, ptr, s, _, hA => by
    rw [store]
    apply Keeps.bind (.same (storeValidate_state ..))
    intro _ s1 e _
    obtain rfl := (storeValidate_ok _ _ _ _ e).1
    exact storeInt_keeps V _ _ _ _ _ (by simpa [Spec.size] using hA)
  | .s16, v, _, ptr, s, _, hA => by
    rw [store]
    apply Keeps.bind (.same (storeValidate_state ..))
    intro _ s1 e _
    obtain rfl := (storeValidate_ok _ _ _ _ e).1
    exact storeInt_keeps V _ _ _ _ _ (by simpa [Spec.size] using hA)
  | .s32, v, _, ptr, s, _, hA => by
    rw [store]
    apply Keeps.bind (.same (storeValidate_state ..))
    intro _ s1 e _
    obtain rfl := (storeValidate_ok _ _ _ _ e).1
    exact storeInt_keeps V _ _ _ _ _ (by simpa [Spec.size] using hA)
  | .s64, v, _, ptr, s, _, hA => by
    rw [store]
    apply Keeps.bind (.same (storeValidate_state ..))
    intro _ s1 e _
    obtain rfl := (storeValidate_ok _ _ _ _ e).1
    exact storeInt_keeps V _ _ _ _ _ (by simpa [Spec.size] using hA)
  | .f32, v, _, ptr, s, _, hA => by
    rw [store]
    apply Keeps.bind (.same (storeValidate_state ..))
    intro _ s1 e _
    obtain rfl := (storeValidate_ok _ _ _ _ e).1
    unfold storeFloat32
    split
    · exact storeInt_keeps V _ _ _ _ _ (by simpa [Spec.size] using hA)
    · exact Keeps.crash _
  | .f64, v, _, ptr, s, _, hA => by
    rw [store]
    apply Keeps.bind (.same (storeValidate_state ..))
    intro _ s1 e _
    obtain rfl := (storeValidate_ok _ _ _ _ e).1
    unfold storeFloat64
    split
    · exact storeInt_keeps V _ _ _ _ _ (by simpa [Spec.size] using hA)
    · exact Keeps.crash _
  | .char, v, _, ptr, s, _, hA => by
    rw [store_char]
    apply Keeps.bind (.same (storeValidate_state ..))
    intro _ s1 e _
    obtain rfl := (storeValidate_ok _ _ _ _ e).1
    split
    · exact storeInt_keeps V _ _ _ _ _ (by simpa [Spec.size] using hA)
    · exact Keeps.fail _
  | .string, v, _, ptr, s, _, hA => by
    rw [store_string]
    apply Keeps.bind (.same (storeValidate_state ..))
    intro _ s1 e _
    obtain rfl := (storeValidate_ok _ _ _ _ e).1
    split
    · unfold storeString
      apply Keeps.bind (storeStringIntoRange_keeps V _ _)
      intro r s2 _ hx
      apply storePair_keeps V
      intro x h
      exact hx x (hA x (by simpa [Spec.size] using h))
    · exact Keeps.fail _
  | .list t, v, hf, ptr, s, _, hA => by
    rw [store]
    apply Keeps.bind (.same (storeValidate_state ..))
    intro _ s1 e _
    obtain rfl := (storeValidate_ok _ _ _ _ e).1
    unfold storeList
    apply Keeps.bind
    · unfold storeListIntoRange
      split
      · rename_i vs
        rw [ListsFit] at hf
        obtain ⟨-, f2, f3⟩ := hf vs rfl
        apply Keeps.liftBind
        intro z hz
        apply Keeps.liftBind
        intro a ha
        apply alloc_bind V
        intro p s2 _ _ hb
        apply Keeps.ite
        · intro _; exact Keeps.fail _
        · intro _
          apply Keeps.get
          apply Keeps.ite
          · intro _; exact Keeps.fail _
          · intro _
            apply Keeps.bind
            · apply storeElems_keeps V
              · intro w hw p' s' hA'
                have hlt := size_lt_of_mem_list f2 (List.ne_nil_of_mem hw)
                apply store_inv t w (f3 w hw) p' s' hlt
                rw [size_eq t (laid_of_size t z hz) hlt] at hz
                injection hz with hz
                rw [← hz, toNat_ofNat_lt hlt] at hA'
                exact hA'
              · intro x h
                apply hb
                rw [Nat.zero_add] at h
                cases vs with
                | nil =>
                  obtain ⟨i, hi, -⟩ := h
                  simp at hi
                | cons w ws =>
                  have hlt := size_lt_of_mem_list f2 (by simp)
                  rw [size_eq t (laid_of_size t z hz) hlt] at hz
                  injection hz with hz
                  rw [← hz, toNat_ofNat_lt hlt] at h ⊢
                  rwa [toNat_ofNat_lt f2]
            · intro _ s3 _ _
              exact Keeps.pure _ _
      · exact Keeps.fail _
    · intro r s2 _ hx
      apply storePair_keeps V
      intro x h
      exact hx x (hA x (by simpa [Spec.size] using h))
  | .record fs, v, hf, ptr, s, hs, hA => by
    rw [store_record]
    apply Keeps.bind (.same (storeValidate_state ..))
    intro _ s1 e _
    obtain ⟨rfl, hl, ha, -⟩ := storeValidate_ok _ _ _ _ e
    simp only [Laid] at hl
    rw [align] at ha
    rw [Spec.size] at hs
    have hle := le_alignUp (n := fieldsEnd fs 0) (alignFields_isAl fs).pos
    split
    · rename_i m
      rw [ListsFit] at hf
      have := storeFields_inv fs m (hf m rfl) ptr 0 s1 hl (alignFields fs) (alignFields_isAl fs) (Nat.le_refl _) ha
        (by omega) (by
          intro i _ hi
          apply hA
          exact ⟨i, by rw [Spec.size]; omega, rfl⟩)
      simpa using this
    · exact Keeps.fail _
  | .variant cs, v, hf, ptr, s, hs, hA => by
    rw [store]
    apply Keeps.bind (.same (storeValidate_state ..))
    intro _ s1 e _
    obtain ⟨rfl, hl, ha, -⟩ := storeValidate_ok _ _ _ _ e
    simp only [Laid] at hl
    rw [align] at ha
    have hd1 : alignCases cs ∣ ptr.toNat := Nat.dvd_trans ((discBytes_isAl _).dvd_max_right (alignCases_isAl cs)) ha
    have hps := laid_size_cases hs
    have hge : payloadOffset cs + sizeCases cs ≤ Spec.size (.variant cs) := by
      rw [Spec.size]
      exact le_alignUp ((discBytes_isAl cs.length).max (alignCases_isAl cs)).pos
    have hdb : discBytes cs.length ≤ payloadOffset cs := le_alignUp (alignCases_isAl cs).pos
    apply Keeps.liftBind
    rintro ⟨i, p⟩ hm
    apply Keeps.liftBind
    intro dt hdt
    apply Keeps.liftBind
    intro z hz
    rw [disc_size] at hz
    injection hz with hz
    subst hz
    have hdtb := disc_bytes _ _ hdt
    apply Keeps.bind
    · apply storeInt_keeps V
      rintro x ⟨k, hk, rfl⟩
      apply hA
      exact ⟨k, by omega, rfl⟩
    · intro _ s2 _ hx
      apply Keeps.liftBind
      intro a hma
      rw [maxCaseAlignment_eq cs hl.2.2 1 (.inl rfl)] at hma
      injection hma with hma
      have h1 : max (1#32).toNat (alignCases cs) = alignCases cs := by
        have := (alignCases_isAl cs).pos
        show max 1 _ = _
        omega
      have hma' : a = BitVec.ofNat 32 (alignCases cs) := by rw [← hma]; exact congrArg _ h1
      have hb : dt.bytes = BitVec.ofNat 32 (discBytes cs.length) := by
        apply BitVec.eq_of_toNat_eq
        rw [hdtb, ofNat_toNat_isAl (discBytes_isAl _)]
      rw [hma', hb, alignTo_add ptr _ _ (alignCases_isAl cs) hd1]
      obtain ⟨key, rfl, hsel⟩ := (matchCase_ok v cs (by omega) i p).1 hm
      rw [ListsFit] at hf
      apply storeCase_inv cs i.toNat p (hf key p _ rfl hsel)
      · omega
      · rintro x ⟨k, hk, rfl⟩
        apply hx
        apply hA
        refine ⟨payloadOffset cs + k, by omega, ?_⟩
        have e2 : payloadOffset cs = alignUp (discBytes cs.length) (alignCases cs) := rfl
        rw [BitVec.toNat_add, toNat_ofNat_lt (by omega), ← e2]
        omega
  | .flags ls, v, _, ptr, s, hs, hA => by
    rw [store]
    apply Keeps.bind (.same (storeValidate_state ..))
    intro _ s1 e _
    obtain rfl := (storeValidate_ok _ _ _ _ e).1
    unfold storeFlags
    split
    · apply Keeps.liftBind
      intro x _
      have h1 := size_eq (.flags ls) (by simp [Laid]) hs
      rw [Abi.size] at h1
      injection h1 with h1
      apply storeInt_keeps V
      rw [h1, toNat_ofNat_lt hs]
      exact hA
    · exact Keeps.crash _
  | .own rt, _, _, ptr, s, _, _ => by
    rw [store]
    exact Keeps.bind (.same (storeValidate_state ..)) (fun _ _ _ _ => Keeps.fail _)
  | .borrow rt, _, _, ptr, s, _, _ => by
    rw [store]
    exact Keeps.bind (.same (storeValidate_state ..)) (fun _ _ _ _ => Keeps.fail _)
  | .nil, _, _, ptr, s, _, _ => by
    rw [store]
    exact Keeps.bind (.same (storeValidate_state ..)) (fun _ _ _ _ => Keeps.fail _)
  | .other, _, _, ptr, s, _, _ => by
    rw [store]
    exact Keeps.bind (.same (storeValidate_state ..)) (fun _ _ _ _ => Keeps.fail _)
theorem storeFields_inv : (fs : Fields) → (m : List (String × Val)) → ListsFitFields fs m → (base : U32) → (k : Nat) →
    (s : St σ) → LaidFields fs → (B : Nat) → IsAl B → alignFields fs ≤ B → B ∣ base.toNat → fieldsEnd fs k < 2 ^ 32 →
    (∀ i, k ≤ i → i < fieldsEnd fs k → A s.heap ((base.toNat + i) % 2 ^ 32)) →
    Keeps I A (storeFields E fs m (base + BitVec.ofNat 32 k)) s
  | .nil, m, _, base, k, s, _, _, _, _, _, _, _ => by rw [storeFields]; exact Keeps.pure _ _
  | .cons l t fs, m, hf, base, k, s, hl, B, hB, hBl, hBd, he, hA => by
    rw [ListsFitFields] at hf
    simp only [LaidFields] at hl
    rw [alignFields] at hBl
    rw [fieldsEnd] at he hA
    have g1 := fieldsEnd_ge fs (alignUp k (align t) + Spec.size t)
    have g2 := le_alignUp (n := k) (align_isAl t).pos
    have hd : align t ∣ base.toNat := Nat.dvd_trans ((align_isAl t).dvd_of_le hB (by omega)) hBd
    rw [storeFields, alignment_eq t hl.1]
    apply Keeps.liftBind
    intro a ha
    injection ha with ha
    subst ha
    rw [alignTo_add base k _ (align_isAl t) hd]
    simp only
    apply Keeps.bind
    · apply store_inv t _ hf.1 _ _ (by omega)
      rintro x ⟨i, hi, rfl⟩
      have := hA (alignUp k (align t) + i) (by omega) (by omega)
      rw [BitVec.toNat_add, toNat_ofNat_lt (by omega)]
      rwa [Nat.mod_add_mod, Nat.add_assoc]
    · intro _ s1 _ hx
      rw [size_eq t hl.1 (by omega)]
      apply Keeps.liftBind
      intro z hz
      injection hz with hz
      subst hz
      rw [show base + BitVec.ofNat 32 (alignUp k (align t)) + BitVec.ofNat 32 (Spec.size t) =
        base + BitVec.ofNat 32 (alignUp k (align t) + Spec.size t) by rw [BitVec.ofNat_add, BitVec.add_assoc]]
      apply storeFields_inv fs m hf.2 base _ s1 hl.2 B hB (by omega) hBd he
      intro i h1 h2
      exact hx _ (hA i (by omega) h2)
theorem storeCase_inv : (cs : Cases) → (i : Nat) → (p : Val) → ListsFitPayload cs i p → (ptr : U32) → (s : St σ) →
    sizeCases cs < 2 ^ 32 → (∀ x, InBlock ptr (sizeCases cs) x → A s.heap x) → Keeps I A (storeCase E cs i p ptr) s
  | .nil, _, _, _, _, _, _, _ => by rw [storeCase]; exact Keeps.crash _
  | .cons l t r cs, 0, p, hf, ptr, s, hs, hA => by
    rw [storeCase]
    rw [ListsFitPayload] at hf
    rw [sizeCases] at hs hA
    apply Keeps.ite
    · intro _; exact Keeps.pure _ _
    · intro _
      apply store_inv t p hf ptr s (by omega)
      rintro x ⟨i, hi, rfl⟩
      exact hA _ ⟨i, by omega, rfl⟩
  | .cons l t r cs, i + 1, p, hf, ptr, s, hs, hA => by
    rw [storeCase]
    rw [ListsFitPayload] at hf
    rw [sizeCases] at hs hA
    apply storeCase_inv cs i p hf ptr s (by omega)
    rintro x ⟨k, hk, rfl⟩
    exact hA _ ⟨k, by omega, rfl⟩
end

end

end Verif.Abi
