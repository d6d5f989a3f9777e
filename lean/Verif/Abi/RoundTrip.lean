import Verif.Abi.StringLemmas

/-!
# `Store` then `Load`
-/

namespace Verif.Abi
open Spec Encoding

variable {σ : Type}

theorem align_dvd_size : (t : Ty) → align t ∣ Spec.size t
  | .bool | .u8 | .s8 | .u16 | .s16 | .u32 | .s32 | .f32 | .char | .own _ | .borrow _ | .u64 | .s64 | .f64 | .string
  | .list _ | .nil | .other => by simp [align, Spec.size]
  | .record fs => by rw [align, Spec.size]; exact alignUp_dvd _ _
  | .variant cs => by rw [align, Spec.size]; exact alignUp_dvd _ _
  | .flags ls => by
    rw [align, Spec.size]
    split
    · exact Nat.one_dvd _
    · split
      · rw [if_neg (by omega)]; exact Nat.dvd_refl 2
      · rw [if_neg (by omega)]; exact ⟨_, rfl⟩

mutual
/-- The value `Load` returns for a stored value. -/
def norm : Ty → Val → Val
  | .f32, v => match v with
    | .f32 x => .f32 (canon32 x)
    | w => w
  | .f64, v => match v with
    | .f64 x => .f64 (canon64 x)
    | w => w
  | .list t, v => match v with
    | .list vs => .list (vs.map (norm t))
    | w => w
  | .record fs, v => match v with
    | .map m => .map (normFields fs m [])
    | w => w
  | .variant cs, v => match v with
    | .map [(key, p)] => match firstLabel cs (splitBar key) with
      | some i => normCase cs cs i p
      | none => .nil
    | w => w
  | .flags ls, v => match v with
    | .map m => .map (normFlags m ls [])
    | w => w
  | _, v => v
/-- The record `LoadRecord` builds. -/
def normFields : Fields → List (String × Val) → List (String × Val) → List (String × Val)
  | .nil, _, acc => acc
  | .cons l t fs, m, acc => normFields fs m (mapSet acc l (norm t (mapGet m l)))
/-- The variant `LoadVariant` builds. -/
def normCase (all : Cases) : Cases → Nat → Val → Val
  | .nil, _, _ => .nil
  | .cons l t r _, 0, p => match caseLabelWithRefinements all l r with
    | .ok label => .map [(label, if t = .nil then .nil else norm t p)]
    | _ => .nil
  | .cons _ _ _ cs, i + 1, p => normCase all cs i p
end

theorem validate_ok (t : Ty) (ptr : U32) (s : St σ) (hl : Laid t) (hg : Good s.mem) (ha : align t ∣ ptr.toNat)
    (hle : ptr.toNat + Spec.size t ≤ s.mem.len) : storeValidate t ptr s = (.ok (), s) := by
  obtain ⟨g1, g2⟩ := hg
  have hal := ofNat_toNat_isAl (align_isAl t)
  unfold storeValidate
  rw [alignment_eq t hl, SM.bind_ok (SM.lift_def _ _), SM.ite_app, if_neg, size_eq t hl (by omega),
    SM.bind_ok (SM.lift_def _ _), SM.bind_get, SM.ite_app, if_neg]
  · rfl
  · rw [BitVec.toNat_add, toNat_ofNat_lt (by omega), Mem.len32, toNat_ofNat_lt g1, Nat.mod_eq_of_lt (by omega)]
    omega
  · rw [Classical.not_not, alignTo_eq_iff _ _ (by rw [hal]; exact align_isAl t), hal]
    exact ha

theorem sext_mod (w : Nat) (hw : w ≤ 64) (x : BitVec w) : BitVec.ofNat w ((x.signExtend 64).toNat % 2 ^ w) = x := by
  apply BitVec.eq_of_toNat_eq
  rw [BitVec.toNat_ofNat, Nat.mod_mod]
  have : (x.signExtend 64).setWidth w = x := by
    apply BitVec.eq_of_getLsbD_eq
    intro i hi
    rw [BitVec.getLsbD_setWidth, BitVec.getLsbD_signExtend]
    simp [hi, show i < 64 by omega]
  have := congrArg BitVec.toNat this
  rwa [BitVec.toNat_setWidth] at this

theorem zext_mod (w : Nat) (hw : w ≤ 64) (x : BitVec w) : BitVec.ofNat w ((x.setWidth 64).toNat % 2 ^ w) = x := by
  apply BitVec.eq_of_toNat_eq
  have : 2 ^ w ≤ 2 ^ 64 := Nat.pow_le_pow_right (by omega) hw
  have := x.isLt
  rw [BitVec.toNat_ofNat, Nat.mod_mod, BitVec.toNat_setWidth, Nat.mod_eq_of_lt (a := x.toNat) (b := 2 ^ 64) (by omega),
    Nat.mod_eq_of_lt this]

theorem char_u32 (c : Char) : (BitVec.ofNat 32 c.toNat).toNat = c.toNat ∧
    convertU32ToRune (BitVec.ofNat 32 c.toNat) = .ok (BitVec.ofNat 32 c.toNat) := by
  have hc := char_range c
  have e := toNat_ofNat_lt (n := c.toNat) (by omega)
  refine ⟨e, ?_⟩
  unfold convertU32ToRune
  rw [e, if_neg (by omega), if_neg (by omega)]

section
variable {E : Env σ} {used : σ → Nat → Prop} (G : GoodAlloc E used) {R : σ → Prop}
  (hR : ∀ a n m h, (∃ p, (E.realloc a n (m, h)).1 = .ok p) ∨ R (E.realloc a n (m, h)).2.2)

/-- An integer of one of the four widths. -/
theorem storeScalar_does (t : Ty) (v : Val) (i : IntInfo) (ptr n : U32) (signed : Bool) (s : St σ) (w : Nat → Val)
    (hi : intInfo v = .ok i) (hs : i.sign = signed) (hn : n = 1 ∨ n = 2 ∨ n = 4 ∨ n = 8) (hz : Abi.size t = .ok n)
    (hw : ∀ q, q = i.u64.toNat % 256 ^ n.toNat → intVal t q = w q) (hg : Good s.mem)
    (hl : ptr.toNat + n.toNat ≤ s.mem.len) :
    Does R (storeInt v ptr n signed) s fun _ s' => Wrote used (Dst ptr.toNat n.toNat)
      (fun s'' => loadInt ptr t s'' = (.ok (w (i.u64.toNat % 256 ^ n.toNat)), s'')) s s' := by
  apply (storeInt_does (R := R) (used := used) v i ptr n signed s hi hs hn hg hl).imp
  intro _ s' h
  refine h.imp (fun _ h => h) ?_
  intro s'' k1 k2 k3
  have := h.step.len
  obtain ⟨k4, k5⟩ := k2
  rw [loadInt_ok t n hz ptr s'' (by omega) (by omega), k3, hw _ rfl]

theorem elem_addr (ptr : U32) (i sz len : Nat) (h : ptr.toNat + i * sz ≤ len) (hl : len < 2 ^ 32) (hs : sz < 2 ^ 32) :
    (ptr + BitVec.ofNat 32 i * BitVec.ofNat 32 sz).toNat = ptr.toNat + i * sz := by
  rw [BitVec.toNat_add, BitVec.toNat_mul, BitVec.toNat_ofNat, toNat_ofNat_lt hs, Nat.mod_mul_mod,
    Nat.mod_eq_of_lt (a := i * sz) (by omega), Nat.mod_eq_of_lt (by omega)]

theorem storeElems_does (f : Val → U32 → SM (St σ) Unit) (g : U32 → SM (St σ) Val) (nf : Val → Val) (ptr : U32)
    (sz al : Nat) (hal : al ∣ ptr.toNat) (hsz : al ∣ sz) (hs32 : sz < 2 ^ 32) : (vs : List Val) → (i : Nat) → (s : St σ) →
    (∀ v ∈ vs, ∀ (p : U32) (s : St σ), Good s.mem → al ∣ p.toNat → p.toNat + sz ≤ s.mem.len →
      (∀ x, Dst p.toNat sz x → used s.heap x) → Does R (f v p) s fun _ s' =>
        Wrote used (Dst p.toNat sz) (fun s'' => g p s'' = (.ok (nf v), s'')) s s') →
    Good s.mem → ptr.toNat + (i + vs.length) * sz ≤ s.mem.len →
    (∀ x, Dst (ptr.toNat + i * sz) (vs.length * sz) x → used s.heap x) →
    Does R (storeElems f ptr (BitVec.ofNat 32 sz) vs i) s fun _ s' =>
      Wrote used (Dst (ptr.toNat + i * sz) (vs.length * sz))
        (fun s'' => loadElems g ptr (BitVec.ofNat 32 sz) vs.length i s'' = (.ok (vs.map nf), s'')) s s'
  | [], i, s, _, hg, _, _ => by
    rw [storeElems]
    apply Does.pure
    refine ⟨Step.refl hg _, fun _ => False, fun _ h => h.elim, ?_⟩
    intro s'' _ _ _
    rfl
  | v :: vs, i, s, hf, hg, hle, hu => by
    have e1 : (i + (v :: vs).length) * sz = i * sz + sz + vs.length * sz := by
      rw [List.length_cons, Nat.add_mul, Nat.add_mul]; omega
    have e2 : (v :: vs).length * sz = sz + vs.length * sz := by
      rw [List.length_cons, Nat.add_mul]; omega
    have e3 : (i + 1) * sz = i * sz + sz := by rw [Nat.add_mul]; omega
    rw [e1] at hle
    rw [e2] at hu
    have hpos := Nat.zero_le (vs.length * sz)
    have ea := elem_addr ptr i sz s.mem.len (by omega) hg.1 hs32
    rw [storeElems]
    apply Does.bind (hf v (by simp) _ s hg (by
      rw [ea]; exact Nat.dvd_add hal (Nat.dvd_trans hsz (Nat.dvd_mul_left _ _))) (by omega) (by
      rw [ea]; intro x hx; apply hu; unfold Dst at *; omega))
    intro _ s1 w1
    have hl1 := w1.step.len
    apply (storeElems_does f g nf ptr sz al hal hsz hs32 vs (i + 1) s1 (fun v' hv' => hf v' (by simp [hv'])) w1.step.good
      (by rw [show (i + 1 + vs.length) * sz = i * sz + sz + vs.length * sz by rw [Nat.add_mul, Nat.add_mul]; omega]; omega)
      (by rw [e3]; intro x hx; apply w1.step.keep; apply hu; unfold Dst at *; omega)).imp
    intro _ s2 w2
    rw [ea] at w1
    rw [e3] at w2
    refine (w1.seq w2 ?_ ?_ ?_).imp ?_ ?_
    · intro x hx; apply hu; unfold Dst at *; omega
    · intro x hx; apply hu; unfold Dst at *; omega
    · intro x hx; unfold Dst at *; omega
    · intro x hx; rw [e2]; unfold Dst at *; omega
    · intro s'' _ _ ⟨p1, p2⟩
      rw [List.length_cons, loadElems, SM.bind_ok p1, SM.bind_ok p2]
      rfl

/-- The discriminant of a case. -/
theorem storeDisc_does (n : Nat) (dt : Disc) (hd : discriminantType n = .ok dt) (i : U32) (hi : i.toNat < n) (ptr : U32)
    (s : St σ) (hg : Good s.mem) (hl : ptr.toNat + dt.bytes.toNat ≤ s.mem.len) :
    Does R (storeInt (.u32 i) ptr dt.bytes false) s fun _ s' => Wrote used (Dst ptr.toNat dt.bytes.toNat)
      (fun s'' => loadDisc ptr dt s'' = (.ok i, s'')) s s' := by
  obtain ⟨h1, h2⟩ := discriminantType_ok n dt hd
  rw [discriminantType_eq n h1 h2] at hd
  injection hd with hd
  have hfit : i.toNat < 256 ^ dt.bytes.toNat := by
    subst hd
    split
    · show _ < 256 ^ 1; omega
    · split
      · show _ < 256 ^ 2; omega
      · show _ < 256 ^ 4; omega
  apply (storeInt_does (R := R) (used := used) (.u32 i) _ ptr dt.bytes false s rfl rfl (by cases dt <;> simp [Disc.bytes])
    hg hl).imp
  intro _ s' h
  refine h.imp (fun _ h => h) ?_
  intro s'' k1 k2 k3
  have := h.step.len
  obtain ⟨k4, k5⟩ := k2
  simp only at k3
  rw [BitVec.toNat_setWidth_of_le (by omega), Nat.mod_eq_of_lt hfit] at k3
  unfold loadDisc
  rw [SM.bind_ok (loadInt_ok dt.ty dt.bytes (disc_size dt) ptr s'' (by omega) (by omega)), k3]
  cases dt with
  | u8 =>
    show (Res.ok ((BitVec.ofNat 8 i.toNat).setWidth 32), s'') = _
    have : (BitVec.ofNat 8 i.toNat).setWidth 32 = i := by
      apply BitVec.eq_of_toNat_eq
      have h' : i.toNat < 2 ^ 8 := hfit
      rw [BitVec.toNat_setWidth, BitVec.toNat_ofNat, Nat.mod_eq_of_lt h', Nat.mod_eq_of_lt i.isLt]
    rw [this]
  | u16 =>
    show (Res.ok ((BitVec.ofNat 16 i.toNat).setWidth 32), s'') = _
    have : (BitVec.ofNat 16 i.toNat).setWidth 32 = i := by
      apply BitVec.eq_of_toNat_eq
      have h' : i.toNat < 2 ^ 16 := hfit
      rw [BitVec.toNat_setWidth, BitVec.toNat_ofNat, Nat.mod_eq_of_lt h', Nat.mod_eq_of_lt i.isLt]
    rw [this]
  | u32 =>
    show (Res.ok (BitVec.ofNat 32 i.toNat), s'') = _
    rw [BitVec.ofNat_toNat, BitVec.setWidth_eq]

include G hR

/-- `StoreListIntoRange` succeeds unless the allocator refuses, and then `LoadListFromRange` returns the list. -/
theorem storeListIntoRange_does (t : Ty) (hlt0 : Laid t) (vs : List Val) (hf1 : vs.length < 2 ^ 32)
    (hf2 : vs.length * Spec.size t < 2 ^ 32) (s : St σ) (hg : Good s.mem)
    (hst : ∀ v ∈ vs, ∀ (p' : U32) (s' : St σ), Good s'.mem → align t ∣ p'.toNat →
      p'.toNat + Spec.size t ≤ s'.mem.len → (∀ x, Dst p'.toNat (Spec.size t) x → used s'.heap x) →
      Does R (store E t v p') s' fun _ s1 => Wrote used (Dst p'.toNat (Spec.size t))
        (fun s'' => load E t p' s'' = (.ok (norm t v), s'')) s' s1) :
    Does R (storeListIntoRange E (store E t) t (.list vs)) s fun r s' =>
      Wrote used (fun _ => False)
        (fun s'' => loadListFromRange (load E t) t r.1 r.2 s'' = (.ok (vs.map (norm t)), s'')) s s' := by
  obtain ⟨z, hz⟩ := size_of_laid t hlt0
  have hnz : vs.length * z.toNat = vs.length * Spec.size t ∧ (vs ≠ [] → z = BitVec.ofNat 32 (Spec.size t)) := by
    rcases vs with _ | ⟨w, ws⟩
    · simp
    · have hlt := size_lt_of_mem_list hf2 (by simp)
      rw [size_eq t hlt0 hlt] at hz
      injection hz with hz
      rw [← hz, toNat_ofNat_lt hlt]
      exact ⟨rfl, fun _ => rfl⟩
  unfold storeListIntoRange
  simp only
  refine .liftBind hz ?_
  refine .liftBind (alignment_eq t hlt0) ?_
  rw [hnz.1]
  have hn := toNat_ofNat_lt hf2
  have hal := ofNat_toNat_isAl (align_isAl t)
  apply Does.bind (alloc_does G hR _ _ s hg)
  intro p s1 ⟨st, b1, b2, b3⟩
  rw [hn] at b2 b3
  rw [hal] at b1
  obtain ⟨g1, g2⟩ := st.good
  apply Does.ite_neg
  · rw [Classical.not_not, alignTo_eq_iff _ _ (by rw [hal]; exact align_isAl t), hal]
    exact b1
  apply Does.get
  have hchk : ∀ m : Mem, Good m → p.toNat + vs.length * Spec.size t ≤ m.len →
      ¬ (p + BitVec.ofNat 32 (vs.length * Spec.size t)).toNat > m.len32.toNat := by
    intro m hm hle
    have := hm.1
    rw [BitVec.toNat_add, hn, Mem.len32, toNat_ofNat_lt hm.1, Nat.mod_eq_of_lt (by omega)]
    omega
  apply Does.ite_neg (hchk _ st.good b2)
  have hload : ∀ s'' : St σ, s1.mem.len ≤ s''.mem.len → Good s''.mem →
      loadElems (load E t) p z vs.length 0 s'' = (.ok (vs.map (norm t)), s'') →
      loadListFromRange (load E t) t p (BitVec.ofNat 32 vs.length) s'' = (.ok (vs.map (norm t)), s'') := by
    intro s'' k1 k2 k3
    unfold loadListFromRange
    rw [alignment_eq t hlt0, SM.bind_ok (SM.lift_def _ _), SM.ite_app, if_neg, hz, SM.bind_ok (SM.lift_def _ _),
      SM.bind_get, SM.ite_app, if_neg, toNat_ofNat_lt hf1]
    · exact k3
    · have : BitVec.ofNat 32 vs.length * z = BitVec.ofNat 32 (vs.length * Spec.size t) := by
        apply BitVec.eq_of_toNat_eq
        rw [BitVec.toNat_mul, toNat_ofNat_lt hf1, hnz.1, BitVec.toNat_ofNat]
      rw [this]
      exact hchk _ k2 (by omega)
    · rw [Classical.not_not, alignTo_eq_iff _ _ (by rw [hal]; exact align_isAl t), hal]
      exact b1
  by_cases hne : vs = []
  · subst hne
    rw [storeElems]
    apply Does.bind (Q := fun _ s' => s' = s1) (.pure rfl)
    rintro _ s2 rfl
    apply Does.pure
    refine ⟨st, fun _ => False, fun _ h => h.elim, ?_⟩
    intro s'' k1 k2 _
    exact hload s'' k1 k2 rfl
  · have hlt := size_lt_of_mem_list hf2 hne
    obtain rfl := hnz.2 hne
    apply Does.bind (storeElems_does (R := R) (used := used) (store E t) (load E t) (norm t) p (Spec.size t) (align t)
      b1 (align_dvd_size t) hlt vs 0 s1 hst st.good (by rw [Nat.zero_add]; exact b2)
        (by rw [Nat.zero_mul]; exact fun x hx => (b3 x hx).1))
    intro _ s2 w
    rw [Nat.zero_mul] at w
    apply Does.pure
    refine (w.fresh st b3).imp (fun _ h => h) ?_
    intro s'' k1 k2 k3
    exact hload s'' (Nat.le_trans w.step.len k1) k2 k3

mutual
/-- `Store` succeeds unless the allocator refuses, and then `Load` returns the value. -/
theorem store_does (henc : E.enc ∈ Spec.encodings) : (t : Ty) → (v : Val) → HasType t v → Wf t → Laid t →
    (Plain t ∨ ∀ h, R h) → ListsFit t v → StringsFit E.enc t v → (ptr : U32) → (s : St σ) → Good s.mem →
    align t ∣ ptr.toNat → ptr.toNat + Spec.size t ≤ s.mem.len → (∀ x, Dst ptr.toNat (Spec.size t) x → used s.heap x) →
    Does R (store E t v ptr) s fun _ s' => Wrote used (Dst ptr.toNat (Spec.size t))
      (fun s'' => load E t ptr s'' = (.ok (norm t v), s'')) s s'
  | .bool, v, hv, _, hl, _, _, _, ptr, s, hg, ha, hle, hu => by
    have hva := validate_ok .bool ptr s hl hg ha hle
    simp only [HasType] at hv
    obtain ⟨b, rfl⟩ := hv
    rw [store_bool]
    unfold Does
    rw [SM.bind_ok hva]
    apply (storeScalar_does (R := R) (used := used) .u8 (.u8 (if b then 1 else 0)) _ ptr 1 false s
      (fun _ => .u8 (if b then 1 else 0)) rfl rfl (.inl rfl) rfl ?_ hg hle).imp
    · intro _ s' w
      refine w.imp (fun _ h => h) ?_
      intro s'' _ _ h
      rw [load]
      unfold loadBool
      rw [SM.bind_ok h]
      cases b <;> rfl
    · intro q hq
      subst hq
      cases b <;> rfl
  | .u8, v, hv, _, hl, _, _, _, ptr, s, hg, ha, hle, hu => by
    have hva := validate_ok .u8 ptr s hl hg ha hle
    simp only [HasType] at hv
    obtain ⟨x, rfl⟩ := hv
    rw [store]
    unfold Does
    rw [SM.bind_ok hva]
    apply (storeScalar_does (R := R) (used := used) .u8 (.u8 x) _ ptr 1 false s (fun _ => .u8 x) rfl rfl (.inl rfl) rfl
      ?_ hg hle).imp
    · intro _ s' w
      refine w.imp (fun _ h => h) ?_
      intro s'' _ _ h
      rw [load]; exact h
    · intro q hq
      subst hq
      exact congrArg Val.u8 (zext_mod 8 (by omega) x)
  | .u16, v, hv, _, hl, _, _, _, ptr, s, hg, ha, hle, hu => by
    have hva := validate_ok .u16 ptr s hl hg ha hle
    simp only [HasType] at hv
    obtain ⟨x, rfl⟩ := hv
    rw [store]
    unfold Does
    rw [SM.bind_ok hva]
    apply (storeScalar_does (R := R) (used := used) .u16 (.u16 x) _ ptr 2 false s (fun _ => .u16 x) rfl rfl (.inr (.inl rfl)) rfl
      ?_ hg hle).imp
    · intro _ s' w
      refine w.imp (fun _ h => h) ?_
      intro s'' _ _ h
      rw [load]; exact h
    · intro q hq
      subst hq
      exact congrArg Val.u16 (zext_mod 16 (by omega) x)
  | .u32, v, hv, _, hl, _, _, _, ptr, s, hg, ha, hle, hu => by
    have hva := validate_ok .u32 ptr s hl hg ha hle
    simp only [HasType] at hv
    obtain ⟨x, rfl⟩ := hv
    rw [store]
    unfold Does
    rw [SM.bind_ok hva]
    apply (storeScalar_does (R := R) (used := used) .u32 (.u32 x) _ ptr 4 false s (fun _ => .u32 x) rfl rfl
      (.inr (.inr (.inl rfl))) rfl ?_ hg hle).imp
    · intro _ s' w
      refine w.imp (fun _ h => h) ?_
      intro s'' _ _ h
      rw [load]; exact h
    · intro q hq
      subst hq
      exact congrArg Val.u32 (zext_mod 32 (by omega) x)
  | .u64, v, hv, _, hl, _, _, _, ptr, s, hg, ha, hle, hu => by
    have hva := validate_ok .u64 ptr s hl hg ha hle
    simp only [HasType] at hv
    obtain ⟨x, rfl⟩ := hv
    rw [store]
    unfold Does
    rw [SM.bind_ok hva]
    apply (storeScalar_does (R := R) (used := used) .u64 (.u64 x) _ ptr 8 false s (fun _ => .u64 x) rfl rfl
      (.inr (.inr (.inr rfl))) rfl ?_ hg hle).imp
    · intro _ s' w
      refine w.imp (fun _ h => h) ?_
      intro s'' _ _ h
      rw [load]; exact h
    · intro q hq
      subst hq
      have := zext_mod 64 (by omega) x
      rw [BitVec.setWidth_eq] at this
      exact congrArg Val.u64 this
  | .s8, v, hv, _, hl, _, _, _, ptr, s, hg, ha, hle, hu => by
    have hva := validate_ok .s8 ptr s hl hg ha hle
    simp only [HasType] at hv
    obtain ⟨x, rfl⟩ := hv
    rw [store]
    unfold Does
    rw [SM.bind_ok hva]
    apply (storeScalar_does (R := R) (used := used) .s8 (.s8 x) _ ptr 1 true s (fun _ => .s8 x) rfl rfl (.inl rfl) rfl
      ?_ hg hle).imp
    · intro _ s' w
      refine w.imp (fun _ h => h) ?_
      intro s'' _ _ h
      rw [load]; exact h
    · intro q hq
      subst hq
      exact congrArg Val.s8 (sext_mod 8 (by omega) x)
  | .s16, v, hv, _, hl, _, _, _, ptr, s, hg, ha, hle, hu => by
    have hva := validate_ok .s16 ptr s hl hg ha hle
    simp only [HasType] at hv
    obtain ⟨x, rfl⟩ := hv
    rw [store]
    unfold Does
    rw [SM.bind_ok hva]
    apply (storeScalar_does (R := R) (used := used) .s16 (.s16 x) _ ptr 2 true s (fun _ => .s16 x) rfl rfl (.inr (.inl rfl)) rfl
      ?_ hg hle).imp
    · intro _ s' w
      refine w.imp (fun _ h => h) ?_
      intro s'' _ _ h
      rw [load]; exact h
    · intro q hq
      subst hq
      exact congrArg Val.s16 (sext_mod 16 (by omega) x)
  | .s32, v, hv, _, hl, _, _, _, ptr, s, hg, ha, hle, hu => by
    have hva := validate_ok .s32 ptr s hl hg ha hle
    simp only [HasType] at hv
    obtain ⟨x, rfl⟩ := hv
    rw [store]
    unfold Does
    rw [SM.bind_ok hva]
    apply (storeScalar_does (R := R) (used := used) .s32 (.s32 x) _ ptr 4 true s (fun _ => .s32 x) rfl rfl
      (.inr (.inr (.inl rfl))) rfl ?_ hg hle).imp
    · intro _ s' w
      refine w.imp (fun _ h => h) ?_
      intro s'' _ _ h
      rw [load]; exact h
    · intro q hq
      subst hq
      exact congrArg Val.s32 (sext_mod 32 (by omega) x)
  | .s64, v, hv, _, hl, _, _, _, ptr, s, hg, ha, hle, hu => by
    have hva := validate_ok .s64 ptr s hl hg ha hle
    simp only [HasType] at hv
    obtain ⟨x, rfl⟩ := hv
    rw [store]
    unfold Does
    rw [SM.bind_ok hva]
    apply (storeScalar_does (R := R) (used := used) .s64 (.s64 x) _ ptr 8 true s (fun _ => .s64 x) rfl rfl
      (.inr (.inr (.inr rfl))) rfl ?_ hg hle).imp
    · intro _ s' w
      refine w.imp (fun _ h => h) ?_
      intro s'' _ _ h
      rw [load]; exact h
    · intro q hq
      subst hq
      have := zext_mod 64 (by omega) x
      rw [BitVec.setWidth_eq] at this
      exact congrArg Val.s64 this
  | .f32, v, hv, _, hl, _, _, _, ptr, s, hg, ha, hle, hu => by
    have hva := validate_ok .f32 ptr s hl hg ha hle
    simp only [HasType] at hv
    obtain ⟨x, rfl⟩ := hv
    rw [store]
    unfold Does
    rw [SM.bind_ok hva]
    apply (storeScalar_does (R := R) (used := used) .u32 (.u32 (canon32 x)) _ ptr 4 false s (fun _ => .u32 (canon32 x)) rfl rfl
      (.inr (.inr (.inl rfl))) rfl ?_ hg hle).imp
    · intro _ s' w
      refine w.imp (fun _ h => h) ?_
      intro s'' _ _ h
      rw [load]
      unfold loadFloat32
      have : loadUInt32 ptr s'' = (.ok (canon32 x), s'') := by
        unfold loadUInt32; rw [SM.bind_ok h]; rfl
      rw [SM.bind_ok this, canon32_idem]; rfl
    · intro q hq
      subst hq
      exact congrArg Val.u32 (zext_mod 32 (by omega) _)
  | .f64, v, hv, _, hl, _, _, _, ptr, s, hg, ha, hle, hu => by
    have hva := validate_ok .f64 ptr s hl hg ha hle
    simp only [HasType] at hv
    obtain ⟨x, rfl⟩ := hv
    rw [store]
    unfold Does
    rw [SM.bind_ok hva]
    apply (storeScalar_does (R := R) (used := used) .u64 (.u64 (canon64 x)) _ ptr 8 false s (fun _ => .u64 (canon64 x)) rfl rfl
      (.inr (.inr (.inr rfl))) rfl ?_ hg hle).imp
    · intro _ s' w
      refine w.imp (fun _ h => h) ?_
      intro s'' _ _ h
      rw [load]
      unfold loadFloat64
      have : loadUInt64 ptr s'' = (.ok (canon64 x), s'') := by
        unfold loadUInt64; rw [SM.bind_ok h]; rfl
      rw [SM.bind_ok this, canon64_idem]; rfl
    · intro q hq
      subst hq
      have := zext_mod 64 (by omega) (canon64 x)
      rw [BitVec.setWidth_eq] at this
      exact congrArg Val.u64 this
  | .char, v, hv, _, hl, _, _, _, ptr, s, hg, ha, hle, hu => by
    have hva := validate_ok .char ptr s hl hg ha hle
    simp only [HasType] at hv
    obtain ⟨c, rfl⟩ := hv
    obtain ⟨-, hc⟩ := char_u32 c
    rw [store_char]
    unfold Does
    rw [SM.bind_ok hva]
    apply (storeScalar_does (R := R) (used := used) .u32 (.u32 (BitVec.ofNat 32 c.toNat)) _ ptr 4 false s
      (fun _ => .u32 (BitVec.ofNat 32 c.toNat)) rfl rfl (.inr (.inr (.inl rfl))) rfl ?_ hg hle).imp
    · intro _ s' w
      refine w.imp (fun _ h => h) ?_
      intro s'' _ _ h
      rw [load]
      unfold loadChar
      have : loadIntWithSize ptr 4 false s'' = (.ok (.u32 (BitVec.ofNat 32 c.toNat)), s'') := h
      rw [SM.bind_ok this]
      simp only
      rw [hc]; rfl
    · intro q hq
      subst hq
      exact congrArg Val.u32 (zext_mod 32 (by omega) _)
  | .string, v, hv, _, hl, _, _, hsf, ptr, s, hg, ha, hle, hu => by
    have hva := validate_ok .string ptr s hl hg ha hle
    simp only [HasType] at hv
    obtain ⟨str, rfl⟩ := hv
    rw [StringsFit] at hsf
    obtain ⟨hs1, hs2⟩ := hsf str rfl
    rw [store_string]
    unfold Does
    rw [SM.bind_ok hva]
    have hsz : Spec.size .string = 8 := by simp [Spec.size]
    rw [hsz] at hle hu ⊢
    show Does R (storeString E str ptr) s _
    unfold storeString
    apply Does.bind (storeStringIntoRange_does G hR str henc hs1 hs2 s hg)
    rintro ⟨p, n⟩ s1 ⟨w, -, -⟩
    have := w.step.len
    apply (storePair_does (R := R) (used := used) p n ptr s1 w.step.good (by omega) (fun x hx => w.step.keep x (hu x hx))).imp
    intro _ s2 w2
    refine (w.seq w2 (fun _ h => h.elim) hu (fun _ h => h.elim)).imp (fun x h => by simpa using h) ?_
    intro s'' _ _ ⟨p1, p2, p3⟩
    rw [load]
    unfold loadString
    have : (do
      let b ← loadUInt32 ptr
      let n ← loadUInt32 (ptr + 4)
      loadStringFromRange E b n : SM (St σ) String) s'' = (.ok str, s'') := by
      rw [SM.bind_ok p2, SM.bind_ok p3]; exact p1
    rw [SM.bind_ok this]; rfl
  | .list t, v, hv, hw, hl, hp, hlf, hsf, ptr, s, hg, ha, hle, hu => by
    have hva := validate_ok (.list t) ptr s hl hg ha hle
    rw [HasType] at hv
    obtain ⟨vs, rfl, hv⟩ := hv
    rw [StringsFit] at hsf
    have hsf := hsf vs rfl
    rw [ListsFit] at hlf
    obtain ⟨hf1, hf2, hf3⟩ := hlf vs rfl
    rw [Wf] at hw
    rw [store]
    unfold Does
    rw [SM.bind_ok hva]
    have hsz : Spec.size (.list t) = 8 := by simp [Spec.size]
    rw [hsz] at hle hu ⊢
    show Does R (storeList E (store E t) t (.list vs) ptr) s _
    unfold storeList
    apply Does.bind (storeListIntoRange_does G hR t hw.1 vs hf1 hf2 s hg (fun v hm p' s' g' a' l' u' =>
      store_does henc t v (hv v hm) hw.2 hw.1 (hp.imp_left (fun h => by simpa [Plain] using h)) (hf3 v hm)
        (hsf v hm) p' s' g' a' l' u'))
    rintro ⟨p, n⟩ s1 w
    have := w.step.len
    apply (storePair_does (R := R) (used := used) p n ptr s1 w.step.good (by omega) (fun x hx => w.step.keep x (hu x hx))).imp
    intro _ s2 w2
    refine (w.seq w2 (fun _ h => h.elim) hu (fun _ h => h.elim)).imp (fun x h => by simpa using h) ?_
    intro s'' _ _ ⟨p1, p2, p3⟩
    rw [load]
    unfold loadList
    have : (do
      let b ← loadUInt32 ptr
      let n ← loadUInt32 (ptr + 4)
      loadListFromRange (load E t) t b n : SM (St σ) (List Val)) s'' = (.ok (vs.map (norm t)), s'') := by
      rw [SM.bind_ok p2, SM.bind_ok p3]; exact p1
    rw [SM.bind_ok this, norm]; rfl
  | .record fs, v, hv, hw, hl, hp, hlf, hsf, ptr, s, hg, ha, hle, hu => by
    have hva := validate_ok (.record fs) ptr s hl hg ha hle
    rw [HasType] at hv
    obtain ⟨m, rfl, hv⟩ := hv
    rw [StringsFit] at hsf
    have hsf := hsf m rfl
    rw [ListsFit] at hlf
    have hlf := hlf m rfl
    rw [Wf] at hw
    simp only [Laid] at hl
    rw [align] at ha
    rw [Spec.size] at hle hu ⊢
    have h0 := le_alignUp (n := fieldsEnd fs 0) (alignFields_isAl fs).pos
    rw [store_record]
    unfold Does
    rw [SM.bind_ok hva]
    have := storeFields_does henc fs m hv hw.2 hl (hp.imp_left (fun h => by simpa [Plain] using h)) hlf hsf ptr 0 s hg
      (alignFields fs) (alignFields_isAl fs) (Nat.le_refl _) ha (by omega)
      (by intro x hx; apply hu; unfold Dst at *; omega)
    rw [show ptr + BitVec.ofNat 32 0 = ptr by simp] at this
    apply this.imp
    intro _ s' w
    refine w.imp ?_ ?_
    · intro x hx; unfold Dst at *; omega
    · intro s'' _ _ h
      rw [load, norm]
      exact h []
  | .variant cs, v, hv, hw, hl, hp, hlf, hsf, ptr, s, hg, ha, hle, hu => by
    have hva := validate_ok (.variant cs) ptr s hl hg ha hle
    rw [HasType] at hv
    obtain ⟨key, p, i, rfl, hsel, hv⟩ := hv
    rw [StringsFit] at hsf
    have hsf := hsf key p i rfl hsel
    rw [ListsFit] at hlf
    have hlf := hlf key p i rfl hsel
    rw [Wf] at hw
    obtain ⟨hw1, hw2, hw3, hw4⟩ := hw
    simp only [Laid] at hl
    rw [align] at ha
    have g1 := hg.1
    have hd1 : alignCases cs ∣ ptr.toNat := Nat.dvd_trans ((discBytes_isAl _).dvd_max_right (alignCases_isAl cs)) ha
    have hge : payloadOffset cs + sizeCases cs ≤ Spec.size (.variant cs) := by
      rw [Spec.size]
      exact le_alignUp ((discBytes_isAl cs.length).max (alignCases_isAl cs)).pos
    have hdb : discBytes cs.length ≤ payloadOffset cs := le_alignUp (alignCases_isAl cs).pos
    have hil := hsel.lt
    have hi32 := toNat_ofNat_lt (n := i) (by omega)
    have hmc : matchCase (.map [(key, p)]) cs = .ok (BitVec.ofNat 32 i, p) :=
      (matchCase_ok _ cs (by omega) _ _).2 ⟨key, rfl, by rw [hi32]; exact hsel⟩
    have hdt := discriminantType_eq cs.length hl.1 hl.2.1
    generalize (if cs.length ≤ 2 ^ 8 then Disc.u8 else if cs.length ≤ 2 ^ 16 then Disc.u16 else Disc.u32) = dt at hdt
    have hdb' := disc_bytes _ _ hdt
    have hb : dt.bytes = BitVec.ofNat 32 (discBytes cs.length) := by
      apply BitVec.eq_of_toNat_eq
      rw [hdb', ofNat_toNat_isAl (discBytes_isAl _)]
    have hma : maxCaseAlignment cs 1 = .ok (BitVec.ofNat 32 (alignCases cs)) := by
      rw [maxCaseAlignment_eq cs hl.2.2 1 (.inl rfl)]
      have := (alignCases_isAl cs).pos
      show Res.ok (BitVec.ofNat 32 (max 1 (alignCases cs))) = _
      rw [Nat.max_eq_right this]
    have haddr : alignTo (ptr + dt.bytes) (BitVec.ofNat 32 (alignCases cs)) = ptr + BitVec.ofNat 32 (payloadOffset cs) := by
      rw [hb, alignTo_add ptr _ _ (alignCases_isAl cs) hd1]; rfl
    have hptr : (ptr + BitVec.ofNat 32 (payloadOffset cs)).toNat = ptr.toNat + payloadOffset cs := by
      rw [BitVec.toNat_add, toNat_ofNat_lt (by omega), Nat.mod_eq_of_lt (by omega)]
    rw [store]
    unfold Does
    rw [SM.bind_ok hva]
    show Does R _ s _
    refine .liftBind hmc ?_
    refine .liftBind hdt ?_
    refine .liftBind (disc_size dt) ?_
    apply Does.bind (storeDisc_does (R := R) (used := used) cs.length dt hdt (BitVec.ofNat 32 i) (by omega) ptr s hg (by omega))
    intro _ s1 w1
    refine .liftBind hma ?_
    rw [haddr]
    have hlen1 := w1.step.len
    simp only
    rw [hi32]
    have hsub : ∀ x, Dst (ptr + BitVec.ofNat 32 (payloadOffset cs)).toNat (sizeCases cs) x → used s.heap x := by
      intro x hx; apply hu; unfold Dst at *; omega
    apply (storeCase_does henc cs cs i p hv hw4 hl.2.2 (hp.imp_left (fun h => by simpa [Plain] using h)) hlf hsf
      (ptr + BitVec.ofNat 32 (payloadOffset cs)) s1 w1.step.good ?_ (by omega)
      (fun x hx => w1.step.keep x (hsub x hx)) (fun k l t r hk => hw3 k l t r hk)).imp
    · intro _ s2 w2
      refine (w1.seq w2 ?_ hsub ?_).imp ?_ ?_
      · intro x hx; apply hu; unfold Dst at *; omega
      · intro x hx; unfold Dst at *; omega
      · intro x hx; unfold Dst at *; omega
      · intro s'' _ _ ⟨p1, p2⟩
        rw [load, hdt, SM.bind_ok (SM.lift_def _ _), SM.bind_ok p1, disc_size, SM.bind_ok (SM.lift_def _ _), SM.ite_app,
          if_neg, hma, SM.bind_ok (SM.lift_def _ _), haddr, hi32, p2, norm]
        · rw [(firstLabel_iff cs key i).2 hsel]
        · rw [hi32, toNat_ofNat_lt (by omega)]; omega
    · rw [hptr]
      exact Nat.dvd_add hd1 (alignUp_dvd _ _)
  | .flags ls, v, hv, hw, hl, _, _, _, ptr, s, hg, ha, hle, hu => by
    have hva := validate_ok (.flags ls) ptr s hl hg ha hle
    rw [HasType] at hv
    obtain ⟨m, rfl, hv⟩ := hv
    rw [Wf] at hw
    have h1 := hg.1
    have hz := size_eq (.flags ls) (by simp [Laid]) (by omega)
    rw [Abi.size] at hz
    injection hz with hz
    have hz' : (sizeFlags ls.length).toNat = Spec.size (.flags ls) := by
      rw [hz, toNat_ofNat_lt (by omega)]
    rw [store]
    unfold Does
    rw [SM.bind_ok hva]
    apply (storeFlags_does (R := R) (used := used) m ls hw.2 hv ptr s hg (by omega)).imp
    intro _ s' w
    rw [hz'] at w
    refine w.imp (fun _ h => h) ?_
    intro s'' _ _ h
    rw [load, norm]; exact h
  | .own rt, _, _, _, _, hp, _, _, ptr, s, _, _, _, _ => by
    refine .any (hp.resolve_left (by simp [Plain])) ?_
    intro a s' h
    rw [store] at h
    obtain ⟨_, _, _, h⟩ := SM.bind_eq_ok.1 h
    cases h
  | .borrow rt, _, _, _, _, hp, _, _, ptr, s, _, _, _, _ => by
    refine .any (hp.resolve_left (by simp [Plain])) ?_
    intro a s' h
    rw [store] at h
    obtain ⟨_, _, _, h⟩ := SM.bind_eq_ok.1 h
    cases h
  | .nil, _, hv, _, _, _, _, _, _, _, _, _, _, _ => by simp [HasType] at hv
  | .other, _, hv, _, _, _, _, _, _, _, _, _, _, _ => by simp [HasType] at hv
theorem storeFields_does (henc : E.enc ∈ Spec.encodings) : (fs : Fields) → (m : List (String × Val)) → HasFields fs m →
    WfFields fs → LaidFields fs → (PlainFields fs ∨ ∀ h, R h) → ListsFitFields fs m → StringsFitFields E.enc fs m →
    (base : U32) → (k : Nat) → (s : St σ) → Good s.mem → (B : Nat) → IsAl B → alignFields fs ≤ B → B ∣ base.toNat →
    base.toNat + fieldsEnd fs k ≤ s.mem.len →
    (∀ x, Dst (base.toNat + k) (fieldsEnd fs k - k) x → used s.heap x) →
    Does R (storeFields E fs m (base + BitVec.ofNat 32 k)) s fun _ s' =>
      Wrote used (Dst (base.toNat + k) (fieldsEnd fs k - k)) (fun s'' => ∀ acc,
        loadFields E fs (base + BitVec.ofNat 32 k) acc s'' = (.ok (.map (normFields fs m acc)), s'')) s s'
  | .nil, m, _, _, _, _, _, _, base, k, s, hg, _, _, _, _, _, _ => by
    rw [storeFields]
    apply Does.pure
    refine ⟨Step.refl hg _, fun _ => False, fun _ h => h.elim, ?_⟩
    intro s'' _ _ _ acc
    rw [loadFields, normFields]; rfl
  | .cons l t fs, m, hv, hw, hl, hp, hlf, hsf, base, k, s, hg, B, hB, hBl, hBd, hle, hu => by
    rw [HasFields] at hv
    rw [ListsFitFields] at hlf
    rw [StringsFitFields] at hsf
    rw [WfFields] at hw
    simp only [LaidFields] at hl
    rw [alignFields] at hBl
    rw [fieldsEnd] at hle hu
    have g1 := fieldsEnd_ge fs (alignUp k (align t) + Spec.size t)
    have g2 := le_alignUp (n := k) (align_isAl t).pos
    have g3 := hg.1
    have hd : align t ∣ base.toNat := Nat.dvd_trans ((align_isAl t).dvd_of_le hB (by omega)) hBd
    have hptr : (base + BitVec.ofNat 32 (alignUp k (align t))).toNat = base.toNat + alignUp k (align t) := by
      rw [BitVec.toNat_add, toNat_ofNat_lt (by omega), Nat.mod_eq_of_lt (by omega)]
    have hnext : base + BitVec.ofNat 32 (alignUp k (align t)) + BitVec.ofNat 32 (Spec.size t) =
        base + BitVec.ofNat 32 (alignUp k (align t) + Spec.size t) := by rw [BitVec.ofNat_add, BitVec.add_assoc]
    rw [storeFields]
    refine .liftBind (alignment_eq t hl.1) ?_
    rw [alignTo_add base k _ (align_isAl t) hd]
    simp only
    have hsub : ∀ x, Dst (base + BitVec.ofNat 32 (alignUp k (align t))).toNat (Spec.size t) x → used s.heap x := by
      intro x hx; apply hu; unfold Dst at *; omega
    apply Does.bind (store_does henc t (mapGet m l) hv.1 hw.1 hl.1 (hp.imp_left (fun h => by
      simp only [PlainFields] at h; exact h.1)) hlf.1 hsf.1 _ s hg
      (by rw [hptr]; exact Nat.dvd_add hd (alignUp_dvd _ _)) (by omega) hsub)
    intro _ s1 w1
    have hlen1 := w1.step.len
    refine .liftBind (size_eq t hl.1 (by omega)) ?_
    rw [hnext]
    have hsub2 : ∀ x, Dst (base.toNat + (alignUp k (align t) + Spec.size t))
        (fieldsEnd fs (alignUp k (align t) + Spec.size t) - (alignUp k (align t) + Spec.size t)) x → used s.heap x := by
      intro x hx; apply hu; unfold Dst at *; omega
    apply (storeFields_does henc fs m hv.2 hw.2 hl.2 (hp.imp_left (fun h => by
      simp only [PlainFields] at h; exact h.2)) hlf.2 hsf.2 base (alignUp k (align t) + Spec.size t) s1 w1.step.good B hB
      (by omega) hBd (by omega) (fun x hx => w1.step.keep x (hsub2 x hx))).imp
    intro _ s2 w2
    rw [fieldsEnd]
    refine (w1.seq w2 hsub hsub2 ?_).imp ?_ ?_
    · intro x hx; unfold Dst at *; omega
    · intro x hx; unfold Dst at *; omega
    · intro s'' _ _ ⟨p1, p2⟩ acc
      rw [loadFields, alignment_eq t hl.1, SM.bind_ok (SM.lift_def _ _), alignTo_add base k _ (align_isAl t) hd]
      rw [SM.bind_ok p1, size_eq t hl.1 (by omega), SM.bind_ok (SM.lift_def _ _), hnext, p2, normFields]
theorem storeCase_does (henc : E.enc ∈ Spec.encodings) (all : Cases) : (cs : Cases) → (i : Nat) → (p : Val) →
    HasPayload cs i p → WfCases cs → LaidCases cs → (PlainCases cs ∨ ∀ h, R h) → ListsFitPayload cs i p →
    StringsFitPayload E.enc cs i p → (ptr : U32) → (s : St σ) → Good s.mem → alignCases cs ∣ ptr.toNat →
    ptr.toNat + sizeCases cs ≤ s.mem.len → (∀ x, Dst ptr.toNat (sizeCases cs) x → used s.heap x) →
    (∀ k l t r, cs.get? k = some (l, t, r) → ∃ ls, Chain all l r ls) →
    Does R (storeCase E cs i p ptr) s fun _ s' => Wrote used (Dst ptr.toNat (sizeCases cs))
      (fun s'' => loadCase E all cs i ptr s'' = (.ok (normCase all cs i p), s'')) s s'
  | .nil, _, _, hv, _, _, _, _, _, _, _, _, _, _, _, _ => by simp [HasPayload] at hv
  | .cons l t r cs, 0, p, hv, hw, hl, hp, hlf, hsf, ptr, s, hg, ha, hle, hu, hch => by
    rw [HasPayload] at hv
    rw [ListsFitPayload] at hlf
    rw [StringsFitPayload] at hsf
    rw [WfCases] at hw
    simp only [LaidCases] at hl
    rw [alignCases] at ha
    rw [sizeCases] at hle hu ⊢
    obtain ⟨ls, hls⟩ := hch 0 l t r rfl
    have hlab := caseLabel_chain hls
    rw [storeCase]
    by_cases ht : t = .nil
    · rw [if_pos ht]
      apply Does.pure
      refine ⟨Step.refl hg _, fun _ => False, fun _ h => h.elim, ?_⟩
      intro s'' _ _ _
      rw [loadCase, normCase, hlab, SM.bind_ok (SM.lift_def _ _), SM.ite_app, if_pos ht]
      simp only
      rw [if_pos ht]; rfl
    · rw [if_neg ht]
      have hda : align t ∣ ptr.toNat := Nat.dvd_trans ((align_isAl t).dvd_max_left (alignCases_isAl cs)) ha
      apply (store_does henc t p (hv.resolve_left ht) hw.1 (hl.1.resolve_left ht) (hp.imp_left (fun h => by
        simp only [PlainCases] at h; exact h.1)) hlf hsf ptr s hg hda (by omega)
        (fun x hx => hu x (by unfold Dst at *; omega))).imp
      intro _ s' w
      refine w.imp ?_ ?_
      · intro x hx; unfold Dst at *; omega
      · intro s'' _ _ h
        rw [loadCase, normCase, hlab, SM.bind_ok (SM.lift_def _ _), SM.ite_app, if_neg ht, SM.bind_ok h]
        simp only
        rw [if_neg ht]; rfl
  | .cons l t r cs, i + 1, p, hv, hw, hl, hp, hlf, hsf, ptr, s, hg, ha, hle, hu, hch => by
    rw [HasPayload] at hv
    rw [ListsFitPayload] at hlf
    rw [StringsFitPayload] at hsf
    rw [WfCases] at hw
    simp only [LaidCases] at hl
    rw [alignCases] at ha
    rw [sizeCases] at hle hu ⊢
    rw [storeCase]
    apply (storeCase_does henc all cs i p hv hw.2 hl.2 (hp.imp_left (fun h => by
      simp only [PlainCases] at h; exact h.2)) hlf hsf ptr s hg
      (Nat.dvd_trans ((align_isAl t).dvd_max_right (alignCases_isAl cs)) ha) (by omega)
      (fun x hx => hu x (by unfold Dst at *; omega)) (fun k l' t' r' hk => hch (k + 1) l' t' r' hk)).imp
    intro _ s' w
    refine w.imp ?_ ?_
    · intro x hx; unfold Dst at *; omega
    · intro s'' _ _ h
      rw [loadCase, normCase]; exact h
end

end

end Verif.Abi
