import Verif.Abi.LoadLemmas

/-!
# `Load` returns and reads inside memory, if no pair wraps around
-/

namespace Verif.Abi
open Encoding Spec

variable {σ : Type}

theorem loadInt_ret {s s' : St σ} (h : Alike s s') (t : Ty) (ptr : U32) (n : U32) (hn : Abi.size t = .ok n)
    (hl : ptr.toNat + n.toNat ≤ s.mem.len) {β : Type} {f : Val → SM (St σ) β}
    (hf : ∀ x, x < 256 ^ n.toNat → x = natAt s.mem ptr.toNat n.toNat → Reads (f (intVal t x)) s s') :
    Reads (loadInt ptr t >>= f) s s' := by
  obtain ⟨h1, h2, h3, h4, h5, -⟩ := id h
  have e := loadInt_ok t n hn ptr s (by omega) (by omega)
  refine .bind (loadInt_reads h t n hn ptr hl) fun v w ew => ?_
  rw [e] at ew
  injection ew with e1 e2
  injection e1 with e1
  have e3 : w = s.world := (congrArg St.world e2).symm
  subst e3
  rw [h.same, ← e1]
  refine hf _ ?_ ?_
  · have := leNat_lt (s.mem.read ptr.toNat n.toNat)
    rwa [Mem.read_length] at this
  · rw [natAt_eq]

/-- After a word has been read. -/
theorem loadUInt32_ret {s s' : St σ} (h : Alike s s') (ptr : U32) (hl : ptr.toNat + 4 ≤ s.mem.len) {β : Type}
    {f : U32 → SM (St σ) β} (hf : ∀ x : U32, x.toNat = natAt s.mem ptr.toNat 4 → Reads (f x) s s') :
    Reads (loadUInt32 ptr >>= f) s s' := by
  obtain ⟨h1, h2, h3, h4, h5, -⟩ := id h
  refine .bind (loadUInt32_reads h ptr hl) fun x w e => ?_
  have hx := loadUInt32_natAt ptr s _ x h3 h4 hl e
  rw [loadUInt32_ok ptr s (by omega) (by omega)] at e
  injection e with _ e2
  have e3 : w = s.world := (congrArg St.world e2).symm
  subst e3
  rw [h.same]
  exact hf x hx

theorem loadIntWithSize_reads {s s' : St σ} (h : Alike s s') (ptr n : U32) (hl : ptr.toNat + n.toNat ≤ s.mem.len) :
    Reads (loadIntWithSize ptr n false) s s' := by
  unfold loadIntWithSize
  split
  · exact .pure h _
  split
  · rename_i e; subst e; exact loadInt_reads h .u8 1 rfl ptr hl
  split
  · rename_i e; subst e; exact loadInt_reads h .u16 2 rfl ptr hl
  split
  · rename_i e; subst e; exact loadInt_reads h .u32 4 rfl ptr hl
  split
  · rename_i e; subst e; exact loadInt_reads h .u64 8 rfl ptr hl
  · have : ∀ u : St σ, loadInt ptr .nil u = (.err, u) := fun u => rfl
    exact .of_err h (this s) (this s')

theorem loadFlags_reads {s s' : St σ} (h : Alike s s') (ptr : U32) (ls : List String)
    (hl : ptr.toNat + (sizeFlags ls.length).toNat ≤ s.mem.len) : Reads (loadFlags ptr ls) s s' := by
  unfold loadFlags
  refine .bind ?_ fun x w _ => .pure (h.withWorld w) _
  unfold loadFlagsWord
  generalize sizeFlags ls.length = n at *
  obtain ⟨h1, h2, h3, h4, h5, -⟩ := id h
  have e4 : (4 : U32).toNat = 4 := rfl
  by_cases n1 : n = 1
  · subst n1
    have e1 : loadIntWithSize (σ := σ) ptr 1 false = loadInt ptr .u8 := rfl
    rw [e1]
    exact loadInt_ret h .u8 ptr 1 rfl hl fun x _ _ => .pure h _
  by_cases n2 : n = 2
  · subst n2
    have e1 : loadIntWithSize (σ := σ) ptr 2 false = loadInt ptr .u16 := rfl
    rw [e1]
    exact loadInt_ret h .u16 ptr 2 rfl hl fun x _ _ => .pure h _
  by_cases n4 : n = 4
  · subst n4
    have e1 : loadIntWithSize (σ := σ) ptr 4 false = loadInt ptr .u32 := rfl
    rw [e1]
    exact loadInt_ret h .u32 ptr 4 rfl hl fun x _ _ => .pure h _
  by_cases n8 : n = 8
  · subst n8
    have e1 : loadIntWithSize (σ := σ) ptr 8 false = loadInt ptr .u64 := rfl
    rw [e1]
    exact loadInt_ret h .u64 ptr 8 rfl hl fun x _ _ => .pure h _
  refine .bind (loadIntWithSize_reads h ptr n hl) fun v w _ => ?_
  rw [if_neg n1, if_neg n2, if_neg n4, if_neg n8]
  exact .pure (h.withWorld w) _

/-- The discriminant read is the number in its bytes. -/
theorem loadDisc_ret {s s' : St σ} (h : Alike s s') (n : Nat) (d : Disc) (hd : discriminantType n = .ok d) (ptr : U32)
    (hl : ptr.toNat + discBytes n ≤ s.mem.len) {β : Type} {f : U32 → SM (St σ) β}
    (hf : ∀ x : U32, x.toNat = natAt s.mem ptr.toNat (discBytes n) → Reads (f x) s s') :
    Reads (loadDisc ptr d >>= f) s s' := by
  have hb := disc_bytes n d hd
  have key : ∃ x : U32, x.toNat = natAt s.mem ptr.toNat (discBytes n) ∧ loadDisc ptr d s = (.ok x, s) ∧
      loadDisc ptr d s' = (.ok x, s') := by
    obtain ⟨h1, h2, h3, h4, h5, -⟩ := id h
    have hr : ∀ k, leNat (s.mem.read ptr.toNat k) < 256 ^ k := fun k => by
      have := leNat_lt (s.mem.read ptr.toNat k); rwa [Mem.read_length] at this
    rw [← hb] at hl ⊢
    cases d with
    | u8 =>
      have hl' : ptr.toNat + 1 ≤ s.mem.len := hl
      have g := hr 1
      refine ⟨(BitVec.ofNat 8 (leNat (s.mem.read ptr.toNat 1))).setWidth 32, ?_, ?_, ?_⟩
      · show _ = natAt s.mem ptr.toNat 1
        rw [natAt_eq]; simp only [BitVec.toNat_setWidth, BitVec.toNat_ofNat]; omega
      · unfold loadDisc Disc.ty; simp only
        rw [SM.bind_ok (loadInt_ok .u8 1 rfl ptr s (by show _ + 1 < _; omega) (by show _ + 1 ≤ _; omega))]; rfl
      · unfold loadDisc Disc.ty; simp only
        rw [← h.read ptr.toNat 1 hl', SM.bind_ok (loadInt_ok .u8 1 rfl ptr s' (by show _ + 1 < _; omega) (by show _ + 1 ≤ _; omega))]; rfl
    | u16 =>
      have hl' : ptr.toNat + 2 ≤ s.mem.len := hl
      have g := hr 2
      refine ⟨(BitVec.ofNat 16 (leNat (s.mem.read ptr.toNat 2))).setWidth 32, ?_, ?_, ?_⟩
      · show _ = natAt s.mem ptr.toNat 2
        rw [natAt_eq]; simp only [BitVec.toNat_setWidth, BitVec.toNat_ofNat]; omega
      · unfold loadDisc Disc.ty; simp only
        rw [SM.bind_ok (loadInt_ok .u16 2 rfl ptr s (by show _ + 2 < _; omega) (by show _ + 2 ≤ _; omega))]; rfl
      · unfold loadDisc Disc.ty; simp only
        rw [← h.read ptr.toNat 2 hl', SM.bind_ok (loadInt_ok .u16 2 rfl ptr s' (by show _ + 2 < _; omega) (by show _ + 2 ≤ _; omega))]; rfl
    | u32 =>
      have hl' : ptr.toNat + 4 ≤ s.mem.len := hl
      have g := hr 4
      refine ⟨BitVec.ofNat 32 (leNat (s.mem.read ptr.toNat 4)), ?_, ?_, ?_⟩
      · show _ = natAt s.mem ptr.toNat 4
        rw [natAt_eq]; simp only [BitVec.toNat_ofNat]; omega
      · unfold loadDisc Disc.ty; simp only
        rw [SM.bind_ok (loadInt_ok .u32 4 rfl ptr s (by show _ + 4 < _; omega) (by show _ + 4 ≤ _; omega))]; rfl
      · unfold loadDisc Disc.ty; simp only
        rw [← h.read ptr.toNat 4 hl', SM.bind_ok (loadInt_ok .u32 4 rfl ptr s' (by show _ + 4 < _; omega) (by show _ + 4 ≤ _; omega))]; rfl
  obtain ⟨x, hx, e, e'⟩ := key
  obtain ⟨r, w, hr, g, g'⟩ := hf x hx
  exact ⟨r, w, hr, by rw [SM.bind_ok e, g], by rw [SM.bind_ok e', g']⟩

theorem onWorld_reads {α : Type} {s s' : St σ} (h : Alike s s') (f : SM Handles.World α) (hf : ∀ w, (f w).1.Returns) :
    Reads (onWorld f) s s' :=
  ⟨(f s.world).1, (f s.world).2, hf _, rfl, by unfold onWorld; rw [h.world]⟩

theorem sizeFlags_spec (ls : List String) (h : Spec.size (.flags ls) < 2 ^ 32) :
    (sizeFlags ls.length).toNat = Spec.size (.flags ls) := by
  have := size_eq (.flags ls) (by simp [Laid]) h
  simp only [Abi.size] at this
  injection this with this
  rw [this, toNat_ofNat_lt h]

mutual
/-- With everything in bounds and no pair wrapping around, `Load` returns, and what is outside memory is not read. -/
theorem load_reads (E : Env σ) : (t : Ty) → Chains t → Laid t → (ptr : U32) → (s s' : St σ) → Alike s s' →
    align t ∣ ptr.toNat → ptr.toNat + Spec.size t ≤ s.mem.len → NoWrap E.enc s.mem t ptr.toNat →
    Reads (load E t ptr) s s'
  | .bool, _, _, ptr, s, s', h, _, hl, _ => by
    rw [load, loadBool]
    exact loadInt_ret h .u8 ptr 1 rfl hl fun x _ _ => .pure h _
  | .u8, _, _, ptr, s, s', h, _, hl, _ => by rw [load]; exact loadInt_reads h .u8 1 rfl ptr hl
  | .u16, _, _, ptr, s, s', h, _, hl, _ => by rw [load]; exact loadInt_reads h .u16 2 rfl ptr hl
  | .u32, _, _, ptr, s, s', h, _, hl, _ => by rw [load]; exact loadInt_reads h .u32 4 rfl ptr hl
  | .u64, _, _, ptr, s, s', h, _, hl, _ => by rw [load]; exact loadInt_reads h .u64 8 rfl ptr hl
  | .s8, _, _, ptr, s, s', h, _, hl, _ => by rw [load]; exact loadInt_reads h .s8 1 rfl ptr hl
  | .s16, _, _, ptr, s, s', h, _, hl, _ => by rw [load]; exact loadInt_reads h .s16 2 rfl ptr hl
  | .s32, _, _, ptr, s, s', h, _, hl, _ => by rw [load]; exact loadInt_reads h .s32 4 rfl ptr hl
  | .s64, _, _, ptr, s, s', h, _, hl, _ => by rw [load]; exact loadInt_reads h .s64 8 rfl ptr hl
  | .f32, _, _, ptr, s, s', h, _, hl, _ => by
    rw [load, loadFloat32]
    exact loadUInt32_ret h ptr hl fun x _ => .pure h _
  | .f64, _, _, ptr, s, s', h, _, hl, _ => by
    rw [load, loadFloat64]
    exact .bind (loadUInt64_reads h ptr hl) fun x w _ => .pure (h.withWorld w) _
  | .char, _, _, ptr, s, s', h, _, hl, _ => by
    rw [load, loadChar]
    have e1 : loadIntWithSize (σ := σ) ptr 4 false = loadInt ptr .u32 := rfl
    rw [e1]
    refine loadInt_ret h .u32 ptr 4 rfl hl fun x _ _ => ?_
    exact .bind (.lift h (convert_returns _)) fun x w _ => .pure (h.withWorld w) _
  | .string, _, _, ptr, s, s', h, _, hl, hw => by
    rw [Spec.size] at hl
    rw [NoWrap] at hw
    have := h.small
    rw [load, loadString]
    refine .bind (loadUInt32_ret h ptr (by omega) fun b hb => ?_) fun x w _ => .pure (h.withWorld w) _
    have h4 := toNat_add_4 ptr (by omega)
    refine loadUInt32_ret h (ptr + 4) (by omega) fun n hn => ?_
    rw [h4] at hn
    exact loadStringFromRange_reads h E b n (by rw [hb, hn]; exact hw)
  | .list t, hc, _, ptr, s, s', h, _, hl, hw => by
    rw [Spec.size] at hl
    rw [NoWrap] at hw
    rw [Chains] at hc
    have hsm := h.small
    rw [load, loadList]
    refine .bind (loadUInt32_ret h ptr (by omega) fun b hb => ?_) fun x w _ => .pure (h.withWorld w) _
    have h4 := toNat_add_4 ptr (by omega)
    refine loadUInt32_ret h (ptr + 4) (by omega) fun n hn => ?_
    rw [h4] at hn
    rw [← hb, ← hn] at hw
    by_cases hn0 : n = 0
    · subst hn0; exact loadListFromRange_zero _ t b s s' h
    have hsz : Spec.size t < 2 ^ 32 := by
      have hn' : 1 ≤ n.toNat := by
        rcases Nat.eq_zero_or_pos n.toNat with h | h
        · exact absurd (BitVec.eq_of_toNat_eq (y := 0) h) hn0
        · exact h
      have := Nat.mul_le_mul_right (Spec.size t) hn'
      omega
    by_cases hlt : Laid t
    · have k1 := loadListFromRange_cases (load E t) t hlt b n s hsm hw.1 hsz
      have k2 := loadListFromRange_cases (load E t) t hlt b n s' (by rw [h.len]; exact hsm) hw.1 hsz
      rw [h.len] at k2
      by_cases hb2 : align t ∣ b.toNat ∧ b.toNat + n.toNat * Spec.size t ≤ s.mem.len
      · rw [if_pos hb2] at k1 k2
        obtain ⟨r, w, hr, e1, e2⟩ : Reads (loadElems (load E t) b (BitVec.ofNat 32 (Spec.size t)) n.toNat 0) s s' := by
          refine loadElems_reads b _ n.toNat 0 s s' h fun j _ hj w => ?_
          have hj' : j + 1 ≤ n.toNat := by omega
          have hmul := Nat.mul_le_mul_right (Spec.size t) hj'
          rw [Nat.add_mul, Nat.one_mul] at hmul
          have ha := toNat_elem b j (Spec.size t) (by omega) hsz
          refine load_reads E t hc hlt _ _ _ (h.withWorld w) ?_ ?_ ?_
          · rw [ha]
            exact Nat.dvd_add hb2.1 (Nat.dvd_trans (align_dvd_size t) (Nat.dvd_mul_left _ _))
          · rw [ha]; show _ ≤ s.mem.len; omega
          · rw [ha]; exact hw.2 hb2.1 hb2.2 j (by omega)
        exact ⟨r, w, hr, by rw [k1, e1], by rw [k2, e2]⟩
      · rw [if_neg hb2] at k1 k2
        exact .of_err h k1 k2
    · -- an element type without layout has no size
      have hz : Abi.size t = .err := by
        rcases size_returns t with ⟨z, e⟩ | e
        · exact absurd (laid_of_size t z e) hlt
        · exact e
      have key : ∀ u : St σ, loadListFromRange (load E t) t b n u = (.err, u) := by
        intro u
        unfold loadListFromRange
        rcases alignment_returns t with ⟨a, e⟩ | e
        · rw [e, SM.bind_ok (SM.lift_def _ _), SM.ite_app]
          split
          · rfl
          · rw [hz, SM.bind_err (SM.lift_def _ _)]
        · rw [e, SM.bind_err (SM.lift_def _ _)]
      exact .of_err h (key s) (key s')
  | .record fs, hc, hlt, ptr, s, s', h, ha, hl, hw => by
    rw [Chains] at hc
    simp only [Laid] at hlt
    rw [NoWrap] at hw
    rw [align] at ha
    rw [Spec.size] at hl
    rw [load]
    have h1 := le_alignUp (n := fieldsEnd fs 0) (alignFields_isAl fs).pos
    have := loadFields_reads E fs hc hlt ptr 0 [] s s' h _ (alignFields_isAl fs) (Nat.le_refl _) ha (by omega) hw
    simpa using this
  | .variant cs, hc, hlt, ptr, s, s', h, ha, hl, hw => by
    rw [Chains] at hc
    simp only [Laid] at hlt
    rw [NoWrap] at hw
    rw [align] at ha
    have hsm := h.small
    have hls := laid_size_cases (cs := cs) (by omega)
    have hd := discBytes_isAl cs.length
    have hca := alignCases_isAl cs
    have hle : payloadOffset cs + sizeCases cs ≤ Spec.size (.variant cs) := by
      rw [Spec.size]
      exact le_alignUp (hd.max hca).pos
    have hdo : discBytes cs.length ≤ payloadOffset cs := le_alignUp hca.pos
    obtain ⟨d, hdt⟩ : ∃ d, discriminantType cs.length = .ok d := by
      rcases disc_cases cs.length with e | e
      · exact e
      · rw [discriminantType_eq _ hlt.1 hlt.2.1] at e; cases e
    rw [load, hdt]
    have hbytes := disc_bytes _ _ hdt
    refine .bind (.lift h (by simp)) fun d' w e => ?_
    injection e with e1 e2
    injection e1 with e1
    subst e1
    have e3 : w = s.world := (congrArg St.world e2).symm
    subst e3
    rw [h.same]
    refine loadDisc_ret h cs.length d hdt ptr (by omega) fun i hi => ?_
    rw [disc_size]
    refine .bind (.lift h (by simp)) fun z w e => ?_
    injection e with e1 e2
    injection e1 with e1
    subst e1
    have e3 : w = s.world := (congrArg St.world e2).symm
    subst e3
    rw [h.same]
    split
    · exact .fail h
    · rename_i hir
      rw [toNat_ofNat_lt (by omega)] at hir
      rw [maxCaseAlignment_eq cs hlt.2.2 1 (.inl rfl)]
      refine .bind (.lift h (by simp)) fun z w e => ?_
      injection e with e1 e2
      injection e1 with e1
      subst e1
      have e3 : w = s.world := (congrArg St.world e2).symm
      subst e3
      rw [h.same]
      have hmx : max (1 : U32).toNat (alignCases cs) = alignCases cs := by
        have := hca.pos
        show max 1 _ = _
        omega
      rw [hmx]
      have hbd : d.bytes = BitVec.ofNat 32 (discBytes cs.length) := by
        apply BitVec.eq_of_toNat_eq
        rw [hbytes, ofNat_toNat_isAl hd]
      have hcd : alignCases cs ∣ ptr.toNat := Nat.dvd_trans (hd.dvd_max_right hca) ha
      rw [hbd, alignTo_add ptr _ _ hca hcd]
      have hp : (ptr + BitVec.ofNat 32 (alignUp (discBytes cs.length) (alignCases cs))).toNat =
          ptr.toNat + payloadOffset cs := by
        have : payloadOffset cs = alignUp (discBytes cs.length) (alignCases cs) := rfl
        rw [BitVec.toNat_add, toNat_ofNat_lt (by omega), Nat.mod_eq_of_lt (by omega)]; rfl
      refine loadCase_reads E cs cs i.toNat hc.2 (fun l t r hg => hc.1 _ l t r hg) hlt.2.2 (by omega) _ s s' h ?_ ?_ ?_
      · rw [hp]; exact Nat.dvd_add hcd (alignUp_dvd _ _)
      · rw [hp]; omega
      · rw [hp, hi]; exact hw
  | .flags ls, _, _, ptr, s, s', h, _, hl, _ => by
    have := h.small
    rw [load]
    exact loadFlags_reads h ptr ls (by rw [sizeFlags_spec ls (by omega)]; exact hl)
  | .own rt, _, _, ptr, s, s', h, _, hl, _ => by
    rw [load]
    exact loadUInt32_ret h ptr hl fun i _ =>
      .bind (onWorld_reads h _ (liftOwn_returns _ _ _)) fun x w _ => .pure (h.withWorld w) _
  | .borrow rt, _, _, ptr, s, s', h, _, hl, _ => by
    rw [load]
    exact loadUInt32_ret h ptr hl fun i _ =>
      .bind (onWorld_reads h _ (liftBorrow_returns _ _ _ _)) fun x w _ => .pure (h.withWorld w) _
  | .nil, _, hlt, _, _, _, _, _, _, _ | .other, _, hlt, _, _, _, _, _, _, _ => by simp [Laid] at hlt
theorem loadFields_reads (E : Env σ) : (fs : Fields) → ChainsFields fs → LaidFields fs → (base : U32) → (k : Nat) →
    (acc : List (String × Val)) → (s s' : St σ) → Alike s s' → (B : Nat) → IsAl B → alignFields fs ≤ B → B ∣ base.toNat →
    base.toNat + fieldsEnd fs k ≤ s.mem.len → NoWrapFields E.enc s.mem fs (base.toNat + k) →
    Reads (loadFields E fs (base + BitVec.ofNat 32 k) acc) s s'
  | .nil, _, _, base, k, acc, s, s', h, _, _, _, _, _, _ => by rw [loadFields]; exact .pure h _
  | .cons l t fs, hc, hlt, base, k, acc, s, s', h, B, hB, hBl, hBd, he, hw => by
    rw [ChainsFields] at hc
    simp only [LaidFields] at hlt
    rw [alignFields] at hBl
    rw [fieldsEnd] at he
    rw [NoWrapFields] at hw
    have hsm := h.small
    have g1 := fieldsEnd_ge fs (alignUp k (align t) + Spec.size t)
    have g2 := le_alignUp (n := k) (align_isAl t).pos
    have hd : align t ∣ base.toNat := Nat.dvd_trans ((align_isAl t).dvd_of_le hB (by omega)) hBd
    rw [alignUp_add (align_isAl t).pos hd] at hw
    rw [loadFields, alignment_eq t hlt.1]
    refine .bind (.lift h (by simp)) fun z w e => ?_
    injection e with e1 e2
    injection e1 with e1
    subst e1
    have e3 : w = s.world := (congrArg St.world e2).symm
    subst e3
    rw [h.same]
    simp only
    rw [alignTo_add base k _ (align_isAl t) hd]
    have hp : (base + BitVec.ofNat 32 (alignUp k (align t))).toNat = base.toNat + alignUp k (align t) := by
      rw [BitVec.toNat_add, toNat_ofNat_lt (by omega), Nat.mod_eq_of_lt (by omega)]
    refine .bind (load_reads E t hc.1 hlt.1 _ s s' h ?_ ?_ ?_) fun v w _ => ?_
    · rw [hp]; exact Nat.dvd_add hd (alignUp_dvd _ _)
    · rw [hp]; omega
    · rw [hp]; exact hw.1
    · have h' := h.withWorld w
      rw [size_eq t hlt.1 (by omega)]
      refine .bind (.lift h' (by simp)) fun z w' e => ?_
      injection e with e1 e2
      injection e1 with e1
      subst e1
      rw [show base + BitVec.ofNat 32 (alignUp k (align t)) + BitVec.ofNat 32 (Spec.size t) =
        base + BitVec.ofNat 32 (alignUp k (align t) + Spec.size t) by rw [BitVec.ofNat_add, BitVec.add_assoc]]
      refine loadFields_reads E fs hc.2 hlt.2 base _ _ _ _ (h.withWorld w') B hB (by omega) hBd he ?_
      rw [← Nat.add_assoc]
      exact hw.2
theorem loadCase_reads (E : Env σ) (all : Cases) : (cs : Cases) → (i : Nat) → ChainsCases cs →
    (∀ l t r, cs.get? i = some (l, t, r) → ∃ ls, Chain all l r ls) → LaidCases cs → i < cs.length → (ptr : U32) →
    (s s' : St σ) → Alike s s' → alignCases cs ∣ ptr.toNat → ptr.toNat + sizeCases cs ≤ s.mem.len →
    NoWrapCase E.enc s.mem cs i ptr.toNat → Reads (loadCase E all cs i ptr) s s'
  | .nil, i, _, _, _, hi, _, _, _, _, _, _, _ => by simp [Cases.length] at hi
  | .cons l t r cs, 0, hc, hch, hlt, _, ptr, s, s', h, ha, hl, hw => by
    rw [ChainsCases] at hc
    simp only [LaidCases] at hlt
    rw [alignCases] at ha
    rw [sizeCases] at hl
    rw [NoWrapCase] at hw
    rw [loadCase]
    obtain ⟨ls, hls⟩ := hch l t r rfl
    rw [caseLabel_chain hls]
    refine .bind (.lift h (by simp)) fun z w e => ?_
    have hw' := h.withWorld w
    by_cases ht : t = .nil
    · rw [if_pos ht]; exact .pure hw' _
    · rw [if_neg ht]
      have hlt' := hlt.1.resolve_left ht
      refine .bind (load_reads E t hc.1 hlt' ptr _ _ hw' ?_ ?_ hw) fun x w _ => .pure (h.withWorld w) _
      · exact Nat.dvd_trans ((align_isAl t).dvd_max_left (alignCases_isAl cs)) ha
      · show _ ≤ s.mem.len; omega
  | .cons l t r cs, i + 1, hc, hch, hlt, hi, ptr, s, s', h, ha, hl, hw => by
    rw [ChainsCases] at hc
    simp only [LaidCases] at hlt
    rw [alignCases] at ha
    rw [sizeCases] at hl
    rw [NoWrapCase] at hw
    rw [Cases.length] at hi
    rw [loadCase]
    exact loadCase_reads E all cs i hc.2 hch hlt.2 (by omega) ptr s s' h
      (Nat.dvd_trans ((align_isAl t).dvd_max_right (alignCases_isAl cs)) ha) (by omega) hw
end

end Verif.Abi
