import Verif.Abi.MeansLemmas
import Verif.Abi.RoundTrip

/-!
# What `Store` writes stands for the value
-/

namespace Verif.Abi

open Encoding Spec

variable {σ : Type}

/-! ## Strings -/

theorem model_units16 (c : Char) : Units16 c (utf16Units c) := by
  have hr := char_range c
  unfold utf16Units
  simp only
  by_cases h : c.toNat < 0x10000
  · rw [if_pos h]; exact .inl ⟨h, rfl⟩
  · rw [if_neg h]
    exact .inr ⟨(c.toNat - 0x10000) / 1024, (c.toNat - 0x10000) % 1024, by omega, by omega, by omega, rfl⟩

theorem model_unitBytes (big : Bool) : (us : List Nat) → (∀ u ∈ us, u < 2 ^ 16) →
    UnitBytes big us (us.flatMap (unitBytes big))
  | [], _ => .nil
  | u :: us, h => by
    have hu := h u (by simp)
    have := UnitBytes.cons (big := big) (BitVec.ofNat 8 u) (BitVec.ofNat 8 (u / 256)) us _
      (model_unitBytes big us fun x hx => h x (by simp [hx]))
    rw [show (BitVec.ofNat 8 (u / 256)).toNat * 256 + (BitVec.ofNat 8 u).toNat = u by
      simp only [BitVec.toNat_ofNat]; omega] at this
    rw [List.flatMap_cons, unitBytes]
    cases big <;> exact this

theorem utf16Units_lt (c : Char) : ∀ u ∈ utf16Units c, u < 2 ^ 16 := by
  have hr := char_range c
  unfold utf16Units
  simp only
  split
  · intro u hu; simp at hu; omega
  · intro u hu; simp at hu; omega

/-- What the library writes for a string writes it. -/
theorem encode_writes (k : Script) (str : String) (bs : List Byte) (h : k.lib.encode str = .ok bs) :
    Writes k str.toList bs := by
  cases k with
  | utf8 =>
    cases (show Res.ok _ = _ from h)
    generalize str.toList = cs
    induction cs with
    | nil => exact .nil
    | cons c cs ih => exact .cons c _ cs _ (utf8Char_core c) ih
  | utf16le =>
    cases (show Res.ok _ = _ from h)
    generalize str.toList = cs
    induction cs with
    | nil => exact .nil
    | cons c cs ih => exact .cons c _ cs _ ⟨_, model_units16 c, model_unitBytes false _ (utf16Units_lt c)⟩ ih
  | utf16be =>
    cases (show Res.ok _ = _ from h)
    generalize str.toList = cs
    induction cs with
    | nil => exact .nil
    | cons c cs ih => exact .cons c _ cs _ ⟨_, model_units16 c, model_unitBytes true _ (utf16Units_lt c)⟩ ih
  | latin1 =>
    have h' : (if str.toList.all latin1Has then Res.ok (str.toList.map fun c => BitVec.ofNat 8 c.toNat) else .err) =
      .ok bs := h
    clear h
    generalize str.toList = cs at h'
    split at h'
    · rename_i ha
      cases h'
      induction cs with
      | nil => exact .nil
      | cons c cs ih =>
        rw [List.all_cons, Bool.and_eq_true] at ha
        refine .cons c [BitVec.ofNat 8 c.toNat] cs _ ⟨_, rfl, ?_⟩ (ih ha.2)
        have hc : c.toNat < 256 := by simpa [latin1Has] using ha.1
        rw [BitVec.toNat_ofNat, Nat.mod_eq_of_lt (by omega)]
    · cases h'

section
variable {E : Env σ} {used : σ → Nat → Prop} (G : GoodAlloc E used) {R : σ → Prop}
  (hR : ∀ a n m h, (∃ p, (E.realloc a n (m, h)).1 = .ok p) ∨ R (E.realloc a n (m, h)).2.2)

include G hR in
/-- The string is in memory, and the pair returned says where and how. -/
theorem storeStringIntoRange_means (str : String) (henc : E.enc ∈ Spec.encodings) (hn : codeUnits E.enc str < 2 ^ 31)
    (hl : E.enc = "latin1" → ∀ c ∈ str.toList, c.toNat < 256) (s : St σ) (hg : Good s.mem) :
    Does R (storeStringIntoRange E str) s fun r s' =>
      Wrote used (fun _ => False) (fun s'' => StringMeans Neatly E.enc s''.mem r.1.toNat r.2.toNat str) s s' := by
  obtain ⟨c, bs, tag, h1, h2, h3, h4, h5, h6, h7⟩ := codec_for (σ := σ) E.enc henc str hn hl
  have hb : bs.length < 2 ^ 32 := by
    rw [h2]; rcases h3 with h | h <;> rw [h] <;> omega
  rw [h6 E rfl]
  apply Does.bind (storeStringDynamic_does G hR str c bs h1 hb s hg h4)
  rintro ⟨p, n⟩ s1 ⟨w, e, hd, hle⟩
  apply Does.pure
  simp only at e hd hle w ⊢
  have hq : bs.length / c.runeSize = codeUnits E.enc str := by
    rw [h2]; rcases h3 with h | h <;> rw [h] <;> omega
  rw [hq] at e
  subst e
  have hcu := toNat_ofNat_lt (n := codeUnits E.enc str) (by omega)
  have ht := tagged_roundtrip ⟨BitVec.ofNat 32 (codeUnits E.enc str), tag⟩ (by simp only; omega)
  refine w.imp (fun _ h => h) ?_
  intro s'' k1 k2 k3
  generalize (TaggedCodeUnits.toU32 ⟨BitVec.ofNat 32 (codeUnits E.enc str), tag⟩) = n at *
  have hc := h7 n ht
  obtain ⟨c', g1, g2, g3, g4, g5⟩ := string_codec E.enc henc n
  rw [hc] at g1
  cases g1
  have hsc := codec_script E.enc henc n c hc
  have hword : n.toNat < 2 ^ 31 ∨ E.enc = "latin1+utf16" := by
    by_cases hlat : E.enc = "latin1+utf16"
    · exact .inr hlat
    · refine .inl ?_
      have htag : tag = false := by
        rcases tag with _ | _
        · rfl
        · exact absurd (h5.1 rfl).1 hlat
      have := toTagged_tag n
      rw [ht, htag] at this
      have := of_decide_eq_false this.symm
      omega
  have hlen : stringBytes E.enc n.toNat = bs.length := by
    rw [← g5 hword, ht, h2]
    simp only
    rw [hcu]
  refine ⟨by rw [← g2]; exact hd, by rw [hlen]; omega, ?_⟩
  have k3' : bytesAt s''.mem p.toNat (stringBytes E.enc n.toNat) = bs := by rw [hlen]; exact k3
  show Writes _ _ _
  rw [k3']
  exact encode_writes _ _ _ (by rw [← hsc]; exact h1)

/-! ## Lists -/

theorem storeElems_wrote (f : Val → U32 → SM (St σ) Unit) (Q : Val → Nat → St σ → Prop) (ptr : U32)
    (sz al : Nat) (hal : al ∣ ptr.toNat) (hsz : al ∣ sz) (hs32 : sz < 2 ^ 32) : (vs : List Val) → (i : Nat) → (s : St σ) →
    (∀ v ∈ vs, ∀ (p : U32) (s : St σ), Good s.mem → al ∣ p.toNat → p.toNat + sz ≤ s.mem.len →
      (∀ x, Dst p.toNat sz x → used s.heap x) → Does R (f v p) s fun _ s' =>
        Wrote used (Dst p.toNat sz) (Q v p.toNat) s s') →
    Good s.mem → ptr.toNat + (i + vs.length) * sz ≤ s.mem.len →
    (∀ x, Dst (ptr.toNat + i * sz) (vs.length * sz) x → used s.heap x) →
    Does R (storeElems f ptr (BitVec.ofNat 32 sz) vs i) s fun _ s' =>
      Wrote used (Dst (ptr.toNat + i * sz) (vs.length * sz))
        (fun s'' => ∀ (k : Nat) v, vs[k]? = some v → Q v (ptr.toNat + (i + k) * sz) s'') s s'
  | [], i, s, _, hg, _, _ => by
    rw [storeElems]
    apply Does.pure
    refine ⟨Step.refl hg _, fun _ => False, fun _ h => h.elim, ?_⟩
    intro s'' _ _ _ k v hk
    simp at hk
  | v :: vs, i, s, hf, hg, hle, hu => by
    have e1 : (i + (v :: vs).length) * sz = i * sz + sz + vs.length * sz := by
      rw [List.length_cons, Nat.add_mul, Nat.add_mul]; omega
    have e2 : (v :: vs).length * sz = sz + vs.length * sz := by
      rw [List.length_cons, Nat.add_mul]; omega
    have e3 : (i + 1) * sz = i * sz + sz := by rw [Nat.add_mul]; omega
    rw [e1] at hle
    rw [e2] at hu
    have hpos := Nat.zero_le (vs.length * sz)
    have ea := elem_addr ptr i sz s.mem.len (by omega) hg.1 hs32
    rw [storeElems]
    apply Does.bind (hf v (by simp) _ s hg (by
      rw [ea]; exact Nat.dvd_add hal (Nat.dvd_trans hsz (Nat.dvd_mul_left _ _))) (by omega) (by
      rw [ea]; intro x hx; apply hu; unfold Dst at *; omega))
    intro _ s1 w1
    have hl1 := w1.step.len
    apply (storeElems_wrote f Q ptr sz al hal hsz hs32 vs (i + 1) s1 (fun v' hv' => hf v' (by simp [hv'])) w1.step.good
      (by rw [show (i + 1 + vs.length) * sz = i * sz + sz + vs.length * sz by rw [Nat.add_mul, Nat.add_mul]; omega]; omega)
      (by rw [e3]; intro x hx; apply w1.step.keep; apply hu; unfold Dst at *; omega)).imp
    intro _ s2 w2
    rw [ea] at w1
    rw [e3] at w2
    refine (w1.seq w2 ?_ ?_ ?_).imp ?_ ?_
    · intro x hx; apply hu; unfold Dst at *; omega
    · intro x hx; apply hu; unfold Dst at *; omega
    · intro x hx; unfold Dst at *; omega
    · intro x hx; rw [e2]; unfold Dst at *; omega
    · intro s'' _ _ ⟨p1, p2⟩ k v' hk
      cases k with
      | zero => cases hk; exact p1
      | succ k =>
        have := p2 k v' hk
        rwa [show i + 1 + k = i + (k + 1) by omega] at this

include G hR in
/-- The elements are in memory, and the pair returned says where. -/
theorem storeListIntoRange_wrote (t : Ty) (Q : Val → Nat → St σ → Prop) (hlt0 : Laid t) (vs : List Val)
    (hf1 : vs.length < 2 ^ 32) (hf2 : vs.length * Spec.size t < 2 ^ 32) (s : St σ) (hg : Good s.mem)
    (hst : ∀ v ∈ vs, ∀ (p' : U32) (s' : St σ), Good s'.mem → align t ∣ p'.toNat →
      p'.toNat + Spec.size t ≤ s'.mem.len → (∀ x, Dst p'.toNat (Spec.size t) x → used s'.heap x) →
      Does R (store E t v p') s' fun _ s1 => Wrote used (Dst p'.toNat (Spec.size t)) (Q v p'.toNat) s' s1) :
    Does R (storeListIntoRange E (store E t) t (.list vs)) s fun r s' =>
      Wrote used (fun _ => False) (fun s'' => r.2.toNat = vs.length ∧ align t ∣ r.1.toNat ∧
        r.1.toNat + vs.length * Spec.size t ≤ s''.mem.len ∧
        ∀ (k : Nat) v, vs[k]? = some v → Q v (r.1.toNat + k * Spec.size t) s'') s s' := by
  obtain ⟨z, hz⟩ := size_of_laid t hlt0
  have hnz : vs.length * z.toNat = vs.length * Spec.size t ∧ (vs ≠ [] → z = BitVec.ofNat 32 (Spec.size t)) := by
    rcases vs with _ | ⟨w, ws⟩
    · simp
    · have hlt := size_lt_of_mem_list hf2 (by simp)
      rw [size_eq t hlt0 hlt] at hz
      injection hz with hz
      rw [← hz, toNat_ofNat_lt hlt]
      exact ⟨rfl, fun _ => rfl⟩
  unfold storeListIntoRange
  simp only
  refine .liftBind hz ?_
  refine .liftBind (alignment_eq t hlt0) ?_
  rw [hnz.1]
  have hn := toNat_ofNat_lt hf2
  have hal := ofNat_toNat_isAl (align_isAl t)
  apply Does.bind (alloc_does G hR _ _ s hg)
  intro p s1 ⟨st, b1, b2, b3⟩
  rw [hn] at b2 b3
  rw [hal] at b1
  obtain ⟨g1, g2⟩ := st.good
  apply Does.ite_neg
  · rw [Classical.not_not, alignTo_eq_iff _ _ (by rw [hal]; exact align_isAl t), hal]
    exact b1
  apply Does.get
  apply Does.ite_neg
  · rw [BitVec.toNat_add, hn, Mem.len32, toNat_ofNat_lt g1, Nat.mod_eq_of_lt (by omega)]
    omega
  by_cases hne : vs = []
  · subst hne
    rw [storeElems]
    apply Does.bind (Q := fun _ s' => s' = s1) (.pure rfl)
    rintro _ s2 rfl
    apply Does.pure
    refine ⟨st, fun _ => False, fun _ h => h.elim, ?_⟩
    intro s'' k1 k2 _
    exact ⟨rfl, b1, by simp only [List.length_nil, Nat.zero_mul] at b2 ⊢; omega, fun k v hk => by simp at hk⟩
  · have hlt := size_lt_of_mem_list hf2 hne
    obtain rfl := hnz.2 hne
    apply Does.bind (storeElems_wrote (R := R) (used := used) (store E t) Q p (Spec.size t) (align t)
      b1 (align_dvd_size t) hlt vs 0 s1 hst st.good (by rw [Nat.zero_add]; exact b2)
        (by rw [Nat.zero_mul]; exact fun x hx => (b3 x hx).1))
    intro _ s2 w
    rw [Nat.zero_mul] at w
    apply Does.pure
    refine (w.fresh st b3).imp (fun _ h => h) ?_
    intro s'' k1 k2 k3
    have := w.step.len
    exact ⟨toNat_ofNat_lt hf1, b1, by simp only; omega, fun k v hk => by have := k3 k v hk; rwa [Nat.zero_add] at this⟩

/-! ## All types -/

/-- Two facts about the same step. -/
theorem Does.both {α : Type} {m : SM (St σ) α} {s : St σ} {D : Nat → Prop} {P Q : St σ → Prop}
    (h : Does R m s fun _ s' => Wrote used D P s s') (h' : Does R m s fun _ s' => Wrote used D Q s s') :
    Does R m s fun _ s' => Wrote used D (fun s'' => P s'' ∧ Q s'') s s' := by
  rcases h with ⟨a, s', e, w⟩ | ⟨n, r⟩
  · rcases h' with ⟨a', s1, e', w'⟩ | ⟨n, -⟩
    · rw [e] at e'
      cases e'
      obtain ⟨F, f1, f2⟩ := w.foot
      obtain ⟨F', f1', f2'⟩ := w'.foot
      refine .inl ⟨a, s', e, w.step, fun x => F x ∨ F' x, fun x hx => hx.elim (f1 x) (f1' x), ?_⟩
      intro s'' k1 k2 k3
      exact ⟨f2 s'' k1 k2 fun x hx => k3 x (.inl hx), f2' s'' k1 k2 fun x hx => k3 x (.inr hx)⟩
    · exact absurd (by rw [e]) (n a)
  · exact .inr ⟨n, r⟩

/-- A type none of whose bytes are a pair, and which of them are the only ones for their value. -/
structure Pairless (enc : String) (t : Ty) (N : Mem → Nat → Prop) : Prop where
  laid : Laid t
  plain : Plain t
  orderly : ∀ m p, Orderly enc m t p
  strict : ∀ m p v, Means Leniently enc m t p v → N m p → Means Neatly enc m t p v

include G hR in
theorem pairless_means (henc : E.enc ∈ Spec.encodings) (t : Ty) (N : Mem → Nat → Prop) (h : Pairless E.enc t N) (v : Val)
    (hv : HasType t v)
    (hw : Wf t) (hlf : ListsFit t v) (hsf : StringsFit E.enc t v) (ptr : U32) (s : St σ) (hg : Good s.mem)
    (ha : align t ∣ ptr.toNat) (hle : ptr.toNat + Spec.size t ≤ s.mem.len)
    (hu : ∀ x, Dst ptr.toNat (Spec.size t) x → used s.heap x)
    (hN : Does R (store E t v ptr) s fun _ s' =>
      Wrote used (Dst ptr.toNat (Spec.size t)) (fun s'' => N s''.mem ptr.toNat) s s') :
    Does R (store E t v ptr) s fun _ s' => Wrote used (Dst ptr.toNat (Spec.size t))
      (fun s'' => Means Neatly E.enc s''.mem t ptr.toNat (norm t v)) s s' := by
  apply ((store_does G hR henc t v hv hw h.laid (.inl h.plain) hlf hsf ptr s hg ha hle hu).both hN).imp
  intro _ s' w
  refine w.imp (fun _ h => h) ?_
  intro s'' k1 k2 ⟨k3, k4⟩
  have := w.step.len
  rcases load_decided E henc s'' k2.1 k2.2 t h.laid h.plain hw ptr ha (by omega) (h.orderly _ _) with
    ⟨x, e, hl, -⟩ | ⟨e, -⟩
  · rw [k3] at e
    cases e
    exact h.strict _ _ _ hl k4
  · rw [k3] at e; cases e

include G hR in
theorem anyway_means (henc : E.enc ∈ Spec.encodings) (t : Ty) (h : Pairless E.enc t fun _ _ => True) (v : Val)
    (hv : HasType t v)
    (hw : Wf t) (hlf : ListsFit t v) (hsf : StringsFit E.enc t v) (ptr : U32) (s : St σ) (hg : Good s.mem)
    (ha : align t ∣ ptr.toNat) (hle : ptr.toNat + Spec.size t ≤ s.mem.len)
    (hu : ∀ x, Dst ptr.toNat (Spec.size t) x → used s.heap x) :
    Does R (store E t v ptr) s fun _ s' => Wrote used (Dst ptr.toNat (Spec.size t))
      (fun s'' => Means Neatly E.enc s''.mem t ptr.toNat (norm t v)) s s' := by
  refine pairless_means G hR henc t _ h v hv hw hlf hsf ptr s hg ha hle hu ?_
  apply (store_does G hR henc t v hv hw h.laid (.inl h.plain) hlf hsf ptr s hg ha hle hu).imp
  intro _ s' w
  exact w.imp (fun _ h => h) fun _ _ _ _ => trivial

omit G hR in
/-- The word of flags has no other bits. -/
theorem storeFlags_neat (m : List (String × Val)) (ls : List String) (hl : ls.length ≤ 64)
    (hm : ∀ l ∈ ls, ∃ b, mapGet m l = .bool b) (ptr : U32) (s : St σ) (hg : Good s.mem)
    (hle : ptr.toNat + (sizeFlags ls.length).toNat ≤ s.mem.len) :
    Does R (storeFlags (.map m) ptr ls) s fun _ s' => Wrote used (Dst ptr.toNat (sizeFlags ls.length).toNat)
      (fun s'' => ∀ i, ls.length ≤ i → i < 8 * (sizeFlags ls.length).toNat → bitAt s''.mem ptr.toNat i = false) s s' := by
  obtain ⟨x, hx, hb⟩ := packFlags_spec m ls 0 hm
  have hbit : ∀ j, ls.length ≤ j → x.toNat.testBit j = false := by
    intro j hj
    by_cases h64 : j < 64
    · rcases h : x.getLsbD j with _ | _
      · exact h
      · obtain ⟨-, l, h1, -⟩ := (hb j h64).1 h
        have := (List.getElem?_eq_some_iff.1 h1).1
        omega
    · exact Nat.testBit_lt_two_pow (Nat.lt_of_lt_of_le x.isLt (Nat.pow_le_pow_right (by omega) (by omega)))
  unfold storeFlags
  refine .liftBind hx ?_
  rcases sizeFlags_eq ls.length hl with ⟨h0, e⟩ | hpos
  · rw [e] at hle ⊢
    have e0 : storeInt (.u64 x) ptr 0 false s = put ptr 0 [] s := by
      rw [storeInt_eq]; rfl
    have := put_does (R := R) (used := used) ptr 0 [] s rfl hg hle
    unfold Does at this ⊢
    rw [e0]
    refine this.imp_left ?_
    rintro ⟨a, s', k1, k2⟩
    refine ⟨a, s', k1, k2.imp (fun _ h => h) ?_⟩
    intro s'' _ _ _ i _ hi
    exact absurd hi (by show ¬ i < 8 * 0; omega)
  · have hn : sizeFlags ls.length = 1 ∨ sizeFlags ls.length = 2 ∨ sizeFlags ls.length = 4 ∨ sizeFlags ls.length = 8 :=
      hpos.imp (fun h => h.2.2) (fun h => h.imp (fun h => h.2.2) (fun h => h.imp (fun h => h.2.2) (fun h => h.2.2)))
    apply (storeInt_does (R := R) (used := used) (.u64 x) _ ptr (sizeFlags ls.length) false s rfl rfl hn hg hle).imp
    intro _ s' w
    refine w.imp (fun _ h => h) ?_
    intro s'' _ _ k3 i h1 h2
    rw [← natAt_testBit _ _ _ _ h2, natAt_eq, k3, show (256 : Nat) = 2 ^ 8 from rfl, ← Nat.pow_mul, Nat.testBit_mod_two_pow]
    show (_ && x.toNat.testBit i) = _
    rw [hbit i h1, Bool.and_false]

include G hR in
mutual
/-- `Store` succeeds unless the allocator refuses, and then the bytes stand for the value. -/
theorem store_means (henc : E.enc ∈ Spec.encodings) : (t : Ty) → (v : Val) → HasType t v → Wf t → Laid t →
    (Plain t ∨ ∀ h, R h) → ListsFit t v → StringsFit E.enc t v → (ptr : U32) → (s : St σ) → Good s.mem →
    align t ∣ ptr.toNat → ptr.toNat + Spec.size t ≤ s.mem.len → (∀ x, Dst ptr.toNat (Spec.size t) x → used s.heap x) →
    Does R (store E t v ptr) s fun _ s' => Wrote used (Dst ptr.toNat (Spec.size t))
      (fun s'' => Means Neatly E.enc s''.mem t ptr.toNat (norm t v)) s s'
  | .bool, v, hv, hw, hl, _, hlf, hsf, ptr, s, hg, ha, hle, hu => by
    refine pairless_means G hR henc _ (fun m p => natAt m p 1 ≤ 1) ⟨hl, by simp [Plain], by simp [Orderly], fun m p v h hN => by
      rw [Means] at h ⊢; exact ⟨h.1, fun _ => hN⟩⟩ v hv hw hlf hsf ptr s hg ha hle hu ?_
    have hva := validate_ok .bool ptr s hl hg ha hle
    simp only [HasType] at hv
    obtain ⟨b, rfl⟩ := hv
    rw [store_bool]
    unfold Does
    rw [SM.bind_ok hva]
    apply (storeInt_does (R := R) (used := used) (.u8 (if b then 1 else 0)) _ ptr 1 false s rfl rfl (.inl rfl) hg hle).imp
    intro _ s' w
    refine w.imp (fun _ h => h) ?_
    intro s'' _ _ h
    rw [natAt_eq]
    refine Nat.le_trans (Nat.le_of_eq h) ?_
    cases b <;> decide
  | .u8, v, hv, hw, hl, _, hlf, hsf, ptr, s, hg, ha, hle, hu =>
    anyway_means G hR henc _ ⟨hl, by simp [Plain], by simp [Orderly], by simp [Means]⟩ v hv hw hlf hsf ptr s hg ha hle hu
  | .u16, v, hv, hw, hl, _, hlf, hsf, ptr, s, hg, ha, hle, hu =>
    anyway_means G hR henc _ ⟨hl, by simp [Plain], by simp [Orderly], by simp [Means]⟩ v hv hw hlf hsf ptr s hg ha hle hu
  | .u32, v, hv, hw, hl, _, hlf, hsf, ptr, s, hg, ha, hle, hu =>
    anyway_means G hR henc _ ⟨hl, by simp [Plain], by simp [Orderly], by simp [Means]⟩ v hv hw hlf hsf ptr s hg ha hle hu
  | .u64, v, hv, hw, hl, _, hlf, hsf, ptr, s, hg, ha, hle, hu =>
    anyway_means G hR henc _ ⟨hl, by simp [Plain], by simp [Orderly], by simp [Means]⟩ v hv hw hlf hsf ptr s hg ha hle hu
  | .s8, v, hv, hw, hl, _, hlf, hsf, ptr, s, hg, ha, hle, hu =>
    anyway_means G hR henc _ ⟨hl, by simp [Plain], by simp [Orderly], by simp [Means]⟩ v hv hw hlf hsf ptr s hg ha hle hu
  | .s16, v, hv, hw, hl, _, hlf, hsf, ptr, s, hg, ha, hle, hu =>
    anyway_means G hR henc _ ⟨hl, by simp [Plain], by simp [Orderly], by simp [Means]⟩ v hv hw hlf hsf ptr s hg ha hle hu
  | .s32, v, hv, hw, hl, _, hlf, hsf, ptr, s, hg, ha, hle, hu =>
    anyway_means G hR henc _ ⟨hl, by simp [Plain], by simp [Orderly], by simp [Means]⟩ v hv hw hlf hsf ptr s hg ha hle hu
  | .s64, v, hv, hw, hl, _, hlf, hsf, ptr, s, hg, ha, hle, hu =>
    anyway_means G hR henc _ ⟨hl, by simp [Plain], by simp [Orderly], by simp [Means]⟩ v hv hw hlf hsf ptr s hg ha hle hu
  | .f32, v, hv, hw, hl, _, hlf, hsf, ptr, s, hg, ha, hle, hu => by
    refine pairless_means G hR henc _ (fun m p => canonical32 (BitVec.ofNat 32 (natAt m p 4)) = BitVec.ofNat 32 (natAt m p 4)) ⟨hl, by simp [Plain], by simp [Orderly], fun m p v h hN => by
      rw [Means] at h ⊢; exact ⟨h.1, fun _ => hN⟩⟩ v hv hw hlf hsf ptr s hg ha hle hu ?_
    have hva := validate_ok .f32 ptr s hl hg ha hle
    simp only [HasType] at hv
    obtain ⟨x, rfl⟩ := hv
    rw [store]
    unfold Does
    rw [SM.bind_ok hva]
    apply (storeInt_does (R := R) (used := used) (.u32 (canon32 x)) _ ptr 4 false s rfl rfl (.inr (.inr (.inl rfl))) hg hle).imp
    intro _ s' w
    refine w.imp (fun _ h => h) ?_
    intro s'' _ _ h
    have e : natAt s''.mem ptr.toNat 4 = ((canon32 x).setWidth 64).toNat % 256 ^ 4 := by rw [natAt_eq]; exact h
    rw [e, zext_mod 32 (by omega) (canon32 x), ← canon32_eq, canon32_idem]
  | .f64, v, hv, hw, hl, _, hlf, hsf, ptr, s, hg, ha, hle, hu => by
    refine pairless_means G hR henc _ (fun m p => canonical64 (BitVec.ofNat 64 (natAt m p 8)) = BitVec.ofNat 64 (natAt m p 8)) ⟨hl, by simp [Plain], by simp [Orderly], fun m p v h hN => by
      rw [Means] at h ⊢; exact ⟨h.1, fun _ => hN⟩⟩ v hv hw hlf hsf ptr s hg ha hle hu ?_
    have hva := validate_ok .f64 ptr s hl hg ha hle
    simp only [HasType] at hv
    obtain ⟨x, rfl⟩ := hv
    rw [store]
    unfold Does
    rw [SM.bind_ok hva]
    apply (storeInt_does (R := R) (used := used) (.u64 (canon64 x)) _ ptr 8 false s rfl rfl (.inr (.inr (.inr rfl))) hg hle).imp
    intro _ s' w
    refine w.imp (fun _ h => h) ?_
    intro s'' _ _ h
    have e : natAt s''.mem ptr.toNat 8 = ((canon64 x).setWidth 64).toNat % 256 ^ 8 := by rw [natAt_eq]; exact h
    rw [e, zext_mod 64 (by omega) (canon64 x), ← canon64_eq, canon64_idem]
  | .char, v, hv, hw, hl, _, hlf, hsf, ptr, s, hg, ha, hle, hu =>
    anyway_means G hR henc _ ⟨hl, by simp [Plain], by simp [Orderly], by simp [Means]⟩ v hv hw hlf hsf ptr s hg ha hle hu
  | .flags ls, v, hv, hw, hl, _, hlf, hsf, ptr, s, hg, ha, hle, hu => by
    refine pairless_means G hR henc _ (fun m p => ∀ i, ls.length ≤ i → i < 8 * Spec.size (.flags ls) → bitAt m p i = false) ⟨hl, by simp [Plain], by simp [Orderly], fun m p v h hN => by
      rw [Means] at h ⊢; exact ⟨h.1, fun _ => hN⟩⟩ v hv hw hlf hsf ptr s hg ha hle hu ?_
    have hva := validate_ok (.flags ls) ptr s hl hg ha hle
    rw [HasType] at hv
    obtain ⟨m, rfl, hv⟩ := hv
    rw [Wf] at hw
    have h1 := hg.1
    have hz' := sizeFlags_spec ls (by omega)
    rw [store]
    unfold Does
    rw [SM.bind_ok hva]
    have := storeFlags_neat (R := R) (used := used) m ls hw.2 hv ptr s hg (by omega)
    rw [hz'] at this
    exact this
  | .string, v, hv, _, hl, _, _, hsf, ptr, s, hg, ha, hle, hu => by
    have hva := validate_ok .string ptr s hl hg ha hle
    simp only [HasType] at hv
    obtain ⟨str, rfl⟩ := hv
    rw [StringsFit] at hsf
    obtain ⟨hs1, hs2⟩ := hsf str rfl
    rw [store_string]
    unfold Does
    rw [SM.bind_ok hva]
    have hsz : Spec.size .string = 8 := by simp [Spec.size]
    rw [hsz] at hle hu ⊢
    show Does R (storeString E str ptr) s _
    unfold storeString
    apply Does.bind (storeStringIntoRange_means G hR str henc hs1 hs2 s hg)
    rintro ⟨p, n⟩ s1 w
    have hl1 := w.step.len
    apply (storePair_does (R := R) (used := used) p n ptr s1 w.step.good (by omega) (fun x hx => w.step.keep x (hu x hx))).imp
    intro _ s2 w2
    refine (w.seq w2 (fun _ h => h.elim) hu (fun _ h => h.elim)).imp (fun x h => by simpa using h) ?_
    intro s'' k1 k2 ⟨p1, p2, p3⟩
    have hl2 := w2.step.len
    obtain ⟨k4, k5⟩ := k2
    have h4 := toNat_add_4 ptr (by omega)
    have a1 := loadUInt32_natAt ptr s'' s'' _ k4 k5 (by omega) p2
    have a2 := loadUInt32_natAt (ptr + 4) s'' s'' _ k4 k5 (by omega) p3
    rw [h4] at a2
    show Means Neatly E.enc s''.mem .string ptr.toNat (.str str)
    rw [Means, ← a1, ← a2]
    exact ⟨str, rfl, p1⟩
  | .list t, v, hv, hw, hl, hp, hlf, hsf, ptr, s, hg, ha, hle, hu => by
    have hva := validate_ok (.list t) ptr s hl hg ha hle
    rw [HasType] at hv
    obtain ⟨vs, rfl, hv⟩ := hv
    rw [StringsFit] at hsf
    have hsf := hsf vs rfl
    rw [ListsFit] at hlf
    obtain ⟨hf1, hf2, hf3⟩ := hlf vs rfl
    rw [Wf] at hw
    rw [store]
    unfold Does
    rw [SM.bind_ok hva]
    have hsz : Spec.size (.list t) = 8 := by simp [Spec.size]
    rw [hsz] at hle hu ⊢
    show Does R (storeList E (store E t) t (.list vs) ptr) s _
    unfold storeList
    apply Does.bind (storeListIntoRange_wrote G hR t (fun v p s'' => Means Neatly E.enc s''.mem t p (norm t v)) hw.1 vs
      hf1 hf2 s hg (fun v hm p' s' g' a' l' u' =>
      store_means henc t v (hv v hm) hw.2 hw.1 (hp.imp_left (fun h => by simpa [Plain] using h)) (hf3 v hm)
        (hsf v hm) p' s' g' a' l' u'))
    rintro ⟨p, n⟩ s1 w
    have hl1 := w.step.len
    apply (storePair_does (R := R) (used := used) p n ptr s1 w.step.good (by omega) (fun x hx => w.step.keep x (hu x hx))).imp
    intro _ s2 w2
    refine (w.seq w2 (fun _ h => h.elim) hu (fun _ h => h.elim)).imp (fun x h => by simpa using h) ?_
    intro s'' k1 k2 ⟨⟨p1, p1b, p1c, p1d⟩, p2, p3⟩
    have hl2 := w2.step.len
    obtain ⟨k4, k5⟩ := k2
    have h4 := toNat_add_4 ptr (by omega)
    have a1 := loadUInt32_natAt ptr s'' s'' _ k4 k5 (by omega) p2
    have a2 := loadUInt32_natAt (ptr + 4) s'' s'' _ k4 k5 (by omega) p3
    rw [h4] at a2
    simp only at p1 p1b p1c p1d
    rw [Means, norm, ← a1, ← a2, p1]
    refine ⟨_, rfl, by rw [List.length_map], p1b, p1c, fun i x hx => ?_⟩
    rw [List.getElem?_map] at hx
    rcases hi : vs[i]? with _ | v'
    · rw [hi] at hx; cases hx
    · rw [hi] at hx
      cases hx
      exact p1d i v' hi
  | .record fs, v, hv, hw, hl, hp, hlf, hsf, ptr, s, hg, ha, hle, hu => by
    have hva := validate_ok (.record fs) ptr s hl hg ha hle
    rw [HasType] at hv
    obtain ⟨m, rfl, hv⟩ := hv
    rw [StringsFit] at hsf
    have hsf := hsf m rfl
    rw [ListsFit] at hlf
    have hlf := hlf m rfl
    rw [Wf] at hw
    simp only [Laid] at hl
    rw [align] at ha
    rw [Spec.size] at hle hu ⊢
    have h0 := le_alignUp (n := fieldsEnd fs 0) (alignFields_isAl fs).pos
    rw [store_record]
    unfold Does
    rw [SM.bind_ok hva]
    have := storeFields_means henc fs m hv hw.2 hw.1 hl (hp.imp_left (fun h => by simpa [Plain] using h)) hlf hsf ptr 0 s hg
      (alignFields fs) (alignFields_isAl fs) (Nat.le_refl _) ha (by omega)
      (by intro x hx; apply hu; unfold Dst at *; omega)
    rw [show ptr + BitVec.ofNat 32 0 = ptr by simp] at this
    apply this.imp
    intro _ s' w
    refine w.imp ?_ ?_
    · intro x hx; unfold Dst at *; omega
    · rintro s'' _ _ ⟨es, h1, h2⟩
      rw [Means, norm]
      exact ⟨es, by rw [h1 [] (by simp)]; rfl, h2⟩
  | .variant cs, v, hv, hw, hl, hp, hlf, hsf, ptr, s, hg, ha, hle, hu => by
    have hva := validate_ok (.variant cs) ptr s hl hg ha hle
    rw [HasType] at hv
    obtain ⟨key, p, i, rfl, hsel, hv⟩ := hv
    rw [StringsFit] at hsf
    have hsf := hsf key p i rfl hsel
    rw [ListsFit] at hlf
    have hlf := hlf key p i rfl hsel
    rw [Wf] at hw
    obtain ⟨hw1, hw2, hw3, hw4⟩ := hw
    simp only [Laid] at hl
    rw [align] at ha
    have g1 := hg.1
    have hd1 : alignCases cs ∣ ptr.toNat := Nat.dvd_trans ((discBytes_isAl _).dvd_max_right (alignCases_isAl cs)) ha
    have hge : payloadOffset cs + sizeCases cs ≤ Spec.size (.variant cs) := by
      rw [Spec.size]
      exact le_alignUp ((discBytes_isAl cs.length).max (alignCases_isAl cs)).pos
    have hdb : discBytes cs.length ≤ payloadOffset cs := le_alignUp (alignCases_isAl cs).pos
    have hil := hsel.lt
    have hi32 := toNat_ofNat_lt (n := i) (by omega)
    have hmc : matchCase (.map [(key, p)]) cs = .ok (BitVec.ofNat 32 i, p) :=
      (matchCase_ok _ cs (by omega) _ _).2 ⟨key, rfl, by rw [hi32]; exact hsel⟩
    have hdt := discriminantType_eq cs.length hl.1 hl.2.1
    generalize (if cs.length ≤ 2 ^ 8 then Disc.u8 else if cs.length ≤ 2 ^ 16 then Disc.u16 else Disc.u32) = dt at hdt
    have hdb' := disc_bytes _ _ hdt
    have hb : dt.bytes = BitVec.ofNat 32 (discBytes cs.length) := by
      apply BitVec.eq_of_toNat_eq
      rw [hdb', ofNat_toNat_isAl (discBytes_isAl _)]
    have hma : maxCaseAlignment cs 1 = .ok (BitVec.ofNat 32 (alignCases cs)) := by
      rw [maxCaseAlignment_eq cs hl.2.2 1 (.inl rfl)]
      have := (alignCases_isAl cs).pos
      show Res.ok (BitVec.ofNat 32 (max 1 (alignCases cs))) = _
      rw [Nat.max_eq_right this]
    have haddr : alignTo (ptr + dt.bytes) (BitVec.ofNat 32 (alignCases cs)) = ptr + BitVec.ofNat 32 (payloadOffset cs) := by
      rw [hb, alignTo_add ptr _ _ (alignCases_isAl cs) hd1]; rfl
    have hptr : (ptr + BitVec.ofNat 32 (payloadOffset cs)).toNat = ptr.toNat + payloadOffset cs := by
      rw [BitVec.toNat_add, toNat_ofNat_lt (by omega), Nat.mod_eq_of_lt (by omega)]
    rw [store]
    unfold Does
    rw [SM.bind_ok hva]
    show Does R _ s _
    refine .liftBind hmc ?_
    refine .liftBind hdt ?_
    refine .liftBind (disc_size dt) ?_
    apply Does.bind (storeDisc_does (R := R) (used := used) cs.length dt hdt (BitVec.ofNat 32 i) (by omega) ptr s hg (by omega))
    intro _ s1 w1
    refine .liftBind hma ?_
    rw [haddr]
    have hlen1 := w1.step.len
    simp only
    rw [hi32]
    have hsub : ∀ x, Dst (ptr + BitVec.ofNat 32 (payloadOffset cs)).toNat (sizeCases cs) x → used s.heap x := by
      intro x hx; apply hu; unfold Dst at *; omega
    apply (storeCase_means henc cs cs i p hv hw4 hl.2.2 (hp.imp_left (fun h => by simpa [Plain] using h)) hlf hsf
      (ptr + BitVec.ofNat 32 (payloadOffset cs)) s1 w1.step.good ?_ (by omega)
      (fun x hx => w1.step.keep x (hsub x hx)) (fun k l t r hk => hw3 k l t r hk)).imp
    · intro _ s2 w2
      refine (w1.seq w2 ?_ hsub ?_).imp ?_ ?_
      · intro x hx; apply hu; unfold Dst at *; omega
      · intro x hx; unfold Dst at *; omega
      · intro x hx; unfold Dst at *; omega
      · rintro s'' k1 k2 ⟨p1, l, t, r, ls, w, q1, q2, q3, q4⟩
        have hl2 := w2.step.len
        obtain ⟨x, e, hx⟩ := loadDisc_at cs.length dt hdt ptr s'' k2.1 k2.2 (by omega)
        rw [p1] at e
        cases e
        rw [hi32] at hx
        rw [hptr] at q4
        rw [Means, norm, ← hx]
        refine ⟨l, t, r, ls, w, q1, q2, ?_, q4⟩
        rw [(firstLabel_iff cs key i).2 hsel]
        exact q3
    · rw [hptr]
      exact Nat.dvd_add hd1 (alignUp_dvd _ _)
  | .own rt, _, _, _, _, hp, _, _, ptr, s, _, _, _, _ => by
    refine .any (hp.resolve_left (by simp [Plain])) ?_
    intro a s' h
    rw [store] at h
    obtain ⟨_, _, _, h⟩ := SM.bind_eq_ok.1 h
    cases h
  | .borrow rt, _, _, _, _, hp, _, _, ptr, s, _, _, _, _ => by
    refine .any (hp.resolve_left (by simp [Plain])) ?_
    intro a s' h
    rw [store] at h
    obtain ⟨_, _, _, h⟩ := SM.bind_eq_ok.1 h
    cases h
  | .nil, _, hv, _, _, _, _, _, _, _, _, _, _, _ => by simp [HasType] at hv
  | .other, _, hv, _, _, _, _, _, _, _, _, _, _, _ => by simp [HasType] at hv
theorem storeFields_means (henc : E.enc ∈ Spec.encodings) : (fs : Fields) → (m : List (String × Val)) → HasFields fs m →
    WfFields fs → fs.labels.Nodup → LaidFields fs → (PlainFields fs ∨ ∀ h, R h) → ListsFitFields fs m →
    StringsFitFields E.enc fs m →
    (base : U32) → (k : Nat) → (s : St σ) → Good s.mem → (B : Nat) → IsAl B → alignFields fs ≤ B → B ∣ base.toNat →
    base.toNat + fieldsEnd fs k ≤ s.mem.len →
    (∀ x, Dst (base.toNat + k) (fieldsEnd fs k - k) x → used s.heap x) →
    Does R (storeFields E fs m (base + BitVec.ofNat 32 k)) s fun _ s' =>
      Wrote used (Dst (base.toNat + k) (fieldsEnd fs k - k)) (fun s'' => ∃ es,
        (∀ acc : List (String × Val), (∀ l ∈ fs.labels, l ∉ acc.map Prod.fst) → normFields fs m acc = acc ++ es) ∧
        MeansFields Neatly E.enc s''.mem fs (base.toNat + k) es) s s'
  | .nil, m, _, _, _, _, _, _, _, base, k, s, hg, _, _, _, _, _, _ => by
    rw [storeFields]
    apply Does.pure
    refine ⟨Step.refl hg _, fun _ => False, fun _ h => h.elim, ?_⟩
    intro s'' _ _ _
    exact ⟨[], fun acc _ => by rw [normFields, List.append_nil], by rw [MeansFields]⟩
  | .cons l t fs, m, hv, hw, hnd, hl, hp, hlf, hsf, base, k, s, hg, B, hB, hBl, hBd, hle, hu => by
    rw [HasFields] at hv
    rw [ListsFitFields] at hlf
    rw [StringsFitFields] at hsf
    rw [WfFields] at hw
    rw [Fields.labels, List.nodup_cons] at hnd
    simp only [LaidFields] at hl
    rw [alignFields] at hBl
    rw [fieldsEnd] at hle hu
    have g1 := fieldsEnd_ge fs (alignUp k (align t) + Spec.size t)
    have g2 := le_alignUp (n := k) (align_isAl t).pos
    have g3 := hg.1
    have hd : align t ∣ base.toNat := Nat.dvd_trans ((align_isAl t).dvd_of_le hB (by omega)) hBd
    have hptr : (base + BitVec.ofNat 32 (alignUp k (align t))).toNat = base.toNat + alignUp k (align t) := by
      rw [BitVec.toNat_add, toNat_ofNat_lt (by omega), Nat.mod_eq_of_lt (by omega)]
    have hnext : base + BitVec.ofNat 32 (alignUp k (align t)) + BitVec.ofNat 32 (Spec.size t) =
        base + BitVec.ofNat 32 (alignUp k (align t) + Spec.size t) := by rw [BitVec.ofNat_add, BitVec.add_assoc]
    rw [storeFields]
    refine .liftBind (alignment_eq t hl.1) ?_
    rw [alignTo_add base k _ (align_isAl t) hd]
    simp only
    have hsub : ∀ x, Dst (base + BitVec.ofNat 32 (alignUp k (align t))).toNat (Spec.size t) x → used s.heap x := by
      intro x hx; apply hu; unfold Dst at *; omega
    apply Does.bind (store_means henc t (mapGet m l) hv.1 hw.1 hl.1 (hp.imp_left (fun h => by
      simp only [PlainFields] at h; exact h.1)) hlf.1 hsf.1 _ s hg
      (by rw [hptr]; exact Nat.dvd_add hd (alignUp_dvd _ _)) (by omega) hsub)
    intro _ s1 w1
    have hlen1 := w1.step.len
    refine .liftBind (size_eq t hl.1 (by omega)) ?_
    rw [hnext]
    have hsub2 : ∀ x, Dst (base.toNat + (alignUp k (align t) + Spec.size t))
        (fieldsEnd fs (alignUp k (align t) + Spec.size t) - (alignUp k (align t) + Spec.size t)) x → used s.heap x := by
      intro x hx; apply hu; unfold Dst at *; omega
    apply (storeFields_means henc fs m hv.2 hw.2 hnd.2 hl.2 (hp.imp_left (fun h => by
      simp only [PlainFields] at h; exact h.2)) hlf.2 hsf.2 base (alignUp k (align t) + Spec.size t) s1 w1.step.good B hB
      (by omega) hBd (by omega) (fun x hx => w1.step.keep x (hsub2 x hx))).imp
    intro _ s2 w2
    rw [fieldsEnd]
    refine (w1.seq w2 hsub hsub2 ?_).imp ?_ ?_
    · intro x hx; unfold Dst at *; omega
    · intro x hx; unfold Dst at *; omega
    · rintro s'' _ _ ⟨p1, es, p2, p3⟩
      refine ⟨(l, norm t (mapGet m l)) :: es, fun acc hac => ?_, ?_⟩
      · rw [Fields.labels] at hac
        rw [normFields, mapSet_fresh acc l _ (hac l (by simp)), p2 _ ?_, List.append_assoc]
        · rfl
        · intro l' hl'
          rw [List.map_append, List.mem_append, not_or]
          refine ⟨hac l' (by simp [hl']), fun e => ?_⟩
          simp at e
          exact hnd.1 (e ▸ hl')
      · rw [hptr] at p1
        rw [MeansFields, alignUp_add (align_isAl t).pos hd]
        exact ⟨_, es, rfl, p1, by rw [Nat.add_assoc]; exact p3⟩
theorem storeCase_means (henc : E.enc ∈ Spec.encodings) (all : Cases) : (cs : Cases) → (i : Nat) → (p : Val) →
    HasPayload cs i p → WfCases cs → LaidCases cs → (PlainCases cs ∨ ∀ h, R h) → ListsFitPayload cs i p →
    StringsFitPayload E.enc cs i p → (ptr : U32) → (s : St σ) → Good s.mem → alignCases cs ∣ ptr.toNat →
    ptr.toNat + sizeCases cs ≤ s.mem.len → (∀ x, Dst ptr.toNat (sizeCases cs) x → used s.heap x) →
    (∀ k l t r, cs.get? k = some (l, t, r) → ∃ ls, Chain all l r ls) →
    Does R (storeCase E cs i p ptr) s fun _ s' => Wrote used (Dst ptr.toNat (sizeCases cs))
      (fun s'' => ∃ l t r ls w, cs.get? i = some (l, t, r) ∧ Chain all l r ls ∧
        normCase all cs i p = .map [(bars ls, w)] ∧ MeansCase Neatly E.enc s''.mem cs i ptr.toNat w) s s'
  | .nil, _, _, hv, _, _, _, _, _, _, _, _, _, _, _, _ => by simp [HasPayload] at hv
  | .cons l t r cs, 0, p, hv, hw, hl, hp, hlf, hsf, ptr, s, hg, ha, hle, hu, hch => by
    rw [HasPayload] at hv
    rw [ListsFitPayload] at hlf
    rw [StringsFitPayload] at hsf
    rw [WfCases] at hw
    simp only [LaidCases] at hl
    rw [alignCases] at ha
    rw [sizeCases] at hle hu ⊢
    obtain ⟨ls, hls⟩ := hch 0 l t r rfl
    have hlab := caseLabel_chain hls
    rw [storeCase]
    by_cases ht : t = .nil
    · rw [if_pos ht]
      apply Does.pure
      refine ⟨Step.refl hg _, fun _ => False, fun _ h => h.elim, ?_⟩
      intro s'' _ _ _
      refine ⟨l, t, r, ls, .nil, rfl, hls, ?_, by rw [MeansCase]; exact .inl ⟨ht, rfl⟩⟩
      rw [normCase, hlab]
      simp only
      rw [if_pos ht]
    · rw [if_neg ht]
      have hda : align t ∣ ptr.toNat := Nat.dvd_trans ((align_isAl t).dvd_max_left (alignCases_isAl cs)) ha
      apply (store_means henc t p (hv.resolve_left ht) hw.1 (hl.1.resolve_left ht) (hp.imp_left (fun h => by
        simp only [PlainCases] at h; exact h.1)) hlf hsf ptr s hg hda (by omega)
        (fun x hx => hu x (by unfold Dst at *; omega))).imp
      intro _ s' w
      refine w.imp ?_ ?_
      · intro x hx; unfold Dst at *; omega
      · intro s'' _ _ h
        refine ⟨l, t, r, ls, norm t p, rfl, hls, ?_, by rw [MeansCase]; exact .inr ⟨ht, h⟩⟩
        rw [normCase, hlab]
        simp only
        rw [if_neg ht]
  | .cons l t r cs, i + 1, p, hv, hw, hl, hp, hlf, hsf, ptr, s, hg, ha, hle, hu, hch => by
    rw [HasPayload] at hv
    rw [ListsFitPayload] at hlf
    rw [StringsFitPayload] at hsf
    rw [WfCases] at hw
    simp only [LaidCases] at hl
    rw [alignCases] at ha
    rw [sizeCases] at hle hu ⊢
    rw [storeCase]
    apply (storeCase_means henc all cs i p hv hw.2 hl.2 (hp.imp_left (fun h => by
      simp only [PlainCases] at h; exact h.2)) hlf hsf ptr s hg
      (Nat.dvd_trans ((align_isAl t).dvd_max_right (alignCases_isAl cs)) ha) (by omega)
      (fun x hx => hu x (by unfold Dst at *; omega)) (fun k l' t' r' hk => hch (k + 1) l' t' r' hk)).imp
    intro _ s' w
    refine w.imp ?_ ?_
    · intro x hx; unfold Dst at *; omega
    · rintro s'' _ _ ⟨l', t', r', ls, w, h1, h2, h3, h4⟩
      exact ⟨l', t', r', ls, w, h1, h2, by rw [normCase]; exact h3, by rw [MeansCase]; exact h4⟩
end

end

end Verif.Abi
