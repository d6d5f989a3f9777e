import Verif.Abi.FlatMeansLift
import Verif.Abi.StoreMeans

/-!
# What `LowerFlat` gives stands for the value
-/

namespace Verif.Abi

open Encoding Spec

variable {σ : Type}

theorem coerce_bits (v : FV) (w : Kind) (h : Fits v.kind w) : (coerceTo v w).bits = v.bits := by
  revert h
  cases v with
  | u32 x | f32 x => cases w <;> simp [Fits, FV.kind, coerceTo, FV.bits] <;> omega
  | u64 x | f64 x => cases w <;> simp [Fits, FV.kind, coerceTo, FV.bits]

theorem coerced_bits : (vs : List FV) → (ws : List Kind) → Carries (vs.map FV.kind) ws →
    (List.zipWith coerceTo vs ws).map FV.bits = vs.map FV.bits
  | [], _, _ => rfl
  | _ :: _, [], h => h.elim
  | v :: vs, w :: ws, h => by
    rw [List.zipWith_cons_cons, List.map_cons, List.map_cons, coerce_bits v w h.1, coerced_bits vs ws h.2]

theorem zeros_bits (ks : List Kind) : (ks.map zero).map FV.bits = List.replicate ks.length 0 := by
  induction ks with
  | nil => rfl
  | cons k ks ih => rw [List.map_cons, List.map_cons, ih, List.length_cons, List.replicate_succ]; cases k <;> rfl

/-! ## Flags -/

theorem flagWords_getD : (n : Nat) → (x : U64) → (j : Nat) →
    ((flagWords n x).map FV.bits).getD j 0 = if j < n then (x.toNat >>> (32 * j)) % 2 ^ 32 else 0
  | 0, _, j => by simp [flagWords]
  | n + 1, x, 0 => by simp [flagWords, FV.bits]
  | n + 1, x, j + 1 => by
    rw [flagWords, List.map_cons, List.getD_cons_succ, flagWords_getD n (x >>> 32) j, BitVec.toNat_ushiftRight,
      ← Nat.shiftRight_add, show 32 + 32 * j = 32 * (j + 1) by omega]
    by_cases h : j < n
    · rw [if_pos h, if_pos (by omega)]
    · rw [if_neg h, if_neg (by omega)]

theorem flagWords_bit (n : Nat) (x : U64) (i : Nat) (hx : x.toNat < 2 ^ (32 * n)) :
    (((flagWords n x).map FV.bits).getD (i / 32) 0).testBit (i % 32) = x.getLsbD i := by
  rw [flagWords_getD]
  by_cases h : i / 32 < n
  · rw [if_pos h, Nat.testBit_mod_two_pow, Nat.testBit_shiftRight, show 32 * (i / 32) + i % 32 = i by omega]
    simp [Nat.mod_lt, BitVec.testBit_toNat]
  · rw [if_neg h, Nat.zero_testBit]
    symm
    rw [← BitVec.testBit_toNat]
    exact Nat.testBit_lt_two_pow (Nat.lt_of_lt_of_le hx (Nat.pow_le_pow_right (by omega) (by omega)))

theorem flagWords_lt (n : Nat) (x : U64) : ∀ b ∈ (flagWords n x).map FV.bits, b < 2 ^ 32 := by
  induction n generalizing x with
  | zero => intro b hb; simp [flagWords] at hb
  | succ n ih =>
    intro b hb
    rw [flagWords, List.map_cons, List.mem_cons] at hb
    rcases hb with rfl | hb
    · exact (x.setWidth 32).isLt
    · exact ih _ b hb

theorem lowerFlags_means (enc : String) (mem : Mem) (m : List (String × Val)) (ls : List String) (hd : ls.Nodup)
    (hl : ls.length ≤ 64) (hm : ∀ l ∈ ls, ∃ b, mapGet m l = .bool b) (fs : List FV)
    (h : lowerFlags (.map m) ls = .ok fs) :
    FlatMeans Neatly enc mem (.flags ls) (fs.map FV.bits) (.map (normFlags m ls [])) := by
  obtain ⟨x, hx, hlt, hn⟩ := packFlags_norm m ls hl hm
  have hw : (numI32Flags ls.length).toNat = (ls.length + 31) / 32 := by
    rw [numI32Flags, toNat_ofNat_lt (by omega)]
  unfold lowerFlags at h
  simp only at h
  rw [hx, Res.bind_ok, hw] at h
  have hx' : x.toNat < 2 ^ (32 * ((ls.length + 31) / 32)) :=
    Nat.lt_of_lt_of_le hlt (Nat.pow_le_pow_right (by omega) (by omega))
  split at h
  · cases h
  · cases h
    rw [FlatMeans]
    refine ⟨?_, fun _ => ⟨flagWords_lt _ _, fun i hi => ?_⟩⟩
    · rw [← hn, unpack_zip ls x [] 0 hd (by simp) (fun i => x.getLsbD i) fun i _ => by rw [Nat.zero_add]]
      congr 1
      rw [List.nil_append]
      apply List.map_congr_left
      intro q _
      rw [flagWords_bit _ x _ hx']
    · rw [flagWords_bit _ x _ hx', ← BitVec.testBit_toNat]
      exact Nat.testBit_lt_two_pow (Nat.lt_of_lt_of_le hlt (Nat.pow_le_pow_right (by omega) hi))

/-! ## All types -/

theorem lower_length (E : Env σ) (t : Ty) (hl : Laid t) (hw : Wf t) (v : Val) (s s' : St σ) (fs : List FV)
    (h : lowerFlat E t v s = (.ok fs, s')) : (fs.map FV.bits).length = (coreTypes t).length := by
  have h1 := lower_kinds E t v s s' fs h
  rw [flatten_core_wf t hl hw] at h1
  injection h1 with h1
  rw [h1, List.length_map, List.length_map]

section
variable {E : Env σ} {used : σ → Nat → Prop} (G : GoodAlloc E used) {R : σ → Prop}
  (hR : ∀ a n m h, (∃ p, (E.realloc a n (m, h)).1 = .ok p) ∨ R (E.realloc a n (m, h)).2.2)
include G hR

mutual
/-- `LowerFlat` succeeds unless the allocator refuses, and what it gives stands for the value. -/
theorem lower_means (henc : E.enc ∈ Spec.encodings) : (t : Ty) → (v : Val) → HasType t v → Wf t → Laid t → Plain t →
    ListsFit t v → StringsFit E.enc t v → (s : St σ) → Good s.mem →
    Does R (lowerFlat E t v) s fun fs s' => Wrote used (fun _ => False)
      (fun s'' => FlatMeans Neatly E.enc s''.mem t (fs.map FV.bits) (norm t v)) s s'
  | .bool, v, hv, _, _, _, _, _, s, hg => by
    simp only [HasType] at hv
    obtain ⟨b, rfl⟩ := hv
    unfold lowerFlat
    refine .pure (.nothing hg fun s'' => ?_)
    rw [FlatMeans]
    exact ⟨_, rfl, by cases b <;> rfl, fun _ => by cases b <;> decide⟩
  | .u8, v, hv, _, _, _, _, _, s, hg | .u16, v, hv, _, _, _, _, _, s, hg => by
    simp only [HasType] at hv
    obtain ⟨x, rfl⟩ := hv
    unfold lowerFlat
    refine .pure (.nothing hg fun s'' => ?_)
    rw [FlatMeans, norm]
    · have := x.isLt
      have e : (FV.u32 (x.setWidth 32)).bits = x.toNat := by
        simp only [FV.bits, BitVec.toNat_setWidth]; omega
      refine ⟨_, rfl, by rw [e, BitVec.ofNat_toNat, BitVec.setWidth_eq], fun _ => by rw [e]; exact x.isLt⟩
    all_goals simp
  | .u32, v, hv, _, _, _, _, _, s, hg | .u64, v, hv, _, _, _, _, _, s, hg | .s32, v, hv, _, _, _, _, _, s, hg
  | .s64, v, hv, _, _, _, _, _, s, hg => by
    simp only [HasType] at hv
    obtain ⟨x, rfl⟩ := hv
    unfold lowerFlat
    refine .pure (.nothing hg fun s'' => ?_)
    rw [FlatMeans, norm]
    · exact ⟨x.toNat, rfl, by rw [BitVec.ofNat_toNat, BitVec.setWidth_eq], fun _ => x.isLt⟩
    all_goals simp
  | .s8, v, hv, _, _, _, _, _, s, hg | .s16, v, hv, _, _, _, _, _, s, hg => by
    simp only [HasType] at hv
    obtain ⟨x, rfl⟩ := hv
    have hx : (x.signExtend 32).setWidth _ = x := by
      apply BitVec.eq_of_getLsbD_eq
      intro i hi
      rw [BitVec.getLsbD_setWidth, BitVec.getLsbD_signExtend]
      simp [hi, show i < 32 by omega]
    unfold lowerFlat
    refine .pure (.nothing hg fun s'' => ?_)
    rw [FlatMeans, norm]
    · refine ⟨(x.signExtend 32).toNat, rfl, by rw [BitVec.ofNat_toNat, hx], fun _ => by
        rw [BitVec.ofNat_toNat, hx]; rfl⟩
    all_goals simp
  | .f32, v, hv, _, _, _, _, _, s, hg => by
    simp only [HasType] at hv
    obtain ⟨x, rfl⟩ := hv
    unfold lowerFlat
    refine .pure (.nothing hg fun s'' => ?_)
    rw [FlatMeans, norm]
    refine ⟨(canon32 x).toNat, rfl, ?_, fun _ => ?_⟩ <;>
      rw [BitVec.ofNat_toNat, BitVec.setWidth_eq, ← canon32_eq, canon32_idem]
  | .f64, v, hv, _, _, _, _, _, s, hg => by
    simp only [HasType] at hv
    obtain ⟨x, rfl⟩ := hv
    unfold lowerFlat
    refine .pure (.nothing hg fun s'' => ?_)
    rw [FlatMeans, norm]
    refine ⟨(canon64 x).toNat, rfl, ?_, fun _ => ?_⟩ <;>
      rw [BitVec.ofNat_toNat, BitVec.setWidth_eq, ← canon64_eq, canon64_idem]
  | .char, v, hv, _, _, _, _, _, s, hg => by
    simp only [HasType] at hv
    obtain ⟨c, rfl⟩ := hv
    have hr := char_range c
    unfold lowerFlat
    refine .pure (.nothing hg fun s'' => ?_)
    rw [FlatMeans, norm]
    · have e : (FV.u32 (BitVec.ofNat 32 c.toNat)).bits = c.toNat := by
        simp only [FV.bits, BitVec.toNat_ofNat]; omega
      refine ⟨_, rfl, ⟨c, ?_, rfl⟩, fun _ => ?_⟩ <;> rw [e] <;> omega
    all_goals simp
  | .string, v, hv, _, _, _, _, hsf, s, hg => by
    simp only [HasType] at hv
    obtain ⟨str, rfl⟩ := hv
    rw [StringsFit] at hsf
    obtain ⟨hs1, hs2⟩ := hsf str rfl
    unfold lowerFlat
    apply Does.bind (storeStringIntoRange_means G hR str henc hs1 hs2 s hg)
    rintro ⟨p, n⟩ s1 w
    apply Does.pure
    refine w.imp (fun _ h => h) ?_
    intro s'' _ _ hs
    rw [FlatMeans, norm]
    · refine ⟨p.toNat, n.toNat, rfl, ⟨str, rfl, ?_⟩, fun _ => ⟨p.isLt, n.isLt⟩⟩
      rw [Nat.mod_eq_of_lt p.isLt, Nat.mod_eq_of_lt n.isLt]
      exact hs
    all_goals simp
  | .list t, v, hv, hw, _, hp, hlf, hsf, s, hg => by
    rw [HasType] at hv
    obtain ⟨vs, rfl, hv⟩ := hv
    rw [StringsFit] at hsf
    have hsf := hsf vs rfl
    rw [ListsFit] at hlf
    obtain ⟨hf1, hf2, hf3⟩ := hlf vs rfl
    rw [Wf] at hw
    unfold lowerFlat
    apply Does.bind (storeListIntoRange_wrote G hR t (fun v p s'' => Means Neatly E.enc s''.mem t p (norm t v)) hw.1 vs
      hf1 hf2 s hg (fun v hm p' s' g' a' l' u' =>
      store_means G hR henc t v (hv v hm) hw.2 hw.1 (.inl (by simpa [Plain] using hp)) (hf3 v hm)
        (hsf v hm) p' s' g' a' l' u'))
    rintro ⟨p, n⟩ s1 w
    apply Does.pure
    refine w.imp (fun _ h => h) ?_
    rintro s'' _ _ ⟨p1, p1b, p1c, p1d⟩
    simp only at p1 p1b p1c p1d
    rw [FlatMeans, norm]
    refine ⟨p.toNat, n.toNat, rfl, ⟨_, rfl, ?_⟩, fun _ => ⟨p.isLt, n.isLt⟩⟩
    rw [Nat.mod_eq_of_lt p.isLt, Nat.mod_eq_of_lt n.isLt, p1]
    refine ⟨by rw [List.length_map], p1b, p1c, fun i x hx => ?_⟩
    rw [List.getElem?_map] at hx
    rcases hi : vs[i]? with _ | v'
    · rw [hi] at hx; cases hx
    · rw [hi] at hx
      cases hx
      exact p1d i v' hi
  | .record fs, v, hv, hw, hl, hp, hlf, hsf, s, hg => by
    rw [HasType] at hv
    obtain ⟨m, rfl, hv⟩ := hv
    rw [StringsFit] at hsf
    have hsf := hsf m rfl
    rw [ListsFit] at hlf
    have hlf := hlf m rfl
    rw [Wf] at hw
    simp only [Laid] at hl
    simp only [Plain] at hp
    unfold lowerFlat
    apply (lowerFields_means henc fs m hv hw.2 hw.1 hl hp hlf hsf s hg).imp
    intro as s' w
    refine w.imp (fun _ h => h) ?_
    rintro s'' _ _ ⟨es, h1, h2⟩
    rw [FlatMeans, norm]
    exact ⟨es, by rw [h1 [] (by simp)]; rfl, h2⟩
  | .variant cs, v, hv, hw, hl, hp, hlf, hsf, s, hg => by
    obtain ⟨fts, hfl⟩ := flatten_of_laid _ hl
    obtain ⟨ws, rfl, hws⟩ := flatten_variant hfl
    rw [HasType] at hv
    obtain ⟨key, p, i, rfl, hsel, hv⟩ := hv
    rw [StringsFit] at hsf
    have hsf := hsf key p i rfl hsel
    rw [ListsFit] at hlf
    have hlf := hlf key p i rfl hsel
    rw [Wf] at hw
    obtain ⟨hw1, hw2, hw3, hw4⟩ := hw
    simp only [Laid] at hl
    simp only [Plain] at hp
    have hil := hsel.lt
    have hi32 := toNat_ofNat_lt (n := i) (by omega)
    have hmc : matchCase (.map [(key, p)]) cs = .ok (BitVec.ofNat 32 i, p) :=
      (matchCase_ok _ cs (by omega) _ _).2 ⟨key, rfl, by rw [hi32]; exact hsel⟩
    unfold lowerFlat
    refine .liftBind hmc ?_
    refine .liftBind hfl ?_
    simp only [ne_eq, not_true_eq_false, if_false]
    rw [hi32]
    apply Does.bind (lowerCase_means henc cs cs i p hv hw4 hl.2.2 hp hlf hsf s hg (fun k l t r hk => hw3 k l t r hk)).eqn
    intro payload s1 ⟨he, w⟩
    have hc : Carries (payload.map FV.kind) ws := by
      rcases lowerCase_kinds E cs _ _ _ _ _ he with rfl | ⟨l, t, q, ks, e1, e2, e3, e4⟩
      · trivial
      · obtain ⟨-, hall⟩ := flattenCases_carries cs [] ws hws
        obtain ⟨ks', e5, e6⟩ := hall _ _ _ _ e1 e2
        rw [e3] at e5
        injection e5 with e5
        subst e5
        rw [e4]; exact e6
    obtain ⟨p', rest, g1, g2, g3, g4⟩ := coercePayload_ok payload ws hc
    refine .liftBind g1 ?_
    apply Does.pure
    refine w.imp (fun _ h => h) ?_
    rintro s'' _ _ ⟨l, t, r, ls, x, q1, q2, q3, q4⟩
    rw [FlatMeans, norm, (firstLabel_iff cs key i).2 hsel]
    refine ⟨_, _, rfl, ⟨l, t, r, ls, x, ?_, q2, q3, ?_⟩, fun _ => (BitVec.ofNat 32 i).isLt⟩
    · show cs.get? ((BitVec.ofNat 32 i).toNat % 2 ^ 32) = _
      rw [hi32, Nat.mod_eq_of_lt (by omega)]
      exact q1
    · show FlatMeansCase _ _ _ cs ((BitVec.ofNat 32 i).toNat % 2 ^ 32) _ _
      rw [hi32, Nat.mod_eq_of_lt (by omega), List.map_append, g4, coerced_bits payload ws hc, zeros_bits]
      exact q4 _
  | .flags ls, v, hv, hw, _, _, _, _, s, hg => by
    rw [HasType] at hv
    obtain ⟨m, rfl, hv⟩ := hv
    rw [Wf] at hw
    obtain ⟨fs, e, -⟩ := lowerFlags_lift (σ := σ) m ls hw.2 hv
    unfold lowerFlat
    rw [e]
    refine .pure (.nothing hg fun s'' => ?_)
    rw [norm]
    exact lowerFlags_means E.enc s''.mem m ls hw.1 hw.2 hv fs e
  | .own rt, _, _, _, _, hp, _, _, _, _ => by simp [Plain] at hp
  | .borrow rt, _, _, _, _, hp, _, _, _, _ => by simp [Plain] at hp
  | .nil, _, hv, _, _, _, _, _, _, _ => by simp [HasType] at hv
  | .other, _, hv, _, _, _, _, _, _, _ => by simp [HasType] at hv
theorem lowerFields_means (henc : E.enc ∈ Spec.encodings) : (fs : Fields) → (m : List (String × Val)) → HasFields fs m →
    WfFields fs → fs.labels.Nodup → LaidFields fs → PlainFields fs → ListsFitFields fs m → StringsFitFields E.enc fs m →
    (s : St σ) → Good s.mem → Does R (lowerFields E fs m) s fun xs s' => Wrote used (fun _ => False)
      (fun s'' => ∃ es,
        (∀ acc : List (String × Val), (∀ l ∈ fs.labels, l ∉ acc.map Prod.fst) → normFields fs m acc = acc ++ es) ∧
        FlatMeansFields Neatly E.enc s''.mem fs (xs.map FV.bits) es) s s'
  | .nil, m, _, _, _, _, _, _, _, s, hg => by
    unfold lowerFields
    refine .pure (.nothing hg fun s'' => ?_)
    exact ⟨[], fun acc _ => by rw [normFields, List.append_nil], by rw [FlatMeansFields]⟩
  | .cons l t fs, m, hv, hw, hnd, hl, hp, hlf, hsf, s, hg => by
    rw [HasFields] at hv
    rw [ListsFitFields] at hlf
    rw [StringsFitFields] at hsf
    rw [WfFields] at hw
    rw [Fields.labels, List.nodup_cons] at hnd
    simp only [LaidFields] at hl
    simp only [PlainFields] at hp
    unfold lowerFields
    apply Does.bind (lower_means henc t _ hv.1 hw.1 hl.1 hp.1 hlf.1 hsf.1 s hg).eqn
    intro a s1 ⟨e1, w1⟩
    have hlen := lower_length E t hl.1 hw.1 _ _ _ _ e1
    apply Does.bind (lowerFields_means henc fs m hv.2 hw.2 hnd.2 hl.2 hp.2 hlf.2 hsf.2 s1 w1.step.good)
    intro b s2 w2
    apply Does.pure
    refine (w1.seq w2 (fun _ h => h.elim) (fun _ h => h.elim) (fun _ h => h.elim)).imp (fun _ h => h.elim id id) ?_
    rintro s'' _ _ ⟨p1, es, p2, p3⟩
    refine ⟨(l, norm t (mapGet m l)) :: es, fun acc hac => ?_, ?_⟩
    · rw [Fields.labels] at hac
      rw [normFields, mapSet_fresh acc l _ (hac l (by simp)), p2 _ ?_, List.append_assoc]
      · rfl
      · intro l' hl'
        rw [List.map_append, List.mem_append, not_or]
        refine ⟨hac l' (by simp [hl']), fun e => ?_⟩
        simp at e
        exact hnd.1 (e ▸ hl')
    · rw [FlatMeansFields, ← hlen, List.map_append, List.take_left, List.drop_left]
      exact ⟨_, es, rfl, p1, p3⟩
theorem lowerCase_means (henc : E.enc ∈ Spec.encodings) (all : Cases) : (cs : Cases) → (i : Nat) → (p : Val) →
    HasPayload cs i p → WfCases cs → LaidCases cs → PlainCases cs → ListsFitPayload cs i p →
    StringsFitPayload E.enc cs i p → (s : St σ) → Good s.mem →
    (∀ k l t r, cs.get? k = some (l, t, r) → ∃ ls, Chain all l r ls) →
    Does R (lowerCase E cs i p) s fun xs s' => Wrote used (fun _ => False)
      (fun s'' => ∃ l t r ls w, cs.get? i = some (l, t, r) ∧ Chain all l r ls ∧
        normCase all cs i p = .map [(bars ls, w)] ∧
        ∀ n, FlatMeansCase Neatly E.enc s''.mem cs i (xs.map FV.bits ++ List.replicate n 0) w) s s'
  | .nil, _, _, hv, _, _, _, _, _, _, _, _ => by simp [HasPayload] at hv
  | .cons l t r cs, 0, p, hv, hw, hl, hp, hlf, hsf, s, hg, hch => by
    rw [HasPayload] at hv
    rw [ListsFitPayload] at hlf
    rw [StringsFitPayload] at hsf
    rw [WfCases] at hw
    simp only [LaidCases] at hl
    simp only [PlainCases] at hp
    obtain ⟨ls, hls⟩ := hch 0 l t r rfl
    have hlab := caseLabel_chain hls
    unfold lowerCase
    by_cases ht : t = .nil
    · rw [if_pos ht]
      refine .pure (.nothing hg fun s'' => ?_)
      refine ⟨l, t, r, ls, .nil, rfl, hls, ?_, fun n => ?_⟩
      · rw [normCase, hlab]
        simp only
        rw [if_pos ht]
      · rw [FlatMeansCase]
        refine ⟨.inl ⟨ht, rfl⟩, fun _ b hb => ?_⟩
        exact List.eq_of_mem_replicate (List.mem_of_mem_drop hb)
    · rw [if_neg ht]
      apply (lower_means henc t p (hv.resolve_left ht) hw.1 (hl.1.resolve_left ht) hp.1 hlf hsf s hg).eqn.imp
      intro xs s' ⟨e, w⟩
      have hlen := lower_length E t (hl.1.resolve_left ht) hw.1 _ _ _ _ e
      refine w.imp (fun _ h => h) ?_
      intro s'' _ _ h
      refine ⟨l, t, r, ls, norm t p, rfl, hls, ?_, fun n => ?_⟩
      · rw [normCase, hlab]
        simp only
        rw [if_neg ht]
      · rw [FlatMeansCase, ← hlen, List.take_left, List.drop_left]
        exact ⟨.inr ⟨ht, h⟩, fun _ b hb => List.eq_of_mem_replicate hb⟩
  | .cons l t r cs, i + 1, p, hv, hw, hl, hp, hlf, hsf, s, hg, hch => by
    rw [HasPayload] at hv
    rw [ListsFitPayload] at hlf
    rw [StringsFitPayload] at hsf
    rw [WfCases] at hw
    simp only [LaidCases] at hl
    simp only [PlainCases] at hp
    unfold lowerCase
    apply (lowerCase_means henc all cs i p hv hw.2 hl.2 hp.2 hlf hsf s hg
      (fun k l' t' r' hk => hch (k + 1) l' t' r' hk)).imp
    intro xs s' w
    refine w.imp (fun _ h => h) ?_
    rintro s'' _ _ ⟨l', t', r', ls, w, h1, h2, h3, h4⟩
    exact ⟨l', t', r', ls, w, h1, h2, by rw [normCase]; exact h3, fun n => by rw [FlatMeansCase]; exact h4 n⟩
end

end

end Verif.Abi
