import Verif.Abi.BareSame
import Verif.Abi.Typed

/-!
# Lowering two Go values that stand for the same value: step by step
-/

namespace Verif.Abi
open Spec

variable {σ : Type} {E : Env σ}

theorem lift_ok_bind {S α β : Type} (a : α) (f : α → SM S β) : (SM.lift (.ok a) >>= f) = f a := rfl

theorem bind_congr_st {S α β : Type} {m : SM S α} {f g : α → SM S β} {s : S} (h : ∀ a s', f a s' = g a s') :
    (m >>= f) s = (m >>= g) s := by
  have : f = g := funext fun a => funext fun s' => h a s'
  rw [this]

theorem storeElems_alike {t : Ty} (f : Val → U32 → SM (St σ) Unit) (p s : U32) : (vs ws zs : List Val) → (i : Nat) →
    vs.length = zs.length → ws.length = zs.length →
    (∀ (i : Nat) a b, vs[i]? = some a → zs[i]? = some b → Same t a b) →
    (∀ (i : Nat) a b, ws[i]? = some a → zs[i]? = some b → Same t a b) →
    (∀ a b z q, Same t a z → Same t b z → f a q = f b q) → storeElems f p s vs i = storeElems f p s ws i
  | [], [], _, _, _, _, _, _, _ => rfl
  | [], _ :: _, [], _, _, h, _, _, _ => by cases h
  | _ :: _, _, [], _, h, _, _, _, _ => by cases h
  | [], _, _ :: _, _, h, _, _, _, _ => by cases h
  | _ :: _, [], _ :: _, _, _, h, _, _, _ => by cases h
  | v :: vs, w :: ws, z :: zs, i, hv, hw, h1, h2, hf => by
    rw [storeElems, storeElems, hf v w z _ (h1 0 v z rfl rfl) (h2 0 w z rfl rfl),
      storeElems_alike f p s vs ws zs (i + 1) (by simpa using hv) (by simpa using hw)
        (fun j a b ha hb => h1 (j + 1) a b ha hb) (fun j a b ha hb => h2 (j + 1) a b ha hb) hf]

theorem storeListIntoRange_alike {t : Ty} (f : Val → U32 → SM (St σ) Unit) (v w z : Val) (hv : Same (.list t) v z)
    (hw : Same (.list t) w z) (hf : ∀ a b z q, Same t a z → Same t b z → f a q = f b q) :
    storeListIntoRange E f t v = storeListIntoRange E f t w := by
  rw [Same] at hv hw
  obtain ⟨vs, zs, rfl, rfl, hl, hv⟩ := hv
  obtain ⟨ws, _, rfl, e, hl', hw⟩ := hw
  cases e
  simp only [storeListIntoRange]
  rw [hl, hl']
  simp only [fun p s => storeElems_alike f p s vs ws zs 0 hl hl' hv hw hf]

theorem packFlags_alike (m n : List (String × Val)) : (ls : List String) → (i : Nat) →
    (∀ l ∈ ls, mapGet m l = mapGet n l) → packFlagsFrom m ls i = packFlagsFrom n ls i
  | [], _, _ => rfl
  | l :: ls, i, h => by
    rw [packFlagsFrom, packFlagsFrom, h l (by simp), packFlags_alike m n ls (i + 1) fun k hk => h k (by simp [hk])]

theorem same_flags {ls : List String} {v w z : Val} (hv : Same (.flags ls) v z) (hw : Same (.flags ls) w z) :
    ∃ m n, v = .map m ∧ w = .map n ∧ packFlagsFrom m ls 0 = packFlagsFrom n ls 0 := by
  rw [Same] at hv hw
  obtain ⟨m, n, rfl, rfl, -, h⟩ := hv
  obtain ⟨m', n', rfl, e, -, h'⟩ := hw
  cases e
  exact ⟨m, m', rfl, rfl, packFlags_alike m m' ls 0 fun l hl => (h l hl).symm.trans (h' l hl)⟩

/-- Two variant values that are the same name the same case. -/
theorem same_variant {cs : Cases} (hn : Named (.variant cs)) {v w z : Val} (hv : Same (.variant cs) v z)
    (hw : Same (.variant cs) w z) : ∃ i p q z', matchCase v cs = .ok (BitVec.ofNat 32 i, p) ∧
      matchCase w cs = .ok (BitVec.ofNat 32 i, q) ∧ i < cs.length ∧ SamePayload cs i p z' ∧ SamePayload cs i q z' := by
  rw [Same] at hv hw
  rw [Named] at hn
  obtain ⟨key, p, i, l, t, r, ls, p', rfl, hk, hg, hc, rfl, h⟩ := hv
  obtain ⟨key', q, j, l', t', r', ls', q', rfl, hk', hg', hc', e, h'⟩ := hw
  injection e with e
  injection e with e _
  injection e with e1 e2
  subst e2
  have hi := chain_selects hn.1 hn.2.1 hg hc
  rw [e1] at hi
  obtain rfl := hi.unique (chain_selects hn.1 hn.2.1 hg' hc')
  refine ⟨i, p, q, p', ?_, ?_, hk.lt, h, h'⟩
  · simp only [matchCase, (firstLabel_iff cs key i).2 hk]
  · simp only [matchCase, (firstLabel_iff cs key' i).2 hk']

theorem same_f32 {v w z : Val} (hv : Same .f32 v z) (hw : Same .f32 w z) :
    ∃ x y, v = .f32 x ∧ w = .f32 y ∧ canon32 x = canon32 y := by
  rw [Same] at hv hw
  obtain ⟨x, rfl, rfl⟩ := hv
  obtain ⟨y, rfl, e⟩ := hw
  injection e with e
  exact ⟨x, y, rfl, rfl, by rw [canon32_eq, canon32_eq, e]⟩

theorem same_f64 {v w z : Val} (hv : Same .f64 v z) (hw : Same .f64 w z) :
    ∃ x y, v = .f64 x ∧ w = .f64 y ∧ canon64 x = canon64 y := by
  rw [Same] at hv hw
  obtain ⟨x, rfl, rfl⟩ := hv
  obtain ⟨y, rfl, e⟩ := hw
  injection e with e
  exact ⟨x, y, rfl, rfl, by rw [canon64_eq, canon64_eq, e]⟩

mutual
theorem store_alike : (t : Ty) → Named t → (v w z : Val) → (p : U32) → Same t v z → Same t w z →
    store E t v p = store E t w p
  | .bool, _, _, _, _, _, hv, hw | .u8, _, _, _, _, _, hv, hw | .u16, _, _, _, _, _, hv, hw
  | .u32, _, _, _, _, _, hv, hw | .u64, _, _, _, _, _, hv, hw | .s8, _, _, _, _, _, hv, hw
  | .s16, _, _, _, _, _, hv, hw | .s32, _, _, _, _, _, hv, hw | .s64, _, _, _, _, _, hv, hw
  | .char, _, _, _, _, _, hv, hw | .string, _, _, _, _, _, hv, hw | .own _, _, _, _, _, _, hv, hw
  | .borrow _, _, _, _, _, _, hv, hw | .nil, _, _, _, _, _, hv, hw | .other, _, _, _, _, _, hv, hw => by
    simp only [Same] at hv hw
    rw [← hv, ← hw]
  | .f32, _, _, _, _, _, hv, hw => by
    obtain ⟨x, y, rfl, rfl, e⟩ := same_f32 hv hw
    simp only [store, storeFloat32, e]
  | .f64, _, _, _, _, _, hv, hw => by
    obtain ⟨x, y, rfl, rfl, e⟩ := same_f64 hv hw
    simp only [store, storeFloat64, e]
  | .list t, hn, v, w, z, p, hv, hw => by
    rw [Named] at hn
    simp only [store, storeList]
    rw [storeListIntoRange_alike (store E t) v w z hv hw fun a b z q ha hb => store_alike t hn a b z q ha hb]
  | .record fs, hn, v, w, z, p, hv, hw => by
    rw [Named] at hn
    rw [Same] at hv hw
    obtain ⟨m, n, rfl, rfl, -, hv⟩ := hv
    obtain ⟨m', n', rfl, e, -, hw⟩ := hw
    cases e
    simp only [store]
    rw [storeFields_alike fs hn.2 m m' n p hv hw]
  | .variant cs, hn, v, w, z, p, hv, hw => by
    obtain ⟨i, a, b, c, h1, h2, hi, ha, hb⟩ := same_variant hn hv hw
    rw [Named] at hn
    simp only [store]
    rw [h1, h2]
    rcases hd : discriminantType cs.length with d | _ | _ | _
    · have hlt := discriminantType_lt hd
      have e : (BitVec.ofNat 32 i : U32).toNat = i := by rw [BitVec.toNat_ofNat, Nat.mod_eq_of_lt (by omega)]
      have := fun q => storeCase_alike cs hn.2.2 i a b c q ha hb
      funext s
      simp only [lift_ok_bind, e, this]
    all_goals rfl
  | .flags ls, _, v, w, z, p, hv, hw => by
    obtain ⟨m, n, rfl, rfl, e⟩ := same_flags hv hw
    simp only [store, storeFlags, e]
theorem storeFields_alike : (fs : Fields) → NamedFields fs → (m n k : List (String × Val)) → (p : U32) →
    SameFields fs m k → SameFields fs n k → storeFields E fs m p = storeFields E fs n p
  | .nil, _, _, _, _, _, _, _ => by rw [storeFields, storeFields]
  | .cons l t fs, hn, m, n, k, p, hv, hw => by
    rw [NamedFields] at hn
    rw [SameFields] at hv hw
    simp only [storeFields]
    simp only [fun q => store_alike t hn.1 _ _ _ q hv.1 hw.1, fun q => storeFields_alike fs hn.2 m n k q hv.2 hw.2]
theorem storeCase_alike : (cs : Cases) → NamedCases cs → (i : Nat) → (a b c : Val) → (p : U32) →
    SamePayload cs i a c → SamePayload cs i b c → storeCase E cs i a p = storeCase E cs i b p
  | .nil, _, _, _, _, _, _, h, _ => by rw [SamePayload] at h; exact h.elim
  | .cons l t r cs, hn, 0, a, b, c, p, ha, hb => by
    rw [NamedCases] at hn
    rw [SamePayload] at ha hb
    rw [storeCase, storeCase]
    rcases ha with ⟨h, -⟩ | ⟨h, ha⟩
    · rw [if_pos h, if_pos h]
    · rcases hb with ⟨h', -⟩ | ⟨-, hb⟩
      · exact absurd h' h
      · rw [if_neg h, if_neg h, store_alike t hn.1 a b c p ha hb]
  | .cons l t r cs, hn, i + 1, a, b, c, p, ha, hb => by
    rw [NamedCases] at hn
    rw [SamePayload] at ha hb
    rw [storeCase, storeCase]
    exact storeCase_alike cs hn.2 i a b c p ha hb
end

mutual
theorem lowerFlat_alike : (t : Ty) → Named t → (v w z : Val) → Same t v z → Same t w z →
    lowerFlat E t v = lowerFlat E t w
  | .bool, _, _, _, _, hv, hw | .u8, _, _, _, _, hv, hw | .u16, _, _, _, _, hv, hw
  | .u32, _, _, _, _, hv, hw | .u64, _, _, _, _, hv, hw | .s8, _, _, _, _, hv, hw
  | .s16, _, _, _, _, hv, hw | .s32, _, _, _, _, hv, hw | .s64, _, _, _, _, hv, hw
  | .char, _, _, _, _, hv, hw | .string, _, _, _, _, hv, hw | .own _, _, _, _, _, hv, hw
  | .borrow _, _, _, _, _, hv, hw | .nil, _, _, _, _, hv, hw | .other, _, _, _, _, hv, hw => by
    simp only [Same] at hv hw
    rw [← hv, ← hw]
  | .f32, _, _, _, _, hv, hw => by
    obtain ⟨x, y, rfl, rfl, e⟩ := same_f32 hv hw
    simp only [lowerFlat, e]
  | .f64, _, _, _, _, hv, hw => by
    obtain ⟨x, y, rfl, rfl, e⟩ := same_f64 hv hw
    simp only [lowerFlat, e]
  | .list t, hn, v, w, z, hv, hw => by
    rw [Named] at hn
    simp only [lowerFlat]
    rw [storeListIntoRange_alike (store E t) v w z hv hw fun a b z q ha hb => store_alike t hn a b z q ha hb]
  | .record fs, hn, v, w, z, hv, hw => by
    rw [Named] at hn
    rw [Same] at hv hw
    obtain ⟨m, n, rfl, rfl, -, hv⟩ := hv
    obtain ⟨m', n', rfl, e, -, hw⟩ := hw
    cases e
    simp only [lowerFlat]
    rw [lowerFields_alike fs hn.2 m m' n hv hw]
  | .variant cs, hn, v, w, z, hv, hw => by
    obtain ⟨i, a, b, c, h1, h2, hi, ha, hb⟩ := same_variant hn hv hw
    rw [Named] at hn
    simp only [lowerFlat]
    rw [h1, h2]
    rcases hd : flatten (.variant cs) with d | _ | _ | _
    · have hlt := flatten_variant_lt hd
      have e : (BitVec.ofNat 32 i : U32).toNat = i := by rw [BitVec.toNat_ofNat, Nat.mod_eq_of_lt (by omega)]
      have := lowerCase_alike cs hn.2.2 i a b c ha hb
      simp only [lift_ok_bind, e, this]
    all_goals rfl
  | .flags ls, _, v, w, z, hv, hw => by
    obtain ⟨m, n, rfl, rfl, e⟩ := same_flags hv hw
    simp only [lowerFlat, lowerFlags, e]
theorem lowerFields_alike : (fs : Fields) → NamedFields fs → (m n k : List (String × Val)) →
    SameFields fs m k → SameFields fs n k → lowerFields E fs m = lowerFields E fs n
  | .nil, _, _, _, _, _, _ => by rw [lowerFields, lowerFields]
  | .cons l t fs, hn, m, n, k, hv, hw => by
    rw [NamedFields] at hn
    rw [SameFields] at hv hw
    simp only [lowerFields]
    rw [lowerFlat_alike t hn.1 _ _ _ hv.1 hw.1, lowerFields_alike fs hn.2 m n k hv.2 hw.2]
theorem lowerCase_alike : (cs : Cases) → NamedCases cs → (i : Nat) → (a b c : Val) →
    SamePayload cs i a c → SamePayload cs i b c → lowerCase E cs i a = lowerCase E cs i b
  | .nil, _, _, _, _, _, h, _ => by rw [SamePayload] at h; exact h.elim
  | .cons l t r cs, hn, 0, a, b, c, ha, hb => by
    rw [NamedCases] at hn
    rw [SamePayload] at ha hb
    rw [lowerCase, lowerCase]
    rcases ha with ⟨h, -⟩ | ⟨h, ha⟩
    · rw [if_pos h, if_pos h]
    · rcases hb with ⟨h', -⟩ | ⟨-, hb⟩
      · exact absurd h' h
      · rw [if_neg h, if_neg h, lowerFlat_alike t hn.1 a b c ha hb]
  | .cons l t r cs, hn, i + 1, a, b, c, ha, hb => by
    rw [NamedCases] at hn
    rw [SamePayload] at ha hb
    rw [lowerCase, lowerCase]
    exact lowerCase_alike cs hn.2 i a b c ha hb
end

theorem lowerEach_alike : (ts : List Ty) → (∀ t ∈ ts, Named t) → (vs ws zs : List Val) → SameAll ts vs zs → SameAll ts ws zs →
    lowerEach E ts vs = lowerEach E ts ws
  | [], _, [], [], [], _, _ => rfl
  | t :: ts, hn, v :: vs, w :: ws, z :: zs, hv, hw => by
    rw [lowerEach, lowerEach, lowerFlat_alike t (hn t (by simp)) v w z hv.1 hw.1,
      lowerEach_alike ts (fun u hu => hn u (by simp [hu])) vs ws zs hv.2 hw.2]

theorem lowerValues_alike (o k : Nat) (ts : List Ty) (hn : ∀ t ∈ ts, Named t) (vs ws zs : List Val) (hv : SameAll ts vs zs)
    (hw : SameAll ts ws zs) (out : Option Iter) : lowerValues E o k vs ts out = lowerValues E o k ws ts out := by
  simp only [lowerValues]
  rw [lowerEach_alike ts hn vs ws zs hv hw]

end Verif.Abi
