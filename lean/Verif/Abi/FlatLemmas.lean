import Verif.Abi.Flat
import Verif.Abi.RoundTrip

/-!
# Lowering, lifting and flattening
-/

namespace Verif.Abi
open Spec

variable {σ : Type}

/-! ## Kinds -/

/-- A value of kind `k` can be carried in a place of kind `w`. -/
def Fits (k w : Kind) : Prop := w = k ∨ (k = .f32 ∧ w = .u32) ∨ w = .u64

theorem Fits.refl (k : Kind) : Fits k k := .inl rfl

theorem Fits.trans {a b c : Kind} (h : Fits a b) (h' : Fits b c) : Fits a c := by
  rcases h' with rfl | ⟨rfl, rfl⟩ | rfl
  · exact h
  · rcases h with rfl | ⟨-, h⟩ | h
    · exact .inr (.inl ⟨rfl, rfl⟩)
    · cases h
    · cases h
  · exact .inr (.inr rfl)

theorem fits_join (a b : Kind) : Fits a (join a b) ∧ Fits b (join a b) := by
  cases a <;> cases b <;> simp [join, Fits]

/-- Kinds carried position by position, possibly with room to spare. -/
def Carries : List Kind → List Kind → Prop
  | [], _ => True
  | _ :: _, [] => False
  | k :: ks, w :: ws => Fits k w ∧ Carries ks ws

theorem Carries.refl : (ks : List Kind) → Carries ks ks
  | [] => trivial
  | k :: ks => ⟨.refl k, Carries.refl ks⟩

theorem Carries.trans : {a b c : List Kind} → Carries a b → Carries b c → Carries a c
  | [], _, _, _, _ => trivial
  | _ :: _, [], _, h, _ => h.elim
  | _ :: _, _ :: _, [], _, h => h.elim
  | _ :: _, _ :: _, _ :: _, h, h' => ⟨h.1.trans h'.1, Carries.trans h.2 h'.2⟩

theorem carries_joinInto : (a b : List Kind) → Carries a (joinInto a b) ∧ Carries b (joinInto a b)
  | [], [] => ⟨trivial, trivial⟩
  | [], b :: bs => ⟨trivial, .refl _⟩
  | a :: as, [] => ⟨.refl _, trivial⟩
  | a :: as, b :: bs => by
    obtain ⟨h1, h2⟩ := carries_joinInto as bs
    obtain ⟨h3, h4⟩ := fits_join a b
    exact ⟨⟨h3, h1⟩, h4, h2⟩

theorem Carries.length : {a b : List Kind} → Carries a b → a.length ≤ b.length
  | [], _, _ => Nat.zero_le _
  | _ :: _, [], h => h.elim
  | _ :: _, _ :: _, h => Nat.succ_le_succ h.2.length

theorem Carries.get : {a b : List Kind} → Carries a b → (j : Nat) → (k : Kind) → a[j]? = some k →
    ∃ w, b[j]? = some w ∧ Fits k w
  | _ :: _, [], h, _, _, _ => h.elim
  | k :: _, w :: _, h, 0, _, e => ⟨w, rfl, by injection e with e; subst e; exact h.1⟩
  | _ :: _, _ :: _, h, j + 1, k, e => Carries.get h.2 j k e

theorem flattenCases_carries : (cs : Cases) → (flat ws : List Kind) → flattenCases cs flat = .ok ws →
    Carries flat ws ∧ ∀ i l t r, cs.get? i = some (l, t, r) → t ≠ .nil → ∃ ks, flatten t = .ok ks ∧ Carries ks ws
  | .nil, flat, ws, h => by
    rw [flattenCases] at h
    injection h with h
    subst h
    exact ⟨.refl _, fun i l t r h => by cases h⟩
  | .cons l t r cs, flat, ws, h => by
    rw [flattenCases] at h
    by_cases ht : t = .nil
    · rw [if_pos ht] at h
      obtain ⟨h1, h2⟩ := flattenCases_carries cs flat ws h
      refine ⟨h1, ?_⟩
      intro i l' t' r' hg hn
      cases i with
      | zero =>
        injection hg with hg
        injection hg with _ hg
        injection hg with hg _
        exact absurd (hg ▸ ht) hn
      | succ i => exact h2 i l' t' r' hg hn
    · rw [if_neg ht] at h
      cases e : flatten t with
      | ok ks =>
        rw [e] at h
        obtain ⟨h1, h2⟩ := flattenCases_carries cs _ ws h
        obtain ⟨h3, h4⟩ := carries_joinInto flat ks
        refine ⟨h3.trans h1, ?_⟩
        intro i l' t' r' hg hn
        cases i with
        | zero =>
          injection hg with hg
          injection hg with _ hg
          injection hg with hg _
          exact ⟨ks, by rw [← hg]; exact e, h4.trans h1⟩
        | succ i => exact h2 i l' t' r' hg hn
      | err => rw [e] at h; cases h
      | panic => rw [e] at h; cases h
      | diverge => rw [e] at h; cases h

theorem flatten_variant {cs : Cases} {fts : List Kind} (h : flatten (.variant cs) = .ok fts) :
    ∃ ws, fts = .u32 :: ws ∧ flattenCases cs [] = .ok ws := by
  rw [flatten] at h
  cases e : flattenCases cs [] with
  | ok ws =>
    rw [e] at h
    cases e' : discriminantType cs.length with
    | ok d => rw [e'] at h; injection h with h; exact ⟨ws, h.symm, rfl⟩
    | err => rw [e'] at h; cases h
    | panic => rw [e'] at h; cases h
    | diverge => rw [e'] at h; cases h
  | err => rw [e] at h; cases h
  | panic => rw [e] at h; cases h
  | diverge => rw [e] at h; cases h

/-! ## Coercions -/

theorem coerce_kind (v : FV) (w : Kind) (h : Fits v.kind w) : (coerceTo v w).kind = w := by
  cases v <;> cases w <;> first | rfl | (simp [Fits, FV.kind] at h)

theorem coerce_back (v : FV) (w : Kind) (h : Fits v.kind w) : uncoerce w v.kind (coerceTo v w).val = .ok v.val := by
  cases v <;> cases w <;>
    first
      | (simp [Fits, FV.kind] at h; done)
      | rfl
      | (simp only [coerceTo, FV.val, FV.kind, uncoerce]
         rw [BitVec.setWidth_setWidth_of_le _ (by omega), BitVec.setWidth_eq])

/-- The coerced payload has the kinds of the places it takes. -/
theorem coercePayload_ok : (vs : List FV) → (ws : List Kind) → Carries (vs.map FV.kind) ws →
    ∃ p rest, coercePayload vs ws = .ok (p, rest) ∧ ws = p.map FV.kind ++ rest ∧ p.length = vs.length ∧
      p = List.zipWith coerceTo vs ws
  | [], ws, _ => ⟨[], ws, rfl, rfl, rfl, rfl⟩
  | _ :: _, [], h => h.elim
  | v :: vs, w :: ws, h => by
    obtain ⟨p, rest, e, h1, h2, h3⟩ := coercePayload_ok vs ws h.2
    refine ⟨coerceTo v w :: p, rest, ?_, ?_, ?_, ?_⟩
    · rw [coercePayload, e]; rfl
    · simp [coerce_kind v w h.1, ← h1]
    · simp [h2]
    · simp [h3]

theorem zero_kind (k : Kind) : (zero k).kind = k := by cases k <;> rfl

theorem map_zero_kind (ks : List Kind) : (ks.map zero).map FV.kind = ks := by
  induction ks with
  | nil => rfl
  | cons k ks ih => simp [zero_kind, ih]

theorem flagWords_kind : (n : Nat) → (x : U64) → (flagWords n x).map FV.kind = List.replicate n .u32
  | 0, _ => rfl
  | n + 1, x => by rw [flagWords, List.map_cons, flagWords_kind n, List.replicate_succ]; rfl

/-! ## Lowering gives the flattened kinds -/

theorem pure_inv {S α : Type} {a b : α} {s s' : S} (h : (pure a : SM S α) s = (.ok b, s')) : a = b ∧ s = s' := by
  injection h with h1 h2
  injection h1 with h1
  exact ⟨h1, h2⟩

theorem lift_ok_inv {S α : Type} {r : Res α} {s s1 : S} {x : α} (h : SM.lift r s = (.ok x, s1)) : r = .ok x ∧ s1 = s := by
  rw [SM.lift_def] at h
  injection h with h1 h2
  exact ⟨h1, h2.symm⟩

mutual
theorem lower_kinds (E : Env σ) : (t : Ty) → (v : Val) → (s s' : St σ) → (fs : List FV) →
    lowerFlat E t v s = (.ok fs, s') → flatten t = .ok (fs.map FV.kind)
  | .bool, v, s, s', fs, h | .u8, v, s, s', fs, h | .u16, v, s, s', fs, h | .u32, v, s, s', fs, h
  | .u64, v, s, s', fs, h | .s8, v, s, s', fs, h | .s16, v, s, s', fs, h | .s32, v, s, s', fs, h
  | .s64, v, s, s', fs, h | .f32, v, s, s', fs, h | .f64, v, s, s', fs, h | .char, v, s, s', fs, h => by
    unfold lowerFlat at h
    cases v <;> first
      | (cases h; done)
      | (obtain ⟨h1, -⟩ := pure_inv h; subst h1; rw [flatten]; rfl)
  | .string, v, s, s', fs, h => by
    unfold lowerFlat at h
    cases v <;> first
      | (cases h; done)
      | skip
    obtain ⟨r, s1, -, h1⟩ := SM.bind_eq_ok.1 h
    obtain ⟨h2, -⟩ := pure_inv h1
    subst h2
    rw [flatten]; rfl
  | .list t, v, s, s', fs, h => by
    unfold lowerFlat at h
    obtain ⟨r, s1, -, h1⟩ := SM.bind_eq_ok.1 h
    obtain ⟨h2, -⟩ := pure_inv h1
    subst h2
    rw [flatten]; rfl
  | .record fields, v, s, s', fs, h => by
    unfold lowerFlat at h
    cases v <;> first
      | (cases h; done)
      | skip
    rw [flatten]
    exact lowerFields_kinds E fields _ s s' fs h
  | .variant cs, v, s, s', fs, h => by
    unfold lowerFlat at h
    obtain ⟨r, s1, -, h1⟩ := SM.bind_eq_ok.1 h
    obtain ⟨fts, s2, h2, h3⟩ := SM.bind_eq_ok.1 h1
    obtain ⟨h4, -⟩ := lift_ok_inv h2
    obtain ⟨ws, rfl, hw⟩ := flatten_variant h4
    rw [h4]
    simp only [ne_eq, not_true_eq_false, if_false] at h3
    obtain ⟨payload, s3, h5, h6⟩ := SM.bind_eq_ok.1 h3
    obtain ⟨p, s4, h7, h8⟩ := SM.bind_eq_ok.1 h6
    obtain ⟨h9, -⟩ := lift_ok_inv h7
    obtain ⟨h10, -⟩ := pure_inv h8
    have hc : Carries (payload.map FV.kind) ws := by
      rcases lowerCase_kinds E cs _ _ _ _ _ h5 with rfl | ⟨l, t, q, ks, e1, e2, e3, e4⟩
      · trivial
      · obtain ⟨-, hall⟩ := flattenCases_carries cs [] ws hw
        obtain ⟨ks', e5, e6⟩ := hall _ _ _ _ e1 e2
        rw [e3] at e5
        injection e5 with e5
        subst e5
        rw [e4]; exact e6
    obtain ⟨p', rest, g1, g2, -, -⟩ := coercePayload_ok payload ws hc
    rw [g1] at h9
    injection h9 with h9
    subst h9
    subst h10
    simp only [List.map_cons, List.map_append, map_zero_kind]
    rw [← g2]; rfl
  | .flags ls, v, s, s', fs, h => by
    unfold lowerFlat at h
    obtain ⟨h1, -⟩ := lift_ok_inv h
    unfold lowerFlags at h1
    cases v <;> first
      | (cases h1; done)
      | skip
    simp only at h1
    rename_i m
    cases e : packFlagsFrom m ls 0 with
    | ok x =>
      rw [e, Res.bind_ok] at h1
      split at h1
      · cases h1
      · injection h1 with h1
        subst h1
        rw [flatten, flagWords_kind]
    | err => rw [e] at h1; cases h1
    | panic => rw [e] at h1; cases h1
    | diverge => rw [e] at h1; cases h1
  | .own rt, v, s, s', fs, h | .borrow rt, v, s, s', fs, h => by
    unfold lowerFlat at h
    cases v <;> first
      | (cases h; done)
      | skip
    obtain ⟨r, s1, -, h1⟩ := SM.bind_eq_ok.1 h
    obtain ⟨h2, -⟩ := pure_inv h1
    subst h2
    rw [flatten]; rfl
  | .nil, v, s, s', fs, h | .other, v, s, s', fs, h => by
    unfold lowerFlat at h
    cases h
theorem lowerFields_kinds (E : Env σ) : (fields : Fields) → (m : List (String × Val)) → (s s' : St σ) → (fs : List FV) →
    lowerFields E fields m s = (.ok fs, s') → flattenFields fields = .ok (fs.map FV.kind)
  | .nil, m, s, s', fs, h => by
    unfold lowerFields at h
    obtain ⟨h1, -⟩ := pure_inv h
    subst h1
    rw [flattenFields]; rfl
  | .cons l t fields, m, s, s', fs, h => by
    unfold lowerFields at h
    obtain ⟨a, s1, h1, h2⟩ := SM.bind_eq_ok.1 h
    obtain ⟨b, s2, h3, h4⟩ := SM.bind_eq_ok.1 h2
    obtain ⟨h5, -⟩ := pure_inv h4
    subst h5
    rw [flattenFields, lower_kinds E t _ _ _ _ h1, Res.bind_ok, lowerFields_kinds E fields m _ _ _ h3, Res.bind_ok,
      List.map_append]
theorem lowerCase_kinds (E : Env σ) : (cs : Cases) → (i : Nat) → (v : Val) → (s s' : St σ) → (fs : List FV) →
    lowerCase E cs i v s = (.ok fs, s') →
    fs = [] ∨ ∃ l t r ks, cs.get? i = some (l, t, r) ∧ t ≠ .nil ∧ flatten t = .ok ks ∧ fs.map FV.kind = ks
  | .nil, i, v, s, s', fs, h => by
    unfold lowerCase at h
    cases h
  | .cons l t r cs, 0, v, s, s', fs, h => by
    unfold lowerCase at h
    by_cases ht : t = .nil
    · rw [if_pos ht] at h
      exact .inl (pure_inv h).1.symm
    · rw [if_neg ht] at h
      exact .inr ⟨l, t, r, _, rfl, ht, lower_kinds E t _ _ _ _ h, rfl⟩
  | .cons l t r cs, i + 1, v, s, s', fs, h => by
    unfold lowerCase at h
    exact lowerCase_kinds E cs i v s s' fs h
end

end Verif.Abi
