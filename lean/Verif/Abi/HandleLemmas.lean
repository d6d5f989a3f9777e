import Verif.Abi.HandleSpec
import Verif.Abi.FlagsKept
import Verif.Abi.FlatRound
import Verif.Abi.LoadLemmas
import Verif.Abi.NormLemmas

/-!
# What storing, loading, lowering and lifting do to the handles in a value
-/

namespace Verif.Abi
open Spec

variable {σ : Type} {E : Env σ}

theorem Spec.Lowers.append {w w1 w2 : Handles.World} {a b : List Held} {i j : List U32} (h1 : Lowers E w a i w1)
    (h2 : Lowers E w1 b j w2) : Lowers E w (a ++ b) (i ++ j) w2 := by
  induction h1 with
  | nil => exact h2
  | cons h _ ih => exact .cons h (ih h2)

theorem Spec.Lifts.append {w w1 w2 : Handles.World} {a b : List Held} {i j : List U32} (h1 : Lifts E w a i w1)
    (h2 : Lifts E w1 b j w2) : Lifts E w (a ++ b) (i ++ j) w2 := by
  induction h1 with
  | nil => exact h2
  | cons h _ ih => exact .cons h (ih h2)

theorem Spec.Lowers.length {w w1 : Handles.World} {a : List Held} {i : List U32} (h1 : Lowers E w a i w1) :
    a.length = i.length := by
  induction h1 with
  | nil => rfl
  | cons h _ ih => simp [ih]

theorem Spec.Lifts.split : {a : List Held} → {i : List U32} → {b : List Held} → {j : List U32} → {w w2 : Handles.World} →
    a.length = i.length → Lifts E w (a ++ b) (i ++ j) w2 → ∃ w1, Lifts E w a i w1 ∧ Lifts E w1 b j w2
  | [], [], _, _, w, _, _, h => ⟨w, .nil w, h⟩
  | _ :: _, _ :: _, _, _, _, _, hl, .cons h1 h2 => by
    obtain ⟨w1, h3, h4⟩ := Spec.Lifts.split (by simpa using hl) h2
    exact ⟨w1, .cons h1 h3, h4⟩

/-! ## Storing -/

theorem storeElems_each {f : Val → U32 → SM (St σ) Unit} (ptr sz : U32) : (vs : List Val) → (i : Nat) → (s s' : St σ) →
    storeElems f ptr sz vs i s = (.ok (), s') → ∀ v ∈ vs, ∃ p s1 s2, f v p s1 = (.ok (), s2)
  | [], _, _, _, _, _, h => by cases h
  | v :: vs, i, s, s', h, x, hx => by
    rw [storeElems, SM.bind_eq_ok] at h
    obtain ⟨_, s1, h1, h2⟩ := h
    rcases List.mem_cons.1 hx with rfl | hx
    · exact ⟨_, _, _, h1⟩
    · exact storeElems_each ptr sz vs (i + 1) s1 s' h2 x hx

theorem storeListIntoRange_each {f : Val → U32 → SM (St σ) Unit} {t : Ty} {v : Val} {s s' : St σ} {r : U32 × U32}
    (h : storeListIntoRange E f t v s = (.ok r, s')) :
    ∃ vs, v = .list vs ∧ ∀ x ∈ vs, ∃ p s1 s2, f x p s1 = (.ok (), s2) := by
  unfold storeListIntoRange at h
  split at h
  · rename_i vs
    refine ⟨vs, rfl, ?_⟩
    obtain ⟨z, s1, -, h⟩ := SM.bind_eq_ok.1 h
    obtain ⟨a, s2, -, h⟩ := SM.bind_eq_ok.1 h
    obtain ⟨p, s3, -, h⟩ := SM.bind_eq_ok.1 h
    rw [SM.ite_app] at h
    split at h
    · cases h
    · obtain ⟨st, s4, -, h⟩ := SM.bind_eq_ok.1 h
      rw [SM.ite_app] at h
      split at h
      · cases h
      · obtain ⟨_, s5, h, -⟩ := SM.bind_eq_ok.1 h
        exact storeElems_each _ _ _ _ _ _ h
  · cases h

theorem carried_each {t : Ty} : (vs : List Val) → (∀ x ∈ vs, Carried t x []) → ∃ hss, 
    List.Forall₂ (fun x h => Carried t x h) vs hss ∧ [] = hss.flatten
  | [], _ => ⟨[], .nil, rfl⟩
  | v :: vs, h => by
    obtain ⟨hss, h1, h2⟩ := carried_each vs fun x hx => h x (by simp [hx])
    exact ⟨[] :: hss, .cons (h v (by simp)) h1, by simp [← h2]⟩

theorem discriminantType_lt {n : Nat} {d : Disc} (h : discriminantType n = .ok d) : n < 2 ^ 32 := by
  obtain ⟨-, h5⟩ := discriminantType_ok _ _ h
  omega

mutual
/-- What can be stored has no handles. -/
theorem store_carries : (t : Ty) → (v : Val) → (ptr : U32) → (s s' : St σ) → store E t v ptr s = (.ok (), s') →
    Carried t v []
  | .bool, _, _, _, _, _ | .u8, _, _, _, _, _ | .u16, _, _, _, _, _ | .u32, _, _, _, _, _ | .u64, _, _, _, _, _
  | .s8, _, _, _, _, _ | .s16, _, _, _, _, _ | .s32, _, _, _, _, _ | .s64, _, _, _, _, _ | .f32, _, _, _, _, _
  | .f64, _, _, _, _, _ | .char, _, _, _, _, _ | .string, _, _, _, _, _ | .flags _, _, _, _, _, _
  | .nil, _, _, _, _, _ | .other, _, _, _, _, _ => by simp [Carried]
  | .own rt, v, ptr, s, s', h | .borrow rt, v, ptr, s, s', h => by
    rw [store] at h
    obtain ⟨_, s1, -, h⟩ := SM.bind_eq_ok.1 h
    cases h
  | .list t, v, ptr, s, s', h => by
    rw [store] at h
    obtain ⟨_, s1, -, h⟩ := SM.bind_eq_ok.1 h
    obtain ⟨r, s2, h, -⟩ := SM.bind_eq_ok.1 h
    obtain ⟨vs, rfl, he⟩ := storeListIntoRange_each h
    rw [Carried]
    obtain ⟨hss, h1, h2⟩ := carried_each (t := t) vs fun x hx => by
      obtain ⟨p, a, b, hx⟩ := he x hx
      exact store_carries t x p a b hx
    exact ⟨vs, hss, rfl, h1, h2⟩
  | .record fs, v, ptr, s, s', h => by
    rw [store_record] at h
    obtain ⟨_, s1, -, h1⟩ := SM.bind_eq_ok.1 h
    clear h
    split at h1
    · rename_i m
      rw [Carried]
      exact ⟨m, rfl, storeFields_carries fs m ptr s1 s' h1⟩
    · cases h1
  | .variant cs, v, ptr, s, s', h => by
    rw [store] at h
    obtain ⟨_, s1, -, g1⟩ := SM.bind_eq_ok.1 h
    obtain ⟨⟨i, p⟩, s2, h2, g2⟩ := SM.bind_eq_ok.1 g1
    obtain ⟨d, s3, h3, g3⟩ := SM.bind_eq_ok.1 g2
    obtain ⟨z, s4, h4, g4⟩ := SM.bind_eq_ok.1 g3
    obtain ⟨_, s5, h5, g5⟩ := SM.bind_eq_ok.1 g4
    obtain ⟨a, s6, h6, g6⟩ := SM.bind_eq_ok.1 g5
    clear h g1 g2 g3 g4 g5
    have hd : discriminantType cs.length = .ok d := (Prod.mk.inj h3).1
    have hm : matchCase v cs = .ok (i, p) := (Prod.mk.inj h2).1
    obtain ⟨key, rfl, hsel⟩ := (matchCase_ok v cs (discriminantType_lt hd) i p).1 hm
    rw [Carried]
    exact ⟨key, p, i.toNat, rfl, hsel, storeCase_carries cs i.toNat p _ s6 s' g6⟩
theorem storeFields_carries : (fs : Fields) → (m : List (String × Val)) → (ptr : U32) → (s s' : St σ) →
    storeFields E fs m ptr s = (.ok (), s') → CarriedFields fs m []
  | .nil, _, _, _, _, _ => by simp [CarriedFields]
  | .cons l t fs, m, ptr, s, s', h => by
    rw [storeFields] at h
    obtain ⟨a, s1, -, h⟩ := SM.bind_eq_ok.1 h
    obtain ⟨_, s2, h2, h⟩ := SM.bind_eq_ok.1 h
    obtain ⟨z, s3, -, h⟩ := SM.bind_eq_ok.1 h
    rw [CarriedFields]
    exact ⟨[], [], store_carries t _ _ _ _ h2, storeFields_carries fs m _ _ _ h, rfl⟩
theorem storeCase_carries : (cs : Cases) → (i : Nat) → (p : Val) → (ptr : U32) → (s s' : St σ) →
    storeCase E cs i p ptr s = (.ok (), s') → CarriedPayload cs i p []
  | .nil, _, _, _, _, _, h => by rw [storeCase] at h; cases h
  | .cons l t r cs, 0, p, ptr, s, s', h => by
    rw [storeCase, SM.ite_app] at h
    rw [CarriedPayload]
    by_cases ht : t = .nil
    · exact .inl ⟨ht, rfl⟩
    · rw [if_neg ht] at h
      exact .inr ⟨ht, store_carries t p ptr s s' h⟩
  | .cons l t r cs, i + 1, p, ptr, s, s', h => by
    rw [storeCase] at h
    rw [CarriedPayload]; exact storeCase_carries cs i p ptr s s' h
end

/-! ## The handles of a value are determined -/

mutual
theorem carried_unique : (t : Ty) → (v : Val) → (a b : List Held) → Carried t v a → Carried t v b → a = b
  | .bool, _, _, _, h1, h2 | .u8, _, _, _, h1, h2 | .u16, _, _, _, h1, h2 | .u32, _, _, _, h1, h2
  | .u64, _, _, _, h1, h2 | .s8, _, _, _, h1, h2 | .s16, _, _, _, h1, h2 | .s32, _, _, _, h1, h2
  | .s64, _, _, _, h1, h2 | .f32, _, _, _, h1, h2 | .f64, _, _, _, h1, h2 | .char, _, _, _, h1, h2
  | .string, _, _, _, h1, h2 | .flags _, _, _, _, h1, h2 | .nil, _, _, _, h1, h2 | .other, _, _, _, h1, h2 => by
    simp only [Carried] at h1 h2
    rw [h1, h2]
  | .own rt, _, _, _, h1, h2 | .borrow rt, _, _, _, h1, h2 => by
    simp only [Carried] at h1 h2
    obtain ⟨x, rfl, rfl⟩ := h1
    obtain ⟨y, e, rfl⟩ := h2
    injection e with e
    rw [e]
  | .list t, _, _, _, h1, h2 => by
    rw [Carried] at h1 h2
    obtain ⟨vs, hss, rfl, h3, rfl⟩ := h1
    obtain ⟨vs', hss', e, h4, rfl⟩ := h2
    injection e with e
    subst e
    congr 1
    induction h3 generalizing hss' with
    | nil => cases h4; rfl
    | cons h _ ih => cases h4 with
      | cons h' h'' => rw [carried_unique t _ _ _ h h', ih _ h'']
  | .record fs, _, _, _, h1, h2 => by
    rw [Carried] at h1 h2
    obtain ⟨m, rfl, h3⟩ := h1
    obtain ⟨m', e, h4⟩ := h2
    injection e with e
    subst e
    exact carriedFields_unique fs _ _ _ h3 h4
  | .variant cs, _, _, _, h1, h2 => by
    rw [Carried] at h1 h2
    obtain ⟨k, p, i, rfl, h3, h4⟩ := h1
    obtain ⟨k', p', i', e, h5, h6⟩ := h2
    simp only [Val.map.injEq, List.cons.injEq, Prod.mk.injEq, and_true] at e
    obtain ⟨rfl, rfl⟩ := e
    obtain rfl := h3.unique h5
    exact carriedPayload_unique cs _ _ _ _ h4 h6
theorem carriedFields_unique : (fs : Fields) → (m : List (String × Val)) → (a b : List Held) → CarriedFields fs m a →
    CarriedFields fs m b → a = b
  | .nil, _, _, _, h1, h2 => by simp only [CarriedFields] at h1 h2; rw [h1, h2]
  | .cons l t fs, m, _, _, h1, h2 => by
    rw [CarriedFields] at h1 h2
    obtain ⟨a, b, h3, h4, rfl⟩ := h1
    obtain ⟨c, d, h5, h6, rfl⟩ := h2
    rw [carried_unique t _ _ _ h3 h5, carriedFields_unique fs _ _ _ h4 h6]
theorem carriedPayload_unique : (cs : Cases) → (i : Nat) → (p : Val) → (a b : List Held) → CarriedPayload cs i p a →
    CarriedPayload cs i p b → a = b
  | .nil, _, _, _, _, h1, _ => by simp [CarriedPayload] at h1
  | .cons l t r cs, 0, p, _, _, h1, h2 => by
    rw [CarriedPayload] at h1 h2
    rcases h1 with ⟨e, rfl⟩ | ⟨e, h1⟩
    · rcases h2 with ⟨-, rfl⟩ | ⟨e', -⟩
      · rfl
      · exact absurd e e'
    · rcases h2 with ⟨e', -⟩ | ⟨-, h2⟩
      · exact absurd e' e
      · exact carried_unique t _ _ _ h1 h2
  | .cons l t r cs, i + 1, p, _, _, h1, h2 => by
    rw [CarriedPayload] at h1 h2
    exact carriedPayload_unique cs i p _ _ h1 h2
end

end Verif.Abi
