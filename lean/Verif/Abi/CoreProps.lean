import Verif.Abi.CoreSpec
import Verif.Abi.FlatRound
import Verif.Abi.FlatProps

/-!
# C117: `FlattenType` gives the core types of the Canonical ABI
-/

namespace Verif.Abi

open Spec

/-! ## Slots -/

theorem slot_cons (x : Kind) (ks : List Kind) : slot (x :: ks) =
    if ∀ k ∈ ks, k = x then x else if ∀ k ∈ x :: ks, k = .u32 ∨ k = .f32 then .u32 else .u64 := by
  unfold slot
  simp only [List.head?_cons, List.headD_cons, Option.some.injEq]
  have : (∀ k ∈ x :: ks, x = k) ↔ ∀ k ∈ ks, k = x := by
    constructor
    · intro h k hk; exact (h k (by simp [hk])).symm
    · intro h k hk
      rcases List.mem_cons.1 hk with rfl | hk
      · rfl
      · exact (h k hk).symm
  simp only [this]

theorem slot_append (x : Kind) (ks : List Kind) (b : Kind) : slot (x :: ks ++ [b]) = join (slot (x :: ks)) b := by
  rw [List.cons_append, slot_cons, slot_cons]
  by_cases h1 : ∀ k ∈ ks, k = x
  · rw [if_pos h1]
    by_cases hb : b = x
    · rw [if_pos (fun k hk => by
        rcases List.mem_append.1 hk with h | h
        · exact h1 k h
        · rw [List.mem_singleton.1 h, hb])]
      subst hb
      simp [join]
    · rw [if_neg (fun h => hb (h b (by simp)))]
      by_cases h2 : (x = .u32 ∨ x = .f32) ∧ (b = .u32 ∨ b = .f32)
      · rw [if_pos]
        · revert hb h2
          cases x <;> cases b <;> simp [join]
        · intro k hk
          simp only [List.mem_cons, List.mem_append, List.not_mem_nil, or_false] at hk
          rcases hk with rfl | hk | rfl
          · exact h2.1
          · rw [h1 k hk]; exact h2.1
          · exact h2.2
      · rw [if_neg (fun h => h2 ⟨h x (by simp), h b (by simp)⟩)]
        revert hb h2
        cases x <;> cases b <;> simp [join]
  · rw [if_neg h1, if_neg (fun h => h1 fun k hk => h k (by simp [hk]))]
    by_cases h2 : ∀ k ∈ x :: ks, k = .u32 ∨ k = .f32
    · rw [if_pos h2]
      by_cases hb : b = .u32 ∨ b = .f32
      · rw [if_pos]
        · rcases hb with rfl | rfl <;> rfl
        · intro k hk
          simp only [List.mem_cons, List.mem_append, List.not_mem_nil, or_false] at hk
          rcases hk with rfl | hk | rfl
          · exact h2 _ (by simp)
          · exact h2 k (by simp [hk])
          · exact hb
      · rw [if_neg (fun h => hb (h b (by simp)))]
        revert hb
        cases b <;> simp [join]
    · rw [if_neg h2, if_neg]
      · cases b <;> rfl
      · intro h
        apply h2
        intro k hk
        apply h
        rcases List.mem_cons.1 hk with rfl | hk <;> simp_all

theorem joinInto_get : (a b : List Kind) → (j : Nat) → (joinInto a b)[j]? =
    match a[j]?, b[j]? with
    | some x, some y => some (join x y)
    | some x, none => some x
    | none, y => y
  | a, [], j => by
    rw [joinInto]
    cases a[j]? <;> simp
  | [], b :: bs, j => by
    rw [joinInto]
    · simp
    · simp
  | a :: as, b :: bs, 0 => by simp [joinInto]
  | a :: as, b :: bs, j + 1 => by
    rw [joinInto]
    simpa using joinInto_get as bs j

theorem column_append (kss : List (List Kind)) (ks : List Kind) (j : Nat) :
    column (kss ++ [ks]) j = column kss j ++ ks[j]?.toList := by
  unfold column
  rw [List.filterMap_append]
  cases h : ks[j]? <;> simp [h]

/-- What a list of slots has at each position. -/
def Shares (ws : List Kind) (kss : List (List Kind)) : Prop :=
  ∀ j, ws[j]? = if column kss j = [] then none else some (slot (column kss j))

theorem Shares.add {ws : List Kind} {kss : List (List Kind)} (h : Shares ws kss) (ks : List Kind) :
    Shares (joinInto ws ks) (kss ++ [ks]) := by
  intro j
  rw [joinInto_get, column_append, h j]
  rcases hc : column kss j with _ | ⟨x, xs⟩
  · cases ks[j]? with
    | none => simp
    | some y => simp [slot]
  · rw [if_neg (by simp)]
    cases ks[j]? with
    | none => simp
    | some y =>
      rw [if_neg (by simp)]
      simp only [Option.toList_some]
      rw [slot_append]

theorem column_nil_iff (kss : List (List Kind)) (j : Nat) :
    column kss j = [] ↔ (kss.map List.length).foldr max 0 ≤ j := by
  induction kss with
  | nil => simp [column]
  | cons ks kss ih =>
    unfold column at ih ⊢
    rw [List.map_cons, List.foldr_cons, List.filterMap_cons]
    rcases h : ks[j]? with _ | y
    · rw [ih]
      have := List.getElem?_eq_none_iff.1 h
      constructor
      · intro h'; exact Nat.max_le.2 ⟨this, h'⟩
      · intro h'; exact (Nat.max_le.1 h').2
    · have := (List.getElem?_eq_some_iff.1 h).1
      constructor
      · intro h'; cases h'
      · intro h'
        have := (Nat.max_le.1 h').1
        omega

theorem shares_slots (kss : List (List Kind)) : Shares (slots kss) kss := by
  intro j
  unfold slots
  rw [List.getElem?_map]
  by_cases h : column kss j = []
  · rw [if_pos h, List.getElem?_eq_none (by rw [List.length_range]; exact (column_nil_iff kss j).1 h)]
    rfl
  · rw [if_neg h, List.getElem?_range (Nat.lt_of_not_le fun c => h ((column_nil_iff kss j).2 c))]
    rfl

theorem Shares.unique {ws ws' : List Kind} {kss : List (List Kind)} (h : Shares ws kss) (h' : Shares ws' kss) : ws = ws' :=
  List.ext_getElem? fun j => by rw [h j, h' j]

/-! ## All types -/

mutual
theorem flatten_coreTypes : (t : Ty) → Laid t → FewLabels t → flatten t = .ok (coreTypes t)
  | .bool, _, _ | .u8, _, _ | .s8, _, _ | .u16, _, _ | .s16, _, _ | .u32, _, _ | .s32, _, _ | .f32, _, _ | .char, _, _
  | .own _, _, _ | .borrow _, _, _ | .u64, _, _ | .s64, _, _ | .f64, _, _ | .string, _, _ | .list _, _, _ => by
    rw [flatten, coreTypes]
  | .flags ls, _, h => by
    simp only [FewLabels] at h
    rw [flatten, coreTypes, numI32Flags, toNat_ofNat_lt (by omega)]
  | .record fs, h, hf => by
    simp only [Laid] at h
    simp only [FewLabels] at hf
    rw [flatten, coreTypes]
    exact flattenFields_coreTypes fs h hf
  | .variant cs, h, hf => by
    simp only [Laid] at h
    simp only [FewLabels] at hf
    obtain ⟨ws, e, hs⟩ := flattenCases_shares cs h.2.2 hf [] [] (fun j => by simp [column])
    rw [flatten, coreTypes, e, Res.bind_ok, discriminantType_eq cs.length h.1 h.2.1, Res.bind_ok,
      hs.unique (shares_slots (coreCases cs))]
  | .nil, h, _ => by simp [Laid] at h
  | .other, h, _ => by simp [Laid] at h
theorem flattenFields_coreTypes : (fs : Fields) → LaidFields fs → FewLabelsFields fs →
    flattenFields fs = .ok (coreFields fs)
  | .nil, _, _ => by rw [flattenFields, coreFields]
  | .cons l t fs, h, hf => by
    simp only [LaidFields] at h
    simp only [FewLabelsFields] at hf
    rw [flattenFields, flatten_coreTypes t h.1 hf.1, Res.bind_ok, flattenFields_coreTypes fs h.2 hf.2, Res.bind_ok,
      coreFields]
theorem flattenCases_shares : (cs : Cases) → LaidCases cs → FewLabelsCases cs → (flat : List Kind) →
    (kss : List (List Kind)) → Shares flat kss →
    ∃ ws, flattenCases cs flat = .ok ws ∧ Shares ws (kss ++ coreCases cs)
  | .nil, _, _, flat, kss, h => ⟨flat, by rw [flattenCases], by rw [coreCases, List.append_nil]; exact h⟩
  | .cons l t r cs, hl, hf, flat, kss, h => by
    simp only [LaidCases] at hl
    simp only [FewLabelsCases] at hf
    rw [flattenCases, coreCases]
    by_cases ht : t = .nil
    · rw [if_pos ht]
      subst ht
      have : Shares flat (kss ++ [coreTypes .nil]) := by
        have := h.add (coreTypes .nil)
        rwa [coreTypes, joinInto] at this
      obtain ⟨ws, e, hs⟩ := flattenCases_shares cs hl.2 hf.2 flat _ this
      exact ⟨ws, e, by rwa [List.append_assoc] at hs⟩
    · rw [if_neg ht, flatten_coreTypes t (hl.1.resolve_left ht) hf.1, Res.bind_ok]
      obtain ⟨ws, e, hs⟩ := flattenCases_shares cs hl.2 hf.2 _ _ (h.add (coreTypes t))
      exact ⟨ws, e, by rwa [List.append_assoc] at hs⟩
end

/-- **C117**: `FlattenType` succeeds exactly for the types that have a layout, and gives their core types. -/
theorem flatten_core (t : VT) (hf : FewLabels t.core) (ks : List Kind) :
    t.flatten = .ok ks ↔ Laid t.core ∧ ks = coreTypes t.core := by
  show Abi.flatten t.core = .ok ks ↔ _
  constructor
  · intro h
    have hl := laid_of_flatten t.core ks h
    rw [flatten_coreTypes t.core hl hf] at h
    cases h
    exact ⟨hl, rfl⟩
  · rintro ⟨hl, rfl⟩
    exact flatten_coreTypes t.core hl hf

/-- The slots of a variant: an `f32` and an `i32` share 32 bits, an `f32` and an `i64` share 64 bits, and two `f64` keep
their type. -/
example : (VT.variant (.cons "a" (.tuple (.cons .f32 (.cons .f32 (.cons .f64 .nil)))) none
      (.cons "b" (.tuple (.cons .u8 (.cons .s64 (.cons .f64 (.cons .string .nil))))) none (.cons "c" .nil none .nil)))).flatten =
    .ok [.u32, .u32, .u64, .f64, .u32, .u32] :=
  (flatten_core _ (by simp [VT.core, VCases.core, VTys.fields, FewLabels, FewLabelsCases, FewLabelsFields]) _).2
    ⟨by simp [VT.core, VCases.core, VTys.fields, Laid, LaidCases, LaidFields, Cases.length], by decide⟩

end Verif.Abi
