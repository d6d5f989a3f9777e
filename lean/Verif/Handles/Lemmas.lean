import Verif.Handles.Spec

/-!
# Lemmas about handles
-/

namespace Verif.Handles
open Verif.Abi (RT)

/-! ## One table -/

/-- The element at an index. -/
def Table.slot (t : Table) (i : U32) : Option ElemId := (t.array[i.toNat]?).join

/-- Every recorded free slot exists, and there are at least as many empty slots as recorded ones. -/
structure TInv (t : Table) : Prop where
  free_lt : ∀ x ∈ t.free, x.toNat < t.array.length
  free_le : t.free.length ≤ t.array.countP (·.isNone)

theorem TInv.empty : TInv .empty := ⟨by simp [Table.empty], by simp [Table.empty]⟩

theorem countP_set_some {l : List (Option ElemId)} {i : Nat} {h : ElemId} (hi : l[i]? = some none) :
    (l.set i (some h)).countP (·.isNone) + 1 = l.countP (·.isNone) := by
  induction l generalizing i with
  | nil => simp at hi
  | cons x xs ih =>
    cases i with
    | zero =>
      simp at hi; subst hi
      simp
    | succ i =>
      simp at hi
      have := ih hi
      simp only [List.set_cons_succ, List.countP_cons]
      omega

theorem countP_set_none {l : List (Option ElemId)} {i : Nat} {h : ElemId} (hi : l[i]? = some (some h)) :
    (l.set i none).countP (·.isNone) = l.countP (·.isNone) + 1 := by
  induction l generalizing i with
  | nil => simp at hi
  | cons x xs ih =>
    cases i with
    | zero =>
      simp at hi; subst hi
      simp
    | succ i =>
      simp at hi
      have := ih hi
      simp only [List.set_cons_succ, List.countP_cons]
      omega

theorem slot_set (t : Table) (i j : U32) (x : Option ElemId) (f : List U32) (hi : i.toNat < t.array.length) :
    Table.slot ⟨t.array.set i.toNat x, f⟩ j = upd t.slot i x j := by
  unfold Table.slot upd
  by_cases h : j = i
  · subst h; simp [hi]
  · have : i.toNat ≠ j.toNat := fun e => h (BitVec.eq_of_toNat_eq e.symm)
    simp [h, this]

theorem slot_append (t : Table) (j : U32) (h : ElemId) (f : List U32) (hl : t.array.length < 2 ^ 32) :
    Table.slot ⟨t.array ++ [some h], f⟩ j = upd t.slot (BitVec.ofNat 32 t.array.length) (some h) j := by
  unfold Table.slot upd
  by_cases e : j = BitVec.ofNat 32 t.array.length
  · subst e
    have : (BitVec.ofNat 32 t.array.length).toNat = t.array.length := by
      simp; omega
    simp only [this, if_pos]
    simp
  · have : j.toNat ≠ t.array.length := by
      intro h'; apply e; apply BitVec.eq_of_toNat_eq; simp; omega
    simp only [e, if_false]
    by_cases h1 : j.toNat < t.array.length
    · rw [List.getElem?_append_left h1]
    · rw [List.getElem?_eq_none (by simp; omega), List.getElem?_eq_none (by omega)]

/-- What `Add` does to a well-formed table. -/
theorem add_cases (t : Table) (h : ElemId) (ht : TInv t) (hf : (t.add h).2.array.length < 2 ^ 32) :
    TInv (t.add h).2 ∧
    (((t.add h).1 = .err ∧ (t.add h).2.slot = t.slot) ∨
      ∃ i, (t.add h).1 = .ok i ∧ t.slot i = none ∧ (t.add h).2.slot = upd t.slot i (some h)) := by
  rcases t with ⟨arr, free⟩
  obtain ⟨h1, h2⟩ := ht
  cases free with
  | nil =>
    simp only [Table.add] at hf ⊢
    have hl : arr.length < 2 ^ 32 := by simp at hf; omega
    refine ⟨⟨by simp, by simp⟩, .inr ⟨_, rfl, ?_, ?_⟩⟩
    · simp [Table.slot, Nat.mod_eq_of_lt hl]
    · funext j; exact slot_append ⟨arr, []⟩ j h [] hl
  | cons x xs =>
    have hx := h1 x (by simp)
    simp only at hx h1 h2
    simp only [Table.add]
    rcases e : arr[x.toNat]? with _ | _ | y
    · rw [List.getElem?_eq_none_iff] at e; omega
    · have hc := countP_set_some (h := h) e
      refine ⟨⟨?_, ?_⟩, .inr ⟨x, rfl, ?_, ?_⟩⟩
      · intro z hz; simpa using h1 z (by simp [hz])
      · simp only [List.length_cons] at h2 ⊢; omega
      · simp [Table.slot, e]
      · funext j; exact slot_set ⟨arr, x :: xs⟩ x j (some h) xs hx
    · refine ⟨⟨fun z hz => h1 z (by simp [hz]), ?_⟩, .inl ⟨rfl, ?_⟩⟩
      · simp only [List.length_cons] at h2 ⊢; omega
      · funext j; rfl

/-- `Get` reads the slot. -/
theorem get_eq (t : Table) (i : U32) (hf : t.array.length < 2 ^ 32) :
    t.get i = match t.slot i with | some h => .ok h | none => .err := by
  unfold Table.get Table.slot
  have : (BitVec.ofNat 32 t.array.length).toNat = t.array.length := by simp; omega
  rw [this]
  by_cases h : i.toNat ≥ t.array.length
  · rw [if_pos h, List.getElem?_eq_none (by omega)]; rfl
  · rw [if_neg h]
    rcases e : t.array[i.toNat]? with _ | _ | y
    · rw [List.getElem?_eq_none_iff] at e; omega
    · rfl
    · rfl

/-- What `Remove` does to a well-formed table. -/
theorem remove_cases (t : Table) (lend : ElemId → Int) (i : U32) (ht : TInv t) (hf : t.array.length < 2 ^ 32) :
    (t.slot i = none ∧ t.remove lend i = (.err, t)) ∨
    (∃ h, t.slot i = some h ∧ lend h ≠ 0 ∧ t.remove lend i = (.err, t)) ∨
    (∃ h t', t.slot i = some h ∧ lend h = 0 ∧ t.remove lend i = (.ok h, t') ∧ TInv t' ∧
      t'.slot = upd t.slot i none ∧ t'.array.length = t.array.length) := by
  unfold Table.remove
  rw [get_eq t i hf]
  rcases e : t.slot i with _ | h
  · exact .inl ⟨rfl, rfl⟩
  · have e' : t.array[i.toNat]? = some (some h) := by
      unfold Table.slot at e
      rcases e1 : t.array[i.toNat]? with _ | _ | y
      · simp [e1] at e
      · simp [e1] at e
      · simp [e1] at e; simp [e]
    have hi : i.toNat < t.array.length := by
      by_cases hc : i.toNat < t.array.length
      · exact hc
      · rw [List.getElem?_eq_none (by omega)] at e'; simp at e'
    have hc := countP_set_none e'
    have hle : t.array.countP (·.isNone) + 1 ≤ t.array.length := by
      rw [← hc]; simpa using List.countP_le_length (p := (·.isNone)) (l := t.array.set i.toNat none)
    have hfl := ht.free_le
    by_cases hl : lend h = 0
    · refine .inr (.inr ⟨h, ⟨t.array.set i.toNat none, BitVec.ofNat 32 t.free.length :: t.free⟩, rfl, hl, ?_,
        ⟨?_, ?_⟩, ?_, ?_⟩)
      · simp [hl]
      · intro x hx
        simp only [List.mem_cons, List.length_set] at hx ⊢
        rcases hx with rfl | hx
        · simp only [BitVec.toNat_ofNat]
          exact Nat.lt_of_le_of_lt (Nat.mod_le _ _) (by omega)
        · exact ht.free_lt x hx
      · simp only [List.length_cons]; omega
      · funext j; exact slot_set t i j none _ hi
      · simp
    · exact .inr (.inl ⟨h, rfl, hl, by simp [hl]⟩)

theorem add_length_le (t : Table) (h : ElemId) : t.array.length ≤ (t.add h).2.array.length := by
  unfold Table.add
  split
  · split <;> simp
  · simp

theorem remove_length (t : Table) (lend : ElemId → Int) (i : U32) :
    (t.remove lend i).2.array.length = t.array.length := by
  unfold Table.remove
  split
  · split <;> simp
  all_goals rfl

end Verif.Handles
