import Verif.Handles.Limits

/-!
# Property C33: exactly when `Add` fails

The two theorems of `Verif.Handles.Props` that refute C33 are single histories. Here the result of `Add` is given
for every history, in terms of the calls and results before it, and with it a family of histories of any size in which
freeing one handle makes the next `Add` fail.
-/

namespace Verif.Handles
open Verif.Abi (RT)

/-- How many removals `Add` has not yet answered, and how many slots there are: an `Add` answers one removal if there
is one, whether or not it succeeds, and makes a slot otherwise. -/
def tally (c : Nat × Nat) : TOp × TOut → Nat × Nat
  | (.add _, _) => if c.1 = 0 then (0, c.2 + 1) else (c.1 - 1, c.2)
  | (.remove _ _, .elem _) => (c.1 + 1, c.2)
  | _ => c

/-- Unanswered removals and slots after a history. -/
def Tallied (tr : List (TOp × TOut)) : Nat × Nat := tr.foldl tally (0, 0)

/-- `n - 1, …, 1, 0`. -/
def desc : Nat → List U32
  | 0 => []
  | n + 1 => BitVec.ofNat 32 n :: desc n

theorem desc_length (n : Nat) : (desc n).length = n := by
  induction n with
  | zero => rfl
  | succ n ih => simp [desc, ih]

theorem tstep_tally (t : Table) (op : TOp) (c : Nat × Nat) (h1 : t.free = desc c.1) (h2 : t.array.length = c.2) :
    (tstep t op).2.free = desc (tally c (op, (tstep t op).1)).1 ∧
    (tstep t op).2.array.length = (tally c (op, (tstep t op).1)).2 := by
  obtain ⟨n, s⟩ := c
  cases op with
  | add h =>
    simp only [tstep, tally, Table.add] at *
    cases n with
    | zero =>
      rw [h1, desc]
      exact ⟨rfl, by simp [h2]⟩
    | succ n =>
      rw [h1, desc]
      simp only [Nat.succ_ne_zero, if_false, Nat.add_sub_cancel]
      split
      · exact ⟨rfl, h2⟩
      · exact ⟨rfl, h2⟩
      · exact ⟨rfl, by simp [h2]⟩
  | get i => simp only [tstep]; exact ⟨h1, h2⟩
  | remove i lend =>
    simp only [tstep, Table.remove]
    rcases t.get i with h | _ | _ | _
    · simp only
      by_cases hl : lend h ≠ 0
      · rw [if_pos hl]; exact ⟨h1, h2⟩
      · rw [if_neg hl]
        refine ⟨?_, ?_⟩
        · simp only [outElem, tally, h1, desc, desc_length]
        · simp only [outElem, tally, List.length_set]; exact h2
    all_goals exact ⟨h1, h2⟩

theorem trun_tally (t : Table) (ops : List TOp) (c : Nat × Nat) (h1 : t.free = desc c.1) (h2 : t.array.length = c.2) :
    (trun t ops).2.free = desc ((trun t ops).1.foldl tally c).1 ∧
    (trun t ops).2.array.length = ((trun t ops).1.foldl tally c).2 := by
  induction ops generalizing t c with
  | nil => exact ⟨h1, h2⟩
  | cons op ops ih =>
    obtain ⟨h3, h4⟩ := tstep_tally t op c h1 h2
    exact ih (tstep t op).2 _ h3 h4

/-- **C33, what the code does instead.** After every history of a table with fewer than `2 ^ 32` slots: when every
removal has been answered `Add` returns the number of slots as a new index; when `n + 1` removals are unanswered it
looks at index `n`, whichever indices were freed, and fails if `n` is live.
Missing: that a freed index is returned, which is false. -/
theorem add_exact_partial (ops : List TOp) (h : ElemId) (hf : (trun .empty ops).2.array.length < 2 ^ 32) :
    let tr := (trun .empty ops).1
    (tstep (trun .empty ops).2 (.add h)).1 =
      match (Tallied tr).1 with
      | 0 => .index (BitVec.ofNat 32 (Tallied tr).2)
      | n + 1 => if Live tr (BitVec.ofNat 32 n) = none then .index (BitVec.ofNat 32 n) else .trap := by
  intro tr
  obtain ⟨h1, h2⟩ := trun_tally .empty ops (0, 0) rfl rfl
  obtain ⟨h3, h4⟩ := trun_ok .empty ops TInv.empty hf
  have hl : (trun .empty ops).2.slot = Live tr := by
    rw [h4]
    have : (Table.empty).slot = fun _ => none := by funext i; simp [Table.slot, Table.empty]
    rw [this]; rfl
  change _ = desc (Tallied tr).1 at h1
  change _ = (Tallied tr).2 at h2
  rw [← hl]
  generalize (trun .empty ops).2 = t at h1 h2 h3
  rcases hc : (Tallied tr).1 with _ | n
  · rw [hc] at h1
    simp only [tstep, Table.add, h1, desc, outIndex_ok, h2]
  · rw [hc] at h1
    have hlt := h3.free_lt (BitVec.ofNat 32 n) (by rw [h1]; simp [desc])
    have hcase : (t.array[(BitVec.ofNat 32 n).toNat]? = some none ∧ t.slot (BitVec.ofNat 32 n) = none) ∨
        ∃ e, t.array[(BitVec.ofNat 32 n).toNat]? = some (some e) ∧ t.slot (BitVec.ofNat 32 n) = some e := by
      unfold Table.slot
      rcases hs : t.array[(BitVec.ofNat 32 n).toNat]? with _ | _ | e
      · exact absurd (List.getElem?_eq_none_iff.1 hs) (Nat.not_le.2 hlt)
      · exact .inl ⟨rfl, rfl⟩
      · exact .inr ⟨e, rfl, rfl⟩
    simp only [tstep, Table.add, h1, desc]
    rcases hcase with ⟨a1, a2⟩ | ⟨e, a1, a2⟩
    · rw [a1, if_pos a2]; rfl
    · rw [a1, if_neg (by rw [a2]; simp)]; rfl

/-- The table of `table_outgrows_live`, where the last `Add` but one fails: index 0 is live. -/
example : (trun .empty [.add 7, .add 8, .remove 1 (fun _ => 0)]).2.array.length < 2 ^ 32 ∧
    Tallied (trun .empty [.add 7, .add 8, .remove 1 (fun _ => 0)]).1 = (1, 2) ∧
    Live (trun .empty [.add 7, .add 8, .remove 1 (fun _ => 0)]).1 0 = some 7 := by decide

/-- **C33 is false of the code, for tables of every size.** Of any number of live handles free any one but the first:
the next `Add` fails. -/
theorem one_removal_breaks_add (ops : List TOp) (hadd : ∀ op ∈ ops, ∃ h, op = .add h) (i : Nat) (hi : 0 < i)
    (hi' : i < ops.length) (hf : ops.length < 2 ^ 32) (h : ElemId) :
    (∃ e, (tstep (trun .empty ops).2 (.remove (BitVec.ofNat 32 i) fun _ => 0)).1 = .elem e) ∧
    (tstep (tstep (trun .empty ops).2 (.remove (BitVec.ofNat 32 i) fun _ => 0)).2 (.add h)).1 = .trap := by
  obtain ⟨h1, h2, -⟩ := adds_only ops .empty hadd rfl
  have h2' : (trun .empty ops).2.array.length = ops.length := by rw [h2]; simp [Table.empty]
  have hsome : ∀ k, k < ops.length → ∃ e, (trun .empty ops).2.array[k]? = some (some e) := by
    suffices hs : ∀ t : Table, (∀ x ∈ t.array, x ≠ none) → t.free = [] → ∀ x ∈ (trun t ops).2.array, x ≠ none by
      intro k hk
      rcases hk' : (trun .empty ops).2.array[k]? with _ | _ | e
      · rw [List.getElem?_eq_none_iff] at hk'; omega
      · exact absurd rfl (hs .empty (by simp [Table.empty]) rfl _ (List.mem_of_getElem? hk'))
      · exact ⟨e, rfl⟩
    clear h1 h2 h2' hi' hf
    induction ops with
    | nil => exact fun t h _ => h
    | cons op ops ih =>
      intro t ht htf
      obtain ⟨e, rfl⟩ := hadd op (by simp)
      have hs : (tstep t (.add e)).2 = { t with array := t.array ++ [some e] } := by
        simp only [tstep, Table.add, htf]
      show ∀ x ∈ (trun (tstep t (.add e)).2 ops).2.array, x ≠ none
      rw [hs]
      refine ih (fun op hop => hadd op (by simp [hop])) _ (fun x hx => ?_) htf
      rcases List.mem_append.1 hx with hx | hx
      · exact ht x hx
      · simp only [List.mem_singleton] at hx; rw [hx]; simp
  generalize (trun .empty ops).2 = t at h1 h2' hsome
  obtain ⟨e, he⟩ := hsome i hi'
  obtain ⟨e0, he0⟩ := hsome 0 (by omega)
  have hti : (BitVec.ofNat 32 i).toNat = i := by simp; omega
  have htl : (BitVec.ofNat 32 ops.length).toNat = ops.length := by simp; omega
  have hg : t.get (BitVec.ofNat 32 i) = .ok e := by
    unfold Table.get
    rw [h2', htl, hti, if_neg (by omega), he]
  have hr : t.remove (fun _ => 0) (BitVec.ofNat 32 i) = (.ok e, ⟨t.array.set i none, [0]⟩) := by
    unfold Table.remove
    rw [hg, h1]
    simp [hti]
  constructor
  · exact ⟨e, by simp only [tstep, hr, outElem]⟩
  · simp only [tstep, hr, Table.add]
    have : (t.array.set i none)[(0 : U32).toNat]? = some (some e0) := by
      show (t.array.set i none)[0]? = _
      rw [List.getElem?_set_ne (by omega)]; exact he0
    rw [this]
    rfl

example : (∀ op ∈ [TOp.add 5, .add 6, .add 7], ∃ h, op = .add h) ∧ 2 < [TOp.add 5, .add 6, .add 7].length := by
  refine ⟨?_, by decide⟩
  intro op hop
  simp only [List.mem_cons, List.not_mem_nil, or_false] at hop
  rcases hop with rfl | rfl | rfl <;> exact ⟨_, rfl⟩

end Verif.Handles
