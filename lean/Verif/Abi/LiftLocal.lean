import Verif.Abi.FlatRound

/-!
# What `LiftFlat` returns depends only on the values it consumes
-/

namespace Verif.Abi
open Spec

variable {σ : Type} {α β : Type}

/-- The iterator of `s`, moved to index `i` of other values. -/
def LSt.at (s : LSt σ) (vs : List FV) (i : Nat) : LSt σ := ⟨s.st, ⟨vs, i, s.it.stack⟩⟩

/-- A call that succeeds moves on, and does the same on any other values that agree on those it consumed. -/
def Local (m : SM (LSt σ) α) : Prop := ∀ s a s1, m s = (.ok a, s1) → ∃ n, s1.it.values = s.it.values ∧
  s1.it.index = s.it.index + n ∧ ∀ vs i, (∀ j < n, vs[i + j]? = s.it.values[s.it.index + j]?) →
    m (s.at vs i) = (.ok a, s1.at vs (i + n))

theorem Local.bind {m : SM (LSt σ) α} {f : α → SM (LSt σ) β} (h1 : Local m) (h2 : ∀ a, Local (f a)) : Local (m >>= f) := by
  intro s b s2 h
  obtain ⟨a, s1, e1, e2⟩ := SM.bind_eq_ok.1 h
  obtain ⟨n, v1, i1, g1⟩ := h1 s a s1 e1
  obtain ⟨k, v2, i2, g2⟩ := h2 a s1 b s2 e2
  refine ⟨n + k, v2.trans v1, by rw [i2, i1, Nat.add_assoc], fun vs i hv => ?_⟩
  rw [SM.bind_ok (g1 vs i fun j hj => hv j (by omega)), g2 vs (i + n) fun j hj => ?_, Nat.add_assoc]
  rw [v1, i1, Nat.add_assoc, Nat.add_assoc]
  exact hv (n + j) (by omega)

/-- A call that does not look at the iterator. -/
theorem Local.onSt (m : SM (St σ) α) : Local (onSt m : SM (LSt σ) α) := by
  intro s a s1 h
  unfold Abi.onSt at h
  injection h with e1 e2
  subst e2
  refine ⟨0, rfl, rfl, fun vs i _ => ?_⟩
  unfold Abi.onSt LSt.at
  simp only [e1]
  rfl

theorem Local.pure (a : α) : Local (Pure.pure a : SM (LSt σ) α) := by
  intro s b s1 h
  obtain ⟨e1, e2⟩ := pure_inv h
  subst e1 e2
  exact ⟨0, rfl, rfl, fun _ _ _ => rfl⟩
theorem Local.lift (r : Res α) : Local (SM.lift r : SM (LSt σ) α) := by
  intro s b s1 h
  injection h with e1 e2
  subst e1 e2
  exact ⟨0, rfl, rfl, fun _ _ _ => rfl⟩
theorem Local.fail : Local (SM.fail : SM (LSt σ) α) := fun s a s1 h => by cases h
theorem Local.crash : Local (SM.crash : SM (LSt σ) α) := fun s a s1 h => by cases h
theorem Local.ite {c : Prop} [Decidable c] {m n : SM (LSt σ) α} (h1 : Local m) (h2 : Local n) :
    Local (if c then m else n) := by split <;> assumption
theorem Local.push (fts : List Kind) : Local (pushFlat fts : SM (LSt σ) Unit) := by
  intro s a s1 h
  injection h with e1 e2
  subst e2
  exact ⟨0, rfl, rfl, fun _ _ _ => rfl⟩
theorem Local.pop : Local (popFlat : SM (LSt σ) (List Kind)) := by
  rintro ⟨st, vs, i, stack⟩ a s1 h
  unfold popFlat at h
  cases stack with
  | nil => cases h
  | cons x xs =>
    simp only at h
    injection h with e1 e2
    injection e1 with e1
    subst e1 e2
    exact ⟨0, rfl, rfl, fun _ _ _ => rfl⟩

theorem nextOn_local (vs : List FV) (i : Nat) : (st : List (List Kind)) → (k : Kind) → (x : Val) → (i' : Nat) →
    (st' : List (List Kind)) → nextOn vs i st k = (.ok x, i', st') → i' = i + 1 ∧
      ∀ ws j, ws[j]? = vs[i]? → nextOn ws j st k = (.ok x, j + 1, st')
  | [], k, x, i', st', h => by
    unfold nextOn baseNext at h
    split at h
    · cases h
    · split at h
      · cases h
      · rename_i v hv
        split at h
        · cases h
        · rename_i hk
          injection h with e1 e2
          injection e2 with e2 e3
          injection e1 with e1
          subst e1 e2 e3
          refine ⟨rfl, fun ws j hj => ?_⟩
          rw [hv] at hj
          have : ws.length ≠ 0 := by
            have := (List.getElem?_eq_some_iff.1 hj).1
            omega
          unfold nextOn baseNext
          rw [if_neg this, hj]
          simp only
          rw [if_neg hk]
  | [] :: st, k, x, i', st', h => by unfold nextOn at h; cases h
  | (w :: fts) :: st, k, x, i', st', h => by
    unfold nextOn at h
    rcases e : nextOn vs i st w with ⟨r, i1, st1⟩
    rw [e] at h
    simp only at h
    injection h with e1 e2
    injection e2 with e2 e3
    subst e2 e3
    obtain ⟨y, rfl, e4⟩ := Res.bind_eq_ok.1 e1
    obtain ⟨h1, h2⟩ := nextOn_local vs i st w y i1 st1 e
    refine ⟨h1, fun ws j hj => ?_⟩
    unfold nextOn
    rw [h2 ws j hj]
    simp only
    rw [show (Res.ok y >>= uncoerce w k) = .ok x from e4]

theorem Local.next (k : Kind) : Local (next k : SM (LSt σ) Val) := by
  rintro ⟨st, vs, i, stack⟩ x s1 h
  unfold Abi.next Iter.next at h
  rcases e : nextOn vs i stack k with ⟨r, i1, st1⟩
  simp only [e] at h
  injection h with e1 e2
  subst e1 e2
  obtain ⟨rfl, h2⟩ := nextOn_local vs i stack k x i1 st1 e
  refine ⟨1, rfl, rfl, fun ws j hj => ?_⟩
  unfold Abi.next Iter.next LSt.at
  simp only
  rw [h2 ws j (hj 0 (by omega))]

theorem Local.nextU32 : Local (nextU32 : SM (LSt σ) U32) := by
  unfold Abi.nextU32
  refine .bind (.next _) fun v => ?_
  split <;> first | exact .pure _ | exact .fail
theorem Local.nextU64 : Local (nextU64 : SM (LSt σ) U64) := by
  unfold Abi.nextU64
  refine .bind (.next _) fun v => ?_
  split <;> first | exact .pure _ | exact .fail
theorem Local.nextF32 : Local (nextF32 : SM (LSt σ) U32) := by
  unfold Abi.nextF32
  refine .bind (.next _) fun v => ?_
  split <;> first | exact .pure _ | exact .fail
theorem Local.nextF64 : Local (nextF64 : SM (LSt σ) U64) := by
  unfold Abi.nextF64
  refine .bind (.next _) fun v => ?_
  split <;> first | exact .pure _ | exact .fail
theorem Local.flagWords : (n k : Nat) → (x : U64) → Local (liftFlagWords n k x : SM (LSt σ) U64)
  | 0, _, _ => .pure _
  | n + 1, k, x => by
    unfold liftFlagWords
    exact .bind .nextU32 fun _ => Local.flagWords n _ _
theorem Local.skip : (fts : List Kind) → Local (skipFlat fts : SM (LSt σ) Unit)
  | [] => .pure _
  | k :: fts => by
    unfold skipFlat
    exact .bind (.next k) fun _ => Local.skip fts

mutual
theorem liftFlat_local (E : Env σ) : (t : Ty) → Local (liftFlat E t)
  | .bool | .u8 | .u16 | .u32 | .s8 | .s16 | .s32 => by unfold liftFlat; exact .bind .nextU32 fun _ => .pure _
  | .u64 | .s64 => by unfold liftFlat; exact .bind .nextU64 fun _ => .pure _
  | .f32 => by unfold liftFlat; exact .bind .nextF32 fun _ => .pure _
  | .f64 => by unfold liftFlat; exact .bind .nextF64 fun _ => .pure _
  | .char => by unfold liftFlat; exact .bind .nextU32 fun _ => .bind (.lift _) fun _ => .pure _
  | .string => by
    unfold liftFlat
    exact .bind .nextU32 fun _ => .bind .nextU32 fun _ => .bind (.onSt _) fun _ => .pure _
  | .list t => by
    unfold liftFlat
    exact .bind .nextU32 fun _ => .bind .nextU32 fun _ => .bind (.onSt _) fun _ => .pure _
  | .record fs => by unfold liftFlat; exact liftFields_local E fs _
  | .variant cs => by
    unfold liftFlat
    refine .bind (.lift _) fun _ => ?_
    split
    · exact .fail
    · exact .ite .fail (.bind .nextU32 fun _ => .ite .fail (liftCase_local E cs cs _ _))
  | .flags ls => by unfold liftFlat; exact .bind (.flagWords _ _ _) fun _ => .pure _
  | .own rt => by unfold liftFlat; exact .bind .nextU32 fun _ => .bind (.onSt _) fun _ => .pure _
  | .borrow rt => by unfold liftFlat; exact .bind .nextU32 fun _ => .bind (.onSt _) fun _ => .pure _
  | .nil => by unfold liftFlat; exact .fail
  | .other => by unfold liftFlat; exact .fail
theorem liftFields_local (E : Env σ) : (fs : Fields) → (acc : List (String × Val)) → Local (liftFields E fs acc)
  | .nil, _ => by unfold liftFields; exact .pure _
  | .cons l t fs, acc => by
    unfold liftFields
    exact .bind (liftFlat_local E t) fun _ => liftFields_local E fs _
theorem liftCase_local (E : Env σ) (all : Cases) : (cs : Cases) → (i : Nat) → (fts : List Kind) → Local (liftCase E all cs i fts)
  | .nil, _, _ => by unfold liftCase; exact .crash
  | .cons l t r cs, 0, fts => by
    unfold liftCase
    exact .ite (.bind (.skip _) fun _ => .bind (.lift _) fun _ => .pure _)
      (.bind (.push _) fun _ => .bind (liftFlat_local E t) fun _ => .bind .pop fun _ =>
        .bind (.skip _) fun _ => .bind (.lift _) fun _ => .pure _)
  | .cons l t r cs, i + 1, fts => by unfold liftCase; exact liftCase_local E all cs i fts
end

end Verif.Abi
