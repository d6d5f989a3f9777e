import Verif.Abi.FlatLemmas

/-!
# What lifting consumes
-/

namespace Verif.Abi
open Spec

variable {σ : Type}

/-- The iterator after `n` values have been taken through all wrappers. -/
def Iter.adv (it : Iter) (n : Nat) : Iter := { it with index := it.index + n, stack := it.stack.map (·.drop n) }

theorem Iter.adv_zero (it : Iter) : it.adv 0 = it := by
  cases it
  simp [Iter.adv]

theorem Iter.adv_adv (it : Iter) (a b : Nat) : (it.adv a).adv b = it.adv (a + b) := by
  simp [Iter.adv, Nat.add_assoc]

/-- From `it` exactly `n` values were taken, which every wrapper allowed. -/
structure Took (it : Iter) (n : Nat) (it' : Iter) : Prop where
  eq : it' = it.adv n
  room : ∀ l ∈ it.stack, n ≤ l.length
  there : ∀ j < n, it.index + j < it.values.length

theorem Took.zero (it : Iter) : Took it 0 it := ⟨it.adv_zero.symm, fun _ _ => Nat.zero_le _, fun _ h => absurd h (Nat.not_lt_zero _)⟩

theorem Took.trans {it it1 it2 : Iter} {a b : Nat} (h1 : Took it a it1) (h2 : Took it1 b it2) : Took it (a + b) it2 := by
  obtain ⟨rfl, r1, t1⟩ := h1
  obtain ⟨rfl, r2, t2⟩ := h2
  refine ⟨Iter.adv_adv _ _ _, ?_, ?_⟩
  · intro l hl
    have h3 := r1 l hl
    have h4 := r2 (l.drop a) (List.mem_map.2 ⟨l, hl, rfl⟩)
    rw [List.length_drop] at h4
    omega
  · intro j hj
    rcases Nat.lt_or_ge j a with h | h
    · exact t1 j h
    · have := t2 (j - a) (by omega)
      simp only [Iter.adv] at this
      omega

theorem nextOn_took (vs : List FV) (i : Nat) : (st : List (List Kind)) → (k : Kind) → (v : Val) → (i' : Nat) →
    (st' : List (List Kind)) → nextOn vs i st k = (.ok v, i', st') →
    i' = i + 1 ∧ st' = st.map (·.drop 1) ∧ (∀ l ∈ st, 1 ≤ l.length) ∧ i < vs.length
  | [], k, v, i', st', h => by
    unfold nextOn baseNext at h
    by_cases h0 : vs.length = 0
    · rw [if_pos h0] at h; cases h
    · rw [if_neg h0] at h
      cases e : vs[i]? with
      | none => rw [e] at h; cases h
      | some x =>
        rw [e] at h
        simp only at h
        split at h
        · cases h
        · injection h with h1 h2
          injection h2 with h2 h3
          exact ⟨h2.symm, h3.symm, by simp, (List.getElem?_eq_some_iff.1 e).1⟩
  | [] :: st, k, v, i', st', h => by unfold nextOn at h; cases h
  | (w :: fts) :: st, k, v, i', st', h => by
    unfold nextOn at h
    rcases e : nextOn vs i st w with ⟨r, i1, st1⟩
    rw [e] at h
    simp only at h
    injection h with h1 h2
    injection h2 with h2 h3
    cases r with
    | ok x =>
      obtain ⟨e1, e2, e3, e4⟩ := nextOn_took vs i st w x i1 st1 e
      refine ⟨by omega, ?_, ?_, e4⟩
      · rw [← h3, e2]; rfl
      · intro l hl
        rcases List.mem_cons.1 hl with rfl | hl
        · simp
        · exact e3 l hl
    | err => cases h1
    | panic => cases h1
    | diverge => cases h1

theorem next_took {k : Kind} {s s' : LSt σ} {v : Val} (h : next k s = (.ok v, s')) : s'.st = s.st ∧ Took s.it 1 s'.it := by
  unfold next Iter.next at h
  rcases e : nextOn s.it.values s.it.index s.it.stack k with ⟨r, i, st⟩
  rw [e] at h
  simp only at h
  injection h with h1 h2
  subst h1 h2
  obtain ⟨e1, e2, e3, e4⟩ := nextOn_took _ _ _ _ _ _ _ e
  refine ⟨rfl, ?_, e3, ?_⟩
  · rw [e1, e2]; rfl
  · intro j hj
    obtain rfl : j = 0 := by omega
    exact e4

theorem nextU32_took {s s' : LSt σ} {x : U32} (h : nextU32 s = (.ok x, s')) : s'.st = s.st ∧ Took s.it 1 s'.it := by
  unfold nextU32 at h
  obtain ⟨v, s1, h1, h2⟩ := SM.bind_eq_ok.1 h
  cases v <;> first
    | (cases h2; done)
    | (obtain ⟨-, h3⟩ := pure_inv h2; subst h3; exact next_took h1)

theorem nextU64_took {s s' : LSt σ} {x : U64} (h : nextU64 s = (.ok x, s')) : s'.st = s.st ∧ Took s.it 1 s'.it := by
  unfold nextU64 at h
  obtain ⟨v, s1, h1, h2⟩ := SM.bind_eq_ok.1 h
  cases v <;> first
    | (cases h2; done)
    | (obtain ⟨-, h3⟩ := pure_inv h2; subst h3; exact next_took h1)

theorem nextF32_took {s s' : LSt σ} {x : U32} (h : nextF32 s = (.ok x, s')) : s'.st = s.st ∧ Took s.it 1 s'.it := by
  unfold nextF32 at h
  obtain ⟨v, s1, h1, h2⟩ := SM.bind_eq_ok.1 h
  cases v <;> first
    | (cases h2; done)
    | (obtain ⟨-, h3⟩ := pure_inv h2; subst h3; exact next_took h1)

theorem nextF64_took {s s' : LSt σ} {x : U64} (h : nextF64 s = (.ok x, s')) : s'.st = s.st ∧ Took s.it 1 s'.it := by
  unfold nextF64 at h
  obtain ⟨v, s1, h1, h2⟩ := SM.bind_eq_ok.1 h
  cases v <;> first
    | (cases h2; done)
    | (obtain ⟨-, h3⟩ := pure_inv h2; subst h3; exact next_took h1)

theorem onSt_it {α : Type} {m : SM (St σ) α} {s s' : LSt σ} {a : α} (h : onSt m s = (.ok a, s')) : s'.it = s.it := by
  unfold onSt at h
  injection h with _ h
  subst h
  rfl

theorem skipFlat_took : (fts : List Kind) → (s s' : LSt σ) → (u : Unit) → skipFlat fts s = (.ok u, s') →
    Took s.it fts.length s'.it
  | [], s, s', u, h => by
    unfold skipFlat at h
    obtain ⟨-, h2⟩ := pure_inv h
    subst h2
    exact .zero _
  | k :: fts, s, s', u, h => by
    unfold skipFlat at h
    obtain ⟨v, s1, h1, h2⟩ := SM.bind_eq_ok.1 h
    have := (next_took h1).2.trans (skipFlat_took fts s1 s' u h2)
    rwa [Nat.add_comm] at this

theorem liftFlagWords_took : (n shift : Nat) → (x y : U64) → (s s' : LSt σ) → liftFlagWords n shift x s = (.ok y, s') →
    Took s.it n s'.it
  | 0, shift, x, y, s, s', h => by
    unfold liftFlagWords at h
    obtain ⟨-, h2⟩ := pure_inv h
    subst h2
    exact .zero _
  | n + 1, shift, x, y, s, s', h => by
    unfold liftFlagWords at h
    obtain ⟨v, s1, h1, h2⟩ := SM.bind_eq_ok.1 h
    have := (nextU32_took h1).2.trans (liftFlagWords_took n _ _ y s1 s' h2)
    rwa [Nat.add_comm] at this

mutual
theorem lift_took (E : Env σ) : (t : Ty) → (s s' : LSt σ) → (v : Val) → liftFlat E t s = (.ok v, s') →
    ∃ ks, flatten t = .ok ks ∧ Took s.it ks.length s'.it
  | .bool, s, s', v, h | .u8, s, s', v, h | .u16, s, s', v, h | .u32, s, s', v, h | .s8, s, s', v, h
  | .s16, s, s', v, h | .s32, s, s', v, h => by
    unfold liftFlat at h
    obtain ⟨x, s1, h1, h2⟩ := SM.bind_eq_ok.1 h
    obtain ⟨-, h3⟩ := pure_inv h2
    subst h3
    exact ⟨[.u32], by rw [flatten], (nextU32_took h1).2⟩
  | .u64, s, s', v, h | .s64, s, s', v, h => by
    unfold liftFlat at h
    obtain ⟨x, s1, h1, h2⟩ := SM.bind_eq_ok.1 h
    obtain ⟨-, h3⟩ := pure_inv h2
    subst h3
    exact ⟨[.u64], by rw [flatten], (nextU64_took h1).2⟩
  | .f32, s, s', v, h => by
    unfold liftFlat at h
    obtain ⟨x, s1, h1, h2⟩ := SM.bind_eq_ok.1 h
    obtain ⟨-, h3⟩ := pure_inv h2
    subst h3
    exact ⟨[.f32], by rw [flatten], (nextF32_took h1).2⟩
  | .f64, s, s', v, h => by
    unfold liftFlat at h
    obtain ⟨x, s1, h1, h2⟩ := SM.bind_eq_ok.1 h
    obtain ⟨-, h3⟩ := pure_inv h2
    subst h3
    exact ⟨[.f64], by rw [flatten], (nextF64_took h1).2⟩
  | .char, s, s', v, h => by
    unfold liftFlat at h
    obtain ⟨x, s1, h1, h2⟩ := SM.bind_eq_ok.1 h
    obtain ⟨r, s2, h3, h4⟩ := SM.bind_eq_ok.1 h2
    obtain ⟨-, h5⟩ := lift_ok_inv h3
    obtain ⟨-, h6⟩ := pure_inv h4
    subst h5 h6
    exact ⟨[.u32], by rw [flatten], (nextU32_took h1).2⟩
  | .string, s, s', v, h | .list t, s, s', v, h => by
    unfold liftFlat at h
    obtain ⟨x, s1, h1, h2⟩ := SM.bind_eq_ok.1 h
    obtain ⟨y, s2, h3, h4⟩ := SM.bind_eq_ok.1 h2
    obtain ⟨w, s3, h5, h6⟩ := SM.bind_eq_ok.1 h4
    obtain ⟨-, h7⟩ := pure_inv h6
    subst h7
    refine ⟨[.u32, .u32], by rw [flatten], ?_⟩
    rw [onSt_it h5]
    exact (nextU32_took h1).2.trans (nextU32_took h3).2
  | .record fs, s, s', v, h => by
    unfold liftFlat at h
    rw [flatten]
    exact liftFields_took E fs [] s s' v h
  | .variant cs, s, s', v, h => by
    unfold liftFlat at h
    obtain ⟨fts, s1, h1, h2⟩ := SM.bind_eq_ok.1 h
    obtain ⟨h3, h4⟩ := lift_ok_inv h1
    subst h4
    obtain ⟨ws, rfl, hw⟩ := flatten_variant h3
    simp only [ne_eq, not_true_eq_false, if_false] at h2
    obtain ⟨i, s2, h5, h6⟩ := SM.bind_eq_ok.1 h2
    split at h6
    · cases h6
    · refine ⟨_, h3, ?_⟩
      have := (nextU32_took h5).2.trans (liftCase_took E cs cs i.toNat ws s2 s' v h6)
      rwa [Nat.add_comm] at this
  | .flags ls, s, s', v, h => by
    unfold liftFlat at h
    obtain ⟨x, s1, h1, h2⟩ := SM.bind_eq_ok.1 h
    obtain ⟨-, h3⟩ := pure_inv h2
    subst h3
    refine ⟨_, by rw [flatten], ?_⟩
    rw [List.length_replicate]
    exact liftFlagWords_took _ _ _ _ _ _ h1
  | .own rt, s, s', v, h | .borrow rt, s, s', v, h => by
    unfold liftFlat at h
    obtain ⟨x, s1, h1, h2⟩ := SM.bind_eq_ok.1 h
    obtain ⟨r, s2, h3, h4⟩ := SM.bind_eq_ok.1 h2
    obtain ⟨-, h6⟩ := pure_inv h4
    subst h6
    refine ⟨[.u32], by rw [flatten], ?_⟩
    rw [onSt_it h3]
    exact (nextU32_took h1).2
  | .nil, s, s', v, h | .other, s, s', v, h => by
    unfold liftFlat at h
    cases h
theorem liftFields_took (E : Env σ) : (fs : Fields) → (acc : List (String × Val)) → (s s' : LSt σ) → (v : Val) →
    liftFields E fs acc s = (.ok v, s') → ∃ ks, flattenFields fs = .ok ks ∧ Took s.it ks.length s'.it
  | .nil, acc, s, s', v, h => by
    unfold liftFields at h
    obtain ⟨-, h2⟩ := pure_inv h
    subst h2
    exact ⟨[], by rw [flattenFields], .zero _⟩
  | .cons l t fs, acc, s, s', v, h => by
    unfold liftFields at h
    obtain ⟨x, s1, h1, h2⟩ := SM.bind_eq_ok.1 h
    obtain ⟨k1, e1, t1⟩ := lift_took E t s s1 x h1
    obtain ⟨k2, e2, t2⟩ := liftFields_took E fs _ s1 s' v h2
    refine ⟨k1 ++ k2, ?_, ?_⟩
    · rw [flattenFields, e1, Res.bind_ok, e2, Res.bind_ok]
    · rw [List.length_append]; exact t1.trans t2
theorem liftCase_took (E : Env σ) (all : Cases) : (cs : Cases) → (i : Nat) → (fts : List Kind) → (s s' : LSt σ) →
    (v : Val) → liftCase E all cs i fts s = (.ok v, s') → Took s.it fts.length s'.it
  | .nil, i, fts, s, s', v, h => by
    unfold liftCase at h
    cases h
  | .cons l t r cs, 0, fts, s, s', v, h => by
    unfold liftCase at h
    by_cases ht : t = .nil
    · rw [if_pos ht] at h
      obtain ⟨u, s1, h1, h2⟩ := SM.bind_eq_ok.1 h
      obtain ⟨lab, s2, h3, h4⟩ := SM.bind_eq_ok.1 h2
      obtain ⟨-, h5⟩ := lift_ok_inv h3
      obtain ⟨-, h6⟩ := pure_inv h4
      subst h5 h6
      exact skipFlat_took _ _ _ _ h1
    · rw [if_neg ht] at h
      obtain ⟨u, s1, h1, h2⟩ := SM.bind_eq_ok.1 h
      obtain ⟨x, s2, h3, h4⟩ := SM.bind_eq_ok.1 h2
      obtain ⟨rest, s3, h5, h6⟩ := SM.bind_eq_ok.1 h4
      obtain ⟨_, s4, h7, h8⟩ := SM.bind_eq_ok.1 h6
      obtain ⟨lab, s5, h9, h10⟩ := SM.bind_eq_ok.1 h8
      obtain ⟨-, h11⟩ := lift_ok_inv h9
      obtain ⟨-, h12⟩ := pure_inv h10
      subst h11 h12
      obtain ⟨ks, -, tk⟩ := lift_took E t s1 s2 x h3
      unfold pushFlat at h1
      rw [SM.modify_def] at h1
      injection h1 with _ h1
      subst h1
      obtain ⟨e, room, there⟩ := tk
      have hr := room fts (by simp)
      unfold popFlat at h5
      rw [e] at h5
      simp only [Iter.adv, List.map_cons] at h5
      injection h5 with h5 h5'
      injection h5 with h5
      subst h5
      have tk2 : Took s.it ks.length s3.it := by
        refine ⟨?_, fun l hl => room l (by simp [hl]), there⟩
        rw [← h5']; rfl
      have := tk2.trans (skipFlat_took _ _ _ _ h7)
      rwa [List.length_drop, Nat.add_sub_cancel' hr] at this
  | .cons l t r cs, i + 1, fts, s, s', v, h => by
    unfold liftCase at h
    exact liftCase_took E all cs i fts s s' v h
end

end Verif.Abi
