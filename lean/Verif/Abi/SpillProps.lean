import Verif.Abi.CallMeansProps

/-!
# C146: where values over the limit on flat values go

`LowerValues` with more flat values than the limit gives one pointer. This file says which, and when.
-/

namespace Verif.Abi

open Encoding Spec Handles

variable {σ : Type}

/-- The tuple of the types, as a record with the labels `0`, `1`, … -/
abbrev tupleOf (ts : List Ty) : Ty := .record (fieldsFrom 0 ts)

theorem fieldsFrom_laid : (ts : List Ty) → (i : Nat) → (∀ t ∈ ts, Laid t) → LaidFields (fieldsFrom i ts)
  | [], _, _ => by simp [fieldsFrom, LaidFields]
  | t :: ts, i, hl => by
    rw [fieldsFrom, LaidFields]
    exact ⟨hl t (List.mem_cons_self ..), fieldsFrom_laid ts (i + 1) fun x hx => hl x (List.mem_cons_of_mem _ hx)⟩

theorem tupleOf_laid {ts : List Ty} {ks : List Kind} (hk : flattenTypes ts = .ok ks) : Laid (tupleOf ts) := by
  rw [Laid]; exact fieldsFrom_laid ts 0 (laid_of_flattenTypes hk)

/-- What is checked of the pointer. -/
theorem lowerTuple_checks {ts : List Ty} {ks : List Kind} (hk : flattenTypes ts = .ok ks) (hsz : Spec.size (tupleOf ts) < 2 ^ 32)
    (E : Env σ) (o maxFlat : Nat) (hl : maxFlat < ks.length) (vs : List Val) (out : Option Iter) (s : Sys σ) :
    lowerValues E o maxFlat vs ts out s =
      match tuplePtr E o (BitVec.ofNat 32 (align (tupleOf ts))) (BitVec.ofNat 32 (Spec.size (tupleOf ts))) out s with
      | (.ok p, s') =>
        if align (tupleOf ts) ∣ p.toNat ∧ (p.toNat + Spec.size (tupleOf ts)) % 2 ^ 32 ≤ (s'.mems o).len % 2 ^ 32 then
          (.ok [.raw (.u32 p)], s')
        else (.err, s')
      | (.err, s') => (.err, s')
      | (.panic, s') => (.panic, s')
      | (.diverge, s') => (.diverge, s') := by
  have hlt := tupleOf_laid hk
  have hal := ofNat_toNat_isAl (align_isAl (tupleOf ts))
  unfold lowerValues
  rw [hk, SM.bind_ok (SM.lift_def _ _), SM.ite_app, if_neg (by omega)]
  unfold lowerTuple
  rw [alignment_eq _ hlt, SM.bind_ok (SM.lift_def _ _), size_eq _ hlt hsz, SM.bind_ok (SM.lift_def _ _), SM.bind_def]
  rcases tuplePtr E o _ _ out s with ⟨p | _ | _ | _, s'⟩ <;> simp only
  rw [SM.ite_app]
  by_cases ha : align (tupleOf ts) ∣ p.toNat
  · rw [if_neg (by rw [Classical.not_not, alignTo_eq_iff _ _ (by rw [hal]; exact align_isAl _), hal]; exact ha),
      SM.bind_get, SM.ite_app, Mem.len32]
    have e1 : (p + BitVec.ofNat 32 (Spec.size (tupleOf ts))).toNat = (p.toNat + Spec.size (tupleOf ts)) % 2 ^ 32 := by
      rw [BitVec.toNat_add, toNat_ofNat_lt hsz]
    rw [e1, BitVec.toNat_ofNat]
    by_cases hb : (p.toNat + Spec.size (tupleOf ts)) % 2 ^ 32 ≤ (s'.mems o).len % 2 ^ 32
    · rw [if_neg (by omega), if_pos ⟨ha, hb⟩]; rfl
    · rw [if_pos (by omega), if_neg (fun h => hb h.2)]; rfl
  · rw [if_pos (by rw [Ne, alignTo_eq_iff _ _ (by rw [hal]; exact align_isAl _), hal]; exact ha), if_neg (fun h => ha h.1)]
    rfl

/-- C146, asking. With no place given, `LowerValues` asks the allocator once for the size and the alignment of the tuple of
the types. It leaves what the allocator leaves, whatever the values, and returns the pointer alone, if the pointer is a
multiple of the alignment and the tuple there lies in the memory; otherwise it returns an error, unless the allocator itself
panics or does not return.
Missing: pointers for which the end of the tuple is not below 2^32, see `spilled_wraps`. -/
theorem spilled_asked_partial (E : Env σ) (o maxFlat : Nat) (vs : List Val) (ts : List Ty) (ks : List Kind)
    (hk : flattenTypes ts = .ok ks) (hl : maxFlat < ks.length) (s : Sys σ) (r : Res U32) (m : Mem) (h : σ)
    (ha : E.realloc (BitVec.ofNat 32 (align (tupleOf ts))) (BitVec.ofNat 32 (Spec.size (tupleOf ts))) (s.mems o, s.heaps o) =
      (r, (m, h))) (hm : m.len < 2 ^ 32) (hsz : Spec.size (tupleOf ts) < 2 ^ 32)
    (hen : ∀ p, r = .ok p → p.toNat + Spec.size (tupleOf ts) < 2 ^ 32) :
    (lowerValues E o maxFlat vs ts none s).2 = { s with mems := upd s.mems o m, heaps := upd s.heaps o h } ∧
    (∀ c, (lowerValues E o maxFlat vs ts none s).1 = .ok c ↔
      ∃ p, r = .ok p ∧ align (tupleOf ts) ∣ p.toNat ∧ p.toNat + Spec.size (tupleOf ts) ≤ m.len ∧ c = [.raw (.u32 p)]) ∧
    (r ≠ .panic ∧ r ≠ .diverge → (∃ c, (lowerValues E o maxFlat vs ts none s).1 = .ok c) ∨ (lowerValues E o maxFlat vs ts none s).1 = .err) := by
  rw [lowerTuple_checks hk hsz E o maxFlat hl]
  have e : tuplePtr E o (BitVec.ofNat 32 (align (tupleOf ts))) (BitVec.ofNat 32 (Spec.size (tupleOf ts))) none s =
      (r, { s with mems := upd s.mems o m, heaps := upd s.heaps o h }) := by
    unfold tuplePtr inMem alloc
    simp only [Sys.view, Sys.put]
    rw [ha]
  rw [e]
  cases r with
  | ok p =>
    have hp := hen p rfl
    simp only
    have hlen : ((upd s.mems o m) o).len = m.len := by simp [upd]
    rw [hlen, Nat.mod_eq_of_lt hp, Nat.mod_eq_of_lt hm]
    split
    · rename_i hc
      refine ⟨rfl, fun c => ⟨fun hx => ?_, fun hx => ?_⟩, fun _ => .inl ⟨_, rfl⟩⟩
      · cases hx; exact ⟨p, rfl, hc.1, hc.2, rfl⟩
      · obtain ⟨q, hq, -, -, rfl⟩ := hx; cases hq; rfl
    · rename_i hc
      refine ⟨rfl, fun c => ⟨fun hx => (by cases hx), fun hx => ?_⟩, fun _ => .inr rfl⟩
      obtain ⟨q, hq, h1, h2, -⟩ := hx
      cases hq
      exact absurd ⟨h1, h2⟩ hc
  | err => exact ⟨rfl, fun c => ⟨fun hx => (by cases hx), fun ⟨_, hq, _⟩ => (by cases hq)⟩, fun _ => .inr rfl⟩
  | panic => exact ⟨rfl, fun c => ⟨fun hx => (by cases hx), fun ⟨_, hq, _⟩ => (by cases hq)⟩, fun hn => absurd rfl hn.1⟩
  | diverge => exact ⟨rfl, fun c => ⟨fun hx => (by cases hx), fun ⟨_, hq, _⟩ => (by cases hq)⟩, fun hn => absurd rfl hn.2⟩

/-- The flat value at a place, read as a pointer. -/
theorem nextU32_here (fs : List FV) (i : Nat) (t : St σ) : ∃ j, nextU32 (σ := σ) ⟨t, ⟨fs, i, []⟩⟩ =
    (match fs[i]? with
      | some (.u32 p) => .ok p
      | some _ => .err
      | none => if fs = [] then .err else .panic, ⟨t, ⟨fs, j, []⟩⟩) := by
  cases fs with
  | nil => exact ⟨_, rfl⟩
  | cons f fs =>
    rcases hx : (f :: fs)[i]? with _ | v
    · refine ⟨i, ?_⟩
      simp only [nextU32, SM.bind_def, next, Iter.next, nextOn, baseNext, hx]
      simp
    · refine ⟨i + 1, ?_⟩
      cases v <;> simp [nextU32, SM.bind_def, next, Iter.next, nextOn, baseNext, hx, FV.kind, FV.val] <;> rfl

theorem tuplePtr_given (E : Env σ) (o : Nat) (a n : U32) (fs : List FV) (i : Nat) (s : Sys σ) :
    tuplePtr E o a n (some ⟨fs, i, []⟩) s =
      (match fs[i]? with
        | some (.u32 p) => .ok p
        | some _ => .err
        | none => if fs = [] then .err else .panic, s) := by
  have hput : s.put o (s.view o) = s := by
    have g : ∀ {β : Type} (f : Nat → β), Handles.upd f o (f o) = f := fun f => by
      funext i; unfold Handles.upd; split <;> simp_all
    unfold Sys.put Sys.view
    simp only [g]
  obtain ⟨j, hj⟩ := nextU32_here (σ := σ) fs i (s.view o)
  simp only [tuplePtr, SM.bind_def, withIter]
  rw [hj]
  rcases fs[i]? with _ | v
  · by_cases hf : fs = [] <;> simp [hf, hput]
  · cases v <;> simp [hput] <;> rfl

/-- C146, a place given. With a place among the flat values of the caller `LowerValues` changes nothing in the system, and
returns the next flat value alone, if it is a `u32`, a multiple of the alignment, and the tuple there lies in the memory;
otherwise it returns an error, unless there is no next flat value.
Missing: pointers for which the end of the tuple is not below 2^32, see `spilled_wraps`. -/
theorem spilled_given_partial (E : Env σ) (o maxFlat : Nat) (vs : List Val) (ts : List Ty) (ks : List Kind)
    (hk : flattenTypes ts = .ok ks) (hl : maxFlat < ks.length) (s : Sys σ) (fs : List FV) (i : Nat)
    (hm : (s.mems o).len < 2 ^ 32) (hsz : Spec.size (tupleOf ts) < 2 ^ 32)
    (hen : ∀ p, fs[i]? = some (.u32 p) → p.toNat + Spec.size (tupleOf ts) < 2 ^ 32) :
    (lowerValues E o maxFlat vs ts (some ⟨fs, i, []⟩) s).2 = s ∧
    (∀ c, (lowerValues E o maxFlat vs ts (some ⟨fs, i, []⟩) s).1 = .ok c ↔
      ∃ p, fs[i]? = some (.u32 p) ∧ align (tupleOf ts) ∣ p.toNat ∧
        p.toNat + Spec.size (tupleOf ts) ≤ (s.mems o).len ∧ c = [.raw (.u32 p)]) ∧
    (i < fs.length → (∃ c, (lowerValues E o maxFlat vs ts (some ⟨fs, i, []⟩) s).1 = .ok c) ∨ (lowerValues E o maxFlat vs ts (some ⟨fs, i, []⟩) s).1 = .err) := by
  rw [lowerTuple_checks hk hsz E o maxFlat hl, tuplePtr_given]
  rcases hx : fs[i]? with _ | v
  · by_cases hf : fs = []
    all_goals
      simp only [hf, if_true, if_false]
      exact ⟨trivial, fun c => ⟨fun hx => (by cases hx), fun ⟨_, hq, _⟩ => (by cases hq)⟩,
        fun hi => absurd hi (by rw [List.getElem?_eq_none_iff] at hx; subst_vars; simp at hx ⊢ <;> omega)⟩
  · cases v with
    | u32 p =>
      have hp := hen p hx
      simp only
      rw [Nat.mod_eq_of_lt hp, Nat.mod_eq_of_lt hm]
      split
      · rename_i hc
        refine ⟨rfl, fun c => ⟨fun hx => ?_, fun hx => ?_⟩, fun _ => .inl ⟨_, rfl⟩⟩
        · cases hx; exact ⟨p, rfl, hc.1, hc.2, rfl⟩
        · obtain ⟨q, hq, -, -, rfl⟩ := hx; cases hq; rfl
      · rename_i hc
        refine ⟨rfl, fun c => ⟨fun hx => (by cases hx), fun hx => ?_⟩, fun _ => .inr rfl⟩
        obtain ⟨q, hq, h1, h2, -⟩ := hx
        cases hq
        exact absurd ⟨h1, h2⟩ hc
    | _ => exact ⟨rfl, fun c => ⟨fun hx => (by cases hx), fun ⟨_, hq, _⟩ => (by cases hq)⟩, fun _ => .inr rfl⟩

/-- C146 fails at the end of the address space: a pointer at which the tuple would reach past 2^32 is returned, if it is a
multiple of the alignment and what is past 2^32 is no longer than the memory, however far outside the memory it lies. -/
theorem spilled_wraps (E : Env σ) (o maxFlat : Nat) (vs : List Val) (ts : List Ty) (ks : List Kind)
    (hk : flattenTypes ts = .ok ks) (hl : maxFlat < ks.length) (s : Sys σ) (fs : List FV) (i : Nat)
    (hm : (s.mems o).len < 2 ^ 32) (hsz : Spec.size (tupleOf ts) < 2 ^ 32) (p : U32) (hp : fs[i]? = some (.u32 p))
    (ha : align (tupleOf ts) ∣ p.toNat) (hw : 2 ^ 32 ≤ p.toNat + Spec.size (tupleOf ts))
    (hb : p.toNat + Spec.size (tupleOf ts) - 2 ^ 32 ≤ (s.mems o).len) :
    lowerValues E o maxFlat vs ts (some ⟨fs, i, []⟩) s = (.ok [.raw (.u32 p)], s) := by
  rw [lowerTuple_checks hk hsz E o maxFlat hl, tuplePtr_given, hp]
  simp only
  have := p.isLt
  have hc : (p.toNat + Spec.size (tupleOf ts)) % 2 ^ 32 ≤ (s.mems o).len % 2 ^ 32 := by
    rw [Nat.mod_eq_of_lt hm, Nat.mod_eq_sub_mod hw, Nat.mod_eq_of_lt (by omega)]
    exact hb
  rw [if_pos ⟨ha, hc⟩]

/-- A place that is missing after other flat values is no error but a panic. -/
theorem spilled_no_place (E : Env σ) (o maxFlat : Nat) (vs : List Val) (ts : List Ty) (ks : List Kind)
    (hk : flattenTypes ts = .ok ks) (hl : maxFlat < ks.length) (s : Sys σ) (fs : List FV) (hf : fs ≠ [])
    (hsz : Spec.size (tupleOf ts) < 2 ^ 32) :
    lowerValues E o maxFlat vs ts (some ⟨fs, fs.length, []⟩) s = (.panic, s) := by
  rw [lowerTuple_checks hk hsz E o maxFlat hl, tuplePtr_given, List.getElem?_eq_none (Nat.le_refl _)]
  simp only [if_neg hf]

/-! ## Cases that meet the hypotheses -/

/-- Two numbers over a limit of one flat value: size 16, alignment 8. -/
example : ∃ ks, flattenTypes [Ty.u8, .u64] = .ok ks ∧ 1 < ks.length ∧ Spec.size (tupleOf [.u8, .u64]) = 16 ∧
    align (tupleOf [.u8, .u64]) = 8 := ⟨_, rfl, by decide, by decide, by decide⟩

/-- A place in the memory of `callSys`, and one at the end of the address space. -/
example : (lowerValues exA.E exA.o 1 [.u8 1, .u64 2] [.u8, .u64] (some ⟨[.u32 7, .u32 16], 1, []⟩) callSys).1 =
    .ok [.raw (.u32 16)] := by
  refine ((spilled_given_partial exA.E exA.o 1 _ [.u8, .u64] _ rfl (by decide) callSys [.u32 7, .u32 16] 1 (by decide) (by decide)
    ?_).2.1 _).2 ⟨16, rfl, by decide, by decide, rfl⟩
  intro p hp
  cases hp
  decide

example : (lowerValues exA.E exA.o 1 [.u8 1, .u64 2] [.u8, .u64] (some ⟨[.u32 7, .u32 0xFFFFFFF8], 1, []⟩) callSys).1 =
    .ok [.raw (.u32 0xFFFFFFF8)] := by
  rw [spilled_wraps exA.E exA.o 1 _ [.u8, .u64] _ rfl (by decide) callSys _ 1 (by decide) (by decide) 0xFFFFFFF8 rfl
    (by decide) (by decide) (by decide)]

/-- The allocator of `exA` puts the tuple at the first multiple of 8 that is free. -/
example : (lowerValues exA.E exA.o 1 [.u8 1, .u64 2] [.u8, .u64] none callSys).1 = .ok [.raw (.u32 64)] := by
  refine ((spilled_asked_partial exA.E exA.o 1 _ [.u8, .u64] _ rfl (by decide) callSys (.ok 64) _ _ rfl (by decide) (by decide)
    ?_).2.1 _).2 ⟨64, rfl, by decide, by decide, rfl⟩
  intro p hp
  cases hp
  decide

/-- A call with two flat values where a third one was to name the place. -/
example : (lowerValues exA.E exA.o 1 [.u8 1, .u64 2] [.u8, .u64] (some ⟨[.u32 7, .u32 16], 2, []⟩) callSys).1 = .panic := by
  rw [show (2 : Nat) = [FV.u32 7, .u32 16].length from rfl,
    spilled_no_place exA.E exA.o 1 _ [.u8, .u64] _ rfl (by decide) callSys _ (by decide) (by decide)]

end Verif.Abi
