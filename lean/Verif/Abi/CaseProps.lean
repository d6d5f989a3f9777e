import Verif.Abi.LoadProps
import Verif.Abi.FlatProps

/-!
# Discriminants out of range (C66)
-/

namespace Verif.Abi

open Spec

variable {σ : Type}

/-- Number of types in a list of types. -/
def VTys.length : VTys → Nat
  | .nil => 0
  | .cons _ ts => ts.length + 1

/-- How many cases a type has, if it is one with cases. -/
def VT.caseCount : VT → Option Nat
  | .variant cs => some cs.length
  | .union ts => some ts.length
  | .enum ls => some ls.length
  | .option _ => some 2
  | .result _ _ => some 2
  | _ => none

theorem VTys.cases_length : (ts : VTys) → (i : Nat) → (VTys.cases i ts).length = ts.length
  | .nil, i => by simp [VTys.cases, Cases.length, VTys.length]
  | .cons t ts, i => by simp [VTys.cases, Cases.length, VTys.length, cases_length ts]

theorem coreEnum_length (ls : List String) : (coreEnum ls).length = ls.length := by
  induction ls with
  | nil => rfl
  | cons l ls ih => simp [coreEnum, Cases.length, ih]

theorem VT.core_cases (t : VT) (n : Nat) (h : t.caseCount = some n) : ∃ cs, t.core = .variant cs ∧ cs.length = n := by
  cases t <;> simp only [VT.caseCount, Option.some.injEq, reduceCtorEq] at h <;> subst h <;> rw [VT.core]
  · exact ⟨_, rfl, VCases.core_length _⟩
  · exact ⟨_, rfl, VTys.cases_length _ _⟩
  · exact ⟨_, rfl, coreEnum_length _⟩
  · exact ⟨_, rfl, rfl⟩
  · exact ⟨_, rfl, rfl⟩

/-- C66, loading: a discriminant in memory that is not the number of a case is refused. -/
theorem load_discriminant (E : Env σ) (t : VT) (n : Nat) (hn : t.caseCount = some n) (h1 : 1 ≤ n) (h2 : n ≤ 2 ^ 24)
    (ptr : U32) (s : St σ) (hg : s.mem.len < 2 ^ 32 ∧ s.mem.len ≤ s.mem.cap)
    (hle : ptr.toNat + discBytes n ≤ s.mem.len) (hd : n ≤ natAt s.mem ptr.toNat (discBytes n)) :
    t.load E ptr s = (.err, s) := by
  obtain ⟨cs, hc, rfl⟩ := t.core_cases n hn
  show Abi.load E t.core ptr s = _
  obtain ⟨d, hdt⟩ : ∃ d, discriminantType cs.length = .ok d := ⟨_, discriminantType_eq _ h1 h2⟩
  have hb := disc_bytes _ _ hdt
  rw [hc, load, hdt, SM.bind_ok (SM.lift_def _ _)]
  obtain ⟨x, hx⟩ : ∃ x, loadDisc ptr d s = (.ok x, s) := by
    unfold loadDisc
    rw [SM.bind_ok (loadInt_ok d.ty d.bytes (disc_size d) ptr s (by omega) (by omega))]
    cases d <;> exact ⟨_, rfl⟩
  have hxn := (loadDisc_inv _ _ hdt ptr s s x hx).2
  rw [SM.bind_ok hx, disc_size, SM.bind_ok (SM.lift_def _ _), SM.ite_app, if_pos]
  · rfl
  · rw [BitVec.toNat_ofNat, Nat.mod_eq_of_lt (by omega)]; omega

/-- C66, loading: a type with no case, or with more than the code has discriminants for, gives no value. -/
theorem load_no_discriminant (E : Env σ) (t : VT) (n : Nat) (hn : t.caseCount = some n) (h : n = 0 ∨ 2 ^ 24 < n)
    (ptr : U32) (s : St σ) : t.load E ptr s = (.err, s) := by
  obtain ⟨cs, hc, rfl⟩ := t.core_cases n hn
  show Abi.load E t.core ptr s = _
  have hd : discriminantType cs.length = .err := discriminantType_err _ h
  rw [hc, load, hd]
  rfl

example : (VT.enum []).caseCount = some 0 := rfl

/-- C66, lifting: a flat discriminant that is not the number of a case is refused. -/
theorem lift_discriminant (E : Env σ) (t : VT) (n : Nat) (hn : t.caseCount = some n) (ks : List Kind)
    (hf : t.flatten = .ok ks) (vs : List FV) (i : Nat) (x : U32) (h : vs[i]? = some (.u32 x)) (hx : n ≤ x.toNat) (s : St σ) :
    (t.lift E ⟨s, itAt vs i⟩).1 = .err := by
  obtain ⟨cs, hc, rfl⟩ := t.core_cases n hn
  have hf' : flatten t.core = .ok ks := hf
  rw [hc] at hf'
  obtain ⟨ws, rfl, -⟩ := flatten_variant hf'
  show (liftFlat E t.core _).1 = _
  rw [hc, liftFlat, hf', SM.bind_ok (SM.lift_def _ _)]
  simp only [ne_eq, not_true_eq_false, if_false]
  rw [SM.bind_ok (nextU32_at vs i x h s), SM.ite_app, if_pos (by omega)]
  rfl

/-- The first number that is not a case: 3 for an enum of three. -/
example : (VT.enum ["a", "b", "c"]).caseCount = some 3 ∧ (VT.enum ["a", "b", "c"]).flatten = .ok [.u32] ∧
    [FV.u32 3][0]? = some (.u32 3) ∧ discBytes 3 = 1 := ⟨rfl, rfl, rfl, rfl⟩

theorem flattenCases_enum (ls : List String) (acc : List Kind) : flattenCases (coreEnum ls) acc = .ok acc := by
  induction ls generalizing acc with
  | nil => rfl
  | cons l ls ih => simp [coreEnum, flattenCases, ih]

theorem liftCase_enum (E : Env σ) (all : Cases) (ls : List String) (k : Nat) (l : String) (hl : ls[k]? = some l) (s : LSt σ) :
    liftCase E all (coreEnum ls) k [] s = (.ok (.map [(l, .nil)]), s) := by
  induction ls generalizing k with
  | nil => simp at hl
  | cons a ls ih =>
    cases k with
    | zero =>
      simp only [List.getElem?_cons_zero, Option.some.injEq] at hl
      subst hl
      rfl
    | succ k => exact ih k hl

/-- C66, the other direction: a number below the number of cases passes the check; here for enums, where nothing can
fail afterwards. -/
theorem lift_enum (E : Env σ) (ls : List String) (h1 : 1 ≤ ls.length) (h2 : ls.length ≤ 2 ^ 24) (vs : List FV) (i : Nat)
    (x : U32) (h : vs[i]? = some (.u32 x)) (l : String) (hl : ls[x.toNat]? = some l) (s : St σ) :
    (VT.enum ls).lift E ⟨s, itAt vs i⟩ = (.ok (.map [(l, .nil)]), ⟨s, itAt vs (i + 1)⟩) := by
  have hf : flatten (.variant (coreEnum ls)) = .ok [.u32] := by
    rw [flatten, flattenCases_enum, coreEnum_length, discriminantType_eq _ h1 h2]; rfl
  show liftFlat E (.variant (coreEnum ls)) _ = _
  rw [liftFlat, hf, SM.bind_ok (SM.lift_def _ _)]
  simp only [ne_eq, not_true_eq_false, if_false]
  have hlt : x.toNat < ls.length := (List.getElem?_eq_some_iff.1 hl).1
  rw [SM.bind_ok (nextU32_at vs i x h s), SM.ite_app, if_neg (by rw [coreEnum_length]; omega), liftCase_enum E _ ls _ l hl]

/-- The last case of three. -/
example : ["a", "b", "c"][(2 : U32).toNat]? = some "c" ∧ [FV.u32 2][0]? = some (.u32 2) := ⟨rfl, rfl⟩

end Verif.Abi
