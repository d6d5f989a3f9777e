import Verif.Abi.StoreMeans
import Verif.Abi.MeansProps
import Verif.Abi.StoreProps

/-!
# C116: what `Store` writes stands for the value

`Spec.Means` says which bytes stand for a value, apart from the models of `Store` and `Load`.
-/

namespace Verif.Abi

open Encoding Spec

variable {σ : Type}

/-- **C116**: after `Store` has succeeded, the bytes at the address stand for the value, in the one way there is: the
numbers, discriminants and flags at their offsets, and pairs that say where the bytes of strings and lists are, aligned
and inside the memory. (`Same` lets the value differ in the bits of NaNs and in the name by which a case is called.)
Missing: more than 64 flags (C25), repeated labels; lists of `2^32` bytes or more, whose length the code truncates (C19);
handles, which `Store` does not write. -/
theorem store_means_partial (E : Env σ) (used : σ → Nat → Prop) (G : GoodAlloc E used) (henc : E.enc ∈ Spec.encodings)
    (t : VT) (v : Val) (hv : HasType t.core v) (hw : Wf t.core) (hlf : ListsFit t.core v)
    (hsf : StringsFit E.enc t.core v) (ptr : U32) (s s' : St σ) (hg : s.mem.len < 2 ^ 32 ∧ s.mem.len ≤ s.mem.cap)
    (ha : align t.core ∣ ptr.toNat) (hle : ptr.toNat + Spec.size t.core ≤ s.mem.len)
    (hu : ∀ x, ptr.toNat ≤ x → x < ptr.toNat + Spec.size t.core → used s.heap x)
    (h : t.store E v ptr s = (.ok (), s')) :
    ∃ w, Same t.core v w ∧ Means Neatly E.enc s'.mem t.core ptr.toNat w := by
  unfold VT.store at h
  generalize t.core = t at *
  by_cases hl : Laid t
  · refine ⟨norm t v, same_norm t v hv hw, ?_⟩
    rcases store_means G (R := fun _ => True) (fun _ _ _ _ => .inr trivial) henc t v hv hw hl (.inr fun _ => trivial)
      hlf hsf ptr s hg ha hle (fun x hx => hu x hx.1 hx.2) with ⟨u, s2, e, w⟩ | ⟨e, -⟩
    · rw [h] at e
      injection e with _ e
      subst e
      obtain ⟨F, -, hF⟩ := w.foot
      exact hF s' (Nat.le_refl _) w.step.good (fun _ _ => rfl)
    · rw [h] at e; exact absurd rfl (e ())
  · exfalso
    have : ∃ m : Unit → SM (St σ) Unit, Abi.store E t v ptr = (storeValidate t ptr >>= m) := by
      cases t <;> first
        | exact ⟨_, store_bool E v ptr⟩ | exact ⟨_, store_char E v ptr⟩ | exact ⟨_, store_string E v ptr⟩
        | exact ⟨_, store_record E _ v ptr⟩ | exact ⟨_, by rw [Abi.store]⟩
    obtain ⟨m, e⟩ := this
    rw [e] at h
    obtain ⟨u, s1, h1, -⟩ := SM.bind_eq_ok.1 h
    exact hl (storeValidate_ok t ptr s s1 h1).2.1

mutual
/-- Bytes that stand for a value in the one way stand for it: a reader that follows the Canonical ABI gets it
(`load_means_partial`). -/
theorem neat_exact (enc : String) (m : Mem) : (t : Ty) → (p : Nat) → (v : Val) → Means Neatly enc m t p v →
    Means Exactly enc m t p v
  | .bool, _, _, h | .f32, _, _, h | .f64, _, _, h | .flags _, _, _, h => by
    rw [Means] at h ⊢
    exact ⟨h.1, False.elim⟩
  | .u8, _, _, h | .u16, _, _, h | .u32, _, _, h | .u64, _, _, h | .s8, _, _, h | .s16, _, _, h | .s32, _, _, h
  | .s64, _, _, h | .char, _, _, h => by
    rw [Means] at h ⊢
    exact h
  | .string, _, _, h => by
    rw [Means] at h ⊢
    exact h
  | .list t, p, v, h => by
    rw [Means] at h ⊢
    obtain ⟨vs, h1, h2, h3, h4, h5⟩ := h
    exact ⟨vs, h1, h2, h3, h4, fun i x hx => neat_exact enc m t _ x (h5 i x hx)⟩
  | .record fs, p, v, h => by
    rw [Means] at h ⊢
    obtain ⟨es, h1, h2⟩ := h
    exact ⟨es, h1, neat_exact_fields enc m fs p es h2⟩
  | .variant cs, p, v, h => by
    rw [Means] at h ⊢
    obtain ⟨l, t, r, ls, w, h1, h2, h3, h4⟩ := h
    exact ⟨l, t, r, ls, w, h1, h2, h3, neat_exact_case enc m cs _ _ w h4⟩
  | .own _, _, _, h | .borrow _, _, _, h | .nil, _, _, h | .other, _, _, h => by simp [Means] at h
theorem neat_exact_fields (enc : String) (m : Mem) : (fs : Fields) → (p : Nat) → (es : List (String × Val)) →
    MeansFields Neatly enc m fs p es → MeansFields Exactly enc m fs p es
  | .nil, _, _, h => by rw [MeansFields] at h ⊢; exact h
  | .cons _ t fs, _, _, h => by
    rw [MeansFields] at h ⊢
    obtain ⟨x, es', h1, h2, h3⟩ := h
    exact ⟨x, es', h1, neat_exact enc m t _ x h2, neat_exact_fields enc m fs _ es' h3⟩
theorem neat_exact_case (enc : String) (m : Mem) : (cs : Cases) → (i p : Nat) → (w : Val) →
    MeansCase Neatly enc m cs i p w → MeansCase Exactly enc m cs i p w
  | .nil, _, _, _, h => by simp [MeansCase] at h
  | .cons _ t _ _, 0, p, w, h => by
    rw [MeansCase] at h ⊢
    exact h.imp id fun h => ⟨h.1, neat_exact enc m t p w h.2⟩
  | .cons _ _ _ cs, i + 1, p, w, h => by
    rw [MeansCase] at h ⊢
    exact neat_exact_case enc m cs i p w h
end

/-! ## The hypotheses are met -/

example : ∃ w, Same exTy.core exVal w ∧
    Means Neatly "utf-8" (exTy.store (bumpEnv "utf-8") exVal 8 bumpSt).2.mem exTy.core 8 w :=
  store_means_partial (bumpEnv "utf-8") _ (bump_good "utf-8") (by decide) exTy exVal exHasType exWf exFits.1 exFits.2 8
    bumpSt _ (by decide) (by decide) (by decide) (fun x _ h => Nat.lt_of_lt_of_le h (by decide))
    (Prod.ext (show (exTy.store (bumpEnv "utf-8") exVal 8 bumpSt).1 = .ok () by decide) rfl)

/-- Both are used: two bytes stand for true, and only one of them in the one way. -/
example : Means Exactly "utf-8" (meansSt.mem) .bool 4 (.bool true) ∧
    ¬ Means Neatly "utf-8" (meansSt.mem) .bool 4 (.bool true) := by
  simp only [Means]
  exact ⟨⟨congrArg Val.bool (by decide), False.elim⟩, fun h => absurd (h.2 trivial) (by decide)⟩

end Verif.Abi
