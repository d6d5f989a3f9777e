import Verif.Abi.FlatMeansLower
import Verif.Abi.MeansProps
import Verif.Abi.StoreMeansProps

/-!
# C118: core values stand for the values lowered to them and lifted from them

`Spec.FlatMeans` says which core values stand for a value, apart from the models of `LowerFlat` and `LiftFlat`.
-/

namespace Verif.Abi

open Encoding Spec

variable {σ : Type}

/-- **C118**, lowering: the core values that `LowerFlat` returns stand for the value, in the one way there is: each with
the bits prescribed, sign-extended where the type is signed, 0 in the slots that the case of a variant does not use, and
pairs that say where the bytes of strings and lists are. (`Same` lets the value differ in the bits of NaNs and in the name
by which a case is called.)
Missing: handles (C88), more than 64 flags (`lower_flags_over_64`), repeated labels, lists of `2^32` bytes or more. -/
theorem lower_means_partial (E : Env σ) (used : σ → Nat → Prop) (G : GoodAlloc E used) (henc : E.enc ∈ Spec.encodings)
    (t : VT) (v : Val) (hv : HasType t.core v) (hw : Wf t.core) (hp : Plain t.core) (hlf : ListsFit t.core v)
    (hsf : StringsFit E.enc t.core v) (s s' : St σ) (hg : s.mem.len < 2 ^ 32 ∧ s.mem.len ≤ s.mem.cap) (fs : List FV)
    (h : t.lower E v s = (.ok fs, s')) :
    fs.map FV.kind = coreTypes t.core ∧
      ∃ w, Same t.core v w ∧ FlatMeans Neatly E.enc s'.mem t.core (fs.map FV.bits) w := by
  unfold VT.lower at h
  generalize t.core = t at *
  have hk := lower_kinds E t v s s' fs h
  have hl := laid_of_flatten t _ hk
  rw [flatten_core_wf t hl hw] at hk
  injection hk with hk
  refine ⟨hk.symm, norm t v, same_norm t v hv hw, ?_⟩
  rcases lower_means G (R := fun _ => True) (fun _ _ _ _ => .inr trivial) henc t v hv hw hl hp hlf hsf s hg with
    ⟨fs', s2, e, w⟩ | ⟨e, -⟩
  · rw [h] at e
    injection e with e1 e
    injection e1 with e1
    subst e e1
    obtain ⟨F, -, hF⟩ := w.foot
    exact hF s' (Nat.le_refl _) w.step.good (fun _ _ => rfl)
  · rw [h] at e; exact absurd rfl (e fs)

/-- Core values for which `LiftFlat` is asked to follow the Canonical ABI: of the core types of the type, which has no
handles and whose labels differ; see `Spec.FlatOrderly` for the pairs met. -/
structure Liftable (enc : String) (m : Mem) (t : Ty) (fs : List FV) : Prop where
  known : enc ∈ Spec.encodings
  laid : Laid t
  plain : Plain t
  wf : Wf t
  small : m.len < 2 ^ 32
  cap : m.len ≤ m.cap
  kinds : fs.map FV.kind = coreTypes t
  orderly : FlatOrderly enc m t (fs.map FV.bits)

theorem Liftable.decided {E : Env σ} {s : St σ} {t : Ty} {fs : List FV} (h : Liftable E.enc s.mem t fs)
    (before rest : List FV) : Lifted (liftFlat E t ⟨s, itAt (before ++ fs ++ rest) before.length⟩) s
      (itAt (before ++ fs ++ rest) (before.length + fs.length))
      fun R => FlatMeans R E.enc s.mem t (fs.map FV.bits) :=
  lift_decided E h.known s h.small h.cap t h.laid h.plain h.wf fs h.kinds h.orderly _ _ (feeds_base fs before rest)

/-- **C118**, lifting: where the core values stand for `v`, `LiftFlat` returns `v`, takes exactly them, and changes
nothing else; whatever is in the bits that the type does not use and in the slots that the case does not use.
Missing: as above; pairs that wrap around (C63), length words with a highest bit that is no tag. -/
theorem lift_means_partial (E : Env σ) (t : VT) (s : St σ) (fs before rest : List FV)
    (h : Liftable E.enc s.mem t.core fs) (v : Val) (hv : FlatMeans Exactly E.enc s.mem t.core (fs.map FV.bits) v) :
    t.lift E ⟨s, itAt (before ++ fs ++ rest) before.length⟩ =
      (.ok v, ⟨s, itAt (before ++ fs ++ rest) (before.length + fs.length)⟩) := by
  show liftFlat E t.core _ = _
  rcases h.decided (E := E) before rest with ⟨w, e, -, hu⟩ | ⟨-, hn⟩
  · rw [hu v hv]; exact e
  · exact absurd hv (hn _ _ id)

/-- What `LiftFlat` returns, the core values stand for, but for strings that the bytes do not write, which have U+FFFD in
them. Missing: as above, and that such bytes are refused, which they are not (`malformed_string_accepted`). -/
theorem lift_only_means_partial (E : Env σ) (t : VT) (s : St σ) (s' : LSt σ) (fs before rest : List FV)
    (h : Liftable E.enc s.mem t.core fs) (v : Val)
    (hv : t.lift E ⟨s, itAt (before ++ fs ++ rest) before.length⟩ = (.ok v, s')) :
    s' = ⟨s, itAt (before ++ fs ++ rest) (before.length + fs.length)⟩ ∧
      FlatMeans Leniently E.enc s.mem t.core (fs.map FV.bits) v := by
  have hv' : liftFlat E t.core _ = _ := hv
  rcases h.decided (E := E) before rest with ⟨w, e, hl, -⟩ | ⟨⟨it, e⟩, -⟩
  · rw [e] at hv'
    cases hv'
    exact ⟨rfl, hl⟩
  · rw [e] at hv'
    cases hv'

/-- Where the core values stand for nothing (a case or character that does not exist, a list or string that is misaligned
or not inside the memory), `LiftFlat` returns an error and changes nothing but the iterator; and it returns an error only
there. Missing: as above. -/
theorem lift_refuses_partial (E : Env σ) (t : VT) (s : St σ) (fs before rest : List FV)
    (h : Liftable E.enc s.mem t.core fs) :
    (∃ it, t.lift E ⟨s, itAt (before ++ fs ++ rest) before.length⟩ = (.err, ⟨s, it⟩)) ↔
      ∀ v, ¬ FlatMeans Leniently E.enc s.mem t.core (fs.map FV.bits) v := by
  show (∃ it, liftFlat E t.core _ = _) ↔ _
  constructor
  · rintro ⟨it, he⟩ v hv
    rcases h.decided (E := E) before rest with ⟨w, e, -, -⟩ | ⟨-, hn⟩
    · rw [e] at he; cases he
    · exact hn _ _ id hv
  · intro hn
    rcases h.decided (E := E) before rest with ⟨w, e, hl, -⟩ | ⟨e, -⟩
    · exact absurd hl (hn w)
    · exact e

/-- Core values stand for one value only. -/
theorem flat_means_unique (enc : String) (m : Mem) (t : Ty) (bs : List Nat) (v w : Val)
    (hv : FlatMeans Exactly enc m t bs v) (hw : FlatMeans Exactly enc m t bs w) : v = w :=
  flatMeans_once (fun _ _ _ _ hs ht => writes_once hs ht) t bs v w hv hw

mutual
/-- Core values that stand for a value in the one way stand for it: a reader that follows the Canonical ABI gets it. -/
theorem flat_neat_exact (enc : String) (m : Mem) : (t : Ty) → (bs : List Nat) → (v : Val) → FlatMeans Neatly enc m t bs v →
    FlatMeans Exactly enc m t bs v
  | .bool, _, _, h | .u8, _, _, h | .u16, _, _, h | .u32, _, _, h | .u64, _, _, h | .s8, _, _, h | .s16, _, _, h
  | .s32, _, _, h | .s64, _, _, h | .f32, _, _, h | .f64, _, _, h | .char, _, _, h => by
    rw [FlatMeans] at h ⊢
    obtain ⟨b, h1, h2, -⟩ := h
    exact ⟨b, h1, h2, False.elim⟩
  | .flags _, _, _, h => by
    rw [FlatMeans] at h ⊢
    exact ⟨h.1, False.elim⟩
  | .string, _, _, h => by
    rw [FlatMeans] at h ⊢
    obtain ⟨p, n, h1, h2, -⟩ := h
    exact ⟨p, n, h1, h2, False.elim⟩
  | .list t, _, _, h => by
    rw [FlatMeans] at h ⊢
    obtain ⟨p, n, h1, ⟨vs, h2, h3, h4, h5, h6⟩, -⟩ := h
    exact ⟨p, n, h1, ⟨vs, h2, h3, h4, h5, fun i x hx => neat_exact enc m t _ x (h6 i x hx)⟩, False.elim⟩
  | .record fs, _, _, h => by
    rw [FlatMeans] at h ⊢
    obtain ⟨es, h1, h2⟩ := h
    exact ⟨es, h1, flat_neat_exact_fields enc m fs _ es h2⟩
  | .variant cs, _, _, h => by
    rw [FlatMeans] at h ⊢
    obtain ⟨d, rest, h1, ⟨l, t, r, ls, w, h2, h3, h4, h5⟩, -⟩ := h
    exact ⟨d, rest, h1, ⟨l, t, r, ls, w, h2, h3, h4, flat_neat_exact_case enc m cs _ _ w h5⟩, False.elim⟩
  | .own _, _, _, h | .borrow _, _, _, h | .nil, _, _, h | .other, _, _, h => by simp [FlatMeans] at h
theorem flat_neat_exact_fields (enc : String) (m : Mem) : (fs : Fields) → (bs : List Nat) → (es : List (String × Val)) →
    FlatMeansFields Neatly enc m fs bs es → FlatMeansFields Exactly enc m fs bs es
  | .nil, _, _, h => by
    rw [FlatMeansFields] at h ⊢
    exact h
  | .cons l t fs, _, _, h => by
    rw [FlatMeansFields] at h ⊢
    obtain ⟨x, es', h1, h2, h3⟩ := h
    exact ⟨x, es', h1, flat_neat_exact enc m t _ x h2, flat_neat_exact_fields enc m fs _ es' h3⟩
theorem flat_neat_exact_case (enc : String) (m : Mem) : (cs : Cases) → (i : Nat) → (bs : List Nat) → (w : Val) →
    FlatMeansCase Neatly enc m cs i bs w → FlatMeansCase Exactly enc m cs i bs w
  | .nil, _, _, _, h => by simp [FlatMeansCase] at h
  | .cons l t r cs, 0, _, w, h => by
    rw [FlatMeansCase] at h ⊢
    refine ⟨?_, False.elim⟩
    rcases h.1 with h | ⟨h1, h2⟩
    · exact .inl h
    · exact .inr ⟨h1, flat_neat_exact enc m t _ w h2⟩
  | .cons l t r cs, i + 1, _, w, h => by
    rw [FlatMeansCase] at h ⊢
    exact flat_neat_exact_case enc m cs i _ w h
end

/-! ## The hypotheses are met -/

/-- The example value of C19. -/
example : HasType exTy.core exVal ∧ Wf exTy.core ∧ Plain exTy.core ∧ ListsFit exTy.core exVal ∧
    StringsFit (bumpEnv "utf-8").enc exTy.core exVal ∧ (bumpEnv "utf-8").enc ∈ Spec.encodings ∧
    (exTy.lower (bumpEnv "utf-8") exVal bumpSt).1 =
      .ok [.u32 1, .u32 64, .u32 6, .u32 72, .u32 2, .u32 1, .u32 7, .u32 300, .u32 1] :=
  ⟨exHasType, exWf, exLaid.2, exFits.1, exFits.2, by decide, by decide⟩

/-- A case with an `f32` and a case with an `s64`: they share a slot of 64 bits. -/
def slotTy : VT := .variant (.cons "f" .f32 none (.cons "i" .s64 none (.cons "n" .s8 none .nil)))

theorem slotTy_liftable (d : U32) (x : U64) :
    Liftable (bumpEnv "utf-8").enc bumpSt.mem slotTy.core [.u32 d, .u64 x] := by
  refine ⟨by decide, ?_, ?_, ?_, by decide, by decide, ?_, ?_⟩
  · simp [slotTy, VT.core, VCases.core, Laid, LaidCases, Cases.length]
  · simp [slotTy, VT.core, VCases.core, Plain, PlainCases]
  · simp only [slotTy, VT.core, VCases.core, Wf, WfCases, Cases.length]
    refine ⟨by decide, by decide, ?_, by decide⟩
    intro i l t r h
    rcases i with _ | _ | _ | i <;> simp [Cases.get?] at h
    all_goals obtain ⟨rfl, rfl, rfl⟩ := h; exact ⟨_, .stop _⟩
  · show [Kind.u32, .u64] = _
    decide
  · simp only [slotTy, VT.core, VCases.core, FlatOrderly]
    rintro d' _ -
    rcases d' % 2 ^ 32 with _ | _ | _ | i <;> simp [FlatOrderlyCase, FlatOrderly]

/-- The number -1 of 8 bits in the shared slot; the bits above do not matter. -/
example : slotTy.lift (bumpEnv "utf-8") ⟨bumpSt, itAt [.f64 5, .u32 2, .u64 0x1234ABCDFFFFFFFF] 1⟩ =
    (.ok (.map [("n", .s8 0xFF)]), ⟨bumpSt, itAt [.f64 5, .u32 2, .u64 0x1234ABCDFFFFFFFF] 3⟩) := by
  refine lift_means_partial _ _ _ [.u32 2, .u64 0x1234ABCDFFFFFFFF] [.f64 5] [] (slotTy_liftable _ _) _ ?_
  simp only [slotTy, VT.core, VCases.core, FlatMeans]
  refine ⟨2, [0x1234ABCDFFFFFFFF], by decide, ⟨"n", .s8, none, ["n"], .s8 0xFF, rfl, .stop _, ?_, ?_⟩, False.elim⟩
  · rfl
  · simp only [FlatMeansCase, Nat.reduceMod, Nat.reducePow]
    exact ⟨.inr ⟨by simp, by rw [FlatMeans]; exact ⟨_, rfl, congrArg Val.s8 (by decide), False.elim⟩⟩, False.elim⟩

/-- There is no case 3. -/
example : ∃ it, slotTy.lift (bumpEnv "utf-8") ⟨bumpSt, itAt [.f64 5, .u32 3, .u64 7] 1⟩ = (.err, ⟨bumpSt, it⟩) := by
  refine (lift_refuses_partial _ _ _ [.u32 3, .u64 7] [.f64 5] [] (slotTy_liftable _ _)).2 fun v => ?_
  simp only [slotTy, VT.core, VCases.core, FlatMeans]
  rintro ⟨d, rest, h, ⟨l, t, r, ls, w, hg, -⟩, -⟩
  injection h with h
  subst h
  cases hg

end Verif.Abi
