import Verif.Abi.BareFlat
import Verif.Abi.FlatMeansProps
import Verif.Abi.HandleProps

/-!
# What bytes and core values with handles stand for: property theorems
-/

namespace Verif.Abi
open Spec

variable {σ : Type}

/-- **C123**, loading: let the bytes stand for `w`, a value of the type with `u32` instead of the handles; let `v` be
`w` with the handles `hs` in place of the numbers `is`; and let these be what the table of the instance has at these
numbers, one after the other. Then `Load` returns `v`, changes the tables as lifting these handles does, and nothing
else. -/
theorem load_handles_means (E : Env σ) (t : VT) (ptr : U32) (s : St σ)
    (h : Readable E.enc s.mem (bare t.core) ptr.toNat) (v w : Val) (hs : List Held) (is : List U32) (w' : Handles.World)
    (hm : Means Exactly E.enc s.mem (bare t.core) ptr.toNat w) (hv : Swapped t.core v w hs is)
    (hl : Lifts E s.world hs is w') : t.load E ptr s = (.ok v, { s with world := w' }) := by
  show Abi.load E t.core ptr s = _
  refine ((load_mirror (E := E) t.core (wf_bare t.core h.wf) ptr).ok s s.world s.world v _).2 ⟨w, s, hs, is, w', ?_, hv, hl, rfl⟩
  show Abi.load E (bare t.core) ptr s = _
  rcases h.decided with ⟨u, e, -, hu⟩ | ⟨-, hn⟩
  · rw [hu w hm]; exact e
  · exact absurd hm (hn _ _)

/-- What `Load` returns is such a value (but for strings that the bytes do not write), and the tables are as after lifting
its handles. -/
theorem load_handles_only_means (E : Env σ) (t : VT) (ptr : U32) (s s' : St σ)
    (h : Readable E.enc s.mem (bare t.core) ptr.toNat) (v : Val) (hv : t.load E ptr s = (.ok v, s')) :
    s' = { s with world := s'.world } ∧ ∃ w hs is, Means Leniently E.enc s.mem (bare t.core) ptr.toNat w ∧
      Swapped t.core v w hs is ∧ Lifts E s.world hs is s'.world := by
  have hv' : Abi.load E t.core ptr s = (.ok v, s') := hv
  obtain ⟨w, s1, hs, is, w', e, hw, hl, rfl⟩ :=
    ((load_mirror (E := E) t.core (wf_bare t.core h.wf) ptr).ok s s.world s.world v s').1 hv'
  have e' : Abi.load E (bare t.core) ptr s = (.ok w, s1) := e
  rcases h.decided (E := E) with ⟨u, e1, hu, -⟩ | ⟨e1, -⟩
  · rw [e1] at e'
    cases e'
    exact ⟨rfl, w, hs, is, hu, hw, hl⟩
  · rw [e1] at e'; cases e'

/-- Where the bytes stand for nothing, or for numbers at which the table does not have such handles, `Load` returns an
error. -/
theorem load_handles_refuses (E : Env σ) (t : VT) (ptr : U32) (s : St σ)
    (h : Readable E.enc s.mem (bare t.core) ptr.toNat)
    (hn : ∀ v w hs is w', Means Leniently E.enc s.mem (bare t.core) ptr.toNat w → Swapped t.core v w hs is →
      ¬ Lifts E s.world hs is w') : (t.load E ptr s).1 = .err := by
  have hc := (load_mirror (E := E) t.core (wf_bare t.core h.wf) ptr).calm s s.world s.world (by
    show (Abi.load E (bare t.core) ptr s).1.Returns
    rcases h.decided (E := E) with ⟨u, e1, -, -⟩ | ⟨e1, -⟩
    · rw [e1]; exact .inl ⟨_, rfl⟩
    · rw [e1]; exact .inr rfl)
  rcases e : t.load E ptr s with ⟨r, s'⟩
  have e' : Abi.load E t.core ptr ((stPut σ).put s.world s) = (r, s') := e
  rw [e'] at hc
  cases r with
  | ok v =>
    obtain ⟨-, w, hs, is, h1, h2, h3⟩ := load_handles_only_means E t ptr s s' h v e
    exact absurd h3 (hn _ _ _ _ _ h1 h2)
  | err => rfl
  | panic | diverge => rcases hc with ⟨_, hc⟩ | hc <;> cases hc

/-- **C123**, lifting: as `load_handles_means`; `LiftFlat` takes exactly the core values. -/
theorem lift_handles_means (E : Env σ) (t : VT) (s : St σ) (fs before rest : List FV)
    (h : Liftable E.enc s.mem (bare t.core) fs) (v w : Val) (hs : List Held) (is : List U32) (w' : Handles.World)
    (hm : FlatMeans Exactly E.enc s.mem (bare t.core) (fs.map FV.bits) w) (hv : Swapped t.core v w hs is)
    (hl : Lifts E s.world hs is w') : t.lift E ⟨s, itAt (before ++ fs ++ rest) before.length⟩ =
      (.ok v, ⟨{ s with world := w' }, itAt (before ++ fs ++ rest) (before.length + fs.length)⟩) := by
  show liftFlat E t.core _ = _
  refine ((lift_mirror (E := E) t.core (wf_bare t.core h.wf)).ok ⟨s, itAt (before ++ fs ++ rest) before.length⟩
    s.world s.world v _).2 ⟨w, ⟨s, itAt (before ++ fs ++ rest) (before.length + fs.length)⟩, hs, is, w', ?_, hv, hl, rfl⟩
  show liftFlat E (bare t.core) ⟨s, _⟩ = _
  rcases h.decided (E := E) before rest with ⟨u, e, -, hu⟩ | ⟨-, hn⟩
  · rw [hu w hm]; exact e
  · exact absurd hm (hn _ _ id)

/-- What `LiftFlat` returns is such a value. -/
theorem lift_handles_only_means (E : Env σ) (t : VT) (s : St σ) (s' : LSt σ) (fs before rest : List FV)
    (h : Liftable E.enc s.mem (bare t.core) fs) (v : Val)
    (hv : t.lift E ⟨s, itAt (before ++ fs ++ rest) before.length⟩ = (.ok v, s')) :
    s' = ⟨{ s with world := s'.st.world }, itAt (before ++ fs ++ rest) (before.length + fs.length)⟩ ∧
      ∃ w hs is, FlatMeans Leniently E.enc s.mem (bare t.core) (fs.map FV.bits) w ∧
        Swapped t.core v w hs is ∧ Lifts E s.world hs is s'.st.world := by
  have hv' : liftFlat E t.core ((lPut σ).put s.world ⟨s, itAt (before ++ fs ++ rest) before.length⟩) = (.ok v, s') := hv
  obtain ⟨w, s1, hs, is, w', e, hw, hl, rfl⟩ :=
    ((lift_mirror (E := E) t.core (wf_bare t.core h.wf)).ok _ s.world s.world v s').1 hv'
  have e' : liftFlat E (bare t.core) ⟨s, itAt (before ++ fs ++ rest) before.length⟩ = (.ok w, s1) := e
  rcases h.decided (E := E) before rest with ⟨u, e1, hu, -⟩ | ⟨⟨it, e1⟩, -⟩
  · rw [e1] at e'
    cases e'
    exact ⟨rfl, w, hs, is, hu, hw, hl⟩
  · rw [e1] at e'; cases e'

/-- Where the core values stand for nothing, or for numbers at which the table does not have such handles, `LiftFlat`
returns an error. -/
theorem lift_handles_refuses (E : Env σ) (t : VT) (s : St σ) (fs before rest : List FV)
    (h : Liftable E.enc s.mem (bare t.core) fs)
    (hn : ∀ v w hs is w', FlatMeans Leniently E.enc s.mem (bare t.core) (fs.map FV.bits) w → Swapped t.core v w hs is →
      ¬ Lifts E s.world hs is w') : (t.lift E ⟨s, itAt (before ++ fs ++ rest) before.length⟩).1 = .err := by
  have hc := (lift_mirror (E := E) t.core (wf_bare t.core h.wf)).calm ⟨s, itAt (before ++ fs ++ rest) before.length⟩
    s.world s.world (by
      show (liftFlat E (bare t.core) ⟨s, _⟩).1.Returns
      rcases h.decided (E := E) before rest with ⟨u, e1, -, -⟩ | ⟨⟨it, e1⟩, -⟩
      · rw [e1]; exact .inl ⟨_, rfl⟩
      · rw [e1]; exact .inr rfl)
  rcases e : t.lift E ⟨s, itAt (before ++ fs ++ rest) before.length⟩ with ⟨r, s'⟩
  have e' : liftFlat E t.core ((lPut σ).put s.world ⟨s, itAt (before ++ fs ++ rest) before.length⟩) = (r, s') := e
  rw [e'] at hc
  cases r with
  | ok v =>
    obtain ⟨-, w, hs, is, h1, h2, h3⟩ := lift_handles_only_means E t s s' fs before rest h v e
    exact absurd h3 (hn _ _ _ _ _ h1 h2)
  | err => rfl
  | panic | diverge => rcases hc with ⟨_, hc⟩ | hc <;> cases hc

/-- **C123**, lowering: the core values that `LowerFlat` returns stand for a value of the type with `u32`
instead of the handles, in the one way there is; it is the value lowered, with the numbers `is` in place of its handles
`hs`; and these are the numbers that the handles got in the table of the instance, entered one after the other. -/
theorem lower_handles_means (E : Env σ) (used : σ → Nat → Prop) (G : GoodAlloc E used)
    (henc : E.enc ∈ Spec.encodings) (t : VT) (v : Val) (hv : HasType t.core v) (hw : Wf t.core) (hlf : ListsFit t.core v)
    (hsf : StringsFit E.enc t.core v) (s s' : St σ) (hg : s.mem.len < 2 ^ 32 ∧ s.mem.len ≤ s.mem.cap) (fs : List FV)
    (h : t.lower E v s = (.ok fs, s')) :
    fs.map FV.kind = coreTypes t.core ∧ ∃ u w hs is, Same t.core v u ∧ Swapped t.core u w hs is ∧
      Lowers E s.world hs is s'.world ∧ FlatMeans Neatly E.enc s'.mem (bare t.core) (fs.map FV.bits) w := by
  unfold VT.lower at h
  generalize t.core = t at *
  have hk := lower_kinds E t v s s' fs h
  have hl := laid_of_flatten t _ hk
  rw [flatten_core_wf t hl hw] at hk
  injection hk with hk
  obtain ⟨w, hs, is, f, r⟩ := lower_bare t hw hl v hv hlf hsf s s' fs h
  refine ⟨hk.symm, norm t v, norm (bare t) w, hs, is, same_norm t v hv hw, f.swap, r.1, ?_⟩
  have h0 : lowerFlat E (bare t) w s = (.ok fs, { s' with world := s.world }) := r.2 s.world
  rcases lower_means G (R := fun _ => True) (fun _ _ _ _ => .inr trivial) henc (bare t) w f.typed (wf_of_bare t hw)
    (laid_of_bare t hl) (plain_bare t) f.lists f.strings s hg with ⟨fs', s2, e, q⟩ | ⟨e, -⟩
  · rw [h0] at e
    injection e with e1 e2
    injection e1 with e1
    subst e1 e2
    obtain ⟨F, -, hF⟩ := q.foot
    exact hF { s' with world := s.world } (Nat.le_refl _) q.step.good (fun _ _ => rfl)
  · rw [h0] at e; exact absurd rfl (e fs)

theorem each_carried {t : Ty} : (xs ys : List Val) → (hs : List Held) → (is : List U32) →
    (∀ x ∈ xs, ∀ y h i, Swapped t x y h i → Carried t x h) → Each (fun a b h i => Swapped t a b h i) xs ys hs is →
    ∃ hss, List.Forall₂ (fun x h => Carried t x h) xs hss ∧ hs = hss.flatten
  | [], [], _, _, _, h => ⟨[], .nil, h.1⟩
  | x :: xs, y :: ys, hs, is, hc, h => by
    obtain ⟨h1, h2, i1, i2, a, b, rfl, rfl⟩ := h
    obtain ⟨hss, c, rfl⟩ := each_carried xs ys h2 i2 (fun z hz => hc z (by simp [hz])) b
    exact ⟨h1 :: hss, .cons (hc x (by simp) _ _ _ a) c, rfl⟩
  | [], _ :: _, _, _, _, h => h.elim
  | _ :: _, [], _, _, _, h => h.elim

mutual
/-- The handles replaced are all the handles in the value (`Spec.Carried`, C88). -/
theorem swapped_carried : (t : Ty) → Wf t → (v w : Val) → (hs : List Held) → (is : List U32) → Swapped t v w hs is →
    Carried t v hs
  | .bool, _, _, _, _, _, h | .u8, _, _, _, _, _, h | .u16, _, _, _, _, _, h | .u32, _, _, _, _, _, h
  | .u64, _, _, _, _, _, h | .s8, _, _, _, _, _, h | .s16, _, _, _, _, _, h | .s32, _, _, _, _, _, h
  | .s64, _, _, _, _, _, h | .f32, _, _, _, _, _, h | .f64, _, _, _, _, _, h | .char, _, _, _, _, _, h
  | .string, _, _, _, _, _, h | .flags _, _, _, _, _, _, h | .nil, _, _, _, _, _, h | .other, _, _, _, _, _, h => by
    simp only [Swapped] at h
    simp only [Carried]
    exact h.2.1
  | .own _, _, _, _, _, _, h | .borrow _, _, _, _, _, _, h => by
    rw [Swapped] at h
    rw [Carried]
    obtain ⟨x, _, h1, -, h2, -⟩ := h
    exact ⟨x, h1, h2⟩
  | .list t, hw, _, _, hs, is, h => by
    rw [Swapped] at h
    rw [Wf] at hw
    obtain ⟨xs, ys, rfl, -, h⟩ := h
    obtain ⟨hss, h1, h2⟩ := each_carried xs ys hs is (fun x _ y h i => swapped_carried t hw.2 x y h i) h
    rw [Carried]
    exact ⟨xs, hss, rfl, h1, h2⟩
  | .record fs, hw, _, _, hs, is, h => by
    rw [Swapped] at h
    rw [Wf] at hw
    obtain ⟨es, ds, rfl, -, h⟩ := h
    rw [Carried]
    exact ⟨es, rfl, swappedFields_carried fs hw.2 hw.1 es ds hs is h es fun _ _ => rfl⟩
  | .variant cs, hw, _, _, hs, is, h => by
    rw [Swapped] at h
    rw [Wf] at hw
    obtain ⟨key, x, y, i, rfl, -, hk, h⟩ := h
    rw [Carried]
    exact ⟨key, x, i, rfl, hk, swappedPayload_carried cs hw.2.2.2 i x y hs is h⟩
theorem swappedFields_carried : (fs : Fields) → WfFields fs → fs.labels.Nodup → (es ds : List (String × Val)) →
    (hs : List Held) → (is : List U32) → SwappedFields fs es ds hs is → (m : List (String × Val)) →
    (∀ l ∈ fs.labels, mapGet m l = mapGet es l) → CarriedFields fs m hs
  | .nil, _, _, _, _, _, _, h, _, _ => by rw [SwappedFields] at h; rw [CarriedFields]; exact h.2.2.1
  | .cons l t fs, hw, hd, es, ds, hs, is, h, m, hm => by
    rw [SwappedFields] at h
    rw [WfFields] at hw
    rw [Fields.labels, List.nodup_cons] at hd
    obtain ⟨x, y, es', ds', h1, h2, i1, i2, rfl, rfl, a, b, rfl, rfl⟩ := h
    have e1 : mapGet m l = x := by rw [hm l (by simp [Fields.labels])]; simp [mapGet]
    rw [CarriedFields, e1]
    refine ⟨h1, h2, swapped_carried t hw.1 x y h1 i1 a, swappedFields_carried fs hw.2 hd.2 es' ds' h2 i2 b m fun k hk => ?_, rfl⟩
    have : k ≠ l := fun e => hd.1 (e ▸ hk)
    rw [hm k (by simp [Fields.labels, hk])]
    simp [mapGet, this]
theorem swappedPayload_carried : (cs : Cases) → WfCases cs → (i : Nat) → (x y : Val) → (hs : List Held) → (is : List U32) →
    SwappedPayload cs i x y hs is → CarriedPayload cs i x hs
  | .nil, _, _, _, _, _, _, h => by simp [SwappedPayload] at h
  | .cons _ t _ _, hw, 0, x, y, hs, is, h => by
    rw [SwappedPayload] at h
    rw [WfCases] at hw
    rw [CarriedPayload]
    exact h.imp (fun h => ⟨h.1, h.2.2.1⟩) fun h => ⟨h.1, swapped_carried t hw.1 x y hs is h.2⟩
  | .cons _ _ _ cs, hw, i + 1, x, y, hs, is, h => by
    rw [SwappedPayload] at h
    rw [WfCases] at hw
    rw [CarriedPayload]
    exact swappedPayload_carried cs hw.2 i x y hs is h
end

/-! ## The hypotheses are met -/

theorem exH_bare : bare exHTy.core = .record (.cons "a" .u32 (.cons "b" .u8 (.cons "c" (.variant (.cons "x" .string none
    (.cons "y" .u32 none .nil))) .nil))) := by
  simp only [exHTy, VT.core, VFields.core, VCases.core, bare, bareFields, bareCases]

theorem exH_bare_laid : Laid (bare exHTy.core) := by
  rw [exH_bare]; simp [Laid, LaidFields, LaidCases, Cases.length]

theorem exH_bare_wf : Wf (bare exHTy.core) := by
  rw [exH_bare]
  simp only [Wf, WfFields, WfCases, Fields.labels, Cases.labels]
  refine ⟨by decide, trivial, trivial, ⟨by decide, by decide, ?_, by decide⟩, trivial⟩
  intro i l t r h
  rcases i with _ | _ | i <;> simp [Cases.get?] at h
  all_goals obtain ⟨rfl, rfl, rfl⟩ := h; exact ⟨_, .stop _⟩

/-- The numbers in the place of the handles. -/
def exHBare : Val := .map [("a", .u32 0), ("b", .u8 7), ("c", .map [("y", .u32 0)])]

theorem exH_swapped : Swapped exHTy.core exHVal exHBare exHeld [0, 0] := by
  simp only [exHTy, exHVal, exHBare, VT.core, VFields.core, VCases.core, Swapped, SwappedFields]
  refine ⟨_, _, rfl, rfl, .u32 42, .u32 0, _, _, [⟨true, 5, 42⟩], [⟨false, 6, 77⟩], [0], [0], rfl, rfl, ⟨_, _, rfl, rfl, rfl, rfl⟩,
    ⟨.u8 7, .u8 7, _, _, [], [⟨false, 6, 77⟩], [], [0], rfl, rfl, ⟨rfl, rfl, rfl⟩,
      ⟨_, _, [], [], [⟨false, 6, 77⟩], [], [0], [], rfl, rfl, ⟨"y", .u32 77, .u32 0, 1, rfl, rfl, exH_selects, ?_⟩,
        ⟨rfl, rfl, rfl, rfl⟩, rfl, rfl⟩, rfl, rfl⟩, rfl, rfl⟩
  simp only [SwappedPayload, Swapped]
  exact .inr ⟨by simp, 77, 0, rfl, rfl, rfl, rfl⟩

theorem exH_lifts : ∃ w', Lifts exHA exHSt.world exHeld [0, 0] w' :=
  ⟨_, .cons (h := ⟨true, 5, 42⟩) rfl (.cons (h := ⟨false, 6, 77⟩) rfl (.nil _))⟩

theorem exH_liftable (a : U32) : Liftable exHA.enc exHSt.mem (bare exHTy.core) [.u32 a, .u32 7, .u32 1, .u32 0, .u32 0] := by
  refine ⟨by decide, exH_bare_laid, ?_, exH_bare_wf, by decide, by decide, ?_, ?_⟩
  · rw [exH_bare]; simp [Plain, PlainFields, PlainCases]
  · rw [exH_bare]
    show [Kind.u32, .u32, .u32, .u32, .u32] = _
    decide
  · rw [exH_bare]
    simp only [FlatOrderly, FlatOrderlyFields]
    refine ⟨trivial, trivial, ?_, trivial⟩
    intro d rest e
    have : d = 1 := (List.cons.inj e).1.symm
    subst this
    simp only [Nat.reduceMod, Nat.reducePow, FlatOrderlyCase, FlatOrderly]

/-- The core values 0, 7, 1, 0, 0 stand for `exHBare`, and with the handles of instance 0 at 0 for `exHVal`. -/
example : ∃ w', exHTy.lift exHA ⟨exHSt, itAt [.u32 0, .u32 7, .u32 1, .u32 0, .u32 0] 0⟩ =
    (.ok exHVal, ⟨{ exHSt with world := w' }, itAt [.u32 0, .u32 7, .u32 1, .u32 0, .u32 0] 5⟩) := by
  obtain ⟨w', hl⟩ := exH_lifts
  refine ⟨w', lift_handles_means exHA exHTy exHSt [.u32 0, .u32 7, .u32 1, .u32 0, .u32 0] [] [] (exH_liftable 0)
    _ _ _ _ _ ?_ exH_swapped hl⟩
  rw [exH_bare]
  simp only [exHBare, FlatMeans, FlatMeansFields]
  refine ⟨_, rfl, .u32 0, _, rfl, ⟨0, by decide, rfl, False.elim⟩, .u8 7, _, rfl, ⟨7, by decide, rfl, False.elim⟩,
    _, _, rfl, ⟨1, [0, 0], by decide, ⟨"y", .u32, none, ["y"], .u32 0, rfl, .stop _, rfl, ?_⟩, False.elim⟩, rfl⟩
  simp only [FlatMeansCase, Nat.reduceMod, Nat.reducePow]
  exact ⟨.inr ⟨by simp, by rw [FlatMeans]; exact ⟨0, by decide, rfl, False.elim⟩⟩, False.elim⟩

/-- Index 3 of the table is empty. -/
example : (exHTy.lift exHA ⟨exHSt, itAt [.u32 3, .u32 7, .u32 1, .u32 0, .u32 0] 0⟩).1 = .err := by
  refine lift_handles_refuses exHA exHTy exHSt [.u32 3, .u32 7, .u32 1, .u32 0, .u32 0] [] [] (exH_liftable 3) ?_
  intro v w hs is w' hm hv hl
  rw [exH_bare] at hm
  simp only [FlatMeans, FlatMeansFields] at hm
  obtain ⟨m, rfl, a, _, rfl, ⟨b, hb, rfl, -⟩, -⟩ := hm
  have : b = 3 := (List.cons.inj hb).1.symm
  subst this
  simp only [exHTy, VT.core, VFields.core, Swapped, SwappedFields] at hv
  obtain ⟨es, ds, -, hd, x, y, es', ds', h1, h2, i1, i2, -, rfl, ⟨u, i, -, rfl, rfl, rfl⟩, -, rfl, rfl⟩ := hv
  have : i = 3 := by cases hd; rfl
  subst this
  cases hl with
  | cons h _ =>
    have : (Handles.step exHA.info exHSt.world (liftOp exHA ⟨true, 5, u⟩ 3)).1 = .err := rfl
    rw [h] at this
    cases this

example : Carried exHTy.core exHVal exHeld := swapped_carried _ exH_wf _ _ _ _ exH_swapped

/-- `exHVal` is lowered into instance 2, where the handles get the numbers 0 and 0. -/
example : HasType exHTy.core exHVal ∧ Wf exHTy.core ∧ ListsFit exHTy.core exHVal ∧
    StringsFit exHB.enc exHTy.core exHVal ∧ exHB.enc ∈ Spec.encodings ∧
    (exHTy.lower exHB exHVal exHSt).1 = .ok [.u32 0, .u32 7, .u32 1, .u32 0, .u32 0] :=
  ⟨exH_hasType, exH_wf, exH_fits.1, exH_fits.2, by decide, by decide⟩

/-- The bytes of it. -/
def exHBytes : St Nat := { exHSt with mem := exHSt.mem.write 0 [0, 0, 0, 0, 7, 0, 0, 0, 1, 0, 0, 0, 0, 0, 0, 0] }

example : ∃ w', exHTy.load exHA 0 exHBytes = (.ok exHVal, { exHBytes with world := w' }) := by
  obtain ⟨w', hl⟩ := exH_lifts
  refine ⟨w', load_handles_means exHA exHTy 0 exHBytes ?_ _ _ _ _ _ ?_ exH_swapped hl⟩
  · refine ⟨by decide, exH_bare_laid, ?_, exH_bare_wf, by decide, by decide, ?_, ?_, ?_⟩
    · rw [exH_bare]; simp [Plain, PlainFields, PlainCases]
    · rw [exH_bare]; decide
    · rw [exH_bare]; decide
    · rw [exH_bare]
      simp only [Orderly, OrderlyFields]
      refine ⟨trivial, trivial, ?_, trivial⟩
      rw [show natAt _ _ _ = 1 by decide]
      simp only [OrderlyCase, Orderly]
  · rw [exH_bare]
    simp only [exHBare, Means, MeansFields]
    refine ⟨_, rfl, .u32 0, _, rfl, congrArg Val.u32 (by decide), .u8 7, _, rfl, congrArg Val.u8 (by decide),
      _, _, rfl, ?_, rfl⟩
    refine ⟨"y", .u32, none, ["y"], .u32 0, ?_, .stop _, rfl, ?_⟩
    · rw [show natAt _ _ _ = 1 by decide]; rfl
    · rw [show natAt _ _ _ = 1 by decide]
      simp only [MeansCase, Means]
      exact .inr ⟨by simp, congrArg Val.u32 (by decide)⟩

end Verif.Abi
