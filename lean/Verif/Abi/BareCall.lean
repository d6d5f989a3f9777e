import Verif.Abi.BareProps
import Verif.Abi.CallMeansProps

/-!
# Parameter lists with handles, beside the same lists with `u32` instead
-/

namespace Verif.Abi
open Spec Handles

variable {σ : Type} {E : Env σ}

theorem swappedAll_even : (ts : List Ty) → (vs ws : List Val) → (hs : List Held) → (is : List U32) →
    SwappedAll ts vs ws hs is → hs.length = is.length
  | [], _, _, _, _, h => by obtain ⟨-, -, rfl, rfl⟩ := h; rfl
  | t :: ts, _, _, _, _, h => by
    obtain ⟨x, y, vs, ws, h1, h2, i1, i2, -, -, e1, e2, rfl, rfl⟩ := h
    rw [List.length_append, List.length_append, swapped_even t _ _ _ _ e1, swappedAll_even ts _ _ _ _ e2]

theorem flattenTypes_bare : (ts : List Ty) → flattenTypes (ts.map bare) = flattenTypes ts
  | [] => rfl
  | t :: ts => by rw [List.map_cons, flattenTypes, flattenTypes, flatten_bare, flattenTypes_bare ts]

theorem coreAll_bare : (ts : List Ty) → (ts.map bare).flatMap coreTypes = ts.flatMap coreTypes
  | [] => rfl
  | t :: ts => by rw [List.map_cons, List.flatMap_cons, List.flatMap_cons, coreTypes_bare, coreAll_bare ts]

/-- Lifting a parameter list. -/
theorem liftEach_mirror : (ts : List Ty) → (∀ t ∈ ts, Wf t) →
    Mirror E (lPut σ) (liftEach E ts) (liftEach E (ts.map bare)) (SwappedAll ts)
  | [], _ => by
    refine .pure (fun a hs is => ?_) (swappedAll_even [])
    simp only [SwappedAll, true_and]
  | t :: ts, hw => by
    rw [List.map_cons, liftEach, liftEach]
    have h1 := lift_mirror (E := E) t (hw t List.mem_cons_self)
    have h2 := liftEach_mirror ts fun x hx => hw x (List.mem_cons_of_mem _ hx)
    refine .bind (Q := fun x y c d hs is => ∃ vs ws, c = x :: vs ∧ d = y :: ws ∧ SwappedAll ts vs ws hs is) h1
      (fun x y _ _ _ => h2.map ?_ ?_) ?_ (swappedAll_even (t :: ts)) ?_ ?_
    · rintro _ _ _ _ ⟨vs, ws, -, -, h⟩
      exact swappedAll_even ts _ _ _ _ h
    · intro c ws hs is
      constructor
      · rintro ⟨vs, ws', rfl, e, h⟩
        obtain rfl := (List.cons.inj e).2
        exact ⟨vs, rfl, h⟩
      · rintro ⟨vs, rfl, h⟩
        exact ⟨vs, ws, rfl, rfl, h⟩
    · intro y s w0 r s1 e
      rw [SM.bind_def] at e
      rcases e1 : liftEach E (ts.map bare) ((lPut σ).put w0 s) with ⟨q, s2⟩
      have e2 := h2.stay _ _ _ _ e1
      rw [e1] at e
      cases q <;> cases e <;> exact e2
    · rintro x y c d a1 j1 a2 j2 h ⟨vs, ws, rfl, rfl, h'⟩
      exact ⟨x, y, vs, ws, _, _, _, _, rfl, rfl, h, h', rfl, rfl⟩
    · intro y c d hs is s s1 e h
      obtain ⟨ws, s2, e1, e2⟩ := SM.bind_eq_ok.1 e
      obtain rfl : y :: ws = d := by
        have := (Prod.mk.inj e2).1
        injection this
      obtain ⟨x, y', vs, ws', a1, a2, j1, j2, rfl, e3, h1, h2, rfl, rfl⟩ := h
      obtain ⟨rfl, rfl⟩ := List.cons.inj e3
      exact ⟨x, a1, a2, j1, j2, rfl, rfl, h1, vs, ws, rfl, rfl, h2⟩

/-- Lowering a parameter list. -/
theorem lowerEach_bare : (ts : List Ty) → (vs : List Val) → SendsAny E.enc ts vs → (∀ t ∈ ts, Laid t) → (s s' : St σ) →
    (fs : List FV) → lowerEach E ts vs s = (.ok fs, s') →
    ∃ ws hs is, Sends E.enc (ts.map bare) ws ∧ SwappedAll ts (normAll ts vs) (normAll (ts.map bare) ws) hs is ∧
      Shadows E s s' fs (lowerEach E (ts.map bare) ws) hs is
  | [], _, .nil, _, s, s', fs, h => by
    cases h
    exact ⟨[], [], [], .nil, ⟨rfl, rfl, rfl, rfl⟩, .nil _, fun _ => rfl⟩
  | t :: ts, v :: vs, .cons hw hs h, hl, s, s', fs, e => by
    rw [lowerEach] at e
    obtain ⟨a, s1, e1, e⟩ := SM.bind_eq_ok.1 e
    obtain ⟨b, s2, e2, e⟩ := SM.bind_eq_ok.1 e
    cases e
    obtain ⟨w, h1, i1, f1, r1⟩ := lower_bare t hw (hl t List.mem_cons_self) v hs.typed hs.lists hs.strings s s1 a e1
    obtain ⟨ws, h2, i2, f2, g2, r2⟩ := lowerEach_bare ts vs h (fun x hx => hl x (List.mem_cons_of_mem _ hx)) s1 s' b e2
    refine ⟨w :: ws, h1 ++ h2, i1 ++ i2, .cons (wf_of_bare t hw) (plain_bare t) ⟨f1.typed, f1.lists, f1.strings⟩ f2,
      ⟨_, _, _, _, h1, h2, i1, i2, rfl, rfl, f1.swap, g2, rfl, rfl⟩, lowers_append r1.1 r2.1, fun w0 => ?_⟩
    rw [List.map_cons, lowerEach, SM.bind_ok (r1.2 w0), SM.bind_ok (r2.2 w0)]
    rfl

/-- Lowering in one memory of a system. -/
theorem lowerValues_bare {used : σ → Nat → Prop} (G : GoodAlloc E used) (henc : E.enc ∈ Spec.encodings)
    (o maxFlat : Nat) (ts : List Ty) (vs : List Val) (hv : SendsAny E.enc ts vs) (ks : List Kind)
    (hk : flattenTypes ts = .ok ks) (hl : ks.length ≤ maxFlat) (out : Option Iter) (s s' : Sys σ) (hg : Good (s.mems o))
    (r : List Core) (h : lowerValues E o maxFlat vs ts out s = (.ok r, s')) :
    ∃ (fs : List FV) (ws : List Val) (hs : List Held) (is : List U32), r = fs.map .fv ∧
      fs.map FV.kind = ts.flatMap coreTypes ∧ SwappedAll ts (normAll ts vs) ws hs is ∧ Lowers E s.world hs is s'.world ∧
      FlatMeansAll Neatly E.enc (s'.mems o) (ts.map bare) (fs.map FV.bits) ws ∧
      ∀ o', o' ≠ o → s'.mems o' = s.mems o' := by
  unfold lowerValues at h
  rw [hk, SM.bind_ok (SM.lift_def _ _), SM.ite_app, if_pos hl] at h
  obtain ⟨fs, s1, e1, e2⟩ := SM.bind_eq_ok.1 h
  rcases e3 : lowerEach E ts vs (s.view o) with ⟨q, t⟩
  unfold inMem at e1
  rw [e3] at e1
  obtain ⟨rfl, rfl⟩ := Prod.mk.inj e1
  cases e2
  obtain ⟨ws, hs, is, f, g, r⟩ := lowerEach_bare ts vs hv (laid_of_flattenTypes hk) _ _ _ e3
  have h0 : lowerEach E (ts.map bare) ws (s.view o) = (.ok fs, { t with world := s.world }) := r.2 s.world
  refine ⟨fs, normAll (ts.map bare) ws, hs, is, rfl, ?_⟩
  rcases lowerEach_means G (R := fun _ => True) (fun _ _ _ _ => .inr trivial) henc _ _ f
    ⟨ks, by rw [flattenTypes_bare]; exact hk⟩ (s.view o) hg with ⟨fs', t', e, hkk, w⟩ | ⟨n, -⟩
  · rw [h0] at e
    injection e with e4 e5
    injection e4 with e4
    subst e4 e5
    refine ⟨by rw [hkk, coreAll_bare], g, r.1, ?_, fun o' ho => s.put_other t ho⟩
    rw [Sys.put_mems]
    obtain ⟨F, -, hF⟩ := w.foot
    exact hF { t with world := s.world } (Nat.le_refl _) w.step.good (fun _ _ => rfl)
  · rw [h0] at n; exact absurd rfl (n fs)

/-- The iterator of a parameter list, all of it taken. -/
def taken (fs : List FV) : Iter := ⟨fs, fs.length, []⟩

theorem LiftableAll.wf {enc : String} {m : Mem} {ts : List Ty} {fs : List FV}
    (h : LiftableAll enc m (ts.map bare) fs) : ∀ t ∈ ts, Wf t := fun t ht =>
  wf_bare t (h.types _ (List.mem_map.2 ⟨t, ht, rfl⟩)).2

/-- Lifting the parameter list with `u32` instead of the handles. -/
theorem LiftableAll.bare {o : Nat} {ts : List Ty} {s : Sys σ} {fs : List FV}
    (h : LiftableAll E.enc (s.mems o) (ts.map Spec.bare) fs) {ks : List Kind} (hk : flattenTypes ts = .ok ks) :
    (∃ ws, liftEach E (ts.map Spec.bare) ⟨s.view o, newIterator fs⟩ = (.ok ws, ⟨s.view o, taken fs⟩) ∧
      FlatMeansAll Leniently E.enc (s.mems o) (ts.map Spec.bare) (fs.map FV.bits) ws ∧
      ∀ w, FlatMeansAll Exactly E.enc (s.mems o) (ts.map Spec.bare) (fs.map FV.bits) w → w = ws) ∨
    ((∃ it, liftEach E (ts.map Spec.bare) ⟨s.view o, newIterator fs⟩ = (.err, ⟨s.view o, it⟩)) ∧
      ∀ R w, ¬ R.neat → ¬ FlatMeansAll R E.enc (s.mems o) (ts.map Spec.bare) (fs.map FV.bits) w) := by
  have hk' := hk
  rw [← flattenTypes_bare] at hk'
  exact liftEach_decided E h.known (s.view o) h.small h.cap (ts.map Spec.bare)
    (fun t ht => ⟨laid_of_flattenTypes hk' t ht, (h.types t ht).1, (h.types t ht).2⟩) fs h.kinds h.orderly (newIterator fs) _
    (feeds_new fs)

theorem liftValues_flat {o maxFlat : Nat} {ts : List Ty} {s : Sys σ} {fs : List FV} {ks : List Kind}
    (hk : flattenTypes ts = .ok ks) (hl : ks.length ≤ maxFlat) (ord : List (String × Val) → List (String × Val)) :
    withIter o (newIterator fs) (liftValues E ord maxFlat ts) s = withIter o (newIterator fs) (liftEach E ts) s := by
  have : liftValues E ord maxFlat ts = liftEach E ts := by
    funext x
    unfold liftValues
    rw [hk, SM.bind_ok (SM.lift_def _ _), SM.ite_app, if_pos hl]
  rw [this]

theorem Sys.put_world (s : Sys σ) (o : Nat) (w : World) : s.put o { s.view o with world := w } = { s with world := w } := by
  unfold Sys.put Sys.view
  simp only [upd_self]

/-- Lifting in one memory of a system: what the core values stand for. -/
theorem liftValues_bare {o maxFlat : Nat} {ts : List Ty} {s : Sys σ} {fs : List FV}
    (h : LiftableAll E.enc (s.mems o) (ts.map bare) fs) {ks : List Kind} (hk : flattenTypes ts = .ok ks)
    (hl : ks.length ≤ maxFlat) (ord : List (String × Val) → List (String × Val)) {vs ws : List Val} {hs : List Held}
    {is : List U32} {w : World} (hm : FlatMeansAll Exactly E.enc (s.mems o) (ts.map bare) (fs.map FV.bits) ws)
    (hv : SwappedAll ts vs ws hs is) (hL : Lifts E s.world hs is w) :
    withIter o (newIterator fs) (liftValues E ord maxFlat ts) s = (.ok (vs, taken fs), { s with world := w }) := by
  rw [liftValues_flat hk hl]
  have e : liftEach E ts ⟨s.view o, newIterator fs⟩ = (.ok vs, ⟨{ s.view o with world := w }, taken fs⟩) := by
    refine ((liftEach_mirror (E := E) ts h.wf).ok ⟨s.view o, newIterator fs⟩ s.world s.world vs _).2
      ⟨ws, ⟨s.view o, taken fs⟩, hs, is, w, ?_, hv, hL, rfl⟩
    show liftEach E (ts.map bare) ⟨s.view o, newIterator fs⟩ = _
    rcases h.bare hk with ⟨u, e, -, hu⟩ | ⟨-, hn⟩
    · rw [hu ws hm]; exact e
    · exact absurd hm (hn _ _ id)
  rw [withIter_ok e, Sys.put_world]

/-- Only that is lifted. -/
theorem liftValues_bare_only {o maxFlat : Nat} {ts : List Ty} {s s' : Sys σ} {fs : List FV}
    (h : LiftableAll E.enc (s.mems o) (ts.map bare) fs) {ks : List Kind} (hk : flattenTypes ts = .ok ks)
    (hl : ks.length ≤ maxFlat) (ord : List (String × Val) → List (String × Val)) {vs : List Val} {it : Iter}
    (e : withIter o (newIterator fs) (liftValues E ord maxFlat ts) s = (.ok (vs, it), s')) :
    it = taken fs ∧ s' = { s with world := s'.world } ∧ ∃ ws hs is,
      FlatMeansAll Leniently E.enc (s.mems o) (ts.map bare) (fs.map FV.bits) ws ∧ SwappedAll ts vs ws hs is ∧
      Lifts E s.world hs is s'.world := by
  rw [liftValues_flat hk hl] at e
  rcases e1 : liftEach E ts ⟨s.view o, newIterator fs⟩ with ⟨q, t⟩
  unfold withIter at e
  rw [e1] at e
  cases q with
  | ok a =>
    cases e
    obtain ⟨ws, s1, hs, is, w, e2, hw, hL, rfl⟩ :=
      ((liftEach_mirror (E := E) ts h.wf).ok ⟨s.view o, newIterator fs⟩ s.world s.world vs _).1 e1
    have e3 : liftEach E (ts.map bare) ⟨s.view o, newIterator fs⟩ = (.ok ws, s1) := e2
    rcases h.bare hk with ⟨u, e, hu, -⟩ | ⟨⟨it, e⟩, -⟩
    · rw [e] at e3
      cases e3
      exact ⟨rfl, Sys.put_world s o w, ws, hs, is, hu, hw, hL⟩
    · rw [e] at e3; cases e3
  | _ => cases e

/-- Otherwise there is an error. -/
theorem liftValues_bare_calm {o maxFlat : Nat} {ts : List Ty} {s : Sys σ} {fs : List FV}
    (h : LiftableAll E.enc (s.mems o) (ts.map bare) fs) {ks : List Kind} (hk : flattenTypes ts = .ok ks)
    (hl : ks.length ≤ maxFlat) (ord : List (String × Val) → List (String × Val)) :
    (withIter o (newIterator fs) (liftValues E ord maxFlat ts) s).1.Returns := by
  rw [liftValues_flat hk hl]
  have hc := (liftEach_mirror (E := E) ts h.wf).calm ⟨s.view o, newIterator fs⟩ s.world s.world (by
    show (liftEach E (ts.map bare) ⟨s.view o, newIterator fs⟩).1.Returns
    rcases h.bare hk with ⟨u, e, -, -⟩ | ⟨⟨it, e⟩, -⟩
    · rw [e]; exact .inl ⟨_, rfl⟩
    · rw [e]; exact .inr rfl)
  have hc' : (liftEach E ts ⟨s.view o, newIterator fs⟩).1.Returns := hc
  unfold withIter
  rcases e : liftEach E ts ⟨s.view o, newIterator fs⟩ with ⟨q, t⟩
  rw [e] at hc'
  cases q with
  | ok a => exact .inl ⟨_, rfl⟩
  | err => exact .inr rfl
  | panic | diverge => rcases hc' with ⟨_, hc'⟩ | hc' <;> cases hc'

end Verif.Abi
