import Verif.Abi.CallMeansSpec
import Verif.Abi.FlatMeansProps
import Verif.Abi.CanonDeliver

/-!
# Parameter lists against what the core values stand for
-/

namespace Verif.Abi

open Encoding Spec Handles

variable {σ : Type}

theorem liftEach_decided (E : Env σ) (henc : E.enc ∈ Spec.encodings) (s : St σ) (hs : s.mem.len < 2 ^ 32)
    (hc : s.mem.len ≤ s.mem.cap) : (ts : List Ty) → (∀ t ∈ ts, Laid t ∧ Plain t ∧ Wf t) → (xs : List FV) →
    xs.map FV.kind = ts.flatMap coreTypes → FlatOrderlyAll E.enc s.mem ts (xs.map FV.bits) → (it it' : Iter) →
    Feeds it xs it' →
    Lifted (liftEach E ts ⟨s, it⟩) s it' fun R vs => FlatMeansAll R E.enc s.mem ts (xs.map FV.bits) vs
  | [], _, xs, hk, _, it, it', hf => by
    have : xs = [] := by simpa using hk
    subst this
    cases hf
    refine .value [] (by rw [liftEach]; rfl) fun R v _ => ?_
    rw [FlatMeansAll]
  | t :: ts, ht, xs, hk, ho, it, it', hf => by
    obtain ⟨hl, hp, hw⟩ := ht t List.mem_cons_self
    rw [List.flatMap_cons] at hk
    rw [FlatOrderlyAll, ← List.map_take, ← List.map_drop] at ho
    simp only [FlatMeansAll, ← List.map_take, ← List.map_drop]
    rw [← List.take_append_drop (coreTypes t).length xs] at hf
    obtain ⟨mid, f1, f2⟩ := hf.split
    have hk1 : (xs.take (coreTypes t).length).map FV.kind = coreTypes t := by
      rw [List.map_take, hk, List.take_append_of_le_length (Nat.le_refl _), List.take_length]
    have hk2 : (xs.drop (coreTypes t).length).map FV.kind = ts.flatMap coreTypes := by
      rw [List.map_drop, hk, List.drop_append_of_le_length (Nat.le_refl _), List.drop_length, List.nil_append]
    rw [liftEach]
    rcases lift_decided E henc s hs hc t hl hp hw _ hk1 ho.1 it mid f1 with ⟨v, e, hlv, huv⟩ | ⟨⟨it2, e⟩, hn⟩
    · rw [SM.bind_ok e]
      rcases liftEach_decided E henc s hs hc ts (fun x hx => ht x (List.mem_cons_of_mem _ hx)) _ hk2 ho.2 mid it' f2 with
        ⟨w, e2, hl2, hu2⟩ | ⟨⟨it2, e2⟩, hn2⟩
      · rw [SM.bind_ok e2]
        refine .inl ⟨v :: w, rfl, ⟨v, w, rfl, hlv, hl2⟩, ?_⟩
        rintro _ ⟨x, ys, rfl, hx, hys⟩
        rw [huv x hx, hu2 ys hys]
      · rw [SM.bind_err e2]
        refine .inr ⟨⟨it2, rfl⟩, ?_⟩
        rintro R _ hR ⟨x, ys, rfl, hx, hys⟩
        exact hn2 R _ hR hys
    · rw [SM.bind_err e]
      refine .inr ⟨⟨it2, rfl⟩, ?_⟩
      rintro R _ hR ⟨x, ys, rfl, hx, hys⟩
      exact hn R x hR hx

theorem lowerEach_means {E : Env σ} {used : σ → Nat → Prop} {R : σ → Prop} (G : GoodAlloc E used)
    (hR : ∀ a n m h, (∃ p, (E.realloc a n (m, h)).1 = .ok p) ∨ R (E.realloc a n (m, h)).2.2)
    (henc : E.enc ∈ Spec.encodings) : (ts : List Ty) → (vs : List Val) → Sends E.enc ts vs →
    (∃ ks, flattenTypes ts = .ok ks) → (s : St σ) → Good s.mem →
    Does R (lowerEach E ts vs) s fun xs s' => xs.map FV.kind = ts.flatMap coreTypes ∧ Wrote used (fun _ => False)
      (fun s'' => FlatMeansAll Neatly E.enc s''.mem ts (xs.map FV.bits) (normAll ts vs)) s s'
  | [], _, .nil, _, s, hg => by
    unfold lowerEach
    exact .pure ⟨rfl, .nothing hg fun s'' => by rw [FlatMeansAll, normAll]⟩
  | t :: ts, v :: vs, .cons hw hp hs h, ⟨ks, hk⟩, s, hg => by
    obtain ⟨a, b, h1, h2, -⟩ := flattenTypes_cons hk
    have hl := laid_of_flatten t a h1
    unfold lowerEach
    apply Does.bind (lower_means G hR henc t v hs.typed hw hl hp hs.lists hs.strings s hg).eqn
    intro xs s1 ⟨e1, w1⟩
    have hlen := lower_length E t hl hw _ _ _ _ e1
    have hkx := lower_kinds E t v s s1 xs e1
    rw [flatten_core_wf t hl hw] at hkx
    injection hkx with hkx
    apply Does.bind (lowerEach_means G hR henc ts vs h ⟨b, h2⟩ s1 w1.step.good)
    intro ys s2 ⟨hky, w2⟩
    apply Does.pure
    refine ⟨by rw [List.map_append, List.flatMap_cons, hky, hkx], ?_⟩
    refine (w1.seq w2 (fun _ h => h.elim) (fun _ h => h.elim) (fun _ h => h.elim)).imp (fun _ h => h.elim id id) ?_
    rintro s'' _ _ ⟨p1, p2⟩
    rw [FlatMeansAll, ← hlen, List.map_append, List.take_left, List.drop_left, normAll]
    exact ⟨_, _, rfl, p1, p2⟩

/-- Lowering in one memory of a system. -/
theorem lowerValues_means {E : Env σ} {used : σ → Nat → Prop} (G : GoodAlloc E used) (henc : E.enc ∈ Spec.encodings)
    (o maxFlat : Nat) (ts : List Ty) (vs : List Val) (hv : Sends E.enc ts vs) (ks : List Kind)
    (hk : flattenTypes ts = .ok ks) (hl : ks.length ≤ maxFlat) (out : Option Iter) (s s' : Sys σ) (hg : Good (s.mems o))
    (r : List Core) (h : lowerValues E o maxFlat vs ts out s = (.ok r, s')) :
    ∃ fs : List FV, r = fs.map .fv ∧ fs.map FV.kind = ts.flatMap coreTypes ∧
      FlatMeansAll Neatly E.enc (s'.mems o) ts (fs.map FV.bits) (normAll ts vs) ∧
      ∀ o', o' ≠ o → s'.mems o' = s.mems o' := by
  unfold lowerValues at h
  rw [hk, SM.bind_ok (SM.lift_def _ _), SM.ite_app, if_pos hl] at h
  rcases lowerEach_means G (R := fun _ => True) (fun _ _ _ _ => .inr trivial) henc ts vs hv ⟨ks, hk⟩ (s.view o) hg with
    ⟨fs, t, e, hkk, w⟩ | ⟨n, -⟩
  · rw [SM.bind_ok (inMem_ok e)] at h
    obtain rfl := (Prod.mk.inj h).2
    have hr := (Prod.mk.inj h).1
    injection hr with hr
    refine ⟨fs, hr.symm, hkk, ?_, fun o' ho => s.put_other t ho⟩
    rw [Sys.put_mems]
    obtain ⟨F, -, hF⟩ := w.foot
    exact hF t (Nat.le_refl _) w.step.good (fun _ _ => rfl)
  · obtain ⟨fs, s1, e1, -⟩ := SM.bind_eq_ok.1 h
    have hx := (Prod.mk.inj e1).1
    exact absurd hx (n fs)

/-- Lifting in one memory of a system. -/
theorem liftValues_decided {E : Env σ} (henc : E.enc ∈ Spec.encodings) {o maxFlat : Nat} {ts : List Ty} {s : Sys σ}
    (hs : (s.mems o).len < 2 ^ 32) (hc : (s.mems o).len ≤ (s.mems o).cap) (ht : ∀ t ∈ ts, Laid t ∧ Plain t ∧ Wf t)
    {fs : List FV} (hkf : fs.map FV.kind = ts.flatMap coreTypes) (ho : FlatOrderlyAll E.enc (s.mems o) ts (fs.map FV.bits))
    {ks : List Kind} (hk : flattenTypes ts = .ok ks) (hl : ks.length ≤ maxFlat)
    (ord : List (String × Val) → List (String × Val)) :
    (∃ vs, withIter o (newIterator fs) (liftValues E ord maxFlat ts) s = (.ok (vs, ⟨fs, fs.length, []⟩), s) ∧
      FlatMeansAll Leniently E.enc (s.mems o) ts (fs.map FV.bits) vs ∧
      ∀ w, FlatMeansAll Exactly E.enc (s.mems o) ts (fs.map FV.bits) w → w = vs) ∨
    (withIter o (newIterator fs) (liftValues E ord maxFlat ts) s = (.err, s) ∧
      ∀ R w, ¬ R.neat → ¬ FlatMeansAll R E.enc (s.mems o) ts (fs.map FV.bits) w) := by
  have hput : s.put o (s.view o) = s := by
    unfold Sys.put Sys.view
    simp only [upd_self]
  have e0 : liftValues E ord maxFlat ts ⟨s.view o, newIterator fs⟩ = liftEach E ts ⟨s.view o, newIterator fs⟩ := by
    unfold liftValues
    rw [hk, SM.bind_ok (SM.lift_def _ _), SM.ite_app, if_pos hl]
  rcases liftEach_decided E henc (s.view o) hs hc ts ht fs hkf ho (newIterator fs) _ (feeds_new fs) with
    ⟨v, e, h1, h2⟩ | ⟨⟨it, e⟩, hn⟩
  · refine .inl ⟨v, ?_, h1, h2⟩
    unfold withIter
    rw [e0, e]
    simp only [hput]
  · refine .inr ⟨?_, hn⟩
    unfold withIter
    rw [e0, e]
    simp only [hput]

end Verif.Abi
