import Verif.Abi.BareMirror

/-!
# `Load` and `LiftFlat` at a type with handles, beside the type with `u32` instead
-/

namespace Verif.Abi
open Spec

variable {σ : Type} {E : Env σ} {S : Type} {P : Put S}

theorem each_even {R : Val → Val → List Held → List U32 → Prop} (h : ∀ a b hs is, R a b hs is → hs.length = is.length) :
    (xs ys : List Val) → (hs : List Held) → (is : List U32) → Each R xs ys hs is → hs.length = is.length
  | [], [], _, _, e => by rw [Each] at e; rw [e.1, e.2]; rfl
  | x :: xs, y :: ys, _, _, e => by
    rw [Each] at e
    obtain ⟨h1, h2, i1, i2, e1, e2, rfl, rfl⟩ := e
    rw [List.length_append, List.length_append, h _ _ _ _ e1, each_even h _ _ _ _ e2]
  | [], _ :: _, _, _, e | _ :: _, [], _, _, e => by simp [Each] at e

mutual
theorem swapped_even : (t : Ty) → (v w : Val) → (hs : List Held) → (is : List U32) → Swapped t v w hs is →
    hs.length = is.length
  | .bool, _, _, _, _, h | .u8, _, _, _, _, h | .u16, _, _, _, _, h | .u32, _, _, _, _, h | .u64, _, _, _, _, h
  | .s8, _, _, _, _, h | .s16, _, _, _, _, h | .s32, _, _, _, _, h | .s64, _, _, _, _, h | .f32, _, _, _, _, h
  | .f64, _, _, _, _, h | .char, _, _, _, _, h | .string, _, _, _, _, h | .flags _, _, _, _, _, h | .nil, _, _, _, _, h
  | .other, _, _, _, _, h => by
    simp only [Swapped] at h
    rw [h.2.1, h.2.2]; rfl
  | .own rt, _, _, _, _, h | .borrow rt, _, _, _, _, h => by
    simp only [Swapped] at h
    obtain ⟨x, i, -, -, rfl, rfl⟩ := h
    rfl
  | .list t, _, _, _, _, h => by
    rw [Swapped] at h
    obtain ⟨xs, ys, -, -, h⟩ := h
    exact each_even (fun a b hs is => swapped_even t a b hs is) _ _ _ _ h
  | .record fs, _, _, _, _, h => by
    rw [Swapped] at h
    obtain ⟨es, ds, -, -, h⟩ := h
    exact swappedFields_even fs _ _ _ _ h
  | .variant cs, _, _, _, _, h => by
    rw [Swapped] at h
    obtain ⟨key, x, y, i, -, -, -, h⟩ := h
    exact swappedPayload_even cs _ _ _ _ _ h
theorem swappedFields_even : (fs : Fields) → (v w : List (String × Val)) → (hs : List Held) → (is : List U32) →
    SwappedFields fs v w hs is → hs.length = is.length
  | .nil, _, _, _, _, h => by rw [SwappedFields] at h; rw [h.2.2.1, h.2.2.2]; rfl
  | .cons l t fs, _, _, _, _, h => by
    rw [SwappedFields] at h
    obtain ⟨x, y, es, ds, h1, h2, i1, i2, -, -, e1, e2, rfl, rfl⟩ := h
    rw [List.length_append, List.length_append, swapped_even t _ _ _ _ e1, swappedFields_even fs _ _ _ _ e2]
theorem swappedPayload_even : (cs : Cases) → (i : Nat) → (v w : Val) → (hs : List Held) → (is : List U32) →
    SwappedPayload cs i v w hs is → hs.length = is.length
  | .nil, _, _, _, _, _, h => by simp [SwappedPayload] at h
  | .cons l t r cs, 0, _, _, _, _, h => by
    rw [SwappedPayload] at h
    rcases h with ⟨-, -, rfl, rfl⟩ | ⟨-, h⟩
    · rfl
    · exact swapped_even t _ _ _ _ h
  | .cons l t r cs, i + 1, _, _, _, _, h => by
    rw [SwappedPayload] at h
    exact swappedPayload_even cs i _ _ _ _ h
end

/-! ## Handles -/

/-- A handle is looked up in the table. -/
theorem held_mirror {own : Bool} {rt : RT} {i : U32} {f : SM Handles.World U32}
    (hf : ∀ w r, f w = Handles.step E.info w (liftOp E ⟨own, rt, r⟩ i)) (hr : ∀ w, (f w).1.Returns)
    {g : SM S U32} (hg : ∀ w s, g (P.put w s) = ((f w).1, P.put (f w).2 s)) {R : Val → Val → List Held → List U32 → Prop}
    (hR : ∀ a b hs is, R a b hs is ↔ ∃ x i, a = .u32 x ∧ b = .u32 i ∧ hs = [⟨own, rt, x⟩] ∧ is = [i]) :
    Mirror E P (g >>= fun r => pure (.u32 r)) (pure (.u32 i)) R where
  even a b hs is h := by obtain ⟨_, _, -, -, rfl, rfl⟩ := (hR _ _ _ _).1 h; rfl
  stay s w0 r s1 e := by cases e; exact P.again _ _ _
  ok s w w0 a s' := by
    rw [SM.bind_eq_ok, hg]
    constructor
    · rintro ⟨r, s1, e1, e2⟩
      cases e2
      injection e1 with e1 e2
      refine ⟨.u32 i, _, [⟨own, rt, r⟩], [i], (f w).2, rfl, (hR _ _ _ _).2 ⟨r, i, rfl, rfl, rfl, rfl⟩, ?_, ?_⟩
      · refine .cons ?_ (.nil _)
        rw [← hf, ← e1]
      · rw [P.again, e2]
    · rintro ⟨b, s1, hs, is, w', e, h, l, rfl⟩
      cases e
      obtain ⟨x, j, rfl, e, rfl, rfl⟩ := (hR _ _ _ _).1 h
      cases e
      cases l with
      | cons l1 l2 =>
        cases l2
        rw [← hf] at l1
        rw [l1]
        exact ⟨x, _, rfl, by rw [P.again]; rfl⟩
  calm s w w0 _ := by
    rw [SM.bind_def, hg]
    have := hr w
    rcases e : f w with ⟨_ | _ | _ | _, w'⟩ <;> rw [e] at this <;> simp_all

theorem alone_even {α : Type} (a b : α) (hs : List Held) (is : List U32) (h : Alone a b hs is) : hs.length = is.length := by
  rw [h.2.1, h.2.2]; rfl

theorem loadInt_word (p : U32) : (loadInt p .u32 : SM (St σ) Val) = (loadUInt32 p >>= fun i => pure (.u32 i)) := by
  funext s
  unfold loadUInt32
  rw [SM.bind_def, SM.bind_def]
  have : ∀ r s', loadInt p .u32 s = (r, s') → r = .err ∨ r = .panic ∨ r = .diverge ∨ ∃ x, r = .ok (.u32 x) := by
    intro r s' e
    unfold loadInt at e
    rw [show Abi.size .u32 = .ok 4 from rfl, SM.bind_ok (SM.lift_def _ _), SM.bind_def] at e
    rcases e1 : loadBytes p 4 s with ⟨q, s1⟩
    rw [e1] at e
    cases q with
    | ok x => cases e; exact .inr (.inr (.inr ⟨_, rfl⟩))
    | _ => cases e; simp
  rcases e : loadInt p .u32 s with ⟨r, s'⟩
  rcases this r s' e with rfl | rfl | rfl | ⟨x, rfl⟩ <;> rfl

/-! ## Lists -/

theorem loadElems_mirror {f f0 : U32 → SM (St σ) Val} {R : Val → Val → List Held → List U32 → Prop}
    (hf : ∀ p, Mirror E (stPut σ) (f p) (f0 p) R) (ptr sz : U32) : (n i : Nat) →
    Mirror E (stPut σ) (loadElems f ptr sz n i) (loadElems f0 ptr sz n i) (Each R)
  | 0, i => by
    rw [loadElems, loadElems]
    refine .pure ?_ (each_even (hf 0).even)
    intro a hs is
    cases a <;> simp [Each]
  | n + 1, i => by
    rw [loadElems, loadElems]
    have ih := loadElems_mirror hf ptr sz n (i + 1)
    have hk (x y : Val) : Mirror E (stPut σ) (loadElems f ptr sz n (i + 1) >>= fun vs => pure (x :: vs))
        (loadElems f0 ptr sz n (i + 1) >>= fun vs => pure (y :: vs))
        (fun c d hs is => ∃ xs ys, c = x :: xs ∧ d = y :: ys ∧ Each R xs ys hs is) := by
      refine ih.map ?_ ?_
      · rintro _ _ _ _ ⟨xs, ys, -, -, h⟩
        exact ih.even _ _ _ _ h
      · intro c ys hs is
        constructor
        · rintro ⟨xs, ys', rfl, e, h⟩
          cases e
          exact ⟨xs, rfl, h⟩
        · rintro ⟨xs, rfl, h⟩
          exact ⟨xs, ys, rfl, rfl, h⟩
    refine .bind (hf _) (fun a b _ _ _ => hk a b) (fun b => (hk b b).stay) (each_even (hf 0).even) ?_ ?_
    · rintro a b _ _ h1 i1 h2 i2 r ⟨xs, ys, rfl, rfl, h⟩
      rw [Each]
      exact ⟨h1, h2, i1, i2, r, h, rfl, rfl⟩
    · intro b c d hs is s s1 e h
      obtain ⟨ys, s2, -, e2⟩ := SM.bind_eq_ok.1 e
      cases e2
      cases c with
      | nil => simp [Each] at h
      | cons x xs =>
        rw [Each] at h
        obtain ⟨h1, h2, i1, i2, r, h, rfl, rfl⟩ := h
        exact ⟨x, h1, h2, i1, i2, rfl, rfl, r, xs, ys, rfl, rfl, h⟩

theorem loadListFromRange_mirror {t : Ty} {f f0 : U32 → SM (St σ) Val} {R : Val → Val → List Held → List U32 → Prop}
    (hf : ∀ p, Mirror E (stPut σ) (f p) (f0 p) R) (ptr n : U32) :
    Mirror E (stPut σ) (loadListFromRange f t ptr n) (loadListFromRange f0 (bare t) ptr n) (Each R) := by
  have he := each_even (hf 0).even
  unfold loadListFromRange
  rw [alignment_bare, size_bare]
  refine .pre (.lift _) he fun a _ => .ite (fun _ => .fail he) fun _ => .pre (.lift _) he fun z _ => ?_
  exact .pre (m := memOf) (k := fun m => if (ptr + n * z).toNat > m.len32.toNat then SM.fail else loadElems f ptr z n.toNat 0)
    (k0 := fun m => if (ptr + n * z).toNat > m.len32.toNat then SM.fail else loadElems f0 ptr z n.toNat 0) memOf_blind he
    fun _ _ => .ite (fun _ => .fail he) fun _ => loadElems_mirror hf _ _ _ _

theorem list_mirror {t : Ty} {m m0 : SM S (List Val)} (h : Mirror E P m m0 (Each fun a b h i => Swapped t a b h i)) :
    Mirror E P (m >>= fun vs => pure (.list vs)) (m0 >>= fun vs => pure (.list vs)) (Swapped (.list t)) := by
  refine h.map (fun _ _ _ _ => swapped_even (.list t) _ _ _ _) ?_
  intro c ys hs is
  rw [Swapped]
  constructor
  · rintro ⟨xs, ys', rfl, e, h⟩
    cases e
    exact ⟨xs, rfl, h⟩
  · rintro ⟨xs, rfl, h⟩
    exact ⟨xs, ys, rfl, rfl, h⟩

theorem plain_mirror {t : Ty} {m : SM S Val} (h : Blind P m)
    (ht : ∀ v w hs is, Swapped t v w hs is ↔ v = w ∧ hs = [] ∧ is = []) : Mirror E P m m (Swapped t) :=
  (Mirror.same h).congr fun a b hs is => (ht a b hs is).symm

/-! ## Records -/

/-- The entries so far, and one for each of the fields. -/
def RecordSwap (fs : Fields) (acc acc0 : List (String × Val)) (v w : Val) (hs : List Held) (is : List U32) : Prop :=
  ∃ es ds, v = .map (acc ++ es) ∧ w = .map (acc0 ++ ds) ∧ SwappedFields fs es ds hs is

theorem recordSwap_even {fs : Fields} {acc acc0 : List (String × Val)} (v w : Val) (hs : List Held) (is : List U32)
    (h : RecordSwap fs acc acc0 v w hs is) : hs.length = is.length := by
  obtain ⟨es, ds, -, -, h⟩ := h
  exact swappedFields_even fs _ _ _ _ h

theorem recordSwap_nil {acc acc0 : List (String × Val)} (a : Val) (hs : List Held) (is : List U32) :
    RecordSwap .nil acc acc0 a (.map acc0) hs is ↔ a = .map acc ∧ hs = [] ∧ is = [] := by
  unfold RecordSwap
  simp only [SwappedFields]
  constructor
  · rintro ⟨es, ds, rfl, -, rfl, -, rfl, rfl⟩
    exact ⟨by rw [List.append_nil], rfl, rfl⟩
  · rintro ⟨rfl, rfl, rfl⟩
    exact ⟨[], [], by rw [List.append_nil], by rw [List.append_nil], rfl, rfl, rfl, rfl⟩

/-- One field more. -/
theorem record_step {l : String} {t : Ty} {fs : Fields} {acc acc0 : List (String × Val)} {m m0 : SM S Val}
    {k k0 : Val → SM S Val} (h : Mirror E P m m0 (Swapped t))
    (hk : ∀ x y, Mirror E P (k x) (k0 y) (RecordSwap fs (acc ++ [(l, x)]) (acc0 ++ [(l, y)])))
    (ho : ∀ y d s s1, k0 y s = (.ok d, s1) → ∃ ds, d = .map (acc0 ++ (l, y) :: ds)) :
    Mirror E P (m >>= k) (m0 >>= k0) (RecordSwap (.cons l t fs) acc acc0) := by
  refine .bind h (fun a b _ _ _ => hk a b) (fun b => (hk b b).stay) recordSwap_even ?_ ?_
  · rintro x y c d h1 i1 h2 i2 r ⟨es, ds, rfl, rfl, q⟩
    refine ⟨(l, x) :: es, (l, y) :: ds, by simp, by simp, ?_⟩
    rw [SwappedFields]
    exact ⟨x, y, es, ds, h1, h2, i1, i2, rfl, rfl, r, q, rfl, rfl⟩
  · rintro y c d hs is s s1 e ⟨es, ds, rfl, rfl, q⟩
    obtain ⟨ds', e'⟩ := ho y _ s s1 e
    rw [SwappedFields] at q
    obtain ⟨x, y', es', ds'', h1, h2, i1, i2, rfl, rfl, r, q, rfl, rfl⟩ := q
    injection e' with e'
    have := List.append_cancel_left e'
    injection this with this1 this2
    injection this1 with _ this1
    subst this1 this2
    exact ⟨x, h1, h2, i1, i2, rfl, rfl, r, es', ds'', by simp, by simp, q⟩

/-! ## Variants -/

/-- The payload of case `i`, named by the label. -/
def CaseSwap (cs : Cases) (i : Nat) (name : String) (v w : Val) (hs : List Held) (is : List U32) : Prop :=
  ∃ x y, v = .map [(name, x)] ∧ w = .map [(name, y)] ∧ SwappedPayload cs i x y hs is

/-- Which case it is, and its label. -/
def CaseNamed (all cs : Cases) (i : Nat) (name : String) : Prop :=
  ∃ l t r, cs.get? i = some (l, t, r) ∧ caseLabelWithRefinements all l r = .ok name

/-- The payload of the case, named by the label of the case. -/
def NamedSwap (all cs : Cases) (i : Nat) (v w : Val) (hs : List Held) (is : List U32) : Prop :=
  ∃ name, CaseNamed all cs i name ∧ CaseSwap cs i name v w hs is

theorem namedSwap_even {all cs : Cases} {i : Nat} (v w : Val) (hs : List Held) (is : List U32)
    (h : NamedSwap all cs i v w hs is) : hs.length = is.length := by
  obtain ⟨_, -, x, y, -, -, h⟩ := h
  exact swappedPayload_even cs i _ _ _ _ h

theorem namedSwap_iff {all cs : Cases} {i : Nat} {name : String} (h : CaseNamed all cs i name) (v w : Val)
    (hs : List Held) (is : List U32) : NamedSwap all cs i v w hs is ↔ CaseSwap cs i name v w hs is := by
  constructor
  · rintro ⟨n, ⟨l, t, r, h1, h2⟩, h3⟩
    obtain ⟨l', t', r', h4, h5⟩ := h
    rw [h1] at h4
    cases h4
    rw [h2] at h5
    cases h5
    exact h3
  · intro h'
    exact ⟨name, h, h'⟩

theorem namedSwap_variant {cs : Cases} (hw : Wf (.variant cs)) {i : Nat} {name : String} (h : CaseNamed cs cs i name)
    (v y : Val) (hs : List Held) (is : List U32) :
    NamedSwap cs cs i v (.map [(name, y)]) hs is ↔ Swapped (.variant cs) v (.map [(name, y)]) hs is := by
  rw [namedSwap_iff h, Swapped]
  rw [Wf] at hw
  have hsel : Selects cs name i := by
    obtain ⟨l, t, r, h1, h2⟩ := h
    obtain ⟨ls, hc⟩ := hw.2.2.1 i l t r h1
    rw [caseLabel_ok hc h2]
    exact chain_selects hw.1 hw.2.1 h1 hc
  constructor
  · rintro ⟨x, y', rfl, e, q⟩
    exact ⟨name, x, y', i, rfl, e, hsel, q⟩
  · rintro ⟨key, x, y', j, rfl, e, hj, q⟩
    simp only [Val.map.injEq, List.cons.injEq, Prod.mk.injEq, and_true] at e
    obtain ⟨rfl, rfl⟩ := e
    obtain rfl := hsel.unique hj
    exact ⟨x, y, rfl, rfl, q⟩

theorem Mirror.on {α β : Type} {m : SM S α} {m0 : SM S β} {R R' : α → β → List Held → List U32 → Prop} (h : Mirror E P m m0 R)
    (he : ∀ a b hs is, R' a b hs is → hs.length = is.length)
    (hR : ∀ s b s1, m0 s = (.ok b, s1) → ∀ a hs is, R a b hs is ↔ R' a b hs is) : Mirror E P m m0 R' where
  even := he
  stay := h.stay
  ok s w w0 a s' := by
    rw [h.ok s w w0 a s']
    constructor
    · rintro ⟨b, s1, hs, is, w', e, r, q⟩
      exact ⟨b, s1, hs, is, w', e, (hR _ _ _ e _ _ _).1 r, q⟩
    · rintro ⟨b, s1, hs, is, w', e, r, q⟩
      exact ⟨b, s1, hs, is, w', e, (hR _ _ _ e _ _ _).2 r, q⟩
  calm := h.calm

/-! ## `Load` -/

theorem loadFields_out : (fs : Fields) → (p : U32) → (acc : List (String × Val)) → (acc.map Prod.fst ++ fs.labels).Nodup →
    (s : St σ) → (d : Val) → (s1 : St σ) → loadFields E fs p acc s = (.ok d, s1) → ∃ ds, d = .map (acc ++ ds)
  | .nil, p, acc, _, s, d, s1, e => by
    rw [loadFields] at e
    cases e
    exact ⟨[], by rw [List.append_nil]⟩
  | .cons l t fs, p, acc, hn, s, d, s1, e => by
    rw [loadFields] at e
    obtain ⟨a, s2, -, e⟩ := SM.bind_eq_ok.1 e
    obtain ⟨x, s3, -, e⟩ := SM.bind_eq_ok.1 e
    obtain ⟨z, s4, -, e⟩ := SM.bind_eq_ok.1 e
    have hl : l ∉ acc.map Prod.fst := by
      intro h
      rw [Fields.labels, List.nodup_append] at hn
      exact hn.2.2 l h l (by simp) rfl
    rw [mapSet_fresh _ _ _ hl] at e
    obtain ⟨ds, rfl⟩ := loadFields_out fs _ _ (by simpa [Fields.labels] using hn) _ _ _ e
    exact ⟨(l, x) :: ds, by simp⟩

theorem loadCase_out (all : Cases) : (cs : Cases) → (i : Nat) → (p : U32) → (s : St σ) → (d : Val) → (s1 : St σ) →
    loadCase E all cs i p s = (.ok d, s1) → ∃ name y, CaseNamed all cs i name ∧ d = .map [(name, y)]
  | .nil, _, _, _, _, _, e => by rw [loadCase] at e; cases e
  | .cons l t r cs, 0, p, s, d, s1, e => by
    rw [loadCase] at e
    obtain ⟨name, s2, e1, e⟩ := SM.bind_eq_ok.1 e
    have hnm : caseLabelWithRefinements all l r = .ok name := (Prod.mk.inj e1).1
    refine ⟨name, ?_⟩
    rw [SM.ite_app] at e
    split at e
    · cases e
      exact ⟨_, ⟨l, t, r, rfl, hnm⟩, rfl⟩
    · obtain ⟨x, s3, -, e⟩ := SM.bind_eq_ok.1 e
      cases e
      exact ⟨_, ⟨l, t, r, rfl, hnm⟩, rfl⟩
  | .cons l t r cs, i + 1, p, s, d, s1, e => by
    rw [loadCase] at e
    exact loadCase_out all cs i p s d s1 e

theorem caseNamed_bare {cs : Cases} {i : Nat} {name : String} (h : CaseNamed (bareCases cs) (bareCases cs) i name) :
    CaseNamed cs cs i name := by
  obtain ⟨l, t, r, h1, h2⟩ := h
  rw [bareCases_get] at h1
  rcases e : cs.get? i with _ | ⟨a, b, c⟩
  · rw [e] at h1; cases h1
  · rw [e] at h1
    simp only [Option.map_some, Option.some.injEq, Prod.mk.injEq] at h1
    obtain ⟨rfl, rfl, rfl⟩ := h1
    rw [caseLabel_bare] at h2
    exact ⟨_, _, _, e, h2⟩

theorem case_nil_mirror {all cs : Cases} {l name : String} {r : Option String}
    (h : caseLabelWithRefinements all l r = .ok name) :
    Mirror E P (pure (.map [(name, .nil)]) : SM S Val) (pure (.map [(name, .nil)])) (NamedSwap all (.cons l .nil r cs) 0) := by
  refine .pure ?_ namedSwap_even
  intro v hs is
  rw [namedSwap_iff ⟨l, .nil, r, rfl, h⟩]
  unfold CaseSwap
  simp only [SwappedPayload]
  constructor
  · rintro ⟨x, y, rfl, e, ⟨-, rfl, rfl, rfl⟩ | ⟨h, -⟩⟩
    · exact ⟨e.symm, rfl, rfl⟩
    · exact absurd rfl h
  · rintro ⟨rfl, rfl, rfl⟩
    exact ⟨.nil, .nil, rfl, rfl, .inl ⟨trivial, rfl, rfl, rfl⟩⟩

mutual
theorem load_mirror : (t : Ty) → Wf t → (p : U32) → Mirror E (stPut σ) (load E t p) (load E (bare t) p) (Swapped t)
  | .bool, _, p => by
    simp only [bare, load]; exact plain_mirror (loadBool_blind _) fun _ _ _ _ => by simp only [Swapped]
  | .u8, _, p | .u16, _, p | .u32, _, p | .u64, _, p | .s8, _, p | .s16, _, p | .s32, _, p | .s64, _, p => by
    simp only [bare, load]; exact plain_mirror (loadInt_blind _ _) fun _ _ _ _ => by simp only [Swapped]
  | .f32, _, p => by
    simp only [bare, load]; exact plain_mirror (loadFloat32_blind _) fun _ _ _ _ => by simp only [Swapped]
  | .f64, _, p => by
    simp only [bare, load]; exact plain_mirror (loadFloat64_blind _) fun _ _ _ _ => by simp only [Swapped]
  | .char, _, p => by
    simp only [bare, load]; exact plain_mirror (loadChar_blind _) fun _ _ _ _ => by simp only [Swapped]
  | .string, _, p => by
    simp only [bare, load]
    exact plain_mirror (.bind (loadString_blind E _) fun _ => .pure _) fun _ _ _ _ => by simp only [Swapped]
  | .flags ls, _, p => by
    simp only [bare, load]; exact plain_mirror (loadFlags_blind _ _) fun _ _ _ _ => by simp only [Swapped]
  | .nil, _, p => by
    simp only [bare, load]; exact .fail (swapped_even .nil)
  | .other, _, p => by
    simp only [bare, load]; exact .fail (swapped_even .other)
  | .own rt, _, p => by
    simp only [bare, load]
    rw [loadInt_word]
    refine .pre (loadUInt32_blind _) (swapped_even (.own rt)) fun i _ => ?_
    exact held_mirror (own := true) (f := Handles.liftOwn E.inst rt i) (fun _ _ => rfl) (liftOwn_returns _ _ _)
      (fun _ _ => rfl) fun _ _ _ _ => by simp only [Swapped]
  | .borrow rt, _, p => by
    simp only [bare, load]
    rw [loadInt_word]
    refine .pre (loadUInt32_blind _) (swapped_even (.borrow rt)) fun i _ => ?_
    exact held_mirror (own := false) (f := Handles.liftBorrow E.inst E.cx rt i) (fun _ _ => rfl) (liftBorrow_returns _ _ _ _)
      (fun _ _ => rfl) fun _ _ _ _ => by simp only [Swapped]
  | .list t, hw, p => by
    rw [Wf] at hw
    simp only [bare, load]
    refine list_mirror ?_
    have he := each_even (swapped_even t)
    exact .pre (loadUInt32_blind _) he fun _ _ => .pre (loadUInt32_blind _) he fun _ _ =>
      loadListFromRange_mirror (fun p => load_mirror t hw.2 p) _ _
  | .record fs, hw, p => by
    rw [Wf] at hw
    simp only [bare, load]
    refine (loadFields_mirror fs hw.2 p [] [] rfl (by simpa using hw.1)).congr fun a b hs is => ?_
    rw [RecordSwap, Swapped]
    simp only [List.nil_append]
  | .variant cs, hw, p => by
    have hw' := hw
    rw [Wf] at hw'
    have he := swapped_even (.variant cs)
    simp only [bare, load]
    rw [bareCases_length]
    refine .pre (.lift _) he fun d _ => .pre (loadDisc_blind _ _) he fun i _ => .pre (.lift _) he fun z _ => ?_
    refine .ite (fun _ => .fail he) fun _ => ?_
    rw [maxCaseAlignment_bare]
    refine .pre (.lift _) he fun a _ => ?_
    refine (loadCase_mirror cs cs i.toNat hw'.2.2.2 _).on he fun s b s1 e v hs is => ?_
    obtain ⟨name, y, hn, rfl⟩ := loadCase_out _ _ _ _ _ _ _ e
    exact namedSwap_variant hw (caseNamed_bare hn) v y hs is
theorem loadFields_mirror : (fs : Fields) → WfFields fs → (p : U32) → (acc acc0 : List (String × Val)) →
    acc.map Prod.fst = acc0.map Prod.fst → (acc.map Prod.fst ++ fs.labels).Nodup →
    Mirror E (stPut σ) (loadFields E fs p acc) (loadFields E (bareFields fs) p acc0) (RecordSwap fs acc acc0)
  | .nil, _, p, acc, acc0, _, _ => by
    rw [bareFields, loadFields, loadFields]
    exact .pure recordSwap_nil recordSwap_even
  | .cons l t fs, hw, p, acc, acc0, ha, hn => by
    rw [WfFields] at hw
    rw [bareFields, loadFields, loadFields, alignment_bare, size_bare]
    have hl : l ∉ acc.map Prod.fst := by
      intro h
      rw [Fields.labels, List.nodup_append] at hn
      exact hn.2.2 l h l (by simp) rfl
    have hn' : (acc.map Prod.fst ++ [l] ++ fs.labels).Nodup := by simpa [Fields.labels] using hn
    refine .pre (.lift _) recordSwap_even fun a _ => ?_
    refine record_step (load_mirror t hw.1 _) (fun x y => .pre (.lift _) recordSwap_even fun z _ => ?_) ?_
    · rw [mapSet_fresh _ _ _ hl, mapSet_fresh _ _ _ (ha ▸ hl)]
      exact loadFields_mirror fs hw.2 _ _ _ (by simp [ha]) (by simpa using hn')
    · intro y d s s1 e
      obtain ⟨z, s2, -, e⟩ := SM.bind_eq_ok.1 e
      rw [mapSet_fresh _ _ _ (ha ▸ hl)] at e
      obtain ⟨ds, rfl⟩ := loadFields_out _ _ _ (by rw [bareFields_labels, List.map_append, ← ha]; simpa using hn') _ _ _ e
      exact ⟨ds, by simp⟩
theorem loadCase_mirror (all : Cases) : (cs : Cases) → (i : Nat) → WfCases cs → (p : U32) →
    Mirror E (stPut σ) (loadCase E all cs i p) (loadCase E (bareCases all) (bareCases cs) i p) (NamedSwap all cs i)
  | .nil, i, _, p => by
    rw [bareCases, loadCase, loadCase]
    exact .crash namedSwap_even
  | .cons l t r cs, 0, hw, p => by
    rw [WfCases] at hw
    rw [bareCases, loadCase, loadCase, caseLabel_bare]
    refine .pre (.lift _) namedSwap_even fun name hnm => ?_
    obtain ⟨s, s', hnm⟩ := hnm
    have hnm : caseLabelWithRefinements all l r = .ok name := (Prod.mk.inj hnm).1
    by_cases ht : t = .nil
    · subst ht
      rw [if_pos rfl, if_pos ((bare_nil .nil).2 rfl)]
      exact case_nil_mirror hnm
    · rw [if_neg ht, if_neg (by rwa [bare_nil])]
      refine (load_mirror t hw.1 p).map namedSwap_even fun v y hs is => ?_
      rw [namedSwap_iff ⟨l, t, r, rfl, hnm⟩]
      unfold CaseSwap
      simp only [SwappedPayload]
      constructor
      · rintro ⟨x, y', rfl, e, ⟨h, -⟩ | ⟨-, h⟩⟩
        · exact absurd h ht
        · simp only [Val.map.injEq, List.cons.injEq, Prod.mk.injEq, and_true, true_and] at e
          subst e
          exact ⟨x, rfl, h⟩
      · rintro ⟨x, rfl, h⟩
        exact ⟨x, y, rfl, rfl, .inr ⟨ht, h⟩⟩
  | .cons l t r cs, i + 1, hw, p => by
    rw [WfCases] at hw
    rw [bareCases, loadCase, loadCase]
    refine (loadCase_mirror all cs i hw.2 p).congr fun v w hs is => ?_
    rfl
end

/-! ## `LiftFlat` -/

theorem liftFields_out : (fs : Fields) → (acc : List (String × Val)) → (acc.map Prod.fst ++ fs.labels).Nodup →
    (s : LSt σ) → (d : Val) → (s1 : LSt σ) → liftFields E fs acc s = (.ok d, s1) → ∃ ds, d = .map (acc ++ ds)
  | .nil, acc, _, s, d, s1, e => by
    rw [liftFields] at e
    cases e
    exact ⟨[], by rw [List.append_nil]⟩
  | .cons l t fs, acc, hn, s, d, s1, e => by
    rw [liftFields] at e
    obtain ⟨x, s3, -, e⟩ := SM.bind_eq_ok.1 e
    have hl : l ∉ acc.map Prod.fst := by
      intro h
      rw [Fields.labels, List.nodup_append] at hn
      exact hn.2.2 l h l (by simp) rfl
    rw [mapSet_fresh _ _ _ hl] at e
    obtain ⟨ds, rfl⟩ := liftFields_out fs _ (by simpa [Fields.labels] using hn) _ _ _ e
    exact ⟨(l, x) :: ds, by simp⟩

theorem liftCase_out (all : Cases) : (cs : Cases) → (i : Nat) → (fts : List Kind) → (s : LSt σ) → (d : Val) → (s1 : LSt σ) →
    liftCase E all cs i fts s = (.ok d, s1) → ∃ name y, CaseNamed all cs i name ∧ d = .map [(name, y)]
  | .nil, _, _, _, _, _, e => by rw [liftCase] at e; cases e
  | .cons l t r cs, 0, p, s, d, s1, e => by
    rw [liftCase, SM.ite_app] at e
    split at e
    · obtain ⟨_, s2, -, e⟩ := SM.bind_eq_ok.1 e
      obtain ⟨name, s2, e1, e⟩ := SM.bind_eq_ok.1 e
      have hnm : caseLabelWithRefinements all l r = .ok name := (Prod.mk.inj e1).1
      cases e
      exact ⟨name, _, ⟨l, t, r, rfl, hnm⟩, rfl⟩
    · obtain ⟨_, s2, -, e⟩ := SM.bind_eq_ok.1 e
      obtain ⟨_, s2, -, e⟩ := SM.bind_eq_ok.1 e
      obtain ⟨_, s2, -, e⟩ := SM.bind_eq_ok.1 e
      obtain ⟨_, s2, -, e⟩ := SM.bind_eq_ok.1 e
      obtain ⟨name, s2, e1, e⟩ := SM.bind_eq_ok.1 e
      have hnm : caseLabelWithRefinements all l r = .ok name := (Prod.mk.inj e1).1
      cases e
      exact ⟨name, _, ⟨l, t, r, rfl, hnm⟩, rfl⟩
  | .cons l t r cs, i + 1, p, s, d, s1, e => by
    rw [liftCase] at e
    exact liftCase_out all cs i p s d s1 e

mutual
theorem lift_mirror : (t : Ty) → Wf t → Mirror E (lPut σ) (liftFlat E t) (liftFlat E (bare t)) (Swapped t)
  | .bool, _ | .u8, _ | .u16, _ | .u32, _ | .s8, _ | .s16, _ | .s32, _ => by
    simp only [bare, liftFlat]
    exact plain_mirror (.bind nextU32_blind fun _ => .pure _) fun _ _ _ _ => by simp only [Swapped]
  | .u64, _ | .s64, _ => by
    simp only [bare, liftFlat]
    exact plain_mirror (.bind nextU64_blind fun _ => .pure _) fun _ _ _ _ => by simp only [Swapped]
  | .f32, _ => by
    simp only [bare, liftFlat]
    exact plain_mirror (.bind nextF32_blind fun _ => .pure _) fun _ _ _ _ => by simp only [Swapped]
  | .f64, _ => by
    simp only [bare, liftFlat]
    exact plain_mirror (.bind nextF64_blind fun _ => .pure _) fun _ _ _ _ => by simp only [Swapped]
  | .char, _ => by
    simp only [bare, liftFlat]
    exact plain_mirror (.bind nextU32_blind fun _ => .bind (.lift _) fun _ => .pure _) fun _ _ _ _ => by simp only [Swapped]
  | .string, _ => by
    simp only [bare, liftFlat]
    exact plain_mirror (.bind nextU32_blind fun _ => .bind nextU32_blind fun _ =>
      .bind (onSt_blind (loadStringFromRange_blind E _ _)) fun _ => .pure _) fun _ _ _ _ => by simp only [Swapped]
  | .flags ls, _ => by
    simp only [bare, liftFlat]
    exact plain_mirror (.bind (liftFlagWords_blind _ _ _) fun _ => .pure _) fun _ _ _ _ => by simp only [Swapped]
  | .nil, _ => by
    simp only [bare, liftFlat]; exact .fail (swapped_even .nil)
  | .other, _ => by
    simp only [bare, liftFlat]; exact .fail (swapped_even .other)
  | .own rt, _ => by
    simp only [bare, liftFlat]
    refine .pre nextU32_blind (swapped_even (.own rt)) fun i _ => ?_
    exact held_mirror (own := true) (f := Handles.liftOwn E.inst rt i) (fun _ _ => rfl) (liftOwn_returns _ _ _)
      (fun _ _ => rfl) fun _ _ _ _ => by simp only [Swapped]
  | .borrow rt, _ => by
    simp only [bare, liftFlat]
    refine .pre nextU32_blind (swapped_even (.borrow rt)) fun i _ => ?_
    exact held_mirror (own := false) (f := Handles.liftBorrow E.inst E.cx rt i) (fun _ _ => rfl) (liftBorrow_returns _ _ _ _)
      (fun _ _ => rfl) fun _ _ _ _ => by simp only [Swapped]
  | .list t, hw => by
    rw [Wf] at hw
    simp only [bare, liftFlat]
    have he := swapped_even (.list t)
    refine .pre nextU32_blind he fun p _ => .pre nextU32_blind he fun n _ => ?_
    exact list_mirror (onSt_mirror (loadListFromRange_mirror (fun p => load_mirror t hw.2 p) _ _))
  | .record fs, hw => by
    rw [Wf] at hw
    simp only [bare, liftFlat]
    refine (liftFields_mirror fs hw.2 [] [] rfl (by simpa using hw.1)).congr fun a b hs is => ?_
    rw [RecordSwap, Swapped]
    simp only [List.nil_append]
  | .variant cs, hw => by
    have hw' := hw
    rw [Wf] at hw'
    have he := swapped_even (.variant cs)
    have hf := flatten_bare (.variant cs)
    rw [bare] at hf
    simp only [bare, liftFlat]
    rw [bareCases_length, hf]
    refine .pre (.lift _) he fun fts _ => ?_
    split
    · exact .fail he
    · refine .ite (fun _ => .fail he) fun _ => .pre nextU32_blind he fun i _ => .ite (fun _ => .fail he) fun _ => ?_
      refine (liftCase_mirror cs cs i.toNat hw'.2.2.2 _).on he fun s b s1 e v hs is => ?_
      obtain ⟨name, y, hn, rfl⟩ := liftCase_out _ _ _ _ _ _ _ e
      exact namedSwap_variant hw (caseNamed_bare hn) v y hs is
theorem liftFields_mirror : (fs : Fields) → WfFields fs → (acc acc0 : List (String × Val)) →
    acc.map Prod.fst = acc0.map Prod.fst → (acc.map Prod.fst ++ fs.labels).Nodup →
    Mirror E (lPut σ) (liftFields E fs acc) (liftFields E (bareFields fs) acc0) (RecordSwap fs acc acc0)
  | .nil, _, acc, acc0, _, _ => by
    rw [bareFields, liftFields, liftFields]
    exact .pure recordSwap_nil recordSwap_even
  | .cons l t fs, hw, acc, acc0, ha, hn => by
    rw [WfFields] at hw
    rw [bareFields, liftFields, liftFields]
    have hl : l ∉ acc.map Prod.fst := by
      intro h
      rw [Fields.labels, List.nodup_append] at hn
      exact hn.2.2 l h l (by simp) rfl
    have hn' : (acc.map Prod.fst ++ [l] ++ fs.labels).Nodup := by simpa [Fields.labels] using hn
    refine record_step (lift_mirror t hw.1) (fun x y => ?_) ?_
    · rw [mapSet_fresh _ _ _ hl, mapSet_fresh _ _ _ (ha ▸ hl)]
      exact liftFields_mirror fs hw.2 _ _ (by simp [ha]) (by simpa using hn')
    · intro y d s s1 e
      rw [mapSet_fresh _ _ _ (ha ▸ hl)] at e
      obtain ⟨ds, rfl⟩ := liftFields_out _ _ (by rw [bareFields_labels, List.map_append, ← ha]; simpa using hn') _ _ _ e
      exact ⟨ds, by simp⟩
theorem liftCase_mirror (all : Cases) : (cs : Cases) → (i : Nat) → WfCases cs → (fts : List Kind) →
    Mirror E (lPut σ) (liftCase E all cs i fts) (liftCase E (bareCases all) (bareCases cs) i fts) (NamedSwap all cs i)
  | .nil, i, _, fts => by
    rw [bareCases, liftCase, liftCase]
    exact .crash namedSwap_even
  | .cons l t r cs, 0, hw, fts => by
    rw [WfCases] at hw
    rw [bareCases, liftCase, liftCase, caseLabel_bare]
    by_cases ht : t = .nil
    · subst ht
      rw [if_pos rfl, if_pos ((bare_nil .nil).2 rfl)]
      refine .pre (skipFlat_blind _) namedSwap_even fun _ _ => .pre (.lift _) namedSwap_even fun name hnm => ?_
      obtain ⟨s, s', hnm⟩ := hnm
      exact case_nil_mirror (Prod.mk.inj hnm).1
    · rw [if_neg ht, if_neg (by rwa [bare_nil])]
      refine .pre (pushFlat_blind _) namedSwap_even fun _ _ => ?_
      let Q (a b c d : Val) (hs : List Held) (is : List U32) : Prop :=
        ∃ name, caseLabelWithRefinements all l r = .ok name ∧ c = .map [(name, a)] ∧ d = .map [(name, b)] ∧ hs = [] ∧ is = []
      have hq : ∀ a b c d hs is, Q a b c d hs is → hs.length = is.length := by
        rintro _ _ _ _ _ _ ⟨_, -, -, -, rfl, rfl⟩; rfl
      have hk (a b : Val) : Mirror E (lPut σ)
          (do
            let fts ← popFlat
            skipFlat fts
            let label ← SM.lift (caseLabelWithRefinements all l r)
            pure (.map [(label, a)]))
          (do
            let fts ← popFlat
            skipFlat fts
            let label ← SM.lift (caseLabelWithRefinements all l r)
            pure (.map [(label, b)])) (Q a b) := by
        refine .pre popFlat_blind (hq a b) fun _ _ => .pre (skipFlat_blind _) (hq a b) fun _ _ =>
          .pre (.lift _) (hq a b) fun name hnm => ?_
        obtain ⟨s, s', hnm⟩ := hnm
        have hnm : caseLabelWithRefinements all l r = .ok name := (Prod.mk.inj hnm).1
        refine .pure ?_ (hq a b)
        intro c hs is
        constructor
        · rintro ⟨n, h1, rfl, e, rfl, rfl⟩
          rw [hnm] at h1
          cases h1
          exact ⟨rfl, rfl, rfl⟩
        · rintro ⟨rfl, rfl, rfl⟩
          exact ⟨name, hnm, rfl, rfl, rfl, rfl⟩
      refine .bind (lift_mirror t hw.1) (fun a b _ _ _ => hk a b) (fun b => (hk b b).stay) namedSwap_even ?_ ?_
      · rintro a b _ _ h1 i1 _ _ q ⟨name, hnm, rfl, rfl, rfl, rfl⟩
        rw [List.append_nil, List.append_nil]
        refine (namedSwap_iff ⟨l, t, r, rfl, hnm⟩ _ _ _ _).2 ⟨a, b, rfl, rfl, ?_⟩
        rw [SwappedPayload]
        exact .inr ⟨ht, q⟩
      · intro b c d hs is s s1 e q
        obtain ⟨_, s2, -, e⟩ := SM.bind_eq_ok.1 e
        obtain ⟨_, s2, -, e⟩ := SM.bind_eq_ok.1 e
        obtain ⟨name, s2, e1, e⟩ := SM.bind_eq_ok.1 e
        have hnm : caseLabelWithRefinements all l r = .ok name := (Prod.mk.inj e1).1
        cases e
        obtain ⟨x, y, rfl, e, q⟩ := (namedSwap_iff ⟨l, t, r, rfl, hnm⟩ _ _ _ _).1 q
        simp only [Val.map.injEq, List.cons.injEq, Prod.mk.injEq, and_true, true_and] at e
        subst e
        rw [SwappedPayload] at q
        rcases q with ⟨h, -⟩ | ⟨-, q⟩
        · exact absurd h ht
        · exact ⟨x, hs, [], is, [], by simp, by simp, q, name, hnm, rfl, rfl, rfl, rfl⟩
  | .cons l t r cs, i + 1, hw, fts => by
    rw [WfCases] at hw
    rw [bareCases, liftCase, liftCase]
    refine (liftCase_mirror all cs i hw.2 fts).congr fun v w hs is => ?_
    rfl
end

end Verif.Abi
