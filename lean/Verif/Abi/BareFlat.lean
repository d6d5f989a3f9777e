import Verif.Abi.BareLower

/-!
# `LowerFlat` at a type with handles
-/

namespace Verif.Abi
open Spec Encoding

variable {σ : Type} {E : Env σ}

/-! ## Records and cases by their entries -/

/-- The entries `norm` gives a record. -/
def normList : Fields → List (String × Val) → List (String × Val)
  | .nil, _ => []
  | .cons l t fs, m => (l, norm t (mapGet m l)) :: normList fs m

theorem normFields_list : (fs : Fields) → (m acc : List (String × Val)) → (acc.map Prod.fst ++ fs.labels).Nodup →
    normFields fs m acc = acc ++ normList fs m
  | .nil, m, acc, _ => by rw [normFields, normList, List.append_nil]
  | .cons l t fs, m, acc, h => by
    rw [normFields, normList]
    rw [Fields.labels, List.nodup_append] at h
    obtain ⟨h1, h2, h3⟩ := h
    rw [List.nodup_cons] at h2
    have hf : l ∉ acc.map Prod.fst := fun hm => h3 l hm l (by simp) rfl
    rw [mapSet_fresh _ _ _ hf, normFields_list fs m, List.append_assoc, List.singleton_append]
    rw [List.map_append, List.append_assoc, List.nodup_append]
    refine ⟨h1, ?_, ?_⟩
    · simpa using ⟨h2.1, h2.2⟩
    · intro a ha b hb
      exact h3 a ha b (by simpa using hb)

/-- The payload `norm` gives a case. -/
def normPayload : Cases → Nat → Val → Val
  | .nil, _, _ => .nil
  | .cons _ t _ _, 0, p => if t = .nil then .nil else norm t p
  | .cons _ _ _ cs, i + 1, p => normPayload cs i p

theorem normCase_payload (all : Cases) : (cs : Cases) → (i : Nat) → (p : Val) → (l : String) → (t : Ty) → (r : Option String) →
    cs.get? i = some (l, t, r) → (key : String) → caseLabelWithRefinements all l r = .ok key →
    normCase all cs i p = .map [(key, normPayload cs i p)]
  | .nil, i, _, _, _, _, h, _, _ => by cases h
  | .cons l' t' r' cs, 0, p, l, t, r, h, key, hk => by
    simp only [Cases.get?, Option.some.injEq, Prod.mk.injEq] at h
    obtain ⟨rfl, rfl, rfl⟩ := h
    rw [normCase, hk, normPayload]
  | .cons _ _ _ cs, i + 1, p, l, t, r, h, key, hk => by
    rw [normCase, normPayload]
    exact normCase_payload all cs i p l t r h key hk

theorem swappedPayload_get : (cs : Cases) → (i : Nat) → (x y : Val) → (hs : List Held) → (is : List U32) →
    SwappedPayload cs i x y hs is → ∃ l t r, cs.get? i = some (l, t, r)
  | .nil, _, _, _, _, _, h => by simp [SwappedPayload] at h
  | .cons l t r _, 0, _, _, _, _, _ => ⟨l, t, r, rfl⟩
  | .cons _ _ _ cs, i + 1, x, y, hs, is, h => by
    rw [SwappedPayload] at h
    exact swappedPayload_get cs i x y hs is h

/-! ## What is kept -/

/-- `w` is `v` with the numbers `is` instead of the handles `hs`, and what `LowerFlat` relies on holds of it as of `v`. -/
structure Fit (E : Env σ) (t : Ty) (v w : Val) (hs : List Held) (is : List U32) : Prop where
  swap : Swapped t (norm t v) (norm (bare t) w) hs is
  typed : HasType (bare t) w
  lists : ListsFit (bare t) w
  strings : StringsFit E.enc (bare t) w

/-- The same of the fields. -/
structure FitFields (E : Env σ) (fs : Fields) (m n : List (String × Val)) (hs : List Held) (is : List U32) : Prop where
  swap : SwappedFields fs (normList fs m) (normList (bareFields fs) n) hs is
  typed : HasFields (bareFields fs) n
  lists : ListsFitFields (bareFields fs) n
  strings : StringsFitFields E.enc (bareFields fs) n

/-- The same of a payload. -/
structure FitPayload (E : Env σ) (cs : Cases) (i : Nat) (x y : Val) (hs : List Held) (is : List U32) : Prop where
  swap : SwappedPayload cs i (normPayload cs i x) (normPayload (bareCases cs) i y) hs is
  typed : HasPayload (bareCases cs) i y
  lists : ListsFitPayload (bareCases cs) i y
  strings : StringsFitPayload E.enc (bareCases cs) i y

theorem FitFields.record {fs : Fields} {m n : List (String × Val)} {hs : List Held} {is : List U32}
    (h : FitFields E fs m n hs is) (hd : fs.labels.Nodup) : Fit E (.record fs) (.map m) (.map n) hs is where
  swap := by
    simp only [bare, norm]
    rw [Swapped]
    refine ⟨_, _, rfl, rfl, ?_⟩
    rw [normFields_list fs m [] (by simpa using hd), normFields_list (bareFields fs) n [] (by simpa [bareFields_labels] using hd)]
    exact h.swap
  typed := by rw [bare, HasType]; exact ⟨n, rfl, h.typed⟩
  lists := by rw [bare, ListsFit]; rintro _ ⟨⟩; exact h.lists
  strings := by rw [bare, StringsFit]; rintro _ ⟨⟩; exact h.strings

theorem FitPayload.variant {cs : Cases} {i : Nat} {x y : Val} {hs : List Held} {is : List U32}
    (h : FitPayload E cs i x y hs is) (hw : Wf (.variant cs)) {key : String} (hk : Selects cs key i) :
    Fit E (.variant cs) (.map [(key, x)]) (.map [(key, y)]) hs is where
  swap := by
    have hf := (firstLabel_iff cs key i).2 hk
    have hf' : firstLabel (bareCases cs) (splitBar key) = some i := by rw [firstLabel_bare]; exact hf
    simp only [bare, norm, hf, hf']
    obtain ⟨l, t, r, hg⟩ := swappedPayload_get cs i _ _ _ _ h.swap
    rw [Wf] at hw
    obtain ⟨ls, hc⟩ := hw.2.2.1 i l t r hg
    rw [normCase_payload cs cs i x l t r hg _ (caseLabel_chain hc),
      normCase_payload (bareCases cs) (bareCases cs) i y l (bare t) r (by rw [bareCases_get, hg]; rfl) _
        (caseLabel_chain (chain_of_bare hc)), Swapped]
    exact ⟨_, _, _, i, rfl, rfl, chain_selects hw.1 hw.2.1 hg hc, h.swap⟩
  typed := by rw [bare, HasType]; exact ⟨key, y, i, rfl, (selects_bare _ _ _).2 hk, h.typed⟩
  lists := by
    rw [bare, ListsFit]
    rintro key' p j e hj
    cases e
    rw [selects_bare] at hj
    obtain rfl := hj.unique hk
    exact h.lists
  strings := by
    rw [bare, StringsFit]
    rintro key' p j e hj
    cases e
    rw [selects_bare] at hj
    obtain rfl := hj.unique hk
    exact h.strings

theorem Fit.leaf {t : Ty} {v : Val} (hb : bare t = t) (h1 : HasType t v) (h2 : ListsFit t v) (h3 : StringsFit E.enc t v)
    (h4 : Swapped t (norm t v) (norm t v) [] []) : Fit E t v v [] [] where
  swap := by rw [hb]; exact h4
  typed := by rw [hb]; exact h1
  lists := by rw [hb]; exact h2
  strings := by rw [hb]; exact h3

/-! ## Values without handles -/

theorem each_map {R : Val → Val → List Held → List U32 → Prop} (f g : Val → Val) :
    (vs : List Val) → (∀ x ∈ vs, R (f x) (g x) [] []) → Each R (vs.map f) (vs.map g) [] []
  | [], _ => ⟨rfl, rfl⟩
  | x :: vs, h => ⟨[], [], [], [], h x (by simp), each_map f g vs fun y hy => h y (by simp [hy]), rfl, rfl⟩

theorem none_carried {t : Ty} : (vs : List Val) → (hss : List (List Held)) →
    List.Forall₂ (fun x h => Carried t x h) vs hss → hss.flatten = [] → ∀ x ∈ vs, Carried t x []
  | _, _, .nil, _, _, hx => by cases hx
  | _, _, .cons h1 h2, e, x, hx => by
    rw [List.flatten_cons, List.append_eq_nil_iff] at e
    obtain ⟨rfl, e⟩ := e
    rcases List.mem_cons.1 hx with rfl | hx
    · exact h1
    · exact none_carried _ _ h2 e x hx

mutual
/-- A value without handles is kept as it is. -/
theorem still : (t : Ty) → Wf t → (v : Val) → HasType t v → ListsFit t v → StringsFit E.enc t v → Carried t v [] →
    Fit E t v v [] []
  | .bool, _, v, h1, h2, h3, _ | .u8, _, v, h1, h2, h3, _ | .u16, _, v, h1, h2, h3, _ | .u32, _, v, h1, h2, h3, _
  | .u64, _, v, h1, h2, h3, _ | .s8, _, v, h1, h2, h3, _ | .s16, _, v, h1, h2, h3, _ | .s32, _, v, h1, h2, h3, _
  | .s64, _, v, h1, h2, h3, _ | .f32, _, v, h1, h2, h3, _ | .f64, _, v, h1, h2, h3, _ | .char, _, v, h1, h2, h3, _
  | .string, _, v, h1, h2, h3, _ | .flags _, _, v, h1, h2, h3, _ =>
    .leaf (by simp only [bare]) h1 h2 h3 (by simp only [Swapped]; exact ⟨trivial, trivial, trivial⟩)
  | .nil, _, _, h, _, _, _ | .other, _, _, h, _, _, _ => by simp [HasType] at h
  | .own _, _, _, _, _, _, h | .borrow _, _, _, _, _, _, h => by
    rw [Carried] at h
    obtain ⟨_, _, h⟩ := h
    cases h
  | .list t, hw, v, h1, h2, h3, h4 => by
    rw [Wf] at hw
    rw [HasType] at h1
    obtain ⟨vs, rfl, h1⟩ := h1
    rw [ListsFit] at h2
    obtain ⟨l1, l2, h2⟩ := h2 vs rfl
    rw [StringsFit] at h3
    have h3 := h3 vs rfl
    rw [Carried] at h4
    obtain ⟨_, hss, e, h4, e2⟩ := h4
    cases e
    have h4 := none_carried vs hss h4 e2.symm
    have ih : ∀ x ∈ vs, Fit E t x x [] [] := fun x hx => still t hw.2 x (h1 x hx) (h2 x hx) (h3 x hx) (h4 x hx)
    refine ⟨?_, ?_, ?_, ?_⟩
    · simp only [bare, norm]
      rw [Swapped]
      exact ⟨_, _, rfl, rfl, each_map _ _ vs fun x hx => (ih x hx).swap⟩
    · rw [bare, HasType]; exact ⟨vs, rfl, fun x hx => (ih x hx).typed⟩
    · rw [bare, ListsFit]
      rintro _ ⟨⟩
      rw [specSize_bare]
      exact ⟨l1, l2, fun x hx => (ih x hx).lists⟩
    · rw [bare, StringsFit]
      rintro _ ⟨⟩
      exact fun x hx => (ih x hx).strings
  | .record fs, hw, v, h1, h2, h3, h4 => by
    rw [Wf] at hw
    rw [HasType] at h1
    obtain ⟨m, rfl, h1⟩ := h1
    rw [ListsFit] at h2
    rw [StringsFit] at h3
    rw [Carried] at h4
    obtain ⟨_, e, h4⟩ := h4
    cases e
    exact (stillFields fs hw.2 m h1 (h2 m rfl) (h3 m rfl) h4).record hw.1
  | .variant cs, hw, v, h1, h2, h3, h4 => by
    have hw' := hw
    rw [Wf] at hw'
    rw [HasType] at h1
    obtain ⟨key, p, i, rfl, hk, h1⟩ := h1
    rw [ListsFit] at h2
    rw [StringsFit] at h3
    rw [Carried] at h4
    obtain ⟨_, _, j, e, hj, h4⟩ := h4
    cases e
    obtain rfl := hj.unique hk
    exact (stillPayload cs hw'.2.2.2 j p h1 (h2 _ _ _ rfl hk) (h3 _ _ _ rfl hk) h4).variant hw hk
/-- The fields. -/
theorem stillFields : (fs : Fields) → WfFields fs → (m : List (String × Val)) → HasFields fs m → ListsFitFields fs m →
    StringsFitFields E.enc fs m → CarriedFields fs m [] → FitFields E fs m m [] []
  | .nil, _, m, _, _, _, _ => ⟨by simp [SwappedFields, normList, bareFields], by simp [bareFields, HasFields],
      by simp [bareFields, ListsFitFields], by simp [bareFields, StringsFitFields]⟩
  | .cons l t fs, hw, m, h1, h2, h3, h4 => by
    rw [WfFields] at hw
    rw [HasFields] at h1
    rw [ListsFitFields] at h2
    rw [StringsFitFields] at h3
    rw [CarriedFields] at h4
    obtain ⟨a, b, c1, c2, e⟩ := h4
    obtain ⟨rfl, rfl⟩ := List.append_eq_nil_iff.1 e.symm
    have i1 := still t hw.1 _ h1.1 h2.1 h3.1 c1
    have i2 := stillFields fs hw.2 m h1.2 h2.2 h3.2 c2
    refine ⟨?_, ?_, ?_, ?_⟩
    · rw [bareFields, normList, normList, SwappedFields]
      exact ⟨_, _, _, _, [], [], [], [], rfl, rfl, i1.swap, i2.swap, rfl, rfl⟩
    · rw [bareFields, HasFields]; exact ⟨i1.typed, i2.typed⟩
    · rw [bareFields, ListsFitFields]; exact ⟨i1.lists, i2.lists⟩
    · rw [bareFields, StringsFitFields]; exact ⟨i1.strings, i2.strings⟩
/-- The payload. -/
theorem stillPayload : (cs : Cases) → WfCases cs → (i : Nat) → (p : Val) → HasPayload cs i p → ListsFitPayload cs i p →
    StringsFitPayload E.enc cs i p → CarriedPayload cs i p [] → FitPayload E cs i p p [] []
  | .nil, _, _, _, h, _, _, _ => by simp [HasPayload] at h
  | .cons l t r cs, hw, 0, p, h1, h2, h3, h4 => by
    rw [WfCases] at hw
    rw [HasPayload] at h1
    rw [ListsFitPayload] at h2
    rw [StringsFitPayload] at h3
    rw [CarriedPayload] at h4
    by_cases ht : t = .nil
    · subst ht
      refine ⟨?_, ?_, ?_, ?_⟩
      · simp [bareCases, bare, SwappedPayload, normPayload]
      · rw [bareCases, HasPayload]; exact .inl (by simp only [bare])
      · simp [bareCases, bare, ListsFitPayload, ListsFit]
      · simp [bareCases, bare, StringsFitPayload, StringsFit]
    · have i1 := still t hw.1 p (h1.resolve_left ht) h2 h3 (h4.resolve_left fun h => ht h.1).2
      refine ⟨?_, ?_, ?_, ?_⟩
      · rw [bareCases, SwappedPayload, normPayload, normPayload, if_neg ht, if_neg (by rwa [bare_nil])]
        exact .inr ⟨ht, i1.swap⟩
      · rw [bareCases, HasPayload]; exact .inr i1.typed
      · rw [bareCases, ListsFitPayload]; exact i1.lists
      · rw [bareCases, StringsFitPayload]; exact i1.strings
  | .cons l t r cs, hw, i + 1, p, h1, h2, h3, h4 => by
    rw [WfCases] at hw
    rw [HasPayload] at h1
    rw [ListsFitPayload] at h2
    rw [StringsFitPayload] at h3
    rw [CarriedPayload] at h4
    have i1 := stillPayload cs hw.2 i p h1 h2 h3 h4
    refine ⟨?_, ?_, ?_, ?_⟩
    · rw [bareCases, SwappedPayload, normPayload, normPayload]; exact i1.swap
    · rw [bareCases, HasPayload]; exact i1.typed
    · rw [bareCases, ListsFitPayload]; exact i1.lists
    · rw [bareCases, StringsFitPayload]; exact i1.strings
end

/-! ## Lowering -/

/-- What the first call does, on values with handles, the second does with numbers instead, and does not care about the
tables. -/
def Shadows (E : Env σ) (s s' : St σ) (fs : List FV) (m0 : SM (St σ) (List FV)) (hs : List Held) (is : List U32) : Prop :=
  Lowers E s.world hs is s'.world ∧ ∀ w0, m0 { s with world := w0 } = (.ok fs, { s' with world := w0 })

theorem Shadows.blind {m : SM (St σ) (List FV)} (hb : Blind (stPut σ) m) {s s' : St σ} {fs : List FV}
    (h : m s = (.ok fs, s')) : Shadows E s s' fs m [] [] := by
  have e := hb s s.world
  have e1 : (stPut σ).put s.world s = s := rfl
  rw [e1, h] at e
  have hw : s'.world = s.world := by
    have := congrArg (fun q => q.2.world) e
    exact this
  refine ⟨hw ▸ .nil _, fun w0 => ?_⟩
  have := hb s w0
  rw [h] at this
  exact this

theorem lowers_append {w1 w2 w3 : Handles.World} {hs gs : List Held} {is js : List U32} (h1 : Lowers E w1 hs is w2)
    (h2 : Lowers E w2 gs js w3) : Lowers E w1 (hs ++ gs) (is ++ js) w3 := by
  induction h1 with
  | nil _ => exact h2
  | cons h _ ih => exact .cons h (ih h2)

/-- The world is the only part of the state that is set aside. -/
theorem Shadows.bind_pure {m0 : SM (St σ) (List FV)} {s s' : St σ} {fs : List FV} {hs : List Held} {is : List U32}
    (h : Shadows E s s' fs m0 hs is) {f : List FV → SM (St σ) (List FV)} {gs : List FV}
    (hf : ∀ s : St σ, f fs s = (.ok gs, s)) : Shadows E s s' gs (m0 >>= f) hs is :=
  ⟨h.1, fun w0 => by rw [SM.bind_ok (h.2 w0)]; exact hf _⟩

theorem Shadows.lift_bind {α : Type} {f : α → SM (St σ) (List FV)} {r : Res α} {a : α} (hr : r = .ok a)
    {s s' : St σ} {fs : List FV} {hs : List Held} {is : List U32} (h : Shadows E s s' fs (f a) hs is) :
    Shadows E s s' fs (SM.lift r >>= f) hs is := by
  subst hr
  exact ⟨h.1, fun w0 => by rw [SM.bind_ok (SM.lift_def _ _)]; exact h.2 w0⟩

theorem lower_held (rt : RT) (own : Bool) (op : SM Handles.World U32) (x : U32)
    (hop : ∀ w, Handles.step E.info w (lowerOp E ⟨own, rt, x⟩) = op w) (s s' : St σ) (fs : List FV)
    (h : (onWorld op >>= fun i => pure [FV.u32 i] : SM (St σ) (List FV)) s = (.ok fs, s')) :
    ∃ i, Shadows E s s' fs (lowerFlat E .u32 (.u32 i)) [⟨own, rt, x⟩] [i] := by
  obtain ⟨i, s1, e1, e2⟩ := SM.bind_eq_ok.1 h
  cases e2
  refine ⟨i, ?_⟩
  unfold onWorld at e1
  rcases e : op s.world with ⟨r, w1⟩
  rw [e] at e1
  cases e1
  refine ⟨.cons (by rw [hop, e]) (.nil _), fun w0 => ?_⟩
  rw [lowerFlat]
  rfl

mutual
/-- What `LowerFlat` does at a type with handles, it does at the type with `u32` instead, given the numbers of the
handles. -/
theorem lower_bare : (t : Ty) → Wf t → Laid t → (v : Val) → HasType t v → ListsFit t v → StringsFit E.enc t v →
    (s s' : St σ) → (fs : List FV) → lowerFlat E t v s = (.ok fs, s') →
    ∃ w hs is, Fit E t v w hs is ∧ Shadows E s s' fs (lowerFlat E (bare t) w) hs is
  | .bool, _, _, v, h1, h2, h3, s, s', fs, h | .u8, _, _, v, h1, h2, h3, s, s', fs, h
  | .u16, _, _, v, h1, h2, h3, s, s', fs, h | .u32, _, _, v, h1, h2, h3, s, s', fs, h
  | .u64, _, _, v, h1, h2, h3, s, s', fs, h | .s8, _, _, v, h1, h2, h3, s, s', fs, h
  | .s16, _, _, v, h1, h2, h3, s, s', fs, h | .s32, _, _, v, h1, h2, h3, s, s', fs, h
  | .s64, _, _, v, h1, h2, h3, s, s', fs, h | .f32, _, _, v, h1, h2, h3, s, s', fs, h
  | .f64, _, _, v, h1, h2, h3, s, s', fs, h | .char, _, _, v, h1, h2, h3, s, s', fs, h => by
    refine ⟨v, [], [], .leaf (by simp only [bare]) h1 h2 h3 (by simp only [Swapped]; exact ⟨trivial, trivial, trivial⟩), ?_⟩
    simp only [bare]
    refine .blind ?_ h
    unfold lowerFlat
    split
    · exact .pure _
    · first | exact .fail | exact .crash
  | .string, _, _, v, h1, h2, h3, s, s', fs, h => by
    refine ⟨v, [], [], .leaf (by simp only [bare]) h1 h2 h3 (by simp only [Swapped]; exact ⟨trivial, trivial, trivial⟩), ?_⟩
    simp only [bare]
    refine .blind ?_ h
    unfold lowerFlat
    split
    · exact .bind (storeStringIntoRange_blind _) fun _ => .pure _
    · exact .crash
  | .flags _, _, _, v, h1, h2, h3, s, s', fs, h => by
    refine ⟨v, [], [], .leaf (by simp only [bare]) h1 h2 h3 (by simp only [Swapped]; exact ⟨trivial, trivial, trivial⟩), ?_⟩
    simp only [bare]
    refine .blind ?_ h
    unfold lowerFlat
    exact .lift _
  | .nil, _, _, _, h, _, _, _, _, _, _ | .other, _, _, _, h, _, _, _, _, _, _ => by simp [HasType] at h
  | .own rt, _, _, v, h1, _, _, s, s', fs, h => by
    simp only [HasType] at h1
    obtain ⟨x, rfl⟩ := h1
    rw [lowerFlat] at h
    obtain ⟨i, hi⟩ := lower_held rt true _ x (fun _ => rfl) s s' fs h
    refine ⟨.u32 i, _, _, ?_, by simpa only [bare] using hi⟩
    refine ⟨?_, by simp only [bare, HasType]; exact ⟨i, rfl⟩, by simp only [bare, ListsFit], by simp only [bare, StringsFit]⟩
    simp only [bare, norm, Swapped]
    exact ⟨x, i, rfl, rfl, rfl, rfl⟩
  | .borrow rt, _, _, v, h1, _, _, s, s', fs, h => by
    simp only [HasType] at h1
    obtain ⟨x, rfl⟩ := h1
    rw [lowerFlat] at h
    obtain ⟨i, hi⟩ := lower_held rt false _ x (fun _ => rfl) s s' fs h
    refine ⟨.u32 i, _, _, ?_, by simpa only [bare] using hi⟩
    refine ⟨?_, by simp only [bare, HasType]; exact ⟨i, rfl⟩, by simp only [bare, ListsFit], by simp only [bare, StringsFit]⟩
    simp only [bare, norm, Swapped]
    exact ⟨x, i, rfl, rfl, rfl, rfl⟩
  | .list t, hw, _, v, h1, h2, h3, s, s', fs, h => by
    have hc : Carried (.list t) v [] := by
      rw [lowerFlat] at h
      obtain ⟨r, s2, h, -⟩ := SM.bind_eq_ok.1 h
      obtain ⟨vs, rfl, he⟩ := storeListIntoRange_each h
      rw [Carried]
      obtain ⟨hss, h1, h2⟩ := carried_each (t := t) vs fun x hx => by
        obtain ⟨p, a, b, hx⟩ := he x hx
        exact store_carries t x p a b hx
      exact ⟨vs, hss, rfl, h1, h2⟩
    have hb : Blind (stPut σ) (lowerFlat E (bare (.list t)) v) := by
      rw [bare, lowerFlat]
      exact .bind (storeListIntoRange_blind (fun v p => store_blind _ v p) _ _) fun _ => .pure _
    have hlow : lowerFlat E (bare (.list t)) v s = (.ok fs, s') := by
      rw [bare, lowerFlat]
      rw [lowerFlat] at h
      exact Below.bind (storeListIntoRange_below (fun v p => store_below t v p) _ _) (fun _ => .refl _) s fs s' h
    exact ⟨v, [], [], still (.list t) hw v h1 h2 h3 hc, .blind hb hlow⟩
  | .record fs, hw, hl, v, h1, h2, h3, s, s', gs, h => by
    rw [Wf] at hw
    rw [Laid] at hl
    rw [HasType] at h1
    obtain ⟨m, rfl, h1⟩ := h1
    rw [ListsFit] at h2
    rw [StringsFit] at h3
    rw [lowerFlat] at h
    obtain ⟨n, hs, is, hn, hf, hr⟩ := lowerFields_bare fs hw.2 hw.1 hl m h1 (h2 m rfl) (h3 m rfl) s s' gs h
    refine ⟨.map n, hs, is, (hf n fun _ _ => rfl).record hw.1, ?_⟩
    rw [bare, lowerFlat]
    exact hr n fun _ _ => rfl
  | .variant cs, hw, hl, v, h1, h2, h3, s, s', gs, h => by
    have hw' := hw
    rw [Wf] at hw'
    rw [Laid] at hl
    rw [HasType] at h1
    obtain ⟨key, p, i, rfl, hk, h1⟩ := h1
    rw [ListsFit] at h2
    rw [StringsFit] at h3
    rw [lowerFlat] at h
    obtain ⟨⟨d, q⟩, s1, e1, h⟩ := SM.bind_eq_ok.1 h
    cases e2 : matchCase (.map [(key, p)]) cs with
    | ok r =>
      rw [e2] at e1
      cases e1
      obtain ⟨key', e3, hk'⟩ := (matchCase_ok _ cs (by have := hl.2.1; omega) d q).1 e2
      cases e3
      obtain rfl := hk'.unique hk
      obtain ⟨fts, s1, e1, h⟩ := SM.bind_eq_ok.1 h
      cases e4 : flatten (.variant cs) with
      | ok fts' =>
        rw [e4] at e1
        cases e1
        cases fts with
        | nil => cases h
        | cons first fts =>
          have h : (if first ≠ .u32 then SM.fail else do
            let payload ← lowerCase E cs d.toNat p
            let p ← SM.lift (coercePayload payload fts)
            pure (.u32 d :: (p.1 ++ p.2.map zero)) : SM (St σ) (List FV)) s = (.ok gs, s') := h
          rw [SM.ite_app] at h
          split at h
          · cases h
          · rename_i hfirst
            obtain ⟨payload, s2, e5, h⟩ := SM.bind_eq_ok.1 h
            obtain ⟨r, s3, e6, h⟩ := SM.bind_eq_ok.1 h
            cases e7 : coercePayload payload fts with
            | ok r' =>
              rw [e7] at e6
              cases e6
              cases h
              obtain ⟨y, hs, is, i1, r1⟩ := lowerCase_bare cs hw'.2.2.2 hl.2.2 d.toNat p h1 (h2 _ _ _ rfl hk)
                (h3 _ _ _ rfl hk) s s' payload e5
              refine ⟨.map [(key, y)], hs, is, i1.variant hw hk, r1.1, fun w0 => ?_⟩
              have e8 : matchCase (.map [(key, y)]) (bareCases cs) = .ok (d, y) := by
                rw [matchCase_bare]
                exact (matchCase_ok _ cs (by have := hl.2.1; omega) d y).2 ⟨key, rfl, hk⟩
              have e9 : flatten (.variant (bareCases cs)) = .ok (first :: fts) := by
                have := flatten_bare (.variant cs)
                rw [bare] at this
                rw [this, e4]
              rw [bare, lowerFlat, e8, e9, SM.bind_ok (SM.lift_def _ _), SM.bind_ok (SM.lift_def _ _)]
              show (if first ≠ .u32 then SM.fail else do
                let payload ← lowerCase E (bareCases cs) d.toNat y
                let p ← SM.lift (coercePayload payload fts)
                pure (.u32 d :: (p.1 ++ p.2.map zero)) : SM (St σ) (List FV)) _ = _
              rw [SM.ite_app, if_neg hfirst, SM.bind_ok (r1.2 w0), e7, SM.bind_ok (SM.lift_def _ _)]
              rfl
            | _ => rw [e7] at e6; cases e6
      | _ => rw [e4] at e1; cases e1
    | _ => rw [e2] at e1; cases e1
/-- The fields. -/
theorem lowerFields_bare : (fs : Fields) → WfFields fs → fs.labels.Nodup → LaidFields fs → (m : List (String × Val)) →
    HasFields fs m → ListsFitFields fs m → StringsFitFields E.enc fs m → (s s' : St σ) → (gs : List FV) →
    lowerFields E fs m s = (.ok gs, s') →
    ∃ n hs is, n.map Prod.fst = fs.labels ∧
      (∀ n', (∀ l ∈ fs.labels, mapGet n' l = mapGet n l) → FitFields E fs m n' hs is) ∧
      (∀ n', (∀ l ∈ fs.labels, mapGet n' l = mapGet n l) → Shadows E s s' gs (lowerFields E (bareFields fs) n') hs is)
  | .nil, _, _, _, m, _, _, _, s, s', gs, h => by
    rw [lowerFields] at h
    cases h
    refine ⟨[], [], [], rfl, fun n' _ => ⟨by simp [SwappedFields, normList, bareFields], by simp [bareFields, HasFields],
      by simp [bareFields, ListsFitFields], by simp [bareFields, StringsFitFields]⟩, fun n' _ => ?_⟩
    exact ⟨.nil _, fun _ => by rw [bareFields, lowerFields]; rfl⟩
  | .cons l t fs, hw, hd, hl, m, h1, h2, h3, s, s', gs, h => by
    rw [WfFields] at hw
    rw [Fields.labels, List.nodup_cons] at hd
    rw [LaidFields] at hl
    rw [HasFields] at h1
    rw [ListsFitFields] at h2
    rw [StringsFitFields] at h3
    rw [lowerFields] at h
    obtain ⟨a, s1, e1, h⟩ := SM.bind_eq_ok.1 h
    obtain ⟨b, s2, e2, h⟩ := SM.bind_eq_ok.1 h
    cases h
    obtain ⟨w, hs1, is1, f1, r1⟩ := lower_bare t hw.1 hl.1 _ h1.1 h2.1 h3.1 s s1 a e1
    obtain ⟨n, hs2, is2, hn, f2, r2⟩ := lowerFields_bare fs hw.2 hd.2 hl.2 m h1.2 h2.2 h3.2 s1 s' b e2
    refine ⟨(l, w) :: n, hs1 ++ hs2, is1 ++ is2, by simp [Fields.labels, hn], fun n' hn' => ?_, fun n' hn' => ?_⟩
    all_goals
      have q1 : mapGet n' l = w := by rw [hn' l (by simp [Fields.labels])]; simp [mapGet]
      have q2 : ∀ k ∈ fs.labels, mapGet n' k = mapGet n k := fun k hk => by
        rw [hn' k (by simp [Fields.labels, hk])]
        have : k ≠ l := fun e => hd.1 (e ▸ hk)
        simp [mapGet, this]
      specialize f2 n' q2
      specialize r2 n' q2
    · refine ⟨?_, ?_, ?_, ?_⟩
      · rw [bareFields, normList, normList, SwappedFields, q1]
        exact ⟨_, _, _, _, hs1, hs2, is1, is2, rfl, rfl, f1.swap, f2.swap, rfl, rfl⟩
      · rw [bareFields, HasFields, q1]; exact ⟨f1.typed, f2.typed⟩
      · rw [bareFields, ListsFitFields, q1]; exact ⟨f1.lists, f2.lists⟩
      · rw [bareFields, StringsFitFields, q1]; exact ⟨f1.strings, f2.strings⟩
    · rw [bareFields, lowerFields, q1]
      exact ⟨lowers_append r1.1 r2.1, fun w0 => by rw [SM.bind_ok (r1.2 w0), SM.bind_ok (r2.2 w0)]; rfl⟩
/-- The payload. -/
theorem lowerCase_bare : (cs : Cases) → WfCases cs → LaidCases cs → (i : Nat) → (p : Val) → HasPayload cs i p →
    ListsFitPayload cs i p → StringsFitPayload E.enc cs i p → (s s' : St σ) → (gs : List FV) →
    lowerCase E cs i p s = (.ok gs, s') →
    ∃ q hs is, FitPayload E cs i p q hs is ∧ Shadows E s s' gs (lowerCase E (bareCases cs) i q) hs is
  | .nil, _, _, _, _, h, _, _, _, _, _, _ => by simp [HasPayload] at h
  | .cons l t r cs, hw, hl, 0, p, h1, h2, h3, s, s', gs, h => by
    rw [WfCases] at hw
    rw [LaidCases] at hl
    rw [HasPayload] at h1
    rw [ListsFitPayload] at h2
    rw [StringsFitPayload] at h3
    rw [lowerCase] at h
    by_cases ht : t = .nil
    · subst ht
      rw [if_pos rfl] at h
      cases h
      refine ⟨p, [], [], ⟨?_, ?_, ?_, ?_⟩, .nil _, fun w0 => ?_⟩
      · simp [bareCases, bare, SwappedPayload, normPayload]
      · rw [bareCases, HasPayload]; exact .inl (by simp only [bare])
      · simp [bareCases, bare, ListsFitPayload, ListsFit]
      · simp [bareCases, bare, StringsFitPayload, StringsFit]
      · rw [bareCases, lowerCase, if_pos ((bare_nil .nil).2 rfl)]; rfl
    · rw [if_neg ht] at h
      obtain ⟨w, hs, is, i1, r1⟩ := lower_bare t hw.1 (hl.1.resolve_left ht) p (h1.resolve_left ht) h2 h3 s s' gs h
      have ht' : bare t ≠ .nil := by rwa [Ne, bare_nil]
      refine ⟨w, hs, is, ⟨?_, ?_, ?_, ?_⟩, ?_⟩
      · rw [bareCases, SwappedPayload, normPayload, normPayload, if_neg ht, if_neg ht']
        exact .inr ⟨ht, i1.swap⟩
      · rw [bareCases, HasPayload]; exact .inr i1.typed
      · rw [bareCases, ListsFitPayload]; exact i1.lists
      · rw [bareCases, StringsFitPayload]; exact i1.strings
      · rw [bareCases, lowerCase, if_neg ht']; exact r1
  | .cons l t r cs, hw, hl, i + 1, p, h1, h2, h3, s, s', gs, h => by
    rw [WfCases] at hw
    rw [LaidCases] at hl
    rw [HasPayload] at h1
    rw [ListsFitPayload] at h2
    rw [StringsFitPayload] at h3
    rw [lowerCase] at h
    obtain ⟨w, hs, is, i1, r1⟩ := lowerCase_bare cs hw.2 hl.2 i p h1 h2 h3 s s' gs h
    refine ⟨w, hs, is, ⟨?_, ?_, ?_, ?_⟩, ?_⟩
    · rw [bareCases, SwappedPayload, normPayload, normPayload]; exact i1.swap
    · rw [bareCases, HasPayload]; exact i1.typed
    · rw [bareCases, ListsFitPayload]; exact i1.lists
    · rw [bareCases, StringsFitPayload]; exact i1.strings
    · rw [bareCases, lowerCase]; exact r1
end

end Verif.Abi
