import Verif.Abi.ExtendSpec

/-!
# Types extended at their end (C150)
-/

namespace Verif.Abi

open Spec

variable {σ : Type}

/-! ### Expansion -/

theorem VFields.core_append : (fs gs : VFields) → (fs.append gs).core = fs.core.append gs.core
  | .nil, gs => by rw [VFields.append, VFields.core, Fields.append]
  | .cons l t fs, gs => by rw [VFields.append, VFields.core, VFields.core, Fields.append, core_append fs gs]

theorem VCases.core_append : (cs ds : VCases) → (cs.append ds).core = cs.core.append ds.core
  | .nil, ds => by rw [VCases.append, VCases.core, Cases.append]
  | .cons l t r cs, ds => by rw [VCases.append, VCases.core, VCases.core, Cases.append, core_append cs ds]

theorem VFields.names_core : (fs : VFields) → fs.core.labels = fs.names
  | .nil => by rw [VFields.core, Fields.labels, VFields.names]
  | .cons l t fs => by rw [VFields.core, Fields.labels, VFields.names, names_core fs]

theorem VCases.names_core : (cs : VCases) → cs.core.labels = cs.names
  | .nil => by rw [VCases.core, Cases.labels, VCases.names]
  | .cons l t r cs => by rw [VCases.core, Cases.labels, VCases.names, names_core cs]

theorem VCases.refined_core : (cs : VCases) → cs.core.refined = cs.refined
  | .nil => by rw [VCases.core, Cases.refined, VCases.refined]
  | .cons l t r cs => by rw [VCases.core, Cases.refined, VCases.refined, refined_core cs]

theorem tupleFields_append : (ts us : VTys) → (i : Nat) →
    tupleFields i (ts.append us) = (tupleFields i ts).append (tupleFields (i + ts.length) us)
  | .nil, us, i => by rw [VTys.append, tupleFields, VFields.append, VTys.length]; rfl
  | .cons t ts, us, i => by
    rw [VTys.append, tupleFields, tupleFields, VFields.append, tupleFields_append ts us (i + 1), VTys.length,
      show i + 1 + ts.length = i + (ts.length + 1) by omega]

theorem tupleFields_names : (ts : VTys) → (i : Nat) → (l : String) → l ∈ (tupleFields i ts).names →
    ∃ j, i ≤ j ∧ l = Nat.repr j
  | .nil, i, l, h => by rw [tupleFields, VFields.names] at h; cases h
  | .cons t ts, i, l, h => by
    rw [tupleFields, VFields.names, List.mem_cons] at h
    rcases h with rfl | h
    · exact ⟨i, Nat.le_refl _, rfl⟩
    · obtain ⟨j, h1, h2⟩ := tupleFields_names ts (i + 1) l h
      exact ⟨j, by omega, h2⟩

theorem enumCases_append : (ls ms : List String) → enumCases (ls ++ ms) = (enumCases ls).append (enumCases ms)
  | [], ms => by rw [enumCases, VCases.append]; rfl
  | l :: ls, ms => by rw [List.cons_append, enumCases, enumCases, VCases.append, enumCases_append ls ms]

theorem enumCases_refined : (ls : List String) → (enumCases ls).refined = []
  | [] => by rw [enumCases, VCases.refined]
  | l :: ls => by rw [enumCases, VCases.refined, enumCases_refined ls]; rfl

theorem enumCases_align : (ls : List String) → alignCases (enumCases ls).core = 1
  | [] => by rw [enumCases, VCases.core, alignCases]
  | l :: ls => by rw [enumCases, VCases.core, alignCases, enumCases_align ls]; rfl

theorem enumCases_laid : (ls : List String) → LaidCases (enumCases ls).core
  | [] => by rw [enumCases, VCases.core, LaidCases]; trivial
  | l :: ls => by rw [enumCases, VCases.core, LaidCases]; exact ⟨.inl rfl, enumCases_laid ls⟩

theorem enumCases_length : (ls : List String) → (enumCases ls).core.length = ls.length
  | [] => by rw [enumCases, VCases.core, Cases.length]; rfl
  | l :: ls => by rw [enumCases, VCases.core, Cases.length, enumCases_length ls]; rfl

/-! ### Records -/

/-- The fields added change nothing but what is under their labels. -/
theorem loadFields_only (E : Env σ) : (gs : Fields) → (p : U32) → (acc : List (String × Val)) → (s s2 : St σ) → (v : Val) →
    loadFields E gs p acc s = (.ok v, s2) → ∃ m, v = .map m ∧ ∀ l ∉ gs.labels, mapGet m l = mapGet acc l
  | .nil, p, acc, s, s2, v, h => by
    rw [loadFields] at h
    cases h
    exact ⟨acc, rfl, fun _ _ => rfl⟩
  | .cons l t gs, p, acc, s, s2, v, h => by
    rw [loadFields] at h
    obtain ⟨a, s3, h1, h⟩ := SM.bind_eq_ok.1 h
    obtain ⟨w, s4, h2, h⟩ := SM.bind_eq_ok.1 h
    obtain ⟨z, s5, h3, h⟩ := SM.bind_eq_ok.1 h
    obtain ⟨m, rfl, hm⟩ := loadFields_only E gs _ _ _ _ _ h
    refine ⟨m, rfl, fun k hk => ?_⟩
    rw [Fields.labels, List.mem_cons, not_or] at hk
    rw [hm k hk.2, mapGet_mapSet_ne _ _ _ _ hk.1]

theorem loadFields_extended (E : Env σ) (gs : Fields) : (fs : Fields) → (p : U32) → (acc : List (String × Val)) →
    (s s2 : St σ) → (v : Val) → loadFields E (fs.append gs) p acc s = (.ok v, s2) →
    ∃ m m' s1, v = .map m ∧ loadFields E fs p acc s = (.ok (.map m'), s1) ∧ ∀ l ∉ gs.labels, mapGet m l = mapGet m' l
  | .nil, p, acc, s, s2, v, h => by
    rw [Fields.append] at h
    obtain ⟨m, rfl, hm⟩ := loadFields_only E gs p acc s s2 v h
    exact ⟨m, acc, s, rfl, by rw [loadFields]; rfl, hm⟩
  | .cons l t fs, p, acc, s, s2, v, h => by
    rw [Fields.append, loadFields] at h
    obtain ⟨a, s3, h1, h⟩ := SM.bind_eq_ok.1 h
    obtain ⟨w, s4, h2, h⟩ := SM.bind_eq_ok.1 h
    obtain ⟨z, s5, h3, h⟩ := SM.bind_eq_ok.1 h
    obtain ⟨m, m', s1, rfl, e, hm⟩ := loadFields_extended E gs fs _ _ _ _ _ h
    refine ⟨m, m', s1, rfl, ?_, hm⟩
    rw [loadFields, SM.bind_ok h1, SM.bind_ok h2, SM.bind_ok h3, e]

theorem liftFields_only (E : Env σ) : (gs : Fields) → (acc : List (String × Val)) → (s s2 : LSt σ) → (v : Val) →
    liftFields E gs acc s = (.ok v, s2) → ∃ m, v = .map m ∧ ∀ l ∉ gs.labels, mapGet m l = mapGet acc l
  | .nil, acc, s, s2, v, h => by
    rw [liftFields] at h
    cases h
    exact ⟨acc, rfl, fun _ _ => rfl⟩
  | .cons l t gs, acc, s, s2, v, h => by
    rw [liftFields] at h
    obtain ⟨w, s4, h2, h⟩ := SM.bind_eq_ok.1 h
    obtain ⟨m, rfl, hm⟩ := liftFields_only E gs _ _ _ _ h
    refine ⟨m, rfl, fun k hk => ?_⟩
    rw [Fields.labels, List.mem_cons, not_or] at hk
    rw [hm k hk.2, mapGet_mapSet_ne _ _ _ _ hk.1]

theorem liftFields_extended (E : Env σ) (gs : Fields) : (fs : Fields) → (acc : List (String × Val)) →
    (s s2 : LSt σ) → (v : Val) → liftFields E (fs.append gs) acc s = (.ok v, s2) →
    ∃ m m' s1, v = .map m ∧ liftFields E fs acc s = (.ok (.map m'), s1) ∧ ∀ l ∉ gs.labels, mapGet m l = mapGet m' l
  | .nil, acc, s, s2, v, h => by
    rw [Fields.append] at h
    obtain ⟨m, rfl, hm⟩ := liftFields_only E gs acc s s2 v h
    exact ⟨m, acc, s, rfl, by rw [liftFields]; rfl, hm⟩
  | .cons l t fs, acc, s, s2, v, h => by
    rw [Fields.append, liftFields] at h
    obtain ⟨w, s4, h2, h⟩ := SM.bind_eq_ok.1 h
    obtain ⟨m, m', s1, rfl, e, hm⟩ := liftFields_extended E gs fs _ _ _ _ h
    refine ⟨m, m', s1, rfl, ?_, hm⟩
    rw [liftFields, SM.bind_ok h2, e]

/-- C150, records in memory. Where there is a record with more fields, there is the record without those at the end, with
the same values in the fields it has. -/
theorem load_record_extended (E : Env σ) (fs gs : VFields) (p : U32) (s s2 : St σ) (v : Val)
    (h : VT.load E (.record (fs.append gs)) p s = (.ok v, s2)) :
    ∃ m m' s1, v = .map m ∧ VT.load E (.record fs) p s = (.ok (.map m'), s1) ∧
      ∀ l ∉ gs.names, mapGet m l = mapGet m' l := by
  rw [VT.load, VT.core, load, VFields.core_append] at h
  obtain ⟨m, m', s1, e1, e2, e3⟩ := loadFields_extended E gs.core fs.core p [] s s2 v h
  rw [VFields.names_core] at e3
  exact ⟨m, m', s1, e1, by rw [VT.load, VT.core, load, e2], e3⟩

/-- C150, records among core values. -/
theorem lift_record_extended (E : Env σ) (fs gs : VFields) (s s2 : LSt σ) (v : Val)
    (h : VT.lift E (.record (fs.append gs)) s = (.ok v, s2)) :
    ∃ m m' s1, v = .map m ∧ VT.lift E (.record fs) s = (.ok (.map m'), s1) ∧
      ∀ l ∉ gs.names, mapGet m l = mapGet m' l := by
  rw [VT.lift, VT.core, liftFlat, VFields.core_append] at h
  obtain ⟨m, m', s1, e1, e2, e3⟩ := liftFields_extended E gs.core fs.core [] s s2 v h
  rw [VFields.names_core] at e3
  exact ⟨m, m', s1, e1, by rw [VT.lift, VT.core, liftFlat, e2], e3⟩

/-- C150, tuples in memory. -/
theorem load_tuple_extended (E : Env σ) (ts us : VTys) (p : U32) (s s2 : St σ) (v : Val)
    (h : VT.load E (.tuple (ts.append us)) p s = (.ok v, s2)) :
    ∃ m m' s1, v = .map m ∧ VT.load E (.tuple ts) p s = (.ok (.map m'), s1) ∧
      ∀ i < ts.length, mapGet m (Nat.repr i) = mapGet m' (Nat.repr i) := by
  have e : ∀ t, VT.load E (.tuple t) = VT.load E (.record (tupleFields 0 t)) := fun t => by
    funext q; rw [VT.load, VT.load, ← core_despecialize (.tuple t), despecialize]
  rw [e, tupleFields_append] at h
  obtain ⟨m, m', s1, e1, e2, e3⟩ := load_record_extended E _ _ p s s2 v h
  refine ⟨m, m', s1, e1, by rw [e, e2], fun i hi => e3 _ fun c => ?_⟩
  obtain ⟨j, h1, h2⟩ := tupleFields_names us _ _ c
  have := repr_inj (show toString i = toString j from h2)
  omega

/-- C150, tuples among core values. -/
theorem lift_tuple_extended (E : Env σ) (ts us : VTys) (s s2 : LSt σ) (v : Val)
    (h : VT.lift E (.tuple (ts.append us)) s = (.ok v, s2)) :
    ∃ m m' s1, v = .map m ∧ VT.lift E (.tuple ts) s = (.ok (.map m'), s1) ∧
      ∀ i < ts.length, mapGet m (Nat.repr i) = mapGet m' (Nat.repr i) := by
  have e : ∀ t, VT.lift E (.tuple t) = VT.lift E (.record (tupleFields 0 t)) := fun t => by
    rw [VT.lift, VT.lift, ← core_despecialize (.tuple t), despecialize]
  rw [e, tupleFields_append] at h
  obtain ⟨m, m', s1, e1, e2, e3⟩ := lift_record_extended E _ _ s s2 v h
  refine ⟨m, m', s1, e1, by rw [e, e2], fun i hi => e3 _ fun c => ?_⟩
  obtain ⟨j, h1, h2⟩ := tupleFields_names us _ _ c
  have := repr_inj (show toString i = toString j from h2)
  omega

/-! ### Variants -/

theorem Cases.length_append : (cs ds : Cases) → (cs.append ds).length = cs.length + ds.length
  | .nil, ds => by rw [Cases.append, Cases.length]; omega
  | .cons l t r cs, ds => by rw [Cases.append, Cases.length, Cases.length, length_append cs ds]; omega

theorem findCaseIndex_lt : (cs : Cases) → (k : String) → (i : Nat) → findCaseIndex cs k = some i → i < cs.length
  | .nil, k, i, h => by rw [findCaseIndex] at h; cases h
  | .cons l t r cs, k, i, h => by
    rw [findCaseIndex] at h
    rw [Cases.length]
    split at h
    · cases h; omega
    · rcases hf : findCaseIndex cs k with _ | j
      · rw [hf] at h; cases h
      · rw [hf] at h
        have := findCaseIndex_lt cs k j hf
        simp only [Option.map_some, Option.some.injEq] at h
        omega

theorem findCaseIndex_append : (cs ds : Cases) → (k : String) → (k ∈ ds.labels → k ∈ cs.labels) →
    findCaseIndex (cs.append ds) k = findCaseIndex cs k
  | .nil, ds, k, h => by
    rw [Cases.append, findCaseIndex]
    exact (findCaseIndex_none ds k).2 fun c => by have := h c; rw [Cases.labels] at this; cases this
  | .cons l t r cs, ds, k, h => by
    rw [Cases.append, findCaseIndex, findCaseIndex]
    split
    · rfl
    · rename_i hl
      rw [findCaseIndex_append cs ds k fun c => by
        have := h c
        rw [Cases.labels, List.mem_cons] at this
        exact this.resolve_left fun e => hl e.symm]

theorem get_append : (cs ds : Cases) → (i : Nat) → i < cs.length → (cs.append ds).get? i = cs.get? i
  | .nil, ds, i, h => by rw [Cases.length] at h; omega
  | .cons l t r cs, ds, 0, h => by rw [Cases.append, Cases.get?, Cases.get?]
  | .cons l t r cs, ds, i + 1, h => by
    rw [Cases.length] at h
    rw [Cases.append, Cases.get?, Cases.get?, get_append cs ds i (by omega)]

theorem get_refined : (cs : Cases) → (i : Nat) → (l : String) → (t : Ty) → (r : String) → cs.get? i = some (l, t, some r) →
    r ∈ cs.refined
  | .nil, i, l, t, r, h => by rw [Cases.get?] at h; cases h
  | .cons l' t' r' cs, 0, l, t, r, h => by
    rw [Cases.get?] at h
    cases h
    rw [Cases.refined]; simp
  | .cons l' t' r' cs, i + 1, l, t, r, h => by
    rw [Cases.get?] at h
    rw [Cases.refined]
    exact List.mem_append_right _ (get_refined cs i l t r h)

theorem labelLoop_append (cs ds : Cases) (hd : ∀ r ∈ cs.refined, r ∈ ds.labels → r ∈ cs.labels) : (n m : Nat) → n ≤ m →
    (l : String) → (r : Option String) → (∀ x ∈ r, x ∈ cs.refined) → (out : String) →
    labelLoop cs n l r = some out → labelLoop (cs.append ds) m l r = some out
  | 0, m, hm, l, r, hr, out, h => by rw [labelLoop] at h; cases h
  | n + 1, 0, hm, l, r, hr, out, h => by omega
  | n + 1, m + 1, hm, l, none, hr, out, h => by rw [labelLoop] at h ⊢; exact h
  | n + 1, m + 1, hm, l, some r, hr, out, h => by
    rw [labelLoop] at h ⊢
    rw [findCaseIndex_append cs ds r (hd r (hr r rfl))]
    rcases hf : findCaseIndex cs r with _ | i
    · rw [hf] at h; exact h
    · rw [hf] at h
      simp only at h ⊢
      rw [get_append cs ds i (findCaseIndex_lt cs r i hf)]
      rcases hg : cs.get? i with _ | ⟨l', t', r'⟩
      · rw [hg] at h; exact h
      · rw [hg] at h
        refine labelLoop_append cs ds hd n m (by omega) _ r' (fun x hx => ?_) out h
        cases hx
        exact get_refined cs i l' t' x hg

theorem label_append (cs ds : Cases) (hd : ∀ r ∈ cs.refined, r ∈ ds.labels → r ∈ cs.labels) (l : String) (r : Option String)
    (hr : ∀ x ∈ r, x ∈ cs.refined) (out : String) (h : caseLabelWithRefinements cs l r = .ok out) :
    caseLabelWithRefinements (cs.append ds) l r = .ok out := by
  unfold caseLabelWithRefinements at h ⊢
  rcases hl : labelLoop cs (cs.length + 1) l r with _ | x
  · rw [hl] at h; cases h
  · rw [hl] at h
    rw [labelLoop_append cs ds hd _ _ (by rw [Cases.length_append]; omega) l r hr x hl]
    exact h

theorem loadCase_append (E : Env σ) (all ds : Cases) (hd : ∀ r ∈ all.refined, r ∈ ds.labels → r ∈ all.labels) : (cs : Cases) →
    (∀ r ∈ cs.refined, r ∈ all.refined) → (i : Nat) → (p : U32) → (s s1 : St σ) → (v : Val) →
    loadCase E all cs i p s = (.ok v, s1) → loadCase E (all.append ds) (cs.append ds) i p s = (.ok v, s1)
  | .nil, hc, i, p, s, s1, v, h => by rw [loadCase] at h; cases h
  | .cons l t r cs, hc, 0, p, s, s1, v, h => by
    rw [loadCase] at h
    obtain ⟨lab, s2, h1, h⟩ := SM.bind_eq_ok.1 h
    rw [SM.lift_def] at h1
    injection h1 with h1 h2
    subst h2
    rw [Cases.append, loadCase, label_append all ds hd l r (fun x hx => hc x (by
      rw [Cases.refined]; cases hx; simp)) lab h1, SM.bind_ok (SM.lift_def _ _)]
    exact h
  | .cons l t r cs, hc, i + 1, p, s, s1, v, h => by
    rw [loadCase] at h
    rw [Cases.append, loadCase]
    exact loadCase_append E all ds hd cs (fun x hx => hc x (by
      rw [Cases.refined]; exact List.mem_append_right _ hx)) i p s s1 v h

theorem liftCase_append (E : Env σ) (all ds : Cases) (hd : ∀ r ∈ all.refined, r ∈ ds.labels → r ∈ all.labels) : (cs : Cases) →
    (∀ r ∈ cs.refined, r ∈ all.refined) → (i : Nat) → (fts : List Kind) → (s s1 : LSt σ) → (v : Val) →
    liftCase E all cs i fts s = (.ok v, s1) → liftCase E (all.append ds) (cs.append ds) i fts s = (.ok v, s1)
  | .nil, hc, i, p, s, s1, v, h => by rw [liftCase] at h; cases h
  | .cons l t r cs, hc, 0, fts, s, s1, v, h => by
    have hl := label_append all ds hd l r (fun x hx => hc x (by rw [Cases.refined]; cases hx; simp))
    rw [liftCase] at h
    rw [Cases.append, liftCase]
    split at h
    · rename_i ht
      rw [if_pos ht]
      obtain ⟨u, s2, h1, h⟩ := SM.bind_eq_ok.1 h
      obtain ⟨lab, s3, h2, h⟩ := SM.bind_eq_ok.1 h
      rw [SM.lift_def] at h2
      injection h2 with h2 h3
      subst h3
      rw [SM.bind_ok h1, hl lab h2, SM.bind_ok (SM.lift_def _ _)]
      exact h
    · rename_i ht
      rw [if_neg ht]
      obtain ⟨u, s2, h1, h⟩ := SM.bind_eq_ok.1 h
      obtain ⟨w, s4, h4, h⟩ := SM.bind_eq_ok.1 h
      obtain ⟨f, s5, h5, h⟩ := SM.bind_eq_ok.1 h
      obtain ⟨u', s6, h6, h⟩ := SM.bind_eq_ok.1 h
      obtain ⟨lab, s3, h2, h⟩ := SM.bind_eq_ok.1 h
      rw [SM.lift_def] at h2
      injection h2 with h2 h3
      subst h3
      rw [SM.bind_ok h1, SM.bind_ok h4, SM.bind_ok h5, SM.bind_ok h6, hl lab h2, SM.bind_ok (SM.lift_def _ _)]
      exact h
  | .cons l t r cs, hc, i + 1, p, s, s1, v, h => by
    rw [liftCase] at h
    rw [Cases.append, liftCase]
    exact liftCase_append E all ds hd cs (fun x hx => hc x (by
      rw [Cases.refined]; exact List.mem_append_right _ hx)) i p s s1 v h

theorem laid_left : (cs ds : Cases) → LaidCases (cs.append ds) → LaidCases cs
  | .nil, ds, h => by rw [LaidCases]; trivial
  | .cons l t r cs, ds, h => by
    rw [Cases.append, LaidCases] at h
    rw [LaidCases]
    exact ⟨h.1, laid_left cs ds h.2⟩

theorem disc_same (n k : Nat) (h : discBytes k = discBytes n) (h1 : 1 ≤ n) (hk : n ≤ k) (h2 : k ≤ 2 ^ 24) :
    discriminantType k = discriminantType n := by
  rw [discriminantType_eq k (by omega) h2, discriminantType_eq n h1 (by omega)]
  unfold discBytes at h
  congr 1
  by_cases k8 : k ≤ 2 ^ 8
  · rw [if_pos k8, if_pos (by omega)]
  · rw [if_neg k8] at h ⊢
    have n8 : ¬ n ≤ 2 ^ 8 := fun c => by rw [if_pos c] at h; split at h <;> omega
    rw [if_neg n8] at h ⊢
    by_cases k16 : k ≤ 2 ^ 16
    · rw [if_pos k16, if_pos (by omega)]
    · rw [if_neg k16] at h ⊢
      rw [if_neg (fun c => by rw [if_pos c] at h; omega)]

/-- C150, variants in memory. A value of a variant is read as the same value, with the same handles taken, by the variant
that has more cases at the end, if the discriminant keeps its width and the payloads their place. -/
theorem load_variant_extended (E : Env σ) (cs ds : VCases) (hl : Laid (VT.core (.variant (cs.append ds)))) (hf : Extends cs ds)
    (p : U32) (s s1 : St σ) (v : Val) (h : VT.load E (.variant cs) p s = (.ok v, s1)) :
    VT.load E (.variant (cs.append ds)) p s = (.ok v, s1) := by
  obtain ⟨f1, f2, f3⟩ := hf
  unfold VCases.payloadAlign at f2
  rw [← VCases.core_length, ← VCases.core_length] at f1
  rw [← VCases.refined_core, ← VCases.names_core, ← VCases.names_core] at f3
  rw [VT.core, VCases.core_append] at hl
  rw [VCases.core_append] at f1 f2
  unfold VT.load at h ⊢
  rw [VT.core] at h ⊢
  rw [VCases.core_append]
  generalize cs.core = cs at *
  generalize ds.core = ds at *
  rw [Laid] at hl
  obtain ⟨-, l2, l3⟩ := hl
  have hlen := Cases.length_append cs ds
  rw [load] at h ⊢
  obtain ⟨d, s2, e1, h⟩ := SM.bind_eq_ok.1 h
  rw [SM.lift_def] at e1
  injection e1 with e1 e2
  subst e2
  have hn := discriminantType_ok _ _ e1
  rw [disc_same cs.length _ f1 hn.1 (by omega) l2, e1, SM.bind_ok (SM.lift_def _ _)]
  obtain ⟨i, s3, e3, h⟩ := SM.bind_eq_ok.1 h
  rw [SM.bind_ok e3]
  obtain ⟨z, s4, e4, h⟩ := SM.bind_eq_ok.1 h
  rw [SM.bind_ok e4]
  rw [SM.ite_app] at h ⊢
  split at h
  · cases h
  · rename_i hi
    rw [BitVec.toNat_ofNat, Nat.mod_eq_of_lt (by omega)] at hi
    rw [if_neg (by rw [BitVec.toNat_ofNat, Nat.mod_eq_of_lt (by omega)]; omega)]
    rw [maxCaseAlignment_eq _ l3 1 (.inl rfl), f2, ← maxCaseAlignment_eq _ (laid_left _ _ l3) 1 (.inl rfl)]
    obtain ⟨a, s5, e5, h⟩ := SM.bind_eq_ok.1 h
    rw [SM.bind_ok e5]
    exact loadCase_append E cs ds f3 cs (fun _ hr => hr) _ _ _ _ _ h

/-- C150, variants among core values: if the core types are the same. -/
theorem lift_variant_extended (E : Env σ) (cs ds : VCases)
    (hk : VT.flatten (.variant (cs.append ds)) = VT.flatten (.variant cs))
    (hr : ∀ r ∈ cs.refined, r ∈ ds.names → r ∈ cs.names) (s s1 : LSt σ) (v : Val)
    (h : VT.lift E (.variant cs) s = (.ok v, s1)) : VT.lift E (.variant (cs.append ds)) s = (.ok v, s1) := by
  unfold VT.flatten at hk
  unfold VT.lift at h ⊢
  rw [VT.core, VT.core, VCases.core_append] at hk
  rw [VT.core] at h ⊢
  rw [VCases.core_append]
  rw [← VCases.refined_core, ← VCases.names_core, ← VCases.names_core] at hr
  generalize cs.core = cs at *
  generalize ds.core = ds at *
  rw [liftFlat] at h ⊢
  rw [hk]
  obtain ⟨fts, s2, e1, h⟩ := SM.bind_eq_ok.1 h
  rw [SM.bind_ok e1]
  cases fts with
  | nil => exact h
  | cons k fts =>
    simp only at h ⊢
    rw [SM.ite_app] at h ⊢
    split at h
    · cases h
    · rename_i hk'
      rw [if_neg hk']
      obtain ⟨i, s3, e3, h⟩ := SM.bind_eq_ok.1 h
      rw [SM.bind_ok e3]
      rw [SM.ite_app] at h ⊢
      split at h
      · cases h
      · rename_i hi
        rw [if_neg (by rw [Cases.length_append]; omega)]
        exact liftCase_append E cs ds hr cs (fun _ hr => hr) _ _ _ _ _ h

/-- C150, enums in memory. -/
theorem load_enum_extended (E : Env σ) (ls ms : List String) (hn : (ls ++ ms).length ≤ 2 ^ 24)
    (hw : discBytes (ls ++ ms).length = discBytes ls.length) (p : U32) (s s1 : St σ) (v : Val)
    (h : VT.load E (.enum ls) p s = (.ok v, s1)) : VT.load E (.enum (ls ++ ms)) p s = (.ok v, s1) := by
  have e : ∀ t, VT.load E (.enum t) = VT.load E (.variant (enumCases t)) := fun t => by
    funext q; rw [VT.load, VT.load, ← core_despecialize (.enum t), despecialize]
  rw [e] at h ⊢
  have hne : 1 ≤ ls.length := by
    unfold VT.load at h
    rw [VT.core, load] at h
    obtain ⟨d, s2, e1, -⟩ := SM.bind_eq_ok.1 h
    rw [SM.lift_def] at e1
    injection e1 with e1 e2
    have := (discriminantType_ok _ _ e1).1
    rwa [enumCases_length] at this
  rw [enumCases_append]
  refine load_variant_extended E (enumCases ls) (enumCases ms) ?_ ⟨?_, ?_, ?_⟩ p s s1 v h
  · rw [← enumCases_append, VT.core, Laid, enumCases_length]
    exact ⟨by rw [List.length_append]; omega, hn, enumCases_laid _⟩
  · rw [← enumCases_append, ← VCases.core_length, ← VCases.core_length, enumCases_length, enumCases_length, hw]
  · unfold VCases.payloadAlign
    rw [← enumCases_append, enumCases_align, enumCases_align]
  · intro r hr
    rw [enumCases_refined] at hr
    cases hr

theorem unionCases_append : (ts us : VTys) → (i : Nat) →
    unionCases i (ts.append us) = (unionCases i ts).append (unionCases (i + ts.length) us)
  | .nil, us, i => by rw [VTys.append, unionCases, VCases.append, VTys.length]; rfl
  | .cons t ts, us, i => by
    rw [VTys.append, unionCases, unionCases, VCases.append, unionCases_append ts us (i + 1), VTys.length,
      show i + 1 + ts.length = i + (ts.length + 1) by omega]

theorem unionCases_refined : (ts : VTys) → (i : Nat) → (unionCases i ts).refined = []
  | .nil, i => by rw [unionCases, VCases.refined]
  | .cons t ts, i => by rw [unionCases, VCases.refined, unionCases_refined ts]; rfl

theorem unionCases_length : (ts : VTys) → (i : Nat) → (unionCases i ts).length = ts.length
  | .nil, i => by rw [unionCases, VCases.length, VTys.length]
  | .cons t ts, i => by rw [unionCases, VCases.length, VTys.length, unionCases_length ts]

/-- C150, unions in memory. -/
theorem load_union_extended (E : Env σ) (ts us : VTys) (hl : Laid (VT.core (.union (ts.append us))))
    (hw : discBytes (ts.append us).length = discBytes ts.length)
    (hp : alignCases (VTys.cases 0 (ts.append us)) = alignCases (VTys.cases 0 ts)) (p : U32) (s s1 : St σ) (v : Val)
    (h : VT.load E (.union ts) p s = (.ok v, s1)) : VT.load E (.union (ts.append us)) p s = (.ok v, s1) := by
  have e : ∀ t, VT.load E (.union t) = VT.load E (.variant (unionCases 0 t)) := fun t => by
    funext q; rw [VT.load, VT.load, ← core_despecialize (.union t), despecialize]
  rw [e] at h ⊢
  rw [← core_despecialize, despecialize, unionCases_append] at hl
  rw [unionCases_append]
  refine load_variant_extended E _ _ hl ⟨?_, ?_, ?_⟩ p s s1 v h
  · rw [← unionCases_append, unionCases_length, unionCases_length, hw]
  · unfold VCases.payloadAlign
    rw [← unionCases_append, unionCases_core, unionCases_core, hp]
  · intro r hr
    rw [unionCases_refined] at hr
    cases hr

/-! ### Flags -/

/-- The bytes of flags, in any memory. -/
theorem flagsWord_any (n : Nat) (hn : n ≤ 64) (ptr : U32) (s : St σ) :
    (∃ x, loadFlagsWord ptr (sizeFlags n) s = (.ok x, s) ∧ x.toNat = natAt s.mem ptr.toNat (sizeFlags n).toNat ∧
      n ≤ 8 * (sizeFlags n).toNat ∧ (n ≠ 0 → s.mem.slice ptr (ptr + sizeFlags n) ≠ .panic)) ∨
    n ≠ 0 ∧ loadFlagsWord ptr (sizeFlags n) s = (.panic, s) ∧ s.mem.slice ptr (ptr + sizeFlags n) = .panic := by
  have hr : ∀ k, natAt s.mem ptr.toNat k < 256 ^ k := fun k => by
    rw [natAt_eq]
    have := leNat_lt (s.mem.read ptr.toNat k); rwa [Mem.read_length] at this
  have key : ∀ (t : Ty) (z : U32), Abi.size t = .ok z →
      (loadInt ptr t s = (.ok (intVal t (natAt s.mem ptr.toNat z.toNat)), s) ∧ s.mem.slice ptr (ptr + z) ≠ .panic) ∨
      loadInt ptr t s = (.panic, s) ∧ s.mem.slice ptr (ptr + z) = .panic := fun t z hz => by
    rcases slice_cases s.mem ptr (ptr + z) with ⟨e, -⟩ | e
    · left
      unfold loadInt
      rw [hz, SM.bind_ok (SM.lift_def _ _), SM.bind_ok (show loadBytes ptr z s =
        (.ok (leNat (s.mem.read ptr.toNat z.toNat)), s) by rw [loadBytes_eq, e]), natAt_eq]
      exact ⟨rfl, by rw [e]; simp⟩
    · right
      unfold loadInt
      rw [hz, SM.bind_ok (SM.lift_def _ _), SM.bind_panic (show loadBytes ptr z s = (.panic, s) by rw [loadBytes_eq, e])]
      exact ⟨rfl, e⟩
  rcases sizeFlags_eq n hn with ⟨h, e⟩ | ⟨h0, h, e⟩ | ⟨h0, h, e⟩ | ⟨h0, h, e⟩ | ⟨h0, h, e⟩ <;> rw [e]
  · exact .inl ⟨0, rfl, rfl, by omega, fun c => absurd h c⟩
  · have h1 := hr 1
    rcases key .u8 1 rfl with ⟨l, l'⟩ | ⟨l, l'⟩
    · refine .inl ⟨(BitVec.ofNat 8 (natAt s.mem ptr.toNat 1)).setWidth 64, ?_, ?_, by show _ ≤ 8 * 1; omega, fun _ => l'⟩
      · unfold loadFlagsWord; exact SM.bind_ok (m := loadInt ptr .u8) l
      · simp only [BitVec.toNat_setWidth, BitVec.toNat_ofNat]
        show _ = natAt s.mem ptr.toNat 1
        omega
    · exact .inr ⟨by omega, by unfold loadFlagsWord; exact SM.bind_panic (m := loadInt ptr .u8) l, l'⟩
  · have h1 := hr 2
    rcases key .u16 2 rfl with ⟨l, l'⟩ | ⟨l, l'⟩
    · refine .inl ⟨(BitVec.ofNat 16 (natAt s.mem ptr.toNat 2)).setWidth 64, ?_, ?_, by show _ ≤ 8 * 2; omega, fun _ => l'⟩
      · unfold loadFlagsWord; exact SM.bind_ok (m := loadInt ptr .u16) l
      · simp only [BitVec.toNat_setWidth, BitVec.toNat_ofNat]
        show _ = natAt s.mem ptr.toNat 2
        omega
    · exact .inr ⟨by omega, by unfold loadFlagsWord; exact SM.bind_panic (m := loadInt ptr .u16) l, l'⟩
  · have h1 := hr 4
    rcases key .u32 4 rfl with ⟨l, l'⟩ | ⟨l, l'⟩
    · refine .inl ⟨(BitVec.ofNat 32 (natAt s.mem ptr.toNat 4)).setWidth 64, ?_, ?_, by show _ ≤ 8 * 4; omega, fun _ => l'⟩
      · unfold loadFlagsWord; exact SM.bind_ok (m := loadInt ptr .u32) l
      · simp only [BitVec.toNat_setWidth, BitVec.toNat_ofNat]
        show _ = natAt s.mem ptr.toNat 4
        omega
    · exact .inr ⟨by omega, by unfold loadFlagsWord; exact SM.bind_panic (m := loadInt ptr .u32) l, l'⟩
  · have h1 := hr 8
    rcases key .u64 8 rfl with ⟨l, l'⟩ | ⟨l, l'⟩
    · refine .inl ⟨BitVec.ofNat 64 (natAt s.mem ptr.toNat 8), ?_, ?_, by show _ ≤ 8 * 8; omega, fun _ => l'⟩
      · unfold loadFlagsWord; exact SM.bind_ok (m := loadInt ptr .u64) l
      · simp only [BitVec.toNat_ofNat]
        show _ = natAt s.mem ptr.toNat 8
        omega
    · exact .inr ⟨by omega, by unfold loadFlagsWord; exact SM.bind_panic (m := loadInt ptr .u64) l, l'⟩

theorem slice_less (m : Mem) (p a b : U32) (hab : a.toNat ≤ b.toNat) (ha : 0 < b.toNat) (h : m.slice p (p + b) ≠ .panic)
    : m.slice p (p + a) ≠ .panic := by
  rcases slice_cases m p (p + b) with ⟨-, h1, h2⟩ | h'
  · rw [BitVec.toNat_add] at h1 h2
    have := p.isLt
    have := b.isLt
    rw [slice_ok m p a (by omega) (by omega)]
    simp
  · exact absurd h' h

theorem sizeFlags_mono (n k : Nat) (h : n ≤ k) (hk : k ≤ 64) : (sizeFlags n).toNat ≤ (sizeFlags k).toNat := by
  rcases sizeFlags_eq n (by omega) with ⟨h1, e⟩ | ⟨h0, h1, e⟩ | ⟨h0, h1, e⟩ | ⟨h0, h1, e⟩ | ⟨h0, h1, e⟩ <;>
  rcases sizeFlags_eq k hk with ⟨h3, e'⟩ | ⟨h2, h3, e'⟩ | ⟨h2, h3, e'⟩ | ⟨h2, h3, e'⟩ | ⟨h2, h3, e'⟩ <;>
  rw [e, e'] <;> first | omega | decide

/-- C150, flags in memory. Where there are flags with more labels, there are the flags without those at the end. -/
theorem load_flags_extended (E : Env σ) (ls ms : List String) (hn : (ls ++ ms).length ≤ 64) (hd : (ls ++ ms).Nodup) (p : U32)
    (s s2 : St σ) (v : Val) (h : VT.load E (.flags (ls ++ ms)) p s = (.ok v, s2)) :
    ∃ m m', v = .map m ∧ s2 = s ∧ VT.load E (.flags ls) p s = (.ok (.map m'), s) ∧ m'.map Prod.fst = ls ∧
      ∀ l ∈ ls, mapGet m l = mapGet m' l := by
  have hlen : ls.length ≤ (ls ++ ms).length := by rw [List.length_append]; omega
  unfold VT.load at h ⊢
  rw [VT.core, load, loadFlags] at h
  rw [VT.core, load, loadFlags]
  rcases flagsWord_any _ hn p s with ⟨x, e1, e2, e3, e4⟩ | ⟨-, e1, -⟩
  · rw [SM.bind_ok e1] at h
    cases h
    rcases flagsWord_any ls.length (by omega) p s with ⟨y, f1, f2, f3, -⟩ | ⟨f0, f1, f2⟩
    · refine ⟨_, unpackFlagsOnto ls y [], rfl, rfl, by rw [SM.bind_ok f1]; rfl, ?_, fun l hl => ?_⟩
      · rw [unpack_keys ls y [] (List.nodup_append.1 hd).1 (by simp)]; rfl
      · obtain ⟨i, hi⟩ := List.getElem?_of_mem hl
        have hi' := (List.getElem?_eq_some_iff.1 hi).1
        rw [unpack_get _ x [] hd i l (by rw [List.getElem?_append_left hi']; exact hi),
          unpack_get ls y [] (List.nodup_append.1 hd).1 i l hi]
        congr 1
        rw [BitVec.getLsbD, BitVec.getLsbD, e2, f2, natAt_testBit _ _ _ _ (by omega), natAt_testBit _ _ _ _ (by omega)]
    · exfalso
      refine slice_less s.mem p _ (sizeFlags (ls ++ ms).length) (sizeFlags_mono _ _ hlen hn) (by omega) (e4 (by omega)) f2
  · rw [SM.bind_panic e1] at h
    cases h

theorem flagWords_low : (n k : Nat) → (x y : U64) → (s s' : LSt σ) → liftFlagWords n k x s = (.ok y, s') →
    ∀ i < k, y.getLsbD i = x.getLsbD i
  | 0, k, x, y, s, s', h, i, hi => by
    rw [liftFlagWords] at h
    cases h; rfl
  | n + 1, k, x, y, s, s', h, i, hi => by
    rw [liftFlagWords] at h
    obtain ⟨w, s1, h1, h⟩ := SM.bind_eq_ok.1 h
    rw [flagWords_low n (k + 32) _ y s1 s' h i (by omega), BitVec.getLsbD_or, BitVec.getLsbD_shiftLeft]
    simp [hi]

theorem flagWords_extended : (n b k : Nat) → (x y : U64) → (s s' : LSt σ) → liftFlagWords (n + b) k x s = (.ok y, s') →
    ∃ z s1, liftFlagWords n k x s = (.ok z, s1) ∧ ∀ i < k + 32 * n, y.getLsbD i = z.getLsbD i
  | 0, b, k, x, y, s, s', h => by
    rw [Nat.zero_add] at h
    exact ⟨x, s, by rw [liftFlagWords]; rfl, fun i hi => flagWords_low b k x y s s' h i (by omega)⟩
  | n + 1, b, k, x, y, s, s', h => by
    rw [show n + 1 + b = n + b + 1 by omega, liftFlagWords] at h
    obtain ⟨w, s1, h1, h⟩ := SM.bind_eq_ok.1 h
    obtain ⟨z, s2, e, hz⟩ := flagWords_extended n b (k + 32) _ y s1 s' h
    exact ⟨z, s2, by rw [liftFlagWords, SM.bind_ok h1, e], fun i hi => hz i (by omega)⟩

/-- C150, flags among core values; any number of labels. -/
theorem lift_flags_extended (E : Env σ) (ls ms : List String) (hn : (ls ++ ms).length < 2 ^ 32) (hd : (ls ++ ms).Nodup)
    (s s2 : LSt σ) (v : Val) (h : VT.lift E (.flags (ls ++ ms)) s = (.ok v, s2)) :
    ∃ m m' s1, v = .map m ∧ VT.lift E (.flags ls) s = (.ok (.map m'), s1) ∧ m'.map Prod.fst = ls ∧
      ∀ l ∈ ls, mapGet m l = mapGet m' l := by
  have hlen : ls.length ≤ (ls ++ ms).length := by rw [List.length_append]; omega
  have hw : ∀ n < 2 ^ 32, (numI32Flags n).toNat = (n + 31) / 32 := fun n h => by
    rw [numI32Flags, BitVec.toNat_ofNat, Nat.mod_eq_of_lt (by omega)]
  unfold VT.lift at h ⊢
  rw [VT.core, liftFlat, hw _ hn] at h
  rw [VT.core, liftFlat, hw _ (by omega)]
  obtain ⟨x, s3, e, h⟩ := SM.bind_eq_ok.1 h
  cases h
  obtain ⟨b, hb⟩ := Nat.exists_eq_add_of_le (show (ls.length + 31) / 32 ≤ ((ls ++ ms).length + 31) / 32 by omega)
  rw [hb] at e
  obtain ⟨y, s1, e1, e2⟩ := flagWords_extended _ b 0 0 x s _ e
  refine ⟨_, unpackFlagsOnto ls y [], s1, rfl, by rw [SM.bind_ok e1]; rfl, ?_, fun l hl => ?_⟩
  · rw [unpack_keys ls y [] (List.nodup_append.1 hd).1 (by simp)]; rfl
  · obtain ⟨i, hi⟩ := List.getElem?_of_mem hl
    have hi' := (List.getElem?_eq_some_iff.1 hi).1
    rw [unpack_get _ x [] hd i l (by rw [List.getElem?_append_left hi']; exact hi),
      unpack_get ls y [] (List.nodup_append.1 hd).1 i l hi, e2 i (by omega)]

/-! ### Where it stops -/

/-- A memory whose first bytes are given. -/
def bytesMem (bs : List Byte) : Mem := ⟨fun p => bs.getD p 0, 256, 256⟩

/-- **Where it stops, 1.** A label more than 256 widens the discriminant of an enum, and what was read as a case before
is refused or read as another one. -/
theorem enum_width_crossed :
    let ls := (List.range 256).map toString
    let s : St Nat := { bumpSt with mem := bytesMem [1, 1] }
    ((VT.load (bumpEnv "utf-8") (.enum ls) 0 s).1 matches .ok (.map [("1", .nil)])) ∧
    ((VT.load (bumpEnv "utf-8") (.enum (ls ++ ["256"])) 0 s).1 matches .err) ∧
    ((VT.load (bumpEnv "utf-8") (.enum (ls ++ ["256"])) 0 { bumpSt with mem := bytesMem [0, 1] }).1 matches
      .ok (.map [("256", .nil)])) := by
  decide +kernel

/-- **Where it stops, 2.** A case with a payload of greater alignment moves the payloads of the other cases. -/
theorem variant_payload_moved :
    let s : St Nat := { bumpSt with mem := bytesMem [0, 7, 0, 0, 9] }
    (VT.load (bumpEnv "utf-8") (.variant (.cons "a" .u8 none .nil)) 0 s).1 = .ok (.map [("a", .u8 7)]) ∧
    (VT.load (bumpEnv "utf-8") (.variant (.cons "a" .u8 none (.cons "b" .u32 none .nil))) 0 s).1 = .ok (.map [("a", .u8 9)]) :=
  ⟨rfl, rfl⟩

/-- **Where it stops, 3.** Inside a list the elements after the first move. -/
theorem list_elements_moved :
    let s : St Nat := { bumpSt with mem := bytesMem [8, 0, 0, 0, 2, 0, 0, 0, 10, 20, 30, 40] }
    (VT.load (bumpEnv "utf-8") (.list (.record (.cons "a" .u8 (.cons "b" .u8 .nil)))) 0 s).1 =
      .ok (.list [.map [("a", .u8 10), ("b", .u8 20)], .map [("a", .u8 30), ("b", .u8 40)]]) ∧
    (VT.load (bumpEnv "utf-8") (.list (.record (.cons "a" .u8 .nil))) 0 s).1 =
      .ok (.list [.map [("a", .u8 10)], .map [("a", .u8 20)]]) :=
  ⟨rfl, rfl⟩

/-- **Where it stops, 4.** A new case with a label that an old case refines, though there was no such case, changes the
label under which the old case is given. -/
theorem refined_label_changed :
    let s : St Nat := { bumpSt with mem := bytesMem [0] }
    (VT.load (bumpEnv "utf-8") (.variant (.cons "a" .nil (some "b") .nil)) 0 s).1 = .ok (.map [("a", .nil)]) ∧
    (VT.load (bumpEnv "utf-8") (.variant (.cons "a" .nil (some "b") (.cons "b" .nil none .nil))) 0 s).1 =
      .ok (.map [("a|b", .nil)]) :=
  ⟨rfl, rfl⟩

/-! ### The hypotheses are met -/

/-- A record with a string, of which the last two fields are new; a tuple. -/
example : let s : St Nat := { bumpSt with mem := bytesMem [8, 0, 0, 0, 2, 0, 0, 0, 104, 105, 5] }
    ((VT.load (bumpEnv "utf-8") (.record ((VFields.cons "s" .string .nil).append (.cons "x" .u16 (.cons "y" .bool .nil)))) 0 s).1 matches
      .ok (.map [("s", .str "hi"), ("x", .u16 _), ("y", .bool true)])) ∧
    (VT.load (bumpEnv "utf-8") (.tuple ((VTys.cons .u8 .nil).append (.cons .u16 .nil))) 8 s).1 =
      .ok (.map [("0", .u8 104), ("1", .u16 5)]) := by
  refine ⟨by decide +kernel, rfl⟩

/-- A variant with a refinement and a payload, extended by a case with a payload and one without. -/
example : Extends (.cons "a" .u32 none (.cons "b" .nil (some "a") .nil)) (.cons "c" .u16 (some "b") (.cons "d" .nil none .nil)) ∧
    Laid (VT.core (.variant (VCases.append (.cons "a" .u32 none (.cons "b" .nil (some "a") .nil))
      (.cons "c" .u16 (some "b") (.cons "d" .nil none .nil))))) ∧
    (VT.load (bumpEnv "utf-8") (.variant (.cons "a" .u32 none (.cons "b" .nil (some "a") .nil))) 0
      { bumpSt with mem := bytesMem [1] }).1 = .ok (.map [("b|a", .nil)]) ∧
    VT.flatten (.variant (VCases.append (.cons "a" .u32 none (.cons "b" .nil (some "a") .nil)) (.cons "c" .u16 (some "b") .nil))) =
      VT.flatten (.variant (.cons "a" .u32 none (.cons "b" .nil (some "a") .nil))) := by
  refine ⟨⟨rfl, rfl, by decide⟩, ?_, rfl, rfl⟩
  simp [VCases.append, VT.core, VCases.core, Laid, LaidCases, Cases.length]

/-- A union of a number and a string, extended by a narrower number. -/
example : let ts : VTys := .cons .u32 (.cons .string .nil)
    Laid (VT.core (.union (ts.append (.cons .u8 .nil)))) ∧ discBytes (ts.append (.cons .u8 .nil)).length = discBytes ts.length ∧
    alignCases (VTys.cases 0 (ts.append (.cons .u8 .nil))) = alignCases (VTys.cases 0 ts) ∧
    (VT.load (bumpEnv "utf-8") (.union ts) 0 { bumpSt with mem := bytesMem [0, 9, 9, 9, 5] }).1 = .ok (.map [("0", .u32 5)]) := by
  refine ⟨?_, rfl, rfl, rfl⟩
  simp [VTys.append, VT.core, VTys.cases, Laid, LaidCases, Cases.length]

/-- Three labels of an enum and four more; eight labels of flags and one more, which takes a second byte. -/
example : discBytes (["a", "b", "c"] ++ ["d", "e", "f", "g"]).length = discBytes ["a", "b", "c"].length ∧
    (["a", "b", "c", "d", "e", "f", "g", "h"] ++ ["i"]).Nodup ∧
    (VT.load (bumpEnv "utf-8") (.enum ["a", "b", "c"]) 0 { bumpSt with mem := bytesMem [2] }).1 = .ok (.map [("c", .nil)]) ∧
    (VT.load (bumpEnv "utf-8") (.flags (["a", "b", "c", "d", "e", "f", "g", "h"] ++ ["i"])) 0
      { bumpSt with mem := bytesMem [2, 1] }).1 matches .ok _ := by
  refine ⟨rfl, by decide, rfl, rfl⟩

end Verif.Abi
