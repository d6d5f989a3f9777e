import Verif.Abi.AlikeLemmas
import Verif.Abi.FlatMeansProps

/-!
# Property C127: Go values that stand for the same value are lowered alike, and only those

`Spec.Same t v z` says that `z` is the canonical Go value for what `v` stands for: entries in the order of declaration and no
others, the case of a variant called by its label and those it refines, one NaN.
-/

namespace Verif.Abi
open Spec

variable {σ τ : Type}

/-- Two Go values stand for the same value of the type. -/
def StandAlike (t : Ty) (v w : Val) : Prop := ∃ z, Same t v z ∧ Same t w z

/-- Two lists of Go values stand, one by one, for the same values of the types. -/
def AllStandAlike : List Ty → List Val → List Val → Prop
  | [], [], [] => True
  | t :: ts, v :: vs, w :: ws => StandAlike t v w ∧ AllStandAlike ts vs ws
  | _, _, _ => False

theorem allStandAlike : (ts : List Ty) → (vs ws : List Val) → AllStandAlike ts vs ws →
    ∃ zs, SameAll ts vs zs ∧ SameAll ts ws zs
  | [], [], [], _ => ⟨[], trivial, trivial⟩
  | t :: ts, v :: vs, w :: ws, ⟨⟨z, h1, h2⟩, h⟩ => by
    obtain ⟨zs, h3, h4⟩ := allStandAlike ts vs ws h
    exact ⟨z :: zs, ⟨h1, h3⟩, ⟨h2, h4⟩⟩

/-- **C127, `Store`.** The same outcome, bytes, requests and handle tables, from every state. -/
theorem store_same (E : Env σ) (t : VT) (hn : Named t.core) (v w : Val) (h : StandAlike t.core v w) (ptr : U32) (s : St σ) :
    t.store E v ptr s = t.store E w ptr s := by
  obtain ⟨z, hv, hw⟩ := h
  exact congrFun (store_alike t.core hn v w z ptr hv hw) s

/-- **C127, `LowerFlat`.** And the same core values. -/
theorem lower_same (E : Env σ) (t : VT) (hn : Named t.core) (v w : Val) (h : StandAlike t.core v w) (s : St σ) :
    t.lower E v s = t.lower E w s := by
  obtain ⟨z, hv, hw⟩ := h
  exact congrFun (lowerFlat_alike t.core hn v w z hv hw) s

/-- **C127, calls into a component.** `CanonLift` called with arguments that stand for the same values: the callee is given
the same core values in the same state, so all the rest is the same too. -/
theorem canonLift_same (S : Side σ) (ord : List (String × Val) → List (String × Val))
    (callee : List Core → SM (Sys σ) (Option (List Core))) (ft : FuncTy) (hn : ∀ t ∈ ft.params, Named t) (vs ws : List Val)
    (h : AllStandAlike ft.params vs ws) (maxParams maxResults : Nat) (s : Sys σ) :
    canonLift S ord callee ft vs maxParams maxResults s = canonLift S ord callee ft ws maxParams maxResults s := by
  obtain ⟨zs, hv, hw⟩ := allStandAlike _ _ _ h
  unfold canonLift
  rw [lowerValues_alike S.o maxParams ft.params hn vs ws zs hv hw none]

/-- **C127, calls out of a component.** Two host functions that do the same and return results that stand for the same
values are the same to a component that calls them through `CanonLower`. -/
theorem canonLower_same (S : Side σ) (ord : List (String × Val) → List (String × Val))
    (callee callee' : List Val → SM (Sys σ) (List Val × Option (SM (Sys σ) Unit))) (imp : Bool) (ft : FuncTy)
    (hn : ∀ t ∈ ft.results, Named t)
    (hc : ∀ args s, (callee args s).2 = (callee' args s).2 ∧
      ((∃ vs ws post, (callee args s).1 = .ok (vs, post) ∧ (callee' args s).1 = .ok (ws, post) ∧
          AllStandAlike ft.results vs ws) ∨
        (callee args s).1 = (callee' args s).1))
    (flatArgs : List Core) (maxParams maxResults : Nat) (s : Sys σ) :
    canonLower S ord callee imp ft flatArgs maxParams maxResults s =
      canonLower S ord callee' imp ft flatArgs maxParams maxResults s := by
  unfold canonLower
  refine bind_congr_st fun _ s1 => bind_congr_st fun _ s2 => ?_
  split
  · rfl
  split
  · rfl
  refine bind_congr_st fun _ s3 => bind_congr_st fun args s2 => ?_
  obtain ⟨h2, ⟨us, ws, post, e1, e2, h⟩ | h1⟩ := hc args.1 s2
  · obtain ⟨zs, hv, hw⟩ := allStandAlike _ _ _ h
    have e1' : callee args.1 s2 = (.ok (us, post), (callee args.1 s2).2) := by rw [← e1]
    have e2' : callee' args.1 s2 = (.ok (ws, post), (callee args.1 s2).2) := by rw [← e2, h2]
    rw [SM.bind_ok e1', SM.bind_ok e2']
    simp only
    rw [lowerValues_alike S.o maxResults ft.results hn us ws zs hv hw (some args.2)]
  · have e : callee args.1 s2 = callee' args.1 s2 := Prod.ext h1 h2
    refine (SM.bind_def _ _ _).trans (Eq.trans ?_ (SM.bind_def _ _ _).symm)
    rw [e]

/-- **C127, only those, `Store`.** If two stores, by whatever allocators and from whatever states, succeed and leave the
same memory, then the values stored stand for the same value. -/
theorem store_apart (E : Env σ) (used : σ → Nat → Prop) (G : GoodAlloc E used) (E' : Env τ) (used' : τ → Nat → Prop)
    (G' : GoodAlloc E' used') (henc : E.enc ∈ Spec.encodings) (he : E'.enc = E.enc)
    (t : VT) (hn : Wf t.core) (v w : Val) (hv : HasType t.core v) (hw : HasType t.core w)
    (hlv : ListsFit t.core v) (hlw : ListsFit t.core w) (hsv : StringsFit E.enc t.core v) (hsw : StringsFit E.enc t.core w)
    (ptr : U32) (s s1 : St σ) (u u1 : St τ) (hs : s.mem.len < 2 ^ 32 ∧ s.mem.len ≤ s.mem.cap)
    (hu : u.mem.len < 2 ^ 32 ∧ u.mem.len ≤ u.mem.cap) (ha : align t.core ∣ ptr.toNat)
    (hls : ptr.toNat + Spec.size t.core ≤ s.mem.len) (hlu : ptr.toNat + Spec.size t.core ≤ u.mem.len)
    (hus : ∀ x, ptr.toNat ≤ x → x < ptr.toNat + Spec.size t.core → used s.heap x)
    (huu : ∀ x, ptr.toNat ≤ x → x < ptr.toNat + Spec.size t.core → used' u.heap x)
    (h1 : t.store E v ptr s = (.ok (), s1)) (h2 : t.store E' w ptr u = (.ok (), u1)) (hm : s1.mem = u1.mem) :
    StandAlike t.core v w := by
  obtain ⟨a, e1, m1⟩ := store_means_partial E used G henc t v hv hn hlv hsv ptr s s1 hs ha hls hus h1
  obtain ⟨b, e2, m2⟩ := store_means_partial E' used' G' (he ▸ henc) t w hw hn hlw (he ▸ hsw) ptr u u1 hu ha hlu huu h2
  rw [he, ← hm] at m2
  exact ⟨a, e1, means_once neatly_once t.core _ b a m2 m1 ▸ e2⟩

/-- **C127, only those, `LowerFlat`.** The same core values and the same memory. -/
theorem lower_apart (E : Env σ) (used : σ → Nat → Prop) (G : GoodAlloc E used) (E' : Env τ) (used' : τ → Nat → Prop)
    (G' : GoodAlloc E' used') (henc : E.enc ∈ Spec.encodings) (he : E'.enc = E.enc)
    (t : VT) (hn : Wf t.core) (hp : Plain t.core) (v w : Val) (hv : HasType t.core v) (hw : HasType t.core w)
    (hlv : ListsFit t.core v) (hlw : ListsFit t.core w) (hsv : StringsFit E.enc t.core v) (hsw : StringsFit E.enc t.core w)
    (s s1 : St σ) (u u1 : St τ) (hs : s.mem.len < 2 ^ 32 ∧ s.mem.len ≤ s.mem.cap)
    (hu : u.mem.len < 2 ^ 32 ∧ u.mem.len ≤ u.mem.cap) (fs : List FV)
    (h1 : t.lower E v s = (.ok fs, s1)) (h2 : t.lower E' w u = (.ok fs, u1)) (hm : s1.mem = u1.mem) :
    StandAlike t.core v w := by
  obtain ⟨-, a, e1, m1⟩ := lower_means_partial E used G henc t v hv hn hp hlv hsv s s1 hs fs h1
  obtain ⟨-, b, e2, m2⟩ := lower_means_partial E' used' G' (he ▸ henc) t w hw hn hp hlw (he ▸ hsw) u u1 hu fs h2
  rw [he, ← hm] at m2
  exact ⟨a, e1, flatMeans_once neatly_once t.core _ b a m2 m1 ▸ e2⟩

/-! ## Examples -/

/-- The value of C19 with its entries in another order and an entry that is no field, another NaN, the inner case called by
a key that also names no case. -/
def exVal2 : Val := .map [("x|some", .map [("fl", .map [("w", .bool false), ("r", .bool true)]),
  ("xs", .list [.f32 0xFFC00001, .f32 0x3F800000]), ("other", .u8 1), ("name", .str "héllo"),
  ("v", .map [("newer|more", .map [("1", .u16 300), ("0", .u8 7)])])])]

theorem exSelects3 : Selects (.cons "none" .nil none (.cons "some" t none .nil)) "x|some" 1 :=
  ⟨["x"], "some", [], rfl, by decide, by simp [Cases.labels], rfl, by
    intro j h
    match j, h with
    | 0, h => exact absurd h (by simp [Cases.labels])
    | 1, _ => exact Nat.le_refl _
    | j + 2, h => exact absurd h (by simp [Cases.labels])⟩

theorem exSelects4 : Selects (.cons "base" t none (.cons "more" u (some "base") .nil)) "newer|more" 1 :=
  ⟨["newer"], "more", [], rfl, by decide, by simp [Cases.labels], rfl, by
    intro j h
    match j, h with
    | 0, h => exact absurd h (by simp [Cases.labels])
    | 1, _ => exact Nat.le_refl _
    | j + 2, h => exact absurd h (by simp [Cases.labels])⟩

theorem exHasType2 : HasType exTy.core exVal2 := by
  simp only [exTy, exVal2, VT.core, VFields.core, VCases.core, VTys.fields]
  rw [HasType]
  refine ⟨"x|some", _, 1, rfl, exSelects3, ?_⟩
  simp only [HasPayload, HasType, HasFields]
  refine .inr ⟨_, rfl, ⟨_, rfl⟩, ⟨_, rfl, ?_⟩, ⟨_, _, 1, rfl, exSelects4, ?_⟩, ⟨_, rfl, ?_⟩, trivial⟩
  · intro x hx
    simp only [List.mem_cons, List.not_mem_nil, or_false] at hx
    rcases hx with rfl | rfl <;> exact ⟨_, rfl⟩
  · simp only [HasPayload, HasType, HasFields]
    exact .inr ⟨_, rfl, ⟨_, rfl⟩, ⟨_, rfl⟩, trivial⟩
  · intro l hl
    simp only [List.mem_cons, List.not_mem_nil, or_false] at hl
    rcases hl with rfl | rfl <;> exact ⟨_, rfl⟩

/-- The hypotheses of `store_same` and `lower_same` are met by these two; storing succeeds. -/
theorem exStandAlike : StandAlike exTy.core exVal exVal2 := by
  refine ⟨norm exTy.core exVal, same_norm _ _ exHasType exWf, ?_⟩
  have e : norm exTy.core exVal = norm exTy.core exVal2 := by rfl
  rw [e]
  exact same_norm _ _ exHasType2 exWf

example : Named exTy.core ∧ StandAlike exTy.core exVal exVal2 ∧
    (exTy.store (bumpEnv "utf-8") exVal2 8 bumpSt).1 = .ok () :=
  ⟨named_of_wf _ exWf, exStandAlike, by decide⟩

/-- Those of `canonLift_same`: two lists of two arguments; the call reaches the callee. -/
example : (∀ t ∈ exTys, Named t) ∧ AllStandAlike exTys exArgs [exVal2, .u8 5] ∧
    ((canonLift exA id (fun _ s => (.ok (some [.fv (.u32 7)]), s)) ⟨exTys, [.u8]⟩ [exVal2, .u8 5] 16 1 exSys).1 matches
      .ok _) := by
  refine ⟨?_, ⟨exStandAlike, ⟨.u8 5, by simp [Same], by simp [Same]⟩, trivial⟩, by decide⟩
  intro t ht
  simp only [exTys, List.mem_cons, List.not_mem_nil, or_false] at ht
  rcases ht with rfl | rfl
  · exact named_of_wf _ exWf
  · simp [Named]

/-- A host function that returns these values and does nothing else. -/
def exHostReturning (vs : List Val) : List Val → SM (Sys Nat) (List Val × Option (SM (Sys Nat) Unit)) :=
  fun _ s => (.ok (vs, some (pure ())), s)

/-- Those of `canonLower_same`: two host functions that differ in how they write their results. -/
example (args : List Val) (s : Sys Nat) :
    (exHostReturning exArgs args s).2 = (exHostReturning [exVal2, .u8 5] args s).2 ∧
    ∃ vs ws post, (exHostReturning exArgs args s).1 = .ok (vs, post) ∧
      (exHostReturning [exVal2, .u8 5] args s).1 = .ok (ws, post) ∧ AllStandAlike exTys vs ws :=
  ⟨rfl, _, _, _, rfl, rfl, ⟨exStandAlike, ⟨.u8 5, by simp [Same], by simp [Same]⟩, trivial⟩⟩

/-- Those of `store_apart` and `lower_apart` by the same two values (see C19 for the conditions on the first). -/
example : (exTy.store (bumpEnv "utf-8") exVal 8 bumpSt).1 = .ok () ∧
    (exTy.store (bumpEnv "utf-8") exVal2 8 bumpSt).1 = .ok () ∧
    align exTy.core ∣ (8 : U32).toNat ∧ (8 : U32).toNat + Spec.size exTy.core ≤ bumpSt.mem.len ∧
    Spec.size exTy.core + 8 ≤ bumpSt.heap ∧ HasType exTy.core exVal2 ∧
    ((exTy.store (bumpEnv "utf-8") exVal 8 bumpSt).2.mem = (exTy.store (bumpEnv "utf-8") exVal2 8 bumpSt).2.mem) :=
  ⟨by decide, by decide, by decide, by decide, by decide, exHasType2,
    by rw [store_same _ _ (named_of_wf _ exWf) _ _ exStandAlike]⟩

end Verif.Abi
