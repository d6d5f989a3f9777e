import Verif.Runtime.Model

/-!
# Properties of `runtime` (C57, C58)
-/

namespace Verif.Runtime

variable {φ : Type}

theorem instantiateLoop_eq (fns : List φ) (st : Store φ) (mi : ModuleInstance) :
    instantiateLoop fns st mi = (⟨mi.functionAddresses ++
      (List.range fns.length).map (fun i => BitVec.ofNat 32 (st.funcs.length + i)), mi.exports, mi.types⟩, ⟨st.funcs ++ fns⟩) := by
  induction fns generalizing st mi with
  | nil => simp [instantiateLoop]
  | cons f fns ih =>
    simp only [instantiateLoop]
    rw [ih]
    simp only [List.length_append, List.length_cons, List.length_nil, List.append_assoc, List.cons_append, List.nil_append]
    congr 2
    rw [List.range_succ_eq_map, List.map_cons, List.map_map]
    congr 3
    funext i
    show BitVec.ofNat 32 _ = BitVec.ofNat 32 _
    congr 1
    simp only [Nat.succ_eq_add_one]
    omega

/-- What has been instantiated so far: the store, and every instance with the functions of its module. -/
structure History (φ : Type) where
  store : Store φ
  made : List (ModuleInstance × List φ)

/-- Instantiate the modules one after the other, beginning with a store that already has functions. -/
def instantiateAll (st : Store φ) : List (Module φ) → History φ
  | [] => ⟨st, []⟩
  | m :: ms =>
    let r := newModuleInstance st m
    let h := instantiateAll r.2 ms
    ⟨h.store, (r.1, m.funcs) :: h.made⟩

/-- The function an address resolves to. -/
def resolve (st : Store φ) (a : U32) : Option φ := st.funcs[a.toNat]?

theorem instantiateAll_store (st : Store φ) (ms : List (Module φ)) :
    (instantiateAll st ms).store.funcs = st.funcs ++ ms.flatMap Module.funcs := by
  induction ms generalizing st with
  | nil => simp [instantiateAll]
  | cons m ms ih =>
    simp only [instantiateAll]
    rw [ih]
    simp [newModuleInstance, instantiateLoop_eq]

/-- Addresses handed out in a history, oldest first. -/
def History.addresses (h : History φ) : List U32 := h.made.flatMap fun p => p.1.functionAddresses

theorem instantiateAll_addresses (st : Store φ) (ms : List (Module φ)) :
    (instantiateAll st ms).addresses =
      (List.range (ms.flatMap Module.funcs).length).map fun i => BitVec.ofNat 32 (st.funcs.length + i) := by
  induction ms generalizing st with
  | nil => rfl
  | cons m ms ih =>
    have e : (instantiateAll st (m :: ms)).addresses = (newModuleInstance st m).1.functionAddresses ++
      (instantiateAll (newModuleInstance st m).2 ms).addresses := rfl
    rw [e, ih]
    simp only [newModuleInstance, instantiateLoop_eq, List.nil_append, List.flatMap_cons, List.length_append]
    rw [List.range_add, List.map_append, List.map_map]
    congr 2
    funext i
    show BitVec.ofNat 32 (_ + _) = BitVec.ofNat 32 (_ + (_ + _))
    congr 1
    omega

/-- C57. As long as the store stays below 2^32 functions: every instance has one address per function of its module, the
i-th address resolves to the i-th function, also after all later instantiations; all addresses ever handed out are
distinct, and functions that were in the store before are still at their addresses. Missing: with 2^32 functions
addresses repeat, see `addresses_wrap`. -/
theorem instantiation_partial (st : Store φ) (ms : List (Module φ))
    (h : st.funcs.length + (ms.flatMap Module.funcs).length ≤ 2 ^ 32) :
    (∀ p ∈ (instantiateAll st ms).made, p.1.functionAddresses.map (resolve (instantiateAll st ms).store) = p.2.map some) ∧
    (instantiateAll st ms).addresses.Nodup ∧
    (∀ a ∈ (instantiateAll st ms).addresses, st.funcs.length ≤ a.toNat) ∧
    (∀ (i : Nat) (f : φ), st.funcs[i]? = some f → (instantiateAll st ms).store.funcs[i]? = some f) ∧
    (instantiateAll st ms).made.map Prod.snd = ms.map Module.funcs := by
  refine ⟨?_, ?_, ?_, ?_, ?_⟩
  · induction ms generalizing st with
    | nil => intro p hp; simp [instantiateAll] at hp
    | cons m ms ih =>
      intro p hp
      simp only [List.flatMap_cons, List.length_append] at h
      have hs : (instantiateAll st (m :: ms)).store = (instantiateAll (newModuleInstance st m).2 ms).store := rfl
      have hst : (newModuleInstance st m).2.funcs = st.funcs ++ m.funcs := by simp [newModuleInstance, instantiateLoop_eq]
      rcases List.mem_cons.1 (show p ∈ ((newModuleInstance st m).1, m.funcs) ::
        (instantiateAll (newModuleInstance st m).2 ms).made from hp) with rfl | hp
      · have hf := instantiateAll_store (newModuleInstance st m).2 ms
        rw [hst] at hf
        apply List.ext_getElem?
        intro i
        simp only [newModuleInstance, instantiateLoop_eq, List.nil_append, List.map_map, List.getElem?_map]
        by_cases hi : i < m.funcs.length
        · rw [List.getElem?_range hi, List.getElem?_eq_getElem hi]
          simp only [Option.map_some, Function.comp, resolve]
          rw [hs, hf, BitVec.toNat_ofNat, Nat.mod_eq_of_lt (by omega), List.append_assoc,
            List.getElem?_append_right (by omega), Nat.add_sub_cancel_left, List.getElem?_append_left hi,
            List.getElem?_eq_getElem hi]
        · rw [List.getElem?_eq_none (by simpa using hi), List.getElem?_eq_none (by omega)]; rfl
      · rw [hs]
        exact ih _ (by rw [hst, List.length_append]; omega) p hp
  · rw [instantiateAll_addresses]
    rw [List.Nodup, List.pairwise_map]
    refine List.Pairwise.imp_of_mem ?_ List.nodup_range
    intro a b ha hb hab e
    rw [List.mem_range] at ha hb
    have := congrArg BitVec.toNat e
    rw [BitVec.toNat_ofNat, BitVec.toNat_ofNat, Nat.mod_eq_of_lt (by omega), Nat.mod_eq_of_lt (by omega)] at this
    omega
  · intro a ha
    rw [instantiateAll_addresses] at ha
    obtain ⟨i, hi, rfl⟩ := List.mem_map.1 ha
    rw [List.mem_range] at hi
    rw [BitVec.toNat_ofNat, Nat.mod_eq_of_lt (by omega)]
    omega
  · intro i f hf
    rw [instantiateAll_store, List.getElem?_append_left]
    · exact hf
    · exact (List.getElem?_eq_some_iff.1 hf).1
  · clear h
    induction ms generalizing st with
    | nil => rfl
    | cons m ms ih => simp only [instantiateAll, List.map_cons]; rw [ih]

/-- Two instances of a module of two functions on a store of one function. -/
example : (⟨["host"]⟩ : Store String).funcs.length +
    (([⟨["f", "g"], []⟩, ⟨["f", "g"], []⟩] : List (Module String)).flatMap Module.funcs).length ≤ 2 ^ 32 ∧
    (instantiateAll (⟨["host"]⟩ : Store String) [⟨["f", "g"], []⟩, ⟨["f", "g"], []⟩]).addresses = [1, 2, 3, 4] := by decide

/-- C57 fails for a store of 2^32 functions: the address of the next function is 0 again. -/
theorem addresses_wrap (f : φ) (st : Store φ) (h : st.funcs.length = 2 ^ 32) :
    (newModuleInstance st ⟨[f], []⟩).1.functionAddresses = [0] := by
  simp only [newModuleInstance, instantiateLoop_eq, h]
  simp

example : (⟨List.replicate (2 ^ 32) ()⟩ : Store Unit).funcs.length = 2 ^ 32 := List.length_replicate

/-! ## C58 -/

/-- C58, looking up: the first export of that name, absence if there is none. -/
theorem getExport_first_partial (mi : ModuleInstance) (name : String) :
    (∀ pre e post, mi.exports = pre ++ e :: post → e.name = name → (∀ x ∈ pre, x.name ≠ name) →
      getExport mi name = some e) ∧
    (getExport mi name = none ↔ ∀ x ∈ mi.exports, x.name ≠ name) := by
  have key : ∀ es : List ExportInstance,
      (∀ pre e post, es = pre ++ e :: post → e.name = name → (∀ x ∈ pre, x.name ≠ name) →
        getExport.go name es = some e) ∧ (getExport.go name es = none ↔ ∀ x ∈ es, x.name ≠ name) := by
    intro es
    induction es with
    | nil => exact ⟨fun pre e post h => by simp at h, by simp [getExport.go]⟩
    | cons x es ih =>
      constructor
      · intro pre e post h hn hp
        cases pre with
        | nil =>
          simp only [List.nil_append, List.cons.injEq] at h
          obtain ⟨rfl, -⟩ := h
          simp [getExport.go, hn]
        | cons y pre =>
          simp only [List.cons_append, List.cons.injEq] at h
          obtain ⟨rfl, rfl⟩ := h
          rw [getExport.go, if_neg (hp x (by simp))]
          exact ih.1 pre e post rfl hn fun z hz => hp z (by simp [hz])
      · by_cases hx : x.name = name
        · simp [getExport.go, hx]
        · simp [getExport.go, hx, ih.2]
  exact key mi.exports

example : ∃ pre e post, (⟨[], [⟨"a", 0⟩, ⟨"b", 1⟩, ⟨"b", 2⟩], []⟩ : ModuleInstance).exports = pre ++ e :: post ∧
    e.name = "b" ∧ (∀ x ∈ pre, x.name ≠ "b") ∧ e.value = 1 :=
  ⟨[⟨"a", 0⟩], ⟨"b", 1⟩, [⟨"b", 2⟩], rfl, rfl, by decide, rfl⟩

/-- C58 fails: no export of an instantiated module is ever found, whatever the module exports. -/
theorem exports_never_found (st : Store φ) (m : Module φ) (name : String) :
    getExport (newModuleInstance st m).1 name = none := by
  simp only [newModuleInstance, instantiateLoop_eq]
  rfl

end Verif.Runtime
