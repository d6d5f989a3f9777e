import Verif.Abi.LiftTame
import Verif.Abi.LiftLocal
import Verif.Abi.FlatProps
import Verif.Abi.LoadProps
import Verif.Abi.HandleProps

/-!
# C108, C109: receiving a value changes nothing but handles, and depends on nothing but its own core values
-/

namespace Verif.Abi
open Spec

variable {σ : Type}

/-- C108, `Load`: for every type, address and state, and whatever the outcome, the memory and the state of the guest's
allocator are afterwards what they were; so are the handle tables if the type has no handles in it. -/
theorem load_reads_only (E : Env σ) (t : VT) (ptr : U32) (s : St σ) :
    (t.load E ptr s).2.mem = s.mem ∧ (t.load E ptr s).2.heap = s.heap ∧
    (Plain t.core → (t.load E ptr s).2.world = s.world) := by
  unfold VT.load
  obtain ⟨⟨w, e, h⟩, -⟩ := load_tame E t.core ptr s
  rw [e]
  exact ⟨rfl, rfl, h⟩

/-- C108, `LiftFlat`. -/
theorem lift_reads_only (E : Env σ) (t : VT) (s : LSt σ) :
    (t.lift E s).2.st.mem = s.st.mem ∧ (t.lift E s).2.st.heap = s.st.heap ∧
    (Plain t.core → (t.lift E s).2.st.world = s.st.world) := by
  unfold VT.lift
  obtain ⟨w, e, h⟩ := liftFlat_tame E t.core s
  rw [e]
  exact ⟨rfl, rfl, h⟩

/-- Without handles a value that was read once is read again: `Load` twice is `Load` once. -/
theorem load_again (E : Env σ) (t : VT) (hp : Plain t.core) (ptr : U32) (s : St σ) :
    t.load E ptr (t.load E ptr s).2 = t.load E ptr s := by
  rw [load_unchanged E t hp ptr s]

/-- The example type of C19 has no handles in it. With handles the tables do change, and reading again fails: the owned
handle is gone. -/
example : Plain exTy.core ∧
    (exHTy.load exHA 0 { exHSt with mem := exHSt.mem.write 0 [0, 0, 0, 0, 7, 0, 0, 0, 1, 0, 0, 0, 0, 0, 0, 0] }).1 = .ok exHVal ∧
    (exHTy.load exHA 0 (exHTy.load exHA 0
      { exHSt with mem := exHSt.mem.write 0 [0, 0, 0, 0, 7, 0, 0, 0, 1, 0, 0, 0, 0, 0, 0, 0] }).2).1 = .err :=
  ⟨exLaid.2, rfl, rfl⟩

/-! ## C109 -/

/-- C109. If `LiftFlat` succeeds then, in the same state, it succeeds with the same value and the same effect on any other
iterator whose next values, as many as the type flattens to, are these; whatever comes before or after them. -/
theorem lift_own_values (E : Env σ) (t : VT) (vs : List FV) (i : Nat) (s : St σ) (s' : LSt σ) (v : Val)
    (h : t.lift E ⟨s, itAt vs i⟩ = (.ok v, s')) :
    ∃ ks, t.flatten = .ok ks ∧ ∀ ws k, (∀ j < ks.length, ws[k + j]? = vs[i + j]?) →
      t.lift E ⟨s, itAt ws k⟩ = (.ok v, ⟨s'.st, itAt ws (k + ks.length)⟩) := by
  obtain ⟨ks, hk, hi, -⟩ := lift_consumes E t vs i s s' v h
  obtain ⟨n, h1, h2, h3⟩ := liftFlat_local E t.core _ _ _ h
  have hn : n = ks.length := by
    rw [hi] at h2
    simp only [itAt] at h2
    omega
  subst hn
  refine ⟨ks, hk, fun ws k hw => ?_⟩
  have := h3 ws k hw
  unfold LSt.at at this
  rw [hi] at this
  exact this

/-- C109, alone: in particular from these values and no others. -/
theorem lift_alone (E : Env σ) (t : VT) (vs : List FV) (i : Nat) (s : St σ) (s' : LSt σ) (v : Val)
    (h : t.lift E ⟨s, itAt vs i⟩ = (.ok v, s')) :
    ∃ ks, t.flatten = .ok ks ∧ (t.lift E ⟨s, newIterator ((vs.drop i).take ks.length)⟩).1 = .ok v := by
  obtain ⟨ks, hk, hw⟩ := lift_own_values E t vs i s s' v h
  refine ⟨ks, hk, ?_⟩
  have := hw ((vs.drop i).take ks.length) 0 fun j hj => by
    rw [Nat.zero_add, List.getElem?_take, if_pos hj, List.getElem?_drop]
  exact congrArg Prod.fst this

/-- The option of a record of C19 is lifted from the third of twelve values on. -/
example : ∃ v s', exTy.lift (bumpEnv "utf-8") ⟨(exTy.lower (bumpEnv "utf-8") exVal bumpSt).2,
    itAt [.f64 3, .u64 9, .u32 1, .u32 64, .u32 6, .u32 72, .u32 2, .u32 1, .u32 7, .u32 300, .u32 1, .u32 5] 2⟩ =
      (.ok v, s') := ⟨_, _, rfl⟩

end Verif.Abi
