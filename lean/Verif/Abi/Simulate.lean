import Verif.Abi.StoreInv

/-!
# `Store` only sees the allocator through its answers

Two call environments whose allocators answer alike give the same outcome and the same memory. Used to attach a log to
an allocator without changing what the program does.
-/

namespace Verif.Abi
open Encoding

variable {σ τ : Type}

/-- Two environments whose allocators behave alike as long as their states are related. -/
structure Sim (E : Env σ) (F : Env τ) (R : σ → τ → Prop) : Prop where
  enc : E.enc = F.enc
  realloc : ∀ a n m h k, R h k → (E.realloc a n (m, h)).1 = (F.realloc a n (m, k)).1 ∧
    (E.realloc a n (m, h)).2.1 = (F.realloc a n (m, k)).2.1 ∧
    R (E.realloc a n (m, h)).2.2 (F.realloc a n (m, k)).2.2

/-- Related states. -/
structure Rel (R : σ → τ → Prop) (s : St σ) (u : St τ) : Prop where
  mem : s.mem = u.mem
  heap : R s.heap u.heap
  world : s.world = u.world

/-- The calls have the same outcome and lead to related states. -/
def Agree {α : Type} (R : σ → τ → Prop) (x : Res α × St σ) (y : Res α × St τ) : Prop := x.1 = y.1 ∧ Rel R x.2 y.2

section
variable {α β : Type} {R : σ → τ → Prop}

theorem Agree.bind {m : SM (St σ) α} {m' : SM (St τ) α} {f : α → SM (St σ) β} {f' : α → SM (St τ) β} {s : St σ} {u : St τ}
    (h : Agree R (m s) (m' u)) (h' : ∀ a s' u', Rel R s' u' → Agree R (f a s') (f' a u')) :
    Agree R ((m >>= f) s) ((m' >>= f') u) := by
  rcases e : m s with ⟨r, s'⟩
  rcases e' : m' u with ⟨r', u'⟩
  rw [e, e'] at h
  obtain ⟨h1, h2⟩ := h
  simp only at h1 h2
  subst h1
  cases r with
  | ok a => rw [SM.bind_ok e, SM.bind_ok e']; exact h' a s' u' h2
  | err => rw [SM.bind_err e, SM.bind_err e']; exact ⟨rfl, h2⟩
  | panic => rw [SM.bind_panic e, SM.bind_panic e']; exact ⟨rfl, h2⟩
  | diverge => rw [SM.bind_diverge e, SM.bind_diverge e']; exact ⟨rfl, h2⟩

theorem Agree.same (r : Res α) {s : St σ} {u : St τ} (h : Rel R s u) : Agree R (r, s) (r, u) := ⟨rfl, h⟩

theorem Agree.ite {c : Prop} [Decidable c] {m n : SM (St σ) α} {m' n' : SM (St τ) α} {s : St σ} {u : St τ}
    (h1 : Agree R (m s) (m' u)) (h2 : Agree R (n s) (n' u)) :
    Agree R ((if c then m else n) s) ((if c then m' else n') u) := by
  split <;> assumption

theorem Agree.lift {r : Res α} {f : α → SM (St σ) β} {f' : α → SM (St τ) β} {s : St σ} {u : St τ} (h : Rel R s u)
    (h' : ∀ a, Agree R (f a s) (f' a u)) : Agree R ((SM.lift r >>= f) s) ((SM.lift r >>= f') u) := by
  cases r with
  | ok a => exact h' a
  | _ => exact Agree.same _ h

theorem storeValidate_agree (t : Ty) (ptr : U32) (s : St σ) (u : St τ) (h : Rel R s u) :
    Agree R (storeValidate t ptr s) (storeValidate t ptr u) := by
  unfold storeValidate
  apply Agree.lift h
  intro a
  apply Agree.ite (Agree.same _ h)
  apply Agree.lift h
  intro z
  rw [SM.bind_get, SM.bind_get, h.mem]
  exact Agree.ite (Agree.same _ h) (Agree.same _ h)

theorem put_agree (ptr n : U32) (bs : List Byte) (s : St σ) (u : St τ) (h : Rel R s u) :
    Agree R (put ptr n bs s) (put ptr n bs u) := by
  rcases slice_cases s.mem ptr (ptr + n) with ⟨e, -⟩ | e
  · rw [put_ok _ _ _ _ e, put_ok _ _ _ _ (h.mem ▸ e)]
    exact ⟨rfl, ⟨by rw [h.mem], h.heap, h.world⟩⟩
  · rw [put_panic _ _ _ _ e, put_panic _ _ _ _ (h.mem ▸ e)]
    exact Agree.same _ h

theorem storeInt_agree (v : Val) (ptr n : U32) (signed : Bool) (s : St σ) (u : St τ) (h : Rel R s u) :
    Agree R (storeInt v ptr n signed s) (storeInt v ptr n signed u) := by
  rw [storeInt_eq, storeInt_eq]
  split
  · split
    · exact put_agree _ _ _ _ _ h
    · exact Agree.same _ h
  · exact Agree.same _ h

theorem storeUInt32_agree (x ptr : U32) (s : St σ) (u : St τ) (h : Rel R s u) :
    Agree R (storeUInt32 x ptr s) (storeUInt32 x ptr u) := by
  rw [storeUInt32_eq, storeUInt32_eq]
  exact put_agree _ _ _ _ _ h

theorem storePair_agree (x y ptr : U32) (s : St σ) (u : St τ) (h : Rel R s u) :
    Agree R ((do storeUInt32 x ptr; storeUInt32 y (ptr + 4) : SM (St σ) Unit) s)
      ((do storeUInt32 x ptr; storeUInt32 y (ptr + 4) : SM (St τ) Unit) u) :=
  Agree.bind (storeUInt32_agree _ _ _ _ h) (fun _ _ _ h' => storeUInt32_agree _ _ _ _ h')

theorem storeElems_agree {f : Val → U32 → SM (St σ) Unit} {g : Val → U32 → SM (St τ) Unit}
    (hf : ∀ v p s u, Rel R s u → Agree R (f v p s) (g v p u)) (ptr sz : U32) :
    (vs : List Val) → (i : Nat) → (s : St σ) → (u : St τ) → Rel R s u →
      Agree R (storeElems f ptr sz vs i s) (storeElems g ptr sz vs i u)
  | [], _, _, _, h => Agree.same _ h
  | v :: vs, i, s, u, h => by
    rw [storeElems, storeElems]
    exact Agree.bind (hf _ _ _ _ h) (fun _ _ _ h' => storeElems_agree hf ptr sz vs (i + 1) _ _ h')

end

section
variable {R : σ → τ → Prop} {E : Env σ} {F : Env τ} (S : Sim E F R)
include S

theorem alloc_agree (a n : U32) (s : St σ) (u : St τ) (h : Rel R s u) : Agree R (alloc E a n s) (alloc F a n u) := by
  obtain ⟨h1, h2, h3⟩ := S.realloc a n s.mem s.heap u.heap h.heap
  rw [h.mem] at h1 h2 h3
  refine ⟨?_, ?_, ?_, h.world⟩
  · show (E.realloc a n (s.mem, s.heap)).1 = _; rw [h.mem]; exact h1
  · show (E.realloc a n (s.mem, s.heap)).2.1 = _; rw [h.mem]; exact h2
  · show R (E.realloc a n (s.mem, s.heap)).2.2 _; rw [h.mem]; exact h3

theorem storeStringDynamic_agree (str : String) (c : Codec) (s : St σ) (u : St τ) (h : Rel R s u) :
    Agree R (storeStringDynamic E str c s) (storeStringDynamic F str c u) := by
  unfold storeStringDynamic
  apply Agree.lift h
  intro bs
  apply Agree.bind (alloc_agree S _ _ _ _ h)
  intro p s' u' h'
  rw [SM.bind_get, SM.bind_get, h'.mem]
  apply Agree.lift h'
  intro _
  exact ⟨rfl, ⟨by show s'.mem.write _ _ = u'.mem.write _ _; rw [h'.mem], h'.heap, h'.world⟩⟩

theorem storeStringIntoRange_agree (str : String) (s : St σ) (u : St τ) (h : Rel R s u) :
    Agree R (storeStringIntoRange E str s) (storeStringIntoRange F str u) := by
  unfold storeStringIntoRange
  rw [S.enc]
  apply Agree.lift h
  intro c
  apply Agree.ite
  · exact storeStringDynamic_agree S _ _ _ _ h
  · apply Agree.lift h
    intro c'
    apply Agree.bind (storeStringDynamic_agree S _ _ _ _ h)
    intro r s' u' h'
    exact Agree.same _ h'

mutual
/-- `Store` has the same outcome and the same effect on memory under both. -/
theorem store_agree : (t : Ty) → (v : Val) → (ptr : U32) → (s : St σ) → (u : St τ) → Rel R s u →
    Agree R (store E t v ptr s) (store F t v ptr u)
  | .bool, v, ptr, s, u, h => by
    rw [store_bool, store_bool]
    apply Agree.bind (storeValidate_agree _ _ _ _ h)
    intro _ s' u' h'
    cases v <;> first | exact storeInt_agree _ _ _ _ _ _ h' | exact Agree.same _ h'
  | .char, v, ptr, s, u, h => by
    rw [store_char, store_char]
    apply Agree.bind (storeValidate_agree _ _ _ _ h)
    intro _ s' u' h'
    cases v <;> first | exact storeInt_agree _ _ _ _ _ _ h' | exact Agree.same _ h'
  | .u8, v, ptr, s, u, h | .u16, v, ptr, s, u, h | .u32, v, ptr, s, u, h | .u64, v, ptr, s, u, h
  | .s8, v, ptr, s, u, h | .s16, v, ptr, s, u, h | .s32, v, ptr, s, u, h | .s64, v, ptr, s, u, h => by
    rw [store, store]
    exact Agree.bind (storeValidate_agree _ _ _ _ h) (fun _ _ _ h' => storeInt_agree _ _ _ _ _ _ h')
  | .f32, v, ptr, s, u, h => by
    rw [store, store]
    apply Agree.bind (storeValidate_agree _ _ _ _ h)
    intro _ s' u' h'
    unfold storeFloat32
    cases v <;> first | exact storeInt_agree _ _ _ _ _ _ h' | exact Agree.same _ h'
  | .f64, v, ptr, s, u, h => by
    rw [store, store]
    apply Agree.bind (storeValidate_agree _ _ _ _ h)
    intro _ s' u' h'
    unfold storeFloat64
    cases v <;> first | exact storeInt_agree _ _ _ _ _ _ h' | exact Agree.same _ h'
  | .string, v, ptr, s, u, h => by
    rw [store_string, store_string]
    apply Agree.bind (storeValidate_agree _ _ _ _ h)
    intro _ s' u' h'
    cases v <;> try exact Agree.same _ h'
    unfold storeString
    exact Agree.bind (storeStringIntoRange_agree S _ _ _ h') (fun r _ _ h'' => storePair_agree _ _ _ _ _ h'')
  | .list t, v, ptr, s, u, h => by
    rw [store, store]
    apply Agree.bind (storeValidate_agree _ _ _ _ h)
    intro _ s' u' h'
    unfold storeList
    refine Agree.bind ?_ (fun r _ _ h'' => storePair_agree _ _ _ _ _ h'')
    unfold storeListIntoRange
    cases v <;> try exact Agree.same _ h'
    rename_i vs
    apply Agree.lift h'
    intro z
    apply Agree.lift h'
    intro a
    apply Agree.bind (alloc_agree S _ _ _ _ h')
    intro p s2 u2 h2
    apply Agree.ite (Agree.same _ h2)
    rw [SM.bind_get, SM.bind_get, h2.mem]
    apply Agree.ite (Agree.same _ h2)
    exact Agree.bind (storeElems_agree (fun v p s u h => store_agree t v p s u h) _ _ _ _ _ _ h2)
      (fun _ _ _ h3 => Agree.same _ h3)
  | .record fs, v, ptr, s, u, h => by
    rw [store_record, store_record]
    apply Agree.bind (storeValidate_agree _ _ _ _ h)
    intro _ s' u' h'
    cases v <;> try exact Agree.same _ h'
    exact storeFields_agree fs _ _ _ _ h'
  | .variant cs, v, ptr, s, u, h => by
    rw [store, store]
    apply Agree.bind (storeValidate_agree _ _ _ _ h)
    intro _ s' u' h'
    apply Agree.lift h'
    intro r
    apply Agree.lift h'
    intro dt
    apply Agree.lift h'
    intro z
    apply Agree.bind (storeInt_agree _ _ _ _ _ _ h')
    intro _ s2 u2 h2
    apply Agree.lift h2
    intro a
    exact storeCase_agree cs _ _ _ _ _ h2
  | .flags ls, v, ptr, s, u, h => by
    rw [store, store]
    apply Agree.bind (storeValidate_agree _ _ _ _ h)
    intro _ s' u' h'
    unfold storeFlags
    cases v <;> try exact Agree.same _ h'
    apply Agree.lift h'
    intro x
    exact storeInt_agree _ _ _ _ _ _ h'
  | .own _, _, ptr, s, u, h | .borrow _, _, ptr, s, u, h | .nil, _, ptr, s, u, h | .other, _, ptr, s, u, h => by
    rw [store, store]
    exact Agree.bind (storeValidate_agree _ _ _ _ h) (fun _ _ _ h' => Agree.same _ h')
theorem storeFields_agree : (fs : Fields) → (m : List (String × Val)) → (ptr : U32) → (s : St σ) → (u : St τ) → Rel R s u →
    Agree R (storeFields E fs m ptr s) (storeFields F fs m ptr u)
  | .nil, _, _, _, _, h => by rw [storeFields, storeFields]; exact Agree.same _ h
  | .cons l t fs, m, ptr, s, u, h => by
    rw [storeFields, storeFields]
    apply Agree.lift h
    intro a
    apply Agree.bind (store_agree t _ _ _ _ h)
    intro _ s' u' h'
    apply Agree.lift h'
    intro z
    exact storeFields_agree fs m _ _ _ h'
theorem storeCase_agree : (cs : Cases) → (i : Nat) → (p : Val) → (ptr : U32) → (s : St σ) → (u : St τ) → Rel R s u →
    Agree R (storeCase E cs i p ptr s) (storeCase F cs i p ptr u)
  | .nil, _, _, _, _, _, h => by rw [storeCase, storeCase]; exact Agree.same _ h
  | .cons l t r cs, 0, p, ptr, s, u, h => by
    rw [storeCase, storeCase]
    exact Agree.ite (Agree.same _ h) (store_agree t _ _ _ _ h)
  | .cons l t r cs, i + 1, p, ptr, s, u, h => by
    rw [storeCase, storeCase]
    exact storeCase_agree cs i _ _ _ _ h
end

end

end Verif.Abi
