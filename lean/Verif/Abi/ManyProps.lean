import Verif.Abi.StoreProps

/-!
# Several values in one memory: C105
-/

namespace Verif.Abi
open Spec

variable {σ : Type}

/-- A value to be stored, its type and its address. -/
structure Item where
  type : VT
  val : Val
  ptr : U32

/-- A caller that stores one value after the other, whatever `Store` returns. -/
def storeEach (E : Env σ) : List Item → St σ → List (Res Unit) × St σ
  | [], s => ([], s)
  | i :: is, s =>
    let (r, s) := i.type.store E i.val i.ptr s
    let (rs, s) := storeEach E is s
    (r :: rs, s)

/-- The bytes of an item itself. -/
def Item.at (i : Item) (x : Nat) : Prop := i.ptr.toNat ≤ x ∧ x < i.ptr.toNat + Spec.size i.type.core

/-- The conditions of C19 on one item: a value of its type that fits a 32-bit memory, an aligned address inside the memory in
bytes the allocator will not hand out. -/
structure Item.Ok (E : Env σ) (used : σ → Nat → Prop) (s : St σ) (i : Item) : Prop where
  typed : HasType i.type.core i.val
  wf : Wf i.type.core
  lists : ListsFit i.type.core i.val
  strings : StringsFit E.enc i.type.core i.val
  aligned : align i.type.core ∣ i.ptr.toNat
  inside : i.ptr.toNat + Spec.size i.type.core ≤ s.mem.len
  kept : ∀ x, i.at x → used s.heap x

theorem Item.Ok.step {E : Env σ} {used : σ → Nat → Prop} {D : Nat → Prop} {s s' : St σ} {i : Item} (h : i.Ok E used s)
    (st : Step used D s s') : i.Ok E used s' :=
  ⟨h.typed, h.wf, h.lists, h.strings, h.aligned, Nat.le_trans h.inside st.len, fun x hx => st.keep x (h.kept x hx)⟩

/-- What is loaded from an item's address is its value, in every state that agrees on the bytes `F`. -/
def Item.Safe (E : Env σ) (i : Item) (s : St σ) : Prop := ∃ w, i.type.load E i.ptr s = (.ok w, s) ∧ Same i.type.core i.val w

theorem store_safe (E : Env σ) (used : σ → Nat → Prop) (G : GoodAlloc E used) (henc : E.enc ∈ Spec.encodings) (i : Item)
    (s s' : St σ) (hg : Good s.mem) (h : i.Ok E used s) (e : i.type.store E i.val i.ptr s = (.ok (), s')) :
    Wrote used i.at (i.Safe E) s s' := by
  have hl : Laid i.type.core := by
    have e' := e
    unfold VT.store at e'
    have : ∃ m : Unit → SM (St σ) Unit, Abi.store E i.type.core i.val i.ptr = (storeValidate i.type.core i.ptr >>= m) := by
      generalize i.type.core = t
      cases t <;> first
        | exact ⟨_, store_bool E _ _⟩ | exact ⟨_, store_char E _ _⟩ | exact ⟨_, store_string E _ _⟩
        | exact ⟨_, store_record E _ _ _⟩ | exact ⟨_, by rw [Abi.store]⟩
    obtain ⟨m, em⟩ := this
    rw [em] at e'
    obtain ⟨u, s1, h1, -⟩ := SM.bind_eq_ok.1 e'
    exact (storeValidate_ok _ _ s s1 h1).2.1
  rcases store_does G (R := fun _ => True) (fun _ _ _ _ => .inr trivial) henc i.type.core i.val h.typed h.wf hl
    (.inr fun _ => trivial) h.lists h.strings i.ptr s hg h.aligned h.inside (fun x hx => h.kept x hx) with ⟨u, s2, e2, w⟩ | ⟨e2, -⟩
  · unfold VT.store at e
    rw [e] at e2
    injection e2 with _ e2
    subst e2
    exact w.imp (fun _ h => h) fun s'' _ _ hs => ⟨_, hs, same_norm _ _ h.typed h.wf⟩
  · unfold VT.store at e
    rw [e] at e2
    exact absurd rfl (e2 ())

theorem storeEach_wrote (E : Env σ) (used : σ → Nat → Prop) (G : GoodAlloc E used) (henc : E.enc ∈ Spec.encodings) :
    ∀ (is : List Item) (s : St σ), Good s.mem → (∀ i ∈ is, i.Ok E used s) →
      is.Pairwise (fun a b => ∀ x, a.at x → ¬ b.at x) →
      Wrote used (fun x => ∃ i ∈ is, i.at x)
        (fun s'' => ∀ (n : Nat) (i : Item), is[n]? = some i → (storeEach E is s).1[n]? = some (.ok ()) → i.Safe E s'') s (storeEach E is s).2
  | [], s, hg, _, _ => ⟨.refl hg _, fun _ => False, fun _ h => h.elim, fun _ _ _ _ n i h => by simp at h⟩
  | i :: is, s, hg, hok, hd => by
    have hi := hok i (List.mem_cons_self ..)
    obtain ⟨hd1, hd2⟩ := List.pairwise_cons.1 hd
    unfold storeEach
    rcases e : i.type.store E i.val i.ptr s with ⟨r, s1⟩
    have st : Step used i.at s s1 := store_step G i.type.core i.val hi.lists i.ptr s s1 r hg hi.inside e
    have hok1 : ∀ j ∈ is, j.Ok E used s1 := fun j hj => (hok j (List.mem_cons_of_mem _ hj)).step st
    have ih := storeEach_wrote E used G henc is s1 st.good hok1 hd2
    have first : Wrote used i.at (fun s'' => r = .ok () → i.Safe E s'') s s1 := by
      by_cases hr : r = .ok ()
      · subst hr
        exact (store_safe E used G henc i s s1 hg hi e).imp (fun _ h => h) fun _ _ _ h _ => h
      · exact ⟨st, fun _ => False, fun _ h => h.elim, fun _ _ _ _ h => absurd h hr⟩
    have both := first.seq ih (fun x hx => hi.kept x hx)
      (fun x ⟨j, hj, hx⟩ => (hok j (List.mem_cons_of_mem _ hj)).kept x hx) (fun x hx ⟨j, hj, hx'⟩ => hd1 j hj x hx hx')
    refine both.imp ?_ ?_
    · rintro x (hx | ⟨j, hj, hx⟩)
      · exact ⟨i, List.mem_cons_self .., hx⟩
      · exact ⟨j, List.mem_cons_of_mem _ hj, hx⟩
    · intro s'' _ _ ⟨p1, p2⟩ n j hn hr
      cases n with
      | zero =>
        simp only [List.getElem?_cons_zero, Option.some.injEq] at hn hr
        subst hn
        exact p1 hr
      | succ n =>
        simp only [List.getElem?_cons_succ] at hn hr
        exact p2 n j hn hr

/-- **C105**. Any number of values are stored one after the other at places that do not overlap, some of them perhaps refused.
In the end every value whose `Store` succeeded can be loaded and is the same: neither the values stored later, nor what they
put in blocks of the allocator, nor failed stores have disturbed it. -/
theorem stored_together (E : Env σ) (used : σ → Nat → Prop) (G : GoodAlloc E used) (henc : E.enc ∈ Spec.encodings)
    (is : List Item) (s : St σ) (hg : s.mem.len < 2 ^ 32 ∧ s.mem.len ≤ s.mem.cap) (hok : ∀ i ∈ is, i.Ok E used s)
    (hd : is.Pairwise (fun a b => ∀ x, a.at x → ¬ b.at x)) (n : Nat) (i : Item) (hn : is[n]? = some i)
    (hr : (storeEach E is s).1[n]? = some (.ok ())) :
    ∃ w, i.type.load E i.ptr (storeEach E is s).2 = (.ok w, (storeEach E is s).2) ∧ Same i.type.core i.val w := by
  have h := storeEach_wrote E used G henc is s hg hok hd
  obtain ⟨F, -, hF⟩ := h.foot
  exact hF _ (Nat.le_refl _) h.step.good (fun _ _ => rfl) n i hn hr

/-- Three values side by side, two of them with blocks of their own. -/
def exItems : List Item := [⟨exTy, exVal, 8⟩, ⟨.string, .str "hi", 48⟩, ⟨.u16, .u16 513, 56⟩]

/-- Meets the hypotheses of `stored_together`. -/
example : (∀ i ∈ exItems, i.Ok (bumpEnv "utf-8") (fun h x => x < h) bumpSt) ∧
    exItems.Pairwise (fun a b => ∀ x, a.at x → ¬ b.at x) ∧ (storeEach (bumpEnv "utf-8") exItems bumpSt).1 = [.ok (), .ok (), .ok ()] := by
  refine ⟨?_, ?_, by decide +kernel⟩
  · intro i hi
    simp only [exItems, List.mem_cons, List.not_mem_nil, or_false] at hi
    rcases hi with rfl | rfl | rfl
    · exact ⟨exHasType, exWf, exFits.1, exFits.2, by decide, by decide, fun x hx => Nat.lt_of_lt_of_le hx.2 (by decide)⟩
    · refine ⟨⟨_, rfl⟩, trivial, trivial, ?_, by decide, by decide, fun x hx => Nat.lt_of_lt_of_le hx.2 (by decide)⟩
      intro s h
      cases h
      exact ⟨by decide, fun h => absurd h (by decide)⟩
    · exact ⟨⟨_, rfl⟩, trivial, trivial, trivial, by decide, by decide, fun x hx => Nat.lt_of_lt_of_le hx.2 (by decide)⟩
  · have h1 : ∀ x, (⟨exTy, exVal, 8⟩ : Item).at x → 8 ≤ x ∧ x < 36 := fun _ h => h
    have h2 : ∀ x, (⟨.string, .str "hi", 48⟩ : Item).at x → 48 ≤ x ∧ x < 56 := fun _ h => h
    have h3 : ∀ x, (⟨.u16, .u16 513, 56⟩ : Item).at x → 56 ≤ x ∧ x < 58 := fun _ h => h
    refine List.pairwise_cons.2 ⟨?_, List.pairwise_cons.2 ⟨?_, List.pairwise_cons.2 ⟨(fun _ h => by cases h), .nil⟩⟩⟩
    · intro j hj x hx hx'
      simp only [List.mem_cons, List.not_mem_nil, or_false] at hj
      have := h1 x hx
      rcases hj with rfl | rfl
      · have := h2 x hx'; omega
      · have := h3 x hx'; omega
    · intro j hj x hx hx'
      simp only [List.mem_cons, List.not_mem_nil, or_false] at hj
      subst hj
      have := h2 x hx
      have := h3 x hx'
      omega

end Verif.Abi
