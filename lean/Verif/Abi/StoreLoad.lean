import Verif.Abi.StoreInv
import Verif.Encoding.Lemmas

/-!
# Steps of `Store` and what `Load` sees afterwards
-/

namespace Verif.Abi
open Spec Encoding

variable {σ : Type}

/-- The memory is a 32-bit memory. -/
def Good (m : Mem) : Prop := m.len < 2 ^ 32 ∧ m.len ≤ m.cap

/-- The addresses `p, …, p + n - 1`. -/
def Dst (p n x : Nat) : Prop := p ≤ x ∧ x < p + n

/-- No bytes in use change outside `D`. -/
structure Step (used : σ → Nat → Prop) (D : Nat → Prop) (s s' : St σ) : Prop where
  good : Good s'.mem
  len : s.mem.len ≤ s'.mem.len
  keep : ∀ x, used s.heap x → used s'.heap x
  data : ∀ x, used s.heap x → ¬ D x → s'.mem.data x = s.mem.data x

/-- `P` holds of every memory that agrees with that of `s` on `F`. -/
def Stable (P : St σ → Prop) (F : Nat → Prop) (s : St σ) : Prop :=
  ∀ s', s.mem.len ≤ s'.mem.len → Good s'.mem → (∀ x, F x → s'.mem.data x = s.mem.data x) → P s'

/-- The step established `P`, which depends only on bytes in `D` and on bytes taken into use. -/
structure Wrote (used : σ → Nat → Prop) (D : Nat → Prop) (P : St σ → Prop) (s s' : St σ) : Prop where
  step : Step used D s s'
  foot : ∃ F, (∀ x, F x → D x ∨ used s'.heap x ∧ ¬ used s.heap x) ∧ Stable P F s'

/-- The call succeeds with `Q`, or the allocator refused. -/
def Does {α : Type} (R : σ → Prop) (m : SM (St σ) α) (s : St σ) (Q : α → St σ → Prop) : Prop :=
  (∃ a s', m s = (.ok a, s') ∧ Q a s') ∨ ((∀ a, (m s).1 ≠ .ok a) ∧ R (m s).2.heap)

section
variable {α β : Type} {R : σ → Prop} {used : σ → Nat → Prop}

theorem Does.bind {m : SM (St σ) α} {f : α → SM (St σ) β} {s : St σ} {Q : α → St σ → Prop} {Q' : β → St σ → Prop}
    (h : Does R m s Q) (h' : ∀ a s', Q a s' → Does R (f a) s' Q') : Does R (m >>= f) s Q' := by
  rcases h with ⟨a, s', e, q⟩ | ⟨n, r⟩
  · have := h' a s' q
    unfold Does
    rw [SM.bind_ok e]; exact this
  · refine .inr ?_
    rcases e : m s with ⟨x, s1⟩
    rw [e] at r n
    cases x with
    | ok a => exact absurd rfl (n a)
    | err => rw [SM.bind_err e]; exact ⟨by simp, r⟩
    | panic => rw [SM.bind_panic e]; exact ⟨by simp, r⟩
    | diverge => rw [SM.bind_diverge e]; exact ⟨by simp, r⟩

theorem Does.imp {m : SM (St σ) α} {s : St σ} {Q Q' : α → St σ → Prop} (h : Does R m s Q)
    (h' : ∀ a s', Q a s' → Q' a s') : Does R m s Q' := by
  rcases h with ⟨a, s', e, q⟩ | r
  · exact .inl ⟨a, s', e, h' _ _ q⟩
  · exact .inr r

theorem Does.pure {a : α} {s : St σ} {Q : α → St σ → Prop} (h : Q a s) : Does R (Pure.pure a) s Q := .inl ⟨a, s, rfl, h⟩

theorem Does.any {m : SM (St σ) α} {s : St σ} {Q : α → St σ → Prop} (hR : ∀ h, R h) (h : ∀ a s', m s = (.ok a, s') → Q a s') :
    Does R m s Q := by
  rcases e : m s with ⟨x, s1⟩
  cases x with
  | ok a => exact .inl ⟨a, s1, e, h a s1 e⟩
  | _ => refine .inr ⟨by rw [e]; simp, hR _⟩

theorem Does.liftBind {r : Res α} {a : α} {f : α → SM (St σ) β} {s : St σ} {Q : β → St σ → Prop} (e : r = .ok a)
    (h : Does R (f a) s Q) : Does R (SM.lift r >>= f) s Q := by
  subst e; exact h

theorem Does.get {f : St σ → SM (St σ) β} {s : St σ} {Q : β → St σ → Prop} (h : Does R (f s) s Q) :
    Does R (SM.get >>= f) s Q := h

theorem Does.ite_neg {c : Prop} [Decidable c] {m n : SM (St σ) α} {s : St σ} {Q : α → St σ → Prop} (hc : ¬ c)
    (h : Does R n s Q) : Does R (if c then m else n) s Q := by rw [if_neg hc]; exact h

theorem Step.refl {s : St σ} (h : Good s.mem) (D : Nat → Prop) : Step used D s s :=
  ⟨h, Nat.le_refl _, fun _ h => h, fun _ _ _ => rfl⟩

theorem Step.imp {D D' : Nat → Prop} {s s' : St σ} (h : Step used D s s') (hd : ∀ x, D x → D' x) : Step used D' s s' :=
  ⟨h.good, h.len, h.keep, fun x h1 h2 => h.data x h1 (fun h3 => h2 (hd x h3))⟩

theorem Step.trans {D : Nat → Prop} {s s1 s2 : St σ} (h1 : Step used D s s1) (h2 : Step used D s1 s2) :
    Step used D s s2 :=
  ⟨h2.good, Nat.le_trans h1.len h2.len, fun x h => h2.keep x (h1.keep x h), fun x h h' => by
    rw [h2.data x (h1.keep x h) h', h1.data x h h']⟩

theorem Wrote.imp {D D' : Nat → Prop} {P P' : St σ → Prop} {s s' : St σ} (h : Wrote used D P s s')
    (hd : ∀ x, D x → D' x) (hp : ∀ s'', s'.mem.len ≤ s''.mem.len → Good s''.mem → P s'' → P' s'') :
    Wrote used D' P' s s' := by
  refine ⟨h.step.imp hd, ?_⟩
  obtain ⟨F, h1, h2⟩ := h.foot
  refine ⟨F, fun x hx => (h1 x hx).imp_left (hd x), fun s'' g1 g2 g3 => hp s'' g1 g2 (h2 s'' g1 g2 g3)⟩

theorem Stable.step {D F : Nat → Prop} {P : St σ → Prop} {s s' : St σ} (h : Stable P F s) (st : Step used D s s')
    (hf : ∀ x, F x → used s.heap x ∧ ¬ D x) : Stable P F s' := by
  intro s'' h1 h2 h3
  apply h s'' (Nat.le_trans st.len h1) h2
  intro x hx
  obtain ⟨a, b⟩ := hf x hx
  rw [h3 x hx, st.data x a b]

/-- Two writes to different parts of what is in use. -/
theorem Wrote.seq {D1 D2 : Nat → Prop} {P1 P2 : St σ → Prop} {s s1 s2 : St σ} (h1 : Wrote used D1 P1 s s1)
    (h2 : Wrote used D2 P2 s1 s2) (u1 : ∀ x, D1 x → used s.heap x) (u2 : ∀ x, D2 x → used s.heap x)
    (hd : ∀ x, D1 x → ¬ D2 x) : Wrote used (fun x => D1 x ∨ D2 x) (fun s => P1 s ∧ P2 s) s s2 := by
  refine ⟨(h1.step.imp (fun _ => .inl)).trans (h2.step.imp (fun _ => .inr)), ?_⟩
  obtain ⟨F1, a1, b1⟩ := h1.foot
  obtain ⟨F2, a2, b2⟩ := h2.foot
  refine ⟨fun x => F1 x ∨ F2 x, ?_, ?_⟩
  · rintro x (hx | hx)
    · rcases a1 x hx with h | ⟨h, h'⟩
      · exact .inl (.inl h)
      · exact .inr ⟨h2.step.keep x h, h'⟩
    · rcases a2 x hx with h | ⟨h, h'⟩
      · exact .inl (.inr h)
      · exact .inr ⟨h, fun c => h' (h1.step.keep x c)⟩
  · intro s'' c1 c2 c3
    refine ⟨?_, b2 s'' c1 c2 (fun x hx => c3 x (.inr hx))⟩
    refine Stable.step b1 h2.step ?_ s'' c1 c2 (fun x hx => c3 x (.inl hx))
    intro x hx
    rcases a1 x hx with h | ⟨h, h'⟩
    · exact ⟨h1.step.keep x (u1 x h), hd x h⟩
    · exact ⟨h, fun c => h' (u2 x c)⟩

/-- A write into a block just obtained. -/
theorem Wrote.fresh {D : Nat → Prop} {P : St σ → Prop} {s s0 s1 : St σ} (h0 : Step used (fun _ => False) s s0)
    (h1 : Wrote used D P s0 s1) (hd : ∀ x, D x → used s0.heap x ∧ ¬ used s.heap x) :
    Wrote used (fun _ => False) P s s1 := by
  refine ⟨⟨h1.step.good, Nat.le_trans h0.len h1.step.len, fun x h => h1.step.keep x (h0.keep x h), fun x h _ => ?_⟩, ?_⟩
  · rw [h1.step.data x (h0.keep x h) (fun c => (hd x c).2 h), h0.data x h (fun c => c)]
  · obtain ⟨F, a, b⟩ := h1.foot
    refine ⟨F, fun x hx => .inr ?_, b⟩
    rcases a x hx with h | ⟨h, h'⟩
    · exact ⟨h1.step.keep x (hd x h).1, (hd x h).2⟩
    · exact ⟨h, fun c => h' (h0.keep x c)⟩

theorem put_does (ptr n : U32) (bs : List Byte) (s : St σ) (hb : bs.length = n.toNat) (hg : Good s.mem)
    (hl : ptr.toNat + n.toNat ≤ s.mem.len) : Does R (put ptr n bs) s fun _ s' =>
      Wrote used (Dst ptr.toNat n.toNat) (fun s'' => s''.mem.read ptr.toNat n.toNat = bs) s s' := by
  obtain ⟨g1, g2⟩ := hg
  refine .inl ⟨(), _, put_ok _ _ _ _ (slice_ok _ _ _ (by omega) (by omega)), ⟨⟨⟨g1, g2⟩, Nat.le_refl _, fun _ h => h, ?_⟩, ?_⟩⟩
  · intro x _ hx
    exact Mem.write_out _ _ _ _ (by rw [hb]; exact hx)
  · refine ⟨_, fun x => .inl, ?_⟩
    intro s'' _ _ h
    rw [Mem.read_congr _ _ _ _ (fun x h1 h2 => h x ⟨h1, h2⟩), ← hb]
    exact Mem.read_write _ _ _

end

section
variable {E : Env σ} {used : σ → Nat → Prop} (G : GoodAlloc E used) {R : σ → Prop}
  (hR : ∀ a n m h, (∃ p, (E.realloc a n (m, h)).1 = .ok p) ∨ R (E.realloc a n (m, h)).2.2)

include G in
theorem store_step (t : Ty) (v : Val) (hf : ListsFit t v) (ptr : U32) (s s' : St σ) (r : Res Unit) (hg : Good s.mem)
    (hl : ptr.toNat + Spec.size t ≤ s.mem.len) (h : store E t v ptr s = (r, s')) :
    Step used (Dst ptr.toNat (Spec.size t)) s s' := by
  obtain ⟨hg1, hg2⟩ := hg
  have V1 : Inv E (fun m _ => Good m ∧ s.mem.len ≤ m.len) (fun _ _ => True) := by
    refine ⟨fun m h p bs h1 _ => h1, fun a n m h ⟨h1, h2⟩ => ⟨?_, fun _ _ => trivial, fun _ _ _ _ => trivial⟩⟩
    obtain ⟨g1, g2, g3⟩ := G.grows a n m h h1.1 h1.2
    exact ⟨⟨g2, g3⟩, by omega⟩
  have V2 : ∀ x, Inv E (fun _ h => used h x) (fun _ _ => True) := by
    intro x
    exact ⟨fun m h p bs h1 _ => h1, fun a n m h h1 => ⟨(G.keeps a n m h x h1).1, fun _ _ => trivial,
      fun _ _ _ _ => trivial⟩⟩
  have V3 : ∀ x, Inv E (fun m h => Good m ∧ used h x ∧ m.data x = s.mem.data x) (fun _ y => y ≠ x) := by
    intro x
    refine ⟨fun m h p bs ⟨h1, h2, h3⟩ h4 => ⟨h1, h2, ?_⟩, fun a n m h ⟨h1, h2, h3⟩ => ⟨⟨?_, ?_, ?_⟩, fun _ hy => hy, ?_⟩⟩
    · rw [Mem.write_out _ _ _ _ (fun ⟨c1, c2⟩ => h4 x c1 c2 rfl), h3]
    · exact (G.grows a n m h h1.1 h1.2).2
    · exact (G.keeps a n m h x h2).1
    · rw [(G.keeps a n m h x h2).2, h3]
    · rintro p hp y ⟨i, hi, rfl⟩ e
      have hp' : E.realloc a n (m, h) = (.ok p, ((E.realloc a n (m, h)).2.1, (E.realloc a n (m, h)).2.2)) := by
        rw [← hp]
      obtain ⟨-, b2, b3⟩ := G.block a n m h p _ _ hp' h1.1 h1.2
      have := (G.grows a n m h h1.1 h1.2).2.1
      rw [Nat.mod_eq_of_lt (by omega)] at e
      exact (b3 x (by omega) (by omega)).1 h2
  have hs : Spec.size t < 2 ^ 32 := by omega
  have k1 := store_inv V1 t v hf ptr s hs (fun _ _ => trivial) ⟨⟨hg1, hg2⟩, Nat.le_refl _⟩
  rw [h] at k1
  refine ⟨k1.1.1, k1.1.2, fun x hx => ?_, fun x hx hd => ?_⟩
  · have := (store_inv (V2 x) t v hf ptr s hs (fun _ _ => trivial) hx).1
    rwa [h] at this
  · have := (store_inv (V3 x) t v hf ptr s hs (by
      rintro y ⟨i, hi, rfl⟩ e
      rw [Nat.mod_eq_of_lt (by omega)] at e
      exact hd ⟨by omega, by omega⟩) ⟨⟨hg1, hg2⟩, hx, rfl⟩).1
    rw [h] at this
    exact this.2.2

include G hR in
theorem alloc_does (a n : U32) (s : St σ) (hg : Good s.mem) : Does R (alloc E a n) s fun p s' =>
    Step used (fun _ => False) s s' ∧ a.toNat ∣ p.toNat ∧ p.toNat + n.toNat ≤ s'.mem.len ∧
      ∀ x, Dst p.toNat n.toNat x → used s'.heap x ∧ ¬ used s.heap x := by
  rcases e : E.realloc a n (s.mem, s.heap) with ⟨r, m', h'⟩
  have e' : alloc E a n s = (r, { s with mem := m', heap := h' }) := by unfold alloc; rw [e]
  have g := G.grows a n s.mem s.heap hg.1 hg.2
  rw [e] at g
  have hr := hR a n s.mem s.heap
  rw [e] at hr
  by_cases hp : ∃ p, r = .ok p
  · obtain ⟨p, rfl⟩ := hp
    obtain ⟨b1, b2, b3⟩ := G.block a n s.mem s.heap p m' h' e hg.1 hg.2
    refine .inl ⟨p, _, e', ⟨⟨g.2.1, g.2.2⟩, g.1, fun x hx => ?_, fun x hx _ => ?_⟩, b1, b2, fun x hx => (b3 x hx.1 hx.2).symm⟩
    · have := (G.keeps a n s.mem s.heap x hx).1; rwa [e] at this
    · have := (G.keeps a n s.mem s.heap x hx).2; rwa [e] at this
  · refine .inr ?_
    rw [e']
    exact ⟨fun p hp' => hp ⟨p, hp'⟩, hr.resolve_left hp⟩

/-! ### Scalars -/

omit G hR in
theorem storeInt_does (v : Val) (i : IntInfo) (ptr : U32) (n : U32) (signed : Bool) (s : St σ) (hi : intInfo v = .ok i)
    (hs : i.sign = signed) (hn : n = 1 ∨ n = 2 ∨ n = 4 ∨ n = 8) (hg : Good s.mem)
    (hl : ptr.toNat + n.toNat ≤ s.mem.len) : Does R (storeInt v ptr n signed) s fun _ s' =>
      Wrote used (Dst ptr.toNat n.toNat)
        (fun s'' => leNat (s''.mem.read ptr.toNat n.toNat) = i.u64.toNat % 256 ^ n.toNat) s s' := by
  have e : storeInt v ptr n signed s = put ptr n (leBytes n.toNat i.u64.toNat) s := by
    rw [storeInt_eq, hi]
    simp only
    rw [if_pos hs, if_pos hn]
  have := put_does (R := R) (used := used) ptr n (leBytes n.toNat i.u64.toNat) s (leBytes_length _ _) hg hl
  unfold Does at this ⊢
  rw [e]
  refine this.imp_left ?_
  rintro ⟨a, s', h1, h2⟩
  refine ⟨a, s', h1, h2.imp (fun _ h => h) ?_⟩
  intro s'' _ _ h
  rw [h, leNat_leBytes]

omit G hR in
theorem storeUInt32_does (x ptr : U32) (s : St σ) (hg : Good s.mem) (hl : ptr.toNat + 4 ≤ s.mem.len) :
    Does R (storeUInt32 x ptr) s fun _ s' =>
      Wrote used (Dst ptr.toNat 4) (fun s'' => loadUInt32 ptr s'' = (.ok x, s'')) s s' := by
  have := put_does (R := R) (used := used) ptr 4 (leBytes 4 x.toNat) s (leBytes_length _ _) hg hl
  unfold Does at this ⊢
  rw [storeUInt32_eq]
  refine this.imp_left ?_
  rintro ⟨a, s', h1, h2⟩
  refine ⟨a, s', h1, h2.imp (fun _ h => h) ?_⟩
  intro s'' h3 h4 h
  have := h2.step.len
  obtain ⟨g1, g2⟩ := h4
  rw [loadUInt32_ok _ _ (by omega) (by omega)]
  have h' : s''.mem.read ptr.toNat 4 = leBytes 4 x.toNat := h
  rw [h', leNat_leBytes]
  have := x.isLt
  rw [Nat.mod_eq_of_lt (by omega), BitVec.ofNat_toNat, BitVec.setWidth_eq]

omit G hR in
theorem toNat_add_4 (ptr : U32) (h : ptr.toNat + 4 < 2 ^ 32) : (ptr + 4).toNat = ptr.toNat + 4 := by
  rw [BitVec.toNat_add]
  show (ptr.toNat + 4) % 2 ^ 32 = _
  exact Nat.mod_eq_of_lt h

omit G hR in
/-- Pointer and length over an 8-byte destination. -/
theorem storePair_does (x y ptr : U32) (s : St σ) (hg : Good s.mem) (hl : ptr.toNat + 8 ≤ s.mem.len)
    (hu : ∀ x, Dst ptr.toNat 8 x → used s.heap x) :
    Does R (do storeUInt32 x ptr; storeUInt32 y (ptr + 4)) s fun _ s' =>
      Wrote used (Dst ptr.toNat 8)
        (fun s'' => loadUInt32 ptr s'' = (.ok x, s'') ∧ loadUInt32 (ptr + 4) s'' = (.ok y, s'')) s s' := by
  have hg' := hg.1
  have h4 := toNat_add_4 ptr (by omega)
  apply Does.bind (storeUInt32_does (used := used) x ptr s hg (by omega))
  intro _ s1 w1
  have := w1.step.len
  apply (storeUInt32_does (used := used) y (ptr + 4) s1 w1.step.good (by omega)).imp
  intro _ s2 w2
  rw [h4] at w2
  refine (w1.seq w2 (fun x h => hu x ?_) (fun x h => hu x ?_) ?_).imp ?_ (fun _ _ _ h => h)
  · unfold Dst at *; omega
  · unfold Dst at *; omega
  · intro x h; unfold Dst at *; omega
  · intro x h; unfold Dst at *; omega

end

end Verif.Abi
