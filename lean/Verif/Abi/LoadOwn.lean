import Verif.Abi.LoadReads

/-!
# A value in memory is its own bytes
-/

namespace Verif.Abi.Spec

mutual
/-- The byte at `a` belongs to the value of the type at `p`: it is one of those of a number, of a (pointer, length) pair or
of a discriminant, or one of those such a pair describes, or of a field or of the payload of the case there. Padding and
the bytes of other cases do not belong to it. -/
def Owns (enc : String) (m : Mem) : Ty → Nat → Nat → Prop
  | .string, p, a => (p ≤ a ∧ a < p + 8) ∨
      (natAt m p 4 ≤ a ∧ a < natAt m p 4 + stringBytes enc (natAt m (p + 4) 4))
  | .list t, p, a => (p ≤ a ∧ a < p + 8) ∨ ∃ i < natAt m (p + 4) 4, Owns enc m t (natAt m p 4 + i * size t) a
  | .record fs, p, a => OwnsFields enc m fs p a
  | .variant cs, p, a => (p ≤ a ∧ a < p + discBytes cs.length) ∨
      OwnsCase enc m cs (natAt m p (discBytes cs.length)) (p + payloadOffset cs) a
  | t, p, a => p ≤ a ∧ a < p + size t
/-- To one of the fields, the first of which may start at `p`. -/
def OwnsFields (enc : String) (m : Mem) : Fields → Nat → Nat → Prop
  | .nil, _, _ => False
  | .cons _ t fs, p, a => Owns enc m t (alignUp p (align t)) a ∨
      OwnsFields enc m fs (alignUp p (align t) + size t) a
/-- To the payload of the `i`-th case. -/
def OwnsCase (enc : String) (m : Mem) : Cases → Nat → Nat → Nat → Prop
  | .nil, _, _, _ => False
  | .cons _ t _ _, 0, p, a => t ≠ .nil ∧ Owns enc m t p a
  | .cons _ _ _ cs, i + 1, p, a => OwnsCase enc m cs i p a
end

end Verif.Abi.Spec

namespace Verif.Abi
open Encoding Spec

variable {σ : Type} {α β : Type}

/-- The second state has the same handles, at least as much memory, and the same bytes where `P` says. -/
structure Near (P : Nat → Prop) (s s' : St σ) : Prop where
  len : s.mem.len ≤ s'.mem.len
  data : ∀ x, P x → s'.mem.data x = s.mem.data x
  small : s'.mem.len < 2 ^ 32
  cap : s.mem.len ≤ s.mem.cap
  cap' : s'.mem.len ≤ s'.mem.cap
  world : s'.world = s.world

theorem Near.withWorld {P : Nat → Prop} {s s' : St σ} (h : Near P s s') (w : Handles.World) :
    Near P { s with world := w } { s' with world := w } := ⟨h.len, h.data, h.small, h.cap, h.cap', rfl⟩

theorem Near.same {P : Nat → Prop} {s s' : St σ} (h : Near P s s') : { s' with world := s.world } = s' := by
  obtain ⟨m, g, w⟩ := s'
  have := h.world
  simp only at this
  rw [this]

theorem Near.read {P : Nat → Prop} {s s' : St σ} (h : Near P s s') (p n : Nat) (hP : ∀ x, p ≤ x → x < p + n → P x) :
    s'.mem.read p n = s.mem.read p n :=
  Mem.read_congr _ _ _ _ fun x h1 h2 => h.data x (hP x h1 h2)

/-- What succeeds from the first state does the same from the second, and changes the handle tables at most. -/
def Follows (m : SM (St σ) α) (s s' : St σ) : Prop :=
  ∀ a s1, m s = (.ok a, s1) → ∃ w, s1 = { s with world := w } ∧ m s' = (.ok a, { s' with world := w })

theorem Follows.bind {m : SM (St σ) α} {f : α → SM (St σ) β} {s s' : St σ} (h1 : Follows m s s')
    (h2 : ∀ a w, m s = (.ok a, { s with world := w }) → Follows (f a) { s with world := w } { s' with world := w }) :
    Follows (m >>= f) s s' := by
  intro b s1 e
  obtain ⟨a, t, e1, e2⟩ := SM.bind_eq_ok.1 e
  obtain ⟨w, rfl, e3⟩ := h1 a t e1
  obtain ⟨w', rfl, e4⟩ := h2 a w e1 b s1 e2
  exact ⟨w', rfl, by rw [SM.bind_ok e3, e4]⟩

theorem Follows.of_ok {P : Nat → Prop} {s s' : St σ} (h : Near P s s') {m : SM (St σ) α} {a : α} (e : m s = (.ok a, s))
    (e' : m s' = (.ok a, s')) : Follows m s s' := by
  intro b s1 e1
  rw [e] at e1
  cases e1
  exact ⟨s.world, rfl, by rw [h.same]; exact e'⟩

theorem Follows.of_not {m : SM (St σ) α} {s s' : St σ} (e : ∀ a, (m s).1 ≠ .ok a) : Follows m s s' := by
  intro b s1 e1
  exact absurd (by rw [e1]) (e b)

theorem Follows.pure {P : Nat → Prop} {s s' : St σ} (h : Near P s s') (a : α) : Follows (Pure.pure a) s s' :=
  .of_ok h rfl rfl

theorem Follows.lift {P : Nat → Prop} {s s' : St σ} (h : Near P s s') (r : Res α) : Follows (SM.lift r) s s' := by
  intro b s1 e1
  cases e1
  exact ⟨s.world, rfl, by rw [h.same]; rfl⟩

/-- After something that does not depend on the state. -/
theorem Follows.lift_bind {P : Nat → Prop} {s s' : St σ} (_h : Near P s s') {r : Res α} {f : α → SM (St σ) β}
    (hf : ∀ a, r = .ok a → Follows (f a) s s') : Follows (SM.lift r >>= f) s s' := by
  intro b s1 e1
  obtain ⟨a, t, e2, e3⟩ := SM.bind_eq_ok.1 e1
  obtain ⟨rfl, rfl⟩ := Prod.mk.inj e2
  obtain ⟨w, h1, h2⟩ := hf a rfl b s1 e3
  exact ⟨w, h1, by rw [SM.bind_ok (SM.lift_def _ _), h2]⟩

/-- After an integer has been read. -/
theorem loadInt_follows {P : Nat → Prop} {s s' : St σ} (h : Near P s s') (t : Ty) (n : U32) (hn : Abi.size t = .ok n)
    (ptr : U32) (hl : ptr.toNat + n.toNat ≤ s.mem.len) (hP : ∀ x, ptr.toNat ≤ x → x < ptr.toNat + n.toNat → P x)
    {f : Val → SM (St σ) β} (hf : ∀ x, Follows (f (intVal t x)) s s') : Follows (loadInt ptr t >>= f) s s' := by
  obtain ⟨h1, h2, h3, h4, h5, -⟩ := id h
  have e := loadInt_ok t n hn ptr s (by omega) (by omega)
  have e' := loadInt_ok t n hn ptr s' (by omega) (by omega)
  rw [h.read _ _ hP] at e'
  intro b s1 eb
  rw [SM.bind_ok e] at eb
  rw [SM.bind_ok e']
  exact hf _ b s1 eb

theorem loadInt_follows' {P : Nat → Prop} {s s' : St σ} (h : Near P s s') (t : Ty) (n : U32) (hn : Abi.size t = .ok n)
    (ptr : U32) (hl : ptr.toNat + n.toNat ≤ s.mem.len) (hP : ∀ x, ptr.toNat ≤ x → x < ptr.toNat + n.toNat → P x) :
    Follows (loadInt ptr t) s s' := by
  obtain ⟨h1, h2, h3, h4, h5, -⟩ := id h
  refine .of_ok h (loadInt_ok t n hn ptr s (by omega) (by omega)) ?_
  rw [loadInt_ok t n hn ptr s' (by omega) (by omega), h.read _ _ hP]

/-- After a word has been read. -/
theorem loadUInt32_follows {P : Nat → Prop} {s s' : St σ} (h : Near P s s') (ptr : U32) (hl : ptr.toNat + 4 ≤ s.mem.len)
    (hP : ∀ x, ptr.toNat ≤ x → x < ptr.toNat + 4 → P x) {f : U32 → SM (St σ) β}
    (hf : ∀ x : U32, x.toNat = natAt s.mem ptr.toNat 4 → Follows (f x) s s') : Follows (loadUInt32 ptr >>= f) s s' := by
  obtain ⟨h1, h2, h3, h4, h5, -⟩ := id h
  have e := loadUInt32_ok ptr s (by omega) (by omega)
  have hx := loadUInt32_natAt ptr s _ _ (by omega) h4 hl e
  have e' := loadUInt32_ok ptr s' (by omega) (by omega)
  rw [h.read _ _ hP] at e'
  intro b s1 eb
  rw [SM.bind_ok e] at eb
  rw [SM.bind_ok e']
  exact hf _ hx b s1 eb

theorem loadUInt64_follows {P : Nat → Prop} {s s' : St σ} (h : Near P s s') (ptr : U32) (hl : ptr.toNat + 8 ≤ s.mem.len)
    (hP : ∀ x, ptr.toNat ≤ x → x < ptr.toNat + 8 → P x) : Follows (loadUInt64 ptr) s s' := by
  obtain ⟨h1, h2, h3, h4, h5, -⟩ := id h
  refine .of_ok h (loadUInt64_ok ptr s (by omega) (by omega)) ?_
  rw [loadUInt64_ok ptr s' (by omega) (by omega), h.read _ _ hP]

theorem loadFlags_follows {P : Nat → Prop} {s s' : St σ} (h : Near P s s') (ptr : U32) (ls : List String)
    (hl : ptr.toNat + (sizeFlags ls.length).toNat ≤ s.mem.len)
    (hP : ∀ x, ptr.toNat ≤ x → x < ptr.toNat + (sizeFlags ls.length).toNat → P x) : Follows (loadFlags ptr ls) s s' := by
  unfold loadFlags
  refine .bind ?_ fun x w _ => .pure (h.withWorld w) _
  unfold loadFlagsWord
  generalize sizeFlags ls.length = n at *
  by_cases n1 : n = 1
  · subst n1
    have e1 : loadIntWithSize (σ := σ) ptr 1 false = loadInt ptr .u8 := rfl
    rw [e1]
    exact loadInt_follows h .u8 1 rfl ptr hl hP fun x => .pure h _
  by_cases n2 : n = 2
  · subst n2
    have e1 : loadIntWithSize (σ := σ) ptr 2 false = loadInt ptr .u16 := rfl
    rw [e1]
    exact loadInt_follows h .u16 2 rfl ptr hl hP fun x => .pure h _
  by_cases n4 : n = 4
  · subst n4
    have e1 : loadIntWithSize (σ := σ) ptr 4 false = loadInt ptr .u32 := rfl
    rw [e1]
    exact loadInt_follows h .u32 4 rfl ptr hl hP fun x => .pure h _
  by_cases n8 : n = 8
  · subst n8
    have e1 : loadIntWithSize (σ := σ) ptr 8 false = loadInt ptr .u64 := rfl
    rw [e1]
    exact loadInt_follows h .u64 8 rfl ptr hl hP fun x => .pure h _
  by_cases n0 : n = 0
  · subst n0
    have e1 : loadIntWithSize (σ := σ) ptr 0 false = Pure.pure (.u32 0) := rfl
    rw [e1]
    refine .bind (.pure h _) fun v w _ => ?_
    rw [if_neg n1, if_neg n2, if_neg n4, if_neg n8]
    exact .pure (h.withWorld w) _
  · refine .of_not fun a ha => ?_
    have e1 : loadIntWithSize (σ := σ) ptr n false = loadInt ptr .nil := by
      unfold loadIntWithSize
      rw [if_neg n0, if_neg n1, if_neg n2, if_neg n4, if_neg n8]
    have e2 : loadInt ptr .nil s = (.err, s) := rfl
    rw [e1, SM.bind_err e2] at ha
    cases ha

theorem loadDisc_follows {P : Nat → Prop} {s s' : St σ} (h : Near P s s') (n : Nat) (d : Disc)
    (hd : discriminantType n = .ok d) (ptr : U32) (hl : ptr.toNat + discBytes n ≤ s.mem.len)
    (hP : ∀ x, ptr.toNat ≤ x → x < ptr.toNat + discBytes n → P x) {f : U32 → SM (St σ) β}
    (hf : ∀ x : U32, x.toNat = natAt s.mem ptr.toNat (discBytes n) → Follows (f x) s s') :
    Follows (loadDisc ptr d >>= f) s s' := by
  have hb := disc_bytes n d hd
  obtain ⟨h1, h2, h3, h4, h5, -⟩ := id h
  have key : ∃ x : U32, x.toNat = natAt s.mem ptr.toNat (discBytes n) ∧ loadDisc ptr d s = (.ok x, s) ∧
      loadDisc ptr d s' = (.ok x, s') := by
    have hr : ∀ k, leNat (s.mem.read ptr.toNat k) < 256 ^ k := fun k => by
      have := leNat_lt (s.mem.read ptr.toNat k); rwa [Mem.read_length] at this
    rw [← hb] at hl hP ⊢
    cases d with
    | u8 =>
      have hl' : ptr.toNat + 1 ≤ s.mem.len := hl
      have g := hr 1
      refine ⟨(BitVec.ofNat 8 (leNat (s.mem.read ptr.toNat 1))).setWidth 32, ?_, ?_, ?_⟩
      · show _ = natAt s.mem ptr.toNat 1
        rw [natAt_eq]; simp only [BitVec.toNat_setWidth, BitVec.toNat_ofNat]; omega
      · unfold loadDisc Disc.ty; simp only
        rw [SM.bind_ok (loadInt_ok .u8 1 rfl ptr s (by show _ + 1 < _; omega) (by show _ + 1 ≤ _; omega))]; rfl
      · unfold loadDisc Disc.ty; simp only
        rw [← h.read ptr.toNat 1 hP, SM.bind_ok (loadInt_ok .u8 1 rfl ptr s' (by show _ + 1 < _; omega) (by show _ + 1 ≤ _; omega))]; rfl
    | u16 =>
      have hl' : ptr.toNat + 2 ≤ s.mem.len := hl
      have g := hr 2
      refine ⟨(BitVec.ofNat 16 (leNat (s.mem.read ptr.toNat 2))).setWidth 32, ?_, ?_, ?_⟩
      · show _ = natAt s.mem ptr.toNat 2
        rw [natAt_eq]; simp only [BitVec.toNat_setWidth, BitVec.toNat_ofNat]; omega
      · unfold loadDisc Disc.ty; simp only
        rw [SM.bind_ok (loadInt_ok .u16 2 rfl ptr s (by show _ + 2 < _; omega) (by show _ + 2 ≤ _; omega))]; rfl
      · unfold loadDisc Disc.ty; simp only
        rw [← h.read ptr.toNat 2 hP, SM.bind_ok (loadInt_ok .u16 2 rfl ptr s' (by show _ + 2 < _; omega) (by show _ + 2 ≤ _; omega))]; rfl
    | u32 =>
      have hl' : ptr.toNat + 4 ≤ s.mem.len := hl
      have g := hr 4
      refine ⟨BitVec.ofNat 32 (leNat (s.mem.read ptr.toNat 4)), ?_, ?_, ?_⟩
      · show _ = natAt s.mem ptr.toNat 4
        rw [natAt_eq]; simp only [BitVec.toNat_ofNat]; omega
      · unfold loadDisc Disc.ty; simp only
        rw [SM.bind_ok (loadInt_ok .u32 4 rfl ptr s (by show _ + 4 < _; omega) (by show _ + 4 ≤ _; omega))]; rfl
      · unfold loadDisc Disc.ty; simp only
        rw [← h.read ptr.toNat 4 hP, SM.bind_ok (loadInt_ok .u32 4 rfl ptr s' (by show _ + 4 < _; omega) (by show _ + 4 ≤ _; omega))]; rfl
  obtain ⟨x, hx, e, e'⟩ := key
  intro b s1 eb
  rw [SM.bind_ok e] at eb
  rw [SM.bind_ok e']
  exact hf x hx b s1 eb

theorem onWorld_follows {P : Nat → Prop} {s s' : St σ} (h : Near P s s') (f : SM Handles.World α) :
    Follows (onWorld f) s s' := by
  intro a s1 e
  unfold onWorld at e ⊢
  obtain ⟨e1, rfl⟩ := Prod.mk.inj e
  exact ⟨(f s.world).2, rfl, by rw [h.world, e1]⟩

theorem loadStringFromRange_follows {P : Nat → Prop} {s s' : St σ} (h : Near P s s') (E : Env σ) (p n : U32)
    (hw : p.toNat + stringBytes E.enc n.toNat < 2 ^ 32)
    (hP : ∀ x, p.toNat ≤ x → x < p.toNat + stringBytes E.enc n.toNat → P x) :
    Follows (loadStringFromRange E p n) s s' := by
  have hsm := h.small
  have hle := h.len
  by_cases henc : E.enc ∈ Spec.encodings
  · obtain ⟨c, k, h1, -, key⟩ := loadStringFromRange_cases E henc p n
    have k1 := key s (by omega) h.cap (by omega)
    have k2 := key s' hsm h.cap' (by omega)
    by_cases hb : stringAlign E.enc ∣ p.toNat ∧ p.toNat + k ≤ s.mem.len
    · rw [if_pos hb] at k1
      rw [if_pos ⟨hb.1, by omega⟩, h.read _ _ fun x g1 g2 => hP x g1 (by omega)] at k2
      intro a s1 e
      rw [k1] at e
      obtain ⟨e1, rfl⟩ := Prod.mk.inj e
      exact ⟨s.world, rfl, by rw [k2, e1, h.same]⟩
    · rw [if_neg hb] at k1
      exact .of_not fun a ha => by rw [k1] at ha; cases ha
  · exact .of_not fun a ha => by rw [loadStringFromRange_unknown E henc p n s] at ha; cases ha

theorem loadElems_follows {P : Nat → Prop} {f : U32 → SM (St σ) Val} (ptr sz : U32) : (n i : Nat) → (s s' : St σ) →
    Near P s s' →
    (∀ j, i ≤ j → j < i + n → ∀ w, Follows (f (ptr + BitVec.ofNat 32 j * sz)) { s with world := w } { s' with world := w }) →
    Follows (loadElems f ptr sz n i) s s'
  | 0, i, s, s', h, _ => by rw [loadElems]; exact .pure h _
  | n + 1, i, s, s', h, hf => by
    rw [loadElems]
    have h0 := hf i (Nat.le_refl _) (by omega) s.world
    rw [h.same] at h0
    refine .bind h0 fun v w _ => ?_
    have hw := h.withWorld w
    refine .bind (loadElems_follows ptr sz n (i + 1) _ _ hw fun j h1 h2 w' => ?_) fun vs w' _ => ?_
    · exact hf j (by omega) (by omega) w'
    · exact .pure (h.withWorld w') _

theorem loadListFromRange_follows_zero {P : Nat → Prop} (f : U32 → SM (St σ) Val) (t : Ty) (p : U32) (s s' : St σ)
    (h : Near P s s') : Follows (loadListFromRange f t p 0) s s' := by
  have hsm := h.small
  have hle := h.len
  unfold loadListFromRange
  refine .lift_bind h fun a _ => ?_
  by_cases hc : p ≠ alignTo p a
  · rw [if_pos hc]
    exact .of_not fun a ha => by cases ha
  · rw [if_neg hc]
    refine .lift_bind h fun z _ => ?_
    intro b s1 e
    rw [SM.bind_get, SM.ite_app] at e ⊢
    split at e
    · cases e
    · rename_i hlen
      rw [if_neg]
      · have e0 : (0 : U32).toNat = 0 := rfl
        rw [e0, loadElems] at e ⊢
        exact Follows.pure h _ b s1 e
      · simp only [Mem.len32] at hlen ⊢
        rw [toNat_ofNat_lt (by omega)] at hlen ⊢
        omega

mutual
/-- What `Load` returns from an in-bounds address it also returns from any state with the same bytes of the value. -/
theorem load_follows (E : Env σ) (P : Nat → Prop) : (t : Ty) → Laid t → (ptr : U32) → (s s' : St σ) → Near P s s' →
    align t ∣ ptr.toNat → ptr.toNat + Spec.size t ≤ s.mem.len → NoWrap E.enc s.mem t ptr.toNat →
    (∀ a, Owns E.enc s.mem t ptr.toNat a → P a) → Follows (load E t ptr) s s'
  | .bool, _, ptr, s, s', h, _, hl, _, hP => by
    rw [load, loadBool]
    exact loadInt_follows h .u8 1 rfl ptr hl (fun x h1 h2 => hP x (by rw [Owns] <;> first | exact ⟨h1, h2⟩ | nofun)) fun x => .pure h _
  | .u8, _, ptr, s, s', h, _, hl, _, hP => by
    rw [load]; exact loadInt_follows' h .u8 1 rfl ptr hl fun x h1 h2 => hP x (by rw [Owns] <;> first | exact ⟨h1, h2⟩ | nofun)
  | .u16, _, ptr, s, s', h, _, hl, _, hP => by
    rw [load]; exact loadInt_follows' h .u16 2 rfl ptr hl fun x h1 h2 => hP x (by rw [Owns] <;> first | exact ⟨h1, h2⟩ | nofun)
  | .u32, _, ptr, s, s', h, _, hl, _, hP => by
    rw [load]; exact loadInt_follows' h .u32 4 rfl ptr hl fun x h1 h2 => hP x (by rw [Owns] <;> first | exact ⟨h1, h2⟩ | nofun)
  | .u64, _, ptr, s, s', h, _, hl, _, hP => by
    rw [load]; exact loadInt_follows' h .u64 8 rfl ptr hl fun x h1 h2 => hP x (by rw [Owns] <;> first | exact ⟨h1, h2⟩ | nofun)
  | .s8, _, ptr, s, s', h, _, hl, _, hP => by
    rw [load]; exact loadInt_follows' h .s8 1 rfl ptr hl fun x h1 h2 => hP x (by rw [Owns] <;> first | exact ⟨h1, h2⟩ | nofun)
  | .s16, _, ptr, s, s', h, _, hl, _, hP => by
    rw [load]; exact loadInt_follows' h .s16 2 rfl ptr hl fun x h1 h2 => hP x (by rw [Owns] <;> first | exact ⟨h1, h2⟩ | nofun)
  | .s32, _, ptr, s, s', h, _, hl, _, hP => by
    rw [load]; exact loadInt_follows' h .s32 4 rfl ptr hl fun x h1 h2 => hP x (by rw [Owns] <;> first | exact ⟨h1, h2⟩ | nofun)
  | .s64, _, ptr, s, s', h, _, hl, _, hP => by
    rw [load]; exact loadInt_follows' h .s64 8 rfl ptr hl fun x h1 h2 => hP x (by rw [Owns] <;> first | exact ⟨h1, h2⟩ | nofun)
  | .f32, _, ptr, s, s', h, _, hl, _, hP => by
    rw [load, loadFloat32]
    exact loadUInt32_follows h ptr hl (fun x h1 h2 => hP x (by rw [Owns] <;> first | exact ⟨h1, h2⟩ | nofun)) fun x _ => .pure h _
  | .f64, _, ptr, s, s', h, _, hl, _, hP => by
    rw [load, loadFloat64]
    exact .bind (loadUInt64_follows h ptr hl fun x h1 h2 => hP x (by rw [Owns] <;> first | exact ⟨h1, h2⟩ | nofun))
      fun x w _ => .pure (h.withWorld w) _
  | .char, _, ptr, s, s', h, _, hl, _, hP => by
    rw [load, loadChar]
    have e1 : loadIntWithSize (σ := σ) ptr 4 false = loadInt ptr .u32 := rfl
    rw [e1]
    refine loadInt_follows h .u32 4 rfl ptr hl (fun x h1 h2 => hP x (by rw [Owns] <;> first | exact ⟨h1, h2⟩ | nofun)) fun x => ?_
    exact .bind (.lift h _) fun x w _ => .pure (h.withWorld w) _
  | .string, _, ptr, s, s', h, _, hl, hw, hP => by
    rw [Spec.size] at hl
    rw [NoWrap] at hw
    have hsm := h.small
    have hle := h.len
    rw [load, loadString]
    refine .bind (loadUInt32_follows h ptr (by omega) (fun x h1 h2 => hP x (by rw [Owns]; omega)) fun b hb => ?_)
      fun x w _ => .pure (h.withWorld w) _
    have h4 := toNat_add_4 ptr (by omega)
    refine loadUInt32_follows h (ptr + 4) (by omega) (fun x h1 h2 => hP x (by rw [Owns]; omega)) fun n hn => ?_
    rw [h4] at hn
    refine loadStringFromRange_follows h E b n (by rw [hb, hn]; exact hw) fun x h1 h2 => hP x ?_
    rw [Owns, ← hb, ← hn]
    exact .inr ⟨h1, h2⟩
  | .list t, _, ptr, s, s', h, _, hl, hw, hP => by
    rw [Spec.size] at hl
    rw [NoWrap] at hw
    have hsm := h.small
    have hle := h.len
    rw [load, loadList]
    refine .bind (loadUInt32_follows h ptr (by omega) (fun x h1 h2 => hP x (by rw [Owns]; omega)) fun b hb => ?_)
      fun x w _ => .pure (h.withWorld w) _
    have h4 := toNat_add_4 ptr (by omega)
    refine loadUInt32_follows h (ptr + 4) (by omega) (fun x h1 h2 => hP x (by rw [Owns]; omega)) fun n hn => ?_
    rw [h4] at hn
    simp only [Owns] at hP
    rw [← hb, ← hn] at hw hP
    by_cases hn0 : n = 0
    · subst hn0; exact loadListFromRange_follows_zero _ t b s s' h
    have hsz : Spec.size t < 2 ^ 32 := by
      have hn' : 1 ≤ n.toNat := by
        rcases Nat.eq_zero_or_pos n.toNat with h | h
        · exact absurd (BitVec.eq_of_toNat_eq (y := 0) h) hn0
        · exact h
      have := Nat.mul_le_mul_right (Spec.size t) hn'
      omega
    by_cases hlt : Laid t
    · have k1 := loadListFromRange_cases (load E t) t hlt b n s (by omega) hw.1 hsz
      have k2 := loadListFromRange_cases (load E t) t hlt b n s' hsm hw.1 hsz
      by_cases hb2 : align t ∣ b.toNat ∧ b.toNat + n.toNat * Spec.size t ≤ s.mem.len
      · rw [if_pos hb2] at k1
        rw [if_pos ⟨hb2.1, by omega⟩] at k2
        have key : Follows (loadElems (load E t) b (BitVec.ofNat 32 (Spec.size t)) n.toNat 0) s s' := by
          refine loadElems_follows b _ n.toNat 0 s s' h fun j _ hj w => ?_
          have hj' : j + 1 ≤ n.toNat := by omega
          have hmul := Nat.mul_le_mul_right (Spec.size t) hj'
          rw [Nat.add_mul, Nat.one_mul] at hmul
          have ha := toNat_elem b j (Spec.size t) (by omega) hsz
          refine load_follows E P t hlt _ _ _ (h.withWorld w) ?_ ?_ ?_ ?_
          · rw [ha]
            exact Nat.dvd_add hb2.1 (Nat.dvd_trans (align_dvd_size t) (Nat.dvd_mul_left _ _))
          · rw [ha]; show _ ≤ s.mem.len; omega
          · rw [ha]; exact hw.2 hb2.1 hb2.2 j (by omega)
          · rw [ha]; exact fun a hoa => hP a (.inr ⟨j, by omega, hoa⟩)
        intro a s1 e
        rw [k1] at e
        rw [k2]
        exact key a s1 e
      · rw [if_neg hb2] at k1
        exact .of_not fun a ha => by rw [k1] at ha; cases ha
    · -- an element type without layout has no size
      have hz : Abi.size t = .err := by
        rcases size_returns t with ⟨z, e⟩ | e
        · exact absurd (laid_of_size t z e) hlt
        · exact e
      have key : ∀ u : St σ, loadListFromRange (load E t) t b n u = (.err, u) := by
        intro u
        unfold loadListFromRange
        rcases alignment_returns t with ⟨a, e⟩ | e
        · rw [e, SM.bind_ok (SM.lift_def _ _), SM.ite_app]
          split
          · rfl
          · rw [hz, SM.bind_err (SM.lift_def _ _)]
        · rw [e, SM.bind_err (SM.lift_def _ _)]
      exact .of_not fun a ha => by rw [key s] at ha; cases ha
  | .record fs, hlt, ptr, s, s', h, ha, hl, hw, hP => by
    simp only [Laid] at hlt
    rw [NoWrap] at hw
    rw [align] at ha
    rw [Spec.size] at hl
    rw [load]
    have h1 := le_alignUp (n := fieldsEnd fs 0) (alignFields_isAl fs).pos
    have := loadFields_follows E P fs hlt ptr 0 [] s s' h _ (alignFields_isAl fs) (Nat.le_refl _) ha (by omega) hw
      fun a hoa => hP a (by rw [Owns]; exact hoa)
    simpa using this
  | .variant cs, hlt, ptr, s, s', h, ha, hl, hw, hP => by
    simp only [Laid] at hlt
    rw [NoWrap] at hw
    rw [align] at ha
    have hsm := h.small
    have hlen := h.len
    have hls := laid_size_cases (cs := cs) (by omega)
    have hd := discBytes_isAl cs.length
    have hca := alignCases_isAl cs
    have hle : payloadOffset cs + sizeCases cs ≤ Spec.size (.variant cs) := by
      rw [Spec.size]
      exact le_alignUp (hd.max hca).pos
    have hdo : discBytes cs.length ≤ payloadOffset cs := le_alignUp hca.pos
    rw [load]
    refine .lift_bind h fun d hdt => ?_
    have hbytes := disc_bytes _ _ hdt
    refine loadDisc_follows h cs.length d hdt ptr (by omega) (fun x h1 h2 => hP x (by rw [Owns]; exact .inl ⟨h1, h2⟩))
      fun i hi => ?_
    rw [disc_size]
    refine .lift_bind h fun z hz => ?_
    injection hz with hz
    subst hz
    split
    · exact .of_not fun a ha => by cases ha
    · rename_i hir
      rw [toNat_ofNat_lt (by omega)] at hir
      rw [maxCaseAlignment_eq cs hlt.2.2 1 (.inl rfl)]
      refine .lift_bind h fun z hz => ?_
      injection hz with hz
      subst hz
      have hmx : max (1 : U32).toNat (alignCases cs) = alignCases cs := by
        have := hca.pos
        show max 1 _ = _
        omega
      rw [hmx]
      have hbd : d.bytes = BitVec.ofNat 32 (discBytes cs.length) := by
        apply BitVec.eq_of_toNat_eq
        rw [hbytes, ofNat_toNat_isAl hd]
      have hcd : alignCases cs ∣ ptr.toNat := Nat.dvd_trans (hd.dvd_max_right hca) ha
      rw [hbd, alignTo_add ptr _ _ hca hcd]
      have hp : (ptr + BitVec.ofNat 32 (alignUp (discBytes cs.length) (alignCases cs))).toNat =
          ptr.toNat + payloadOffset cs := by
        have : payloadOffset cs = alignUp (discBytes cs.length) (alignCases cs) := rfl
        rw [BitVec.toNat_add, toNat_ofNat_lt (by omega), Nat.mod_eq_of_lt (by omega)]; rfl
      refine loadCase_follows E P cs cs i.toNat hlt.2.2 _ s s' h ?_ ?_ ?_ ?_
      · rw [hp]; exact Nat.dvd_add hcd (alignUp_dvd _ _)
      · rw [hp]; omega
      · rw [hp, hi]; exact hw
      · rw [hp, hi]; exact fun a hoa => hP a (by rw [Owns]; exact .inr hoa)
  | .flags ls, _, ptr, s, s', h, _, hl, _, hP => by
    have := h.small
    have := h.len
    rw [load]
    have hz := sizeFlags_spec ls (by omega)
    exact loadFlags_follows h ptr ls (by rw [hz]; exact hl) fun x h1 h2 => hP x (by rw [hz] at h2; rw [Owns] <;> first | exact ⟨h1, h2⟩ | nofun)
  | .own rt, _, ptr, s, s', h, _, hl, _, hP => by
    rw [load]
    exact loadUInt32_follows h ptr hl (fun x h1 h2 => hP x (by rw [Owns] <;> first | exact ⟨h1, h2⟩ | nofun)) fun i _ =>
      .bind (onWorld_follows h _) fun x w _ => .pure (h.withWorld w) _
  | .borrow rt, _, ptr, s, s', h, _, hl, _, hP => by
    rw [load]
    exact loadUInt32_follows h ptr hl (fun x h1 h2 => hP x (by rw [Owns] <;> first | exact ⟨h1, h2⟩ | nofun)) fun i _ =>
      .bind (onWorld_follows h _) fun x w _ => .pure (h.withWorld w) _
  | .nil, hlt, _, _, _, _, _, _, _, _ | .other, hlt, _, _, _, _, _, _, _, _ => by simp [Laid] at hlt
theorem loadFields_follows (E : Env σ) (P : Nat → Prop) : (fs : Fields) → LaidFields fs → (base : U32) → (k : Nat) →
    (acc : List (String × Val)) → (s s' : St σ) → Near P s s' → (B : Nat) → IsAl B → alignFields fs ≤ B → B ∣ base.toNat →
    base.toNat + fieldsEnd fs k ≤ s.mem.len → NoWrapFields E.enc s.mem fs (base.toNat + k) →
    (∀ a, OwnsFields E.enc s.mem fs (base.toNat + k) a → P a) →
    Follows (loadFields E fs (base + BitVec.ofNat 32 k) acc) s s'
  | .nil, _, base, k, acc, s, s', h, _, _, _, _, _, _, _ => by rw [loadFields]; exact .pure h _
  | .cons l t fs, hlt, base, k, acc, s, s', h, B, hB, hBl, hBd, he, hw, hP => by
    simp only [LaidFields] at hlt
    rw [alignFields] at hBl
    rw [fieldsEnd] at he
    rw [NoWrapFields] at hw
    have hsm := h.small
    have hlen := h.len
    have g1 := fieldsEnd_ge fs (alignUp k (align t) + Spec.size t)
    have g2 := le_alignUp (n := k) (align_isAl t).pos
    have hd : align t ∣ base.toNat := Nat.dvd_trans ((align_isAl t).dvd_of_le hB (by omega)) hBd
    simp only [OwnsFields] at hP
    rw [alignUp_add (align_isAl t).pos hd] at hw
    rw [alignUp_add (align_isAl t).pos hd] at hP
    rw [loadFields, alignment_eq t hlt.1]
    refine .lift_bind h fun z hz => ?_
    injection hz with hz
    subst hz
    simp only
    rw [alignTo_add base k _ (align_isAl t) hd]
    have hp : (base + BitVec.ofNat 32 (alignUp k (align t))).toNat = base.toNat + alignUp k (align t) := by
      rw [BitVec.toNat_add, toNat_ofNat_lt (by omega), Nat.mod_eq_of_lt (by omega)]
    refine .bind (load_follows E P t hlt.1 _ s s' h ?_ ?_ ?_ ?_) fun v w _ => ?_
    · rw [hp]; exact Nat.dvd_add hd (alignUp_dvd _ _)
    · rw [hp]; omega
    · rw [hp]; exact hw.1
    · rw [hp]; exact fun a hoa => hP a (.inl hoa)
    · have h' := h.withWorld w
      rw [size_eq t hlt.1 (by omega)]
      refine .lift_bind h' fun z hz => ?_
      injection hz with hz
      subst hz
      rw [show base + BitVec.ofNat 32 (alignUp k (align t)) + BitVec.ofNat 32 (Spec.size t) =
        base + BitVec.ofNat 32 (alignUp k (align t) + Spec.size t) by rw [BitVec.ofNat_add, BitVec.add_assoc]]
      refine loadFields_follows E P fs hlt.2 base _ _ _ _ h' B hB (by omega) hBd he ?_ ?_
      · rw [← Nat.add_assoc]
        exact hw.2
      · rw [← Nat.add_assoc]
        exact fun a hoa => hP a (.inr hoa)
theorem loadCase_follows (E : Env σ) (P : Nat → Prop) (all : Cases) : (cs : Cases) → (i : Nat) → LaidCases cs → (ptr : U32) →
    (s s' : St σ) → Near P s s' → alignCases cs ∣ ptr.toNat → ptr.toNat + sizeCases cs ≤ s.mem.len →
    NoWrapCase E.enc s.mem cs i ptr.toNat → (∀ a, OwnsCase E.enc s.mem cs i ptr.toNat a → P a) →
    Follows (loadCase E all cs i ptr) s s'
  | .nil, i, _, _, _, _, _, _, _, _, _ => by
    rw [loadCase]
    exact .of_not fun a ha => by cases ha
  | .cons l t r cs, 0, hlt, ptr, s, s', h, ha, hl, hw, hP => by
    simp only [LaidCases] at hlt
    rw [alignCases] at ha
    rw [sizeCases] at hl
    rw [NoWrapCase] at hw
    rw [loadCase]
    refine .lift_bind h fun z _ => ?_
    by_cases ht : t = .nil
    · rw [if_pos ht]; exact .pure h _
    · rw [if_neg ht]
      have hlt' := hlt.1.resolve_left ht
      refine .bind (load_follows E P t hlt' ptr _ _ h ?_ ?_ hw ?_) fun x w _ => .pure (h.withWorld w) _
      · exact Nat.dvd_trans ((align_isAl t).dvd_max_left (alignCases_isAl cs)) ha
      · omega
      · exact fun a hoa => hP a (by rw [OwnsCase]; exact ⟨ht, hoa⟩)
  | .cons l t r cs, i + 1, hlt, ptr, s, s', h, ha, hl, hw, hP => by
    simp only [LaidCases] at hlt
    rw [alignCases] at ha
    rw [sizeCases] at hl
    rw [NoWrapCase] at hw
    simp only [OwnsCase] at hP
    rw [loadCase]
    exact loadCase_follows E P all cs i hlt.2 ptr s s' h
      (Nat.dvd_trans ((align_isAl t).dvd_max_right (alignCases_isAl cs)) ha) (by omega) hw hP
end

end Verif.Abi
