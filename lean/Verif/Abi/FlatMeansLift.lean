import Verif.Abi.FlatMeansLemmas
import Verif.Abi.ScalarProps

/-!
# `LiftFlat` against what the core values stand for: all types
-/

namespace Verif.Abi

open Encoding Spec

variable {σ : Type}

/-- The outcome: a value that the core values stand for, the only one that they write, and the iterator behind them; or a
refusal where they stand for nothing. -/
def Lifted (r : Res α × LSt σ) (s : St σ) (it' : Iter) (M : Reading → α → Prop) : Prop :=
  (∃ v, r = (.ok v, ⟨s, it'⟩) ∧ M Leniently v ∧ ∀ w, M Exactly w → w = v) ∨
    ((∃ it, r = (.err, ⟨s, it⟩)) ∧ ∀ R w, ¬ R.neat → ¬ M R w)

theorem Lifted.value {r : Res α × LSt σ} {s : St σ} {it' : Iter} {M : Reading → α → Prop} (v : α)
    (h : r = (.ok v, ⟨s, it'⟩)) (hM : ∀ R w, ¬ R.neat → (M R w ↔ w = v)) : Lifted r s it' M :=
  .inl ⟨v, h, (hM _ _ id).2 rfl, fun w hw => (hM _ _ id).1 hw⟩

theorem Lifted.congr {r : Res α × LSt σ} {s : St σ} {it' : Iter} {M N : Reading → α → Prop} (h : Lifted r s it' M)
    (e : ∀ R a, ¬ R.neat → (M R a ↔ N R a)) : Lifted r s it' N := by
  rcases h with ⟨v, h1, h2, h3⟩ | ⟨h1, h2⟩
  · exact .inl ⟨v, h1, (e _ _ id).1 h2, fun w hw => h3 w ((e _ _ id).2 hw)⟩
  · exact .inr ⟨h1, fun R w hR hw => h2 R w hR ((e _ _ hR).2 hw)⟩

/-- A call that does not use the iterator, and a function applied to its value. -/
theorem Lifted.onSt {m : SM (St σ) α} {s : St σ} {it : Iter} {M : Reading → α → Prop} {N : Reading → β → Prop} (f : α → β)
    (h : Decided (m s) s M) (h1 : ∀ R a, ¬ R.neat → M R a → N R (f a))
    (h2 : ∀ R b, ¬ R.neat → N R b → ∃ a, M R a ∧ b = f a) :
    Lifted ((Abi.onSt m >>= fun a => pure (f a)) (⟨s, it⟩ : LSt σ)) s it N := by
  rcases h with ⟨v, e, hl, hu⟩ | ⟨e, hn⟩
  · have e' : Abi.onSt m (⟨s, it⟩ : LSt σ) = (.ok v, ⟨s, it⟩) := by unfold Abi.onSt; simp only; rw [e]
    refine .inl ⟨f v, by rw [SM.bind_ok e']; rfl, h1 _ _ id hl, fun w hw => ?_⟩
    obtain ⟨a, ha, rfl⟩ := h2 _ _ id hw
    rw [hu a ha]
  · have e' : Abi.onSt m (⟨s, it⟩ : LSt σ) = (.err, ⟨s, it⟩) := by unfold Abi.onSt; simp only; rw [e]
    refine .inr ⟨⟨it, by rw [SM.bind_err e']⟩, fun R w hR hw => ?_⟩
    obtain ⟨a, ha, -⟩ := h2 _ _ hR hw
    exact hn _ _ ha

/-! ## Values in shared slots -/

/-- What a wrapper makes of a value when it is asked for the kind. -/
def view : Kind → FV → FV
  | .u32, .u64 y => .u32 (y.setWidth 32)
  | .f32, .u32 y => .f32 y
  | .f32, .u64 y => .f32 (y.setWidth 32)
  | .f64, .u64 y => .f64 y
  | _, x => x

theorem uncoerce_view (k : Kind) (x : FV) (h : Fits k x.kind) : uncoerce x.kind k x.val = .ok (view k x).val := by
  revert h
  cases k <;> cases x <;> simp [Fits, FV.kind, uncoerce, FV.val, view]

theorem view_kind (k : Kind) (x : FV) (h : Fits k x.kind) : (view k x).kind = k := by
  revert h
  cases k <;> cases x <;> simp [Fits, FV.kind, view]

theorem view_bits (k : Kind) (x : FV) (h : Fits k x.kind) : (view k x).bits % 2 ^ wid k = x.bits % 2 ^ wid k := by
  revert h
  cases k <;> cases x <;> simp [Fits, FV.kind, view, FV.bits, wid]

theorem feeds_view : (ks : List Kind) → (xs : List FV) → Carries ks (xs.map FV.kind) → {it mid : Iter} →
    Feeds it (xs.take ks.length) mid →
    Feeds (it.push (xs.map FV.kind)) (List.zipWith view ks xs) (mid.push ((xs.map FV.kind).drop ks.length))
  | [], xs, _, it, mid, h => by
    cases h
    exact .nil _
  | _ :: _, [], hc, _, _, _ => hc.elim
  | k :: ks, x :: xs, hc, it, mid, h => by
    rw [List.length_cons, List.take_succ_cons] at h
    cases h with
    | cons h1 h2 =>
      rw [List.zipWith_cons_cons, List.map_cons]
      refine .cons ?_ (feeds_view ks xs hc.2 h2)
      rw [view_kind k x hc.1, next_push h1, uncoerce_view k x hc.1]

theorem views_kind : (ks : List Kind) → (xs : List FV) → Carries ks (xs.map FV.kind) →
    (List.zipWith view ks xs).map FV.kind = ks
  | [], _, _ => rfl
  | _ :: _, [], h => h.elim
  | k :: ks, x :: xs, h => by
    rw [List.zipWith_cons_cons, List.map_cons, view_kind k x h.1, views_kind ks xs h.2]

theorem views_cong : (ks : List Kind) → (xs : List FV) → Carries ks (xs.map FV.kind) →
    Cong ks ((List.zipWith view ks xs).map FV.bits) ((xs.map FV.bits).take ks.length)
  | [], _, _ => trivial
  | _ :: _, [], h => h.elim
  | k :: ks, x :: xs, h => ⟨view_bits k x h.1, views_cong ks xs h.2⟩

theorem skip_any : (xs : List FV) → {it it' : Iter} → Feeds it xs it' → (s : St σ) →
    skipFlat (xs.map FV.kind) ⟨s, it⟩ = (.ok (), ⟨s, it'⟩)
  | [], it, it', h, s => by cases h; rfl
  | x :: xs, it, it', h, s => by
    cases h with
    | @cons _ it1 _ _ _ h1 h2 =>
      rw [List.map_cons, skipFlat]
      have : next x.kind (⟨s, it⟩ : LSt σ) = (.ok x.val, ⟨s, it1⟩) := by unfold next; rw [h1]
      rw [SM.bind_ok this]
      exact skip_any xs h2 s

/-! ## One value -/

theorem kinds_one {xs : List FV} {k : Kind} (h : xs.map FV.kind = [k]) : ∃ x, xs = [x] ∧ x.kind = k := by
  rcases xs with _ | ⟨x, _ | ⟨_, _⟩⟩ <;> simp at h
  exact ⟨x, rfl, h⟩

theorem kind_u32 {x : FV} (h : x.kind = .u32) : ∃ y, x = .u32 y := by cases x <;> simp [FV.kind] at h; exact ⟨_, rfl⟩
theorem kind_u64 {x : FV} (h : x.kind = .u64) : ∃ y, x = .u64 y := by cases x <;> simp [FV.kind] at h; exact ⟨_, rfl⟩
theorem kind_f32 {x : FV} (h : x.kind = .f32) : ∃ y, x = .f32 y := by cases x <;> simp [FV.kind] at h; exact ⟨_, rfl⟩
theorem kind_f64 {x : FV} (h : x.kind = .f64) : ∃ y, x = .f64 y := by cases x <;> simp [FV.kind] at h; exact ⟨_, rfl⟩

theorem lifted_u32 {xs : List FV} {it it' : Iter} (hk : xs.map FV.kind = [.u32]) (hf : Feeds it xs it') (s : St σ) :
    ∃ x : U32, xs.map FV.bits = [x.toNat] ∧ nextU32 (⟨s, it⟩ : LSt σ) = (.ok x, ⟨s, it'⟩) := by
  obtain ⟨x, rfl, hx⟩ := kinds_one hk
  obtain ⟨y, rfl⟩ := kind_u32 hx
  obtain ⟨it1, e, f⟩ := nextU32_feeds hf s
  cases f
  exact ⟨y, rfl, e⟩

theorem lifted_u64 {xs : List FV} {it it' : Iter} (hk : xs.map FV.kind = [.u64]) (hf : Feeds it xs it') (s : St σ) :
    ∃ x : U64, xs.map FV.bits = [x.toNat] ∧ nextU64 (⟨s, it⟩ : LSt σ) = (.ok x, ⟨s, it'⟩) := by
  obtain ⟨x, rfl, hx⟩ := kinds_one hk
  obtain ⟨y, rfl⟩ := kind_u64 hx
  obtain ⟨it1, e, f⟩ := nextU64_feeds hf s
  cases f
  exact ⟨y, rfl, e⟩

theorem lifted_pair {xs : List FV} {it it' : Iter} (hk : xs.map FV.kind = [.u32, .u32]) (hf : Feeds it xs it')
    (s : St σ) : ∃ (p n : U32) (it1 : Iter), xs.map FV.bits = [p.toNat, n.toNat] ∧
      nextU32 (⟨s, it⟩ : LSt σ) = (.ok p, ⟨s, it1⟩) ∧ nextU32 (⟨s, it1⟩ : LSt σ) = (.ok n, ⟨s, it'⟩) := by
  rcases xs with _ | ⟨x, _ | ⟨y, _ | ⟨_, _⟩⟩⟩ <;> simp at hk
  obtain ⟨p, rfl⟩ := kind_u32 hk.1
  obtain ⟨n, rfl⟩ := kind_u32 hk.2
  obtain ⟨it1, e, f⟩ := nextU32_feeds hf s
  obtain ⟨it2, e2, f2⟩ := nextU32_feeds f s
  cases f2
  exact ⟨p, n, it1, rfl, e, e2⟩

theorem singleton_iff {b : Nat} {P : Nat → Prop} : (∃ x, [b] = [x] ∧ P x) ↔ P b := by
  constructor
  · rintro ⟨x, h, hp⟩; cases h; exact hp
  · intro h; exact ⟨b, rfl, h⟩

theorem pair_iff {a b : Nat} {P : Nat → Nat → Prop} : (∃ x y, [a, b] = [x, y] ∧ P x y) ↔ P a b := by
  constructor
  · rintro ⟨x, y, h, hp⟩; cases h; exact hp
  · intro h; exact ⟨a, b, rfl, h⟩

/-! ## Flags -/

theorem liftFlagWords_bits (n : Nat) (hn : n ≤ 2) (xs : List FV) (hk : xs.map FV.kind = List.replicate n .u32)
    {it it' : Iter} (hf : Feeds it xs it') (s : St σ) :
    ∃ x : U64, liftFlagWords n 0 0 (⟨s, it⟩ : LSt σ) = (.ok x, ⟨s, it'⟩) ∧
      ∀ i < 32 * n, x.getLsbD i = ((xs.map FV.bits).getD (i / 32) 0).testBit (i % 32) := by
  rcases n with _ | _ | _ | n
  · have : xs = [] := by simpa using hk
    subst this
    cases hf
    exact ⟨0, rfl, fun i hi => by omega⟩
  · obtain ⟨p, e1, e2⟩ := lifted_u32 hk hf s
    refine ⟨_, by rw [liftFlagWords, SM.bind_ok e2]; rfl, fun i hi => ?_⟩
    rw [e1]
    have h0 : i / 32 = 0 := by omega
    have h1 : i % 32 = i := by omega
    simp [h0, h1, show i < 64 by omega, BitVec.testBit_toNat]
  · obtain ⟨p, q, it1, e1, e2, e3⟩ := lifted_pair hk hf s
    refine ⟨_, by rw [liftFlagWords, SM.bind_ok e2, liftFlagWords, SM.bind_ok e3]; rfl, fun i hi => ?_⟩
    rw [e1]
    by_cases h : i < 32
    · have h0 : i / 32 = 0 := by omega
      have h1 : i % 32 = i := by omega
      simp [h0, h1, show i < 64 by omega, h, BitVec.testBit_toNat]
    · have h0 : i / 32 = 1 := by omega
      have h1 : i % 32 = i - 32 := by omega
      have h2 : p.getLsbD i = false := BitVec.getLsbD_of_ge _ _ (by omega)
      simp [h0, h1, show i < 64 by omega, h, BitVec.testBit_toNat, h2]
  · omega

/-! ## Lists -/

theorem loadListFromRange_decided (E : Env σ) (henc : E.enc ∈ Spec.encodings) (s : St σ) (hs : s.mem.len < 2 ^ 32)
    (hc : s.mem.len ≤ s.mem.cap) (t : Ty) (hlt : Laid t) (hp : Plain t) (hwf : Wf t) (b n : U32)
    (hw : b.toNat + n.toNat * Spec.size t < 2 ^ 32) (hsz : Spec.size t < 2 ^ 32)
    (ht : align t ∣ b.toNat → b.toNat + n.toNat * Spec.size t ≤ s.mem.len →
      ∀ i < n.toNat, Orderly E.enc s.mem t (b.toNat + i * Spec.size t)) :
    Decided (loadListFromRange (load E t) t b n s) s fun R vs => vs.length = n.toNat ∧ align t ∣ b.toNat ∧
      b.toNat + n.toNat * Spec.size t ≤ s.mem.len ∧
      ∀ (i : Nat) x, vs[i]? = some x → Means R E.enc s.mem t (b.toNat + i * Spec.size t) x := by
  rw [loadListFromRange_cases (load E t) t hlt b n s hs hw hsz]
  by_cases hb : align t ∣ b.toNat ∧ b.toNat + n.toNat * Spec.size t ≤ s.mem.len
  · rw [if_pos hb]
    refine (loadElems_decided (load E t) b _ s (fun R i => Means R E.enc s.mem t (b.toNat + i * Spec.size t))
      n.toNat 0 fun j _ hj => ?_).congr fun R vs => ?_
    · have hj' : j + 1 ≤ n.toNat := by omega
      have hmul := Nat.mul_le_mul_right (Spec.size t) hj'
      rw [Nat.add_mul, Nat.one_mul] at hmul
      have ha := toNat_elem b j (Spec.size t) (by omega) hsz
      have := load_decided E henc s hs hc t hlt hp hwf (b + BitVec.ofNat 32 j * BitVec.ofNat 32 (Spec.size t))
        (by rw [ha]; exact Nat.dvd_add hb.1 (Nat.dvd_trans (align_dvd_size t) (Nat.dvd_mul_left _ _)))
        (by rw [ha]; omega) (by rw [ha]; exact ht hb.1 hb.2 j (by omega))
      rw [ha] at this
      exact this
    · simp only [Nat.zero_add]
      exact ⟨fun h => ⟨h.1, hb.1, hb.2, h.2⟩, fun h => ⟨h.1, h.2.2.2⟩⟩
  · rw [if_neg hb]
    exact .refuse rfl fun R w h => hb ⟨h.2.1, h.2.2.1⟩

/-! ## All types -/

section
variable (E : Env σ) (henc : E.enc ∈ Spec.encodings) (s : St σ) (hs : s.mem.len < 2 ^ 32) (hc : s.mem.len ≤ s.mem.cap)
include henc hs hc

mutual
/-- `LiftFlat` decides what the core values stand for. -/
theorem lift_decided : (t : Ty) → Laid t → Plain t → Wf t → (xs : List FV) → xs.map FV.kind = coreTypes t →
    FlatOrderly E.enc s.mem t (xs.map FV.bits) → (it it' : Iter) → Feeds it xs it' →
    Lifted (liftFlat E t ⟨s, it⟩) s it' fun R => FlatMeans R E.enc s.mem t (xs.map FV.bits)
  | .bool, _, _, _, xs, hk, _, it, it', hf => by
    rw [coreTypes] at hk
    obtain ⟨x, e1, e2⟩ := lifted_u32 hk hf s
    rw [e1, liftFlat]
    refine .value _ (by rw [SM.bind_ok e2]; rfl) fun R w hR => ?_
    rw [FlatMeans, singleton_iff, and_iff_left fun h => absurd h hR, Nat.mod_eq_of_lt x.isLt,
      show (x.toNat != 0) = (x != 0) by
        rw [Bool.eq_iff_iff, bne_iff_ne, bne_iff_ne, ne_eq, ne_eq, ← BitVec.toNat_inj]; rfl]
  | .u8, _, _, _, xs, hk, _, it, it', hf | .u16, _, _, _, xs, hk, _, it, it', hf | .u32, _, _, _, xs, hk, _, it, it', hf
  | .s8, _, _, _, xs, hk, _, it, it', hf | .s16, _, _, _, xs, hk, _, it, it', hf
  | .s32, _, _, _, xs, hk, _, it, it', hf => by
    rw [coreTypes] at hk
    obtain ⟨x, e1, e2⟩ := lifted_u32 hk hf s
    rw [e1, liftFlat]
    refine .value _ (by rw [SM.bind_ok e2]; rfl) fun R w hR => ?_
    rw [FlatMeans, singleton_iff, and_iff_left fun h => absurd h hR, BitVec.ofNat_toNat]
    try rw [BitVec.setWidth_eq]
  | .u64, _, _, _, xs, hk, _, it, it', hf | .s64, _, _, _, xs, hk, _, it, it', hf => by
    rw [coreTypes] at hk
    obtain ⟨x, e1, e2⟩ := lifted_u64 hk hf s
    rw [e1, liftFlat]
    refine .value _ (by rw [SM.bind_ok e2]; rfl) fun R w hR => ?_
    rw [FlatMeans, singleton_iff, and_iff_left fun h => absurd h hR, BitVec.ofNat_toNat, BitVec.setWidth_eq]
  | .f32, _, _, _, xs, hk, _, it, it', hf => by
    rw [coreTypes] at hk
    obtain ⟨x, rfl, hx⟩ := kinds_one hk
    obtain ⟨y, rfl⟩ := kind_f32 hx
    obtain ⟨it1, e, f⟩ := nextF32_feeds hf s
    cases f
    rw [liftFlat]
    refine .value _ (by rw [SM.bind_ok e]; rfl) fun R w hR => ?_
    rw [FlatMeans, List.map_cons, List.map_nil, singleton_iff, and_iff_left fun h => absurd h hR]
    show (w = .f32 (canonical32 (BitVec.ofNat 32 y.toNat))) ↔ _
    rw [BitVec.ofNat_toNat, BitVec.setWidth_eq, canon32_eq]
  | .f64, _, _, _, xs, hk, _, it, it', hf => by
    rw [coreTypes] at hk
    obtain ⟨x, rfl, hx⟩ := kinds_one hk
    obtain ⟨y, rfl⟩ := kind_f64 hx
    obtain ⟨it1, e, f⟩ := nextF64_feeds hf s
    cases f
    rw [liftFlat]
    refine .value _ (by rw [SM.bind_ok e]; rfl) fun R w hR => ?_
    rw [FlatMeans, List.map_cons, List.map_nil, singleton_iff, and_iff_left fun h => absurd h hR]
    show (w = .f64 (canonical64 (BitVec.ofNat 64 y.toNat))) ↔ _
    rw [BitVec.ofNat_toNat, BitVec.setWidth_eq, canon64_eq]
  | .char, _, _, _, xs, hk, _, it, it', hf => by
    rw [coreTypes] at hk
    obtain ⟨x, e1, e2⟩ := lifted_u32 hk hf s
    rw [e1, liftFlat, SM.bind_ok e2, convert_iff]
    by_cases h : IsScalar x
    · rw [if_pos h]
      obtain ⟨c, hcx⟩ := (char_iff x).1 h
      refine .value (.s32 x) rfl fun R w hR => ?_
      rw [FlatMeans, singleton_iff, and_iff_left fun h => absurd h hR, Nat.mod_eq_of_lt x.isLt]
      constructor
      · rintro ⟨c', h1, rfl⟩; rw [h1, BitVec.ofNat_toNat, BitVec.setWidth_eq]
      · rintro rfl; exact ⟨c, hcx, by rw [hcx, BitVec.ofNat_toNat, BitVec.setWidth_eq]⟩
    · rw [if_neg h]
      refine .inr ⟨⟨it', rfl⟩, fun R w hR hw => ?_⟩
      simp only [FlatMeans] at hw
      rw [singleton_iff, Nat.mod_eq_of_lt x.isLt] at hw
      obtain ⟨⟨c, h1, -⟩, -⟩ := hw
      exact h ((char_iff x).2 ⟨c, h1⟩)
  | .string, _, _, _, xs, hk, ho, it, it', hf => by
    rw [coreTypes] at hk
    obtain ⟨p, n, it1, e1, e2, e3⟩ := lifted_pair hk hf s
    rw [FlatOrderly, e1] at ho
    have ho := ho _ _ rfl
    rw [Nat.mod_eq_of_lt p.isLt, Nat.mod_eq_of_lt n.isLt] at ho
    rw [e1, liftFlat, SM.bind_ok e2, SM.bind_ok e3]
    refine .onSt Val.str (loadStringFromRange_decided E henc p n s hs hc ho.2 ho.1) (fun R a hR ha => ?_)
      fun R v hR hv => ?_
    · rw [FlatMeans, pair_iff, Nat.mod_eq_of_lt p.isLt, Nat.mod_eq_of_lt n.isLt]
      exact ⟨⟨a, rfl, ha⟩, fun h => absurd h hR⟩
    · rw [FlatMeans, pair_iff, Nat.mod_eq_of_lt p.isLt, Nat.mod_eq_of_lt n.isLt] at hv
      obtain ⟨⟨a, h1, h2⟩, -⟩ := hv
      exact ⟨a, h2, h1⟩
  | .list t, _, hp, hw, xs, hk, ho, it, it', hf => by
    rw [coreTypes] at hk
    obtain ⟨p, n, it1, e1, e2, e3⟩ := lifted_pair hk hf s
    rw [FlatOrderly, e1] at ho
    have ho := ho _ _ rfl
    rw [Nat.mod_eq_of_lt p.isLt, Nat.mod_eq_of_lt n.isLt] at ho
    rw [e1, liftFlat, SM.bind_ok e2, SM.bind_ok e3]
    rw [Wf] at hw
    rw [Plain] at hp
    refine .onSt Val.list (loadListFromRange_decided E henc s hs hc t hw.1 hp hw.2 p n ho.1 ho.2.1 ho.2.2)
      (fun R a hR ha => ?_) fun R v hR hv => ?_
    · rw [FlatMeans, pair_iff, Nat.mod_eq_of_lt p.isLt, Nat.mod_eq_of_lt n.isLt]
      exact ⟨⟨a, rfl, ha⟩, fun h => absurd h hR⟩
    · rw [FlatMeans, pair_iff, Nat.mod_eq_of_lt p.isLt, Nat.mod_eq_of_lt n.isLt] at hv
      obtain ⟨⟨a, h1, h2⟩, -⟩ := hv
      exact ⟨a, h2, h1⟩
  | .record fs, hl, hp, hw, xs, hk, ho, it, it', hf => by
    rw [coreTypes] at hk
    rw [FlatOrderly] at ho
    simp only [Laid] at hl
    rw [Plain] at hp
    rw [Wf] at hw
    rw [liftFlat]
    refine (liftFields_decided fs hl hp hw.2 hw.1 xs hk ho [] (by simp) it it' hf).congr fun R v _ => ?_
    rw [FlatMeans]
    rfl
  | .variant cs, hl, hp, hw, xs, hk, ho, it, it', hf => by
    have hcar := allCarried cs hl hw
    have hfl := flatten_core_wf _ hl hw
    rw [coreTypes] at hk hfl
    rw [FlatOrderly] at ho
    simp only [Laid] at hl
    rw [Plain] at hp
    rw [Wf] at hw
    rcases xs with _ | ⟨x, xs⟩
    · cases hk
    · rw [List.map_cons] at hk
      injection hk with hk1 hk2
      obtain ⟨d, rfl⟩ := kind_u32 hk1
      obtain ⟨it1, e, f⟩ := nextU32_feeds hf s
      have ho := ho _ _ rfl
      rw [show (FV.u32 d).bits % 2 ^ 32 = d.toNat from Nat.mod_eq_of_lt d.isLt] at ho
      rw [liftFlat, hfl, SM.bind_ok (SM.lift_def _ _)]
      simp only [ne_eq, not_true_eq_false, if_false]
      rw [SM.bind_ok e, SM.ite_app]
      have hM : ∀ R v, ¬ R.neat → ((∃ l t r ls w, cs.get? d.toNat = some (l, t, r) ∧ Chain cs l r ls ∧
          v = .map [(bars ls, w)] ∧ FlatMeansCase R E.enc s.mem cs d.toNat (xs.map FV.bits) w) ↔
          FlatMeans R E.enc s.mem (.variant cs) ((FV.u32 d :: xs).map FV.bits) v) := by
        intro R v hR
        have hd : (FV.u32 d).bits % 2 ^ 32 = d.toNat := Nat.mod_eq_of_lt d.isLt
        rw [FlatMeans, List.map_cons]
        constructor
        · intro h
          exact ⟨_, _, rfl, by rw [hd]; exact h, fun h => absurd h hR⟩
        · rintro ⟨_, _, h1, h2, -⟩
          cases h1
          rwa [hd] at h2
      by_cases hir : d.toNat ≥ cs.length
      · rw [if_pos hir]
        refine .inr ⟨⟨_, rfl⟩, fun R w hR hw => ?_⟩
        obtain ⟨l, t, r, ls, w, hg, -⟩ := (hM R w hR).2 hw
        have := Cases.get?_lt cs _ _ hg
        omega
      · rw [if_neg hir, ← hk2]
        exact (liftCase_decided cs hw.2.2.1 cs d.toNat (by omega) (fun j => j) (fun _ => rfl) hl.2.2 hp hw.2.2.2 xs
          (by rw [hk2]; exact hcar) ho it1 it' f).congr hM
  | .flags ls, _, _, hw, xs, hk, _, it, it', hf => by
    rw [coreTypes] at hk
    rw [Wf] at hw
    obtain ⟨x, e, hb⟩ := liftFlagWords_bits ((ls.length + 31) / 32) (by omega) xs hk hf s
    rw [liftFlat, show (numI32Flags ls.length).toNat = (ls.length + 31) / 32 by rw [numI32Flags, toNat_ofNat_lt (by omega)]]
    refine .value _ (by rw [SM.bind_ok e]; rfl) fun R w hR => ?_
    rw [FlatMeans, and_iff_left fun h => absurd h hR, unpack_zip ls x [] 0 hw.1 (by simp)
      (fun i => ((xs.map FV.bits).getD (i / 32) 0).testBit (i % 32)) fun i hi => by
        rw [Nat.zero_add]; exact hb i (by omega)]
    rfl
  | .own _, _, hp, _, _, _, _, _, _, _ | .borrow _, _, hp, _, _, _, _, _, _, _ => by simp [Plain] at hp
  | .nil, hl, _, _, _, _, _, _, _, _ | .other, hl, _, _, _, _, _, _, _, _ => by simp [Laid] at hl
theorem liftFields_decided : (fs : Fields) → LaidFields fs → PlainFields fs → WfFields fs → fs.labels.Nodup →
    (xs : List FV) → xs.map FV.kind = coreFields fs → FlatOrderlyFields E.enc s.mem fs (xs.map FV.bits) →
    (acc : List (String × Val)) → (∀ l ∈ fs.labels, l ∉ acc.map Prod.fst) → (it it' : Iter) → Feeds it xs it' →
    Lifted (liftFields E fs acc ⟨s, it⟩) s it' fun R v =>
      ∃ es, v = .map (acc ++ es) ∧ FlatMeansFields R E.enc s.mem fs (xs.map FV.bits) es
  | .nil, _, _, _, _, xs, hk, _, acc, _, it, it', hf => by
    rw [coreFields] at hk
    have : xs = [] := by simpa using hk
    subst this
    cases hf
    refine .value (.map acc) (by rw [liftFields]; rfl) fun R v _ => ?_
    simp only [FlatMeansFields]
    constructor
    · rintro ⟨es, rfl, rfl⟩; rw [List.append_nil]
    · rintro rfl; exact ⟨[], by rw [List.append_nil], rfl⟩
  | .cons l t fs, hl, hp, hw, hnd, xs, hk, ho, acc, hac, it, it', hf => by
    simp only [LaidFields] at hl
    rw [PlainFields] at hp
    rw [WfFields] at hw
    rw [Fields.labels, List.nodup_cons] at hnd
    rw [Fields.labels] at hac
    rw [coreFields] at hk
    rw [FlatOrderlyFields, ← List.map_take, ← List.map_drop] at ho
    simp only [FlatMeansFields, ← List.map_take, ← List.map_drop]
    rw [← List.take_append_drop (coreTypes t).length xs] at hf
    obtain ⟨mid, f1, f2⟩ := hf.split
    have hk1 : (xs.take (coreTypes t).length).map FV.kind = coreTypes t := by
      rw [List.map_take, hk, List.take_append_of_le_length (Nat.le_refl _), List.take_length]
    have hk2 : (xs.drop (coreTypes t).length).map FV.kind = coreFields fs := by
      rw [List.map_drop, hk, List.drop_append_of_le_length (Nat.le_refl _), List.drop_length, List.nil_append]
    rw [liftFields]
    rcases lift_decided t hl.1 hp.1 hw.1 _ hk1 ho.1 it mid f1 with ⟨v, e, hlv, huv⟩ | ⟨⟨it2, e⟩, hn⟩
    · have h2 := liftFields_decided fs hl.2 hp.2 hw.2 hnd.2 _ hk2 ho.2 (acc ++ [(l, v)]) (by
          intro l' hl'
          rw [List.map_append, List.mem_append, not_or]
          refine ⟨hac l' (by simp [hl']), fun e => ?_⟩
          simp at e
          exact hnd.1 (e ▸ hl')) mid it' f2
      rw [SM.bind_ok e, mapSet_fresh acc l v (hac l (by simp))]
      rcases h2 with ⟨w, e2, ⟨es, rfl, hes⟩, hu2⟩ | ⟨⟨it2, e2⟩, hn2⟩
      · refine .inl ⟨_, e2, ⟨(l, v) :: es, by simp, v, es, rfl, hlv, hes⟩, ?_⟩
        rintro w ⟨_, rfl, x, es', rfl, hx, hes'⟩
        rw [huv x hx]
        exact hu2 _ ⟨es', by simp, hes'⟩
      · refine .inr ⟨⟨it2, e2⟩, ?_⟩
        rintro R w hR ⟨_, rfl, x, es', rfl, hx, hes'⟩
        exact hn2 R _ hR ⟨es', rfl, hes'⟩
    · rw [SM.bind_err e]
      refine .inr ⟨⟨it2, rfl⟩, ?_⟩
      rintro R w hR ⟨_, rfl, x, es', rfl, hx, hes'⟩
      exact hn R x hR hx
theorem liftCase_decided (all : Cases) (hch : ∀ i l t r, all.get? i = some (l, t, r) → ∃ ls, Chain all l r ls) :
    (cs : Cases) → (i : Nat) → i < cs.length → (g : Nat → Nat) → (∀ j, all.get? (g j) = cs.get? j) → LaidCases cs →
    PlainCases cs → WfCases cs → (xs : List FV) → AllCarried cs (xs.map FV.kind) →
    FlatOrderlyCase E.enc s.mem cs i (xs.map FV.bits) → (it it' : Iter) → Feeds it xs it' →
    Lifted (liftCase E all cs i (xs.map FV.kind) ⟨s, it⟩) s it' fun R v => ∃ l t r ls w,
      cs.get? i = some (l, t, r) ∧ Chain all l r ls ∧ v = .map [(bars ls, w)] ∧
      FlatMeansCase R E.enc s.mem cs i (xs.map FV.bits) w
  | .nil, i, h, _, _, _, _, _, _, _, _, _, _, _ => by simp [Cases.length] at h
  | .cons l t r cs, 0, _, g, hg, hl, hp, hw, xs, hcar, ho, it, it', hf => by
    simp only [LaidCases] at hl
    rw [PlainCases] at hp
    rw [WfCases] at hw
    rw [FlatOrderlyCase] at ho
    obtain ⟨ls, hls⟩ := hch (g 0) l t r (by rw [hg]; rfl)
    have hun : ∀ l' t' r' ls', Cases.get? (.cons l t r cs) 0 = some (l', t', r') → Chain all l' r' ls' →
        bars ls' = bars ls := by
      intro l' t' r' ls' h1 h2
      cases h1
      exact (caseLabel_ok h2 (caseLabel_chain hls)).symm
    rw [liftCase]
    by_cases htn : t = .nil
    · rw [if_pos htn, SM.bind_ok (skip_any xs hf s), caseLabel_chain hls, SM.bind_ok (SM.lift_def _ _)]
      refine .value (.map [(bars ls, .nil)]) rfl fun R v hR => ?_
      simp only [FlatMeansCase]
      constructor
      · rintro ⟨l', t', r', ls', w, h1, h2, rfl, h3, -⟩
        rw [hun _ _ _ _ h1 h2]
        rcases h3 with ⟨-, rfl⟩ | ⟨h3, -⟩
        · rfl
        · exact absurd htn h3
      · rintro rfl
        exact ⟨l, t, r, ls, .nil, rfl, hls, rfl, .inl ⟨htn, rfl⟩, fun h => absurd h hR⟩
    · rw [if_neg htn]
      have hlt := hl.1.resolve_left htn
      have hca := hcar 0 l t r rfl htn
      have hcong := views_cong _ _ hca
      rw [← List.take_append_drop (coreTypes t).length xs] at hf
      obtain ⟨mid, f1, f2⟩ := hf.split
      have e1 : pushFlat (xs.map FV.kind) (⟨s, it⟩ : LSt σ) = (.ok (), ⟨s, it.push (xs.map FV.kind)⟩) := rfl
      have h1 := lift_decided t hlt hp.1 hw.1 _ (views_kind _ _ hca)
        (orderly_cong E.enc s.mem t hlt hw.1 _ _ hcong.symm ho) _ _ (feeds_view _ _ hca f1)
      have e3 : popFlat (⟨s, mid.push ((xs.map FV.kind).drop (coreTypes t).length)⟩ : LSt σ) =
        (.ok ((xs.map FV.kind).drop (coreTypes t).length), ⟨s, mid⟩) := rfl
      have e4 := skip_any _ f2 s
      rw [List.map_drop] at e4
      rw [SM.bind_ok e1]
      rcases h1 with ⟨v, e, hlv, huv⟩ | ⟨⟨it2, e⟩, hn⟩
      · rw [SM.bind_ok e, SM.bind_ok e3, SM.bind_ok e4, caseLabel_chain hls, SM.bind_ok (SM.lift_def _ _)]
        refine .inl ⟨_, rfl, ⟨l, t, r, ls, v, rfl, hls, rfl, ?_⟩, ?_⟩
        · rw [FlatMeansCase]
          exact ⟨.inr ⟨htn, flat_cong _ id _ _ t hlt hw.1 _ _ hcong v hlv⟩, fun h => h.elim⟩
        · rintro w ⟨l', t', r', ls', w, h1, h2, rfl, h3⟩
          rw [hun _ _ _ _ h1 h2]
          rw [FlatMeansCase] at h3
          rcases h3.1 with ⟨h3, -⟩ | ⟨-, h3⟩
          · exact absurd h3 htn
          · rw [huv w (flat_cong _ id _ _ t hlt hw.1 _ _ hcong.symm w h3)]
      · rw [SM.bind_err e]
        refine .inr ⟨⟨it2, rfl⟩, ?_⟩
        rintro R w hR ⟨l', t', r', ls', w, h1, h2, rfl, h3⟩
        rw [FlatMeansCase] at h3
        rcases h3.1 with ⟨h3, -⟩ | ⟨-, h3⟩
        · exact absurd h3 htn
        · exact hn R w hR (flat_cong _ hR _ _ t hlt hw.1 _ _ hcong.symm w h3)
  | .cons l t r cs, i + 1, hi, g, hg, hl, hp, hw, xs, hcar, ho, it, it', hf => by
    simp only [LaidCases] at hl
    rw [PlainCases] at hp
    rw [WfCases] at hw
    rw [FlatOrderlyCase] at ho
    rw [Cases.length] at hi
    rw [liftCase]
    refine (liftCase_decided all hch cs i (by omega) (fun j => g (j + 1)) (fun j => by rw [hg]; rfl) hl.2 hp.2 hw.2 xs
      (fun j => hcar (j + 1)) ho it it' hf).congr fun R v _ => ?_
    simp only [FlatMeansCase]
    rfl
end
end

end Verif.Abi
