import Verif.Abi.BoundLemmas
import Verif.Abi.FlatProps
import Verif.Abi.Canon

/-!
# C120: what is read is bounded by the memory
-/

namespace Verif.Abi
open Spec

variable {σ : Type}

/-! ### From memory -/

/-- **C120**: whatever bytes the guest left in its memory, what `Load` makes of them holds at most `bound` many values and
characters: the number of parts of the type, times the memory's size plus one for every level of lists and strings. Nothing
is assumed about the bytes, the address, or the handles in the type. -/
theorem load_bounded (E : Env σ) (t : VT) (ptr : U32) (s s' : St σ) (v : Val) (ht : Sized s.mem.cap t.core)
    (h : t.load E ptr s = (.ok v, s')) : weight v ≤ parts t.core * (s.mem.cap + 1) ^ nesting t.core :=
  load_bound E s.mem.cap t.core ht ptr s s' v rfl h

/-- The elements of a list that was read start within the memory, one after the other. -/
theorem list_bounded (E : Env σ) (t : VT) (z ptr : U32) (s s' : St σ) (vs : List Val) (hz : t.size = .ok z)
    (h0 : z ≠ 0) (hc : s.mem.cap + z.toNat ≤ 2 ^ 32) (h : (VT.list t).load E ptr s = (.ok (.list vs), s')) :
    ∀ i, i < vs.length → i * z.toNat < s.mem.cap := by
  have h' : Abi.load E (.list t.core) ptr s = _ := h
  have hz' : Abi.size t.core = .ok z := hz
  have hp : 0 < z.toNat := Nat.pos_of_ne_zero fun e => h0 (BitVec.eq_of_toNat_eq e)
  rw [load] at h'
  obtain ⟨x, _, h1, h'⟩ := SM.bind_eq_ok.1 h'
  simp only [SM.pure_def, Prod.mk.injEq, Res.ok.injEq, Val.list.injEq] at h'
  obtain ⟨rfl, rfl⟩ := h'
  unfold loadList at h1
  obtain ⟨b, s1, e1, h1⟩ := SM.bind_eq_ok.1 h1
  obtain ⟨n, s2, e2, h1⟩ := SM.bind_eq_ok.1 h1
  have k1 := (tame_mem (C := False) (D := False) (loadUInt32_tame (σ := σ) ptr)).keep s
  have k2 := (tame_mem (C := False) (D := False) (loadUInt32_tame (σ := σ) (ptr + 4))).keep s1
  rw [e1] at k1
  rw [e2] at k2
  have k : s2.mem = s.mem := k2.trans k1
  have g1 := loadListFromRange_length hz' hp (by rw [k]; exact hc) h1
  rw [k] at g1
  intro i hi
  have g1 := g1 (fun e => by rw [e] at hi; simp at hi)
  have := Nat.mul_le_mul_right z.toNat (show i + 1 ≤ x.length from hi)
  rw [Nat.succ_mul] at this
  omega

/-! ### From core values -/

theorem lift_mem {E : Env σ} {t : Ty} {s s' : LSt σ} {r : Res Val} (h : liftFlat E t s = (r, s')) : s'.st.mem = s.st.mem := by
  have := (liftFlat_mem' E t).keep s
  rwa [h] at this

theorem st_keeps {α : Type} {m : SM (LSt σ) α} (hm : Pres LSt.st m) {s s' : LSt σ} {r : Res α} (h : m s = (r, s')) :
    s'.st = s.st := by
  have := hm.keep s
  rwa [h] at this

mutual
theorem liftFlat_bound (E : Env σ) (c : Nat) : (t : Ty) → Sized c t → (s s' : LSt σ) → (v : Val) →
    s.st.mem.cap = c → liftFlat E t s = (.ok v, s') → weight v ≤ bound c t
  | .bool, _, s, s', v, _, h | .u8, _, s, s', v, _, h | .u16, _, s, s', v, _, h | .u32, _, s, s', v, _, h
  | .u64, _, s, s', v, _, h | .s8, _, s, s', v, _, h | .s16, _, s, s', v, _, h | .s32, _, s, s', v, _, h
  | .s64, _, s, s', v, _, h | .f32, _, s, s', v, _, h | .f64, _, s, s', v, _, h => by
    unfold liftFlat at h
    obtain ⟨x, _, -, h⟩ := SM.bind_eq_ok.1 h
    simp only [SM.pure_def, Prod.mk.injEq, Res.ok.injEq] at h
    rw [← h.1]; simp only [weight]; exact bound_pos c _
  | .char, _, s, s', v, _, h => by
    unfold liftFlat at h
    obtain ⟨x, _, -, h⟩ := SM.bind_eq_ok.1 h
    obtain ⟨x, _, -, h⟩ := SM.bind_eq_ok.1 h
    simp only [SM.pure_def, Prod.mk.injEq, Res.ok.injEq] at h
    rw [← h.1]; simp only [weight]; exact bound_pos c _
  | .string, _, s, s', v, hc, h => by
    unfold liftFlat at h
    obtain ⟨p, s1, e1, h⟩ := SM.bind_eq_ok.1 h
    obtain ⟨n, s2, e2, h⟩ := SM.bind_eq_ok.1 h
    obtain ⟨x, s3, e3, h⟩ := SM.bind_eq_ok.1 h
    simp only [SM.pure_def, Prod.mk.injEq, Res.ok.injEq] at h
    have g := loadStringFromRange_bound (onSt_ok e3)
    rw [st_keeps nextU32_st e2, st_keeps nextU32_st e1, hc] at g
    have := bound_string c
    rw [← h.1, weight]; omega
  | .list t, ht, s, s', v, hc, h => by
    rw [Sized] at ht
    unfold liftFlat at h
    obtain ⟨p, s1, e1, h⟩ := SM.bind_eq_ok.1 h
    obtain ⟨n, s2, e2, h⟩ := SM.bind_eq_ok.1 h
    obtain ⟨x, s3, e3, h⟩ := SM.bind_eq_ok.1 h
    simp only [SM.pure_def, Prod.mk.injEq, Res.ok.injEq] at h
    rw [← h.1]
    exact loadListFromRange_weight (fun p s s' v hs hv => load_bound E c t ht.2 p s s' v hs hv) ht.1
      (by rw [st_keeps nextU32_st e2, st_keeps nextU32_st e1, hc]) (onSt_ok e3)
  | .record fs, ht, s, s', v, hc, h => by
    rw [Sized] at ht
    unfold liftFlat at h
    have := liftFields_bound E c fs ht [] s s' v hc h
    simp only [weightMap] at this
    have := bound_record c fs
    omega
  | .variant cs, ht, s, s', v, hc, h => by
    rw [Sized] at ht
    unfold liftFlat at h
    obtain ⟨fts, _, h1, h⟩ := SM.bind_eq_ok.1 h
    simp only [SM.lift_def, Prod.mk.injEq] at h1
    obtain ⟨-, rfl⟩ := h1
    cases fts with
    | nil => simp at h
    | cons k ks =>
      simp only [SM.ite_app] at h
      split at h
      · simp at h
      obtain ⟨i, s1, e1, h⟩ := SM.bind_eq_ok.1 h
      simp only [SM.ite_app] at h
      split at h
      · simp at h
      have := liftCase_bound E c cs cs ht i.toNat _ s1 s' v (by rw [st_keeps nextU32_st e1, hc]) h
      have := bound_variant c cs
      omega
  | .flags ls, _, s, s', v, _, h => by
    unfold liftFlat at h
    obtain ⟨x, _, -, h⟩ := SM.bind_eq_ok.1 h
    simp only [SM.pure_def, Prod.mk.injEq, Res.ok.injEq] at h
    have := weight_flags ls [] x
    rw [← h.1]
    simp only [weight, bound, parts, nesting, Nat.pow_zero, Nat.mul_one]
    simp only [weightMap] at this
    omega
  | .own _, _, s, s', v, _, h => by
    unfold liftFlat at h
    obtain ⟨x, _, -, h⟩ := SM.bind_eq_ok.1 h
    obtain ⟨x, _, -, h⟩ := SM.bind_eq_ok.1 h
    simp only [SM.pure_def, Prod.mk.injEq, Res.ok.injEq] at h
    rw [← h.1]; simp only [weight]; exact bound_pos c _
  | .borrow _, _, s, s', v, _, h => by
    unfold liftFlat at h
    obtain ⟨x, _, -, h⟩ := SM.bind_eq_ok.1 h
    obtain ⟨x, _, -, h⟩ := SM.bind_eq_ok.1 h
    simp only [SM.pure_def, Prod.mk.injEq, Res.ok.injEq] at h
    rw [← h.1]; simp only [weight]; exact bound_pos c _
  | .nil, _, s, s', v, _, h => by simp [liftFlat] at h
  | .other, _, s, s', v, _, h => by simp [liftFlat] at h
theorem liftFields_bound (E : Env σ) (c : Nat) : (fs : Fields) → SizedFields c fs →
    (acc : List (String × Val)) → (s s' : LSt σ) → (v : Val) → s.st.mem.cap = c → liftFields E fs acc s = (.ok v, s') →
    weight v ≤ 1 + weightMap acc + boundFields c fs
  | .nil, _, acc, s, s', v, _, h => by
    rw [liftFields] at h
    simp only [SM.pure_def, Prod.mk.injEq, Res.ok.injEq] at h
    rw [← h.1, weight, boundFields]; omega
  | .cons l t fs, ht, acc, s, s', v, hc, h => by
    rw [SizedFields] at ht
    rw [liftFields] at h
    obtain ⟨w, s1, e1, h⟩ := SM.bind_eq_ok.1 h
    have g1 := liftFlat_bound E c t ht.1 s s1 w hc e1
    have g2 := liftFields_bound E c fs ht.2 _ s1 s' v (by rw [lift_mem e1, hc]) h
    have g3 := weightMap_mapSet w l acc
    rw [boundFields]
    omega
theorem liftCase_bound (E : Env σ) (c : Nat) (all : Cases) : (cs : Cases) → SizedCases c cs → (i : Nat) →
    (fts : List Kind) → (s s' : LSt σ) → (v : Val) → s.st.mem.cap = c → liftCase E all cs i fts s = (.ok v, s') →
    weight v ≤ 1 + boundCases c cs
  | .nil, _, i, fts, s, s', v, _, h => by simp [liftCase] at h
  | .cons l t r cs, ht, 0, fts, s, s', v, hc, h => by
    rw [SizedCases] at ht
    rw [liftCase] at h
    have hb := boundCases_head c l t r cs
    have hp := bound_pos c t
    simp only [SM.ite_app] at h
    split at h
    · obtain ⟨_, _, -, h⟩ := SM.bind_eq_ok.1 h
      obtain ⟨_, _, -, h⟩ := SM.bind_eq_ok.1 h
      simp only [SM.pure_def, Prod.mk.injEq, Res.ok.injEq] at h
      rw [← h.1]
      simp only [weight, weightMap]
      omega
    · obtain ⟨_, s0, e0, h⟩ := SM.bind_eq_ok.1 h
      obtain ⟨w, s1, e1, h⟩ := SM.bind_eq_ok.1 h
      obtain ⟨_, _, -, h⟩ := SM.bind_eq_ok.1 h
      obtain ⟨_, _, -, h⟩ := SM.bind_eq_ok.1 h
      obtain ⟨_, _, -, h⟩ := SM.bind_eq_ok.1 h
      simp only [SM.pure_def, Prod.mk.injEq, Res.ok.injEq] at h
      have k0 := (pushFlat_mem' (σ := σ) fts).keep s
      rw [e0] at k0
      have := liftFlat_bound E c t ht.1 s0 s1 w (by rw [show s0.st.mem = s.st.mem from k0, hc]) e1
      rw [← h.1]
      simp only [weight, weightMap]
      omega
  | .cons l t r cs, ht, i + 1, fts, s, s', v, hc, h => by
    rw [SizedCases] at ht
    rw [liftCase] at h
    have := liftCase_bound E c all cs ht.2 i fts s s' v hc h
    have := boundCases_tail c l t r cs
    omega
end

/-- The same for `LiftFlat`, whatever the core values are. -/
theorem lift_bounded (E : Env σ) (t : VT) (s s' : LSt σ) (v : Val) (ht : Sized s.st.mem.cap t.core)
    (h : t.lift E s = (.ok v, s')) : weight v ≤ parts t.core * (s.st.mem.cap + 1) ^ nesting t.core :=
  liftFlat_bound E s.st.mem.cap t.core ht s s' v rfl h

/-! ### Parameters and results -/

/-- The sum of the bounds of the types. -/
def boundAll (c : Nat) : List Ty → Nat
  | [] => 0
  | t :: ts => bound c t + boundAll c ts

theorem liftEach_bound (E : Env σ) (c : Nat) : (ts : List Ty) → (∀ t ∈ ts, Sized c t) → (s s' : LSt σ) → (vs : List Val) →
    s.st.mem.cap = c → liftEach E ts s = (.ok vs, s') → weightList vs ≤ boundAll c ts
  | [], _, s, s', vs, _, h => by
    rw [liftEach] at h
    simp only [SM.pure_def, Prod.mk.injEq, Res.ok.injEq] at h
    rw [← h.1]; simp [weightList]
  | t :: ts, ht, s, s', vs, hc, h => by
    rw [liftEach] at h
    obtain ⟨v, s1, e1, h⟩ := SM.bind_eq_ok.1 h
    obtain ⟨ws, s2, e2, h⟩ := SM.bind_eq_ok.1 h
    simp only [SM.pure_def, Prod.mk.injEq, Res.ok.injEq] at h
    have g1 := liftFlat_bound E c t (ht t List.mem_cons_self) s s1 v hc e1
    have g2 := liftEach_bound E c ts (fun x hx => ht x (List.mem_cons_of_mem _ hx)) s1 s2 ws (by rw [lift_mem e1, hc]) e2
    rw [← h.1, weightList, boundAll]
    omega

theorem fieldsFrom_bound (c : Nat) : (ts : List Ty) → (i : Nat) → boundFields c (fieldsFrom i ts) = boundAll c ts
  | [], _ => rfl
  | t :: ts, i => by rw [fieldsFrom, boundFields, boundAll, fieldsFrom_bound c ts]

theorem fieldsFrom_sized (c : Nat) : (ts : List Ty) → (∀ t ∈ ts, Sized c t) → (i : Nat) → SizedFields c (fieldsFrom i ts)
  | [], _, _ => by rw [fieldsFrom, SizedFields]; trivial
  | t :: ts, ht, i => by
    rw [fieldsFrom, SizedFields]
    exact ⟨ht t List.mem_cons_self, fieldsFrom_sized c ts (fun x hx => ht x (List.mem_cons_of_mem _ hx)) _⟩

theorem weightList_perm {a b : List (String × Val)} (h : a.Perm b) : weightList (a.map Prod.snd) = weightMap b := by
  induction h with
  | nil => rfl
  | cons x _ ih => obtain ⟨l, v⟩ := x; simp only [List.map_cons, weightList, weightMap, ih]
  | swap x y l =>
    obtain ⟨_, v⟩ := x; obtain ⟨_, w⟩ := y
    simp only [List.map_cons, weightList, weightMap]
    have : weightList (l.map Prod.snd) = weightMap l := by
      induction l with
      | nil => rfl
      | cons x l ih => obtain ⟨_, v⟩ := x; simp only [List.map_cons, weightList, weightMap, ih]
    omega
  | trans h1 _ ih1 ih2 =>
    rename_i a b c h2
    rw [ih1, ← ih2]
    clear ih1 ih2
    have : ∀ l : List (String × Val), weightList (l.map Prod.snd) = weightMap l := by
      intro l
      induction l with
      | nil => rfl
      | cons x l ih => obtain ⟨_, v⟩ := x; simp only [List.map_cons, weightList, weightMap, ih]
    rw [this]

/-- The parameters or results of a call, lifted from its core values or from the memory they were spilled to: together
they hold no more than the bounds of their types added up. -/
theorem liftValues_bounded (E : Env σ) (ord : List (String × Val) → List (String × Val)) (hord : ∀ m, (ord m).Perm m)
    (maxFlat : Nat) (ts : List Ty) (s s' : LSt σ) (vs : List Val) (ht : ∀ t ∈ ts, Sized s.st.mem.cap t)
    (h : liftValues E ord maxFlat ts s = (.ok vs, s')) :
    weightList vs ≤ (ts.map fun t => parts t * (s.st.mem.cap + 1) ^ nesting t).sum := by
  have e : (ts.map fun t => parts t * (s.st.mem.cap + 1) ^ nesting t).sum = boundAll s.st.mem.cap ts := by
    clear h ht
    induction ts with
    | nil => rfl
    | cons t ts ih => rw [List.map_cons, List.sum_cons, ih]; rfl
  rw [e]
  unfold liftValues at h
  obtain ⟨flat, _, h1, h⟩ := SM.bind_eq_ok.1 h
  simp only [SM.lift_def, Prod.mk.injEq] at h1
  obtain ⟨-, rfl⟩ := h1
  simp only [SM.ite_app] at h
  split at h
  · exact liftEach_bound E _ ts ht s s' vs rfl h
  obtain ⟨ptr, s1, e1, h⟩ := SM.bind_eq_ok.1 h
  obtain ⟨_, _, h1, h⟩ := SM.bind_eq_ok.1 h
  simp only [SM.lift_def, Prod.mk.injEq] at h1
  obtain ⟨-, rfl⟩ := h1
  simp only [SM.ite_app] at h
  split at h
  · simp at h
  obtain ⟨_, _, h1, h⟩ := SM.bind_eq_ok.1 h
  simp only [SM.lift_def, Prod.mk.injEq] at h1
  obtain ⟨-, rfl⟩ := h1
  rw [SM.bind_get] at h
  simp only [SM.ite_app] at h
  split at h
  · simp at h
  obtain ⟨v, s2, e2, h⟩ := SM.bind_eq_ok.1 h
  have g := onSt_ok e2
  rw [load] at g
  have g := loadFields_bound E s.st.mem.cap _ (fieldsFrom_sized _ ts ht 0) ptr [] s1.st s2.st v
    (by rw [st_keeps nextU32_st e1]) g
  rw [fieldsFrom_bound] at g
  cases v <;> simp only [SM.fail_def, SM.pure_def, Prod.mk.injEq, Res.ok.injEq, reduceCtorEq, false_and] at h
  rw [← h.1, weightList_perm (hord _)]
  simp only [weight, weightMap] at g
  omega

/-! ### Elements without bytes -/

theorem loadElems_unit (E : Env σ) (p z : U32) (s : St σ) : (n i : Nat) →
    loadElems (load E (.record .nil)) p z n i s = (.ok (List.replicate n (.map [])), s)
  | 0, _ => rfl
  | n + 1, i => by
    rw [loadElems, SM.bind_ok (show load E (.record .nil) _ s = (.ok (.map []), s) by rw [load, loadFields]; rfl),
      SM.bind_ok (loadElems_unit E p z s n (i + 1))]
    rfl

/-- Where the elements of a list take up no bytes, there is no such bound: from two core values, and no memory at all, come
as many elements as the second one says. -/
theorem empty_elements_unbounded (E : Env σ) (n : U32) (s : St σ) :
    (VT.list (.record .nil)).lift E ⟨s, newIterator [.u32 0, .u32 n]⟩ =
      (.ok (.list (List.replicate n.toNat (.map []))), ⟨s, ⟨[.u32 0, .u32 n], 2, []⟩⟩) := by
  have h : loadListFromRange (load E (.record .nil)) (.record .nil) 0 n s = (.ok (List.replicate n.toNat (.map [])), s) := by
    unfold loadListFromRange
    rw [SM.bind_ok (show SM.lift (alignment (.record .nil)) s = (.ok 1, s) from rfl), SM.ite_app, if_neg (by decide),
      SM.bind_ok (show SM.lift (size (.record .nil)) s = (.ok 0, s) by
        rw [SM.lift_def, size, sizeFields]; rfl), SM.bind_get, SM.ite_app, if_neg (by simp)]
    exact loadElems_unit E 0 0 s n.toNat 0
  show liftFlat E (.list (.record .nil)) _ = _
  rw [liftFlat, show newIterator [.u32 0, .u32 n] = itAt [.u32 0, .u32 n] 0 from rfl,
    SM.bind_ok (nextU32_at [.u32 0, .u32 n] 0 0 rfl s), SM.bind_ok (nextU32_at [.u32 0, .u32 n] 1 n rfl s)]
  rw [SM.bind_ok (show onSt (loadListFromRange (load E (.record .nil)) (.record .nil) 0 n) ⟨s, itAt [.u32 0, .u32 n] 2⟩ =
    (.ok (List.replicate n.toNat (.map [])), ⟨s, itAt [.u32 0, .u32 n] 2⟩) by unfold onSt; rw [h])]
  rfl

/-! ### The exponent is needed -/

/-- Lists of lists of … of bytes, `d` levels. -/
def nest : Nat → VT
  | 0 => .u8
  | d + 1 => .list (nest d)

/-- The size of the elements. -/
def nestSize (d : Nat) : Nat := if d = 0 then 1 else 8

theorem nest_size (d : Nat) : (nest d).size = .ok (BitVec.ofNat 32 (nestSize d)) := by cases d <;> rfl

theorem nest_align (d : Nat) : ∃ a, (nest d).alignment = .ok a ∧ IsAl a.toNat := by
  cases d
  · exact ⟨1, rfl, .inl rfl⟩
  · exact ⟨4, rfl, .inr (.inr (.inl rfl))⟩

/-- A memory of `8 * k` bytes, all of it pairs of the address 0 and the length `k`. -/
def echo (k : Nat) : Mem :=
  { data := fun a => if a % 8 < 4 then 0 else BitVec.ofNat 8 (k / 256 ^ (a % 8 - 4)), len := 8 * k, cap := 8 * k }

theorem loadUInt32_value (p : U32) (s : St σ) (h : p.toNat + 4 ≤ s.mem.cap) (hc : s.mem.cap < 2 ^ 32) :
    loadUInt32 p s = (.ok (BitVec.ofNat 32 (leNat (s.mem.read p.toNat 4))), s) := by
  unfold loadUInt32 loadInt loadBytes
  rw [show (SM.lift (size .u32) : SM (St σ) U32) = SM.lift (.ok 4) from rfl]
  simp only [SM.bind_def, SM.lift_def, SM.get_def]
  rw [slice_ok _ _ _ (by rw [show (4 : U32).toNat = 4 from rfl]; omega) (by rw [show (4 : U32).toNat = 4 from rfl]; omega)]
  rfl

theorem echo_address (k p : Nat) (h : p % 8 = 0) : leNat ((echo k).read p 4) = 0 := by
  simp only [Mem.read, List.range, List.range.loop, List.map, leNat, echo]
  rw [if_pos (by omega), if_pos (by omega), if_pos (by omega), if_pos (by omega)]
  rfl

theorem echo_length (k p : Nat) (h : p % 8 = 0) (hk : k < 2 ^ 32) : leNat ((echo k).read (p + 4) 4) = k := by
  simp only [Mem.read, List.range, List.range.loop, List.map, leNat, echo]
  rw [if_neg (by omega), if_neg (by omega), if_neg (by omega), if_neg (by omega),
    show (p + 4 + 0) % 8 - 4 = 0 by omega, show (p + 4 + 1) % 8 - 4 = 1 by omega, show (p + 4 + 2) % 8 - 4 = 2 by omega,
    show (p + 4 + 3) % 8 - 4 = 3 by omega]
  simp only [BitVec.toNat_ofNat]
  omega

theorem loadElems_each {f : U32 → SM (St σ) Val} {B : Nat} {s : St σ} (p z : U32) : (n i : Nat) →
    (∀ j, i ≤ j → j < i + n → ∃ v, f (p + BitVec.ofNat 32 j * z) s = (.ok v, s) ∧ B ≤ weight v) →
    ∃ vs, loadElems f p z n i s = (.ok vs, s) ∧ n * B ≤ weightList vs
  | 0, i, _ => ⟨[], rfl, by simp [weightList]⟩
  | n + 1, i, h => by
    obtain ⟨v, h1, h2⟩ := h i (Nat.le_refl _) (by omega)
    obtain ⟨vs, h3, h4⟩ := loadElems_each p z n (i + 1) (fun j a b => h j (by omega) (by omega))
    refine ⟨v :: vs, ?_, ?_⟩
    · rw [loadElems, SM.bind_ok h1, SM.bind_ok h3]; rfl
    · rw [weightList, Nat.succ_mul]; omega

/-- The exponent in the bound is needed: from a memory of `8 * k` bytes come `k ^ d` values, at a type of `d` lists within
each other. -/
theorem nested_lists_reach (E : Env σ) (k : Nat) (hk : 8 * k < 2 ^ 32) (s : St σ) (hs : s.mem = echo k) : (d : Nat) →
    (p : U32) → nestSize d ∣ p.toNat → p.toNat + nestSize d ≤ 8 * k →
    ∃ v, (nest d).load E p s = (.ok v, s) ∧ k ^ d ≤ weight v
  | 0, p, _, hp => by
    show ∃ v, Abi.load E .u8 p s = _ ∧ _
    rw [load]
    refine ⟨intVal .u8 (leNat (s.mem.read p.toNat 1)), ?_, by rw [intVal_weight]; simp⟩
    unfold loadInt loadBytes
    rw [show (SM.lift (size .u8) : SM (St σ) U32) = SM.lift (.ok 1) from rfl]
    simp only [SM.bind_def, SM.lift_def, SM.get_def]
    have hp : p.toNat + 1 ≤ 8 * k := hp
    rw [slice_ok _ _ _ (by rw [show (1 : U32).toNat = 1 from rfl]; omega)
      (by rw [hs, show (1 : U32).toNat = 1 from rfl]; exact hp)]
    rfl
  | d + 1, p, hd, hp => by
    have hd : 8 ∣ p.toNat := hd
    have hp : p.toNat + 8 ≤ 8 * k := hp
    have hm : p.toNat % 8 = 0 := Nat.mod_eq_zero_of_dvd hd
    have hcap : s.mem.cap = 8 * k := by rw [hs]; rfl
    have hz := nest_size d
    obtain ⟨a, ha, hal⟩ := nest_align d
    have hn : (BitVec.ofNat 32 k).toNat = k := by rw [BitVec.toNat_ofNat, Nat.mod_eq_of_lt (by omega)]
    have hzn : (BitVec.ofNat 32 (nestSize d)).toNat = nestSize d := by unfold nestSize; split <;> rfl
    have hzb : nestSize d = 1 ∨ nestSize d = 8 := by unfold nestSize; split <;> simp
    have h4 : (p + 4).toNat = p.toNat + 4 := by
      rw [BitVec.toNat_add, show (4 : U32).toNat = 4 from rfl, Nat.mod_eq_of_lt (by omega)]
    have e1 : loadUInt32 p s = (.ok 0, s) := by
      rw [loadUInt32_value p s (by omega) (by omega), hs, echo_address k _ hm]; rfl
    have e2 : loadUInt32 (p + 4) s = (.ok (BitVec.ofNat 32 k), s) := by
      rw [loadUInt32_value (p + 4) s (by omega) (by omega), hs, h4, echo_length k _ hm (by omega)]
    obtain ⟨vs, h1, h2⟩ := loadElems_each (f := load E (nest d).core) (B := k ^ d) (s := s) 0 (BitVec.ofNat 32 (nestSize d)) k 0
      (fun j _ hj => by
        have hj : j < k := by omega
        have e : (0 + BitVec.ofNat 32 j * BitVec.ofNat 32 (nestSize d) : U32).toNat = j * nestSize d := by
          rw [show (0 : U32) + BitVec.ofNat 32 j * BitVec.ofNat 32 (nestSize d) = BitVec.ofNat 32 j * BitVec.ofNat 32 (nestSize d)
            from BitVec.zero_add _, BitVec.toNat_mul, hzn, BitVec.toNat_ofNat, Nat.mod_eq_of_lt (a := j) (by omega)]
          rcases hzb with hb | hb <;> rw [hb] <;> omega
        refine nested_lists_reach E k hk s hs d _ (by rw [e]; exact Nat.dvd_mul_left _ _) ?_
        rw [e]
        rcases hzb with hb | hb <;> rw [hb] <;> omega)
    refine ⟨.list vs, ?_, ?_⟩
    · show Abi.load E (.list (nest d).core) p s = _
      rw [load]
      have : loadList (load E (nest d).core) (nest d).core p s = (.ok vs, s) := by
        unfold loadList
        rw [SM.bind_ok e1, SM.bind_ok e2]
        unfold loadListFromRange
        rw [SM.bind_ok (show SM.lift (alignment (nest d).core) s = (.ok a, s) by rw [SM.lift_def]; exact congrArg (·, s) ha),
          SM.ite_app, if_neg (by rw [Classical.not_not, alignTo_of_zero]),
          SM.bind_ok (show SM.lift (size (nest d).core) s = (.ok _, s) by rw [SM.lift_def]; exact congrArg (·, s) hz),
          SM.bind_get, SM.ite_app, if_neg ?_, hn]
        · exact h1
        · rw [show (0 : U32) + BitVec.ofNat 32 k * BitVec.ofNat 32 (nestSize d) = BitVec.ofNat 32 k * BitVec.ofNat 32 (nestSize d)
            from BitVec.zero_add _, BitVec.toNat_mul, hzn, hn, Mem.len32, hs, show (echo k).len = 8 * k from rfl,
            BitVec.toNat_ofNat]
          rcases hzb with hb | hb <;> rw [hb] <;> omega
      rw [SM.bind_ok this]
      rfl
    · rw [weight, Nat.pow_succ, Nat.mul_comm]
      omega

/-! ### The hypotheses are met -/

/-- A list of records of a string and a list of numbers. -/
def boundTy : VT := .list (.record (.cons "name" .string (.cons "sizes" (.list .u16) .nil)))

theorem boundTy_sized : Sized 65536 boundTy.core := by
  show Sized 65536 (.list (.record (.cons "name" .string (.cons "sizes" (.list .u16) .nil))))
  rw [Sized, Sized, SizedFields, SizedFields, SizedFields, Sized, Sized, Sized]
  · exact ⟨⟨16, rfl, by decide, by decide⟩, trivial, ⟨⟨2, rfl, by decide, by decide⟩, trivial⟩, trivial⟩
  all_goals simp

/-- Anything of that type read from a page of memory has at most 5 · 65537² values and characters. -/
example (E : Env σ) (ptr : U32) (s s' : St σ) (v : Val) (hs : s.mem.cap = 65536) (h : boundTy.load E ptr s = (.ok v, s')) :
    weight v ≤ 5 * 65537 ^ 2 := by
  have := load_bounded E boundTy ptr s s' v (by rw [hs]; exact boundTy_sized) h
  rw [hs] at this
  exact this

/-- Something is read: three levels of lists from 80 bytes, a thousand bytes and more. -/
example (E : Env σ) (s : St σ) (hs : s.mem = echo 10) : ∃ v, (nest 3).load E 0 s = (.ok v, s) ∧ 1000 ≤ weight v ∧
    weight v ≤ 4 * 81 ^ 3 := by
  obtain ⟨v, h1, h2⟩ := nested_lists_reach E 10 (by decide) s hs 3 0 (by decide) (by decide)
  have hc : s.mem.cap = 80 := by rw [hs]; rfl
  have h3 := load_bounded E (nest 3) 0 s s v (by
    rw [hc]
    show Sized 80 (.list (.list (.list .u8)))
    rw [Sized, Sized, Sized, Sized]
    · exact ⟨⟨8, rfl, by decide, by decide⟩, ⟨8, rfl, by decide, by decide⟩, ⟨1, rfl, by decide, by decide⟩, trivial⟩
    all_goals simp) h1
  rw [hc] at h3
  exact ⟨v, h1, h2, h3⟩

/-- A list of numbers of four bytes each, read from a page of memory, has at most 16384 of them. -/
example (E : Env σ) (ptr : U32) (s s' : St σ) (vs : List Val) (hs : s.mem.cap = 65536)
    (h : (VT.list .u32).load E ptr s = (.ok (.list vs), s')) : vs.length ≤ 16384 := by
  refine Nat.le_of_not_lt fun hl => ?_
  have := list_bounded E .u32 4 ptr s s' vs rfl (by decide) (by rw [hs]; decide) h 16384 hl
  rw [hs] at this
  exact absurd this (by decide)

/-- A list of bytes is lifted from two flat values, and a parameter of that type among others. -/
example : Sized 80 (nest 1).core ∧
    ((nest 1).lift (bumpEnv "utf-8") ⟨{ bumpSt with mem := echo 10 }, itAt [.u32 3, .u32 20] 0⟩).1 matches .ok (.list _) := by
  refine ⟨?_, by decide⟩
  show Sized 80 (.list .u8)
  rw [Sized, Sized]
  · exact ⟨⟨1, rfl, by decide, by decide⟩, trivial⟩
  all_goals simp

example (E : Env σ) (s s' : LSt σ) (vs : List Val) (hs : s.st.mem.cap = 65536)
    (h : liftValues E id 16 [boundTy.core, .u8] s = (.ok vs, s')) : weightList vs ≤ 5 * 65537 ^ 2 + 1 := by
  have := liftValues_bounded E id (fun _ => List.Perm.refl _) 16 [boundTy.core, .u8] s s' vs (by
    rw [hs]
    intro t ht
    rcases List.mem_cons.1 ht with rfl | ht
    · exact boundTy_sized
    · rw [List.mem_singleton.1 ht, Sized]; trivial
      all_goals simp) h
  rw [hs] at this
  exact this

end Verif.Abi
