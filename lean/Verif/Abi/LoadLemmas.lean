import Verif.Abi.LoadSpec
import Verif.Abi.ScalarProps
import Verif.Abi.RoundTrip
import Verif.Encoding.Props

/-!
# What `Load` changes and what it reads
-/

namespace Verif.Abi
open Encoding Spec

variable {σ : Type} {α β : Type}

/-! ### Layout functions return -/

theorem Returns.bind {r : Res α} {f : α → Res β} (h1 : r.Returns) (h2 : ∀ a, r = .ok a → (f a).Returns) :
    (r >>= f).Returns := by
  rcases h1 with ⟨a, rfl⟩ | rfl
  · exact h2 a rfl
  · exact .inr rfl

theorem disc_returns (n : Nat) : (discriminantType n).Returns := disc_cases n

mutual
theorem alignment_returns : (t : Ty) → (alignment t).Returns
  | .bool | .u8 | .u16 | .u32 | .u64 | .s8 | .s16 | .s32 | .s64 | .f32 | .f64 | .char | .string | .list _ | .flags _
  | .own _ | .borrow _ | .nil | .other => by simp [alignment]
  | .record fs => by rw [alignment]; exact alignmentRecord_returns fs 1
  | .variant cs => by
    rw [alignment]
    rcases disc_returns cs.length with ⟨d, h⟩ | h <;> rw [h]
    · rcases maxCaseAlignment_returns cs 1 with ⟨a, h⟩ | h <;> rw [h] <;> simp
    · simp
theorem alignmentRecord_returns : (fs : Fields) → (a : U32) → (alignmentRecord fs a).Returns
  | .nil, a => by simp [alignmentRecord]
  | .cons _ t fs, a => by
    rw [alignmentRecord]
    exact Returns.bind (alignment_returns t) fun _ _ => alignmentRecord_returns fs _
theorem maxCaseAlignment_returns : (cs : Cases) → (a : U32) → (maxCaseAlignment cs a).Returns
  | .nil, a => by simp [maxCaseAlignment]
  | .cons _ t _ cs, a => by
    rw [maxCaseAlignment]
    split
    · exact maxCaseAlignment_returns cs a
    · exact Returns.bind (alignment_returns t) fun _ _ => maxCaseAlignment_returns cs _
end

mutual
theorem size_returns : (t : Ty) → (Abi.size t).Returns
  | .bool | .u8 | .u16 | .u32 | .u64 | .s8 | .s16 | .s32 | .s64 | .f32 | .f64 | .char | .string | .list _ | .flags _
  | .own _ | .borrow _ | .nil | .other => by simp [Abi.size]
  | .record fs => by
    rw [Abi.size]
    exact Returns.bind (sizeFields_returns fs 0) fun _ _ =>
      Returns.bind (alignmentRecord_returns fs 1) fun _ _ => by simp
  | .variant cs => by
    rw [Abi.size]
    refine Returns.bind (disc_returns _) fun d _ => ?_
    refine Returns.bind (maxCaseAlignment_returns cs 1) fun a _ => ?_
    refine Returns.bind (maxCaseSize_returns cs 0) fun a _ => ?_
    exact Returns.bind (alignment_returns _) fun a _ => by simp
theorem sizeFields_returns : (fs : Fields) → (s : U32) → (sizeFields fs s).Returns
  | .nil, a => by simp [sizeFields]
  | .cons _ t fs, a => by
    rw [sizeFields]
    exact Returns.bind (alignment_returns t) fun _ _ => Returns.bind (size_returns t) fun _ _ => sizeFields_returns fs _
theorem maxCaseSize_returns : (cs : Cases) → (a : U32) → (maxCaseSize cs a).Returns
  | .nil, a => by simp [maxCaseSize]
  | .cons _ t _ cs, a => by
    rw [maxCaseSize]
    split
    · exact maxCaseSize_returns cs a
    · exact Returns.bind (size_returns t) fun _ _ => maxCaseSize_returns cs _
end

theorem returns_ne_diverge {r : Res α} (h : r.Returns) : r ≠ .diverge := by
  rintro rfl; simp at h

theorem decode_ok (e : TextEnc) (bs : List Byte) : ∃ s, e.decode bs = .ok s := by
  cases e <;> exact ⟨_, rfl⟩

theorem get_returns (f : Factory) (n : String) : (f.get n).Returns := by
  unfold Factory.get; split <;> simp

theorem table_get_returns (t : Handles.Table) (i : U32) : (t.get i).Returns := by
  unfold Handles.Table.get
  split
  · simp
  · rename_i h
    rw [BitVec.toNat_ofNat] at h
    have : i.toNat < t.array.length := by
      have := Nat.mod_le t.array.length (2 ^ 32)
      omega
    rw [List.getElem?_eq_getElem this]
    cases t.array[i.toNat] <;> simp

theorem remove_returns (inst : Handles.InstId) (rt : RT) (i : U32) (w : Handles.World) :
    (Handles.remove inst rt i w).1.Returns := by
  unfold Handles.remove Handles.Table.remove
  rcases table_get_returns (w.tables inst rt) i with ⟨h, e⟩ | e
  · rw [e]
    simp only
    split <;> (try split) <;> simp_all
  · rw [e]; simp

theorem liftOwn_returns (inst : Handles.InstId) (rt : RT) (i : U32) (w : Handles.World) :
    (Handles.liftOwn inst rt i w).1.Returns := by
  unfold Handles.liftOwn
  have := remove_returns inst rt i w
  rcases h : Handles.remove inst rt i w with ⟨r, w'⟩
  rw [h] at this
  rcases this with ⟨a, e⟩ | e
  · simp only at e; subst e
    rw [SM.bind_ok h]; simp [SM.bind_def]
  · simp only at e; subst e
    rw [SM.bind_err h]; simp

theorem liftBorrow_returns (inst : Handles.InstId) (cx : Handles.CtxId) (rt : RT) (i : U32) (w : Handles.World) :
    (Handles.liftBorrow inst cx rt i w).1.Returns := by
  unfold Handles.liftBorrow
  rcases table_get_returns (w.tables inst rt) i with ⟨h, e⟩ | e
  · rw [SM.bind_ok (s' := w) (a := h) (by unfold Handles.get; rw [e])]
    simp [SM.bind_def, Handles.liftBorrowFrom]
  · rw [SM.bind_err (s' := w) (by unfold Handles.get; rw [e])]; simp

/-! ### `Load` changes nothing but handles -/

/-- Memory and allocator state stay; so do the handle tables if `D`; and the call ends if `C`. -/
def Tame (C D : Prop) (m : SM (St σ) α) : Prop := ∀ s,
  (∃ w, (m s).2 = { s with world := w } ∧ (D → w = s.world)) ∧ (C → (m s).1 ≠ .diverge)

variable {C D : Prop}

theorem Tame.bind {m : SM (St σ) α} {f : α → SM (St σ) β} (h1 : Tame C D m) (h2 : ∀ a, Tame C D (f a)) :
    Tame C D (m >>= f) := by
  intro s
  obtain ⟨⟨w, e, hw⟩, hc⟩ := h1 s
  rw [SM.bind_def]
  rcases hm : m s with ⟨r, s1⟩
  rw [hm] at e hc
  simp only at e hc
  subst e
  cases r with
  | ok a =>
    obtain ⟨⟨w', e', hw'⟩, hc'⟩ := h2 a { s with world := w }
    exact ⟨⟨w', e', fun d => (hw' d).trans (hw d)⟩, hc'⟩
  | err => exact ⟨⟨w, rfl, hw⟩, fun _ => by simp⟩
  | panic => exact ⟨⟨w, rfl, hw⟩, fun _ => by simp⟩
  | diverge => exact ⟨⟨w, rfl, hw⟩, fun c => absurd rfl (hc c)⟩

theorem Tame.lift {r : Res α} (h : C → r ≠ .diverge) : Tame C D (SM.lift r : SM (St σ) α) :=
  fun s => ⟨⟨s.world, rfl, fun _ => rfl⟩, h⟩
theorem Tame.ret {r : Res α} (h : r.Returns) : Tame C D (SM.lift r : SM (St σ) α) := .lift fun _ => returns_ne_diverge h
theorem Tame.pure (a : α) : Tame C D (Pure.pure a : SM (St σ) α) :=
  fun s => ⟨⟨s.world, rfl, fun _ => rfl⟩, fun _ => by simp⟩
theorem Tame.fail : Tame C D (SM.fail : SM (St σ) α) := fun s => ⟨⟨s.world, rfl, fun _ => rfl⟩, fun _ => by simp⟩
theorem Tame.crash : Tame C D (SM.crash : SM (St σ) α) := fun s => ⟨⟨s.world, rfl, fun _ => rfl⟩, fun _ => by simp⟩
theorem Tame.get : Tame C D (SM.get : SM (St σ) (St σ)) := fun s => ⟨⟨s.world, rfl, fun _ => rfl⟩, fun _ => by simp⟩
theorem Tame.ite {c : Prop} [Decidable c] {m n : SM (St σ) α} (h1 : Tame C D m) (h2 : Tame C D n) :
    Tame C D (if c then m else n) := by split <;> assumption
theorem Tame.imp {C' D' : Prop} {m : SM (St σ) α} (h : Tame C D m) (hc : C' → C) (hd : D' → D) : Tame C' D' m := by
  intro s
  obtain ⟨⟨w, e, hw⟩, h2⟩ := h s
  exact ⟨⟨w, e, fun d => hw (hd d)⟩, fun c => h2 (hc c)⟩

theorem slice_ne_diverge (m : Mem) (a b : U32) : m.slice a b ≠ .diverge := by
  rcases slice_cases m a b with ⟨h, -⟩ | h <;> rw [h] <;> simp

theorem loadBytes_tame (ptr n : U32) : Tame C D (loadBytes ptr n : SM (St σ) Nat) := by
  unfold loadBytes
  exact .bind .get fun st => .bind (.lift fun _ => slice_ne_diverge _ _ _) fun _ => .pure _

theorem loadInt_tame (ptr : U32) (t : Ty) : Tame C D (loadInt ptr t : SM (St σ) Val) := by
  unfold loadInt
  exact .bind (.ret (size_returns t)) fun _ => .bind (loadBytes_tame _ _) fun _ => .pure _

theorem loadIntWithSize_tame (ptr n : U32) (b : Bool) : Tame C D (loadIntWithSize ptr n b : SM (St σ) Val) := by
  unfold loadIntWithSize
  refine .ite (.pure _) (.ite ?_ (.ite ?_ (.ite ?_ (.ite ?_ ?_)))) <;> exact loadInt_tame _ _

theorem loadUInt32_tame (ptr : U32) : Tame C D (loadUInt32 ptr : SM (St σ) U32) := by
  unfold loadUInt32
  refine .bind (loadInt_tame _ _) fun v => ?_
  split <;> first | exact .pure _ | exact .fail

theorem loadUInt64_tame (ptr : U32) : Tame C D (loadUInt64 ptr : SM (St σ) U64) := by
  unfold loadUInt64
  refine .bind (loadInt_tame _ _) fun v => ?_
  split <;> first | exact .pure _ | exact .fail

theorem convert_returns (x : U32) : (convertU32ToRune x).Returns := by
  rw [convert_iff]; split <;> simp

theorem loadStringFromRange_tame (E : Env σ) (p n : U32) : Tame C D (loadStringFromRange E p n) := by
  unfold loadStringFromRange
  refine .bind (.ret (get_returns ..)) fun c => .ite .fail (.bind .get fun st => .ite .fail ?_)
  refine .bind (.lift fun _ => slice_ne_diverge _ _ _) fun _ => .ret ?_
  obtain ⟨s, h⟩ := decode_ok c.enc (st.mem.read p.toNat ((toTagged n).codeUnits * BitVec.ofNat 32 c.runeSize).toNat)
  rw [h]; simp

theorem loadElems_tame {f : U32 → SM (St σ) Val} (hf : ∀ p, Tame C D (f p)) (ptr sz : U32) : (n i : Nat) →
    Tame C D (loadElems f ptr sz n i)
  | 0, _ => .pure _
  | n + 1, i => by
    rw [loadElems]
    exact .bind (hf _) fun _ => .bind (loadElems_tame hf ptr sz n (i + 1)) fun _ => .pure _

theorem loadListFromRange_tame {f : U32 → SM (St σ) Val} (hf : ∀ p, Tame C D (f p)) (t : Ty) (ptr n : U32) :
    Tame C D (loadListFromRange f t ptr n) := by
  unfold loadListFromRange
  refine .bind (.ret (alignment_returns t)) fun a => .ite .fail (.bind (.ret (size_returns t)) fun s => .bind .get fun st => ?_)
  exact .ite .fail (loadElems_tame hf _ _ _ _)

theorem loadFlags_tame (ptr : U32) (ls : List String) : Tame C D (loadFlags ptr ls : SM (St σ) Val) := by
  unfold loadFlags
  refine .bind ?_ fun _ => .pure _
  unfold loadFlagsWord
  refine .bind (loadIntWithSize_tame _ _ _) fun v => .ite ?_ (.ite ?_ (.ite ?_ (.ite ?_ (.pure _)))) <;> split <;>
    first | exact .pure _ | exact .crash

theorem loadDisc_tame (ptr : U32) (d : Disc) : Tame C D (loadDisc ptr d : SM (St σ) U32) := by
  unfold loadDisc
  refine .bind (loadInt_tame _ _) fun v => ?_
  split <;> first | exact .pure _ | exact .crash

theorem onWorld_tame (f : SM Handles.World α) (h : ∀ w, (f w).1.Returns) (hd : ¬ D) :
    Tame C D (onWorld f : SM (St σ) α) := fun s => ⟨⟨_, rfl, fun d => absurd d hd⟩, fun _ => returns_ne_diverge (h _)⟩

theorem plain_own {rt} : ¬ Plain (.own rt) := by simp [Plain]
theorem plain_borrow {rt} : ¬ Plain (.borrow rt) := by simp [Plain]

mutual
/-- `Load` changes no memory; without handles in the type it changes nothing; it ends if all chains do. -/
theorem load_tame (E : Env σ) : (t : Ty) → (ptr : U32) → Tame (Chains t) (Plain t) (load E t ptr)
  | .bool, ptr => by
    rw [load, loadBool]
    refine .bind (loadInt_tame _ _) fun v => ?_
    split <;> first | exact .pure _ | exact .fail
  | .u8, ptr | .u16, ptr | .u32, ptr | .u64, ptr | .s8, ptr | .s16, ptr | .s32, ptr | .s64, ptr => by
    rw [load]; exact loadInt_tame _ _
  | .f32, ptr => by rw [load, loadFloat32]; exact .bind (loadUInt32_tame _) fun _ => .pure _
  | .f64, ptr => by rw [load, loadFloat64]; exact .bind (loadUInt64_tame _) fun _ => .pure _
  | .char, ptr => by
    rw [load, loadChar]
    refine .bind (loadIntWithSize_tame _ _ _) fun v => ?_
    split
    · exact .bind (.ret (convert_returns _)) fun _ => .pure _
    · exact .fail
  | .string, ptr => by
    rw [load, loadString]
    exact .bind (.bind (loadUInt32_tame _) fun _ => .bind (loadUInt32_tame _) fun _ => loadStringFromRange_tame _ _ _) fun _ =>
      .pure _
  | .list t, ptr => by
    rw [load, loadList]
    refine .bind (.bind (loadUInt32_tame _) fun _ => .bind (loadUInt32_tame _) fun _ =>
      loadListFromRange_tame (fun p => ?_) t _ _) fun _ => .pure _
    exact (load_tame E t p).imp (by rw [Chains]; exact id) (by rw [Plain]; exact id)
  | .record fs, ptr => by
    rw [load]
    exact (loadFields_tame E fs ptr []).imp (by rw [Chains]; exact id) (by rw [Plain]; exact id)
  | .variant cs, ptr => by
    rw [load]
    refine .bind (.ret (disc_returns _)) fun d => .bind (loadDisc_tame _ _) fun i => .bind (.ret (size_returns _)) fun s => ?_
    refine .ite .fail (.bind (.ret (maxCaseAlignment_returns ..)) fun a => ?_)
    refine (loadCase_tame E cs cs i.toNat _).imp ?_ (by rw [Plain]; exact id)
    rw [Chains]
    rintro ⟨h1, h2⟩
    exact ⟨fun l t r hi => h1 _ l t r hi, h2⟩
  | .flags ls, ptr => by rw [load]; exact loadFlags_tame ptr ls
  | .own rt, ptr => by
    rw [load]
    exact .bind (loadUInt32_tame _) fun _ => .bind (onWorld_tame _ (liftOwn_returns _ _ _) plain_own) fun _ => .pure _
  | .borrow rt, ptr => by
    rw [load]
    exact .bind (loadUInt32_tame _) fun _ => .bind (onWorld_tame _ (liftBorrow_returns _ _ _ _) plain_borrow) fun _ => .pure _
  | .nil, ptr | .other, ptr => by rw [load]; exact .fail
theorem loadFields_tame (E : Env σ) : (fs : Fields) → (ptr : U32) → (acc : List (String × Val)) →
    Tame (ChainsFields fs) (PlainFields fs) (loadFields E fs ptr acc)
  | .nil, ptr, acc => by rw [loadFields]; exact .pure _
  | .cons l t fs, ptr, acc => by
    rw [loadFields, ChainsFields, PlainFields]
    refine .bind (.ret (alignment_returns t)) fun a => ?_
    refine .bind ((load_tame E t _).imp And.left And.left) fun v => .bind (.ret (size_returns t)) fun s => ?_
    exact (loadFields_tame E fs _ _).imp And.right And.right
theorem loadCase_tame (E : Env σ) (all : Cases) : (cs : Cases) → (i : Nat) → (ptr : U32) →
    Tame ((∀ l t r, cs.get? i = some (l, t, r) → ∃ ls, Chain all l r ls) ∧ ChainsCases cs) (PlainCases cs)
      (loadCase E all cs i ptr)
  | .nil, i, ptr => by rw [loadCase]; exact .crash
  | .cons l t r cs, 0, ptr => by
    rw [loadCase]
    refine .bind (.lift ?_) fun label => .ite (.pure _) (.bind ?_ fun _ => .pure _)
    · rintro ⟨h, -⟩
      obtain ⟨ls, hc⟩ := h l t r rfl
      rw [caseLabel_chain hc]; simp
    · exact (load_tame E t _).imp (by rw [ChainsCases]; exact fun h => h.2.1) (by rw [PlainCases]; exact And.left)
  | .cons l t r cs, i + 1, ptr => by
    rw [loadCase]
    exact (loadCase_tame E all cs i ptr).imp (by rw [ChainsCases]; exact fun h => ⟨h.1, h.2.2⟩)
      (by rw [PlainCases]; exact And.right)
end

/-! ### `Load` reads inside memory -/

/-- Two states that differ only in bytes outside the memory, in spare capacity and in the allocator's own state. -/
structure Alike (s s' : St σ) : Prop where
  len : s'.mem.len = s.mem.len
  data : ∀ x, x < s.mem.len → s'.mem.data x = s.mem.data x
  small : s.mem.len < 2 ^ 32
  cap : s.mem.len ≤ s.mem.cap
  cap' : s'.mem.len ≤ s'.mem.cap
  world : s'.world = s.world

theorem Alike.withWorld {s s' : St σ} (h : Alike s s') (w : Handles.World) :
    Alike { s with world := w } { s' with world := w } := ⟨h.len, h.data, h.small, h.cap, h.cap', rfl⟩

/-- The call returns, with the same outcome from both states, and changes the handle tables at most. -/
def Reads (m : SM (St σ) α) (s s' : St σ) : Prop :=
  ∃ r w, r.Returns ∧ m s = (r, { s with world := w }) ∧ m s' = (r, { s' with world := w })

theorem Reads.bind {m : SM (St σ) α} {f : α → SM (St σ) β} {s s' : St σ} (h1 : Reads m s s')
    (h2 : ∀ a w, m s = (.ok a, { s with world := w }) → Reads (f a) { s with world := w } { s' with world := w }) :
    Reads (m >>= f) s s' := by
  obtain ⟨r, w, hr, e, e'⟩ := h1
  rcases hr with ⟨a, rfl⟩ | rfl
  · obtain ⟨r', w', hr', g, g'⟩ := h2 a w e
    refine ⟨r', w', hr', ?_, ?_⟩
    · rw [SM.bind_ok e, g]
    · rw [SM.bind_ok e', g']
  · exact ⟨.err, w, by simp, SM.bind_err e, SM.bind_err e'⟩

theorem Alike.same {s s' : St σ} (h : Alike s s') : { s' with world := s.world } = s' := by
  obtain ⟨m, g, w⟩ := s'
  have := h.world
  simp only at this
  rw [this]

theorem Reads.lift {s s' : St σ} (h : Alike s s') {r : Res α} (hr : r.Returns) : Reads (SM.lift r) s s' :=
  ⟨r, s.world, hr, rfl, by rw [h.same]; rfl⟩
theorem Reads.pure {s s' : St σ} (h : Alike s s') (a : α) : Reads (Pure.pure a) s s' :=
  ⟨.ok a, s.world, by simp, rfl, by rw [h.same]; rfl⟩
theorem Reads.fail {s s' : St σ} (h : Alike s s') : Reads (SM.fail : SM (St σ) α) s s' :=
  ⟨.err, s.world, by simp, rfl, by rw [h.same]; rfl⟩
theorem Reads.of_ok {s s' : St σ} (h : Alike s s') {m : SM (St σ) α} {a : α} (e : m s = (.ok a, s))
    (e' : m s' = (.ok a, s')) : Reads m s s' := ⟨.ok a, s.world, by simp, e, by rw [h.same]; exact e'⟩
theorem Reads.of_err {s s' : St σ} (h : Alike s s') {m : SM (St σ) α} (e : m s = (.err, s))
    (e' : m s' = (.err, s')) : Reads m s s' := ⟨.err, s.world, by simp, e, by rw [h.same]; exact e'⟩

theorem Alike.read {s s' : St σ} (h : Alike s s') (p n : Nat) (hl : p + n ≤ s.mem.len) :
    s'.mem.read p n = s.mem.read p n :=
  Mem.read_congr _ _ _ _ fun x _ h2 => h.data x (by omega)

/-- An integer read inside memory. -/
theorem loadInt_reads {s s' : St σ} (h : Alike s s') (t : Ty) (n : U32) (hn : Abi.size t = .ok n) (ptr : U32)
    (hl : ptr.toNat + n.toNat ≤ s.mem.len) : Reads (loadInt ptr t) s s' := by
  obtain ⟨h1, h2, h3, h4, h5, -⟩ := id h
  refine .of_ok h (loadInt_ok t n hn ptr s (by omega) (by omega)) ?_
  rw [loadInt_ok t n hn ptr s' (by omega) (by omega), h.read _ _ hl]

theorem loadUInt32_reads {s s' : St σ} (h : Alike s s') (ptr : U32) (hl : ptr.toNat + 4 ≤ s.mem.len) :
    Reads (loadUInt32 ptr) s s' := by
  obtain ⟨h1, h2, h3, h4, h5, -⟩ := id h
  refine .of_ok h (loadUInt32_ok ptr s (by omega) (by omega)) ?_
  rw [loadUInt32_ok ptr s' (by omega) (by omega), h.read _ _ hl]

theorem loadUInt64_reads {s s' : St σ} (h : Alike s s') (ptr : U32) (hl : ptr.toNat + 8 ≤ s.mem.len) :
    Reads (loadUInt64 ptr) s s' := by
  obtain ⟨h1, h2, h3, h4, h5, -⟩ := id h
  refine .of_ok h (loadUInt64_ok ptr s (by omega) (by omega)) ?_
  rw [loadUInt64_ok ptr s' (by omega) (by omega), h.read _ _ hl]

/-- The word read is the number in the four bytes. -/
theorem loadUInt32_natAt (ptr : U32) (s s1 : St σ) (x : U32) (hs : s.mem.len < 2 ^ 32) (hc : s.mem.len ≤ s.mem.cap)
    (hl : ptr.toNat + 4 ≤ s.mem.len) (e : loadUInt32 ptr s = (.ok x, s1)) : x.toNat = natAt s.mem ptr.toNat 4 := by
  rw [loadUInt32_ok ptr s (by omega) (by omega)] at e
  injection e with e _
  injection e with e
  rw [← e, natAt_eq, BitVec.toNat_ofNat, Nat.mod_eq_of_lt]
  have := leNat_lt (s.mem.read ptr.toNat 4)
  rw [Mem.read_length] at this
  omega

/-! ### The length word of a string -/

theorem toTagged_units (n : U32) : (toTagged n).codeUnits.toNat = n.toNat % 2 ^ 31 := by
  unfold toTagged
  have : ~~~utf16Tag = (0x7FFFFFFF : U32) := by decide
  rw [this, BitVec.toNat_and]
  show n.toNat &&& (2 ^ 31 - 1) = _
  rw [Nat.and_two_pow_sub_one_eq_mod]

theorem toTagged_tag (n : U32) : (toTagged n).utf16 = decide (2 ^ 31 ≤ n.toNat) := by
  unfold toTagged
  by_cases h : 2 ^ 31 ≤ n.toNat
  · rw [decide_eq_true h]
    show (n &&& utf16Tag != 0) = true
    rw [bne_iff_ne]
    intro hc
    have h1 : (n &&& utf16Tag).getLsbD 31 = (0 : U32).getLsbD 31 := by rw [hc]
    rw [BitVec.getLsbD_and, tag_getLsbD 31 (by omega)] at h1
    have h2 : n.getLsbD 31 = true := by
      have := n.isLt
      rw [BitVec.getLsbD, Nat.testBit_eq_decide_div_mod_eq, decide_eq_true_eq]
      omega
    rw [h2] at h1
    cases h1
  · rw [decide_eq_false h]
    show (n &&& utf16Tag != 0) = false
    rw [tag_and n (by omega)]; rfl

/-- What the code computes from the length word: codec, alignment and number of bytes. -/
theorem string_codec (enc : String) (henc : enc ∈ Spec.encodings) (n : U32) :
    ∃ c : Codec, defaultFactory.get (srcEncoding enc (toTagged n)) = .ok c ∧ c.alignment = stringAlign enc ∧
      ((toTagged n).codeUnits * BitVec.ofNat 32 c.runeSize).toNat = (toTagged n).codeUnits.toNat * c.runeSize ∧
      (toTagged n).codeUnits.toNat * c.runeSize ≤ stringBytes enc n.toNat ∧
      (n.toNat < 2 ^ 31 ∨ enc = "latin1+utf16" → (toTagged n).codeUnits.toNat * c.runeSize = stringBytes enc n.toNat) := by
  have hu := toTagged_units n
  have ht := toTagged_tag n
  have hlt := n.isLt
  have hm : ∀ k, k ≤ 2 → ((toTagged n).codeUnits * BitVec.ofNat 32 k).toNat = (toTagged n).codeUnits.toNat * k := by
    intro k hk
    rw [BitVec.toNat_mul, toNat_ofNat_lt (by omega), hu, Nat.mod_eq_of_lt]
    have : n.toNat % 2 ^ 31 < 2 ^ 31 := Nat.mod_lt _ (by omega)
    rcases (by omega : k = 0 ∨ k = 1 ∨ k = 2) with rfl | rfl | rfl <;> omega
  simp only [Spec.encodings, List.mem_cons, List.not_mem_nil, or_false] at henc
  have hmod := Nat.mod_lt n.toNat (show 2 ^ 31 > 0 by omega)
  by_cases h31 : 2 ^ 31 ≤ n.toNat
  · rw [decide_eq_true h31] at ht
    rcases henc with rfl | rfl | rfl | rfl | rfl | rfl
    · refine ⟨newUTF8, rfl, rfl, hm 1 (by omega), ?_, ?_⟩ <;> simp [stringBytes, newUTF8, hu] <;> omega
    · refine ⟨newUTF16, rfl, rfl, hm 2 (by omega), ?_, ?_⟩ <;> simp [stringBytes, newUTF16, hu] <;> omega
    · refine ⟨newUTF16WithEndianess true, rfl, rfl, hm 2 (by omega), ?_, ?_⟩ <;>
        simp [stringBytes, newUTF16WithEndianess, hu] <;> omega
    · refine ⟨newUTF16WithEndianess false, rfl, rfl, hm 2 (by omega), ?_, ?_⟩ <;>
        simp [stringBytes, newUTF16WithEndianess, hu] <;> omega
    · refine ⟨newLatin1, rfl, rfl, hm 1 (by omega), ?_, ?_⟩ <;> simp [stringBytes, newLatin1, hu] <;> omega
    · refine ⟨newUTF16WithEndianess false, ?_, rfl, hm 2 (by omega), ?_, ?_⟩
      · rw [srcEncoding, if_pos (by rfl), ht]; rfl
      · simp only [stringBytes, newUTF16WithEndianess, hu, if_pos h31, if_true]; omega
      · intro _; simp only [stringBytes, newUTF16WithEndianess, hu, if_pos h31, if_true]; omega
  · rw [decide_eq_false h31] at ht
    have hmm := Nat.mod_eq_of_lt (a := n.toNat) (b := 2 ^ 31) (by omega)
    rcases henc with rfl | rfl | rfl | rfl | rfl | rfl
    · refine ⟨newUTF8, rfl, rfl, hm 1 (by omega), ?_, ?_⟩ <;> simp [stringBytes, newUTF8, hu] <;> omega
    · refine ⟨newUTF16, rfl, rfl, hm 2 (by omega), ?_, ?_⟩ <;> simp [stringBytes, newUTF16, hu] <;> omega
    · refine ⟨newUTF16WithEndianess true, rfl, rfl, hm 2 (by omega), ?_, ?_⟩ <;>
        simp [stringBytes, newUTF16WithEndianess, hu] <;> omega
    · refine ⟨newUTF16WithEndianess false, rfl, rfl, hm 2 (by omega), ?_, ?_⟩ <;>
        simp [stringBytes, newUTF16WithEndianess, hu] <;> omega
    · refine ⟨newLatin1, rfl, rfl, hm 1 (by omega), ?_, ?_⟩ <;> simp [stringBytes, newLatin1, hu] <;> omega
    · refine ⟨newLatin1, ?_, rfl, hm 1 (by omega), ?_, ?_⟩
      · rw [srcEncoding, if_pos (by rfl), ht]; rfl
      · simp only [stringBytes, newLatin1, hu, if_neg h31, if_true]; omega
      · intro _; simp only [stringBytes, newLatin1, hu, if_neg h31, if_true]; omega

theorem unknown_encoding (enc : String) (henc : enc ∉ Spec.encodings) (t : TaggedCodeUnits) :
    defaultFactory.get (srcEncoding enc t) = .err := by
  have h6 : enc ≠ Latin1Utf16 := by
    rintro rfl; exact henc (by decide)
  rw [srcEncoding, if_neg h6]
  apply (default_factory_exact enc).2
  intro e a u hm
  apply henc
  simp only [supported, List.mem_cons, Prod.mk.injEq, List.not_mem_nil, or_false] at hm
  rcases hm with ⟨rfl, -⟩ | ⟨rfl, -⟩ | ⟨rfl, -⟩ | ⟨rfl, -⟩ | ⟨rfl, -⟩ | ⟨rfl, -⟩ <;> decide

theorem stringAlign_isAl (enc : String) : IsAl (stringAlign enc) := by
  unfold stringAlign; split
  · exact .inl rfl
  · exact .inr (.inl rfl)

/-- `LoadStringFromRange` by cases, when the bytes end below `2^32`. -/
theorem loadStringFromRange_cases (E : Env σ) (henc : E.enc ∈ Spec.encodings) (p n : U32) :
    ∃ (c : Codec) (k : Nat), k ≤ stringBytes E.enc n.toNat ∧
      (n.toNat < 2 ^ 31 ∨ E.enc = "latin1+utf16" → k = stringBytes E.enc n.toNat) ∧
      ∀ s : St σ, s.mem.len < 2 ^ 32 → s.mem.len ≤ s.mem.cap → p.toNat + k < 2 ^ 32 → loadStringFromRange E p n s =
        if stringAlign E.enc ∣ p.toNat ∧ p.toNat + k ≤ s.mem.len then
          (c.enc.decode (s.mem.read p.toNat k), s) else (.err, s) := by
  obtain ⟨c, h1, h2, h3, h4, h5⟩ := string_codec E.enc henc n
  refine ⟨c, _, h4, h5, ?_⟩
  intro s hs hc hw
  have hal := ofNat_toNat_isAl (stringAlign_isAl E.enc)
  unfold loadStringFromRange
  rw [h1, SM.bind_ok (SM.lift_def _ _), h2, SM.ite_app]
  by_cases ha : stringAlign E.enc ∣ p.toNat
  · rw [if_neg (by rw [Classical.not_not, alignTo_eq_iff _ _ (by rw [hal]; exact stringAlign_isAl _), hal]; exact ha),
      SM.bind_get, SM.ite_app, Mem.len32, toNat_ofNat_lt hs, BitVec.toNat_add, h3, Nat.mod_eq_of_lt hw]
    by_cases hl : p.toNat + (toTagged n).codeUnits.toNat * c.runeSize ≤ s.mem.len
    · rw [if_neg (by omega), if_pos ⟨ha, hl⟩, slice_ok _ _ _ (by rw [h3]; exact hw) (by rw [h3]; omega),
        SM.bind_ok (SM.lift_def _ _)]
      rfl
    · rw [if_pos (by omega), if_neg (fun h => hl h.2)]; rfl
  · rw [if_pos (by rw [Ne, alignTo_eq_iff _ _ (by rw [hal]; exact stringAlign_isAl _), hal]; exact ha),
      if_neg (fun h => ha h.1)]
    rfl

theorem loadStringFromRange_unknown (E : Env σ) (henc : E.enc ∉ Spec.encodings) (p n : U32) (s : St σ) :
    loadStringFromRange E p n s = (.err, s) := by
  unfold loadStringFromRange
  rw [unknown_encoding _ henc, SM.bind_err (SM.lift_def _ _)]

theorem loadStringFromRange_reads {s s' : St σ} (h : Alike s s') (E : Env σ) (p n : U32)
    (hw : p.toNat + stringBytes E.enc n.toNat < 2 ^ 32) : Reads (loadStringFromRange E p n) s s' := by
  by_cases henc : E.enc ∈ Spec.encodings
  · obtain ⟨c, k, h1, -, key⟩ := loadStringFromRange_cases E henc p n
    have k1 := key s h.small h.cap (by omega)
    have k2 := key s' (by rw [h.len]; exact h.small) h.cap' (by omega)
    rw [h.len] at k2
    by_cases hb : stringAlign E.enc ∣ p.toNat ∧ p.toNat + k ≤ s.mem.len
    · rw [if_pos hb] at k1 k2
      rw [h.read _ _ hb.2] at k2
      obtain ⟨str, hd⟩ := decode_ok c.enc (s.mem.read p.toNat k)
      rw [hd] at k1 k2
      exact .of_ok h k1 k2
    · rw [if_neg hb] at k1 k2
      exact .of_err h k1 k2
  · exact .of_err h (loadStringFromRange_unknown E henc p n s) (loadStringFromRange_unknown E henc p n s')

theorem loadElems_reads {f : U32 → SM (St σ) Val} (ptr sz : U32) : (n i : Nat) → (s s' : St σ) → Alike s s' →
    (∀ j, i ≤ j → j < i + n → ∀ w, Reads (f (ptr + BitVec.ofNat 32 j * sz)) { s with world := w } { s' with world := w }) →
    Reads (loadElems f ptr sz n i) s s'
  | 0, i, s, s', h, _ => by rw [loadElems]; exact .pure h _
  | n + 1, i, s, s', h, hf => by
    rw [loadElems]
    have h0 := hf i (Nat.le_refl _) (by omega) s.world
    rw [h.same] at h0
    refine .bind h0 fun v w _ => ?_
    have hw := h.withWorld w
    refine .bind (loadElems_reads ptr sz n (i + 1) _ _ hw fun j h1 h2 w' => ?_) fun vs w' _ => ?_
    · exact hf j (by omega) (by omega) w'
    · exact .pure (h.withWorld w') _

theorem toNat_elem (ptr : U32) (j sz : Nat) (h : ptr.toNat + j * sz < 2 ^ 32) (hsz : sz < 2 ^ 32) :
    (ptr + BitVec.ofNat 32 j * BitVec.ofNat 32 sz).toNat = ptr.toNat + j * sz := by
  rw [BitVec.toNat_add, BitVec.toNat_mul, BitVec.toNat_ofNat, BitVec.toNat_ofNat, Nat.mod_eq_of_lt hsz,
    Nat.mod_mul_mod, Nat.mod_eq_of_lt (a := j * sz) (by omega), Nat.mod_eq_of_lt h]

/-- `LoadListFromRange` before its loop. -/
theorem loadListFromRange_cases (f : U32 → SM (St σ) Val) (t : Ty) (hl : Laid t) (p n : U32) (s : St σ)
    (hs : s.mem.len < 2 ^ 32) (hw : p.toNat + n.toNat * Spec.size t < 2 ^ 32) (hsz : Spec.size t < 2 ^ 32) :
    loadListFromRange f t p n s =
      if align t ∣ p.toNat ∧ p.toNat + n.toNat * Spec.size t ≤ s.mem.len then
        loadElems f p (BitVec.ofNat 32 (Spec.size t)) n.toNat 0 s else (.err, s) := by
  have hal := ofNat_toNat_isAl (align_isAl t)
  unfold loadListFromRange
  rw [alignment_eq t hl, SM.bind_ok (SM.lift_def _ _), SM.ite_app]
  by_cases ha : align t ∣ p.toNat
  · rw [if_neg (by rw [Classical.not_not, alignTo_eq_iff _ _ (by rw [hal]; exact align_isAl _), hal]; exact ha),
      size_eq t hl hsz, SM.bind_ok (SM.lift_def _ _), SM.bind_get, SM.ite_app, Mem.len32, toNat_ofNat_lt hs,
      BitVec.toNat_add, BitVec.toNat_mul, toNat_ofNat_lt hsz, Nat.mod_eq_of_lt (a := n.toNat * _) (by omega),
      Nat.mod_eq_of_lt hw]
    by_cases hb : p.toNat + n.toNat * Spec.size t ≤ s.mem.len
    · rw [if_neg (by omega), if_pos ⟨ha, hb⟩]
    · rw [if_pos (by omega), if_neg (fun h => hb h.2)]; rfl
  · rw [if_pos (by rw [Ne, alignTo_eq_iff _ _ (by rw [hal]; exact align_isAl _), hal]; exact ha), if_neg (fun h => ha h.1)]
    rfl

/-- An empty list. -/
theorem loadListFromRange_zero (f : U32 → SM (St σ) Val) (t : Ty) (p : U32) (s s' : St σ) (h : Alike s s') :
    Reads (loadListFromRange f t p 0) s s' := by
  unfold loadListFromRange
  refine .bind (.lift h (alignment_returns t)) fun a w e => ?_
  have e1 : w = s.world := by injection e with _ e; exact (congrArg St.world e).symm
  subst e1
  rw [h.same]
  have hl := h.len
  by_cases hc : p ≠ alignTo p a
  · rw [if_pos hc]; exact .fail h
  · rw [if_neg hc]
    refine .bind (.lift h (size_returns t)) fun z w e => ?_
    have e1 : w = s.world := by injection e with _ e; exact (congrArg St.world e).symm
    subst e1
    rw [h.same]
    by_cases hb : (p + 0 * z).toNat > s.mem.len32.toNat
    · refine .of_err h ?_ ?_
      · rw [SM.bind_get]; exact if_pos hb ▸ rfl
      · rw [SM.bind_get, SM.ite_app, if_pos (by rw [Mem.len32, hl]; exact hb)]; rfl
    · refine .of_ok h (a := []) ?_ ?_
      · show (SM.get >>= _ : SM (St σ) (List Val)) s = _
        rw [SM.bind_get, SM.ite_app, if_neg hb]; rfl
      · rw [SM.bind_get, SM.ite_app, if_neg (by rw [Mem.len32, hl]; exact hb)]; rfl

end Verif.Abi
