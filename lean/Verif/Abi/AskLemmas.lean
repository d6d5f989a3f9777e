import Verif.Abi.AskSpec
import Verif.Abi.HandleTrace

/-!
# Lemmas: what lowering asks the allocator for
-/

namespace Verif.Abi
open Spec Encoding

variable {σ : Type}

/-- The call asks for `as`, from every state. -/
def Logs {α : Type} (log : σ → List Ask) (m : SM (St σ) α) (as : List Ask) : Prop :=
  ∀ s, Asked log as s.heap (m s).1 (m s).2.heap

namespace Logs
variable {α β : Type} {log : σ → List Ask}

theorem quiet {m : SM (St σ) α} (h : Pres St.heap m) : Logs log m [] := fun s =>
  ⟨[], by rw [h.keep s, List.append_nil], List.prefix_rfl, fun _ => rfl⟩

theorem dead {m : SM (St σ) α} (h : Pres St.heap m) (hn : ∀ s a, (m s).1 ≠ .ok a) (as : List Ask) : Logs log m as :=
  fun s => ⟨[], by rw [h.keep s, List.append_nil], List.nil_prefix, fun ⟨a, e⟩ => absurd e (hn s a)⟩

theorem fail (as : List Ask) : Logs log (SM.fail : SM (St σ) α) as := dead .fail (fun _ _ h => by cases h) as
theorem crash (as : List Ask) : Logs log (SM.crash : SM (St σ) α) as := dead .crash (fun _ _ h => by cases h) as

theorem bind {m : SM (St σ) α} {f : α → SM (St σ) β} {as bs : List Ask} (hm : Logs log m as)
    (hf : ∀ a s s', m s = (.ok a, s') → Logs log (f a) bs) : Logs log (m >>= f) (as ++ bs) := by
  intro s
  obtain ⟨l, h1, h2, h3⟩ := hm s
  rw [SM.bind_def]
  rcases e : m s with ⟨r, s1⟩
  rw [e] at h1 h3
  have hp : l <+: as ++ bs := h2.trans (List.prefix_append _ _)
  cases r with
  | ok a =>
    obtain ⟨k, k1, k2, k3⟩ := hf a s s1 e s1
    obtain rfl := h3 ⟨a, rfl⟩
    refine ⟨l ++ k, ?_, List.prefix_append_right_inj l |>.2 k2, fun hx => by rw [k3 hx]⟩
    show log (f a s1).2.heap = _
    rw [k1]
    show log s1.heap ++ k = _
    rw [show log s1.heap = log s.heap ++ l from h1, List.append_assoc]
  | err => exact ⟨l, h1, hp, fun ⟨_, hx⟩ => by cases hx⟩
  | panic => exact ⟨l, h1, hp, fun ⟨_, hx⟩ => by cases hx⟩
  | diverge => exact ⟨l, h1, hp, fun ⟨_, hx⟩ => by cases hx⟩

/-- First something that asks for nothing. -/
theorem after {m : SM (St σ) α} {f : α → SM (St σ) β} {bs : List Ask} (hm : Pres St.heap m)
    (hf : ∀ a s s', m s = (.ok a, s') → Logs log (f a) bs) : Logs log (m >>= f) bs :=
  bind (as := []) (quiet hm) hf

/-- Then something that asks for nothing. -/
theorem before {m : SM (St σ) α} {f : α → SM (St σ) β} {as : List Ask} (hm : Logs log m as)
    (hf : ∀ a, Pres St.heap (f a)) : Logs log (m >>= f) as := by
  have := bind (bs := []) hm fun a _ _ _ => quiet (hf a)
  rwa [List.append_nil] at this

theorem ite {c : Prop} [Decidable c] {m n : SM (St σ) α} {as : List Ask} (h1 : c → Logs log m as) (h2 : ¬ c → Logs log n as) :
    Logs log (if c then m else n) as := by
  split
  · exact h1 ‹_›
  · exact h2 ‹_›

end Logs

/-! ## What asks for nothing -/

theorem writeAt_heap (p : U32) (bs : List Byte) : Pres St.heap (writeAt p bs : SM (St σ) Unit) := ⟨fun _ => rfl⟩
theorem onWorld_heap {α : Type} (f : SM Handles.World α) : Pres St.heap (onWorld f : SM (St σ) α) := ⟨fun _ => rfl⟩

/-- One step of the search. -/
macro "heap_step" : tactic => `(tactic| first
  | with_reducible exact Pres.pure _
  | with_reducible exact Pres.fail
  | with_reducible exact Pres.crash
  | with_reducible exact Pres.lift _
  | with_reducible exact Pres.get
  | exact writeAt_heap ..
  | exact onWorld_heap ..
  | with_reducible apply Pres.ite
  | with_reducible refine Pres.bind ?_ (fun _ => ?_)
  | split)

theorem storeValidate_heap (t : Ty) (ptr : U32) : Pres St.heap (storeValidate t ptr : SM (St σ) Unit) := by
  unfold storeValidate; repeat heap_step
theorem storeInt_heap (v : Val) (ptr n : U32) (b : Bool) : Pres St.heap (storeInt v ptr n b : SM (St σ) Unit) := by
  unfold storeInt; repeat heap_step
theorem storeUInt32_heap (x ptr : U32) : Pres St.heap (storeUInt32 x ptr : SM (St σ) Unit) := by
  unfold storeUInt32; repeat heap_step
theorem storeFloat32_heap (v : Val) (ptr : U32) : Pres St.heap (storeFloat32 v ptr : SM (St σ) Unit) := by
  unfold storeFloat32; split
  · exact storeInt_heap ..
  · exact .crash
theorem storeFloat64_heap (v : Val) (ptr : U32) : Pres St.heap (storeFloat64 v ptr : SM (St σ) Unit) := by
  unfold storeFloat64; split
  · exact storeInt_heap ..
  · exact .crash
theorem storeFlags_heap (v : Val) (ptr : U32) (ls : List String) : Pres St.heap (storeFlags v ptr ls : SM (St σ) Unit) := by
  unfold storeFlags; split
  · exact .bind (.lift _) fun _ => storeInt_heap ..
  · exact .crash

/-! ## Strings -/

theorem codec_asks (enc : String) (henc : enc ∈ Spec.encodings) (str : String) (hn : codeUnits enc str < 2 ^ 31)
    (hl : enc = "latin1" → ∀ c ∈ str.toList, c.toNat < 256) :
    ∃ (c : Codec) (bs : List Byte) (tag : Bool), c.enc.encode str = .ok bs ∧
      bs.length = codeUnits enc str * stringUnit enc str ∧ bs.length < 2 ^ 32 ∧ c.alignment = stringAlign enc ∧
      ∀ E : Env σ, E.enc = enc → storeStringIntoRange E str = (do
        let r ← storeStringDynamic E str c
        pure (r.1, TaggedCodeUnits.toU32 ⟨r.2, tag⟩)) := by
  obtain ⟨c, bs, tag, h1, h2, h3, h4, h5, h6, h7⟩ := codec_for (σ := σ) enc henc str hn hl
  have h8 := h7 _ (tagged_roundtrip ⟨BitVec.ofNat 32 (codeUnits enc str), tag⟩ (by
    simp only; rw [toNat_ofNat_lt (by omega)]; exact hn))
  rw [tagged_roundtrip _ (by simp only; rw [toNat_ofNat_lt (by omega)]; exact hn)] at h8
  have hc : c.runeSize = stringUnit enc str ∧ c.alignment = stringAlign enc := by
    simp only [Spec.encodings, List.mem_cons, List.not_mem_nil, or_false] at henc
    rcases henc with rfl | rfl | rfl | rfl | rfl | rfl
    · cases h8; exact ⟨by simp [stringUnit, newUTF8], rfl⟩
    · cases h8; exact ⟨by simp [stringUnit, newUTF16], rfl⟩
    · cases h8; exact ⟨by simp [stringUnit, newUTF16WithEndianess], rfl⟩
    · cases h8; exact ⟨by simp [stringUnit, newUTF16WithEndianess], rfl⟩
    · cases h8; exact ⟨by simp [stringUnit, newLatin1], rfl⟩
    · cases tag with
      | true =>
        cases h8
        have := (h5.1 rfl).2
        refine ⟨?_, rfl⟩
        unfold stringUnit
        rw [if_neg (by
          rintro (h | h | h)
          · exact absurd h (by decide)
          · exact absurd h (by decide)
          · exact this h.2)]
        rfl
      | false =>
        cases h8
        have : ∀ c ∈ str.toList, c.toNat < 256 := by
          apply Classical.byContradiction
          intro h
          exact absurd (h5.2 ⟨rfl, h⟩) (by decide)
        refine ⟨?_, rfl⟩
        unfold stringUnit
        rw [if_pos (.inr (.inr ⟨rfl, this⟩))]
        rfl
  refine ⟨c, bs, tag, h1, by rw [h2, hc.1], ?_, hc.2, h6⟩
  rw [h2]
  rcases h3 with h | h <;> rw [h] <;> omega

section
variable {E : Env σ} {log : σ → List Ask} (hR : Remembers E log)

include hR in
theorem alloc_logs (a n : U32) : Logs log (alloc E a n) [⟨a.toNat, n.toNat⟩] := fun s =>
  ⟨[⟨a.toNat, n.toNat⟩], hR a n s.mem s.heap, List.prefix_rfl, fun _ => rfl⟩

include hR in
theorem storeStringIntoRange_logs (str : String) (henc : E.enc ∈ Spec.encodings) (hn : codeUnits E.enc str < 2 ^ 31)
    (hl : E.enc = "latin1" → ∀ c ∈ str.toList, c.toNat < 256) :
    Logs log (storeStringIntoRange E str) [⟨stringAlign E.enc, codeUnits E.enc str * stringUnit E.enc str⟩] := by
  obtain ⟨c, bs, tag, h1, h2, h3, h4, h5⟩ := codec_asks (σ := σ) E.enc henc str hn hl
  rw [h5 E rfl, ← h2, ← h4]
  refine .before ?_ fun _ => .pure _
  unfold storeStringDynamic
  rw [h1]
  refine .after (.lift _) fun b s s' e => ?_
  obtain rfl : bs = b := Res.ok.inj (Prod.mk.inj e).1
  refine .before ?_ fun _ => by repeat heap_step
  have := alloc_logs hR (BitVec.ofNat 32 c.alignment) (BitVec.ofNat 32 bs.length)
  rwa [toNat_ofNat_lt h3, toNat_ofNat_lt (by rw [h4, stringAlign]; split <;> omega)] at this

/-! ## Lists -/

omit hR in
theorem storeElems_logs {f : Val → U32 → SM (St σ) Unit} (ptr sz : U32) : (vs : List Val) → (ass : List (List Ask)) →
    (i : Nat) → List.Forall₂ (fun x a => ∀ p, Logs log (f x p) a) vs ass → Logs log (storeElems f ptr sz vs i) ass.flatten
  | [], _, _, h => by
    cases h
    exact .quiet (.pure _)
  | v :: vs, _, i, h => by
    cases h with
    | cons h1 h2 =>
      rw [storeElems, List.flatten_cons]
      exact .bind (h1 _) fun _ _ _ _ => storeElems_logs ptr sz vs _ (i + 1) h2

include hR in
theorem storeListIntoRange_logs {f : Val → U32 → SM (St σ) Unit} {t : Ty} {vs : List Val} {ass : List (List Ask)}
    (h : List.Forall₂ (fun x a => ∀ p, Logs log (f x p) a) vs ass) (hf : vs.length * Spec.size t < 2 ^ 32) :
    Logs log (storeListIntoRange E f t (.list vs)) (⟨align t, vs.length * Spec.size t⟩ :: ass.flatten) := by
  unfold storeListIntoRange
  refine .after (.lift _) fun z s s' e => ?_
  have hz : Abi.size t = .ok z := (Prod.mk.inj e).1
  have hL := laid_of_size t z hz
  refine .after (.lift _) fun a s s' e => ?_
  have ha : alignment t = .ok a := (Prod.mk.inj e).1
  rw [alignment_eq t hL] at ha
  obtain rfl := Res.ok.inj ha
  have hn : (BitVec.ofNat 32 (vs.length * z.toNat)).toNat = vs.length * Spec.size t := by
    rcases Nat.eq_zero_or_pos vs.length with h0 | h0
    · rw [h0]; simp
    · have h1 : Spec.size t < 2 ^ 32 := Nat.lt_of_le_of_lt (Nat.le_mul_of_pos_left _ h0) hf
      rw [size_eq t hL h1] at hz
      obtain rfl := Res.ok.inj hz
      rw [toNat_ofNat_lt h1, toNat_ofNat_lt hf]
  have hA : (BitVec.ofNat 32 (align t)).toNat = align t :=
    toNat_ofNat_lt (by rcases align_isAl t with h | h | h | h <;> rw [h] <;> omega)
  have := alloc_logs hR (BitVec.ofNat 32 (align t)) (BitVec.ofNat 32 (vs.length * z.toNat))
  rw [hn, hA] at this
  refine .bind this fun p _ _ _ => .ite (fun _ => .fail _) fun _ => .after .get fun _ _ _ _ => .ite (fun _ => .fail _) fun _ => ?_
  exact .before (storeElems_logs _ _ _ _ _ h) fun _ => .pure _

include hR in
theorem storeList_logs {f : Val → U32 → SM (St σ) Unit} {t : Ty} {vs : List Val} {ass : List (List Ask)}
    (h : List.Forall₂ (fun x a => ∀ p, Logs log (f x p) a) vs ass) (hf : vs.length * Spec.size t < 2 ^ 32) (ptr : U32) :
    Logs log (storeList E f t (.list vs) ptr) (⟨align t, vs.length * Spec.size t⟩ :: ass.flatten) := by
  unfold storeList
  exact .before (storeListIntoRange_logs hR h hf) fun _ => .bind (storeUInt32_heap ..) fun _ => storeUInt32_heap ..

omit hR in
theorem each_logs {t : Ty} {g : Val → List Ask → Prop} {enc : String} (ih : ∀ x a, Asks enc t x a → ListsFit t x →
    StringsFit enc t x → g x a) {vs : List Val} {ass : List (List Ask)} (h : List.Forall₂ (fun x a => Asks enc t x a) vs ass)
    (hl : ∀ x ∈ vs, ListsFit t x) (hs : ∀ x ∈ vs, StringsFit enc t x) : List.Forall₂ g vs ass := by
  induction h with
  | nil => exact .nil
  | cons h _ ihh =>
    exact .cons (ih _ _ h (hl _ List.mem_cons_self) (hs _ List.mem_cons_self))
      (ihh (fun x hx => hl x (List.mem_cons_of_mem _ hx)) fun x hx => hs x (List.mem_cons_of_mem _ hx))

/-! ## Every type -/

variable (henc : E.enc ∈ Spec.encodings)
include hR henc

mutual
/-- Storing a value asks for its blocks. -/
theorem store_logs : (t : Ty) → (v : Val) → (as : List Ask) → Asks E.enc t v as → ListsFit t v → StringsFit E.enc t v →
    (ptr : U32) → Logs log (store E t v ptr) as
  | .bool, v, as, h, _, _, ptr => by
    rw [Asks] at h
    · subst h
      unfold store
      refine .quiet (.bind (storeValidate_heap ..) fun _ => ?_)
      split
      · exact storeInt_heap ..
      · exact .fail
    all_goals simp
  | .u8, v, as, h, _, _, ptr | .u16, v, as, h, _, _, ptr | .u32, v, as, h, _, _, ptr | .u64, v, as, h, _, _, ptr
  | .s8, v, as, h, _, _, ptr | .s16, v, as, h, _, _, ptr | .s32, v, as, h, _, _, ptr | .s64, v, as, h, _, _, ptr => by
    rw [Asks] at h
    · subst h
      unfold store
      exact .quiet (.bind (storeValidate_heap ..) fun _ => storeInt_heap ..)
    all_goals simp
  | .f32, v, as, h, _, _, ptr => by
    rw [Asks] at h
    · subst h
      unfold store
      exact .quiet (.bind (storeValidate_heap ..) fun _ => storeFloat32_heap ..)
    all_goals simp
  | .f64, v, as, h, _, _, ptr => by
    rw [Asks] at h
    · subst h
      unfold store
      exact .quiet (.bind (storeValidate_heap ..) fun _ => storeFloat64_heap ..)
    all_goals simp
  | .char, v, as, h, _, _, ptr => by
    rw [Asks] at h
    · subst h
      unfold store
      refine .quiet (.bind (storeValidate_heap ..) fun _ => ?_)
      split
      · exact storeInt_heap ..
      · exact .fail
    all_goals simp
  | .flags ls, v, as, h, _, _, ptr => by
    rw [Asks] at h
    · subst h
      unfold store
      exact .quiet (.bind (storeValidate_heap ..) fun _ => storeFlags_heap ..)
    all_goals simp
  | .own _, v, as, h, _, _, ptr | .borrow _, v, as, h, _, _, ptr | .nil, v, as, h, _, _, ptr
  | .other, v, as, h, _, _, ptr => by
    unfold store
    exact .after (storeValidate_heap ..) fun _ _ _ _ => .fail _
  | .string, v, as, h, _, hs, ptr => by
    rw [Asks] at h
    obtain ⟨str, rfl, rfl⟩ := h
    rw [StringsFit] at hs
    obtain ⟨h1, h2⟩ := hs str rfl
    unfold store
    refine .after (storeValidate_heap ..) fun _ _ _ _ => ?_
    unfold storeString
    exact .before (storeStringIntoRange_logs hR str henc h1 h2) fun _ => .bind (storeUInt32_heap ..) fun _ => storeUInt32_heap ..
  | .list t, v, as, h, hl, hs, ptr => by
    rw [Asks] at h
    obtain ⟨vs, ass, rfl, h1, rfl⟩ := h
    rw [ListsFit] at hl
    rw [StringsFit] at hs
    obtain ⟨-, l2, l3⟩ := hl vs rfl
    unfold store
    refine .after (storeValidate_heap ..) fun _ _ _ _ => ?_
    exact storeList_logs hR (each_logs (fun x a h1 h2 h3 => store_logs t x a h1 h2 h3) h1 l3 (hs vs rfl)) l2 ptr
  | .record fs, v, as, h, hl, hs, ptr => by
    rw [Asks] at h
    obtain ⟨m, rfl, h1⟩ := h
    rw [ListsFit] at hl
    rw [StringsFit] at hs
    unfold store
    exact .after (storeValidate_heap ..) fun _ _ _ _ => storeFields_logs fs m as h1 (hl m rfl) (hs m rfl) ptr
  | .variant cs, v, as, h, hl, hs, ptr => by
    rw [Asks] at h
    obtain ⟨key, p, i, rfl, h1, h2⟩ := h
    rw [ListsFit] at hl
    rw [StringsFit] at hs
    unfold store
    refine .after (storeValidate_heap ..) fun _ _ _ _ => .after (.lift _) fun r s s' e1 => .after (.lift _) fun d _ _ e2 =>
      .after (.lift _) fun z _ _ _ => .after (storeInt_heap ..) fun _ _ _ _ => .after (.lift _) fun a _ _ _ => ?_
    have hm : matchCase (.map [(key, p)]) cs = .ok r := (Prod.mk.inj e1).1
    have hd : discriminantType cs.length = .ok d := (Prod.mk.inj e2).1
    obtain ⟨key', e, hsel⟩ := (matchCase_ok _ cs (discriminantType_lt hd) r.1 r.2).1 hm
    simp only [Val.map.injEq, List.cons.injEq, Prod.mk.injEq, and_true] at e
    obtain ⟨rfl, e⟩ := e
    rw [← e, ← h1.unique hsel]
    exact storeCase_logs cs i p as h2 (hl key p i rfl h1) (hs key p i rfl h1) _
theorem storeFields_logs : (fs : Fields) → (m : List (String × Val)) → (as : List Ask) → AsksFields E.enc fs m as →
    ListsFitFields fs m → StringsFitFields E.enc fs m → (ptr : U32) → Logs log (storeFields E fs m ptr) as
  | .nil, m, as, h, _, _, ptr => by
    rw [AsksFields] at h
    subst h
    unfold storeFields
    exact .quiet (.pure _)
  | .cons l t fs, m, as, h, hl, hs, ptr => by
    rw [AsksFields] at h
    obtain ⟨a, b, h1, h2, rfl⟩ := h
    rw [ListsFitFields] at hl
    rw [StringsFitFields] at hs
    unfold storeFields
    exact .after (.lift _) fun _ _ _ _ => .bind (store_logs t _ a h1 hl.1 hs.1 _) fun _ _ _ _ =>
      .after (.lift _) fun _ _ _ _ => storeFields_logs fs m b h2 hl.2 hs.2 _
theorem storeCase_logs : (cs : Cases) → (i : Nat) → (p : Val) → (as : List Ask) → AsksPayload E.enc cs i p as →
    ListsFitPayload cs i p → StringsFitPayload E.enc cs i p → (ptr : U32) → Logs log (storeCase E cs i p ptr) as
  | .nil, _, _, _, h, _, _, _ => by simp [AsksPayload] at h
  | .cons l t r cs, 0, p, as, h, hl, hs, ptr => by
    rw [AsksPayload] at h
    rw [ListsFitPayload] at hl
    rw [StringsFitPayload] at hs
    unfold storeCase
    rcases h with ⟨e, rfl⟩ | ⟨e, h⟩
    · rw [if_pos e]; exact .quiet (.pure _)
    · rw [if_neg e]; exact store_logs t p as h hl hs ptr
  | .cons l t r cs, i + 1, p, as, h, hl, hs, ptr => by
    rw [AsksPayload] at h
    rw [ListsFitPayload] at hl
    rw [StringsFitPayload] at hs
    unfold storeCase
    exact storeCase_logs cs i p as h hl hs ptr
end

mutual
/-- Lowering a value asks for its blocks. -/
theorem lowerFlat_logs : (t : Ty) → (v : Val) → (as : List Ask) → Asks E.enc t v as → ListsFit t v →
    StringsFit E.enc t v → Logs log (lowerFlat E t v) as
  | .bool, v, as, h, _, _ | .u8, v, as, h, _, _ | .u16, v, as, h, _, _ | .u32, v, as, h, _, _ | .u64, v, as, h, _, _
  | .s8, v, as, h, _, _ | .s16, v, as, h, _, _ | .s32, v, as, h, _, _ | .s64, v, as, h, _, _ | .f32, v, as, h, _, _
  | .f64, v, as, h, _, _ | .char, v, as, h, _, _ | .flags ls, v, as, h, _, _ | .own _, v, as, h, _, _
  | .borrow _, v, as, h, _, _ | .nil, v, as, h, _, _ | .other, v, as, h, _, _ => by
    rw [Asks] at h
    · subst h
      unfold lowerFlat
      exact .quiet (by repeat heap_step)
    all_goals simp
  | .string, v, as, h, _, hs => by
    rw [Asks] at h
    obtain ⟨str, rfl, rfl⟩ := h
    rw [StringsFit] at hs
    obtain ⟨h1, h2⟩ := hs str rfl
    unfold lowerFlat
    exact .before (storeStringIntoRange_logs hR str henc h1 h2) fun _ => .pure _
  | .list t, v, as, h, hl, hs => by
    rw [Asks] at h
    obtain ⟨vs, ass, rfl, h1, rfl⟩ := h
    rw [ListsFit] at hl
    rw [StringsFit] at hs
    obtain ⟨-, l2, l3⟩ := hl vs rfl
    unfold lowerFlat
    exact .before (storeListIntoRange_logs hR
      (each_logs (fun x a h1 h2 h3 => store_logs hR henc t x a h1 h2 h3) h1 l3 (hs vs rfl)) l2) fun _ => .pure _
  | .record fs, v, as, h, hl, hs => by
    rw [Asks] at h
    obtain ⟨m, rfl, h1⟩ := h
    rw [ListsFit] at hl
    rw [StringsFit] at hs
    unfold lowerFlat
    exact lowerFields_logs fs m as h1 (hl m rfl) (hs m rfl)
  | .variant cs, v, as, h, hl, hs => by
    rw [Asks] at h
    obtain ⟨key, p, i, rfl, h1, h2⟩ := h
    rw [ListsFit] at hl
    rw [StringsFit] at hs
    unfold lowerFlat
    refine .after (.lift _) fun r s s' e1 => .after (.lift _) fun fts _ _ e2 => ?_
    have hm : matchCase (.map [(key, p)]) cs = .ok r := (Prod.mk.inj e1).1
    obtain ⟨key', e, hsel⟩ := (matchCase_ok _ cs (flatten_variant_lt (Prod.mk.inj e2).1) r.1 r.2).1 hm
    simp only [Val.map.injEq, List.cons.injEq, Prod.mk.injEq, and_true] at e
    obtain ⟨rfl, e⟩ := e
    split
    · exact .fail _
    · refine .ite (fun _ => .fail _) fun _ => .before ?_ fun _ => by repeat heap_step
      rw [← e, ← h1.unique hsel]
      exact lowerCase_logs cs i p as h2 (hl key p i rfl h1) (hs key p i rfl h1)
theorem lowerFields_logs : (fs : Fields) → (m : List (String × Val)) → (as : List Ask) → AsksFields E.enc fs m as →
    ListsFitFields fs m → StringsFitFields E.enc fs m → Logs log (lowerFields E fs m) as
  | .nil, m, as, h, _, _ => by
    rw [AsksFields] at h
    subst h
    unfold lowerFields
    exact .quiet (.pure _)
  | .cons l t fs, m, as, h, hl, hs => by
    rw [AsksFields] at h
    obtain ⟨a, b, h1, h2, rfl⟩ := h
    rw [ListsFitFields] at hl
    rw [StringsFitFields] at hs
    unfold lowerFields
    exact .bind (lowerFlat_logs t _ a h1 hl.1 hs.1) fun _ _ _ _ =>
      .before (lowerFields_logs fs m b h2 hl.2 hs.2) fun _ => .pure _
theorem lowerCase_logs : (cs : Cases) → (i : Nat) → (p : Val) → (as : List Ask) → AsksPayload E.enc cs i p as →
    ListsFitPayload cs i p → StringsFitPayload E.enc cs i p → Logs log (lowerCase E cs i p) as
  | .nil, _, _, _, h, _, _ => by simp [AsksPayload] at h
  | .cons l t r cs, 0, p, as, h, hl, hs => by
    rw [AsksPayload] at h
    rw [ListsFitPayload] at hl
    rw [StringsFitPayload] at hs
    unfold lowerCase
    rcases h with ⟨e, rfl⟩ | ⟨e, h⟩
    · rw [if_pos e]; exact .quiet (.pure _)
    · rw [if_neg e]; exact lowerFlat_logs t p as h hl hs
  | .cons l t r cs, i + 1, p, as, h, hl, hs => by
    rw [AsksPayload] at h
    rw [ListsFitPayload] at hl
    rw [StringsFitPayload] at hs
    unfold lowerCase
    exact lowerCase_logs cs i p as h hl hs
end
end

/-! ## The blocks of a value exist and are determined -/

mutual
theorem asks_exists (enc : String) : (t : Ty) → (v : Val) → HasType t v → ∃ as, Asks enc t v as
  | .bool, v, _ | .u8, v, _ | .u16, v, _ | .u32, v, _ | .u64, v, _ | .s8, v, _ | .s16, v, _ | .s32, v, _ | .s64, v, _
  | .f32, v, _ | .f64, v, _ | .char, v, _ | .flags _, v, _ | .own _, v, _ | .borrow _, v, _ | .nil, v, _
  | .other, v, _ => ⟨[], by simp [Asks]⟩
  | .string, v, h => by
    rw [HasType] at h
    obtain ⟨s, rfl⟩ := h
    exact ⟨_, by rw [Asks]; exact ⟨s, rfl, rfl⟩⟩
  | .list t, v, h => by
    rw [HasType] at h
    obtain ⟨vs, rfl, h⟩ := h
    have : ∃ ass, List.Forall₂ (fun x a => Asks enc t x a) vs ass := by
      induction vs with
      | nil => exact ⟨[], .nil⟩
      | cons x xs ih =>
        obtain ⟨a, ha⟩ := asks_exists enc t x (h x List.mem_cons_self)
        obtain ⟨ass, hs⟩ := ih fun y hy => h y (List.mem_cons_of_mem _ hy)
        exact ⟨a :: ass, .cons ha hs⟩
    obtain ⟨ass, h1⟩ := this
    exact ⟨_, by rw [Asks]; exact ⟨vs, ass, rfl, h1, rfl⟩⟩
  | .record fs, v, h => by
    rw [HasType] at h
    obtain ⟨m, rfl, h⟩ := h
    obtain ⟨as, h1⟩ := asksFields_exists enc fs m h
    exact ⟨as, by rw [Asks]; exact ⟨m, rfl, h1⟩⟩
  | .variant cs, v, h => by
    rw [HasType] at h
    obtain ⟨key, p, i, rfl, h1, h2⟩ := h
    obtain ⟨as, h3⟩ := asksPayload_exists enc cs i p h2
    exact ⟨as, by rw [Asks]; exact ⟨key, p, i, rfl, h1, h3⟩⟩
theorem asksFields_exists (enc : String) : (fs : Fields) → (m : List (String × Val)) → HasFields fs m →
    ∃ as, AsksFields enc fs m as
  | .nil, m, _ => ⟨[], by rw [AsksFields]⟩
  | .cons l t fs, m, h => by
    rw [HasFields] at h
    obtain ⟨a, h1⟩ := asks_exists enc t _ h.1
    obtain ⟨b, h2⟩ := asksFields_exists enc fs m h.2
    exact ⟨a ++ b, by rw [AsksFields]; exact ⟨a, b, h1, h2, rfl⟩⟩
theorem asksPayload_exists (enc : String) : (cs : Cases) → (i : Nat) → (p : Val) → HasPayload cs i p →
    ∃ as, AsksPayload enc cs i p as
  | .nil, _, _, h => by simp [HasPayload] at h
  | .cons l t r cs, 0, p, h => by
    rw [HasPayload] at h
    by_cases e : t = .nil
    · exact ⟨[], by rw [AsksPayload]; exact .inl ⟨e, rfl⟩⟩
    · obtain ⟨as, h1⟩ := asks_exists enc t p (h.resolve_left e)
      exact ⟨as, by rw [AsksPayload]; exact .inr ⟨e, h1⟩⟩
  | .cons l t r cs, i + 1, p, h => by
    rw [HasPayload] at h
    obtain ⟨as, h1⟩ := asksPayload_exists enc cs i p h
    exact ⟨as, by rw [AsksPayload]; exact h1⟩
end

mutual
theorem asks_unique (enc : String) : (t : Ty) → (v : Val) → (a b : List Ask) → Asks enc t v a → Asks enc t v b → a = b
  | .bool, _, _, _, h1, h2 | .u8, _, _, _, h1, h2 | .u16, _, _, _, h1, h2 | .u32, _, _, _, h1, h2
  | .u64, _, _, _, h1, h2 | .s8, _, _, _, h1, h2 | .s16, _, _, _, h1, h2 | .s32, _, _, _, h1, h2
  | .s64, _, _, _, h1, h2 | .f32, _, _, _, h1, h2 | .f64, _, _, _, h1, h2 | .char, _, _, _, h1, h2
  | .own _, _, _, _, h1, h2 | .borrow _, _, _, _, h1, h2 | .flags _, _, _, _, h1, h2 | .nil, _, _, _, h1, h2
  | .other, _, _, _, h1, h2 => by
    simp only [Asks] at h1 h2
    rw [h1, h2]
  | .string, _, _, _, h1, h2 => by
    rw [Asks] at h1 h2
    obtain ⟨x, rfl, rfl⟩ := h1
    obtain ⟨y, e, rfl⟩ := h2
    injection e with e
    rw [e]
  | .list t, _, _, _, h1, h2 => by
    rw [Asks] at h1 h2
    obtain ⟨vs, hss, rfl, h3, rfl⟩ := h1
    obtain ⟨vs', hss', e, h4, rfl⟩ := h2
    injection e with e
    subst e
    congr 2
    induction h3 generalizing hss' with
    | nil => cases h4; rfl
    | cons h _ ih => cases h4 with
      | cons h' h'' => rw [asks_unique enc t _ _ _ h h', ih _ h'']
  | .record fs, _, _, _, h1, h2 => by
    rw [Asks] at h1 h2
    obtain ⟨m, rfl, h3⟩ := h1
    obtain ⟨m', e, h4⟩ := h2
    injection e with e
    subst e
    exact asksFields_unique enc fs _ _ _ h3 h4
  | .variant cs, _, _, _, h1, h2 => by
    rw [Asks] at h1 h2
    obtain ⟨k, p, i, rfl, h3, h4⟩ := h1
    obtain ⟨k', p', i', e, h5, h6⟩ := h2
    simp only [Val.map.injEq, List.cons.injEq, Prod.mk.injEq, and_true] at e
    obtain ⟨rfl, rfl⟩ := e
    obtain rfl := h3.unique h5
    exact asksPayload_unique enc cs _ _ _ _ h4 h6
theorem asksFields_unique (enc : String) : (fs : Fields) → (m : List (String × Val)) → (a b : List Ask) →
    AsksFields enc fs m a → AsksFields enc fs m b → a = b
  | .nil, _, _, _, h1, h2 => by simp only [AsksFields] at h1 h2; rw [h1, h2]
  | .cons l t fs, m, _, _, h1, h2 => by
    rw [AsksFields] at h1 h2
    obtain ⟨a, b, h3, h4, rfl⟩ := h1
    obtain ⟨c, d, h5, h6, rfl⟩ := h2
    rw [asks_unique enc t _ _ _ h3 h5, asksFields_unique enc fs _ _ _ h4 h6]
theorem asksPayload_unique (enc : String) : (cs : Cases) → (i : Nat) → (p : Val) → (a b : List Ask) →
    AsksPayload enc cs i p a → AsksPayload enc cs i p b → a = b
  | .nil, _, _, _, _, h1, _ => by simp [AsksPayload] at h1
  | .cons l t r cs, 0, p, _, _, h1, h2 => by
    rw [AsksPayload] at h1 h2
    rcases h1 with ⟨e, rfl⟩ | ⟨e, h1⟩
    · rcases h2 with ⟨-, rfl⟩ | ⟨e', -⟩
      · rfl
      · exact absurd e e'
    · rcases h2 with ⟨e', -⟩ | ⟨-, h2⟩
      · exact absurd e' e
      · exact asks_unique enc t p _ _ h1 h2
  | .cons l t r cs, i + 1, p, _, _, h1, h2 => by
    rw [AsksPayload] at h1 h2
    exact asksPayload_unique enc cs i p _ _ h1 h2
end

end Verif.Abi
