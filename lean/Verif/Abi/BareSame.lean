import Verif.Abi.BareCall

/-!
# The handles in values that are the same
-/

namespace Verif.Abi
open Spec Handles

variable {σ : Type} {E : Env σ}

theorem same_carried_each {t : Ty} : (vs ws : List Val) → (hss : List (List Held)) → vs.length = ws.length →
    (∀ (i : Nat) a b, vs[i]? = some a → ws[i]? = some b → ∀ hs, Carried t b hs → Carried t a hs) →
    List.Forall₂ (fun x h => Carried t x h) ws hss → List.Forall₂ (fun x h => Carried t x h) vs hss
  | [], [], _, _, _, .nil => .nil
  | v :: vs, w :: ws, _, hl, h, .cons h1 h2 =>
    .cons (h 0 v w rfl rfl _ h1) (same_carried_each vs ws _ (by simpa using hl) (fun i a b ha hb => h (i + 1) a b ha hb) h2)

mutual
/-- The same value has the same handles. -/
theorem same_carried : (t : Ty) → Wf t → (v w : Val) → (hs : List Held) → Same t v w → Carried t w hs → Carried t v hs
  | .bool, _, _, _, _, _, h | .u8, _, _, _, _, _, h | .u16, _, _, _, _, _, h | .u32, _, _, _, _, _, h
  | .u64, _, _, _, _, _, h | .s8, _, _, _, _, _, h | .s16, _, _, _, _, _, h | .s32, _, _, _, _, _, h
  | .s64, _, _, _, _, _, h | .f32, _, _, _, _, _, h | .f64, _, _, _, _, _, h | .char, _, _, _, _, _, h
  | .string, _, _, _, _, _, h | .flags _, _, _, _, _, _, h | .nil, _, _, _, _, _, h | .other, _, _, _, _, _, h => by
    simp only [Carried] at h ⊢
    exact h
  | .own _, _, _, _, _, e, h | .borrow _, _, _, _, _, e, h => by
    simp only [Same] at e
    exact e ▸ h
  | .list t, hw, _, _, hs, e, h => by
    rw [Same] at e
    rw [Wf] at hw
    obtain ⟨vs, ws, rfl, rfl, hl, e⟩ := e
    rw [Carried] at h ⊢
    obtain ⟨_, hss, h0, h1, h2⟩ := h
    cases h0
    exact ⟨vs, hss, rfl, same_carried_each vs ws hss hl
      (fun i a b ha hb hs hc => same_carried t hw.2 a b hs (e i a b ha hb) hc) h1, h2⟩
  | .record fs, hw, _, _, hs, e, h => by
    rw [Same] at e
    rw [Wf] at hw
    obtain ⟨m, n, rfl, rfl, -, e⟩ := e
    rw [Carried] at h ⊢
    obtain ⟨_, h0, h1⟩ := h
    cases h0
    exact ⟨m, rfl, sameFields_carried fs hw.2 m n hs e h1⟩
  | .variant cs, hw, _, _, hs, e, h => by
    rw [Same] at e
    rw [Wf] at hw
    obtain ⟨key, p, i, l, t, r, ls, p', rfl, hk, hg, hc, rfl, e⟩ := e
    rw [Carried] at h ⊢
    obtain ⟨key', q, j, h0, hj, h1⟩ := h
    cases h0
    obtain rfl := hj.unique (chain_selects hw.1 hw.2.1 hg hc)
    exact ⟨key, p, _, rfl, hk, samePayload_carried cs hw.2.2.2 _ p _ hs e h1⟩
theorem sameFields_carried : (fs : Fields) → WfFields fs → (m n : List (String × Val)) → (hs : List Held) →
    SameFields fs m n → CarriedFields fs n hs → CarriedFields fs m hs
  | .nil, _, _, _, _, _, h => by rw [CarriedFields] at h ⊢; exact h
  | .cons l t fs, hw, m, n, hs, e, h => by
    rw [SameFields] at e
    rw [WfFields] at hw
    rw [CarriedFields] at h ⊢
    obtain ⟨a, b, h1, h2, h3⟩ := h
    exact ⟨a, b, same_carried t hw.1 _ _ a e.1 h1, sameFields_carried fs hw.2 m n b e.2 h2, h3⟩
theorem samePayload_carried : (cs : Cases) → WfCases cs → (i : Nat) → (p q : Val) → (hs : List Held) →
    SamePayload cs i p q → CarriedPayload cs i q hs → CarriedPayload cs i p hs
  | .nil, _, _, _, _, _, e, _ => by rw [SamePayload] at e; exact e.elim
  | .cons l t r cs, hw, 0, p, q, hs, e, h => by
    rw [SamePayload] at e
    rw [WfCases] at hw
    rw [CarriedPayload] at h ⊢
    rcases e with ⟨e, -⟩ | ⟨e, e'⟩
    · rcases h with h | h
      · exact .inl h
      · exact absurd e h.1
    · rcases h with h | h
      · exact absurd h.1 e
      · exact .inr ⟨e, same_carried t hw.1 p q hs e' h.2⟩
  | .cons l t r cs, hw, i + 1, p, q, hs, e, h => by
    rw [SamePayload] at e
    rw [WfCases] at hw
    rw [CarriedPayload] at h ⊢
    exact samePayload_carried cs hw.2 i p q hs e h
end

/-- The same values, each with numbers for its handles, have the same handles. -/
theorem swappedAll_same : (ts : List Ty) → (∀ t ∈ ts, Wf t) → (vs us ws xs : List Val) → (hs gs : List Held) →
    (is js : List U32) → SameAll ts vs us → SwappedAll ts vs ws hs is → SwappedAll ts us xs gs js → gs = hs
  | [], _, _, _, _, _, _, _, _, _, _, h1, h2 => by rw [h1.2.2.1, h2.2.2.1]
  | t :: ts, hw, _, _, _, _, _, _, _, _, e, h1, h2 => by
    obtain ⟨x, y, vs, ws, a1, a2, i1, i2, rfl, rfl, g1, g2, rfl, rfl⟩ := h1
    obtain ⟨x', y', us, xs, b1, b2, j1, j2, rfl, rfl, k1, k2, rfl, rfl⟩ := h2
    have hwt := hw t List.mem_cons_self
    rw [carried_unique t x b1 a1 (same_carried t hwt x x' b1 e.1 (swapped_carried t hwt _ _ _ _ k1))
      (swapped_carried t hwt _ _ _ _ g1),
      swappedAll_same ts (fun z hz => hw z (List.mem_cons_of_mem _ hz)) _ _ _ _ _ _ _ _ e.2 g2 k2]

theorem sendsAny_wf {enc : String} : {ts : List Ty} → {vs : List Val} → SendsAny enc ts vs → ∀ t ∈ ts, Wf t
  | _, _, .nil, _, ht => by cases ht
  | _, _, .cons hw _ h, x, hx => by
    rcases List.mem_cons.1 hx with rfl | hx
    · exact hw
    · exact sendsAny_wf h x hx

theorem liftEach_mem : (ts : List Ty) → Pres LSt.mem (liftEach E ts : SM (LSt σ) (List Val))
  | [] => .pure _
  | t :: ts => .bind (liftFlat_mem' E t) fun _ => .bind (liftEach_mem ts) fun _ => .pure _

/-- Lifting leaves every memory as it is. -/
theorem withIter_mems {o : Nat} {it : Iter} {ts : List Ty} {s : Sys σ} :
    (withIter o it (liftEach E ts) s).2.mems = s.mems := by
  have h := (liftEach_mem (E := E) ts).keep ⟨s.view o, it⟩
  have hput : ∀ t : St σ, t.mem = s.mems o → (s.put o t).mems = s.mems := by
    intro t ht
    unfold Sys.put
    simp only [ht, upd_self]
  unfold withIter
  rcases e : liftEach E ts ⟨s.view o, it⟩ with ⟨q, t⟩
  rw [e] at h
  cases q <;> exact hput _ h

end Verif.Abi
