import Verif.Abi.IsolationSpec
import Verif.Abi.LowerInv
import Verif.Abi.CanonLemmas
import Verif.Abi.AskProps

/-!
# Lemmas: what lowering and lifting several values may write
-/

namespace Verif.Abi
open Spec

variable {σ : Type}

theorem Spec.SameMemories.refl (s : Sys σ) : SameMemories s s := ⟨rfl, rfl⟩
theorem Spec.SameMemories.trans {s t u : Sys σ} (h1 : SameMemories s t) (h2 : SameMemories t u) : SameMemories s u :=
  ⟨h2.1.trans h1.1, h2.2.trans h1.2⟩
theorem Spec.SameMemories.elsewhere {s t : Sys σ} (o : Nat) (h : SameMemories s t) : Elsewhere o s t :=
  ⟨fun _ _ => by rw [h.1], fun _ _ => by rw [h.2]⟩
theorem Spec.SameMemories.kept {s t : Sys σ} (used : σ → Nat → Prop) (o : Nat) (h : SameMemories s t) : Kept used o s t :=
  ⟨fun x hx => by rw [h.1, h.2]; exact ⟨hx, rfl⟩, by rw [h.1]⟩
theorem Spec.Elsewhere.trans {o : Nat} {s t u : Sys σ} (h1 : Elsewhere o s t) (h2 : Elsewhere o t u) : Elsewhere o s u :=
  ⟨fun k hk => (h2.1 k hk).trans (h1.1 k hk), fun k hk => (h2.2 k hk).trans (h1.2 k hk)⟩
theorem Spec.Kept.trans {used : σ → Nat → Prop} {o : Nat} {s t u : Sys σ} (h1 : Kept used o s t) (h2 : Kept used o t u) :
    Kept used o s u :=
  ⟨fun x hx => ⟨(h2.1 x (h1.1 x hx).1).1, (h2.1 x (h1.1 x hx).1).2.trans (h1.1 x hx).2⟩, Nat.le_trans h1.2 h2.2⟩

/-- A step that keeps `R` between the state before and after. -/
def Moves (R : Sys σ → Sys σ → Prop) {α : Type} (m : SM (Sys σ) α) : Prop := ∀ s, R s (m s).2

theorem moves_bind {R : Sys σ → Sys σ → Prop} (ht : ∀ a b c, R a b → R b c → R a c) {α β : Type} {m : SM (Sys σ) α}
    {f : α → SM (Sys σ) β} (h1 : Moves R m) (h2 : ∀ a, Moves R (f a)) : Moves R (m >>= f) := by
  intro s
  have e1 := h1 s
  rw [SM.bind_def]
  rcases hm : m s with ⟨r, t⟩
  rw [hm] at e1
  cases r with
  | ok a => exact ht _ _ _ e1 (h2 a t)
  | err => exact e1
  | panic => exact e1
  | diverge => exact e1

theorem moves_res {R : Sys σ → Sys σ → Prop} (hr : ∀ a, R a a) {α : Type} (r : Res α) : Moves R (SM.lift r : SM (Sys σ) α) :=
  fun s => hr s

theorem withIter_allMems {α : Type} (o : Nat) (it : Iter) {m : SM (LSt σ) α} (h : LTame False m) (s : Sys σ) :
    (withIter o it m s).2.mems = s.mems := by
  obtain ⟨w, e, -⟩ := h ⟨s.view o, it⟩
  have key : (s.put o (m ⟨s.view o, it⟩).2.st).mems = s.mems := by
    rw [e]
    funext x
    by_cases hx : x = o
    · subst hx; exact Sys.put_mems ..
    · exact Sys.put_other _ _ hx
  unfold withIter
  rcases hm : m ⟨s.view o, it⟩ with ⟨r, t⟩
  rw [hm] at key
  cases r <;> exact key

theorem withIter_same {α : Type} (o : Nat) (it : Iter) {m : SM (LSt σ) α} (h : LTame False m) :
    Moves SameMemories (withIter o it m) := fun s => ⟨withIter_allMems o it h s, withIter_heaps o it h s⟩

theorem inMem_elsewhere {α : Type} (o : Nat) (m : SM (St σ) α) : Moves (Elsewhere o) (inMem o m) := fun s =>
  ⟨fun _ hk => Sys.put_other _ _ hk, fun _ hk => Sys.put_heaps_other _ _ hk⟩

theorem Moves.ite {R : Sys σ → Sys σ → Prop} {α : Type} {c : Prop} [Decidable c] {m n : SM (Sys σ) α} (h1 : Moves R m)
    (h2 : Moves R n) : Moves R (if c then m else n) := by split <;> assumption

section
variable {R : Sys σ → Sys σ → Prop} (hr : ∀ a b, SameMemories a b → R a b) (ht : ∀ a b c, R a b → R b c → R a c)
  (E : Env σ) (o : Nat)
include hr ht

theorem lowerValues_moving (hA : ∀ a n, Moves R (inMem o (alloc E a n))) (maxFlat : Nat) (vs : List Val) (ts : List Ty)
    (hL : Moves R (inMem o (lowerEach E ts vs))) (out : Option Iter) : Moves R (lowerValues E o maxFlat vs ts out) := by
  have hl : ∀ {α : Type} (r : Res α), Moves R (SM.lift r : SM (Sys σ) α) := fun r => moves_res (fun _ => hr _ _ (.refl _)) r
  have hp : ∀ {α : Type} (a : α), Moves R (pure a : SM (Sys σ) α) := fun a s => hr _ _ (.refl _)
  have hf : ∀ {α : Type}, Moves R (SM.fail : SM (Sys σ) α) := fun s => hr _ _ (.refl _)
  unfold lowerValues
  refine moves_bind ht (hl _) fun flat => .ite (moves_bind ht hL fun _ => hp _) ?_
  unfold lowerTuple
  refine moves_bind ht (hl _) fun a => moves_bind ht (hl _) fun n => moves_bind ht ?_ fun p => .ite hf ?_
  · cases out with
    | none => exact hA a n
    | some it =>
      exact moves_bind ht (fun s => hr _ _ (withIter_same o it (.imp (.st nextU32_st) id) s)) fun _ => hp _
  · intro s
    rw [SM.bind_get]
    exact Moves.ite hf (hp _) s
end

theorem lowerValues_elsewhere (E : Env σ) (o maxFlat : Nat) (vs : List Val) (ts : List Ty) (out : Option Iter) :
    Moves (Elsewhere o) (lowerValues E o maxFlat vs ts out) :=
  lowerValues_moving (fun _ _ h => h.elsewhere o) (fun _ _ _ h1 h2 => h1.trans h2) E o (fun _ _ => inMem_elsewhere o _) _ _ _
    (inMem_elsewhere o _) _

theorem lowerEach_inv {E : Env σ} {I : Mem → σ → Prop} {A : σ → Nat → Prop} (V : Inv E I A) : (ts : List Ty) →
    (vs : List Val) → FitEach ts vs → (s : St σ) → Keeps I A (lowerEach E ts vs) s
  | [], [], _, s | _ :: _, [], _, s => by unfold lowerEach; exact .pure _ _
  | [], _ :: _, _, s => by unfold lowerEach; exact .crash _
  | t :: ts, v :: vs, h, s => by
    unfold lowerEach
    exact .bind (lowerFlat_inv V t v (h 0 t v rfl rfl) s) fun _ _ _ _ =>
      .bind (lowerEach_inv V ts vs (fun i t v h1 h2 => h (i + 1) t v h1 h2) _) fun _ _ _ _ => .pure _ _

/-- Good memory behind `o` stays good, and what was in use is kept. -/
def GoodKept (used : σ → Nat → Prop) (o : Nat) (s s' : Sys σ) : Prop :=
  Good (s.mems o) → Good (s'.mems o) ∧ Kept used o s s'

theorem GoodKept.same {used : σ → Nat → Prop} {o : Nat} {s t : Sys σ} (h : SameMemories s t) : GoodKept used o s t :=
  fun g => ⟨by rw [h.1]; exact g, h.kept used o⟩

theorem GoodKept.trans {used : σ → Nat → Prop} {o : Nat} {s t u : Sys σ} (h1 : GoodKept used o s t)
    (h2 : GoodKept used o t u) : GoodKept used o s u :=
  fun g => ⟨(h2 (h1 g).1).1, (h1 g).2.trans (h2 (h1 g).1).2⟩

section
variable {E : Env σ} {used : σ → Nat → Prop} (G : GoodAlloc E used)
include G

theorem inv_len (n0 : Nat) : Inv E (fun m _ => Good m ∧ n0 ≤ m.len) (fun _ _ => True) := by
  refine ⟨fun m h p bs h1 _ => h1, fun a n m h ⟨h1, h2⟩ => ⟨?_, fun _ _ => trivial, fun _ _ _ _ => trivial⟩⟩
  obtain ⟨g1, g2, g3⟩ := G.grows a n m h h1.1 h1.2
  exact ⟨⟨g2, g3⟩, by omega⟩

theorem inv_byte (x : Nat) (b : Byte) : Inv E (fun m h => Good m ∧ used h x ∧ m.data x = b) (fun _ y => y ≠ x) := by
  refine ⟨fun m h p bs ⟨h1, h2, h3⟩ h4 => ⟨h1, h2, ?_⟩, fun a n m h ⟨h1, h2, h3⟩ => ⟨⟨?_, ?_, ?_⟩, fun _ hy => hy, ?_⟩⟩
  · rw [Mem.write_out _ _ _ _ (fun ⟨c1, c2⟩ => h4 x c1 c2 rfl), h3]
  · exact (G.grows a n m h h1.1 h1.2).2
  · exact (G.keeps a n m h x h2).1
  · rw [(G.keeps a n m h x h2).2, h3]
  · rintro p hp y ⟨i, hi, rfl⟩ e
    have hp' : E.realloc a n (m, h) = (.ok p, ((E.realloc a n (m, h)).2.1, (E.realloc a n (m, h)).2.2)) := by
      rw [← hp]
    obtain ⟨-, b2, b3⟩ := G.block a n m h p _ _ hp' h1.1 h1.2
    have := (G.grows a n m h h1.1 h1.2).2.1
    rw [Nat.mod_eq_of_lt (by omega)] at e
    exact (b3 x (by omega) (by omega)).1 h2

theorem inMem_kept {α : Type} (o : Nat) (m : SM (St σ) α)
    (h : ∀ (I : Mem → σ → Prop) (A : σ → Nat → Prop), Inv E I A → ∀ s, Keeps I A m s) : Moves (GoodKept used o) (inMem o m) := by
  intro s g
  have k1 := (h _ _ (inv_len G (s.mems o).len) (s.view o) ⟨g, Nat.le_refl _⟩).1
  have e1 : (inMem o m s).2.mems o = (m (s.view o)).2.mem := Sys.put_mems ..
  have e2 : (inMem o m s).2.heaps o = (m (s.view o)).2.heap := Sys.put_heaps ..
  refine ⟨by rw [e1]; exact k1.1, fun x hx => ?_, by rw [e1]; exact k1.2⟩
  have k2 := (h _ _ (inv_byte G x ((s.mems o).data x)) (s.view o) ⟨g, hx, rfl⟩).1
  rw [e1, e2]
  exact k2.2

theorem lowerValues_kept (o maxFlat : Nat) (vs : List Val) (ts : List Ty) (hf : FitEach ts vs) (out : Option Iter) :
    Moves (GoodKept used o) (lowerValues E o maxFlat vs ts out) :=
  lowerValues_moving (fun _ _ => .same) (fun _ _ _ => .trans) E o
    (fun a n => inMem_kept G o _ fun _ _ V s => alloc_keeps V a n s)
    _ _ _ (inMem_kept G o _ fun _ _ V s => lowerEach_inv V ts vs hf s) _

end

end Verif.Abi
