import Verif.Collections.Model

/-!
# Properties of `Select` and the stack (C59, C60)
-/

namespace Verif.Collections

variable {α β S : Type}

/-! ## C60 -/

/-- The transform applied to the elements in order, each succeeding: the results and the state at the end. -/
inductive Applies (f : α → SM S β) : List α → S → List β → S → Prop
  | nil (s : S) : Applies f [] s [] s
  | cons {x xs s y s1 ys s2} : f x s = (.ok y, s1) → Applies f xs s1 ys s2 → Applies f (x :: xs) s (y :: ys) s2

/-- C60. `Select` succeeds exactly if the transform does on every element in turn, and returns the results in order. -/
theorem select_ok (f : α → SM S β) (xs : List α) (s : S) (ys : List β) (s' : S) :
    select f xs s = (.ok ys, s') ↔ Applies f xs s ys s' := by
  induction xs generalizing s ys with
  | nil =>
    simp only [select, SM.pure_def, Prod.mk.injEq, Res.ok.injEq]
    constructor
    · rintro ⟨rfl, rfl⟩; exact .nil s
    · intro h; cases h; exact ⟨rfl, rfl⟩
  | cons x xs ih =>
    rw [select, SM.bind_eq_ok]
    constructor
    · rintro ⟨y, s1, h1, h2⟩
      obtain ⟨zs, s2, h3, h4⟩ := SM.bind_eq_ok.1 h2
      simp only [SM.pure_def, Prod.mk.injEq, Res.ok.injEq] at h4
      obtain ⟨rfl, rfl⟩ := h4
      exact .cons h1 ((ih _ _).1 h3)
    · intro h
      cases h with
      | @cons _ _ _ y s1 zs _ h1 h2 =>
        refine ⟨y, s1, h1, ?_⟩
        rw [SM.bind_ok ((ih _ _).2 h2)]
        rfl

/-- C60. It fails exactly if the transform fails on some element after succeeding on all before it; later elements are
not transformed, since the state is the one left by that call. -/
theorem select_err (f : α → SM S β) (xs : List α) (s s' : S) :
    select f xs s = (.err, s') ↔
      ∃ pre x post ys s1, xs = pre ++ x :: post ∧ Applies f pre s ys s1 ∧ f x s1 = (.err, s') := by
  induction xs generalizing s with
  | nil =>
    simp only [select, SM.pure_def]
    constructor
    · intro h; simp at h
    · rintro ⟨pre, x, post, ys, s1, h, -⟩; simp at h
  | cons x xs ih =>
    rw [select, SM.bind_def]
    rcases h : f x s with ⟨r, s1⟩
    constructor
    · intro e
      cases r with
      | ok y =>
        simp only at e
        rw [SM.bind_def] at e
        rcases h2 : select f xs s1 with ⟨r2, s2⟩
        rw [h2] at e
        cases r2 with
        | ok zs => simp at e
        | err =>
          simp only [Prod.mk.injEq, true_and] at e
          subst e
          obtain ⟨pre, z, post, ys, s3, rfl, h3, h4⟩ := (ih s1).1 h2
          exact ⟨x :: pre, z, post, y :: ys, s3, rfl, .cons h h3, h4⟩
        | panic => simp at e
        | diverge => simp at e
      | err =>
        simp only [Prod.mk.injEq, true_and] at e
        subst e
        exact ⟨[], x, xs, [], s, rfl, .nil s, h⟩
      | panic => simp at e
      | diverge => simp at e
    · rintro ⟨pre, z, post, ys, s3, e, h3, h4⟩
      cases h3 with
      | nil =>
        simp only [List.nil_append, List.cons.injEq] at e
        obtain ⟨rfl, rfl⟩ := e
        rw [h4] at h
        simp only [Prod.mk.injEq] at h
        obtain ⟨rfl, rfl⟩ := h
        rfl
      | @cons x' pre _ y s4 ys _ h5 h6 =>
        simp only [List.cons_append, List.cons.injEq] at e
        obtain ⟨rfl, rfl⟩ := e
        rw [h5] at h
        simp only [Prod.mk.injEq] at h
        obtain ⟨rfl, rfl⟩ := h
        show (select f (pre ++ z :: post) >>= fun ys => pure (y :: ys)) s4 = _
        exact SM.bind_err ((ih s4).2 ⟨pre, z, post, ys, s3, rfl, h6, h4⟩)

/-- A transform that counts its calls and refuses zero. -/
def exTransform (n : Nat) : SM Nat Nat := do
  SM.modify (· + 1)
  if n = 0 then SM.fail else pure (n * 2)

example : Applies exTransform [1, 2] 0 [2, 4] 2 ∧ exTransform 0 2 = (.err, 3) ∧ select exTransform [1, 2, 0, 5, 6] 0 = (.err, 3) :=
  ⟨.cons rfl (.cons rfl (.nil _)), rfl, rfl⟩

/-! ## C59 -/

/-- An operation on a stack. -/
inductive Op (α : Type) where
  | push (x : α)
  | pop

/-- A mathematical stack, top first; what every `Pop` answers, in order. -/
def run (stack : List α) : List (Op α) → List α × List (Option α)
  | [] => (stack, [])
  | .push x :: ops => run (x :: stack) ops
  | .pop :: ops => ((run stack.tail ops).1, stack.head? :: (run stack.tail ops).2)

/-- The same operations with the code, always going on with the slice returned last. -/
def runCode (grow : Nat → Nat) (h : Heap α) (s : Slice) : List (Op α) → (Heap α × Slice) × List (Option α)
  | [] => ((h, s), [])
  | .push x :: ops => runCode grow (push grow h s x).1 (push grow h s x).2 ops
  | .pop :: ops =>
    let r := runCode grow h (pop h s).1 ops
    (r.1, (pop h s).2 :: r.2)

theorem view_push (grow : Nat → Nat) (h : Heap α) (s : Slice) (x : α) :
    (push grow h s x).1.view (push grow h s x).2 = h.view s ++ [x] := by
  unfold push append
  split
  · simp only [Heap.view, List.range_succ, List.map_append, List.map_cons, List.map_nil, and_self, if_true]
    congr 1
    refine List.map_congr_left fun i hi => ?_
    rw [List.mem_range] at hi
    rw [if_neg (by omega)]
  · simp only [Heap.view, List.range_succ, List.map_append, List.map_cons, List.map_nil, if_true]
    congr 1
    refine List.map_congr_left fun i hi => ?_
    rw [List.mem_range] at hi
    rw [if_neg (by omega)]

theorem view_pop (h : Heap α) (s : Slice) :
    h.view (pop h s).1 = (h.view s).dropLast ∧ (pop h s).2 = (h.view s).getLast? := by
  unfold pop
  split
  · rename_i e; simp [Heap.view, e]
  · rename_i e
    obtain ⟨n, hn⟩ := Nat.exists_eq_succ_of_ne_zero e
    simp [Heap.view, hn, List.range_succ]

/-- C59. Starting with any slice, every sequence of `Push` and `Pop` answers as a mathematical stack does and leaves its
elements, oldest first. -/
theorem stack_lifo (grow : Nat → Nat) (h : Heap α) (s : Slice) (ops : List (Op α)) :
    (runCode grow h s ops).2 = (run (h.view s).reverse ops).2 ∧
    (runCode grow h s ops).1.1.view (runCode grow h s ops).1.2 = (run (h.view s).reverse ops).1.reverse := by
  induction ops generalizing h s with
  | nil => simp [runCode, run]
  | cons o ops ih =>
    cases o with
    | push x =>
      simp only [runCode, run]
      have := ih (push grow h s x).1 (push grow h s x).2
      rw [view_push] at this
      simpa using this
    | pop =>
      simp only [runCode, run]
      obtain ⟨h1, h2⟩ := view_pop h s
      have := ih h (pop h s).1
      rw [h1, h2] at *
      have e : (h.view s).dropLast.reverse = (h.view s).reverse.tail := by simp
      rw [e] at this
      exact ⟨by rw [this.1]; simp, this.2⟩

/-- Growing by doubling, from a nil slice. -/
example : (runCode (· * 2) ⟨0, fun _ _ => 0⟩ ⟨0, 0, 0⟩ [.push 1, .push 2, .pop, .push 3, .push 4, .pop, .pop, .pop, .pop]).2 =
    [some 2, some 4, some 3, some 1, none] := by decide

/-- The claim is about going on with the slice returned last. Two pushes on the same popped slice share the array: the
first result changes under the second. -/
theorem push_shares : ∃ (h : Heap Nat) (s : Slice), h.view s = [1] ∧
    let a := push (· * 2) h (pop h s).1 7
    let b := push (· * 2) a.1 (pop h s).1 8
    a.1.view a.2 = [7] ∧ b.1.view a.2 = [8] :=
  ⟨⟨1, fun _ _ => 1⟩, ⟨0, 1, 1⟩, by decide, by decide⟩

end Verif.Collections
