import Verif.Abi.HandleSteps
import Verif.Handles.LedgerProps

/-!
# What sequences of lowered and lifted handles mean, by the books

The books (`Ledger`) describe every history, also one that uses calls after their end. `Entered` and `Left` say what
`Given` and `Taken` say of the state of a valid history, about the books of any history.
-/

namespace Verif.Abi.Spec
open Verif.Handles

/-- Between the two books the instance of `E` got the handles `hs`, at the indices `is`, and nothing else happened to any
handle: each place stood for nothing and now stands for a new handle without loans; only an instance that implements the
resource type of a borrow gets the representation instead; every handle there was is as it was. -/
structure Entered {σ : Type} (E : Env σ) (hs : List Held) (is : List U32) (g g' : Ledger) : Prop where
  length : is.length = hs.length
  new : ∀ p ∈ hs.zip is, Enters E p.1 → g.stands (placeOf E p) = none ∧
    ∃ n, g'.stands (placeOf E p) = some n ∧ g.count ≤ n ∧ g'.handle n = handleOf E p.1 ∧ g'.loans n = 0
  rep : ∀ p ∈ hs.zip is, ¬ Enters E p.1 → p.2 = p.1.rep
  apart : (∀ h ∈ hs, Enters E h) → ((hs.zip is).map (placeOf E)).Nodup
  differ : ∀ p ∈ hs.zip is, ∀ q ∈ hs.zip is, Enters E p.1 → Enters E q.1 → placeOf E p ≠ placeOf E q →
    g'.stands (placeOf E p) ≠ g'.stands (placeOf E q)
  others : ∀ l, (∀ p ∈ hs.zip is, Enters E p.1 → placeOf E p ≠ l) → g'.stands l = g.stands l
  same : ∀ n, n < g.count → g'.handle n = g.handle n ∧ g'.loans n = g.loans n
  taken : g'.taken = g.taken

/-- The borrowed handles among `hs` that were at index `n` of the books. -/
def lentOf {σ : Type} (E : Env σ) (g : Ledger) (hs : List Held) (is : List U32) (n : Nat) : Nat :=
  (hs.zip is).countP fun p => !p.1.own && g.stands (placeOf E p) == some n

/-- Between the two books the handles `hs` were taken from the instance of `E`, where they had the indices `is`, and
nothing else happened to any handle: each index stood for a handle with that representation, those of the owned ones now
stand for nothing, and each borrowed one has one loan more, taken by the call. -/
structure Left {σ : Type} (E : Env σ) (hs : List Held) (is : List U32) (g g' : Ledger) : Prop where
  length : is.length = hs.length
  had : ∀ p ∈ hs.zip is, ∃ n, g.stands (placeOf E p) = some n ∧ (g.handle n).rep = p.1.rep
  gone : ∀ p ∈ hs.zip is, p.1.own = true → g'.stands (placeOf E p) = none
  others : ∀ l, (∀ p ∈ hs.zip is, p.1.own = true → placeOf E p ≠ l) → g'.stands l = g.stands l
  same : g'.handle = g.handle
  loans : ∀ n, g'.loans n = g.loans n + lentOf E g hs is n
  taken : ∀ c n, (g'.taken c).count n = (g.taken c).count n + if c = E.cx then lentOf E g hs is n else 0

end Verif.Abi.Spec

namespace Verif.Abi
open Spec Handles

variable {σ : Type} {E : Env σ}

/-- One lowered handle, by the books. -/
theorem lower_book {w w1 : World} {g : Ledger} (hQ : Q w g) {h : Held} {i : U32}
    (h1 : step E.info w (lowerOp E h) = (.ok i, w1)) (hf : w1.Fits) (hw : w.Fits) :
    Q w1 (g.next E.info (lowerOp E h) (.ok i)) ∧
    (g.next E.info (lowerOp E h) (.ok i)).taken = g.taken ∧
    g.count ≤ (g.next E.info (lowerOp E h) (.ok i)).count ∧
    (∀ n, n < g.count → (g.next E.info (lowerOp E h) (.ok i)).handle n = g.handle n ∧
      (g.next E.info (lowerOp E h) (.ok i)).loans n = g.loans n) ∧
    (Enters E h → g.stands (placeOf E (h, i)) = none ∧
      (g.next E.info (lowerOp E h) (.ok i)).stands = upd g.stands (placeOf E (h, i)) (some g.count) ∧
      g.count < (g.next E.info (lowerOp E h) (.ok i)).count ∧
      (g.next E.info (lowerOp E h) (.ok i)).handle g.count = handleOf E h ∧
      (g.next E.info (lowerOp E h) (.ok i)).loans g.count = 0) ∧
    (¬ Enters E h → i = h.rep ∧ (g.next E.info (lowerOp E h) (.ok i)).stands = g.stands) := by
  obtain ⟨calls, -, hA, hQ'⟩ := book_step hQ E.info (lowerOp E h) hw fun _ _ _ => by rw [h1]; exact hf
  rw [h1] at hA hQ'
  refine ⟨hQ', ?_⟩
  clear hQ' h1
  have made : ∀ hd : Handle, g.AddAllowed E.inst h.rt (.ok i) → hd = handleOf E h →
      (g.made E.inst h.rt hd (.ok i)).taken = g.taken ∧ g.count ≤ (g.made E.inst h.rt hd (.ok i)).count ∧
      (∀ n, n < g.count → (g.made E.inst h.rt hd (.ok i)).handle n = g.handle n ∧
        (g.made E.inst h.rt hd (.ok i)).loans n = g.loans n) ∧
      (g.stands (placeOf E (h, i)) = none ∧
        (g.made E.inst h.rt hd (.ok i)).stands = upd g.stands (placeOf E (h, i)) (some g.count) ∧
        g.count < (g.made E.inst h.rt hd (.ok i)).count ∧
        (g.made E.inst h.rt hd (.ok i)).handle g.count = handleOf E h ∧
        (g.made E.inst h.rt hd (.ok i)).loans g.count = 0) := by
    intro hd ha he
    obtain ⟨q1, q2, q3, q4, q5, -⟩ := hold_eqs { g with
      handle := upd g.handle g.count hd, count := g.count + 1, loans := upd g.loans g.count 0,
      stands := upd g.stands ⟨E.inst, h.rt, i⟩ (some g.count) } hd.scope 1
    simp only [Ledger.made]
    rw [q1, q2, q3, q4, q5]
    refine ⟨rfl, Nat.le_succ _, fun n hn => ⟨upd_other _ _ (Nat.ne_of_lt hn), upd_other _ _ (Nat.ne_of_lt hn)⟩, ?_, rfl,
      Nat.lt_succ_self _, ?_, ?_⟩
    · rcases ha with ha | ⟨j, h2, h3⟩
      · cases ha
      · injection h2 with h2
        subst h2; exact h3
    · simp [upd, he]
    · simp [upd]
  unfold lowerOp at hA ⊢
  cases ho : h.own with
  | true =>
    simp only [ho, if_true, Ledger.Allowed, Ledger.next] at hA ⊢
    obtain ⟨m1, m2, m3, m4⟩ := made ⟨h.rep, true, none⟩ hA.2 (by simp [handleOf, ho])
    exact ⟨m1, m2, m3, fun _ => m4, fun hn => absurd (.inl ho) hn⟩
  | false =>
    simp only [ho, Ledger.Allowed, Ledger.next, Bool.false_eq_true, if_false] at hA ⊢
    by_cases hi : E.info.impl h.rt = some E.inst
    · simp only [if_pos hi] at hA ⊢
      refine ⟨trivial, Nat.le_refl _, fun _ _ => ⟨trivial, trivial⟩, fun hn => ?_, fun _ => ⟨?_, trivial⟩⟩
      · rcases hn with hn | hn
        · rw [ho] at hn; cases hn
        · exact absurd hi hn
      · obtain ⟨-, h2⟩ := hA
        injection h2
    · simp only [if_neg hi] at hA ⊢
      obtain ⟨m1, m2, m3, m4⟩ := made ⟨h.rep, false, some E.cx⟩ hA.2 (by simp [handleOf, ho])
      exact ⟨m1, m2, m3, fun _ => m4, fun hn => absurd (.inr hi) hn⟩

/-- A sequence of lowered handles, by the books. -/
theorem lowers_books {w w' : World} {hs : List Held} {is : List U32} (hL : Lowers E w hs is w') : (g : Ledger) → Q w g →
    w'.Fits → (a : State) → (run E.info w a (hs.map (lowerOp E))).1 = w' ∧
    Entered E hs is g (booksFrom E.info w g (hs.map (lowerOp E))) ∧
    g.count ≤ (booksFrom E.info w g (hs.map (lowerOp E))).count := by
  induction hL with
  | nil w =>
    intro g _ _ a
    refine ⟨rfl, ⟨rfl, ?_, ?_, ?_, ?_, fun _ _ => rfl, fun _ _ => ⟨rfl, rfl⟩, rfl⟩, Nat.le_refl _⟩ <;> simp
  | @cons w w1 w2 h i hs is h1 hL' ih =>
    intro g hQ hf a
    have hw1 := lowers_fits hL' hf
    have hw := lowers_fits (.cons h1 hL') hf
    obtain ⟨k1, k2, k3, k4, k5, k6⟩ := lower_book hQ h1 hw1 hw
    obtain ⟨r1, ⟨g1, g2, g3, g4, g8, g5, g6, g7⟩, r2⟩ := ih _ k1 hf (a.next E.info (lowerOp E h) (.ok i))
    have e : run E.info w a ((h :: hs).map (lowerOp E)) =
        run E.info w1 (a.next E.info (lowerOp E h) (.ok i)) (hs.map (lowerOp E)) := by
      rw [List.map_cons, run, h1]
    have e' : booksFrom E.info w g ((h :: hs).map (lowerOp E)) =
        booksFrom E.info w1 (g.next E.info (lowerOp E h) (.ok i)) (hs.map (lowerOp E)) := by
      rw [List.map_cons, booksFrom, h1]
    rw [e, e']
    have old : ∀ l, (g.next E.info (lowerOp E h) (.ok i)).stands l = none → g.stands l = none := by
      intro l hl
      by_cases he : Enters E h
      · rw [(k5 he).2.1] at hl
        by_cases hpl : l = placeOf E (h, i)
        · rw [hpl]; exact (k5 he).1
        · rw [upd_other _ _ hpl] at hl; exact hl
      · rw [(k6 he).2] at hl; exact hl
    have fresh : Enters E h → ∀ p ∈ hs.zip is, Enters E p.1 → placeOf E p ≠ placeOf E (h, i) := by
      intro he p hp hpe heq
      have := (g2 p hp hpe).1
      rw [(k5 he).2.1, heq, upd_same] at this
      cases this
    have first : Enters E h → (booksFrom E.info w1 (g.next E.info (lowerOp E h) (.ok i)) (hs.map (lowerOp E))).stands
        (placeOf E (h, i)) = some g.count := by
      intro he
      rw [g5 _ (fresh he), (k5 he).2.1, upd_same]
    have later : Enters E h → ∀ p ∈ hs.zip is, Enters E p.1 →
        (booksFrom E.info w1 (g.next E.info (lowerOp E h) (.ok i)) (hs.map (lowerOp E))).stands (placeOf E p) ≠
          some g.count := by
      intro he p hp hpe heq
      obtain ⟨-, n, l2, l3, -⟩ := g2 p hp hpe
      rw [l2] at heq
      injection heq with heq
      have := (k5 he).2.2.1
      omega
    refine ⟨r1, ⟨by simp [g1], ?_, ?_, ?_, ?_, ?_, ?_, g7.trans k2⟩, Nat.le_trans k3 r2⟩
    · intro p hp he
      rw [List.zip_cons_cons, List.mem_cons] at hp
      rcases hp with rfl | hp
      · obtain ⟨l1, l2, l3, l4, l5⟩ := k5 he
        refine ⟨l1, g.count, ?_, Nat.le_refl _, ?_, ?_⟩
        · rw [g5 _ (fresh he), l2, upd_same]
        · rw [(g6 _ l3).1, l4]
        · rw [(g6 _ l3).2, l5]
      · obtain ⟨l1, n, l2, l3, l4, l5⟩ := g2 p hp he
        exact ⟨old _ l1, n, l2, Nat.le_trans k3 l3, l4, l5⟩
    · intro p hp he
      rw [List.zip_cons_cons, List.mem_cons] at hp
      rcases hp with rfl | hp
      · exact (k6 he).1
      · exact g3 p hp he
    · intro hall
      rw [List.zip_cons_cons, List.map_cons, List.nodup_cons]
      refine ⟨?_, g4 fun x hx => hall x (by simp [hx])⟩
      intro hm
      obtain ⟨p, hp, heq⟩ := List.mem_map.1 hm
      exact fresh (hall h (by simp)) p hp (hall p.1 (by simp [(List.of_mem_zip hp).1])) heq
    · intro p hp q hq hpe hqe hpq
      rw [List.zip_cons_cons, List.mem_cons] at hp hq
      rcases hp with rfl | hp <;> rcases hq with rfl | hq
      · exact absurd rfl hpq
      · rw [first hpe]; exact (later hpe q hq hqe).symm
      · rw [first hqe]; exact later hqe p hp hpe
      · exact g8 p hp q hq hpe hqe hpq
    · intro l hl
      rw [g5 l fun p hp => hl p (by simp [hp])]
      by_cases he : Enters E h
      · rw [(k5 he).2.1, upd_other _ _ (Ne.symm (hl (h, i) (by simp) he))]
      · rw [(k6 he).2]
    · intro n hn
      obtain ⟨l1, l2⟩ := g6 n (Nat.lt_of_lt_of_le hn k3)
      obtain ⟨l3, l4⟩ := k4 n hn
      exact ⟨l1.trans l3, l2.trans l4⟩

/-- One lifted handle, by the books. -/
theorem lift_book {w w1 : World} {g : Ledger} (hQ : Q w g) {h : Held} {i r : U32}
    (h1 : step E.info w (liftOp E h i) = (.ok r, w1)) (hw : w.Fits) :
    Q w1 (g.next E.info (liftOp E h i) (.ok r)) ∧
    (g.next E.info (liftOp E h i) (.ok r)).handle = g.handle ∧
    ∃ n, g.stands (placeOf E (h, i)) = some n ∧ (g.handle n).rep = r ∧
    (h.own = true → (g.next E.info (liftOp E h i) (.ok r)).loans = g.loans ∧
      (g.next E.info (liftOp E h i) (.ok r)).taken = g.taken ∧
      (g.next E.info (liftOp E h i) (.ok r)).stands = upd g.stands (placeOf E (h, i)) none) ∧
    (h.own = false → (g.next E.info (liftOp E h i) (.ok r)).stands = g.stands ∧
      (g.next E.info (liftOp E h i) (.ok r)).loans = upd g.loans n (g.loans n + 1) ∧
      (g.next E.info (liftOp E h i) (.ok r)).taken = upd g.taken E.cx (g.taken E.cx ++ [n])) := by
  obtain ⟨calls, -, hA, hQ'⟩ := book_step hQ E.info (liftOp E h i) hw fun inst rt ha => by
    unfold liftOp at ha
    cases ho : h.own <;> simp [ho, Op.addsTo] at ha
  rw [h1] at hA hQ'
  refine ⟨hQ', ?_⟩
  clear hQ' h1
  unfold liftOp at hA ⊢
  cases ho : h.own with
  | true =>
    simp only [ho, if_true, Ledger.Allowed, Ledger.next] at hA ⊢
    obtain ⟨-, hA⟩ := hA
    rcases hl : g.stands ⟨E.inst, h.rt, i⟩ with _ | n
    · rw [hl] at hA; cases hA
    · rw [hl] at hA
      simp only at hA
      split at hA
      · rename_i hn
        injection hA with hA
        unfold Ledger.removed
        rw [hl]
        simp only [if_pos hn]
        obtain ⟨q1, q2, q3, q4, q5, -⟩ := hold_eqs { g with stands := upd g.stands ⟨E.inst, h.rt, i⟩ none } (g.handle n).scope (-1)
        rw [q1, q2, q4, q5]
        exact ⟨rfl, n, hl, hA.symm, fun _ => ⟨rfl, rfl, rfl⟩, fun h => by cases h⟩
      · cases hA
  | false =>
    simp only [ho, Bool.false_eq_true, if_false, Ledger.Allowed, Ledger.next] at hA ⊢
    obtain ⟨-, hA⟩ := hA
    rcases hl : g.stands ⟨E.inst, h.rt, i⟩ with _ | n
    · rw [hl] at hA; cases hA
    · rw [hl] at hA
      injection hA with hA
      simp only [hl]
      exact ⟨trivial, n, hl, hA.symm, fun h => h.elim, fun _ => ⟨trivial, rfl, rfl⟩⟩

/-- A sequence of lifted handles, by the books. -/
theorem lifts_books {w w' : World} {hs : List Held} {is : List U32} (hL : Lifts E w hs is w') : (g : Ledger) → Q w g →
    w.Fits → (a : State) → (run E.info w a (List.zipWith (liftOp E) hs is)).1 = w' ∧ w'.Fits ∧
    Left E hs is g (booksFrom E.info w g (List.zipWith (liftOp E) hs is)) := by
  induction hL with
  | nil w =>
    intro g _ hf a
    refine ⟨rfl, hf, rfl, ?_, ?_, fun _ _ => rfl, rfl, ?_, ?_⟩ <;> simp [lentOf, booksFrom]
  | @cons w w1 w2 h i hs is h1 hL' ih =>
    intro g hQ hw a
    have hw1 : w1.Fits := by
      have := lift_tables (E := E) E.info w h i hw
      rw [h1] at this; exact this
    obtain ⟨k1, k2, n0, k3, k4, k5, k6⟩ := lift_book hQ h1 hw
    obtain ⟨r1, r2, g1, g2, g3, g4, g5, g6, g7⟩ := ih _ k1 hw1 (a.next E.info (liftOp E h i) (.ok h.rep))
    have e : run E.info w a (List.zipWith (liftOp E) (h :: hs) (i :: is)) =
        run E.info w1 (a.next E.info (liftOp E h i) (.ok h.rep)) (List.zipWith (liftOp E) hs is) := by
      rw [List.zipWith_cons_cons, run, h1]
    have e' : booksFrom E.info w g (List.zipWith (liftOp E) (h :: hs) (i :: is)) =
        booksFrom E.info w1 (g.next E.info (liftOp E h i) (.ok h.rep)) (List.zipWith (liftOp E) hs is) := by
      rw [List.zipWith_cons_cons, booksFrom, h1]
    rw [e, e']
    have keep : ∀ l n, (g.next E.info (liftOp E h i) (.ok h.rep)).stands l = some n → g.stands l = some n := by
      intro l hd hl
      cases ho : h.own with
      | true =>
        rw [(k5 ho).2.2] at hl
        by_cases hpl : l = placeOf E (h, i)
        · rw [hpl, upd_same] at hl; cases hl
        · rw [upd_other _ _ hpl] at hl; exact hl
      | false => rw [(k6 ho).1] at hl; exact hl
    have lent : ∀ n, lentOf E (g.next E.info (liftOp E h i) (.ok h.rep)) hs is n = lentOf E g hs is n := by
      intro n
      unfold lentOf
      refine List.countP_congr fun p hp => ?_
      obtain ⟨m, h2, -⟩ := g2 p hp
      rw [h2, keep _ _ h2]
    have head : ∀ n, lentOf E g (h :: hs) (i :: is) n = lentOf E g hs is n + if h.own = false ∧ n0 = n then 1 else 0 := by
      intro n
      unfold lentOf
      rw [List.zip_cons_cons, List.countP_cons]
      congr 1
      have k3' : g.stands (placeOf E (h, i)) = some n0 := k3
      simp only [k3']
      cases h.own <;> by_cases hn : n0 = n <;> simp [hn]
    refine ⟨r1, r2, by simp [g1], ?_, ?_, ?_, g5.trans k2, ?_, ?_⟩
    · intro p hp
      rw [List.zip_cons_cons, List.mem_cons] at hp
      rcases hp with rfl | hp
      · exact ⟨n0, k3, k4⟩
      · obtain ⟨m, h2, h3⟩ := g2 p hp
        exact ⟨m, keep _ _ h2, by rw [← h3, k2]⟩
    · intro p hp ho
      rw [List.zip_cons_cons, List.mem_cons] at hp
      rcases hp with rfl | hp
      · by_cases hq : ∃ q ∈ hs.zip is, q.1.own = true ∧ placeOf E q = placeOf E (h, i)
        · obtain ⟨q, hq, hqo, heq⟩ := hq
          rw [← heq]; exact g3 q hq hqo
        · rw [g4 _ fun q hq' hqo heq => hq ⟨q, hq', hqo, heq⟩, (k5 ho).2.2, upd_same]
      · exact g3 p hp ho
    · intro l hl
      rw [g4 l fun p hp => hl p (by simp [hp])]
      cases ho : h.own with
      | true => rw [(k5 ho).2.2, upd_other _ _ (Ne.symm (hl (h, i) (by simp) ho))]
      | false => rw [(k6 ho).1]
    · intro n
      rw [g6, lent, head]
      cases ho : h.own with
      | true => rw [(k5 ho).1]; simp
      | false =>
        rw [(k6 ho).2.1]
        by_cases hn : n0 = n
        · subst hn; simp [upd]; omega
        · rw [upd_other _ _ (Ne.symm hn)]; simp [hn]
    · intro c n
      rw [g7, lent, head]
      cases ho : h.own with
      | true => rw [(k5 ho).2.1]; simp
      | false =>
        rw [(k6 ho).2.2]
        by_cases hc : c = E.cx
        · subst hc
          rw [upd_same, List.count_append]
          by_cases hn : n0 = n
          · subst hn; simp; omega
          · simp [hn]
        · rw [upd_other _ _ hc]; simp [hc]

/-- Handles that are there, at different places and without loans, can be lifted. -/
theorem lifts_exist_books : (hs : List Held) → (is : List U32) → hs.length = is.length → (w : World) → (g : Ledger) → Q w g →
    w.Fits → ((hs.zip is).map (placeOf E)).Nodup →
    (∀ p ∈ hs.zip is, ∃ n, g.stands (placeOf E p) = some n ∧ (g.handle n).rep = p.1.rep ∧ (p.1.own = true → g.loans n = 0)) →
    (∀ p ∈ hs.zip is, ∀ q ∈ hs.zip is, p ≠ q → g.stands (placeOf E p) ≠ g.stands (placeOf E q)) →
    ∃ w', Lifts E w hs is w'
  | [], [], _, w, _, _, _, _, _, _ => ⟨w, .nil w⟩
  | h :: hs, i :: is, hlen, w, g, hQ, hw, hn, hlive, hdiff => by
    have hw1 := lift_tables (E := E) E.info w h i hw
    rcases e : step E.info w (liftOp E h i) with ⟨r, w1⟩
    rw [e] at hw1
    obtain ⟨calls, -, hA, -⟩ := book_step hQ E.info (liftOp E h i) hw fun inst rt ha => by
      unfold liftOp at ha
      cases ho : h.own <;> simp [ho, Op.addsTo] at ha
    rw [e] at hA
    obtain ⟨n, l1, l2, l3⟩ := hlive (h, i) (by simp)
    have hr : r = .ok h.rep := by
      unfold liftOp at hA
      have l1' : g.stands ⟨E.inst, h.rt, i⟩ = some n := l1
      cases ho : h.own with
      | true =>
        have l3' := l3 ho
        simp only [ho, if_true, Ledger.Allowed, l1', if_pos l3'] at hA
        rw [hA.2, l2]
      | false =>
        simp only [ho, Bool.false_eq_true, if_false, Ledger.Allowed, l1'] at hA
        rw [hA.2, l2]
    subst hr
    obtain ⟨k1, k2, n', k3, k4, k5, k6⟩ := lift_book hQ e hw
    rw [List.zip_cons_cons, List.map_cons, List.nodup_cons] at hn
    have hne : ∀ p ∈ hs.zip is, placeOf E p ≠ placeOf E (h, i) := fun p hp heq =>
      hn.1 (List.mem_map.2 ⟨p, hp, heq⟩)
    have hst : ∀ p ∈ hs.zip is, (g.next E.info (liftOp E h i) (.ok h.rep)).stands (placeOf E p) = g.stands (placeOf E p) := by
      intro p hp
      cases ho : h.own with
      | true => rw [(k5 ho).2.2, upd_other _ _ (hne p hp)]
      | false => rw [(k6 ho).1]
    obtain ⟨w', hL⟩ := lifts_exist_books hs is (by simpa using hlen) w1 _ k1 hw1 hn.2 (fun p hp => by
        obtain ⟨m, l1, l2, l3⟩ := hlive p (by simp [hp])
        refine ⟨m, by rw [hst p hp]; exact l1, by rw [k2]; exact l2, fun hpo => ?_⟩
        cases ho : h.own with
        | true => rw [(k5 ho).1]; exact l3 hpo
        | false =>
          have : m ≠ n' := by
            intro hmn
            refine hdiff p (by simp [hp]) (h, i) (by simp) (fun hpe => hne p hp (by rw [hpe])) ?_
            rw [l1, k3, hmn]
          rw [(k6 ho).2.1, upd_other _ _ this]; exact l3 hpo)
      (fun p hp q hq hpq => by
        rw [hst p hp, hst q hq]
        exact hdiff p (by simp [hp]) q (by simp [hq]) hpq)
    exact ⟨w', .cons e hL⟩

/-- From the beginning. -/
theorem lowers_books_history (ops : List Op) {hs : List Held} {is : List U32} {w' : World}
    (hL : Lowers E (World.after E.info ops) hs is w') (hf : w'.Fits) :
    w' = World.after E.info (ops ++ hs.map (lowerOp E)) ∧
    Entered E hs is (Ledger.after E.info ops) (Ledger.after E.info (ops ++ hs.map (lowerOp E))) := by
  obtain ⟨g1, g2, -⟩ := lowers_books hL _ (books_ok E.info ops (lowers_fits hL hf)) hf .init
  exact ⟨by rw [after_append]; exact g1.symm, by rw [books_append]; exact g2⟩

theorem lifts_books_history (ops : List Op) (hf : (World.after E.info ops).Fits) {hs : List Held} {is : List U32} {w' : World}
    (hL : Lifts E (World.after E.info ops) hs is w') :
    w' = World.after E.info (ops ++ List.zipWith (liftOp E) hs is) ∧ w'.Fits ∧
    Left E hs is (Ledger.after E.info ops) (Ledger.after E.info (ops ++ List.zipWith (liftOp E) hs is)) := by
  obtain ⟨g1, g2, g3⟩ := lifts_books hL _ (books_ok E.info ops hf) hf .init
  exact ⟨by rw [after_append]; exact g1.symm, g2, by rw [books_append]; exact g3⟩

end Verif.Abi
