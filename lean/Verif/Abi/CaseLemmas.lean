import Verif.Abi.ValueSpec
import Mathlib.Data.List.Range
import Mathlib.Data.List.Nodup
import Mathlib.Data.Fintype.Card

/-!
# Case labels: splitting, matching, refinement chains
-/

namespace Verif.Abi
open Spec

/-! ### Splitting at bars -/

theorem splitBarFrom_noBar : (cur cs : List Char) → '|' ∉ cs → splitBarFrom cur cs = [cur ++ cs]
  | cur, [], _ => by simp [splitBarFrom]
  | cur, c :: cs, h => by
    simp only [List.mem_cons, not_or] at h
    rw [splitBarFrom, if_neg (fun e => h.1 e.symm), splitBarFrom_noBar _ cs h.2]
    simp

theorem splitBarFrom_bar : (cur a b : List Char) → '|' ∉ a →
    splitBarFrom cur (a ++ '|' :: b) = (cur ++ a) :: splitBarFrom [] b
  | cur, [], b, _ => by simp [splitBarFrom]
  | cur, c :: a, b, h => by
    simp only [List.mem_cons, not_or] at h
    rw [List.cons_append, splitBarFrom, if_neg (fun e => h.1 e.symm), splitBarFrom_bar _ a b h.2]
    simp

theorem splitBar_bars : (ps : List String) → ps ≠ [] → (∀ p ∈ ps, NoBar p) → splitBar (bars ps) = ps
  | [], h, _ => absurd rfl h
  | [p], _, h => by
    rw [bars, splitBar, splitBarFrom_noBar _ _ (h p (by simp))]
    simp
  | p :: q :: ps, _, h => by
    have ih := splitBar_bars (q :: ps) (by simp) (fun x hx => h x (by simp [hx]))
    rw [bars, splitBar, String.toList_append, String.toList_append]
    show (splitBarFrom [] (p.toList ++ ['|'] ++ _)).map _ = _
    rw [List.append_assoc, List.singleton_append, splitBarFrom_bar _ _ _ (h p (by simp)), List.map_cons]
    · rw [splitBar] at ih
      rw [ih]
      simp
    · intro e; cases e

/-- Every list of characters splits into parts without bars, and joining them gives it back. -/
theorem splitBarFrom_spec : (cs cur : List Char) → '|' ∉ cur →
    (∀ p ∈ splitBarFrom cur cs, '|' ∉ p) ∧ splitBarFrom cur cs ≠ [] ∧
      (bars ((splitBarFrom cur cs).map String.ofList)).toList = cur ++ cs
  | [], cur, h => by simp [splitBarFrom, bars, h]
  | c :: cs, cur, h => by
    rw [splitBarFrom]
    split
    · rename_i hc
      obtain ⟨h1, h2, h3⟩ := splitBarFrom_spec cs [] (by simp)
      refine ⟨?_, by simp, ?_⟩
      · intro p hp
        rw [List.mem_cons] at hp
        rcases hp with rfl | hp
        · exact h
        · exact h1 p hp
      · obtain ⟨q, qs, hq⟩ := List.exists_cons_of_ne_nil h2
        rw [hq] at h3 ⊢
        rw [List.map_cons, List.map_cons, bars, String.toList_append, String.toList_append]
        · rw [List.map_cons] at h3
          rw [h3, hc]
          simp
        · intro e; cases e
    · rename_i hc
      have := splitBarFrom_spec cs (cur ++ [c]) (by simp [h, Ne.symm hc])
      simpa using this

theorem splitBar_spec (key : String) :
    (∀ p ∈ splitBar key, NoBar p) ∧ splitBar key ≠ [] ∧ bars (splitBar key) = key := by
  obtain ⟨h1, h2, h3⟩ := splitBarFrom_spec key.toList [] (by simp)
  refine ⟨?_, by simpa [splitBar] using h2, ?_⟩
  · intro p hp
    rw [splitBar, List.mem_map] at hp
    obtain ⟨q, hq, rfl⟩ := hp
    simpa [NoBar] using h1 q hq
  · apply String.toList_inj.1
    rw [splitBar, h3, List.nil_append]

/-! ### Label lookup -/

theorem labels_length : (cs : Cases) → cs.labels.length = cs.length
  | .nil => rfl
  | .cons _ _ _ cs => by rw [Cases.labels, Cases.length, List.length_cons, labels_length cs]

theorem get?_label : (cs : Cases) → (i : Nat) → (cs.get? i).map (·.1) = cs.labels[i]?
  | .nil, _ => rfl
  | .cons l t r cs, 0 => rfl
  | .cons l t r cs, i + 1 => by
    rw [Cases.get?, Cases.labels, List.getElem?_cons_succ, get?_label cs i]

theorem get?_lt (cs : Cases) (i : Nat) (x) (h : cs.get? i = some x) : i < cs.length := by
  have := get?_label cs i
  rw [h] at this
  rw [← labels_length]
  exact (List.getElem?_eq_some_iff.1 this.symm).1

theorem get?_of_lt (cs : Cases) (i : Nat) (h : i < cs.length) : ∃ x, cs.get? i = some x := by
  have h1 := get?_label cs i
  rw [← labels_length] at h
  rw [List.getElem?_eq_getElem h] at h1
  rcases hg : cs.get? i with _ | x
  · rw [hg] at h1; cases h1
  · exact ⟨x, rfl⟩

theorem labelIndex_none : (cs : Cases) → (i : Nat) → (k : String) → (labelIndex cs i k = none ↔ k ∉ cs.labels)
  | .nil, _, _ => by simp [labelIndex, Cases.labels]
  | .cons l t r cs, i, k => by
    have ih := labelIndex_none cs (i + 1) k
    rw [labelIndex, Cases.labels, List.mem_cons, not_or]
    rcases h : labelIndex cs (i + 1) k with _ | j
    · simp only
      rw [← ih, h]
      by_cases e : k = l
      · simp [e]
      · simp [e]
    · simp only
      rw [← ih, h]
      simp

theorem labelIndex_some : (cs : Cases) → (i : Nat) → (k : String) → (j : Nat) →
    (labelIndex cs i k = some j ↔
      ∃ d, j = i + d ∧ cs.labels[d]? = some k ∧ ∀ d', cs.labels[d']? = some k → d' ≤ d)
  | .nil, _, _, _ => by simp [labelIndex, Cases.labels]
  | .cons l t r cs, i, k, j => by
    have ih := labelIndex_some cs (i + 1) k
    have ihn := labelIndex_none cs (i + 1) k
    rw [labelIndex, Cases.labels]
    rcases h : labelIndex cs (i + 1) k with _ | j'
    · simp only
      have hn := ihn.1 h
      have hn' : ∀ d : Nat, cs.labels[d]? ≠ some k := by
        intro d hd
        exact hn (List.mem_of_getElem? hd)
      constructor
      · intro e
        split at e
        · rename_i hk
          injection e with e
          subst e
          refine ⟨0, rfl, by rw [hk]; rfl, ?_⟩
          intro d' hd'
          cases d' with
          | zero => exact Nat.le_refl 0
          | succ d' =>
            rw [List.getElem?_cons_succ] at hd'
            exact absurd hd' (hn' d')
        · cases e
      · rintro ⟨d, rfl, hd, hm⟩
        cases d with
        | zero =>
          rw [List.getElem?_cons_zero] at hd
          injection hd with hd
          rw [if_pos hd.symm]; rfl
        | succ d =>
          rw [List.getElem?_cons_succ] at hd
          exact absurd hd (hn' d)
    · simp only
      obtain ⟨d, rfl, hd, hm⟩ := (ih j').1 h
      constructor
      · intro e
        injection e with e
        subst e
        refine ⟨d + 1, by omega, hd, ?_⟩
        intro d' hd'
        cases d' with
        | zero => omega
        | succ d' =>
          rw [List.getElem?_cons_succ] at hd'
          have := hm d' hd'
          omega
      · rintro ⟨d2, rfl, hd2, hm2⟩
        have h1 := hm2 (d + 1) hd
        cases d2 with
        | zero => omega
        | succ d2 =>
          rw [List.getElem?_cons_succ] at hd2
          have h2 := hm d2 hd2
          rw [show d2 = d by omega]
          rw [show i + 1 + d = i + (d + 1) by omega]

theorem firstLabel_some (cs : Cases) : (ps : List String) → (i : Nat) →
    (firstLabel cs ps = some i ↔ ∃ before l after, ps = before ++ l :: after ∧ (∀ p ∈ before, p ∉ cs.labels) ∧
      cs.labels[i]? = some l ∧ ∀ j, cs.labels[j]? = some l → j ≤ i)
  | [], i => by simp [firstLabel]
  | p :: ps, i => by
    rw [firstLabel]
    rcases h : labelIndex cs 0 p with _ | j
    · simp only
      have hn := (labelIndex_none cs 0 p).1 h
      rw [firstLabel_some cs ps i]
      constructor
      · rintro ⟨b, l, a, rfl, h1, h2⟩
        refine ⟨p :: b, l, a, rfl, ?_, h2⟩
        intro q hq
        rw [List.mem_cons] at hq
        rcases hq with rfl | hq
        · exact hn
        · exact h1 q hq
      · rintro ⟨b, l, a, e, h1, h2, h3⟩
        cases b with
        | nil =>
          rw [List.nil_append] at e
          injection e with e1 e2
          subst e1
          exact absurd (List.mem_of_getElem? h2) hn
        | cons q b =>
          injection e with e1 e2
          exact ⟨b, l, a, e2, fun x hx => h1 x (by simp [hx]), h2, h3⟩
    · simp only
      obtain ⟨d, rfl, hd, hm⟩ := (labelIndex_some cs 0 p j).1 h
      rw [Nat.zero_add]
      constructor
      · intro e
        injection e with e
        subst e
        exact ⟨[], p, ps, rfl, by simp, hd, hm⟩
      · rintro ⟨b, l, a, e, h1, h2, h3⟩
        cases b with
        | nil =>
          rw [List.nil_append] at e
          injection e with e1 e2
          subst e1
          have := h3 d hd
          have := hm i h2
          congr 1; omega
        | cons q b =>
          injection e with e1 e2
          subst e1
          exact absurd (List.mem_of_getElem? hd) (h1 p (by simp))

/-- The model's search finds what `Selects` describes. -/
theorem firstLabel_iff (cs : Cases) (key : String) (i : Nat) :
    firstLabel cs (splitBar key) = some i ↔ Selects cs key i := by
  rw [firstLabel_some]
  constructor
  · rintro ⟨b, l, a, e, h1, h2, h3⟩
    obtain ⟨s1, s2, s3⟩ := splitBar_spec key
    rw [e] at s1 s3
    exact ⟨b, l, a, s3.symm, s1, h1, h2, h3⟩
  · rintro ⟨b, l, a, e, h0, h1, h2, h3⟩
    refine ⟨b, l, a, ?_, h1, h2, h3⟩
    rw [e, splitBar_bars _ (by simp) h0]

theorem Spec.Selects.unique {cs : Cases} {key : String} {i j : Nat} (hi : Selects cs key i) (hj : Selects cs key j) :
    i = j := by
  rw [← firstLabel_iff] at hi hj
  rw [hi] at hj
  injection hj

theorem Spec.Selects.lt {cs : Cases} {key : String} {i : Nat} (h : Selects cs key i) : i < cs.length := by
  obtain ⟨_, _, _, _, _, _, h, _⟩ := h
  rw [← labels_length]
  exact (List.getElem?_eq_some_iff.1 h).1

theorem matchCase_ok (v : Val) (cs : Cases) (hl : cs.length < 2 ^ 32) (i : U32) (p : Val) :
    matchCase v cs = .ok (i, p) ↔ ∃ key, v = .map [(key, p)] ∧ Selects cs key i.toNat := by
  constructor
  · intro h
    unfold matchCase at h
    split at h
    · rename_i key value
      split at h
      · rename_i j hj
        injection h with h
        injection h with h1 h2
        subst h2
        have hs := (firstLabel_iff cs key j).1 hj
        have := hs.lt
        refine ⟨key, rfl, ?_⟩
        rw [← h1, BitVec.toNat_ofNat, Nat.mod_eq_of_lt (by omega)]
        exact hs
      · cases h
    · cases h
  · rintro ⟨key, rfl, hs⟩
    unfold matchCase
    simp only
    rw [(firstLabel_iff cs key _).2 hs]
    simp

theorem matchCase_err (v : Val) (cs : Cases) (h : ∀ key p i, v = .map [(key, p)] → ¬ Selects cs key i) :
    matchCase v cs = .err := by
  unfold matchCase
  split
  · rename_i key value
    split
    · rename_i i hi
      exact absurd ((firstLabel_iff cs key i).1 hi) (h key value i rfl)
    · rfl
  · rfl

/-! ### Refinement chains -/

theorem findCaseIndex_none : (cs : Cases) → (k : String) → (findCaseIndex cs k = none ↔ k ∉ cs.labels)
  | .nil, _ => by simp [findCaseIndex, Cases.labels]
  | .cons l t r cs, k => by
    rw [findCaseIndex, Cases.labels, List.mem_cons, not_or, ← findCaseIndex_none cs k]
    by_cases e : l = k
    · simp [e]
    · simp [e, Ne.symm e]

theorem findCaseIndex_some : (cs : Cases) → (k : String) → (i : Nat) → (findCaseIndex cs k = some i ↔
    cs.labels[i]? = some k ∧ ∀ j, cs.labels[j]? = some k → i ≤ j)
  | .nil, _, _ => by simp [findCaseIndex, Cases.labels]
  | .cons l t r cs, k, i => by
    have ih := findCaseIndex_some cs k
    rw [findCaseIndex, Cases.labels]
    by_cases e : l = k
    · rw [if_pos e]
      subst e
      constructor
      · intro h; injection h with h; subst h
        exact ⟨rfl, fun _ _ => Nat.zero_le _⟩
      · rintro ⟨-, h2⟩
        have := h2 0 rfl
        congr 1; omega
    · rw [if_neg e]
      constructor
      · intro h
        rw [Option.map_eq_some_iff] at h
        obtain ⟨j, hj, rfl⟩ := h
        obtain ⟨h1, h2⟩ := (ih j).1 hj
        refine ⟨h1, ?_⟩
        intro d hd
        cases d with
        | zero =>
          rw [List.getElem?_cons_zero] at hd
          injection hd with hd
          exact absurd hd e
        | succ d =>
          rw [List.getElem?_cons_succ] at hd
          have := h2 d hd
          omega
      · rintro ⟨h1, h2⟩
        cases i with
        | zero =>
          rw [List.getElem?_cons_zero] at h1
          injection h1 with h1
          exact absurd h1 e
        | succ i =>
          rw [Option.map_eq_some_iff]
          refine ⟨i, (ih i).2 ⟨h1, ?_⟩, rfl⟩
          intro j hj
          have := h2 (j + 1) hj
          omega

/-- The text after the first label. -/
def barTail : List String → String
  | [] => ""
  | l :: ls => "|" ++ l ++ barTail ls

theorem bars_cons : (l : String) → (ls : List String) → bars (l :: ls) = l ++ barTail ls
  | l, [] => by simp [bars, barTail]
  | l, m :: ls => by
    rw [bars, bars_cons m ls, barTail]
    · simp [String.append_assoc]
    · intro e; cases e

theorem Spec.Chain.head {cs : Cases} {l : String} {r : Option String} {ls : List String} (h : Chain cs l r ls) :
    ∃ tl, ls = l :: tl := by
  cases h <;> exact ⟨_, rfl⟩

theorem Spec.Chain.unique {cs : Cases} {l : String} {r : Option String} {ls : List String} (h : Chain cs l r ls) :
    ∀ {ls'}, Chain cs l r ls' → ls = ls' := by
  induction h with
  | stop l => intro ls' h'; cases h'; rfl
  | dangling l r hr =>
    intro ls' h'
    cases h' with
    | dangling => rfl
    | step _ _ i t r' ls2 hg _ _ =>
      have := get?_label cs i
      rw [hg] at this
      exact absurd (List.mem_of_getElem? this.symm) hr
  | step l r i t r' ls2 hg hm _ ih =>
    intro ls' h'
    have gi := get?_label cs i
    rw [hg] at gi
    cases h' with
    | dangling _ _ hr => exact absurd (List.mem_of_getElem? gi.symm) hr
    | step _ _ i' t' r'' ls3 hg' hm' hc' =>
      have gi' := get?_label cs i'
      rw [hg'] at gi'
      have h1 := hm i' gi'.symm
      have h2 := hm' i gi.symm
      have : i = i' := by omega
      subst this
      rw [hg] at hg'
      injection hg' with e
      injection e with _ e
      injection e with _ e
      subst e
      rw [ih hc']

theorem labelLoop_chain {cs : Cases} {l : String} {r : Option String} {ls : List String} (h : Chain cs l r ls) :
    ∀ (n : Nat) (acc : String), ls.length ≤ n → labelLoop cs n acc r = some (acc ++ barTail ls.tail) := by
  induction h with
  | stop l =>
    intro n acc hn
    cases n with
    | zero => simp at hn
    | succ n => simp [labelLoop, barTail]
  | dangling l r hr =>
    intro n acc hn
    cases n with
    | zero => simp at hn
    | succ n =>
      rw [labelLoop, (findCaseIndex_none cs r).2 hr]
      simp [barTail]
  | step l r i t r' ls2 hg hm hc ih =>
    intro n acc hn
    cases n with
    | zero => simp at hn
    | succ n =>
      have gi := get?_label cs i
      rw [hg] at gi
      obtain ⟨tl, rfl⟩ := hc.head
      rw [labelLoop, (findCaseIndex_some cs r i).2 ⟨gi.symm, hm⟩]
      simp only [hg]
      rw [ih n _ (by simpa using hn)]
      simp [barTail, String.append_assoc]

theorem chain_of_labelLoop (cs : Cases) : (n : Nat) → (acc : String) → (r : Option String) → (s : String) →
    labelLoop cs n acc r = some s → ∀ l, ∃ ls, Chain cs l r ls
  | 0, _, _, _, h, _ => by simp [labelLoop] at h
  | n + 1, acc, none, s, _, l => ⟨_, .stop l⟩
  | n + 1, acc, some r, s, h, l => by
    rw [labelLoop] at h
    rcases hf : findCaseIndex cs r with _ | i
    · exact ⟨_, .dangling l r ((findCaseIndex_none cs r).1 hf)⟩
    · rw [hf] at h
      simp only at h
      obtain ⟨h1, h2⟩ := (findCaseIndex_some cs r i).1 hf
      have gi := get?_label cs i
      rcases hg : cs.get? i with _ | ⟨l', t, r'⟩
      · rw [hg, h1] at gi; cases gi
      · rw [hg] at h
        simp only at h
        rw [hg, h1] at gi
        injection gi with gi
        simp only at gi
        subst gi
        obtain ⟨ls, hc⟩ := chain_of_labelLoop cs n _ _ _ h l'
        exact ⟨_, .step l l' i t r' ls hg h2 hc⟩

/-- The case indices a chain visits after its start: all different, because the rest of the chain gets shorter. -/
theorem Spec.Chain.indices {cs : Cases} {l : String} {r : Option String} {ls : List String} (h : Chain cs l r ls) :
    ∃ is : List Nat, is.length + 1 = ls.length ∧ is.Nodup ∧
      ∀ i ∈ is, i < cs.length ∧ ∃ l t r' ls', cs.get? i = some (l, t, r') ∧ Chain cs l r' ls' ∧ ls'.length < ls.length := by
  induction h with
  | stop l => exact ⟨[], rfl, List.nodup_nil, by simp⟩
  | dangling l r hr => exact ⟨[], rfl, List.nodup_nil, by simp⟩
  | step l r i t r' ls2 hg hm hc ih =>
    obtain ⟨is, h1, h2, h3⟩ := ih
    refine ⟨i :: is, by simp; omega, ?_, ?_⟩
    · rw [List.nodup_cons]
      refine ⟨?_, h2⟩
      intro hi
      obtain ⟨-, l', t', r'', ls', hg', hc', hlt⟩ := h3 i hi
      rw [hg] at hg'
      injection hg' with e
      injection e with e1 e
      injection e with e2 e3
      subst e1; subst e3
      rw [hc.unique hc'] at hlt
      exact Nat.lt_irrefl _ hlt
    · intro j hj
      rw [List.mem_cons] at hj
      rcases hj with rfl | hj
      · exact ⟨get?_lt cs j _ hg, _, _, _, _, hg, hc, by simp⟩
      · obtain ⟨g1, l', t', r'', ls', g2, g3, g4⟩ := h3 j hj
        exact ⟨g1, l', t', r'', ls', g2, g3, by simp; omega⟩

theorem Spec.Chain.length_le {cs : Cases} {l : String} {r : Option String} {ls : List String} (h : Chain cs l r ls) :
    ls.length ≤ cs.length + 1 := by
  obtain ⟨is, h1, h2, h3⟩ := h.indices
  have : is ⊆ List.range cs.length := by
    intro i hi
    exact List.mem_range.2 (h3 i hi).1
  have := (List.subperm_of_subset h2 this).length_le
  rw [List.length_range] at this
  omega

theorem caseLabel_chain {cs : Cases} {l : String} {r : Option String} {ls : List String} (h : Chain cs l r ls) :
    caseLabelWithRefinements cs l r = .ok (bars ls) := by
  unfold caseLabelWithRefinements
  rw [labelLoop_chain h _ _ h.length_le]
  obtain ⟨tl, rfl⟩ := h.head
  rw [bars_cons]
  rfl

/-- A loop that runs for more rounds than there are cases never ends. -/
theorem labelLoop_forever (cs : Cases) (l : String) (r : Option String) (h : labelLoop cs (cs.length + 1) l r = none)
    (n : Nat) : labelLoop cs n l r = none := by
  rcases hn : labelLoop cs n l r with _ | s
  · rfl
  · obtain ⟨ls, hc⟩ := chain_of_labelLoop cs n l r s hn l
    rw [labelLoop_chain hc _ _ hc.length_le] at h
    cases h

theorem caseLabel_diverges (cs : Cases) (l : String) (r : Option String) (h : ¬ ∃ ls, Chain cs l r ls) :
    caseLabelWithRefinements cs l r = .diverge := by
  unfold caseLabelWithRefinements
  rcases hn : labelLoop cs (cs.length + 1) l r with _ | s
  · rfl
  · exact absurd (chain_of_labelLoop cs _ l r s hn l) h

/-- The label of a case followed by what it refines selects that case again. -/
theorem chain_selects {cs : Cases} (hd : cs.labels.Nodup) (hb : ∀ l ∈ cs.labels, NoBar l) {i : Nat} {l : String} {t : Ty}
    {r : Option String} {ls : List String} (hg : cs.get? i = some (l, t, r)) (hc : Chain cs l r ls) :
    Selects cs (bars ls) i := by
  have gi := get?_label cs i
  rw [hg] at gi
  have mem : ∀ {l r ls}, Chain cs l r ls → l ∈ cs.labels → ∀ p ∈ ls, p ∈ cs.labels := by
    intro l r ls h
    induction h with
    | stop l => intro hl p hp; rw [List.mem_singleton] at hp; rw [hp]; exact hl
    | dangling l r hr => intro hl p hp; rw [List.mem_singleton] at hp; rw [hp]; exact hl
    | step l r i t r' ls2 hg hm hc ih =>
      intro hl p hp
      rw [List.mem_cons] at hp
      rcases hp with rfl | hp
      · exact hl
      · have gj := get?_label cs i
        rw [hg] at gj
        exact ih (List.mem_of_getElem? gj.symm) p hp
  have hl : l ∈ cs.labels := List.mem_of_getElem? gi.symm
  have hall := mem hc hl
  obtain ⟨tl, rfl⟩ := hc.head
  refine ⟨[], l, tl, rfl, fun p hp => hb p (hall p hp), by simp, gi.symm, ?_⟩
  intro j hj
  have h1 := List.getElem?_eq_some_iff.1 gi.symm
  have h2 := List.getElem?_eq_some_iff.1 hj
  obtain ⟨a1, a2⟩ := h1
  obtain ⟨b1, b2⟩ := h2
  have := (List.Nodup.getElem_inj_iff hd (i := j) (j := i) (hi := b1) (hj := a1)).1 (by rw [b2]; exact a2.symm)
  omega

end Verif.Abi
