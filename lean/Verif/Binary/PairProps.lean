import Verif.Binary.Props

/-!
# C06 and C08 for every sequence of sections

Any number of function and code sections in any order, accepted or not.
-/

namespace Verif.Binary

/-! ## C06 -/

/-- **C06, part.** After any eight bytes and any sequence of sections of the grammar, accepted or not, a section of unknown
id changes nothing.
Missing: boundaries that are given by size fields that do not agree with the contents, see `unknown_not_transparent`. -/
theorem unknown_between_partial (pre : List Byte) (hp : pre.length = 8) (secs : List Sec) (a u post : List Byte)
    (h : Seq TakenSec secs a) (hu : Unknown u) :
    (read (pre ++ (a ++ (u ++ post)))).1 = (read (pre ++ (a ++ post))).1 := by
  by_cases hh : ∃ v0 v1 l0 l1, pre = [0x00, 0x61, 0x73, 0x6d, v0, v1, l0, l1]
  · obtain ⟨v0, v1, l0, l1, rfl⟩ := hh
    by_cases h1 : v1 ++ v0 = (0x01 : BitVec 16)
    · obtain ⟨id, n, s, p, i1, i3, i7, i10, g, hl, rfl⟩ := hu
      have gu : TakenSec (.other id p) (id :: (s ++ p)) := ⟨⟨i1, i3, i7, i10⟩, n, s, g, hl, rfl⟩
      apply read_module_congr v0 v1 l0 l1 h1
      intro m
      constructor
      · rintro ⟨secs1, hs, hr⟩
        obtain ⟨more, rfl, hm⟩ := seq_split h hs
        have gu' : Seq TakenSec [.other id p] (id :: (s ++ p)) := by
          rw [← List.append_nil (id :: (s ++ p))]; exact .cons gu .nil
        obtain ⟨more', rfl, hm'⟩ := seq_split gu' hm
        refine ⟨secs ++ more', h.append hm', ?_⟩
        rw [runAll_append] at hr ⊢
        exact hr
      · rintro ⟨secs1, hs, hr⟩
        obtain ⟨more, rfl, hm⟩ := seq_split h hs
        refine ⟨secs ++ .other id p :: more, h.append (.cons gu hm), ?_⟩
        rw [runAll_append] at hr ⊢
        exact hr
    · rw [read_preamble, read_preamble]
      by_cases h2 : v1 ++ v0 = (0x0a : BitVec 16)
      · rw [if_pos h2, if_pos h2]
      · rw [if_neg h2, if_neg h2, if_neg h1, if_neg h1]
  · have key : ∀ x, (read (pre ++ x)).1 = .err := by
      intro x
      rcases read_returns (pre ++ x) with ⟨d, e⟩ | e
      · obtain ⟨v0, v1, l0, l1, tail, e', -⟩ := header_needed (pre ++ x) d (read (pre ++ x)).2 (Prod.ext e rfl)
        refine absurd ⟨v0, v1, l0, l1, ?_⟩ hh
        have := congrArg (List.take 8) e'
        rw [List.take_left' hp] at this
        exact this
      · exact e
    rw [key, key]

/-- Code before functions is refused, with or without a custom section after it. -/
example : ∃ secs, Seq TakenSec secs [0x0a, 0x04, 0x01, 0x02, 0x00, 0x0b] ∧ secs ≠ [] ∧
    Unknown [0x00, 0x01, 0x55] ∧ (read (head ++ [0x0a, 0x04, 0x01, 0x02, 0x00, 0x0b])).1 = .err := by
  have key : readMany anySection 1 [0x0a, 0x04, 0x01, 0x02, 0x00, 0x0b] = (.ok [.code [([], [.end_])]], []) := by rfl
  obtain ⟨u, hu, -, hs⟩ := ((takes_many takes_anySection 1).ok_iff _ _ _).1 key
  rw [List.append_nil] at hu
  rw [← hu] at hs
  exact ⟨_, hs, by simp, ⟨0x00, 1, [0x01], [0x55], by decide, by decide, by decide, by decide,
    ⟨⟨[], 0x01, rfl, by decide, by decide⟩, rfl⟩, rfl, rfl⟩, by decide⟩

/-! ## C08 -/

/-- One code entry: locals and instructions. -/
abbrev Entry := List ValType × List Instr

/-- What a section says about functions, given what was said before: the declared type indices, and the code sections
that came after them. -/
def said (p : List U32 × List (List Entry)) : Sec → List U32 × List (List Entry)
  | .funcs is => (is, [])
  | .code cs => (p.1, p.2 ++ [cs])
  | _ => p

/-- The type indices of the last function section. -/
def declared (secs : List Sec) : List U32 := (secs.foldl said ([], [])).1

/-- The code sections after the last function section. -/
def bodies (secs : List Sec) : List (List Entry) := (secs.foldl said ([], [])).2

/-- The entry with number `i` in the last of the code sections that have so many. -/
def entryOf (css : List (List Entry)) (i : Nat) : Option Entry := css.reverse.findSome? fun cs => cs[i]?

/-- The function with a type index and a code entry. -/
def funcOf (t : U32) : Option Entry → Func
  | some c => ⟨t, c.1, some c.2⟩
  | none => ⟨t, [], none⟩

/-- The functions are what was said. -/
def Says (p : List U32 × List (List Entry)) (fs : List Func) : Prop :=
  fs.length = p.1.length ∧ ∀ (i : Nat) (t : U32), p.1[i]? = some t → fs[i]? = some (funcOf t (entryOf p.2 i))

theorem says_run (p : List U32 × List (List Entry)) (m m' : Module) (s : Sec) (h : Says p m.funcs) (hr : s.run m = some m') :
    Says (said p s) m'.funcs := by
  cases s with
  | types ts => simp only [Sec.run, Option.some.injEq] at hr; subst hr; exact h
  | exports es => simp only [Sec.run, Option.some.injEq] at hr; subst hr; exact h
  | other _ _ => simp only [Sec.run, Option.some.injEq] at hr; subst hr; exact h
  | funcs is =>
    simp only [Sec.run, Option.some.injEq] at hr; subst hr
    refine ⟨by simp [said], fun i t ht => ?_⟩
    simp only [said] at ht
    simp [ht, said, entryOf, funcOf]
  | code cs =>
    simp only [Sec.run] at hr
    by_cases hc : cs.length ≤ m.funcs.length
    · rw [if_pos hc, Option.some.injEq] at hr
      subst hr
      obtain ⟨f1, f2⟩ := fill_get m.funcs cs hc
      refine ⟨f1.trans h.1, fun i t ht => ?_⟩
      rw [f2 i _ (h.2 i t ht)]
      simp only [said, entryOf, List.reverse_append, List.reverse_cons, List.reverse_nil, List.nil_append,
        List.singleton_append, List.findSome?_cons]
      cases hi : cs[i]? with
      | none => rfl
      | some c =>
        simp only
        cases List.findSome? (fun cs => cs[i]?) p.2.reverse <;> rfl
    · rw [if_neg hc] at hr
      cases hr

theorem says_runAll (secs : List Sec) : (p : List U32 × List (List Entry)) → (m m' : Module) → Says p m.funcs →
    runAll m secs = some m' → Says (secs.foldl said p) m'.funcs := by
  induction secs with
  | nil => intro p m m' h hr; simp only [runAll, Option.some.injEq] at hr; subst hr; exact h
  | cons s secs ih =>
    intro p m m' h hr
    simp only [runAll, Option.bind_eq_bind, Option.bind_eq_some_iff] at hr
    obtain ⟨m1, h1, h2⟩ := hr
    exact ih _ m1 m' (says_run p m m1 s h h1) h2

/-- Which sequences of sections are accepted. -/
theorem runAll_iff (secs : List Sec) : (p : List U32 × List (List Entry)) → (m : Module) → Says p m.funcs →
    ((∃ m', runAll m secs = some m') ↔
      ∀ A cs B, secs = A ++ .code cs :: B → cs.length ≤ (A.foldl said p).1.length) := by
  induction secs with
  | nil => intro p m _; exact ⟨fun _ A cs B h => by simp at h, fun _ => ⟨m, rfl⟩⟩
  | cons s secs ih =>
    intro p m h
    have hrun : ∀ m1, s.run m = some m1 → ((∃ m', runAll m (s :: secs) = some m') ↔ ∃ m', runAll m1 secs = some m') := by
      intro m1 h1
      simp only [runAll, h1, Option.bind_eq_bind, Option.bind_some]
    have tail : ∀ m1, s.run m = some m1 → (∀ cs, s = .code cs → cs.length ≤ p.1.length) →
        ((∃ m', runAll m (s :: secs) = some m') ↔
          ∀ A cs B, s :: secs = A ++ .code cs :: B → cs.length ≤ (A.foldl said p).1.length) := by
      intro m1 h1 hcode
      rw [hrun m1 h1, ih _ m1 (says_run p m m1 s h h1)]
      constructor
      · intro hh A cs B e
        cases A with
        | nil =>
          simp only [List.nil_append, List.cons.injEq] at e
          exact hcode cs e.1
        | cons a A =>
          simp only [List.cons_append, List.cons.injEq] at e
          obtain ⟨e1, e2⟩ := e
          subst e1
          exact hh A cs B e2
      · intro hh A cs B e
        exact hh (s :: A) cs B (by rw [e]; rfl)
    cases s with
    | types ts => exact tail _ rfl fun cs e => by cases e
    | exports es => exact tail _ rfl fun cs e => by cases e
    | other a b => exact tail _ rfl fun cs e => by cases e
    | funcs is => exact tail _ rfl fun cs e => by cases e
    | code cs =>
      by_cases hc : cs.length ≤ m.funcs.length
      · refine tail { m with funcs := fill m.funcs cs } ?_ ?_
        · simp only [Sec.run, if_pos hc]
        · intro cs' e
          cases e
          rw [← h.1]
          exact hc
      · constructor
        · rintro ⟨m', hm⟩
          simp only [runAll, Sec.run, if_neg hc, Option.bind_eq_bind, Option.bind_none] at hm
          cases hm
        · intro hh
          refine absurd ?_ hc
          have := hh [] cs secs rfl
          rw [h.1]
          exact this

/-- **C08, part.** For every input made of sections, in any number and order. It is accepted exactly if no code section has
more entries than the function section before it has indices. Then there is one function for every index of the last
function section, with that type index, and its body is the entry of its number in the last code section after it that
has one.
Missing: an index without code entry is accepted, and the function has no body (`code_missing`). -/
theorem paired_all_partial (secs : List Sec) (bytes : List Byte) (h : Seq TakenSec secs bytes) :
    ((∃ m, read (head ++ bytes) = (.ok ⟨1, 0, .module m⟩, [])) ↔
      ∀ A cs B, secs = A ++ .code cs :: B → cs.length ≤ (declared A).length) ∧
    ∀ d rest, read (head ++ bytes) = (.ok d, rest) → ∃ m, d = ⟨1, 0, .module m⟩ ∧ rest = [] ∧
      m.funcs.length = (declared secs).length ∧
      ∀ (i : Nat) (t : U32), (declared secs)[i]? = some t → ∃ f : Func, m.funcs[i]? = some f ∧ f.type = t ∧
        (∀ c, entryOf (bodies secs) i = some c → f.locals = c.1 ∧ f.body = some c.2) ∧
        (entryOf (bodies secs) i = none → f.body = none) := by
  have h0 : Says ([], []) (⟨[], [], []⟩ : Module).funcs := ⟨rfl, fun i t ht => by simp at ht⟩
  constructor
  · refine Iff.trans ?_ (runAll_iff secs _ _ h0)
    constructor
    · rintro ⟨m, hm⟩
      obtain ⟨-, m', secs', hs, hr, e⟩ := (read_head _ _ _).1 hm
      exact ⟨m', by rw [← seq_det h hs]; exact hr⟩
    · rintro ⟨m, hm⟩
      exact ⟨m, (read_head _ _ _).2 ⟨rfl, m, secs, h, hm, rfl⟩⟩
  · intro d rest hd
    obtain ⟨hrest, m, secs', hs, hr, e⟩ := (read_head _ _ _).1 hd
    rw [seq_det h hs] at hr
    obtain ⟨s1, s2⟩ := says_runAll secs _ _ _ h0 hr
    refine ⟨m, e, hrest, s1, fun i t ht => ⟨_, s2 i t ht, ?_⟩⟩
    have hb : (secs.foldl said ([], [])).2 = bodies secs := rfl
    simp only [hb]
    generalize entryOf (bodies secs) i = o
    cases o with
    | none => exact ⟨rfl, fun c hc => (by cases hc), fun _ => rfl⟩
    | some c => exact ⟨rfl, fun c' hc => (by cases hc; exact ⟨rfl, rfl⟩), fun hc => (by cases hc)⟩

/-- Two function sections, and three code sections: the one before the second function section does not count, and the
second function keeps the body the first code section after it gave. -/
def twoTables : List Byte :=
  [0x03, 0x02, 0x01, 0x07, 0x0a, 0x04, 0x01, 0x02, 0x00, 0x0b, 0x03, 0x03, 0x02, 0x04, 0x05, 0x0a, 0x09, 0x02, 0x02, 0x00,
    0x0b, 0x04, 0x00, 0x20, 0x03, 0x0b, 0x0a, 0x06, 0x01, 0x04, 0x00, 0x20, 0x09, 0x0b]

example : ∃ secs, Seq TakenSec secs twoTables ∧ declared secs = [4, 5] ∧
    entryOf (bodies secs) 0 = some ([], [.localGet 9, .end_]) ∧ entryOf (bodies secs) 1 = some ([], [.localGet 3, .end_]) ∧
    read (head ++ twoTables) = (.ok ⟨1, 0, .module ⟨[], [⟨4, [], some [.localGet 9, .end_]⟩,
      ⟨5, [], some [.localGet 3, .end_]⟩], []⟩⟩, []) := by
  have key : readMany anySection 5 twoTables = (.ok [.funcs [7], .code [([], [.end_])], .funcs [4, 5],
    .code [([], [.end_]), ([], [.localGet 3, .end_])], .code [([], [.localGet 9, .end_])]], []) := by rfl
  obtain ⟨u, hu, -, hs⟩ := ((takes_many takes_anySection 5).ok_iff _ _ _).1 key
  rw [List.append_nil] at hu
  rw [← hu] at hs
  exact ⟨_, hs, rfl, rfl, rfl, by decide⟩

end Verif.Binary
