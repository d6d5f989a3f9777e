import Verif.Binary.PairProps

/-!
# The language of the binary reader

Which byte strings are read, and as what (C121), and how far that language goes beyond well-formed binaries (C122).
-/

namespace Verif.Binary

/-! ## What a sequence of sections says, kind by kind -/

/-- The types of the last type section. -/
def lastTypes (secs : List Sec) : List FuncType :=
  (secs.filterMap fun s => match s with | .types ts => some ts | _ => none).getLast?.getD []

/-- The exports of the last export section. -/
def lastExports (secs : List Sec) : List Export :=
  (secs.filterMap fun s => match s with | .exports es => some es | _ => none).getLast?.getD []

/-- One function for each index of the last function section, with the code entry of its number. -/
def saidFuncs (secs : List Sec) : List Func :=
  (declared secs).mapIdx fun i t => funcOf t (entryOf (bodies secs) i)

/-- Every code section has at most as many entries as the function section before it has indices. -/
def CodeFits (secs : List Sec) : Prop := ∀ A cs B, secs = A ++ .code cs :: B → cs.length ≤ (declared A).length

theorem getLast?_getD_cons {α : Type} (x y : α) (xs : List α) : ((x :: xs).getLast?).getD y = (xs.getLast?).getD x := by
  cases xs with
  | nil => rfl
  | cons a as =>
    rw [List.getLast?_cons_cons]
    rw [List.getLast?_cons]; rfl

theorem runAll_types (secs : List Sec) : (m m' : Module) → runAll m secs = some m' →
    m'.types = ((secs.filterMap fun s => match s with | .types ts => some ts | _ => none).getLast?).getD m.types := by
  induction secs with
  | nil => intro m m' h; simp only [runAll, Option.some.injEq] at h; subst h; rfl
  | cons s secs ih =>
    intro m m' h
    simp only [runAll, Option.bind_eq_bind, Option.bind_eq_some_iff] at h
    obtain ⟨m1, h1, h2⟩ := h
    rw [ih m1 m' h2]
    cases s with
    | types ts =>
      simp only [Sec.run, Option.some.injEq] at h1; subst h1
      simp only [List.filterMap_cons, getLast?_getD_cons]
    | funcs is => simp only [Sec.run, Option.some.injEq] at h1; subst h1; rw [List.filterMap_cons_none rfl]
    | exports es => simp only [Sec.run, Option.some.injEq] at h1; subst h1; rw [List.filterMap_cons_none rfl]
    | other a b => simp only [Sec.run, Option.some.injEq] at h1; subst h1; rw [List.filterMap_cons_none rfl]
    | code cs =>
      simp only [Sec.run] at h1
      split at h1
      · simp only [Option.some.injEq] at h1; subst h1; rw [List.filterMap_cons_none rfl]
      · cases h1

theorem runAll_exports (secs : List Sec) : (m m' : Module) → runAll m secs = some m' →
    m'.exports = ((secs.filterMap fun s => match s with | .exports es => some es | _ => none).getLast?).getD m.exports := by
  induction secs with
  | nil => intro m m' h; simp only [runAll, Option.some.injEq] at h; subst h; rfl
  | cons s secs ih =>
    intro m m' h
    simp only [runAll, Option.bind_eq_bind, Option.bind_eq_some_iff] at h
    obtain ⟨m1, h1, h2⟩ := h
    rw [ih m1 m' h2]
    cases s with
    | exports es =>
      simp only [Sec.run, Option.some.injEq] at h1; subst h1
      simp only [List.filterMap_cons, getLast?_getD_cons]
    | funcs is => simp only [Sec.run, Option.some.injEq] at h1; subst h1; rw [List.filterMap_cons_none rfl]
    | types ts => simp only [Sec.run, Option.some.injEq] at h1; subst h1; rw [List.filterMap_cons_none rfl]
    | other a b => simp only [Sec.run, Option.some.injEq] at h1; subst h1; rw [List.filterMap_cons_none rfl]
    | code cs =>
      simp only [Sec.run] at h1
      split at h1
      · simp only [Option.some.injEq] at h1; subst h1; rw [List.filterMap_cons_none rfl]
      · cases h1

theorem runAll_funcs (secs : List Sec) (m : Module) (h : runAll ⟨[], [], []⟩ secs = some m) : m.funcs = saidFuncs secs := by
  obtain ⟨h1, h2⟩ := says_runAll secs ([], []) _ _ ⟨rfl, fun i t ht => by simp at ht⟩ h
  have e : (secs.foldl said ([], [])).1 = declared secs := rfl
  have e' : (secs.foldl said ([], [])).2 = bodies secs := rfl
  rw [e] at h1 h2
  rw [e'] at h2
  refine List.ext_getElem? fun i => ?_
  rw [saidFuncs, List.getElem?_mapIdx]
  cases hi : (declared secs)[i]? with
  | some t => rw [h2 i t hi]; rfl
  | none =>
    rw [List.getElem?_eq_none_iff] at hi
    rw [List.getElem?_eq_none_iff.2 (by omega)]; rfl

/-- The sections, put together. -/
theorem runAll_says (secs : List Sec) (m : Module) :
    runAll ⟨[], [], []⟩ secs = some m ↔ CodeFits secs ∧ m = ⟨lastTypes secs, saidFuncs secs, lastExports secs⟩ := by
  have h0 : Says ([], []) (⟨[], [], []⟩ : Module).funcs := ⟨rfl, fun i t ht => by simp at ht⟩
  have key : ∀ m', runAll ⟨[], [], []⟩ secs = some m' → m' = ⟨lastTypes secs, saidFuncs secs, lastExports secs⟩ := by
    intro m' h
    have a := runAll_types secs _ _ h
    have b := runAll_exports secs _ _ h
    have c := runAll_funcs secs _ h
    cases m'
    simp only at a b c
    subst a b c
    rfl
  constructor
  · intro h
    exact ⟨(runAll_iff secs _ _ h0).1 ⟨m, h⟩, key m h⟩
  · rintro ⟨h, rfl⟩
    obtain ⟨m', hm⟩ := (runAll_iff secs _ _ h0).2 h
    rw [hm, key m' hm]

/-! ## C121 -/

/-- **C121.** What is read, and as what. A component is the preamble, and what follows is left unread. A module is the
preamble and sections up to the end of the input, where no code section has more entries than there are functions; its
types and exports are those of the last such section, its functions those of the last function section with their
code. -/
theorem read_iff (bs : List Byte) (d : Document) (rest : List Byte) :
    read bs = (.ok d, rest) ↔
      (∃ l0 l1, bs = [0x00, 0x61, 0x73, 0x6d, 0x0a, 0x00, l0, l1] ++ rest ∧ d = ⟨10, l1 ++ l0, .component⟩) ∨
      ∃ l0 l1 tail secs, bs = [0x00, 0x61, 0x73, 0x6d, 0x01, 0x00, l0, l1] ++ tail ∧ rest = [] ∧
        Seq TakenSec secs tail ∧ CodeFits secs ∧
        d = ⟨1, l1 ++ l0, .module ⟨lastTypes secs, saidFuncs secs, lastExports secs⟩⟩ := by
  constructor
  · intro h
    obtain ⟨v0, v1, l0, l1, tail, rfl, hv, -, hk⟩ := header_needed bs d rest h
    have app : (v1 ++ v0 : BitVec 16).toNat = v0.toNat + 256 * v1.toNat := by
      rw [BitVec.toNat_append, ← Nat.shiftLeft_add_eq_or_of_lt v0.isLt, Nat.shiftLeft_eq]; omega
    have h0 := v0.isLt
    have h1 := v1.isLt
    rcases hk with ⟨hd, -⟩ | ⟨hd, -⟩
    · have e0 : v0 = 0x01 := BitVec.eq_of_toNat_eq (by show v0.toNat = 1; omega)
      have e1 : v1 = 0x00 := BitVec.eq_of_toNat_eq (by show v1.toNat = 0; omega)
      subst e0 e1
      obtain ⟨hr, m, secs, hs, hm, rfl⟩ := (read_module_iff 0x01 0x00 l0 l1 tail (by decide) d rest).1 h
      obtain ⟨hc, rfl⟩ := (runAll_says secs m).1 hm
      exact .inr ⟨l0, l1, tail, secs, rfl, hr, hs, hc, rfl⟩
    · have e0 : v0 = 0x0a := BitVec.eq_of_toNat_eq (by show v0.toNat = 10; omega)
      have e1 : v1 = 0x00 := BitVec.eq_of_toNat_eq (by show v1.toNat = 0; omega)
      subst e0 e1
      rw [read_preamble, if_pos (by decide)] at h
      simp only [Prod.mk.injEq, Res.ok.injEq] at h
      obtain ⟨rfl, rfl⟩ := h
      exact .inl ⟨l0, l1, rfl, rfl⟩
  · rintro (⟨l0, l1, rfl, rfl⟩ | ⟨l0, l1, tail, secs, rfl, rfl, hs, hc, rfl⟩)
    · rw [read_preamble, if_pos (by decide)]
      rfl
    · exact (read_module_iff 0x01 0x00 l0 l1 tail (by decide) _ _).2
        ⟨rfl, _, secs, hs, (runAll_says secs _).2 ⟨hc, rfl⟩, rfl⟩

/-- **C121.** The sections are determined by the bytes: where one ends and the next begins, and what each of them says. -/
theorem one_reading (tail : List Byte) (parts parts' : List (Sec × List Byte))
    (h : ∀ p ∈ parts, TakenSec p.1 p.2) (h' : ∀ p ∈ parts', TakenSec p.1 p.2)
    (e : (parts.map (·.2)).flatten = tail) (e' : (parts'.map (·.2)).flatten = tail) : parts = parts' := by
  subst e
  induction parts generalizing parts' with
  | nil =>
    cases parts' with
    | nil => rfl
    | cons p ps =>
      have := takenSec_length (h' p (by simp))
      simp only [List.map_cons, List.flatten_cons, List.map_nil, List.flatten_nil, List.append_eq_nil_iff] at e'
      rw [e'.1] at this
      simp at this
  | cons q qs ih =>
    cases parts' with
    | nil =>
      have := takenSec_length (h q (by simp))
      simp only [List.map_cons, List.flatten_cons, List.map_nil, List.flatten_nil] at e'
      have e2 := List.append_eq_nil_iff.1 e'.symm
      rw [e2.1] at this
      simp at this
    | cons p ps =>
      simp only [List.map_cons, List.flatten_cons] at e'
      obtain ⟨a, b, c⟩ := takes_anySection.det (h' p (by simp)) (h q (by simp)) e'
      have hqs := ih ps (fun p hp => h p (by simp [hp])) (fun p hp => h' p (by simp [hp])) c
      rw [hqs]
      have : p = q := Prod.ext a b
      rw [this]

/-- Two type sections, of which the second counts, an export section and a custom one in between. -/
def retyped : List Byte :=
  [0x01, 0x04, 0x01, 0x60, 0x00, 0x00, 0x07, 0x05, 0x01, 0x01, 0x61, 0x00, 0x03, 0x00, 0x02, 0x01, 0x61, 0x01, 0x05, 0x01, 0x60,
    0x01, 0x7f, 0x00]

example : ∃ secs, Seq TakenSec secs retyped ∧ CodeFits secs ∧ lastTypes secs = [⟨[.i32], []⟩] ∧ saidFuncs secs = [] ∧
    lastExports secs = [⟨[0x61], 3⟩] ∧
    read (head ++ retyped) = (.ok ⟨1, 0, .module ⟨[⟨[.i32], []⟩], [], [⟨[0x61], 3⟩]⟩⟩, []) := by
  have key : readMany anySection 4 retyped = (.ok [.types [⟨[], []⟩], .exports [⟨[0x61], 3⟩], .other 0 [0x01, 0x61],
    .types [⟨[.i32], []⟩]], []) := by rfl
  obtain ⟨u, hu, -, hs⟩ := ((takes_many takes_anySection 4).ok_iff _ _ _).1 key
  rw [List.append_nil] at hu
  rw [← hu] at hs
  refine ⟨_, hs, ?_, rfl, rfl, rfl, by decide⟩
  intro A cs B e
  have : Sec.code cs ∈ A ++ .code cs :: B := by simp
  rw [← e] at this
  simp at this

/-! ## C122 -/

/-- **C122, part.** If after the preamble of a module the input is not a sequence of sections, or a code section has more
entries than there are functions, there is an error and no document.
Missing: the sections that are taken are more than the well-formed ones. The size of a known section is not looked at
(`size_ignored`), sections may come in any order (`order_ignored`) and more than once (`repeats_ignored`), and numbers may
be too long and too large (`numbers_wrap`). -/
theorem malformed_refused_partial (l0 l1 : Byte) (tail : List Byte)
    (h : ¬ ∃ secs, Seq TakenSec secs tail ∧ CodeFits secs) :
    (read ([0x00, 0x61, 0x73, 0x6d, 0x01, 0x00, l0, l1] ++ tail)).1 = .err := by
  rcases read_returns ([0x00, 0x61, 0x73, 0x6d, 0x01, 0x00, l0, l1] ++ tail) with ⟨d, e⟩ | e
  · exfalso
    rcases (read_iff _ d (read ([0x00, 0x61, 0x73, 0x6d, 0x01, 0x00, l0, l1] ++ tail)).2).1 (by rw [← e]) with
      ⟨a0, a1, e1, -⟩ | ⟨a0, a1, tail', secs, e1, -, hs, hc, -⟩
    · simp at e1
    · simp only [List.cons_append, List.nil_append, List.cons.injEq, true_and] at e1
      obtain ⟨-, -, rfl⟩ := e1
      exact h ⟨secs, hs, hc⟩
  · exact e

/-- A type section with a type that is none. -/
example : ¬ ∃ secs, Seq TakenSec secs [0x01, 0x02, 0x01, 0x61] ∧ CodeFits secs := by
  rintro ⟨secs, hs, hc⟩
  have h : (read ([0x00, 0x61, 0x73, 0x6d, 0x01, 0x00, 0x00, 0x00] ++ [0x01, 0x02, 0x01, 0x61])).1 = .err := by decide
  rw [(read_iff _ _ []).2 (.inr ⟨0x00, 0x00, _, secs, rfl, rfl, hs, hc, rfl⟩)] at h
  cases h

theorem seq_append' {α : Type} {G : α → List Byte → Prop} {xs ys : List α} {u v : List Byte} (h : Seq G xs u) (h' : Seq G ys v) :
    Seq G (xs ++ ys) (u ++ v) := by
  induction h with
  | nil => exact h'
  | cons g _ ih => rw [List.append_assoc]; exact .cons g ih

/-- Inputs with the same sections are read alike. -/
theorem same_sections (l0 l1 : Byte) (u v : List Byte) (d : Document)
    (h : ∀ m, (∃ secs, Seq TakenSec secs u ∧ runAll ⟨[], [], []⟩ secs = some m) ↔
      ∃ secs, Seq TakenSec secs v ∧ runAll ⟨[], [], []⟩ secs = some m) :
    read ([0x00, 0x61, 0x73, 0x6d, 0x01, 0x00, l0, l1] ++ u) = (.ok d, []) ↔
      read ([0x00, 0x61, 0x73, 0x6d, 0x01, 0x00, l0, l1] ++ v) = (.ok d, []) := by
  rw [read_module_iff _ _ _ _ _ (by decide), read_module_iff _ _ _ _ _ (by decide)]
  constructor
  · rintro ⟨-, m, secs, hs, hr, rfl⟩
    obtain ⟨secs', hs', hr'⟩ := (h m).1 ⟨secs, hs, hr⟩
    exact ⟨rfl, m, secs', hs', hr', rfl⟩
  · rintro ⟨-, m, secs, hs, hr, rfl⟩
    obtain ⟨secs', hs', hr'⟩ := (h m).2 ⟨secs, hs, hr⟩
    exact ⟨rfl, m, secs', hs', hr', rfl⟩

/-- Sections of the grammar in the middle of an input can be replaced by others with the same effect. -/
theorem replace_sections (l0 l1 : Byte) (x y x' : List Byte) (parts parts' pre : List Sec) (hp : Seq TakenSec pre x)
    (h1 : Seq TakenSec parts y) (h2 : Seq TakenSec parts' x') (he : ∀ m, runAll m parts = runAll m parts') (post : List Byte)
    (d : Document) :
    read ([0x00, 0x61, 0x73, 0x6d, 0x01, 0x00, l0, l1] ++ (x ++ (y ++ post))) = (.ok d, []) ↔
      read ([0x00, 0x61, 0x73, 0x6d, 0x01, 0x00, l0, l1] ++ (x ++ (x' ++ post))) = (.ok d, []) := by
  have go : ∀ (a b : List Byte) (pa pb : List Sec), Seq TakenSec pa a → Seq TakenSec pb b →
      (∀ m, runAll m pa = runAll m pb) → ∀ m, (∃ secs, Seq TakenSec secs (x ++ (a ++ post)) ∧ runAll ⟨[], [], []⟩ secs = some m) →
      ∃ secs, Seq TakenSec secs (x ++ (b ++ post)) ∧ runAll ⟨[], [], []⟩ secs = some m := by
    rintro a b pa pb ha hb e m ⟨secs, hs, hr⟩
    obtain ⟨s1, rfl, hs1⟩ := seq_split hp hs
    obtain ⟨s2, rfl, hs2⟩ := seq_split ha hs1
    refine ⟨pre ++ (pb ++ s2), seq_append' hp (seq_append' hb hs2), ?_⟩
    rw [← hr, runAll_append, runAll_append]
    congr 1
    funext m'
    rw [runAll_append, runAll_append, e]
  exact same_sections l0 l1 _ _ d fun m =>
    ⟨go y x' parts parts' h1 h2 he m, go x' y parts' parts h2 h1 (fun m => (he m).symm) m⟩

/-- **C122 fails for sizes.** After any sections, the size of a type, function, export or code section can be any number. -/
theorem size_ignored (l0 l1 id : Byte) (hid : id = 0x01 ∨ id = 0x03 ∨ id = 0x07 ∨ id = 0x0a) (pre : List Sec)
    (x s s' : List Byte) (hp : Seq TakenSec pre x) (hs : Leb128.Delimited s) (hs' : Leb128.Delimited s') (post : List Byte)
    (d : Document) :
    read ([0x00, 0x61, 0x73, 0x6d, 0x01, 0x00, l0, l1] ++ (x ++ id :: (s ++ post))) = (.ok d, []) ↔
      read ([0x00, 0x61, 0x73, 0x6d, 0x01, 0x00, l0, l1] ++ (x ++ id :: (s' ++ post))) = (.ok d, []) := by
  have go : ∀ (s s' : List Byte), Leb128.Delimited s → Leb128.Delimited s' → ∀ m,
      (∃ secs, Seq TakenSec secs (x ++ id :: (s ++ post)) ∧ runAll ⟨[], [], []⟩ secs = some m) →
      ∃ secs, Seq TakenSec secs (x ++ id :: (s' ++ post)) ∧ runAll ⟨[], [], []⟩ secs = some m := by
    rintro s s' hs hs' m ⟨secs, hq, hr⟩
    obtain ⟨more, rfl, hm⟩ := seq_split hp hq
    refine ⟨pre ++ more, seq_append' hp ?_, hr⟩
    generalize hb : id :: (s ++ post) = bs at hm
    cases hm with
    | nil => cases hb
    | @cons sec more u v g gs =>
      -- the size field of this section is `s`
      have size : ∀ (n : U32) (t b : List Byte), AnyNum n t → id :: (s ++ post) = (id :: (t ++ b)) ++ v →
          s = t ∧ post = b ++ v := by
        intro n t b ht e
        simp only [List.cons_append, List.cons.injEq, true_and, List.append_assoc] at e
        obtain ⟨-, a, b⟩ := takes_leb.det (a := BitVec.ofNat 32 (Leb128.denotes s)) ⟨hs, rfl⟩ ht e
        exact ⟨a, b⟩
      have num' : AnyNum (BitVec.ofNat 32 (Leb128.denotes s')) s' := ⟨hs', rfl⟩
      cases sec with
      | types ts =>
        obtain ⟨n, t, b, ht, hv, rfl⟩ := g
        have e0 : id = 0x01 := by simp only [List.cons_append, List.cons.injEq] at hb; exact hb.1
        subst e0
        obtain ⟨rfl, rfl⟩ := size n t b ht hb
        have := Seq.cons (G := TakenSec) (x := .types ts) ⟨_, s', b, num', hv, rfl⟩ gs
        simpa using this
      | funcs is =>
        obtain ⟨n, t, b, ht, hv, rfl⟩ := g
        have e0 : id = 0x03 := by simp only [List.cons_append, List.cons.injEq] at hb; exact hb.1
        subst e0
        obtain ⟨rfl, rfl⟩ := size n t b ht hb
        have := Seq.cons (G := TakenSec) (x := .funcs is) ⟨_, s', b, num', hv, rfl⟩ gs
        simpa using this
      | exports es =>
        obtain ⟨n, t, b, ht, hv, rfl⟩ := g
        have e0 : id = 0x07 := by simp only [List.cons_append, List.cons.injEq] at hb; exact hb.1
        subst e0
        obtain ⟨rfl, rfl⟩ := size n t b ht hb
        have := Seq.cons (G := TakenSec) (x := .exports es) ⟨_, s', b, num', hv, rfl⟩ gs
        simpa using this
      | code cs =>
        obtain ⟨n, t, b, ht, hv, rfl⟩ := g
        have e0 : id = 0x0a := by simp only [List.cons_append, List.cons.injEq] at hb; exact hb.1
        subst e0
        obtain ⟨rfl, rfl⟩ := size n t b ht hb
        have := Seq.cons (G := TakenSec) (x := .code cs) ⟨_, s', b, num', hv, rfl⟩ gs
        simpa using this
      | other i p =>
        obtain ⟨⟨n1, n2, n3, n4⟩, n, t, ht, hl, rfl⟩ := g
        have e0 : id = i := by simp only [List.cons_append, List.cons.injEq] at hb; exact hb.1
        subst e0
        rcases hid with h | h | h | h
        · exact absurd h n1
        · exact absurd h n2
        · exact absurd h n3
        · exact absurd h n4
  exact same_sections l0 l1 _ _ d fun m => ⟨go s s' hs hs' m, go s' s hs' hs m⟩

/-- What a section is about: types, functions and their code, exports, or nothing. -/
def Sec.about : Sec → Nat
  | .types _ => 1
  | .funcs _ => 2
  | .code _ => 2
  | .exports _ => 3
  | .other _ _ => 0

theorem run_comm (a b : Sec) (h : a.about ≠ b.about) (m : Module) : runAll m [a, b] = runAll m [b, a] := by
  cases a <;> cases b <;> simp [Sec.about] at h <;> simp only [runAll, Sec.run] <;> (try split) <;> (try split) <;> simp_all

/-- **C122 fails for the order of sections.** Neighbouring sections about different things can change places. -/
theorem order_ignored (l0 l1 : Byte) (pre : List Sec) (a b : Sec) (x u v : List Byte) (hp : Seq TakenSec pre x)
    (ha : TakenSec a u) (hb : TakenSec b v) (hab : a.about ≠ b.about) (post : List Byte) (d : Document) :
    read ([0x00, 0x61, 0x73, 0x6d, 0x01, 0x00, l0, l1] ++ (x ++ (u ++ (v ++ post)))) = (.ok d, []) ↔
      read ([0x00, 0x61, 0x73, 0x6d, 0x01, 0x00, l0, l1] ++ (x ++ (v ++ (u ++ post)))) = (.ok d, []) := by
  have two : ∀ {a b : Sec} {u v : List Byte}, TakenSec a u → TakenSec b v → Seq TakenSec [a, b] (u ++ v) := by
    intro a b u v ha hb
    have := Seq.cons ha (Seq.cons hb Seq.nil)
    rwa [List.append_nil] at this
  have := replace_sections l0 l1 x (u ++ v) (v ++ u) [a, b] [b, a] pre hp (two ha hb) (two hb ha) (run_comm a b hab) post d
  simpa only [List.append_assoc] using this

/-- **C122 fails for repeated sections.** Of two neighbouring type, function or export sections the first is as if it were
not there. -/
theorem repeats_ignored (l0 l1 : Byte) (pre : List Sec) (a b : Sec) (x u v : List Byte) (hp : Seq TakenSec pre x)
    (ha : TakenSec a u) (hb : TakenSec b v) (hab : a.about = b.about) (hk : ∀ cs, b ≠ .code cs) (hc : ∀ cs, a ≠ .code cs)
    (post : List Byte) (d : Document) :
    read ([0x00, 0x61, 0x73, 0x6d, 0x01, 0x00, l0, l1] ++ (x ++ (u ++ (v ++ post)))) = (.ok d, []) ↔
      read ([0x00, 0x61, 0x73, 0x6d, 0x01, 0x00, l0, l1] ++ (x ++ (v ++ post))) = (.ok d, []) := by
  have h1 : Seq TakenSec [a, b] (u ++ v) := by
    have := Seq.cons ha (Seq.cons hb Seq.nil)
    rwa [List.append_nil] at this
  have h2 : Seq TakenSec [b] v := by
    have := Seq.cons hb Seq.nil
    rwa [List.append_nil] at this
  have := replace_sections l0 l1 x (u ++ v) v [a, b] [b] pre hp h1 h2 (fun m => by
    cases a <;> cases b <;> simp_all [Sec.about, runAll, Sec.run]) post d
  simpa only [List.append_assoc] using this

/-- The hypotheses of the three theorems: a type section and an export section after a type section. -/
example : Seq TakenSec [.types []] [0x01, 0x01, 0x00] ∧ TakenSec (.types [⟨[], []⟩]) [0x01, 0x04, 0x01, 0x60, 0x00, 0x00] ∧
    TakenSec (.exports []) [0x07, 0x01, 0x00] ∧ Leb128.Delimited [0x01] ∧ Leb128.Delimited [0xff, 0x7f] ∧
    (Sec.types [⟨[], []⟩]).about ≠ (Sec.exports []).about ∧ (Sec.types []).about = (Sec.types [⟨[], []⟩]).about := by
  have k1 := (takes_anySection.ok_iff [0x01, 0x01, 0x00] (.types []) []).1 rfl
  have k2 := (takes_anySection.ok_iff [0x01, 0x04, 0x01, 0x60, 0x00, 0x00] (.types [⟨[], []⟩]) []).1 rfl
  have k3 := (takes_anySection.ok_iff [0x07, 0x01, 0x00] (.exports []) []).1 rfl
  obtain ⟨u1, e1, g1⟩ := k1
  obtain ⟨u2, e2, g2⟩ := k2
  obtain ⟨u3, e3, g3⟩ := k3
  rw [List.append_nil] at e1 e2 e3
  subst e1 e2 e3
  have s1 := Seq.cons g1 Seq.nil
  exact ⟨by simpa using s1, g2, g3, ⟨[], 0x01, rfl, by decide, by decide⟩, ⟨[0xff], 0x7f, rfl, by decide, by decide⟩, by decide, by decide⟩

/-- **C122 fails for numbers.** A number may be written with any number of bytes, and what exceeds 32 bits is dropped: here the
number of types is 2^32 in one, and the zero of the other is written in `k` bytes. -/
theorem numbers_wrap (k : Nat) :
    read (head ++ [0x01, 0x06, 0x80, 0x80, 0x80, 0x80, 0x10]) = (.ok ⟨1, 0, .module ⟨[], [], []⟩⟩, []) ∧
    read (head ++ (0x01 :: 0x01 :: (List.replicate k 0x80 ++ [0x00]))) = (.ok ⟨1, 0, .module ⟨[], [], []⟩⟩, []) := by
  refine ⟨by decide, ?_⟩
  have hz : AnyNum 0 (List.replicate k 0x80 ++ [0x00]) := by
    refine ⟨⟨List.replicate k 0x80, 0x00, rfl, ?_, by decide⟩, ?_⟩
    · intro b hb
      rw [List.mem_replicate] at hb
      rw [hb.2]
      decide
    · have : ∀ k, Leb128.denotes (List.replicate k 0x80 ++ [0x00]) = 0 := by
        intro k
        induction k with
        | zero => rfl
        | succ k ih => rw [List.replicate_succ, List.cons_append, Leb128.denotes, ih]; rfl
      rw [this]
      rfl
  have hsec : TakenSec (.types []) (0x01 :: ([0x01] ++ (List.replicate k 0x80 ++ [0x00]))) :=
    ⟨1, [0x01], _, ⟨⟨[], 0x01, rfl, by decide, by decide⟩, rfl⟩, ⟨0, _, [], hz, rfl, .nil, by simp⟩, rfl⟩
  have hs := Seq.cons hsec Seq.nil
  rw [List.append_nil] at hs
  exact (read_head _ _ _).2 ⟨rfl, _, _, hs, rfl, rfl⟩

end Verif.Binary
