import Verif.Binary.LanguageProps

/-!
# A binary is read section by section (C157)

What has been read of a binary is the module so far and nothing else: another section does to it what that section says,
binaries that were read as the same module go on alike, and what was refused after whole sections stays refused.
Specification: `Spec.lean` (`TakenSec`: the bytes of a section; `Sec.run`: what a section does to a module).
-/

namespace Verif.Binary

/-- A module with minor version bytes `l0 l1`: the preamble, then the sections.
-- models binary/read.go:16-43 (the bytes that lead to `ReadModule`) -/
def preamble (l0 l1 : Byte) : List Byte := [0x00, 0x61, 0x73, 0x6d, 0x01, 0x00, l0, l1]

/-- The sections of two inputs that were read as the same module, and of what follows. -/
theorem read_so_far_ok (l0 l1 : Byte) (x x' : List Byte) (m : Module)
    (h : read (preamble l0 l1 ++ x) = (.ok ⟨1, l1 ++ l0, .module m⟩, []))
    (h' : read (preamble l0 l1 ++ x') = (.ok ⟨1, l1 ++ l0, .module m⟩, [])) (y : List Byte) (d : Document)
    (e : read (preamble l0 l1 ++ (x ++ y)) = (.ok d, [])) : read (preamble l0 l1 ++ (x' ++ y)) = (.ok d, []) := by
  obtain ⟨-, m1, p, hp, hr, e1⟩ := (read_module_iff _ _ _ _ _ (by decide) _ _).1 h
  obtain ⟨-, m2, p', hp', hr', e2⟩ := (read_module_iff _ _ _ _ _ (by decide) _ _).1 h'
  obtain ⟨-, m3, q, hq, hr3, rfl⟩ := (read_module_iff _ _ _ _ _ (by decide) _ _).1 e
  cases e1
  cases e2
  obtain ⟨rest, rfl, hs⟩ := seq_split hp hq
  refine (read_module_iff _ _ _ _ _ (by decide) _ _).2 ⟨rfl, m3, p' ++ rest, seq_append' hp' hs, ?_, rfl⟩
  rw [runAll_append, hr] at hr3
  rw [runAll_append, hr']
  exact hr3

/-- A module leaves nothing unread. -/
theorem read_rest (l0 l1 : Byte) (t : List Byte) (d : Document) (h : (read (preamble l0 l1 ++ t)).1 = .ok d) :
    read (preamble l0 l1 ++ t) = (.ok d, []) := by
  have e : read (preamble l0 l1 ++ t) = (.ok d, (read (preamble l0 l1 ++ t)).2) := by rw [← h]
  have := ((read_module_iff _ _ _ _ _ (by decide) _ _).1 e).1
  rw [this] at e
  exact e

/-- **C157.** Two inputs that were read as the same module are read alike, whatever follows them. -/
theorem read_so_far (l0 l1 : Byte) (x x' : List Byte) (m : Module)
    (h : read (preamble l0 l1 ++ x) = (.ok ⟨1, l1 ++ l0, .module m⟩, []))
    (h' : read (preamble l0 l1 ++ x') = (.ok ⟨1, l1 ++ l0, .module m⟩, [])) (y : List Byte) :
    (read (preamble l0 l1 ++ (x ++ y))).1 = (read (preamble l0 l1 ++ (x' ++ y))).1 := by
  rcases read_returns (preamble l0 l1 ++ (x ++ y)) with ⟨d, e⟩ | e
  · rw [e, read_so_far_ok l0 l1 x x' m h h' y d (read_rest _ _ _ _ e)]
  · rcases read_returns (preamble l0 l1 ++ (x' ++ y)) with ⟨d, e'⟩ | e'
    · rw [read_so_far_ok l0 l1 x' x m h' h y d (read_rest _ _ _ _ e')] at e
      cases e
    · rw [e, e']

/-- **C157.** One more section does to the module what the section says, and is refused if that cannot be done. -/
theorem one_more_section (l0 l1 : Byte) (x v : List Byte) (m : Module) (s : Sec)
    (h : read (preamble l0 l1 ++ x) = (.ok ⟨1, l1 ++ l0, .module m⟩, [])) (hs : TakenSec s v) :
    (read (preamble l0 l1 ++ (x ++ v))).1 =
      match s.run m with
      | some m' => .ok ⟨1, l1 ++ l0, .module m'⟩
      | none => .err := by
  obtain ⟨-, m1, p, hp, hr, e1⟩ := (read_module_iff _ _ _ _ _ (by decide) _ _).1 h
  cases e1
  have one : Seq TakenSec [s] v := by
    have := Seq.cons hs Seq.nil
    rwa [List.append_nil] at this
  have hrun : runAll ⟨[], [], []⟩ (p ++ [s]) = s.run m := by
    rw [runAll_append, hr]
    show (s.run m >>= fun m => some m) = s.run m
    cases s.run m <;> rfl
  rcases hm : s.run m with _ | m'
  · rcases read_returns (preamble l0 l1 ++ (x ++ v)) with ⟨d, e⟩ | e
    · obtain ⟨-, m3, q, hq, hr3, -⟩ := (read_module_iff _ _ _ _ _ (by decide) _ _).1 (read_rest _ _ _ _ e)
      obtain ⟨rest, rfl, hs'⟩ := seq_split hp hq
      obtain ⟨rest', e', hs''⟩ := seq_split (v := []) one (by rwa [List.append_nil])
      generalize et : ([] : List Byte) = t at hs''
      cases hs'' with
      | nil =>
        rw [List.append_nil] at e'
        rw [e', hrun, hm] at hr3
        cases hr3
      | cons ha hb =>
        have l := takenSec_length ha
        rw [(List.append_eq_nil_iff.1 et.symm).1] at l
        simp at l
    · exact e
  · have := (read_module_iff 0x01 0x00 l0 l1 (x ++ v) (by decide) _ _).2
      ⟨rfl, m', p ++ [s], seq_append' hp one, hrun.trans hm, rfl⟩
    exact congrArg Prod.fst this

/-- **C157.** An input that can be read can be cut after any of its sections. -/
theorem cut_at_section (l0 l1 : Byte) (pre : List Sec) (x y : List Byte) (hp : Seq TakenSec pre x) (d : Document)
    (h : (read (preamble l0 l1 ++ (x ++ y))).1 = .ok d) :
    ∃ m, read (preamble l0 l1 ++ x) = (.ok ⟨1, l1 ++ l0, .module m⟩, []) := by
  obtain ⟨-, m3, q, hq, hr3, -⟩ := (read_module_iff _ _ _ _ _ (by decide) _ _).1 (read_rest _ _ _ _ h)
  obtain ⟨rest, rfl, -⟩ := seq_split hp hq
  rw [runAll_append] at hr3
  rcases hm : runAll ⟨[], [], []⟩ pre with _ | m
  · rw [hm] at hr3
    cases hr3
  · exact ⟨m, (read_module_iff _ _ _ _ _ (by decide) _ _).2 ⟨rfl, m, pre, hp, hm, rfl⟩⟩

/-- **C157.** No later section makes up for one that was refused. -/
theorem refused_stays (l0 l1 : Byte) (pre : List Sec) (x y : List Byte) (hp : Seq TakenSec pre x)
    (h : (read (preamble l0 l1 ++ x)).1 = .err) : (read (preamble l0 l1 ++ (x ++ y))).1 = .err := by
  rcases read_returns (preamble l0 l1 ++ (x ++ y)) with ⟨d, e⟩ | e
  · obtain ⟨m, hm⟩ := cut_at_section l0 l1 pre x y hp d e
    rw [hm] at h
    cases h
  · exact e

/-! ## Cases that meet the hypotheses -/

/-- A section with one type. -/
def aType : List Byte := [0x01, 0x04, 0x01, 0x60, 0x00, 0x00]
/-- A section with the export of function 0 as `a`. -/
def anExport : List Byte := [0x07, 0x05, 0x01, 0x01, 0x61, 0x00, 0x00]
/-- A code section with one entry, for which there is no function. -/
def looseCode : List Byte := [0x0a, 0x04, 0x01, 0x02, 0x00, 0x0b]

/-- `read_so_far`: the type once and twice, and then an export. -/
example : read (preamble 0 0 ++ aType) = (.ok ⟨1, 0, .module ⟨[⟨[], []⟩], [], []⟩⟩, []) ∧
    read (preamble 0 0 ++ (aType ++ aType)) = (.ok ⟨1, 0, .module ⟨[⟨[], []⟩], [], []⟩⟩, []) ∧
    (read (preamble 0 0 ++ (aType ++ anExport))).1 = .ok ⟨1, 0, .module ⟨[⟨[], []⟩], [], [⟨[0x61], 0⟩]⟩⟩ := by decide

/-- `one_more_section`, `cut_at_section`. -/
example : TakenSec (.exports [⟨[0x61], 0⟩]) anExport ∧ Seq TakenSec [.types [⟨[], []⟩]] aType := by
  have k : anySection anExport = (.ok (.exports [⟨[0x61], 0⟩]), []) := by rfl
  have k' : readMany anySection 1 aType = (.ok [.types [⟨[], []⟩]], []) := by rfl
  obtain ⟨u, hu, hs⟩ := (takes_anySection.ok_iff _ _ _).1 k
  obtain ⟨u', hu', -, hs'⟩ := ((takes_many takes_anySection 1).ok_iff _ _ _).1 k'
  rw [List.append_nil] at hu hu'
  rw [← hu] at hs
  rw [← hu'] at hs'
  exact ⟨hs, hs'⟩

/-- `refused_stays`: the function comes too late. -/
example : (∃ c, Seq TakenSec [.code [c]] looseCode) ∧ (read (preamble 0 0 ++ looseCode)).1 = .err ∧
    (read (preamble 0 0 ++ (looseCode ++ [0x03, 0x02, 0x01, 0x00]))).1 = .err := by
  have k : readMany anySection 1 looseCode = (.ok [.code [([], [.end_])]], []) := by rfl
  obtain ⟨u, hu, -, hs⟩ := ((takes_many takes_anySection 1).ok_iff _ _ _).1 k
  rw [List.append_nil] at hu
  rw [← hu] at hs
  exact ⟨⟨_, hs⟩, by decide, by decide⟩

end Verif.Binary
