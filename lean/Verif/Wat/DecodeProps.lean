import Verif.Wat.Decode
import Verif.Wat.GrammarProps
import Verif.Wat.PrintProps

/-!
# Property C93: what the decoder of texts returns
-/

namespace Verif.Wat

namespace Spec

/-- The directive has everything that the tree has. -/
def Describes : Directive → ApiDirective → Prop
  | .module m, .module a => a.types = m.types ∧ a.funcs = m.functions ∧ a.tables = m.tables ∧ a.mems = m.memory ∧
      a.globals = m.globals
  | .component, .component isNil => isNil = false
  | _, _ => False

/-- The tree has nothing in it. -/
def Bare (m : Module) : Prop := m.types = [] ∧ m.functions = [] ∧ m.tables = [] ∧ m.memory = [] ∧ m.globals = []

end Spec

open Spec

/-- **C93**, what holds of it. `Decode` succeeds exactly if the reader gives its bytes without an error and their tokens begin
with a module or a component of the grammar, it returns a module for a module and a component for a component, and it
answers everything else with an error; what `NewDecoder` was given makes no difference. Missing: what is in the module, see
`decode_loses`. -/
theorem decode_accepts_partial (lib : Lib) (h : lib.Total) (own r : Source) (n : Nat) (hn : r.bytes.length < n) :
    ((∃ a, decode lib n own r = .ok (.module a)) ↔
      r.fails = false ∧ ∃ m ts rest, tokens r.bytes = ts ++ rest ∧ directive lib (.module m) ts) ∧
    ((∃ b, decode lib n own r = .ok (.component b)) ↔
      r.fails = false ∧ ∃ ts rest, tokens r.bytes = ts ++ rest ∧ directive lib .component ts) ∧
    ((∃ a, decode lib n own r = .ok a) ∨ decode lib n own r = .err) := by
  have hd := fun d => wat_accepted_iff lib h r.bytes n hn d
  have he := (wat_parser_ends lib h r.bytes n n hn hn).1
  have em : (∃ m ts rest, tokens r.bytes = ts ++ rest ∧ directive lib (.module m) ts) ↔
      ∃ m, parseText lib n r.bytes = .ok (.module m) := by
    simp only [hd]
  have ec : (∃ ts rest, tokens r.bytes = ts ++ rest ∧ directive lib .component ts) ↔
      parseText lib n r.bytes = .ok .component := (hd _).symm
  rw [em, ec]
  unfold decode Source.readAll
  cases hf : r.fails with
  | true => simp
  | false =>
    simp only [Bool.false_eq_true, if_false, Res.bind_ok, true_and]
    rcases he with ⟨d, he⟩ | he
    · cases d <;> simp [he, decodeDirective, decodeModule, decodeComponent]
    · simp [he]

/-- **C93**, negatively. Whatever the text of a module has in it, `Decode` returns the same empty module: it describes the
module of the text exactly if there is nothing in it. For a component it returns a nil pointer. -/
theorem decode_loses (lib : Lib) (h : lib.Total) (own r : Source) (hr : r.fails = false) (n : Nat) (hn : r.bytes.length < n)
    (d : Directive) (ts rest : List Sig) (ht : tokens r.bytes = ts ++ rest) (hd : directive lib d ts) :
    ∃ a, decode lib n own r = .ok a ∧ (Spec.Describes d a ↔ ∃ m, d = .module m ∧ Spec.Bare m) := by
  have hp := (wat_accepted_iff lib h r.bytes n hn d).2 ⟨ts, rest, ht, hd⟩
  unfold decode Source.readAll
  simp only [hr, Bool.false_eq_true, if_false, Res.bind_ok, hp]
  cases d with
  | component => exact ⟨_, rfl, by simp [Spec.Describes]⟩
  | module m =>
    refine ⟨_, rfl, ?_⟩
    simp only [Spec.Describes, Directive.module.injEq, Spec.Bare, eq_comm (a := ([] : List _))]
    exact ⟨fun k => ⟨m, rfl, k⟩, fun ⟨m', e, k⟩ => by subst e; exact k⟩

/-- **C93**, negatively. Two different modules, both of which can be written and parsed, are decoded to the same. -/
theorem decode_not_injective (lib : Lib) (h : lib.Total) (fl : Floats) (m m' : Module) (hm : Supported lib fl (.module m))
    (hm' : Supported lib fl (.module m')) (n : Nat) (hn : (print fl (.module m)).length < n)
    (hn' : (print fl (.module m')).length < n) (own : Source) :
    decode lib n own ⟨print fl (.module m), false⟩ = decode lib n own ⟨print fl (.module m'), false⟩ := by
  unfold decode Source.readAll
  simp only [Bool.false_eq_true, if_false, Res.bind_ok, print_parse_partial lib h fl _ hm n hn,
    print_parse_partial lib h fl _ hm' n hn']
  rfl

/-- A text that the decoder accepts and that is not empty. -/
example : ∃ d ts rest, tokens oddText = ts ++ rest ∧ directive someLib d ts ∧
    ∃ a, decode someLib 200 ⟨[], true⟩ ⟨oddText, false⟩ = .ok a ∧ ¬ Spec.Describes d a := by
  obtain ⟨d, h⟩ := oddText_accepted
  obtain ⟨ts, rest, e, hd⟩ := (wat_accepted_iff someLib someLib_total oddText 200 (by decide) d).1 h
  obtain ⟨a, h1, h2⟩ := decode_loses someLib someLib_total ⟨[], true⟩ ⟨oddText, false⟩ rfl 200 (by decide) d ts rest e hd
  refine ⟨d, ts, rest, e, hd, a, h1, fun k => ?_⟩
  obtain ⟨m, rfl, hb⟩ := h2.1 k
  have : (match parseText someLib 200 oddText with | .ok (.module m) => m.functions.isEmpty | _ => true) = false := by
    decide +kernel
  rw [h] at this
  simp [hb.2.1] at this

/-- A reader that fails, and one that has no module. -/
example : decode someLib 200 ⟨[], false⟩ ⟨oddText, true⟩ = .err := rfl
example : (match decode someLib 200 ⟨oddText, false⟩ ⟨[], false⟩ with | .err => true | _ => false) = true := by decide +kernel
/-- A component. -/
example : (match decode someLib 200 ⟨[], true⟩ ⟨txt "(component)", false⟩ with | .ok (.component b) => b | _ => false) = true := by
  decide +kernel

end Verif.Wat
