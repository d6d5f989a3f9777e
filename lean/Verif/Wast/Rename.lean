import Verif.Wast.Props
import Verif.Wat.RenameProps

/-!
# C156: the script parser does not look at names
-/

namespace Verif.Wast

open Verif.Wat (Lib Sig lp rp kw someLib someLib_total Ren renTok_name renTok_not renTok_type map_inParens)
open Verif.Wat.Spec (lexed tokens Lang renTok renString KeepsStrings isName PlainString)
open Spec

namespace Spec

variable (r : List Byte → List Byte)

/-- A call with its names renamed; the constants stay. -/
def renInvoke (i : Invoke) : Invoke := ⟨i.name.map r, renString r i.string, i.const⟩

/-- A module or component with its names renamed, or its text replaced. -/
def renQuoteWat : QuoteWat → QuoteWat
  | .wat d => .wat (Wat.Spec.renDirective r d)
  | .quoteModule s => .quoteModule (renString r s)
  | .quoteComponent s => .quoteComponent (renString r s)

/-- A directive with its names and messages renamed; the results stay. -/
def renScriptDirective : Directive → Directive
  | .wat q => .wat (renQuoteWat r q)
  | .assertReturn a rs => .assertReturn (a.map (renInvoke r)) rs
  | .assertInvalid q s => .assertInvalid (renQuoteWat r q) (renString r s)
  | .assertMalformed q s => .assertMalformed (renQuoteWat r q) (renString r s)
  | .assertTrap a s => .assertTrap (a.map (renInvoke r)) (renString r s)

/-- What comes of a script, with the names renamed. -/
def renScript : Res (List Directive) → Res (List Directive)
  | .ok ds => .ok (ds.map (renScriptDirective r))
  | x => x

end Spec

variable {r : List Byte → List Byte} {lib : Lib}

theorem ren_const : (c : Option Const) → Ren r (const lib c) (const lib c)
  | some (.i32 _) => (Ren.word _).cat Ren.int32
  | some (.i64 _) => (Ren.word _).cat Ren.int64
  | some (.f32 _) => (Ren.word _).cat Ren.float32
  | some (.f64 _) => (Ren.word _).cat (Ren.float64.alt (Ren.only id))
  | none => (Ren.word _).alt (Ren.word _)

theorem ren_consts (cs : List (Option Const)) :
    Ren r (Wat.Spec.many (fun c => Wat.Spec.par (const lib c)) cs) (Wat.Spec.many (fun c => Wat.Spec.par (const lib c)) cs) := by
  have := Ren.many (r := r) (item := fun c => Wat.Spec.par (const lib c)) (item' := fun c => Wat.Spec.par (const lib c)) (f := id)
    (fun c => Ren.par (ren_const c)) cs
  rwa [List.map_id] at this

theorem ren_results (cs : List Const) (ts : List Sig) (hn : KeepsStrings r ts) (h : IsResults lib cs ts) :
    IsResults lib cs (ts.map (renTok r)) := by
  induction h with
  | nil => exact .nil
  | const hc _ ih =>
    rw [List.map_append]
    exact .const (Ren.par (ren_const _) _ hn.left hc) (ih hn.right)
  | ref hc _ ih =>
    rw [List.map_cons, List.map_append]
    exact .ref (ren_const none _ hn.tail.left hc) (ih hn.tail.right)

theorem ren_action : (a : Option Invoke) → Ren r (action lib a) (action lib (a.map (renInvoke r)))
  | some _ => Ren.par ((Ren.word _).cat (Ren.optIdent.cat (Ren.str.cat (ren_consts _))))
  | none => Ren.par fun _ _ ⟨w, h1, h2, e⟩ => ⟨w, h1, h2, by rw [e]; rfl⟩

theorem ren_quoteWat : (q : QuoteWat) → Ren r (quoteWat lib q) (quoteWat lib (renQuoteWat r q))
  | .wat d => Wat.ren_directive d
  | .quoteModule _ => Ren.par ((Ren.tok rfl).cat ((Ren.word _).cat Ren.str))
  | .quoteComponent _ => Ren.par ((Ren.tok rfl).cat ((Ren.word _).cat Ren.str))

theorem ren_scriptDirective : (d : Directive) → Ren r (directive lib d) (directive lib (renScriptDirective r d))
  | .wat q => ren_quoteWat q
  | .assertReturn a rs => Ren.par ((Ren.word _).cat ((ren_action a).cat fun ts hn h => ren_results rs ts hn h))
  | .assertInvalid q _ => Ren.par ((Ren.word _).cat ((ren_quoteWat q).cat Ren.str))
  | .assertMalformed q _ => Ren.par ((Ren.word _).cat ((ren_quoteWat q).cat Ren.str))
  | .assertTrap a _ => Ren.par ((Ren.word _).cat ((ren_action a).cat Ren.str))

/-- C156, accepted scripts. If two texts have the same tokens but for the identifiers and strings, of which the second has others,
and the first is accepted, then so is the second, and its directives are those of the first with the names renamed. -/
theorem script_rename_accepted (lib : Lib) (hlib : lib.Total) (r : List Byte → List Byte) (text text' : List Byte) (n m : Nat)
    (hn : text.length + 1 < n) (hm : text'.length + 1 < m) (hl : (lexed text').2 = (lexed text).2)
    (ht : tokens text' = (tokens text).map (renTok r)) (hs : KeepsStrings r (tokens text)) (ds : List Directive)
    (h : parseScript lib n text = .ok ds) : parseScript lib m text' = .ok (ds.map (renScriptDirective r)) := by
  obtain ⟨he, hd⟩ := (wast_accepted_iff lib hlib text n hn ds).1 h
  refine (wast_accepted_iff lib hlib text' m hm _).2 ⟨hl.trans he, ?_⟩
  rw [ht]
  exact Ren.many (fun d => ren_scriptDirective d) ds _ hs hd

/-- C156. If two texts have the same tokens but for the identifiers and strings, which in the second text are renamed so that
different ones stay different, then what comes of the second is what comes of the first, renamed: directives with the names
renamed, or an error. -/
theorem script_rename (lib : Lib) (hlib : lib.Total) (r : List Byte → List Byte) (text text' : List Byte) (n m : Nat)
    (hn : text.length + 1 < n) (hm : text'.length + 1 < m) (hl : (lexed text').2 = (lexed text).2)
    (ht : tokens text' = (tokens text).map (renTok r)) (hs : KeepsStrings r (tokens text))
    (hi : ∀ s ∈ tokens text, ∀ t ∈ tokens text, isName s → isName t → r s.capture = r t.capture → s.capture = t.capture) :
    parseScript lib m text' = renScript r (parseScript lib n text) := by
  rcases (wast_parser_ends lib hlib text n n hn hn).1 with ⟨a, e⟩ | e
  · rw [e]
    exact script_rename_accepted lib hlib r text text' n m hn hm hl ht hs a e
  · rw [e]
    rcases (wast_parser_ends lib hlib text' m m hm hm).1 with ⟨b, e'⟩ | e'
    · exfalso
      classical
      let q : List Byte → List Byte := fun w =>
        if h : ∃ t ∈ tokens text, isName t ∧ r t.capture = w then h.choose.capture else w
      have hq : ∀ t ∈ tokens text, isName t → q (r t.capture) = t.capture := fun t h k => by
        have hx : ∃ s ∈ tokens text, isName s ∧ r s.capture = r t.capture := ⟨t, h, k, rfl⟩
        show (if h : ∃ s ∈ tokens text, isName s ∧ r s.capture = r t.capture then h.choose.capture else _) = _
        rw [dif_pos hx]
        exact hi _ hx.choose_spec.1 _ h hx.choose_spec.2.1 k hx.choose_spec.2.2
      have := script_rename_accepted lib hlib q text' text m n hm hn hl.symm (by
        rw [ht, List.map_map]
        refine (List.map_id _).symm.trans (List.map_congr_left fun t h => ?_)
        show t = renTok q (renTok r t)
        by_cases k : isName t
        · rw [renTok_name t k, renTok_name ⟨t.type, r t.capture⟩ k]
          show t = ⟨t.type, q (r t.capture)⟩
          rw [hq t h k]
        · rw [renTok_not t k, renTok_not t k]) (by
        rw [ht]
        intro t h h1
        obtain ⟨s, hs', rfl⟩ := List.mem_map.1 h
        rw [renTok_type] at h1
        rw [renTok_name s (.inr h1)]
        show PlainString (q (r s.capture)) ↔ PlainString (r s.capture)
        rw [hq s hs' (.inr h1)]
        exact (hs s hs' h1).symm) b e'
      rw [e] at this
      cases this
    · exact e'

/-- **What is not a name is looked at.** The word of an action is no identifier and no string: with another word the action is
lost. -/
theorem action_word_is_no_name :
    (parseScript someLib 100 (txt "(assert_return (invoke \"f\"))") matches .ok [.assertReturn (some _) []]) ∧
    (parseScript someLib 100 (txt "(assert_return (call))") matches .ok [.assertReturn none []]) := by
  decide +kernel

/-! ## Cases that meet the hypotheses -/

/-- A renaming of an identifier, the name of a function and a message. -/
def scriptRenaming (w : List Byte) : List Byte :=
  if w = txt "$m" then txt "$other" else if w = txt "\"f\"" then txt "\"g\"" else if w = txt "\"g\"" then txt "\"the end\"" else w

/-- A script with names and messages. -/
def namedScript : List Byte :=
  txt "(module (func $m (export \"f\"))) (assert_return (invoke $m \"f\" (i32.const 1)) (i32.const 2)) (assert_trap (invoke \"f\") \"g\")"

/-- The script with other names and a comment. -/
def renamedScript : List Byte :=
  txt "(module (func $other (export \"g\"))) (; c ;) (assert_return (invoke $other \"g\" (i32.const 1)) (i32.const 2)) (assert_trap (invoke \"g\") \"the end\")"

/-- The hypotheses are met. -/
example : (lexed renamedScript).2 = (lexed namedScript).2 ∧ tokens renamedScript = (tokens namedScript).map (renTok scriptRenaming) := by
  decide +kernel
example : (∀ t ∈ tokens namedScript, t.type = .string → (PlainString (scriptRenaming t.capture) ↔ PlainString t.capture)) ∧
    (∀ s ∈ tokens namedScript, ∀ t ∈ tokens namedScript, isName s → isName t →
      scriptRenaming s.capture = scriptRenaming t.capture → s.capture = t.capture) := by decide +kernel
example : parseScript someLib 200 namedScript matches .ok [.wat _, .assertReturn (some _) [_], .assertTrap (some _) _] := by
  decide +kernel

end Verif.Wast
