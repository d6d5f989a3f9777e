import Verif.Wast.Props
import Verif.Wat.GrammarProps
import Verif.Wat.BalanceProps

/-!
# C155: modules in scripts are read as by the WAT parser
-/

namespace Verif.Wast

open Verif.Wat (Lib Sig Stream TokenType lp rp kw someLib someLib_total)
open Verif.Wat.Spec (lexed inParens tokens Lang many par tok word str Balanced)
open Spec

namespace Spec

/-- What the WAT parser is to make of a text that is a script: the module or component at its begin, and an error if it begins
with anything else. -/
def firstModule : List Directive → Res Wat.Directive
  | .wat (.wat d) :: _ => .ok d
  | _ => .err

/-- The tokens are one group in parentheses and no more: no part at their begin has all its parentheses matched. -/
def OneForm (ts : List Sig) : Prop := ∀ p q, ts = p ++ q → p ≠ [] → Balanced p → q = []

/-- A directive in front of a script. -/
def putFirst (d : Directive) : Res (List Directive) → Res (List Directive)
  | .ok ds => .ok (d :: ds)
  | x => x

/-- An assertion about a module, if the module alone is a script. -/
def assertAbout (assertion : QuoteWat → Directive) : Res (List Directive) → Res (List Directive)
  | .ok [.wat q] => .ok [assertion q]
  | _ => .err

end Spec

theorem no_module (lib : Lib) (x : Directive) (ts us : List Sig) (h : directive lib x ts) (hx : ∀ d, x ≠ .wat (.wat d)) (d : Wat.Directive)
    (vs ws : List Sig) (hd : Wat.Spec.directive lib d vs) (e : ts ++ us = vs ++ ws) : False := by
  obtain ⟨b, t, r, rfl, ht⟩ := Grammar.directive_third lib d vs hd
  have quoted : ∀ (k : Sig) (s : List Byte), par (tok k ⬝ word (txt "quote") ⬝ str s) ts → False := by
    intro k s h
    obtain ⟨_, rfl, _, _, rfl, rfl, _, _, rfl, rfl, -, rfl⟩ := Wat.Grammar.par_inv h
    simp only [inParens, List.cons_append, List.nil_append, List.cons.injEq] at e
    obtain ⟨-, -, rfl, -⟩ := e
    rcases ht with ht | ht <;> exact ht rfl
  have asserted : ∀ (w : List Byte) (A : Lang), par (word w ⬝ A) ts → False := by
    intro w A h
    obtain ⟨_, rfl, _, _, rfl, rfl, -⟩ := Wat.Grammar.par_inv h
    simp only [inParens, List.cons_append, List.nil_append, List.cons.injEq] at e
    have := congrArg Sig.type e.2.1
    cases b <;> simp [kw, Grammar.keywordTok] at this
  cases x with
  | wat q =>
    cases q with
    | wat d' => exact hx d' rfl
    | quoteModule s => exact quoted _ s h
    | quoteComponent s => exact quoted _ s h
  | assertReturn a rs => exact asserted _ _ h
  | assertInvalid q s => exact asserted _ _ h
  | assertMalformed q s => exact asserted _ _ h
  | assertTrap a s => exact asserted _ _ h

/-- C155. Given an accepted script, the WAT parser returns the module or component with which it begins, the same that the script
parser returns, and an error if it begins with anything else. -/
theorem script_first_module (lib : Lib) (h : lib.Total) (text : List Byte) (n m : Nat) (hn : text.length + 1 < n) (hm : text.length < m)
    (ds : List Directive) (ha : parseScript lib n text = .ok ds) : Wat.parseText lib m text = firstModule ds := by
  obtain ⟨-, hs⟩ := (wast_accepted_iff lib h text n hn ds).1 ha
  cases ds with
  | nil =>
    refine (Wat.wat_refused_iff lib h text m hm).2 fun d ts rest e hd => ?_
    obtain ⟨b, t, r, rfl, -⟩ := Grammar.directive_third lib d ts hd
    rw [show tokens text = [] from hs] at e
    cases e
  | cons x ds =>
    obtain ⟨ts, us, e, hx, -⟩ := hs
    by_cases hw : ∃ d, x = .wat (.wat d)
    · obtain ⟨d, rfl⟩ := hw
      exact (Wat.wat_accepted_iff lib h text m hm d).2 ⟨ts, us, e, hx⟩
    · have hf : firstModule (x :: ds) = .err := by
        unfold firstModule
        split
        · rename_i d _ e'
          cases e'
          exact absurd ⟨_, rfl⟩ hw
        · rfl
      rw [hf]
      refine (Wat.wat_refused_iff lib h text m hm).2 fun d vs ws e' hd => ?_
      exact no_module lib x ts us hx (fun d' h => hw ⟨d', h⟩) d vs ws hd (e.symm.trans e')

theorem script_split (lib : Lib) (ds es : List Directive) (ts : List Sig) (h : script lib (ds ++ es) ts) :
    ∃ a b, ts = a ++ b ∧ script lib ds a ∧ script lib es b := by
  induction ds generalizing ts with
  | nil => exact ⟨[], ts, rfl, rfl, h⟩
  | cons x ds ih =>
    obtain ⟨a, b, rfl, hx, hb⟩ := h
    obtain ⟨c, d, rfl, hc, hd⟩ := ih b hb
    exact ⟨a ++ c, d, by simp, ⟨a, c, rfl, hx, hc⟩, hd⟩

/-- C155, for modules anywhere in a script: from some place on in the tokens of an accepted script, the WAT parser reads the module
that is at that place among the directives. What is before that place is accepted as the directives before. -/
theorem script_module_anywhere (lib : Lib) (h : lib.Total) (text : List Byte) (n : Nat) (hn : text.length + 1 < n)
    (ds es : List Directive) (d : Wat.Directive) (ha : parseScript lib n text = .ok (ds ++ .wat (.wat d) :: es)) :
    ∃ a b, tokens text = a ++ b ∧ (∀ t m, t.length < m → tokens t = b → Wat.parseText lib m t = .ok d) ∧
      ∀ t m, t.length + 1 < m → (lexed t).2 = true → tokens t = a → parseScript lib m t = .ok ds := by
  obtain ⟨-, hs⟩ := (wast_accepted_iff lib h text n hn _).1 ha
  obtain ⟨a, b, e, h1, ts, us, rfl, h2, -⟩ := script_split lib ds _ _ hs
  refine ⟨a, _, e, fun t m hm ht => ?_, fun t m hm hl ht => ?_⟩
  · exact (Wat.wat_accepted_iff lib h t m hm d).2 ⟨ts, us, ht, h2⟩
  · exact (wast_accepted_iff lib h t m hm ds).2 ⟨hl, ht ▸ h1⟩

theorem module_oneForm (lib : Lib) (d : Wat.Directive) (ts : List Sig) (hd : Wat.Spec.directive lib d ts) : OneForm ts := by
  intro p q e hp hb
  obtain ⟨us, rfl, hu⟩ := Wat.directive_balanced lib d ts hd
  exact Decidable.byContradiction fun hq => Wat.inParens_least hu p q e hp hq hb

theorem oneForm_module (lib : Lib) (d : Wat.Directive) (ts rest : List Sig) (hd : Wat.Spec.directive lib d ts) (ho : OneForm (ts ++ rest)) :
    rest = [] := by
  obtain ⟨us, rfl, hu⟩ := Wat.directive_balanced lib d ts hd
  exact ho _ rest rfl (by simp [inParens]) (.inParens hu)

/-- C155. A text is accepted as a script of one module exactly if it can be cut into tokens up to its end, is one group in
parentheses, and is accepted by the WAT parser as that module. -/
theorem module_is_script (lib : Lib) (h : lib.Total) (text : List Byte) (n m : Nat) (hn : text.length + 1 < n) (hm : text.length < m)
    (d : Wat.Directive) : parseScript lib n text = .ok [.wat (.wat d)] ↔
      (lexed text).2 = true ∧ OneForm (tokens text) ∧ Wat.parseText lib m text = .ok d := by
  rw [wast_accepted_iff lib h text n hn, Wat.wat_accepted_iff lib h text m hm]
  constructor
  · rintro ⟨he, ts, us, e, hd, hu⟩
    cases hu
    rw [List.append_nil] at e
    rw [e]
    exact ⟨he, module_oneForm lib d ts hd, ts, [], by simp, hd⟩
  · rintro ⟨he, ho, ts, rest, e, hd⟩
    rw [e] at ho
    obtain rfl := oneForm_module lib d ts rest hd ho
    exact ⟨he, ts, [], e, hd, rfl⟩

/-- C155. A module that the WAT parser accepts can be put in front of a script: the script is accepted exactly if it was before,
and begins with that module. -/
theorem module_before_script (lib : Lib) (h : lib.Total) (t t' text : List Byte) (m n n' : Nat) (hm : t.length < m)
    (hn : text.length + 1 < n) (hn' : t'.length + 1 < n') (ho : OneForm (tokens t)) (d : Wat.Directive)
    (hd : Wat.parseText lib m t = .ok d) (e : tokens text = tokens t ++ tokens t') (hl : (lexed text).2 = (lexed t').2) :
    parseScript lib n text = putFirst (.wat (.wat d)) (parseScript lib n' t') := by
  obtain ⟨ts, rest, e1, hd⟩ := (Wat.wat_accepted_iff lib h t m hm d).1 hd
  rw [e1] at ho
  obtain rfl := oneForm_module lib d ts rest hd ho
  rw [List.append_nil] at e1
  rw [e1] at e
  have hone : script lib [.wat (.wat d)] ts := ⟨ts, [], by simp, hd, rfl⟩
  have key : ∀ es, parseScript lib n text = .ok es ↔ ∃ ds, parseScript lib n' t' = .ok ds ∧ es = .wat (.wat d) :: ds := by
    intro es
    rw [wast_accepted_iff lib h text n hn, e, hl]
    constructor
    · rintro ⟨he, hs⟩
      obtain ⟨fs, rfl, hf⟩ := script_drop lib _ es ts _ hone hs
      exact ⟨fs, (wast_accepted_iff lib h t' n' hn' fs).2 ⟨he, hf⟩, rfl⟩
    · rintro ⟨ds, hs, rfl⟩
      obtain ⟨he, hs⟩ := (wast_accepted_iff lib h t' n' hn' ds).1 hs
      exact ⟨he, ts, _, rfl, hd, hs⟩
  rcases (wast_parser_ends lib h t' n' n' hn' hn').1 with ⟨ds, hs⟩ | hs
  · rw [hs]
    exact (key _).2 ⟨ds, hs, rfl⟩
  · rcases (wast_parser_ends lib h text n n hn hn).1 with ⟨es, hs'⟩ | hs'
    · obtain ⟨ds, h1, -⟩ := (key es).1 hs'
      rw [hs] at h1
      cases h1
    · rw [hs, hs']
      rfl

/-- Where the text of a module ends, before a string and a closing parenthesis. -/
theorem balanced_end (M M' b : List Sig) (x y : List Byte) (h : Balanced M) (h' : Balanced M')
    (e : M' ++ ⟨.string, x⟩ :: rp :: b = M ++ [⟨.string, y⟩, rp]) : M' = M ∧ x = y ∧ b = [] := by
  rcases List.append_eq_append_iff.1 e with ⟨k, rfl, e'⟩ | ⟨k, rfl, e'⟩
  · match k, e' with
    | [], e' => simpa using e'
    | [z], e' =>
      simp only [List.cons_append, List.nil_append, List.cons.injEq] at e'
      have := congrArg Sig.type e'.2.1
      simp [rp] at this
    | z :: z' :: k, e' =>
      exfalso
      simp only [List.cons_append, List.cons.injEq] at e'
      obtain ⟨rfl, rfl, -⟩ := e'
      have h1 := Wat.balanced_prefix h (M' ++ [⟨.string, x⟩, rp]) k (by simp)
      have h2 := Wat.balanced_count h'
      simp only [Wat.count, rp] at h1 h2
      simp at h1
      omega
  · match k, e' with
    | [], e' => simpa using e'.symm
    | [z], e' =>
      have := congrArg List.length e'
      simp at this
    | z :: z' :: k, e' =>
      have := congrArg List.length e'
      simp at this

/-- C155. The module in an assertion that it is invalid or malformed is read as it would be if it were the whole script: the
assertion is accepted exactly if that script is accepted and has only that module. -/
theorem asserted_module (lib : Lib) (h : lib.Total) (t text : List Byte) (n n' : Nat) (hn : text.length + 1 < n)
    (hn' : t.length + 1 < n') (w s : List Byte) (assertion : QuoteWat → Directive)
    (hw : w = txt "assert_invalid" ∧ assertion = (.assertInvalid · s) ∨ w = txt "assert_malformed" ∧ assertion = (.assertMalformed · s))
    (hs : ch '"' ∉ s) (hb : Balanced (tokens t)) (e : tokens text = lp :: kw w :: (tokens t ++ [⟨.string, ch '"' :: s ++ [ch '"']⟩, rp]))
    (hl : (lexed text).2 = (lexed t).2) :
    parseScript lib n text = assertAbout assertion (parseScript lib n' t) := by
  have hpar : ∀ (q : QuoteWat), quoteWat lib q (tokens t) → directive lib (assertion q) (tokens text) := by
    intro q hq
    rw [e]
    rcases hw with ⟨rfl, rfl⟩ | ⟨rfl, rfl⟩ <;>
      exact ⟨[lp], _, rfl, rfl, kw _ :: (tokens t ++ [⟨.string, ch '"' :: s ++ [ch '"']⟩]), [rp], by simp,
        ⟨[kw _], _, rfl, rfl, tokens t, [_], rfl, hq, hs, rfl⟩, rfl⟩
  have key : ∀ es, parseScript lib n text = .ok es ↔ ∃ q, parseScript lib n' t = .ok [.wat q] ∧ es = [assertion q] := by
    intro es
    rw [wast_accepted_iff lib h text n hn, hl]
    constructor
    · rintro ⟨he, hes⟩
      cases es with
      | nil => rw [show tokens text = [] from hes] at e; cases e
      | cons x es =>
        obtain ⟨a, b, e1, hx, hes⟩ := hes
        rw [e] at e1
        have asserted : ∀ (v : List Byte) (A : Lang), par (word v ⬝ A) a → v = w ∧ ∃ us, A us ∧ us ++ rp :: b =
            tokens t ++ [⟨.string, ch '"' :: s ++ [ch '"']⟩, rp] := by
          intro v A h
          obtain ⟨_, rfl, _, us, rfl, rfl, hA⟩ := Wat.Grammar.par_inv h
          simp only [inParens, List.cons_append, List.nil_append, List.cons.injEq, true_and, List.append_assoc] at e1
          exact ⟨(congrArg Sig.capture e1.1).symm, us, hA, e1.2.symm⟩
        have done_ : ∀ (q : QuoteWat) (s' : List Byte) (us : List Sig), (quoteWat lib q ⬝ str s') us →
            us ++ rp :: b = tokens t ++ [⟨.string, ch '"' :: s ++ [ch '"']⟩, rp] →
            quoteWat lib q (tokens t) ∧ s' = s ∧ b = [] := by
          rintro q s' _ ⟨M', _, rfl, hq, -, rfl⟩ e2
          obtain ⟨rfl, h2, h3⟩ := balanced_end (tokens t) M' b _ _ hb (quoteWat_balances lib q M' hq) (by simpa using e2)
          refine ⟨hq, ?_, h3⟩
          simpa using h2
        have fin : ∀ q, quoteWat lib q (tokens t) → b = [] → x = assertion q →
            ∃ q, parseScript lib n' t = .ok [.wat q] ∧ x :: es = [assertion q] := by
          rintro q hq rfl rfl
          have : es = [] := by
            cases es with
            | nil => rfl
            | cons y es =>
              obtain ⟨c, d, e3, hy, -⟩ := hes
              obtain ⟨r, rfl⟩ := Grammar.directive_head lib y c hy
              cases e3
          subst this
          exact ⟨q, (wast_accepted_iff lib h t n' hn' _).2 ⟨he, tokens t, [], by simp, hq, rfl⟩, rfl⟩
        cases x with
        | wat q =>
          exfalso
          obtain ⟨k, r, rfl⟩ := Grammar.quoteWat_second lib q a hx
          simp only [List.cons_append, List.cons.injEq, true_and] at e1
          have := congrArg Sig.type e1.1
          cases k <;> simp [kw, Grammar.keywordTok] at this
        | assertReturn c rs =>
          obtain ⟨h1, -⟩ := asserted _ _ hx
          rcases hw with ⟨rfl, -⟩ | ⟨rfl, -⟩ <;> exact absurd h1 (by decide)
        | assertTrap c s' =>
          obtain ⟨h1, -⟩ := asserted _ _ hx
          rcases hw with ⟨rfl, -⟩ | ⟨rfl, -⟩ <;> exact absurd h1 (by decide)
        | assertInvalid q s' =>
          obtain ⟨h1, us, h2, h3⟩ := asserted _ _ hx
          obtain ⟨h4, rfl, h5⟩ := done_ q s' us h2 h3
          rcases hw with ⟨rfl, rfl⟩ | ⟨rfl, -⟩
          · exact fin q h4 h5 rfl
          · exact absurd h1 (by decide)
        | assertMalformed q s' =>
          obtain ⟨h1, us, h2, h3⟩ := asserted _ _ hx
          obtain ⟨h4, rfl, h5⟩ := done_ q s' us h2 h3
          rcases hw with ⟨rfl, -⟩ | ⟨rfl, rfl⟩
          · exact absurd h1 (by decide)
          · exact fin q h4 h5 rfl
    · rintro ⟨q, hq, rfl⟩
      obtain ⟨he, a, b, e1, ha, hb⟩ := (wast_accepted_iff lib h t n' hn' _).1 hq
      cases hb
      rw [List.append_nil] at e1
      exact ⟨he, tokens text, [], by simp, hpar q (e1 ▸ ha), rfl⟩
  rcases (wast_parser_ends lib h text n n hn hn).1 with ⟨es, hs'⟩ | hs'
  · obtain ⟨q, h1, rfl⟩ := (key es).1 hs'
    rw [hs', h1]
    rfl
  · rw [hs']
    unfold assertAbout
    split
    · rename_i q hq
      rw [(key _).2 ⟨q, hq, rfl⟩] at hs'
      cases hs'
    · rfl

/-- **Modules that are not whole.** If the parentheses of what is put in an assertion do not match, the assertion may be
accepted though the module alone is not. -/
theorem asserted_unbalanced :
    (parseScript someLib 100 (txt "(module) \"x\") (assert_invalid (module)") matches .err) ∧
    (parseScript someLib 100 (txt "(assert_invalid (module) \"x\") (assert_invalid (module) \"s\")") matches .ok [_, _]) := by
  decide +kernel

/-! ## Cases that meet the hypotheses -/

/-- Whether an outcome is a script of one module. -/
def isOneModule : Res (List Directive) → Bool
  | .ok [.wat (.wat _)] => true
  | _ => false

theorem isOneModule_spec {x : Res (List Directive)} (h : isOneModule x = true) : ∃ d, x = .ok [.wat (.wat d)] := by
  unfold isOneModule at h
  split at h
  · exact ⟨_, rfl⟩
  · cases h

/-- A script of a module and an assertion, and one that begins with an assertion. -/
example :
    (parseScript someLib 100 (txt "(module (memory 1)) (assert_invalid (module (func)) \"no\")") matches .ok [.wat (.wat _), _]) ∧
    (parseScript someLib 100 (txt "(module quote \"x\") (module)") matches .ok [.wat (.quoteModule _), _]) ∧
    (Wat.parseText someLib 100 (txt "(module (memory 1)) (assert_invalid (module (func)) \"no\")") matches .ok (.module _)) ∧
    (Wat.parseText someLib 100 (txt "(module quote \"x\") (module)") matches .err) := by decide +kernel

/-- A module as the WAT parser takes it, put in front of a script. -/
example : OneForm (tokens (txt "(module (memory 1))")) ∧
    (Wat.parseText someLib 100 (txt "(module (memory 1))") matches .ok _) ∧
    tokens (txt "(module (memory 1)) ;; c\n(module)") = tokens (txt "(module (memory 1))") ++ tokens (txt "(module)") ∧
    (lexed (txt "(module (memory 1)) ;; c\n(module)")).2 = (lexed (txt "(module)")).2 := by
  refine ⟨?_, by decide +kernel, by decide +kernel, by decide +kernel⟩
  have : isOneModule (parseScript someLib 100 (txt "(module (memory 1))")) = true := by decide +kernel
  obtain ⟨d, hd⟩ := isOneModule_spec this
  exact ((module_is_script someLib someLib_total _ 100 100 (by decide +kernel) (by decide +kernel) d).1 hd).2.1

/-- An assertion about a module. -/
example :
    tokens (txt "(assert_invalid (module (func)) \"no\")") = lp :: kw (txt "assert_invalid") ::
      (tokens (txt "(module (func))") ++ [⟨.string, ch '"' :: txt "no" ++ [ch '"']⟩, rp]) ∧
    (lexed (txt "(assert_invalid (module (func)) \"no\")")).2 = (lexed (txt "(module (func))")).2 ∧
    (parseScript someLib 100 (txt "(module (func))") matches .ok [.wat (.wat _)]) := by decide +kernel
example : Balanced (tokens (txt "(module (func))")) := by
  have : tokens (txt "(module (func))") = inParens (⟨.module, txt "module"⟩ :: inParens [kw (txt "func")]) := by decide +kernel
  rw [this]
  exact .inParens (.other (by simp) (by simp) (.inParens (.one (by simp [kw]) (by simp [kw]))))

end Verif.Wast
