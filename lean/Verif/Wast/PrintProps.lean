import Verif.Wast.Props

/-!
# Scripts survive printing and parsing: C87
-/

namespace Verif.Wast

open Verif.Wat
open Verif.Wat.Spec hiding directive
open Spec

namespace Spec

/-- The tokens of a constant. -/
def constToks (fl : Floats) : Option Const → List Sig
  | some (.i32 v) => [kw (txt "i32.const"), number v.toNat]
  | some (.i64 v) => [kw (txt "i64.const"), signed v.toInt]
  | some (.f32 v) => [kw (txt "f32.const"), ⟨.float, fl.show32 v⟩]
  | some (.f64 v) => [kw (txt "f64.const"), ⟨.float, fl.show64 v⟩]
  | none => [kw (txt "ref.null")]

/-- A string in quotes. -/
def strTok (s : List Byte) : Sig := ⟨.string, ch '"' :: s ++ [ch '"']⟩

/-- The tokens of an action. -/
def actionToks (fl : Floats) : Option Invoke → List Sig
  | none => []
  | some i => inParens (kw (txt "invoke") :: (idToks i.name ++ (strTok i.string :: i.const.flatMap fun c => inParens (constToks fl c))))

/-- The tokens of a module or component, or of the text of one. -/
def quoteToks (fl : Floats) : QuoteWat → List Sig
  | .wat d => directiveToks fl d
  | .quoteModule s => inParens [⟨.module, txt "module"⟩, kw (txt "quote"), strTok s]
  | .quoteComponent s => inParens [⟨.component, txt "component"⟩, kw (txt "quote"), strTok s]

/-- The tokens of a directive. -/
def dirToks (fl : Floats) : Directive → List Sig
  | .wat q => quoteToks fl q
  | .assertReturn a rs =>
    inParens (kw (txt "assert_return") :: (actionToks fl a ++ rs.flatMap fun r => inParens (constToks fl (some r))))
  | .assertInvalid q s => inParens (kw (txt "assert_invalid") :: (quoteToks fl q ++ [strTok s]))
  | .assertMalformed q s => inParens (kw (txt "assert_malformed") :: (quoteToks fl q ++ [strTok s]))
  | .assertTrap a s => inParens (kw (txt "assert_trap") :: (actionToks fl a ++ [strTok s]))

/-- The text of a script: its tokens with spaces between them. -/
def printScript (fl : Floats) (ds : List Directive) : List Byte := sep ((ds.flatMap (dirToks fl)).map (·.capture))

/-- Constants the parser supports, as for instructions. -/
def ConstOk (lib : Lib) (fl : Floats) : Option Const → Prop
  | some (.i32 _) => True
  | some (.i64 v) => -2 ^ 31 ≤ v.toInt ∧ v.toInt < 2 ^ 32
  | some (.f32 v) => Written ⟨.float, fl.show32 v⟩ ∧ ConstFloat32 (fun w v => lib.parseFloat32 w = .ok v) (fl.show32 v) v
  | some (.f64 v) => Written ⟨.float, fl.show64 v⟩ ∧ lib.parseFloat64 (fl.show64 v) = .ok v
  | none => True

/-- There is an action, its name is a name, there is no quote in what it calls, and its arguments are supported. -/
def ActionOk (lib : Lib) (fl : Floats) : Option Invoke → Prop
  | none => False
  | some i => OptName i.name ∧ ch '"' ∉ i.string ∧ ∀ c ∈ i.const, ConstOk lib fl c

/-- The module is supported, or there is no quote in its text. -/
def QuoteOk (lib : Lib) (fl : Floats) : QuoteWat → Prop
  | .wat d => Supported lib fl d
  | .quoteModule s => ch '"' ∉ s
  | .quoteComponent s => ch '"' ∉ s

/-- The directives the parser supports. -/
def DirOk (lib : Lib) (fl : Floats) : Directive → Prop
  | .wat q => QuoteOk lib fl q
  | .assertReturn a rs => ActionOk lib fl a ∧ ∀ r ∈ rs, ConstOk lib fl (some r)
  | .assertInvalid q s => QuoteOk lib fl q ∧ ch '"' ∉ s
  | .assertMalformed q s => QuoteOk lib fl q ∧ ch '"' ∉ s
  | .assertTrap a s => ActionOk lib fl a ∧ ch '"' ∉ s

end Spec

/-! ## Modules are in the grammar -/

theorem directiveToks_directive (lib : Lib) (fl : Floats) (d : Wat.Directive) (h : Supported lib fl d) :
    Wat.Spec.directive lib d (directiveToks fl d) := by
  obtain ⟨N, hN⟩ := reads_directive lib fl d h
  have e : significant (print fl d) = ⟨directiveToks fl d, true⟩ := significant_sep _ (written_directive lib fl d h)
  have fine := significant_fine (print fl d)
  rw [e] at fine
  obtain ⟨ts, e', hd⟩ := Wat.Grammar.parse_reads (P := Wat.Grammar.Always) lib N _ fine trivial d _ (hN N (Nat.le_refl _))
  have : directiveToks fl d = ts := by
    have := congrArg Stream.toks e'
    simpa [Stream.push] using this
  rw [this]
  exact hd

theorem par_inParens {A : Lang} {ts : List Sig} (h : A ts) : par A (inParens ts) := Wat.Grammar.par_of (us := [rp]) h rfl

theorem constToks_const (lib : Lib) (fl : Floats) (c : Option Const) (h : ConstOk lib fl c) :
    const lib c (constToks fl c) ∧ AllWritten (constToks fl c) := by
  rcases c with _ | c
  · exact ⟨.inl rfl, .cons (written_kw _ (by decide)) .nil⟩
  · cases c with
    | i32 v =>
      obtain ⟨h1, h2⟩ := number_int32 v
      exact ⟨⟨[_], [_], rfl, rfl, _, _, (integerValue_iff _ _).1 h1, h2.symm, rfl⟩, .cons (written_kw _ (by decide)) (.cons (written_number _) .nil)⟩
    | i64 v =>
      obtain ⟨h1, h2⟩ := signed_int64 v h
      exact ⟨⟨[_], [_], rfl, rfl, _, _, (integerValue_iff _ _).1 h1, h2.symm, rfl⟩, .cons (written_kw _ (by decide)) (.cons (written_signed _) .nil)⟩
    | f32 v => exact ⟨⟨[_], [_], rfl, rfl, .inl ⟨_, h.2, rfl⟩⟩, .cons (written_kw _ (by decide)) (.cons h.1 .nil)⟩
    | f64 v => exact ⟨⟨[_], [_], rfl, rfl, .inl (.inl ⟨_, h.2, rfl⟩)⟩, .cons (written_kw _ (by decide)) (.cons h.1 .nil)⟩

theorem many_flatMap {α : Type} {A : α → Lang} {f : α → List Sig} (xs : List α) (h : ∀ x ∈ xs, A x (f x)) : many A xs (xs.flatMap f) := by
  induction xs with
  | nil => rfl
  | cons x xs ih => exact ⟨f x, xs.flatMap f, rfl, h x (by simp), ih fun y hy => h y (by simp [hy])⟩

theorem actionToks_action (lib : Lib) (fl : Floats) (a : Option Invoke) (h : ActionOk lib fl a) :
    action lib a (actionToks fl a) ∧ AllWritten (actionToks fl a) := by
  cases a with
  | none => exact h.elim
  | some i =>
    obtain ⟨h1, h2, h3⟩ := h
    constructor
    · refine par_inParens ⟨[_], _, rfl, rfl, idToks i.name, _, rfl, ?_, [strTok i.string], _, rfl, ⟨h2, rfl⟩, ?_⟩
      · cases i.name <;> rfl
      · exact many_flatMap _ fun c hc => par_inParens (constToks_const lib fl c (h3 c hc)).1
    · refine AllWritten.inParens (.cons (written_kw _ (by decide)) ((written_optName _ h1).append (.cons (.string _ h2) ?_)))
      exact .flatMap fun c hc => AllWritten.inParens (constToks_const lib fl c (h3 c hc)).2

theorem quoteToks_quote (lib : Lib) (fl : Floats) (q : QuoteWat) (h : QuoteOk lib fl q) :
    quoteWat lib q (quoteToks fl q) ∧ AllWritten (quoteToks fl q) := by
  cases q with
  | wat d => exact ⟨directiveToks_directive lib fl d h, written_directive lib fl d h⟩
  | quoteModule s =>
    exact ⟨par_inParens ⟨[_], _, rfl, rfl, [_], [_], rfl, rfl, h, rfl⟩,
      .inParens (.cons (written_word _ _ (by decide)) (.cons (written_kw _ (by decide)) (.cons (.string _ h) .nil)))⟩
  | quoteComponent s =>
    exact ⟨par_inParens ⟨[_], _, rfl, rfl, [_], [_], rfl, rfl, h, rfl⟩,
      .inParens (.cons (written_word _ _ (by decide)) (.cons (written_kw _ (by decide)) (.cons (.string _ h) .nil)))⟩

theorem results_flatMap (lib : Lib) (fl : Floats) (rs : List Const) (h : ∀ r ∈ rs, ConstOk lib fl (some r)) :
    IsResults lib rs (rs.flatMap fun r => inParens (constToks fl (some r))) := by
  induction rs with
  | nil => exact .nil
  | cons r rs ih =>
    exact .const (par_inParens (constToks_const lib fl (some r) (h r (by simp))).1) (ih fun x hx => h x (by simp [hx]))

theorem dirToks_directive (lib : Lib) (fl : Floats) (d : Directive) (h : DirOk lib fl d) :
    directive lib d (dirToks fl d) ∧ AllWritten (dirToks fl d) := by
  cases d with
  | wat q => exact quoteToks_quote lib fl q h
  | assertReturn a rs =>
    obtain ⟨h1, h2⟩ := h
    obtain ⟨k1, k2⟩ := actionToks_action lib fl a h1
    exact ⟨par_inParens ⟨[_], _, rfl, rfl, _, _, rfl, k1, results_flatMap lib fl rs h2⟩,
      .inParens (.cons (written_kw _ (by decide)) (k2.append (.flatMap fun r hr => (constToks_const lib fl (some r) (h2 r hr)).2.inParens)))⟩
  | assertInvalid q s =>
    obtain ⟨h1, h2⟩ := h
    obtain ⟨k1, k2⟩ := quoteToks_quote lib fl q h1
    exact ⟨par_inParens ⟨[_], _, rfl, rfl, _, _, rfl, k1, h2, rfl⟩,
      .inParens (.cons (written_kw _ (by decide)) (k2.append (.cons (.string _ h2) .nil)))⟩
  | assertMalformed q s =>
    obtain ⟨h1, h2⟩ := h
    obtain ⟨k1, k2⟩ := quoteToks_quote lib fl q h1
    exact ⟨par_inParens ⟨[_], _, rfl, rfl, _, _, rfl, k1, h2, rfl⟩,
      .inParens (.cons (written_kw _ (by decide)) (k2.append (.cons (.string _ h2) .nil)))⟩
  | assertTrap a s =>
    obtain ⟨h1, h2⟩ := h
    obtain ⟨k1, k2⟩ := actionToks_action lib fl a h1
    exact ⟨par_inParens ⟨[_], _, rfl, rfl, _, _, rfl, k1, h2, rfl⟩,
      .inParens (.cons (written_kw _ (by decide)) (k2.append (.cons (.string _ h2) .nil)))⟩

/-! ## The round trip -/

/-- C87, for the supported directives: the parser reads the text of a script and returns the script. Missing: what is not
`DirOk`: 64 bit constants out of the range of 32 bits, assertions without an action, quotes in strings. -/
theorem script_print_parse_partial (lib : Lib) (h : lib.Total) (fl : Floats) (ds : List Directive) (hd : ∀ d ∈ ds, DirOk lib fl d) (n : Nat)
    (hn : (printScript fl ds).length + 1 < n) : parseScript lib n (printScript fl ds) = .ok ds := by
  have e : significant (printScript fl ds) = ⟨ds.flatMap (dirToks fl), true⟩ :=
    significant_sep _ (AllWritten.flatMap fun d hx => (dirToks_directive lib fl d (hd d hx)).2)
  refine (wast_accepted_iff lib h _ n hn ds).2 ⟨?_, ?_⟩
  · rw [← significant_ended, e]
  · rw [← significant_toks, e]
    exact many_flatMap _ fun d hx => (dirToks_directive lib fl d (hd d hx)).1

/-- C87. Different scripts have different texts. -/
theorem script_print_injective (lib : Lib) (h : lib.Total) (fl : Floats) (ds es : List Directive) (hd : ∀ d ∈ ds, DirOk lib fl d)
    (he : ∀ d ∈ es, DirOk lib fl d) (hp : printScript fl ds = printScript fl es) : ds = es := by
  have k1 := script_print_parse_partial lib h fl ds hd ((printScript fl ds).length + 2) (by omega)
  have k2 := script_print_parse_partial lib h fl es he ((printScript fl ds).length + 2) (by rw [hp]; omega)
  rw [hp] at k1
  rw [hp, k1] at k2
  injection k2

theorem references_action (lib : Lib) (s : List Byte) (hs : ch '"' ∉ s) (w : List Byte) (hw : w = txt "ref.null" ∨ w = txt "ref.extern") :
    action lib (some ⟨none, s, [none]⟩) [lp, kw (txt "invoke"), strTok s, lp, kw w, rp, rp] := by
  refine par_inParens (ts := [kw (txt "invoke"), strTok s, lp, kw w, rp]) ⟨[_], _, rfl, rfl, [], _, rfl, rfl, [_], _, rfl, ⟨hs, rfl⟩, _, [], rfl,
    par_inParens (ts := [kw w]) ?_, rfl⟩
  rcases hw with rfl | rfl
  · exact .inl rfl
  · exact .inr rfl

/-- C87 fails for references: `( assert_trap ( invoke "s" ( ref.null ) ) "m" )` and the same text with `ref.extern` are read as the
same script, for every `s` and `m`. -/
theorem references_lost (lib : Lib) (h : lib.Total) (s m : List Byte) (hs : ch '"' ∉ s) (hm : ch '"' ∉ m) (w : List Byte)
    (hw : w = txt "ref.null" ∨ w = txt "ref.extern") (n : Nat)
    (hn : (txt "( assert_trap ( invoke \"" ++ s ++ txt "\" ( " ++ w ++ txt " ) ) \"" ++ m ++ txt "\" )").length + 1 < n) :
    parseScript lib n (txt "( assert_trap ( invoke \"" ++ s ++ txt "\" ( " ++ w ++ txt " ) ) \"" ++ m ++ txt "\" )")
      = .ok [.assertTrap (some ⟨none, s, [none]⟩) m] := by
  let ts : List Sig := inParens (kw (txt "assert_trap") :: ([lp, kw (txt "invoke"), strTok s, lp, kw w, rp, rp] ++ [strTok m]))
  have et : sep (ts.map (·.capture)) = txt "( assert_trap ( invoke \"" ++ s ++ txt "\" ( " ++ w ++ txt " ) ) \"" ++ m ++ txt "\" )" := by
    simp only [ts, inParens, strTok, kw, lp, rp, List.map_cons, List.map_nil, List.cons_append, List.nil_append, sep]
    simp [txt, ch]
  have hww : Written (kw w) := by
    rcases hw with rfl | rfl
    · exact written_kw _ (by decide)
    · exact written_kw _ (by decide)
  have hl : Written lp := .openParen
  have hr : Written rp := .closeParen
  have hwr : AllWritten ts := .inParens (.cons (written_kw _ (by decide)) (.append (.cons hl (.cons (written_kw _ (by decide)) (.cons (.string _ hs)
    (.cons hl (.cons hww (.cons hr (.cons hr .nil))))))) (.cons (.string _ hm) .nil)))
  have e := significant_sep _ hwr
  rw [et] at e
  refine (wast_accepted_iff lib h _ n hn _).2 ⟨by rw [← significant_ended, e], ?_⟩
  rw [← significant_toks, e]
  exact ⟨ts, [], by simp, par_inParens ⟨[_], _, rfl, rfl, _, _, rfl, references_action lib s hs w hw, hm, rfl⟩, rfl⟩

/-! ## A script that is supported -/

/-- Directives of every kind. -/
def someDirectives : List Directive :=
  [.wat (.wat (.module ⟨[], [], [], [], []⟩)), .wat (.quoteModule (txt "(func")),
   .assertReturn (some ⟨some (txt "$m"), txt "f", [some (.i32 5), none]⟩) [.i64 (-1), .f32 0xffc00000],
   .assertInvalid (.quoteComponent (txt "(")) (txt "no"), .assertMalformed (.wat .component) (txt "never"),
   .assertTrap (some ⟨none, txt "g", []⟩) (txt "unreachable")]

example : ∀ d ∈ someDirectives, DirOk someLib someFloats d := by
  have hm : Name (txt "$m") := ⟨txt "m", rfl, by decide, by decide⟩
  have hnan : Written ⟨.float, txt "-nan:0x400000"⟩ := written_word _ _ (by decide)
  have hnv : ConstFloat32 (fun w v => someLib.parseFloat32 w = .ok v) (txt "-nan:0x400000") 0xffc00000 :=
    (float32Value_iff _ _ _).1 (by decide)
  simp [someDirectives, DirOk, QuoteOk, ActionOk, ConstOk, Supported, OptName, hm, someFloats, hnan]
  exact ⟨by decide, ⟨by decide, hnv⟩, by decide⟩

end Verif.Wast
