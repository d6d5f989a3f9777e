import Verif.Wat.ParseProps
import Verif.Wat.PrintRead

/-!
# C50: printing a syntax tree as WAT and parsing the text gives the tree

`Spec.print` writes a directive; `Spec.Supported` says which trees the parser supports.
-/

namespace Verif.Wat
open Spec

/-! ## Every printed token is one the lexer reads back -/

/-- Every token is written as such. -/
def AllWritten (ts : List Sig) : Prop := ∀ t ∈ ts, Written t

theorem AllWritten.nil : AllWritten [] := by simp [AllWritten]

theorem AllWritten.cons {t : Sig} {ts : List Sig} (h : Written t) (h' : AllWritten ts) : AllWritten (t :: ts) := by
  intro x hx
  rcases List.mem_cons.mp hx with rfl | hx
  · exact h
  · exact h' x hx

theorem AllWritten.append {ts us : List Sig} (h : AllWritten ts) (h' : AllWritten us) : AllWritten (ts ++ us) := by
  intro x hx
  rcases List.mem_append.mp hx with hx | hx
  · exact h x hx
  · exact h' x hx

theorem AllWritten.inParens {ts : List Sig} (h : AllWritten ts) : AllWritten (inParens ts) :=
  .cons .openParen (h.append (.cons .closeParen .nil))

theorem AllWritten.flatMap {α : Type} {l : List α} {f : α → List Sig} (h : ∀ x ∈ l, AllWritten (f x)) : AllWritten (l.flatMap f) := by
  intro t ht
  obtain ⟨x, hx, ht⟩ := List.mem_flatMap.mp ht
  exact h x hx t ht

theorem written_kw (w : List Byte) (h : isWordOf .reserved w = true) : Written (kw w) := written_word _ _ h

theorem written_val (t : ValType) : Written (kw (valWord t)) := written_kw _ (by cases t <;> decide)

theorem written_vals (ts : List ValType) : AllWritten (ts.map fun t => kw (valWord t)) := by
  intro x hx
  obtain ⟨t, -, rfl⟩ := List.mem_map.mp hx
  exact written_val t

theorem written_name (w : List Byte) (h : Name w) : Written ⟨.id, w⟩ := by
  obtain ⟨n, rfl, h1, h2⟩ := h
  exact .id n h1 h2

theorem written_optName (o : Option (List Byte)) (h : OptName o) : AllWritten (idToks o) := by
  cases o with
  | none => exact .nil
  | some w => exact .cons (written_name w (h w rfl)) .nil

theorem written_number (n : Nat) : Written (number n) := literal_written _ _ (decimal_literal n).1

theorem written_signed (v : Int) : Written (signed v) := literal_written _ _ (signed_literal v).1

theorem written_result (r : Result) : AllWritten (resultToks r) := .cons (written_kw _ (by decide)) (written_vals _)

theorem written_results (rs : List Result) : AllWritten (rs.flatMap fun r => inParens (resultToks r)) :=
  .flatMap fun r _ => (written_result r).inParens

theorem written_param (p : Parameter) (h : ParamOk p) : AllWritten (paramToks p) :=
  .cons (written_kw _ (by decide)) ((written_optName _ h.1).append (written_vals _))

theorem written_index (i : Index) (h : ∀ w, i = .id w → Name w) : Written (indexToks i) := by
  cases i with
  | raw i => exact written_number _
  | id w => exact written_name w (h w rfl)

mutual
theorem written_inst (lib : Lib) (fl : Floats) : (i : Inst) → InstOk lib fl i → AllWritten (instToks fl i)
  | .nil, h => absurd h (by simp [InstOk])
  | .plain p, _ => by
    rw [instToks]
    exact .cons (written_kw _ (by cases p <;> decide)) .nil
  | .indexed k i, h => by
    rw [InstOk] at h
    rw [instToks]
    exact .cons (written_kw _ (by cases k <;> decide)) (.cons (written_index i h) .nil)
  | .i32Const v, _ => by
    rw [instToks]
    exact .cons (written_kw _ (by decide)) (.cons (written_number _) .nil)
  | .i64Const v, _ => by
    rw [instToks]
    exact .cons (written_kw _ (by decide)) (.cons (written_signed _) .nil)
  | .f32Const v, h => by
    rw [InstOk] at h
    rw [instToks]
    exact .cons (written_kw _ (by decide)) (.cons h.1 .nil)
  | .f64Const v, h => by
    rw [InstOk] at h
    rw [instToks]
    exact .cons (written_kw _ (by decide)) (.cons h.1 .nil)
  | .callIndirect t, h => by
    rw [InstOk] at h
    rw [instToks]
    exact .cons (written_kw _ (by decide)) (AllWritten.inParens (.cons (written_kw _ (by decide)) (.cons (written_name t h) .nil)))
  | .folded i ps, h => by
    rw [InstOk] at h
    rw [instToks]
    exact (written_inst lib fl i h.2.1).append (written_insts lib fl ps h.2.2.2)
  | .block name rs is, h => by
    rw [InstOk] at h
    rw [instToks]
    exact .cons (written_kw _ (by decide)) (((written_optName name h.1).append (written_results rs)).append (written_insts lib fl is h.2))
  | .loop name rs is, h => by
    rw [InstOk] at h
    rw [instToks]
    exact .cons (written_kw _ (by decide)) (((written_optName name h.1).append (written_results rs)).append (written_insts lib fl is h.2))
  | .ifThen name rs clause thens elses, h => by
    rw [InstOk] at h
    rw [instToks]
    exact .cons (written_kw _ (by decide)) (((((written_optName name h.1).append (written_results rs)).append
      (written_insts lib fl clause h.2.2.1)).append (AllWritten.inParens (.cons (written_kw _ (by decide))
      (written_insts lib fl thens h.2.2.2.1)))).append (written_else lib fl elses h.2.2.2.2))
theorem written_insts (lib : Lib) (fl : Floats) : (is : List Inst) → InstsOk lib fl is → AllWritten (instsToks fl is)
  | [], _ => by rw [instsToks]; exact .nil
  | i :: is, h => by
    rw [InstsOk] at h
    rw [instsToks]
    exact (written_inst lib fl i h.1).inParens.append (written_insts lib fl is h.2)
theorem written_else (lib : Lib) (fl : Floats) : (o : Option (List Inst)) → ElseOk lib fl o → AllWritten (elseToks fl o)
  | none, _ => by rw [elseToks]; exact .nil
  | some is, h => by
    rw [ElseOk] at h
    rw [elseToks]
    exact AllWritten.inParens (.cons (written_kw _ (by decide)) (written_insts lib fl is h))
end

theorem written_limits (l : Limits) : AllWritten (limitsToks l) := by
  obtain ⟨min, max⟩ := l
  cases max with
  | none => exact .cons (written_number _) .nil
  | some m => exact .cons (written_number _) (.cons (written_number _) .nil)

theorem written_directive (lib : Lib) (fl : Floats) (d : Directive) (h : Supported lib fl d) : AllWritten (directiveToks fl d) := by
  cases d with
  | component => exact AllWritten.inParens (.cons (written_word .component _ (by decide)) .nil)
  | module m =>
    obtain ⟨h1, h2, h3, h4, h5⟩ := h
    refine AllWritten.inParens (.cons (written_word .module _ (by decide)) ((((AllWritten.append ?_ ?_).append ?_).append ?_).append ?_))
    · refine .flatMap fun t ht => AllWritten.inParens (.cons (written_kw _ (by decide)) ((written_optName _ (h1 t ht).1).append
        (AllWritten.inParens (.cons (written_kw _ (by decide)) (.append ?_ (written_results _))))))
      exact .flatMap fun p hp => (written_param p ((h1 t ht).2.1 p hp)).inParens
    · refine .flatMap fun t ht => AllWritten.inParens (.cons (written_kw _ (by decide))
        ((((written_optName _ (h2 t ht).1).append (written_limits _)).append ?_).append ?_))
      · cases t.tableType.refType with
        | none => exact .nil
        | some r => exact .cons (written_kw _ (by cases r <;> decide)) .nil
      · exact .flatMap fun e he => AllWritten.inParens (.cons (written_kw _ (by decide)) (.cons (written_name e ((h2 t ht).2.2 e he)) .nil))
    · exact .flatMap fun x hx => AllWritten.inParens (.cons (written_kw _ (by decide)) ((written_optName _ (h3 x hx)).append (written_limits _)))
    · refine .flatMap fun g hg => AllWritten.inParens (.cons (written_kw _ (by decide)) (((written_optName _ (h4 g hg).1).append ?_).append
        (written_insts lib fl _ (h4 g hg).2)))
      cases g.mutable with
      | true => exact AllWritten.inParens (.cons (written_kw _ (by decide)) (.cons (written_val _) .nil))
      | false => exact .cons (written_val _) .nil
    · refine .flatMap fun f hf => AllWritten.inParens (.cons (written_kw _ (by decide)) ((((((written_optName _ (h5 f hf).1).append ?_).append ?_).append
        (written_results _)).append ?_).append (written_insts lib fl _ (h5 f hf).2.2.2.2)))
      · exact .flatMap fun n hn => AllWritten.inParens (.cons (written_kw _ (by decide)) (.cons (.string n ((h5 f hf).2.1 n hn)) .nil))
      · exact .flatMap fun p hp => (written_param p ((h5 f hf).2.2.1 p hp)).inParens
      · exact .flatMap fun t _ => AllWritten.inParens (.cons (written_kw _ (by decide)) (.cons (written_val _) .nil))

/-! ## The round trip -/

/-- **C50.** The parser reads the text of a supported directive and returns the directive. Missing: the trees that are
not `Supported`, such as 64 bit constants out of the range of 32 bits (see `wide_i64_refused`). `lib` and `fl` are how floating point numbers are read and written. -/
theorem print_parse_partial (lib : Lib) (h : lib.Total) (fl : Floats) (d : Directive) (hd : Supported lib fl d) (n : Nat)
    (hn : (print fl d).length < n) : parseText lib n (print fl d) = .ok d := by
  obtain ⟨N, hN⟩ := reads_directive lib fl d hd
  have e : significant (print fl d) = ⟨directiveToks fl d, true⟩ := significant_sep _ (written_directive lib fl d hd)
  have k := (parseText_tokens lib h (print fl d) n (N + (directiveToks fl d).length + 1) hn (by rw [e]; simp only; omega)).1
  rw [k, e, hN _ (by omega)]

/-- **C50.** So does every text that differs from it in white space and comments only. -/
theorem print_parse_spaced_partial (lib : Lib) (h : lib.Total) (fl : Floats) (d : Directive) (hd : Supported lib fl d) (text : List Byte)
    (ht : meaning (lexed text).1 = meaning (lexed (print fl d)).1 ∧ (lexed text).2 = (lexed (print fl d)).2) (n : Nat)
    (hn : text.length < n) : parseText lib n text = .ok d := by
  rw [trivia_ignored lib h text (print fl d) ht.1 ht.2 n ((print fl d).length + 1) hn (by omega)]
  exact print_parse_partial lib h fl d hd _ (by omega)

/-- **C50.** Different trees have different texts. -/
theorem print_injective (lib : Lib) (h : lib.Total) (fl : Floats) (d d' : Directive) (hd : Supported lib fl d) (hd' : Supported lib fl d')
    (he : print fl d = print fl d') : d = d' := by
  have k1 := print_parse_partial lib h fl d hd ((print fl d).length + 1) (by omega)
  have k2 := print_parse_partial lib h fl d' hd' ((print fl d).length + 1) (by rw [he]; omega)
  rw [he] at k1
  rw [he, k1] at k2
  injection k2

/-! ## A module that is supported -/

/-- How floats are written in the example. -/
def someFloats : Floats := ⟨fun _ => txt "-nan:0x400000", fun _ => txt "1.5"⟩

/-- A module with a type, a table, a memory, globals and a function with folded and nested instructions. -/
def someModule : Module where
  types := [⟨some (txt "$t"), ⟨[⟨some (txt "$x"), [.i32]⟩, ⟨none, [.i64, .f32]⟩], [⟨[.i32]⟩]⟩⟩]
  tables := [⟨none, ⟨⟨1, some 2⟩, some .funcRef⟩, [txt "$f"]⟩]
  memory := [⟨some (txt "$m"), ⟨1, none⟩⟩]
  globals := [⟨none, true, .i32, [.i32Const 0xffffffff]⟩, ⟨some (txt "$g"), false, .i64, [.i64Const (-5)]⟩]
  functions := [{
    id := some (txt "$f"), exports := [txt "run it"], parameters := [⟨some (txt "$x"), [.i32]⟩], results := [⟨[.i32]⟩],
    locals := [.f64],
    instructions := [
      .folded (.plain .i32Add) [.indexed .localGet (.id (txt "$x")), .folded (.plain .i32Mul) [.i32Const 3, .indexed .localGet (.raw 0)]],
      .f32Const 0xffc00000,
      .block (some (txt "$b")) [⟨[.i32, .i64]⟩] [.loop none [] [.indexed .brIf (.id (txt "$b")), .plain .drop]],
      .ifThen none [⟨[.i32]⟩] [.plain .i32Eqz] [.i32Const 1] (some [.callIndirect (txt "$t")]),
      .ifThen (some (txt "$l")) [] [] [] none] }]

theorem name_of (w n : List Byte) (h : w = ch '$' :: n) (h1 : n ≠ []) (h2 : ∀ b ∈ n, b ∈ wordChars) : Name w := ⟨n, h, h1, h2⟩

theorem someModule_supported : Supported someLib someFloats (.module someModule) := by
  have hname : ∀ w : List Byte, w.head? = some (ch '$') → w.tail ≠ [] → (∀ b ∈ w.tail, b ∈ wordChars) → Name w := by
    intro w h1 h2 h3
    cases w with
    | nil => cases h1
    | cons x w => cases h1; exact ⟨w, rfl, h2, h3⟩
  have ht := hname (txt "$t") (by decide) (by decide) (by decide)
  have hx := hname (txt "$x") (by decide) (by decide) (by decide)
  have hf := hname (txt "$f") (by decide) (by decide) (by decide)
  have hm := hname (txt "$m") (by decide) (by decide) (by decide)
  have hg := hname (txt "$g") (by decide) (by decide) (by decide)
  have hb := hname (txt "$b") (by decide) (by decide) (by decide)
  have hl := hname (txt "$l") (by decide) (by decide) (by decide)
  have hnan : Written ⟨.float, txt "-nan:0x400000"⟩ := written_word _ _ (by decide)
  have hnv : ConstFloat32 (fun w v => someLib.parseFloat32 w = .ok v) (txt "-nan:0x400000") 0xffc00000 :=
    (float32Value_iff _ _ _).1 (by decide)
  simp [Supported, someModule, someFloats, TypeOk, TableOk, GlobalOk, FuncOk, ParamOk, OptName, InstOk, InstsOk, ElseOk, isLeaf, ht, hx, hf, hm,
    hg, hb, hl, hnan]
  exact ⟨by decide, hnv⟩

/-! ## Trees that are not read back -/

/-- A module with a function of one instruction. -/
def oneInst (i : Inst) : Directive := .module ⟨[⟨none, [], [], [], [], [i]⟩], [], [], [], []⟩

theorem head_i64 (lib : Lib) (f : SM Stream Inst) (n : Nat) : parseHead streamOps lib f n (txt "i64.const") = (do
    let v ← parseInt64 streamOps
    pure (.i64Const v)) := by
  unfold parseHead
  rw [show plainWords.lookup (txt "i64.const") = none by decide]
  simp only
  rw [show indexedWords.lookup (txt "i64.const") = none by decide]
  simp only
  rw [if_neg (by decide), if_neg (by decide), if_pos trivial]

/-- The parser up to the instruction of such a module. -/
theorem oneInst_err (lib : Lib) (w : List Byte) (hw : w ∉ otherWords) (ts : List Sig) (n : Nat)
    (h : (parseInstruction streamOps lib (n + 1) ⟨kw w :: ts, true⟩).1 = .err) :
    (parse streamOps lib (n + 1) ⟨lp :: ⟨.module, txt "module"⟩ :: lp :: kw (txt "func") :: lp :: kw w :: ts, true⟩).1 = .err := by
  rcases hp : parseInstruction streamOps lib (n + 1) ⟨kw w :: ts, true⟩ with ⟨r, st⟩
  rw [hp] at h
  simp only at h
  subst h
  have hne : ∀ v, v ∈ otherWords → ¬(kw w).capture = v := fun v hv e => hw (by rw [show w = v from e]; exact hv)
  have h1 : parseFuncItem streamOps lib (n + 1) ⟨kw w :: ts, true⟩ = (.err, st) := by
    unfold parseFuncItem
    rw [peek_bind, if_neg (hne _ (by decide)), if_neg (hne _ (by decide)), if_neg (hne _ (by decide)), if_neg (hne _ (by decide)),
      if_neg (hne _ (by decide)), SM.bind_err hp]
  have h2 : parens streamOps (parseFuncItem streamOps lib (n + 1)) (n + 1) ⟨lp :: kw w :: ts, true⟩ = (.err, st) := by
    rw [parens, SM.bind_ok (eat_lp _ true), if_pos rfl, SM.bind_err h1]
  have h3 : parseFunc streamOps lib (n + 1) ⟨kw (txt "func") :: lp :: kw w :: ts, true⟩ = (.err, st) := by
    unfold parseFunc
    rw [SM.bind_ok (expectWord_cons _ _ true), SM.bind_ok (parseOptionalId_none lp _ true (by simp [lp])), SM.bind_err h2]
  have h4 : parseSection streamOps lib (n + 1) ⟨kw (txt "func") :: lp :: kw w :: ts, true⟩ = (.err, st) := by
    unfold parseSection
    rw [peek_bind, if_pos (show (kw (txt "func")).capture = txt "func" from rfl), SM.bind_err h3]
  have h5 : parseModule streamOps lib (n + 1) ⟨⟨.module, txt "module"⟩ :: lp :: kw (txt "func") :: lp :: kw w :: ts, true⟩ = (.err, st) := by
    unfold parseModule
    rw [SM.bind_ok (show expect streamOps .module ⟨⟨.module, txt "module"⟩ :: _, true⟩ = _ from expect_cons ⟨.module, txt "module"⟩ _ true),
      SM.bind_err (s' := st)]
    rw [parens, SM.bind_ok (eat_lp _ true), if_pos rfl, SM.bind_err h4]
  have h6 : parseRoot streamOps lib (n + 1) ⟨⟨.module, txt "module"⟩ :: lp :: kw (txt "func") :: lp :: kw w :: ts, true⟩ = (.err, st) := by
    unfold parseRoot
    rw [peek_bind, if_pos rfl, SM.bind_err h5]
  unfold parse
  rw [SM.bind_ok (expect_lp _ true), SM.bind_err h6]

/-- **C50**, negatively: a 64 bit constant out of the range of 32 bits, written as the text format says, is refused. -/
theorem wide_i64_refused (lib : Lib) (h : lib.Total) (fl : Floats) (v : U64) (hv : ¬(-2 ^ 31 ≤ v.toInt ∧ v.toInt < 2 ^ 32)) (n : Nat)
    (hn : (print fl (oneInst (.i64Const v))).length < n) : parseText lib n (print fl (oneInst (.i64Const v))) = .err := by
  have ed : directiveToks fl (oneInst (.i64Const v)) = [lp, ⟨.module, txt "module"⟩, lp, kw (txt "func"), lp, kw (txt "i64.const"),
      signed v.toInt, rp, rp, rp] := by
    simp [oneInst, directiveToks, inParens, funcToks, idToks, instsToks, instToks]
  have hw : AllWritten [lp, ⟨.module, txt "module"⟩, lp, kw (txt "func"), lp, kw (txt "i64.const"), signed v.toInt, rp, rp, rp] :=
    .cons .openParen (.cons (written_word _ _ (by decide)) (.cons .openParen (.cons (written_kw _ (by decide)) (.cons .openParen
      (.cons (written_kw _ (by decide)) (.cons (written_signed _) (.cons .closeParen (.cons .closeParen (.cons .closeParen .nil)))))))))
  have e : significant (print fl (oneInst (.i64Const v))) =
      ⟨[lp, ⟨.module, txt "module"⟩, lp, kw (txt "func"), lp, kw (txt "i64.const"), signed v.toInt, rp, rp, rp], true⟩ := by
    unfold print
    rw [ed]
    exact significant_sep _ hw
  have k := (parseText_tokens lib h _ n (10 + 1) hn (by rw [e]; simp)).1
  rw [k, e]
  refine oneInst_err lib _ (by decide) _ 10 ?_
  have hi : integerValue (signed v.toInt).capture = .err := by
    obtain ⟨h1, h2⟩ := signed_literal v.toInt
    rw [integerValue_literal _ _ h1 h2, if_neg hv]
  have k' : (do
      let v ← parseInt64 streamOps
      pure (Inst.i64Const v)) ⟨[signed v.toInt, rp, rp, rp], true⟩ = (.err, ⟨[rp, rp, rp], true⟩) := SM.bind_err (parseInt64_err _ hi _ true)
  rw [parseInstruction_cons, head_i64, SM.bind_err k']

example : ¬(-2 ^ 31 ≤ (BitVec.ofNat 64 (2 ^ 40)).toInt ∧ (BitVec.ofNat 64 (2 ^ 40)).toInt < 2 ^ 32) := by decide

/-! ## C72: different mnemonics -/

theorem plain_lookup (w : List Byte) (p : Plain) (h : plainWords.lookup w = some p) : w = plainWord p := by
  have hl : ∀ (l : List (List Byte × Plain)), (∀ x ∈ l, x.1 = plainWord x.2) → l.lookup w = some p → w = plainWord p := by
    intro l hl h
    induction l with
    | nil => cases h
    | cons x l ih =>
      obtain ⟨v, q⟩ := x
      rw [List.lookup_cons] at h
      by_cases e : w == v
      · rw [e] at h
        have h : q = p := by simpa using h
        rw [eq_of_beq e, ← h]
        exact hl (v, q) List.mem_cons_self
      · rw [Bool.not_eq_true _ |>.mp e] at h
        exact ih (fun x hx => hl x (List.mem_cons_of_mem _ hx)) h
  exact hl plainWords (by decide) h

/-- What the head of an instruction gives before a closing parenthesis. -/
theorem head_bare (lib : Lib) (f : Nat → SM Stream Inst) (n : Nat) (w : List Byte) (i : Inst) (st : Stream)
    (h : parseHead streamOps lib (f n) (n + 1) w ⟨[rp], true⟩ = (.ok i, st)) : st = ⟨[rp], true⟩ ∧
    ((∃ p, w = plainWord p ∧ i = .plain p) ∨ i = .nil ∨ (w = txt "block" ∧ i = .block none [] []) ∨ (w = txt "loop" ∧ i = .loop none [] []) ∨
      (w = txt "if" ∧ i = .ifThen none [] [] [] none)) := by
  have d1 : parseInt32 streamOps ⟨[rp], true⟩ = (.err, ⟨[], true⟩) := rfl
  have d2 : parseInt64 streamOps ⟨[rp], true⟩ = (.err, ⟨[], true⟩) := rfl
  have d3 : constFloat32 streamOps lib ⟨[rp], true⟩ = (.err, ⟨[], true⟩) := rfl
  have d4 : constFloat64 streamOps lib ⟨[rp], true⟩ = (.err, ⟨[], true⟩) := rfl
  have d5 : parseIndex streamOps ⟨[rp], true⟩ = (.err, ⟨[], true⟩) := rfl
  have d6 : parseTypeUse streamOps ⟨[rp], true⟩ = (.err, ⟨[], true⟩) := rfl
  have d7 : ∀ mk : Option (List Byte) → List Result → List Inst → Inst,
      parseBlock streamOps mk (f n) (n + 1) ⟨[rp], true⟩ = (.ok (mk none [] []), ⟨[rp], true⟩) := fun _ => rfl
  have d8 : parseIf streamOps (f n) (n + 1) ⟨[rp], true⟩ = (.ok (.ifThen none [] [] [] none), ⟨[rp], true⟩) := rfl
  unfold parseHead at h
  cases h1 : plainWords.lookup w with
  | some p =>
    rw [h1] at h
    cases h
    exact ⟨rfl, .inl ⟨p, plain_lookup w p h1, rfl⟩⟩
  | none =>
    rw [h1] at h
    simp only at h
    cases h2 : indexedWords.lookup w with
    | some k =>
      rw [h2] at h
      simp only at h
      rw [SM.bind_err d5] at h
      cases h
    | none =>
      rw [h2] at h
      simp only at h
      by_cases c0 : nilWords.contains w = true
      · rw [if_pos c0] at h; cases h; exact ⟨rfl, .inr (.inl rfl)⟩
      rw [if_neg c0] at h
      by_cases c1 : w = txt "i32.const"
      · rw [if_pos c1, SM.bind_err d1] at h; cases h
      rw [if_neg c1] at h
      by_cases c2 : w = txt "i64.const"
      · rw [if_pos c2, SM.bind_err d2] at h; cases h
      rw [if_neg c2] at h
      by_cases c3 : w = txt "f32.const"
      · rw [if_pos c3, SM.bind_err d3] at h; cases h
      rw [if_neg c3] at h
      by_cases c4 : w = txt "f64.const"
      · rw [if_pos c4, SM.bind_err d4] at h; cases h
      rw [if_neg c4] at h
      by_cases c5 : w = txt "block"
      · rw [if_pos c5, d7] at h; cases h; exact ⟨rfl, .inr (.inr (.inl ⟨c5, rfl⟩))⟩
      rw [if_neg c5] at h
      by_cases c6 : w = txt "loop"
      · rw [if_pos c6, d7] at h; cases h; exact ⟨rfl, .inr (.inr (.inr (.inl ⟨c6, rfl⟩)))⟩
      rw [if_neg c6] at h
      by_cases c7 : w = txt "if"
      · rw [if_pos c7, d8] at h; cases h; exact ⟨rfl, .inr (.inr (.inr (.inr ⟨c7, rfl⟩)))⟩
      rw [if_neg c7] at h
      by_cases c8 : w = txt "call_indirect"
      · rw [if_pos c8, SM.bind_err d6] at h; cases h
      rw [if_neg c8] at h
      cases h

/-- The instruction a word in front of a closing parenthesis is parsed as. -/
theorem bare_inst (lib : Lib) (h : lib.Total) (w : List Byte) (hne : w ≠ []) (hc : ∀ b ∈ w, b ∈ wordChars) (hd : w.head? ≠ some (ch '$')) (n : Nat)
    (i : Inst) (hp : (parseInstruction lexOps lib (n + 3) (Lexer.new (w ++ txt " )"))).1 = .ok i) :
    (∃ p, w = plainWord p ∧ i = .plain p) ∨ i = .nil ∨ (w = txt "block" ∧ i = .block none [] []) ∨ (w = txt "loop" ∧ i = .loop none [] []) ∨
      (w = txt "if" ∧ i = .ifThen none [] [] [] none) := by
  obtain ⟨ty, k, -⟩ := word_token w hne hc hd
  have hs : significant (w ++ txt " )") = ⟨[⟨ty, w⟩, rp], true⟩ :=
    significant_sep [⟨ty, w⟩, rp] (AllWritten.cons (.word ty w hne hc hd ((classify_iff w ty).1 k)) (.cons .closeParen .nil))
  have hr := (parseInstruction_safe lib h (n + 3) ⟨[⟨ty, w⟩, rp], true⟩ (by simp only [List.length_cons, List.length_nil]; omega)).1
  have hdiv : (parseInstruction streamOps lib (n + 3) (significant (w ++ txt " )"))).1 ≠ .diverge := by
    rw [hs]
    rcases hr with ⟨a, e⟩ | e <;> rw [e] <;> simp
  rw [text_reads (parseInstruction_sim lexOps_sim lib (n + 3) (n + 3) (Nat.le_refl _)) _ hdiv, hs] at hp
  by_cases ht : ty = .reserved
  · subst ht
    have e := parseInstruction_cons lib (n + 2) w [rp] true
    rw [show parseInstruction streamOps lib (n + 3) ⟨[⟨.reserved, w⟩, rp], true⟩ = _ from e] at hp
    rcases hq : parseHead streamOps lib (parseInstruction streamOps lib (n + 2)) (n + 2) w ⟨[rp], true⟩ with ⟨r, st⟩
    cases r with
    | ok j =>
      obtain ⟨rfl, h2⟩ := head_bare lib (fun m => parseInstruction streamOps lib (n + 2)) (n + 1) w j st hq
      rw [SM.bind_ok hq, parseFolded_not _ _ _ rp (by simp [rp])] at hp
      cases hp
      exact h2
    | err => rw [SM.bind_err hq] at hp; cases hp
    | panic => rw [SM.bind_panic hq] at hp; cases hp
    | diverge => rw [SM.bind_diverge hq] at hp; cases hp
  · rw [parseInstruction, next_bind, if_pos ht] at hp
    cases hp

/-- **C72**, for the words that leave an instruction in the tree: two words that stand alone in parentheses and give the
same instruction are the same word. Missing: the words that leave a nil instruction, which all give the same
(`lost_instructions`). -/
theorem mnemonics_distinct_partial (lib : Lib) (h : lib.Total) (w v : List Byte) (hw : w ≠ [] ∧ (∀ b ∈ w, b ∈ wordChars) ∧ w.head? ≠ some (ch '$'))
    (hv : v ≠ [] ∧ (∀ b ∈ v, b ∈ wordChars) ∧ v.head? ≠ some (ch '$')) (n : Nat) (i : Inst) (hi : i ≠ .nil)
    (h1 : (parseInstruction lexOps lib (n + 3) (Lexer.new (w ++ txt " )"))).1 = .ok i)
    (h2 : (parseInstruction lexOps lib (n + 3) (Lexer.new (v ++ txt " )"))).1 = .ok i) : w = v := by
  have k1 := bare_inst lib h w hw.1 hw.2.1 hw.2.2 n i h1
  have k2 := bare_inst lib h v hv.1 hv.2.1 hv.2.2 n i h2
  rcases k1 with ⟨p, e, rfl⟩ | rfl | ⟨e, rfl⟩ | ⟨e, rfl⟩ | ⟨e, rfl⟩
  · rcases k2 with ⟨q, e', e2⟩ | e2 | ⟨e', e2⟩ | ⟨e', e2⟩ | ⟨e', e2⟩ <;> cases e2
    rw [e, e']
  · exact absurd rfl hi
  · rcases k2 with ⟨q, e', e2⟩ | e2 | ⟨e', e2⟩ | ⟨e', e2⟩ | ⟨e', e2⟩ <;> cases e2
    rw [e, e']
  · rcases k2 with ⟨q, e', e2⟩ | e2 | ⟨e', e2⟩ | ⟨e', e2⟩ | ⟨e', e2⟩ <;> cases e2
    rw [e, e']
  · rcases k2 with ⟨q, e', e2⟩ | e2 | ⟨e', e2⟩ | ⟨e', e2⟩ | ⟨e', e2⟩ <;> cases e2
    rw [e, e']

/-- Which instruction an outcome is. -/
def isPlain (p : Plain) : Res Inst → Bool
  | .ok (.plain q) => p == q
  | _ => false

example : isPlain .i32Add (parseInstruction lexOps someLib 3 (Lexer.new (txt "i32.add )"))).1 = true := by decide +kernel

/-- **C72**, negatively: these instructions of WebAssembly, which all differ, are accepted and leave the same tree. -/
theorem lost_instructions (lib : Lib) (n : Nat) : ∀ w ∈ [txt "i32.rem_s", txt "i32.rem_u", txt "i32.and", txt "i32.or", txt "i32.xor", txt "i32.shl",
    txt "i32.shr_s", txt "i32.shr_u", txt "i32.rotl", txt "i32.rotr", txt "i32.clz", txt "i32.ctz", txt "i32.popcnt", txt "i32.extend8_s",
    txt "i32.extend16_s", txt "i32.eq", txt "i32.ne", txt "i32.lt_s", txt "i32.lt_u", txt "i32.le_s", txt "i32.le_u", txt "i32.gt_s", txt "i32.gt_u",
    txt "i32.ge_s", txt "i32.ge_u"], (parseInstruction lexOps lib (n + 1) (Lexer.new (w ++ txt " )"))).1 = .ok .nil := by
  intro w hw
  have hw2 : isWordOf .reserved w = true ∧ plainWords.lookup w = none ∧ indexedWords.lookup w = none ∧ nilWords.contains w = true := by
    revert w
    decide
  have hs : significant (w ++ txt " )") = ⟨[kw w, rp], true⟩ :=
    significant_sep [kw w, rp] (AllWritten.cons (written_kw w hw2.1) (.cons .closeParen .nil))
  have e : (parseInstruction streamOps lib (n + 1) (significant (w ++ txt " )"))).1 = .ok .nil := by
    rw [hs, parseInstruction_cons]
    have k : parseHead streamOps lib (parseInstruction streamOps lib n) n w = pure .nil := by
      unfold parseHead
      rw [hw2.2.1]
      simp only
      rw [hw2.2.2.1]
      simp only
      rw [if_pos hw2.2.2.2]
    rw [k]
    change (parseFolded streamOps (parseInstruction streamOps lib n) n .nil ⟨rp :: [], true⟩).1 = _
    rw [parseFolded_not _ _ _ rp (by simp [rp])]
  rw [text_reads (parseInstruction_sim lexOps_sim lib (n + 1) (n + 1) (Nat.le_refl _)) _ (by rw [e]; simp), e]

end Verif.Wat
