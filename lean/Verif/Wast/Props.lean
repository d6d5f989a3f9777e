import Verif.Wast.Ends
import Verif.Wast.GrammarComplete
import Verif.Wat.BalanceProps

/-!
# Scripts: C82, C83, C84, C86, and C47 and C51 for scripts
-/

namespace Verif.Wast

open Verif.Wat (Lib Sig Stream TokenType significant significant_toks significant_fine lp rp kw someLib someLib_total isOk Pieces pieces_exist
  pieces_unique pieces_tokens pieces_concat pieces_ended sigText)
open Verif.Wat.Spec (lexed meaning inParens tokens Lang many par tok word str optIdent Balanced)
open Spec

/-! ## C51 -/

/-- C51. Parsing a script ends with a tree or an error: every bound greater than the length of the text by two gives the same outcome. -/
theorem wast_parser_ends (lib : Lib) (h : lib.Total) (text : List Byte) (n m : Nat) (hn : text.length + 1 < n) (hm : text.length + 1 < m) :
    (parseScript lib n text).Returns ∧ parseScript lib n text = parseScript lib m text := by
  have k1 := parseScript_tokens lib h text n ((significant text).toks.length + 2) hn (by omega)
  have k2 := parseScript_tokens lib h text m ((significant text).toks.length + 2) hm (by omega)
  exact ⟨k1.2, k1.1.trans k2.1.symm⟩

/-! ## C82 -/

theorem significant_ended (text : List Byte) : (significant text).ended = (lexed text).2 := (Wat.collect_lexed _ _).2

theorem collect_noEnd (n : Nat) (l : Wat.Lexer) : Grammar.NoEnd (Wat.collect n l) := by
  induction n generalizing l with
  | zero => intro t ht; cases ht
  | succ n ih =>
    rw [Wat.collect]
    rcases Wat.nextTok l with ⟨r, l'⟩
    cases r with
    | ok t =>
      simp only
      by_cases hk : t.type = .endOfStream
      · rw [if_pos hk]; intro t ht; cases ht
      · rw [if_neg hk]
        split
        · exact ih l'
        · intro s hs
          rcases List.mem_cons.1 hs with rfl | hs
          · exact hk
          · exact ih l' s hs
    | err => intro t ht; cases ht
    | panic => intro t ht; cases ht
    | diverge => intro t ht; cases ht

/-- C82. A text is accepted as a list of directives exactly if it can be cut into tokens up to its end and its tokens are what
the grammar says that the directives are written as. -/
theorem wast_accepted_iff (lib : Lib) (h : lib.Total) (text : List Byte) (n : Nat) (hn : text.length + 1 < n) (ds : List Directive) :
    parseScript lib n text = .ok ds ↔ (lexed text).2 = true ∧ script lib ds (tokens text) := by
  have k := (parseScript_tokens lib h text n ((significant text).toks.length + 2) hn (by omega)).1
  constructor
  · intro ha
    rw [ha] at k
    rcases hp : parseWast Wat.streamOps lib ((significant text).toks.length + 2) (significant text) with ⟨r, st⟩
    rw [hp] at k
    simp only at k
    subst k
    obtain ⟨-, h2, h3⟩ := Grammar.parseWast_reads lib _ (significant text) (significant_fine text) (collect_noEnd _ _) ds st hp
    rw [← significant_ended, ← significant_toks]
    exact ⟨h2, h3⟩
  · rintro ⟨he, hs⟩
    rw [← significant_ended] at he
    rw [← significant_toks] at hs
    have e : significant text = ⟨(significant text).toks, true⟩ := by
      cases hx : significant text with
      | mk a b => rw [hx] at he; simp only at he; rw [he]
    rw [k]
    generalize hm : (significant text).toks.length + 2 = m
    rw [e, Grammar.parseWast_takes lib m ds _ hs (by omega)]

/-- C82. Every other text is answered with an error. -/
theorem wast_refused_iff (lib : Lib) (h : lib.Total) (text : List Byte) (n : Nat) (hn : text.length + 1 < n) :
    parseScript lib n text = .err ↔ ∀ ds, (lexed text).2 = true → ¬ script lib ds (tokens text) := by
  have hr := (wast_parser_ends lib h text n n hn hn).1
  constructor
  · intro he ds h1 h2
    have := (wast_accepted_iff lib h text n hn ds).2 ⟨h1, h2⟩
    rw [he] at this
    cases this
  · intro hno
    cases hp : parseScript lib n text with
    | ok d =>
      obtain ⟨h1, h2⟩ := (wast_accepted_iff lib h text n hn d).1 hp
      exact absurd h2 (hno d h1)
    | err => rfl
    | panic => rw [hp] at hr; rcases hr with ⟨_, hr⟩ | hr <;> cases hr
    | diverge => rw [hp] at hr; rcases hr with ⟨_, hr⟩ | hr <;> cases hr

/-- C82. The grammar is unambiguous. -/
theorem wast_unambiguous (lib : Lib) (ds es : List Directive) (ts : List Sig) (h : script lib ds ts) (h' : script lib es ts) : ds = es := by
  have k := Grammar.parseWast_takes lib (ts.length + 2) ds ts h (by omega)
  rw [Grammar.parseWast_takes lib (ts.length + 2) es ts h' (by omega)] at k
  simp only [Prod.mk.injEq, Res.ok.injEq, and_true] at k
  exact k.symm

/-- C82. No directive is the beginning of another. -/
theorem directive_unambiguous (lib : Lib) (d d' : Directive) (ts ts' rest rest' : List Sig) (h : directive lib d ts) (h' : directive lib d' ts')
    (he : ts ++ rest = ts' ++ rest') : d = d' ∧ ts = ts' ∧ rest = rest' := by
  have k := Grammar.parseDirective_takes lib (ts.length + ts'.length + 1) d ts ⟨rest, true⟩ h (by omega)
  have k' := Grammar.parseDirective_takes lib (ts.length + ts'.length + 1) d' ts' ⟨rest', true⟩ h' (by omega)
  have e : (⟨rest, true⟩ : Stream).push ts = (⟨rest', true⟩ : Stream).push ts' := by simp [Wat.Stream.push, he]
  rw [e, k'] at k
  simp only [Prod.mk.injEq, Res.ok.injEq, Wat.Stream.mk.injEq, and_true] at k
  obtain ⟨rfl, rfl⟩ := k
  exact ⟨rfl, List.append_cancel_right he, rfl⟩

/-! ## C47 -/

/-- C47. Two scripts with the same tokens other than white space and comments, both up to their ends or both up to a lexical
error, have the same directives or are both refused. -/
theorem script_trivia_ignored (lib : Lib) (h : lib.Total) (a b : List Byte) (ht : meaning (lexed a).1 = meaning (lexed b).1)
    (he : (lexed a).2 = (lexed b).2) (n m : Nat) (hn : a.length + 1 < n) (hm : b.length + 1 < m) :
    parseScript lib n a = parseScript lib m b := by
  have et : tokens a = tokens b := by unfold tokens; rw [ht]
  have hr := (wast_parser_ends lib h a n n hn hn).1
  rcases hr with ⟨ds, hr⟩ | hr
  · rw [hr]
    have := (wast_accepted_iff lib h a n hn ds).1 hr
    rw [et, he] at this
    exact ((wast_accepted_iff lib h b m hm ds).2 this).symm
  · rw [hr]
    have := (wast_refused_iff lib h a n hn).1 hr
    rw [et, he] at this
    exact ((wast_refused_iff lib h b m hm).2 this).symm

/-! ## C86: one script after the other -/

theorem many_append {α : Type} (A : α → Lang) (xs ys : List α) (ts us : List Sig) (h : many A xs ts) (h' : many A ys us) :
    many A (xs ++ ys) (ts ++ us) := by
  induction xs generalizing ts with
  | nil => cases h; exact h'
  | cons x xs ih =>
    obtain ⟨a, b, rfl, ha, hb⟩ := h
    exact ⟨a, b ++ us, by simp, ha, ih b hb⟩

theorem script_drop (lib : Lib) (ds es : List Directive) (ts us : List Sig) (h : script lib ds ts) (h' : script lib es (ts ++ us)) :
    ∃ fs, es = ds ++ fs ∧ script lib fs us := by
  induction ds generalizing ts es with
  | nil => cases h; exact ⟨es, rfl, h'⟩
  | cons d ds ih =>
    obtain ⟨a, b, rfl, ha, hb⟩ := h
    cases es with
    | nil =>
      obtain ⟨r, rfl⟩ := Grammar.directive_head lib d a ha
      cases h'
    | cons e es =>
      obtain ⟨a', b', e', ha', hb'⟩ := h'
      rw [List.append_assoc] at e'
      obtain ⟨rfl, rfl, rfl⟩ := directive_unambiguous lib d e a a' _ _ ha ha' e'
      obtain ⟨fs, rfl, hf⟩ := ih es b hb hb'
      exact ⟨fs, rfl, hf⟩

theorem directive_last (lib : Lib) (d : Directive) (ts : List Sig) (h : directive lib d ts) : ∃ us, ts = us ++ [rp] := by
  have quote : ∀ q, quoteWat lib q ts → ∃ us, ts = us ++ [rp] := by
    intro q hq
    cases q with
    | wat d => exact Wat.directive_ends lib d ts hq
    | quoteModule s => obtain ⟨us, rfl, -⟩ := Wat.Grammar.par_inv hq; exact ⟨lp :: us, rfl⟩
    | quoteComponent s => obtain ⟨us, rfl, -⟩ := Wat.Grammar.par_inv hq; exact ⟨lp :: us, rfl⟩
  rcases Grammar.directive_cases lib d ts h with ⟨q, rfl, hq⟩ | h
  · exact quote q hq
  · obtain ⟨us, rfl, -⟩ := Wat.Grammar.par_inv h; exact ⟨lp :: us, rfl⟩

theorem script_last (lib : Lib) (ds : List Directive) (ts : List Sig) (hd : ds ≠ []) (h : script lib ds ts) : ∃ us, ts = us ++ [rp] := by
  induction ds generalizing ts with
  | nil => exact absurd rfl hd
  | cons d ds ih =>
    obtain ⟨a, b, rfl, ha, hb⟩ := h
    cases ds with
    | nil =>
      cases hb
      rw [List.append_nil]
      exact directive_last lib d a ha
    | cons d' ds =>
      obtain ⟨us, rfl⟩ := ih b (by simp) hb
      exact ⟨a ++ us, by simp⟩

/-- The outcome with directives before it. -/
def before (ds : List Directive) : Res (List Directive) → Res (List Directive)
  | .ok es => .ok (ds ++ es)
  | r => r

/-- C86. An accepted script that is not empty has a last closing parenthesis such that what is put after it is read as a script
of its own: the directives of both are returned one after the other, and what is no script makes the whole refused.
Missing: scripts without directives, where it is false (`empty_script_swallows`). -/
theorem wast_concat_partial (lib : Lib) (h : lib.Total) (a : List Byte) (n : Nat) (hn : a.length + 1 < n) (ds : List Directive) (hd : ds ≠ [])
    (ha : parseScript lib n a = .ok ds) :
    ∃ k, a[k]? = some (ch ')') ∧ tokens (a.take (k + 1)) = tokens a ∧
      ∀ b m, k + 1 + b.length + 1 < m → parseScript lib m (a.take (k + 1) ++ b) = before ds (parseScript lib m b) := by
  obtain ⟨-, hs⟩ := (wast_accepted_iff lib h a n hn ds).1 ha
  obtain ⟨us, hu⟩ := script_last lib ds _ hd hs
  rw [hu] at hs
  obtain ⟨ps, hps, -⟩ := pieces_exist a
  have ep := pieces_tokens a ps hps
  rw [hu] at ep
  obtain ⟨x, y, rfl, ex, ey⟩ := List.filter_eq_append_iff.1 ep.symm
  obtain ⟨c, q, rfl, hc, -, hq⟩ := List.filter_eq_cons_iff.1 ey
  have hc : (c.filter fun t => !t.type.isTrivia) = [] := List.filter_eq_nil_iff.2 hc
  have hps : Pieces a ((x ++ c) ++ rp :: q) := by simpa using hps
  obtain ⟨-, ⟨r, e⟩, kk⟩ := pieces_concat a (x ++ c) q _ hps
  have et : a.take ((sigText (x ++ c)).length + 1) = sigText (x ++ c) ++ [ch ')'] := by
    rw [e, List.take_append, List.take_of_length_le (by omega)]
    simp
  -- the tokens after the parenthesis are those of what is put there
  have key : ∀ b, tokens (sigText (x ++ c) ++ ch ')' :: b) = us ++ [rp] ++ tokens b ∧
      (lexed (sigText (x ++ c) ++ ch ')' :: b)).2 = (lexed b).2 := by
    intro b
    obtain ⟨qb, hb, -⟩ := pieces_exist b
    have hw := kk b qb hb
    refine ⟨?_, ?_⟩
    · have hr : (!rp.type.isTrivia) = true := by decide
      rw [pieces_tokens _ _ hw, pieces_tokens b qb hb, List.filter_append, List.filter_append, ex, hc, List.filter_cons]
      change us ++ [] ++ (if (!rp.type.isTrivia) = true then rp :: _ else _) = _
      rw [if_pos hr]
      simp
    · rw [← significant_ended, ← significant_ended, pieces_ended _ _ hw, pieces_ended b qb hb]
      congr 2
      have : (sigText ((x ++ c) ++ ⟨TokenType.closeParen, txt ")"⟩ :: qb)).length = (sigText (x ++ c)).length + 1 + (sigText qb).length := by
        simp [sigText, txt]
        omega
      show List.drop (sigText ((x ++ c) ++ ⟨TokenType.closeParen, txt ")"⟩ :: qb)).length _ = _
      rw [this, List.append_cons]
      rw [List.drop_append, List.drop_of_length_le (by simp)]
      simp
  refine ⟨(sigText (x ++ c)).length, by simp [e], ?_, ?_⟩
  · rw [et, (key []).1, hu]
    have : tokens [] = [] := rfl
    rw [this, List.append_nil]
  · intro b m hm
    obtain ⟨k1, k2⟩ := key b
    have hlen : (sigText (x ++ c) ++ ch ')' :: b).length + 1 < m := by simp only [List.length_append, List.length_cons] at hm ⊢; omega
    have hlb : b.length + 1 < m := by omega
    rw [et, List.append_assoc, List.singleton_append]
    rcases (wast_parser_ends lib h b m m hlb hlb).1 with ⟨es, hes⟩ | hes
    · rw [hes]
      obtain ⟨e1, e2⟩ := (wast_accepted_iff lib h b m hlb es).1 hes
      refine (wast_accepted_iff lib h _ m hlen _).2 ⟨k2.trans e1, ?_⟩
      rw [k1]
      exact many_append _ _ _ _ _ hs e2
    · rw [hes]
      refine (wast_refused_iff lib h _ m hlen).2 fun fs f1 f2 => ?_
      rw [k1] at f2
      obtain ⟨gs, -, hg⟩ := script_drop lib ds fs _ _ hs f2
      exact (wast_refused_iff lib h b m hlb).1 hes gs (k2.symm.trans f1) hg

/-! ## C83: parentheses -/

/-- No result is `ref.null` or `ref.extern`. -/
def NoRef (ts : List Sig) : Prop := kw (txt "ref.null") ∉ ts ∧ kw (txt "ref.extern") ∉ ts

theorem NoRef.left {a b : List Sig} (h : NoRef (a ++ b)) : NoRef a := by simp [NoRef] at h ⊢; exact ⟨h.1.1, h.2.1⟩

theorem NoRef.right {a b : List Sig} (h : NoRef (a ++ b)) : NoRef b := by simp [NoRef] at h ⊢; exact ⟨h.1.2, h.2.2⟩

open Verif.Wat (Balances)

theorem const_balances (lib : Lib) (c : Option Const) : Balances (const lib c) := by
  rcases c with _ | c
  · exact .alt (.word _) (.word _)
  · cases c with
    | i32 v => exact (Balances.word _).cat (.int32 _)
    | i64 v => exact (Balances.word _).cat (.int64 _)
    | f32 v => exact (Balances.word _).cat (.float32 _ _)
    | f64 v => exact (Balances.word _).cat (.alt (.float64 _ _) (.only _))

theorem action_balances (lib : Lib) (a : Option Invoke) : Balances (action lib a) := by
  cases a with
  | none =>
    refine .par ?_
    rintro _ ⟨w, -, -, rfl⟩
    exact Wat.kw_balanced _ .nil
  | some i =>
    exact .par ((Balances.word _).cat ((Balances.optIdent _).cat ((Balances.str _).cat (.many (fun c => .par (const_balances lib c)) _))))

theorem results_balanced (lib : Lib) (cs : List Const) (ts : List Sig) (h : IsResults lib cs ts) (hr : NoRef ts) : Balanced ts := by
  induction h with
  | nil => exact .nil
  | const h _ ih => exact (Balances.par (const_balances lib _) _ h).append (ih hr.right)
  | ref h _ ih =>
    rcases h with rfl | rfl
    · exact absurd (by simp) hr.1
    · exact absurd (by simp) hr.2

theorem quoteWat_balances (lib : Lib) (q : QuoteWat) : Balances (quoteWat lib q) := by
  cases q with
  | wat d =>
    intro ts h
    obtain ⟨us, rfl, hu⟩ := Wat.directive_balanced lib d ts h
    exact hu.inParens
  | quoteModule s => exact .par ((Balances.tok (by simp) (by simp)).cat ((Balances.word _).cat (.str _)))
  | quoteComponent s => exact .par ((Balances.tok (by simp) (by simp)).cat ((Balances.word _).cat (.str _)))

theorem directive_balanced (lib : Lib) (d : Directive) (ts : List Sig) (h : directive lib d ts) (hr : NoRef ts) : Balanced ts := by
  cases d with
  | wat q => exact quoteWat_balances lib q ts h
  | assertReturn a rs =>
    obtain ⟨us, rfl, _, _, rfl, rfl, t1, t2, rfl, h1, h2⟩ := Wat.Grammar.par_inv h
    have : NoRef t2 := by
      have : inParens ([kw (txt "assert_return")] ++ (t1 ++ t2)) = (lp :: kw (txt "assert_return") :: t1) ++ (t2 ++ [rp]) := by simp [inParens]
      rw [this] at hr
      exact hr.right.left
    exact (Wat.kw_balanced _ ((action_balances lib a t1 h1).append (results_balanced lib rs t2 h2 this))).inParens
  | assertInvalid q s => exact (Balances.par ((Balances.word _).cat ((quoteWat_balances lib q).cat (.str _)))) ts h
  | assertMalformed q s => exact (Balances.par ((Balances.word _).cat ((quoteWat_balances lib q).cat (.str _)))) ts h
  | assertTrap a s => exact (Balances.par ((Balances.word _).cat ((action_balances lib a).cat (.str _)))) ts h

theorem script_balanced (lib : Lib) (ds : List Directive) (ts : List Sig) (h : script lib ds ts) (hr : NoRef ts) : Balanced ts := by
  induction ds generalizing ts with
  | nil => cases h; exact .nil
  | cons d ds ih =>
    obtain ⟨a, b, rfl, ha, hb⟩ := h
    exact (directive_balanced lib d a ha hr.left).append (ih b hb hr.right)

/-- C83, for scripts without `ref.null` and `ref.extern`: the parentheses of an accepted script are balanced. Missing: scripts
with these words; see `wast_unbalanced`. -/
theorem wast_balanced_partial (lib : Lib) (h : lib.Total) (text : List Byte) (n : Nat) (hn : text.length + 1 < n) (ds : List Directive)
    (ha : parseScript lib n text = .ok ds) (hr : NoRef (tokens text)) : Balanced (tokens text) :=
  script_balanced lib ds _ ((wast_accepted_iff lib h text n hn ds).1 ha).2 hr

/-- C83 fails for expected references: the script with the closing parenthesis of `(ref.null)` missing is accepted, whatever
is called, and the one with it is refused. -/
theorem wast_unbalanced (lib : Lib) (h : lib.Total) (s : List Byte) (hs : ch '"' ∉ s) (text : List Byte) (n : Nat) (hn : text.length + 1 < n)
    (he : (lexed text).2 = true) (w : List Byte) (hw : w = txt "ref.null" ∨ w = txt "ref.extern") :
    let start := [lp, kw (txt "assert_return"), lp, kw (txt "invoke"), ⟨.string, ch '"' :: s ++ [ch '"']⟩, rp, lp, kw w, rp]
    (tokens text = start → parseScript lib n text = .ok [.assertReturn (some ⟨none, s, []⟩) []] ∧ ¬ Balanced (tokens text)) ∧
      (tokens text = start ++ [rp] → Balanced (tokens text) ∧ parseScript lib n text = .err) := by
  intro start
  have hd : directive lib (.assertReturn (some ⟨none, s, []⟩) []) start := by
    refine ⟨[lp], _, rfl, rfl, [kw (txt "assert_return"), lp, kw (txt "invoke"), ⟨.string, ch '"' :: s ++ [ch '"']⟩, rp, lp, kw w], [rp], rfl,
      ⟨[kw (txt "assert_return")], _, rfl, rfl, [lp, kw (txt "invoke"), ⟨.string, ch '"' :: s ++ [ch '"']⟩, rp], [lp, kw w], rfl, ?_, ?_⟩, rfl⟩
    · exact ⟨[lp], _, rfl, rfl, [kw (txt "invoke"), ⟨.string, ch '"' :: s ++ [ch '"']⟩], [rp], rfl,
        ⟨[kw (txt "invoke")], _, rfl, rfl, [], _, rfl, rfl, [_], [], rfl, ⟨hs, rfl⟩, rfl⟩, rfl⟩
    · refine IsResults.ref (ts := [kw w]) (us := []) ?_ .nil
      rcases hw with rfl | rfl
      · exact .inl rfl
      · exact .inr rfl
  have hsc : script lib [.assertReturn (some ⟨none, s, []⟩) []] start := ⟨start, [], by simp, hd, rfl⟩
  constructor
  · intro ht
    refine ⟨(wast_accepted_iff lib h text n hn _).2 ⟨he, by rw [ht]; exact hsc⟩, fun hb => ?_⟩
    have := Wat.balanced_count hb
    rw [ht] at this
    simp [start, Wat.count, lp, rp, kw] at this
  · intro ht
    constructor
    · rw [ht]
      refine Balanced.inParens (ts := [kw (txt "assert_return"), lp, kw (txt "invoke"), ⟨.string, ch '"' :: s ++ [ch '"']⟩, rp, lp, kw w, rp]) ?_
      refine Wat.kw_balanced _ (Balanced.parens (ts := [kw (txt "invoke"), ⟨.string, ch '"' :: s ++ [ch '"']⟩]) rfl rfl ?_ ?_)
      · exact Wat.kw_balanced _ (.one (by simp) (by simp))
      · exact Balanced.inParens (ts := [kw w]) (Wat.kw_balanced _ .nil)
    · refine (wast_refused_iff lib h text n hn).2 fun es _ h2 => ?_
      rw [ht] at h2
      obtain ⟨fs, -, hf⟩ := script_drop lib _ es start [rp] hsc h2
      cases fs with
      | nil => cases hf
      | cons f fs =>
        obtain ⟨a, b, e, ha, -⟩ := hf
        obtain ⟨r, rfl⟩ := Grammar.directive_head lib f a ha
        simp [lp, rp] at e

/-! ## C84: actions -/

/-- C84 fails: any word other than `invoke` and `get` in place of an action is accepted, and the assertion calls nothing. -/
theorem wast_no_action (lib : Lib) (h : lib.Total) (w s : List Byte) (hw : w ≠ txt "invoke") (hg : w ≠ txt "get") (hs : ch '"' ∉ s)
    (text : List Byte) (n : Nat) (hn : text.length + 1 < n) (he : (lexed text).2 = true) :
    (tokens text = [lp, kw (txt "assert_return"), lp, kw w, rp, rp] → parseScript lib n text = .ok [.assertReturn none []]) ∧
      (tokens text = [lp, kw (txt "assert_trap"), lp, kw w, rp, ⟨.string, ch '"' :: s ++ [ch '"']⟩, rp] →
        parseScript lib n text = .ok [.assertTrap none s]) := by
  have hact : action lib none [lp, kw w, rp] := ⟨[lp], _, rfl, rfl, [kw w], [rp], rfl, ⟨w, hw, hg, rfl⟩, rfl⟩
  constructor
  · intro ht
    refine (wast_accepted_iff lib h text n hn _).2 ⟨he, ?_⟩
    rw [ht]
    exact ⟨_, [], (List.append_nil _).symm, ⟨[lp], _, rfl, rfl, [kw (txt "assert_return"), lp, kw w, rp], [rp], rfl,
      ⟨[kw (txt "assert_return")], _, rfl, rfl, [lp, kw w, rp], [], rfl, hact, .nil⟩, rfl⟩, rfl⟩
  · intro ht
    refine (wast_accepted_iff lib h text n hn _).2 ⟨he, ?_⟩
    rw [ht]
    exact ⟨_, [], (List.append_nil _).symm, ⟨[lp], _, rfl, rfl, [kw (txt "assert_trap"), lp, kw w, rp, ⟨.string, ch '"' :: s ++ [ch '"']⟩], [rp], rfl,
      ⟨[kw (txt "assert_trap")], _, rfl, rfl, [lp, kw w, rp], [_], rfl, hact, hs, rfl⟩, rfl⟩, rfl⟩

/-- The action of an assertion. -/
def Directive.action? : Directive → Option (Option Invoke)
  | .assertReturn a _ => some a
  | .assertTrap a _ => some a
  | _ => none

theorem script_part (lib : Lib) (ds : List Directive) (ts : List Sig) (h : script lib ds ts) (d : Directive) (hd : d ∈ ds) :
    ∃ us, us <:+: ts ∧ directive lib d us := by
  induction ds generalizing ts with
  | nil => cases hd
  | cons x ds ih =>
    obtain ⟨a, b, rfl, ha, hb⟩ := h
    rcases List.mem_cons.1 hd with rfl | hd
    · exact ⟨a, List.infix_append' [] a b, ha⟩
    · obtain ⟨us, ⟨p, q, e⟩, hu⟩ := ih b hb hd
      exact ⟨us, ⟨a ++ p, q, by rw [← e]; simp⟩, hu⟩

/-- The tokens of an assertion about an action, up to the word of the action. -/
theorem action_word (lib : Lib) (d : Directive) (a : Option Invoke) (ha : d.action? = some a) (ts : List Sig) (h : directive lib d ts) :
    ∃ v w r, (v = txt "assert_return" ∨ v = txt "assert_trap") ∧ ts = lp :: kw v :: lp :: kw w :: r ∧ w ≠ txt "get" ∧
      (a.isSome = true ↔ w = txt "invoke") := by
  have key : ∀ t, action lib a t → ∃ w r, t = lp :: kw w :: r ∧ w ≠ txt "get" ∧ (a.isSome = true ↔ w = txt "invoke") := by
    intro t ht
    cases a with
    | none =>
      obtain ⟨_, rfl, w, h1, h2, rfl⟩ := Wat.Grammar.par_inv ht
      exact ⟨w, [rp], rfl, h2, by simp [h1]⟩
    | some i =>
      obtain ⟨_, rfl, _, us, rfl, rfl, -⟩ := Wat.Grammar.par_inv ht
      exact ⟨txt "invoke", us ++ [rp], rfl, by decide, by simp⟩
  cases d with
  | wat q => cases ha
  | assertInvalid q s => cases ha
  | assertMalformed q s => cases ha
  | assertReturn a' rs =>
    cases ha
    obtain ⟨_, rfl, _, _, rfl, rfl, t1, t2, rfl, h1, -⟩ := Wat.Grammar.par_inv h
    obtain ⟨w, r, rfl, hg, hi⟩ := key t1 h1
    exact ⟨_, w, r ++ t2 ++ [rp], .inl rfl, by simp [inParens], hg, hi⟩
  | assertTrap a' s =>
    cases ha
    obtain ⟨_, rfl, _, _, rfl, rfl, t1, t2, rfl, h1, -⟩ := Wat.Grammar.par_inv h
    obtain ⟨w, r, rfl, hg, hi⟩ := key t1 h1
    exact ⟨_, w, r ++ t2 ++ [rp], .inr rfl, by simp [inParens], hg, hi⟩

/-- C84, for scripts whose only action is `invoke`: the assertions of an accepted script that need an action have one. Missing:
other words, see `wast_no_action`. -/
theorem wast_action_partial (lib : Lib) (h : lib.Total) (text : List Byte) (n : Nat) (hn : text.length + 1 < n) (ds : List Directive)
    (ha : parseScript lib n text = .ok ds)
    (hw : ∀ v w, (v = txt "assert_return" ∨ v = txt "assert_trap") → [lp, kw v, lp, kw w] <:+: tokens text → w = txt "invoke") :
    ∀ d ∈ ds, d.action? ≠ some none := by
  intro d hd hn'
  obtain ⟨us, ⟨p, q, e⟩, hu⟩ := script_part lib ds _ ((wast_accepted_iff lib h text n hn ds).1 ha).2 d hd
  obtain ⟨v, w, r, hv, rfl, -, hi⟩ := action_word lib d none hn' us hu
  have := hi.2 (hw v w hv ⟨p, r ++ q, by rw [← e]; simp⟩)
  cases this

/-- C84. An assertion about a `get` is refused. -/
theorem wast_get_refused (lib : Lib) (h : lib.Total) (text : List Byte) (n : Nat) (hn : text.length + 1 < n) (v : List Byte)
    (hv : v = txt "assert_return" ∨ v = txt "assert_trap") (r : List Sig) (ht : tokens text = lp :: kw v :: lp :: kw (txt "get") :: r) :
    parseScript lib n text = .err := by
  refine (wast_refused_iff lib h text n hn).2 fun ds _ hs => ?_
  rw [ht] at hs
  cases ds with
  | nil => cases hs
  | cons d ds =>
    obtain ⟨a, b, e, ha, -⟩ := hs
    cases hd : d.action? with
    | some x =>
      obtain ⟨v', w, r', -, rfl, hg, -⟩ := action_word lib d x hd a ha
      simp only [List.cons_append, List.cons.injEq, true_and] at e
      apply hg
      have := congrArg Sig.capture e.2.1
      exact this.symm
    | none =>
      have second : ∃ t r', a = lp :: t :: r' ∧ t ≠ kw (txt "assert_return") ∧ t ≠ kw (txt "assert_trap") := by
        cases d with
        | wat q =>
          obtain ⟨b, r', rfl⟩ := Grammar.quoteWat_second lib q a ha
          exact ⟨_, r', rfl, by cases b <;> decide, by cases b <;> decide⟩
        | assertReturn _ _ => cases hd
        | assertTrap _ _ => cases hd
        | assertInvalid q s =>
          obtain ⟨_, rfl, _, _, rfl, rfl, -⟩ := Wat.Grammar.par_inv ha
          exact ⟨_, _, rfl, by decide, by decide⟩
        | assertMalformed q s =>
          obtain ⟨_, rfl, _, _, rfl, rfl, -⟩ := Wat.Grammar.par_inv ha
          exact ⟨_, _, rfl, by decide, by decide⟩
      obtain ⟨t, r', rfl, h1, h2⟩ := second
      simp only [List.cons_append, List.cons.injEq, true_and] at e
      rcases hv with rfl | rfl
      · exact h1 e.1.symm
      · exact h2 e.1.symm

/-! ## Cases -/

/-- A script with a module, a quoted module and assertions. -/
def someScript : List Byte :=
  txt "(module (func)) ;; one\n(module quote \"(func\")(assert_return (invoke $m \"f\" (i32.const 1)(ref.null)) (i64.const -1) (f64.const))
    (assert_malformed (module quote \"x\") \"no\") (assert_trap (invoke \"g\") \"stop\") (; end "

/-- Whether an outcome is a number of directives with these actions and results. -/
def sameAsserts : Res (List Directive) → List (Option (Option Invoke × List Const)) → Bool
  | .ok ds, xs => decide (ds.map (fun d => match d with
      | .assertReturn a rs => some (a, rs)
      | _ => none) = xs)
  | _, _ => false

example : sameAsserts (parseScript someLib 400 someScript)
    [none, none, some (some ⟨some (txt "$m"), txt "f", [some (.i32 1), none]⟩, [.i64 (-1), .f64 0]), none, none] = true := by decide +kernel

theorem someScript_accepted : ∃ ds, parseScript someLib 400 someScript = .ok ds := by
  have : isOk (parseScript someLib 400 someScript) = true := by decide +kernel
  revert this
  cases parseScript someLib 400 someScript with
  | ok d => exact fun _ => ⟨d, rfl⟩
  | _ => exact fun h => by cases h

example : ∃ ds, (lexed someScript).2 = true ∧ script someLib ds (tokens someScript) := by
  obtain ⟨d, h⟩ := someScript_accepted
  exact ⟨d, (wast_accepted_iff someLib someLib_total someScript 400 (by decide +kernel) d).1 h⟩
example : isOk (parseScript someLib 100 (txt "(module) )")) = false := by decide +kernel
example : isOk (parseScript someLib 100 (txt "(module")) = false := by decide +kernel
example : isOk (parseScript someLib 100 (txt "(assert_return (invoke \"f\") (ref.null)")) = true := by decide +kernel
example : isOk (parseScript someLib 100 (txt "(assert_return (invoke \"f\") (ref.null))")) = false := by decide +kernel
example : (lexed (txt "(assert_return (frobnicate))")).2 = true ∧
    tokens (txt "(assert_return (frobnicate))") = [lp, kw (txt "assert_return"), lp, kw (txt "frobnicate"), rp, rp] := by decide +kernel
example : (lexed (txt "(assert_return (invoke \"f\") (ref.null)")).2 = true ∧ tokens (txt "(assert_return (invoke \"f\") (ref.null)") =
    [lp, kw (txt "assert_return"), lp, kw (txt "invoke"), ⟨.string, txt "\"f\""⟩, rp, lp, kw (txt "ref.null"), rp] := by decide +kernel

/-- **C86, where it fails.** A script without directives need not end with a parenthesis, and a comment at its end
swallows what is put after it. -/
theorem empty_script_swallows :
    (parseScript someLib 100 (txt ";; c")) matches .ok [] ∧
    (parseScript someLib 100 (txt "(module)")) matches .ok [_] ∧
    (parseScript someLib 100 (txt ";; c" ++ txt "(module)")) matches .ok [] := by
  refine ⟨?_, ?_, ?_⟩ <;> decide +kernel

end Verif.Wast
