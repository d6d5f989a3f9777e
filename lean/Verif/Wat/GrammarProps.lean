import Verif.Wat.GrammarComplete
import Verif.Wat.LexCut
import Verif.Wat.PrintProps

/-!
# The WAT parser and its grammar: C79, C80, C81
-/

namespace Verif.Wat

open Spec

namespace Spec

/-- The tokens of a text other than white space and comments, up to the end of the text or the first lexical error. -/
def tokens (text : List Byte) : List Sig := (meaning (lexed text).1).map fun p => ⟨p.1, p.2⟩

end Spec

theorem significant_toks (text : List Byte) : (significant text).toks = tokens text := by
  obtain ⟨a1, -⟩ := collect_lexed (text.length + 1) (Lexer.new text)
  unfold tokens lexed
  rw [← a1, List.map_map]
  exact (List.map_id _).symm

theorem pieces_tokens (w : List Byte) (ps : List Sig) (h : Pieces w ps) : tokens w = ps.filter fun t => !t.type.isTrivia := by
  rw [← significant_toks, pieces_significant w ps h]

/-! ## The tokens of the lexer -/

theorem val_not_shape (v : ValType) (ty : TokenType) (w : List Byte) (h : Shape ty w (valWord v)) (he : ty ≠ .endOfStream) : ty = .reserved := by
  have hq : valWord v ≠ [] ∧ (valWord v).head? ≠ some (ch '"') ∧ (valWord v).head? ≠ some (ch '(') ∧ (valWord v).head? ≠ some (ch ')') ∧
      (valWord v).head? ≠ some (ch ';') ∧ (valWord v).head? ≠ some (ch '$') ∧ ∀ b, (valWord v).head? = some b → isSpace b = false := by
    cases v <;> decide
  obtain ⟨q0, q1, q2, q3, q4, q5, q6⟩ := hq
  cases ty with
  | whitespace =>
    obtain ⟨-, h2, -⟩ := h
    cases hv : valWord v with
    | nil => exact absurd hv q0
    | cons b r =>
      rw [hv] at h2 q6
      have := h2 b (by simp)
      rw [q6 b rfl] at this
      cases this
  | openParen => rw [h.1] at q2; exact absurd rfl q2
  | closeParen => rw [show valWord v = txt ")" from h] at q3; exact absurd rfl q3
  | string => obtain ⟨b, e, -⟩ := h; rw [e] at q1; exact absurd rfl q1
  | lineComment => obtain ⟨b, e, -⟩ := h; rw [e] at q4; exact absurd rfl q4
  | blockComment => obtain ⟨b, e, -⟩ := h; rw [e] at q2; exact absurd rfl q2
  | id => obtain ⟨b, e, -⟩ := h; rw [e] at q5; exact absurd rfl q5
  | reserved => rfl
  | endOfStream => exact absurd rfl he
  | _ => exact h.elim

theorem val_classify (v : ValType) (ty : TokenType) (h : classify .reserved (valWord v) = .ok ty) : ty = .reserved := by
  have : classify .reserved (valWord v) = .ok .reserved := by cases v <;> decide +kernel
  rw [this] at h
  cases h
  rfl

theorem classify_keyword (c : List Byte) (h : classify .reserved c = .ok .module ∨ classify .reserved c = .ok .component) :
    classify .reserved c = .ok .module ∧ c = txt "module" ∨ classify .reserved c = .ok .component ∧ c = txt "component" := by
  have k : ∀ ty, classify .reserved c = .ok ty → ty = .integer ∨ ty = .float ∨ ty = .module ∧ c = txt "module" ∨
      ty = .component ∧ c = txt "component" ∨ ty = .reserved := by
    intro ty hty
    unfold classify at hty
    rw [if_pos rfl] at hty
    split at hty
    · cases hty; simp
    · obtain ⟨f, hf⟩ := isFloat_ok c
      rw [hf, Res.bind_ok] at hty
      split at hty
      · cases hty; simp
      · unfold keyword at hty
        split at hty
        · rename_i kw he
          split at he
          · cases he; cases hty; simp_all
          · split at he
            · cases he; cases hty; simp_all
            · cases he
        · cases hty; simp
  rcases h with h | h
  · rcases k _ h with h' | h' | ⟨-, h'⟩ | ⟨h', -⟩ | h'
    · cases h'
    · cases h'
    · exact .inl ⟨h, h'⟩
    · cases h'
    · cases h'
  · rcases k _ h with h' | h' | ⟨h', -⟩ | ⟨-, h'⟩ | h'
    · cases h'
    · cases h'
    · cases h'
    · exact .inr ⟨h, h'⟩
    · cases h'

theorem shape_fine (ty : TokenType) (w : List Byte) (t : Sig) (hc : classify ty t.capture = .ok t.type) (hs : Shape ty w t.capture)
    (he : ty ≠ .endOfStream) : t.Fine := by
  obtain ⟨ty', c⟩ := t
  simp only at hc hs
  have key : ty' = .module ∨ ty' = .component → ty = .reserved := by
    intro h
    by_cases hr : ty = .reserved
    · exact hr
    · rw [classify_other ty c hr] at hc
      cases hc
      rcases h with rfl | rfl <;> exact hs.elim
  constructor
  · intro h
    simp only at h
    subst h
    have := kind_of_type ty _ c hc (by simp)
    subst this
    exact hs.1
  · intro h
    simp only at h
    subst h
    have := kind_of_type ty _ c hc (by simp)
    subst this
    exact hs
  · intro h
    simp only at h
    subst h
    rw [key (.inl rfl)] at hc
    rcases classify_keyword c (.inl hc) with h | h
    · exact h.2
    · rw [hc] at h; cases h.1
  · intro h
    simp only at h
    subst h
    rw [key (.inr rfl)] at hc
    rcases classify_keyword c (.inr hc) with h | h
    · rw [hc] at h; cases h.1
    · exact h.2
  · intro h
    simp only at h
    subst h
    have := kind_of_type ty _ c hc (by simp)
    subst this
    obtain ⟨b, e, hb⟩ := hs
    exact ⟨b, hb, by simpa using e⟩
  · intro v h
    simp only at h ⊢
    subst h
    rw [val_not_shape v ty w hs he] at hc
    exact val_classify v ty' hc

theorem pieces_fine (w : List Byte) (ps : List Sig) (h : Pieces w ps) : ∀ t ∈ ps, t.Fine := by
  induction h with
  | stop _ => simp
  | more hf he hc _ ih =>
    intro t ht
    rcases List.mem_cons.1 ht with rfl | ht
    · have hs := first_shape _ _ _ hf
      rw [List.take_left] at hs
      exact shape_fine _ _ _ hc hs he
    · exact ih t ht

theorem significant_fine (text : List Byte) : (significant text).Fine := by
  obtain ⟨ps, h, -⟩ := pieces_exist text
  intro t ht
  rw [pieces_significant text ps h] at ht
  exact pieces_fine text ps h t (List.mem_filter.1 ht).1

/-! ## Acceptance -/

/-- C79. A text is accepted as a tree exactly if its tokens begin with what the grammar says that the tree is written as. -/
theorem wat_accepted_iff (lib : Lib) (h : lib.Total) (text : List Byte) (n : Nat) (hn : text.length < n) (d : Directive) :
    parseText lib n text = .ok d ↔ ∃ ts rest, tokens text = ts ++ rest ∧ directive lib d ts := by
  have k := (parseText_tokens lib h text n ((significant text).toks.length + 1) hn (by omega)).1
  constructor
  · intro ha
    rw [ha] at k
    rcases hp : parse streamOps lib ((significant text).toks.length + 1) (significant text) with ⟨r, st⟩
    rw [hp] at k
    simp only at k
    subst k
    obtain ⟨ts, e, hd⟩ := Grammar.parse_reads (P := Grammar.Always) lib _ (significant text) (significant_fine text) trivial d st hp
    refine ⟨ts, st.toks, ?_, hd⟩
    rw [← significant_toks, e]
    rfl
  · rintro ⟨ts, rest, e, hd⟩
    have hs : significant text = (⟨rest, (significant text).ended⟩ : Stream).push ts := by
      rw [← significant_toks] at e
      cases hs : significant text with
      | mk a b => rw [hs] at e; simp only at e; rw [e]; rfl
    have hl : ts.length < (significant text).toks.length + 1 := by rw [significant_toks, e]; simp; omega
    rw [k]
    generalize (significant text).toks.length + 1 = m at hl
    rw [hs, Grammar.parse_takes lib m d ts _ hd hl]

/-- C79. Every other text is answered with an error. -/
theorem wat_refused_iff (lib : Lib) (h : lib.Total) (text : List Byte) (n : Nat) (hn : text.length < n) :
    parseText lib n text = .err ↔ ∀ d ts rest, tokens text = ts ++ rest → ¬ directive lib d ts := by
  have hr := (wat_parser_ends lib h text n n hn hn).1
  constructor
  · intro he d ts rest e hd
    have := (wat_accepted_iff lib h text n hn d).2 ⟨ts, rest, e, hd⟩
    rw [he] at this
    cases this
  · intro hno
    cases hp : parseText lib n text with
    | ok d =>
      obtain ⟨ts, rest, e, hd⟩ := (wat_accepted_iff lib h text n hn d).1 hp
      exact absurd hd (hno d ts rest e)
    | err => rfl
    | panic => rw [hp] at hr; rcases hr with ⟨_, hr⟩ | hr <;> cases hr
    | diverge => rw [hp] at hr; rcases hr with ⟨_, hr⟩ | hr <;> cases hr

/-- C80. The grammar is unambiguous, and no directive is the beginning of another. -/
theorem wat_unambiguous (lib : Lib) (d d' : Directive) (ts ts' rest rest' : List Sig) (h : directive lib d ts) (h' : directive lib d' ts')
    (he : ts ++ rest = ts' ++ rest') : d = d' ∧ ts = ts' ∧ rest = rest' := by
  have k := Grammar.parse_takes lib (ts.length + ts'.length + 1) d ts ⟨rest, true⟩ h (by omega)
  have k' := Grammar.parse_takes lib (ts.length + ts'.length + 1) d' ts' ⟨rest', true⟩ h' (by omega)
  have e : (⟨rest, true⟩ : Stream).push ts = (⟨rest', true⟩ : Stream).push ts' := by simp [Stream.push, he]
  rw [e, k'] at k
  simp only [Prod.mk.injEq, Res.ok.injEq, Stream.mk.injEq, and_true] at k
  obtain ⟨rfl, rfl⟩ := k
  exact ⟨rfl, List.append_cancel_right he, rfl⟩

/-! ## What is read of a text -/

theorem directive_ends (lib : Lib) (d : Directive) (ts : List Sig) (h : directive lib d ts) : ∃ us, ts = us ++ [rp] := by
  rw [Grammar.directive_par] at h
  obtain ⟨us, rfl, -⟩ := Grammar.par_inv h
  exact ⟨lp :: us, rfl⟩

/-- Where the directive ends in the text. -/
theorem accepted_split (lib : Lib) (h : lib.Total) (text : List Byte) (n : Nat) (hn : text.length < n) (d : Directive)
    (ha : parseText lib n text = .ok d) :
    ∃ p q, Pieces text (p ++ rp :: q) ∧ directive lib d ((p.filter fun t => !t.type.isTrivia) ++ [rp]) := by
  obtain ⟨ts, rest, e, hd⟩ := (wat_accepted_iff lib h text n hn d).1 ha
  obtain ⟨us, rfl⟩ := directive_ends lib d ts hd
  obtain ⟨ps, hps, -⟩ := pieces_exist text
  rw [pieces_tokens text ps hps, List.append_assoc, List.filter_eq_append_iff] at e
  obtain ⟨a, b, rfl, rfl, e2⟩ := e
  rw [List.singleton_append, List.filter_eq_cons_iff] at e2
  obtain ⟨c, q, rfl, hc, -, -⟩ := e2
  have hc : (c.filter fun t => !t.type.isTrivia) = [] := List.filter_eq_nil_iff.2 hc
  refine ⟨a ++ c, q, by simpa using hps, ?_⟩
  rw [List.filter_append, hc, List.append_nil]
  exact hd

/-- Anything after the closing parenthesis. -/
theorem split_accepted (lib : Lib) (h : lib.Total) (text : List Byte) (n : Nat) (hn : text.length < n) (d : Directive) (p q : List Sig)
    (hp : Pieces text (p ++ rp :: q)) (hd : directive lib d ((p.filter fun t => !t.type.isTrivia) ++ [rp])) : parseText lib n text = .ok d := by
  refine (wat_accepted_iff lib h text n hn d).2 ⟨_, q.filter fun t => !t.type.isTrivia, ?_, hd⟩
  rw [pieces_tokens text _ hp, List.filter_append, List.filter_cons, if_pos (by simp [rp, TokenType.isTrivia])]
  simp

/-- C81. What follows an accepted text is not read: whatever it is, the answer is the same. -/
theorem wat_rest_ignored (lib : Lib) (h : lib.Total) (text more : List Byte) (n m : Nat) (hn : text.length < n)
    (hm : (text ++ more).length < m) (d : Directive) (ha : parseText lib n text = .ok d) : parseText lib m (text ++ more) = .ok d := by
  obtain ⟨p, q, hp, hd⟩ := accepted_split lib h text n hn d ha
  obtain ⟨-, ⟨r, rfl⟩, k⟩ := pieces_append text p q _ hp
  obtain ⟨q', hq⟩ := k (r ++ more)
  refine split_accepted lib h _ m hm d p q' ?_ hd
  rw [List.append_assoc, List.cons_append]
  exact hq

theorem prefix_of_filter (p p' q q' : List Sig) (x : Sig) (he : p ++ x :: q = p' ++ x :: q')
    (hf : (p.filter fun t => !t.type.isTrivia) = p'.filter fun t => !t.type.isTrivia) (hx : x.type.isTrivia = false) : p = p' := by
  rcases List.append_eq_append_iff.1 he with ⟨a, rfl, e⟩ | ⟨a, rfl, e⟩
  · cases a with
    | nil => simp
    | cons y a =>
      simp only [List.cons_append, List.cons.injEq] at e
      obtain ⟨rfl, -⟩ := e
      have := congrArg List.length hf
      simp [List.filter_append, hx] at this
  · cases a with
    | nil => simp
    | cons y a =>
      simp only [List.cons_append, List.cons.injEq] at e
      obtain ⟨rfl, -⟩ := e
      have := congrArg List.length hf
      simp [List.filter_append, hx] at this

/-- C81. An accepted text has a closing parenthesis such that every text that goes on in any way after it is accepted as the
same tree, and the text cut anywhere before or at it is refused. -/
theorem wat_cut (lib : Lib) (h : lib.Total) (text : List Byte) (n : Nat) (hn : text.length < n) (d : Directive)
    (ha : parseText lib n text = .ok d) :
    ∃ k, text[k]? = some (ch ')') ∧
      (∀ more m, k + 1 + more.length < m → parseText lib m (text.take (k + 1) ++ more) = .ok d) ∧
      ∀ j m, j ≤ k → text.length < m → parseText lib m (text.take j) = .err := by
  obtain ⟨p, q, hp, hd⟩ := accepted_split lib h text n hn d ha
  obtain ⟨-, ⟨r, e⟩, k⟩ := pieces_append text p q _ hp
  refine ⟨(sigText p).length, by simp [e], ?_, ?_⟩
  · intro more m hm
    obtain ⟨q', hq⟩ := k more
    have et : text.take ((sigText p).length + 1) = sigText p ++ [ch ')'] := by
      rw [e, List.take_append, List.take_of_length_le (by omega)]
      simp
    rw [et, List.append_assoc, List.singleton_append]
    refine split_accepted lib h _ m ?_ d p q' hq hd
    simp only [List.length_append, List.length_cons]
    omega
  · intro j m hj hm
    have hjm : (text.take j).length < m := by simp; omega
    have hr := (wat_parser_ends lib h (text.take j) m m hjm hjm).1
    cases hx : parseText lib m (text.take j) with
    | err => rfl
    | panic => rw [hx] at hr; rcases hr with ⟨_, hr⟩ | hr <;> cases hr
    | diverge => rw [hx] at hr; rcases hr with ⟨_, hr⟩ | hr <;> cases hr
    | ok d' =>
      exfalso
      obtain ⟨p2, q2, hp2, hd2⟩ := accepted_split lib h (text.take j) m hjm d' hx
      obtain ⟨-, ⟨r2, e2⟩, k2⟩ := pieces_append (text.take j) p2 q2 _ hp2
      obtain ⟨q3, hq3⟩ := k2 (r2 ++ text.drop j)
      have ew : sigText p2 ++ ch ')' :: (r2 ++ text.drop j) = text := by
        have := List.take_append_drop j text
        rw [e2] at this
        simpa using this
      rw [ew] at hq3
      have eP := pieces_unique text _ _ hp hq3
      have eT := congrArg (List.filter fun t => !t.type.isTrivia) eP
      have hx : (!rp.type.isTrivia) = true := by decide
      simp only [List.filter_append, List.filter_cons] at eT
      change _ ++ (if (!rp.type.isTrivia) = true then _ else _) = _ ++ (if (!rp.type.isTrivia) = true then _ else _) at eT
      rw [if_pos hx, if_pos hx, List.append_cons, List.append_cons (List.filter _ p2)] at eT
      obtain ⟨-, e3, -⟩ := wat_unambiguous lib d d' _ _ _ _ hd hd2 eT
      have e4 := List.append_cancel_right e3
      have e5 := prefix_of_filter p p2 q q3 rp eP e4 (by decide)
      subst e5
      have := congrArg List.length e2
      simp at this
      omega

/-! ## Cases -/

mutual

/-- Whether two instructions are the same, for the examples. -/
def Inst.same : Inst → Inst → Bool
  | .nil, .nil => true
  | .plain p, .plain q => p == q
  | .indexed k i, .indexed l j => k == l && i == j
  | .i32Const v, .i32Const w => v == w
  | .i64Const v, .i64Const w => v == w
  | .f32Const v, .f32Const w => v == w
  | .f64Const v, .f64Const w => v == w
  | .callIndirect v, .callIndirect w => v == w
  | .folded i ps, .folded j qs => i.same j && Inst.sames ps qs
  | .block n rs is, .block m ss js => n == m && rs == ss && Inst.sames is js
  | .loop n rs is, .loop m ss js => n == m && rs == ss && Inst.sames is js
  | .ifThen n rs is ts none, .ifThen m ss js us none => n == m && rs == ss && Inst.sames is js && Inst.sames ts us
  | .ifThen n rs is ts (some es), .ifThen m ss js us (some fs) =>
    n == m && rs == ss && Inst.sames is js && Inst.sames ts us && Inst.sames es fs
  | _, _ => false

/-- The same for lists. -/
def Inst.sames : List Inst → List Inst → Bool
  | [], [] => true
  | i :: is, j :: js => i.same j && Inst.sames is js
  | _, _ => false

end

/-- Whether two functions are the same. -/
def Function.same (f g : Function) : Bool :=
  f.id == g.id && f.locals == g.locals && f.exports == g.exports && f.parameters == g.parameters && f.results == g.results &&
    Inst.sames f.instructions g.instructions

/-- Whether a text is accepted as the module with these functions and memories and nothing else. -/
def acceptedAs (n : Nat) (text : List Byte) (fs : List Function) (ms : List Memory) : Bool :=
  match parseText someLib n text with
  | .ok (.module m) => m.memory == ms && m.types.isEmpty && m.tables.isEmpty && m.globals.isEmpty && m.functions.length == fs.length &&
    (m.functions.zip fs).all fun p => p.1.same p.2
  | _ => false

/-- A module with instructions in parentheses and without them, in an odd order, and other text after it. -/
def oddText : List Byte := txt "(module (memory 1 2)(func $f(i32.const 1)(result i32)(drop) block(drop) drop)(func)) )) \"(; "

example : acceptedAs 200 oddText
    [⟨some (txt "$f"), [], [], [], [⟨[.i32]⟩], [.i32Const 1, .plain .drop, .block none [] [.plain .drop], .plain .drop]⟩,
      ⟨none, [], [], [], [], []⟩] [⟨none, ⟨1, some 2⟩⟩] = true := by decide +kernel

theorem someLib_total : someLib.Total := ⟨fun _ => .inr rfl, fun _ => .inr rfl⟩

theorem oddText_accepted : ∃ d, parseText someLib 200 oddText = .ok d := by
  have : isOk (parseText someLib 200 oddText) = true := by decide +kernel
  revert this
  cases parseText someLib 200 oddText with
  | ok d => exact fun _ => ⟨d, rfl⟩
  | _ => exact fun h => by cases h

example : ∃ d ts rest, tokens oddText = ts ++ rest ∧ directive someLib d ts := by
  obtain ⟨d, h⟩ := oddText_accepted
  exact ⟨d, (wat_accepted_iff someLib someLib_total oddText 200 (by decide) d).1 h⟩
example : isOk (parseText someLib 200 (oddText.take 83)) = false := by decide +kernel
example : isOk (parseText someLib 200 (oddText.take 84)) = true := by decide +kernel
example : isOk (parseText someLib 200 (oddText.take 84 ++ txt "anything \"")) = true := by decide +kernel

/-- C79, a lack of the parser: an import inside a function leaves nothing in the tree, whatever it names. -/
theorem inline_import_lost (lib : Lib) (f : Function) (s s' : List Byte) (hs : ch '"' ∉ s) (hs' : ch '"' ∉ s') (us : List Sig)
    (h : IsFunc lib f us) :
    IsFunc lib f (lp :: kw (txt "import") :: ⟨.string, ch '"' :: s ++ [ch '"']⟩ :: ⟨.string, ch '"' :: s' ++ [ch '"']⟩ :: rp :: us) := by
  have := IsFunc.import_ (lib := lib) (ts := lp :: kw (txt "import") :: ⟨.string, ch '"' :: s ++ [ch '"']⟩ ::
    ⟨.string, ch '"' :: s' ++ [ch '"']⟩ :: [rp]) (s := s) (s' := s') (f := f) (us := us) ?_ h
  · simpa using this
  · exact ⟨[lp], _, rfl, rfl, [kw (txt "import"), ⟨.string, ch '"' :: s ++ [ch '"']⟩, ⟨.string, ch '"' :: s' ++ [ch '"']⟩], [rp], rfl,
      ⟨[kw (txt "import")], _, rfl, rfl, [_], [_], rfl, ⟨hs, rfl⟩, ⟨hs', rfl⟩⟩, rfl⟩

example : acceptedAs 200 (txt "(module (func (import \"a\" \"b\") (param i32)))") [⟨none, [], [], [⟨none, [.i32]⟩], [], []⟩] [] = true := by
  decide +kernel
example : acceptedAs 200 (txt "(module (func (param i32)))") [⟨none, [], [], [⟨none, [.i32]⟩], [], []⟩] [] = true := by
  decide +kernel

end Verif.Wat
