import Verif.Wast.Parse
import Verif.Wat.Local

/-!
# How far the parser of scripts looks

As for modules, see `Verif.Wat.Local`. The parser of scripts reads up to three tokens from a copy of its lexer, and then reads
them again; it looks as far the second time.
-/

namespace Verif.Wast

open Verif.Wat

variable {S T α β : Type} {Past : S → Prop} {R : S → T → Prop} {o : Ops S} {p : Ops T}

/-- Calls that agree until they look too far, as seen by a parser that reads tokens twice: `next` goes too far only where
`peek` does, and `peek` can be repeated. -/
structure TwiceDich (Past : S → Prop) (R : S → T → Prop) (o : Ops S) (p : Ops T) : Prop extends OpsDich Past R o p where
  near : ∀ s t, R s t → (o.next s).1 ≠ .diverge →
    ((o.next s).1 = (p.next t).1 ∧ R (o.next s).2 (p.next t).2) ∨ Past (o.peek s).2
  twice : (∀ s, ¬ Past s) ∨ ∀ s x s', o.peek s = (.ok x, s') → o.peek s' = (.ok x, s')

theorem constFloat64_dich (h : OpsDich Past R o p) (lib : Lib) : Dich Past R (constFloat64 o lib) (constFloat64 p lib) := by
  have := parseInt64_dich h
  unfold constFloat64 peekFloat peekInteger parseFloat64; repeat dich_step

theorem parseConst_dich (h : OpsDich Past R o p) (lib : Lib) : Dich Past R (parseConst o lib) (parseConst p lib) := by
  have h1 := parseInt32_dich h
  have h2 := parseInt64_dich h
  have h3 := constFloat32_dich h lib
  have h4 := constFloat64_dich h lib
  unfold parseConst; repeat dich_step

theorem parseResults_dich (h : OpsDich Past R o p) (lib : Lib) (n m : Nat) (hn : n ≤ m) :
    Dich Past R (parseResults o lib n) (parseResults p lib m) := by
  induction n generalizing m with
  | zero => exact Dich.spent _
  | succ n ih =>
    cases m with
    | zero => omega
    | succ m =>
      have h1 := eat_dich h .openParen
      have h2 := expect_dich h .closeParen
      have h3 := ih m (by omega)
      have h4 := parseConst_dich h lib
      unfold parseResults
      refine Dich.bind h1 fun _ => Dich.ite (Dich.bind h4 fun c => ?_) (Dich.pure _)
      cases c with
      | none => exact h3
      | some r => exact Dich.bind h2 fun _ => Dich.bind h3 fun _ => Dich.pure _

theorem parseAction_dich (h : OpsDich Past R o p) (lib : Lib) (n m : Nat) (hn : n ≤ m) :
    Dich Past R (parseAction o lib n) (parseAction p lib m) := by
  have h1 := expect_dich h .openParen
  have h2 := expect_dich h .closeParen
  have h3 := parens_dich h (parseConst_dich h lib) n m hn
  have h4 := parseString_dich h
  have h5 := parseOptionalId_dich h
  unfold parseAction actionBody parseInvoke parseConsts; repeat dich_step

theorem quoteKeyword_dich (h : OpsDich Past R o p) : Dich Past R (quoteKeyword o) (quoteKeyword p) := by
  have h1 := eat_dich h .component
  have h2 := eat_dich h .module
  unfold quoteKeyword; repeat dich_step

/-- What the parser of modules does after `(module` or `(component`. -/
def afterKeyword (o : Ops S) (lib : Lib) (n : Nat) : Bool → SM S Wat.Directive
  | true => do
    expect o .closeParen
    pure .component
  | false => do
    let items ← parens o (parseSection o lib n) n
    expect o .closeParen
    pure (.module (Module.ofSections items))

theorem parseSection_dich (h : OpsDich Past R o p) (lib : Lib) (n m : Nat) (hn : n ≤ m) :
    Dich Past R (parseSection o lib n) (parseSection p lib m) := by
  have h1 := parseFunc_dich h lib n m hn
  have h2 := parseType_dich h n m hn
  have h3 := parseTable_dich h n m hn
  have h4 := parseGlobal_dich h lib n m hn
  have h5 := parseMemory_dich h
  unfold parseSection; repeat dich_step

theorem afterKeyword_dich (h : OpsDich Past R o p) (lib : Lib) (n m : Nat) (hn : n ≤ m) (b : Bool) :
    Dich Past R (afterKeyword o lib n b) (afterKeyword p lib m b) := by
  have h1 := expect_dich h .closeParen
  have h2 := parens_dich h (parseSection_dich h lib n m hn) n m hn
  cases b <;> unfold afterKeyword <;> repeat dich_step

theorem eat_true {ty : TokenType} {s s' : S} (h : eat o ty s = (.ok true, s')) :
    ∃ tok s1, o.peek s = (.ok tok, s1) ∧ tok.type = ty ∧ expect o ty s1 = (.ok (), s') := by
  unfold eat at h
  rw [SM.bind_def] at h
  rcases hp : o.peek s with ⟨tok | _ | _ | _, s1⟩ <;> rw [hp] at h <;> simp only at h
  · by_cases hc : tok.type ≠ ty
    · rw [if_pos hc] at h; cases h
    · rw [if_neg hc, SM.bind_def] at h
      rcases hx : expect o ty s1 with ⟨_ | _ | _ | _, s2⟩ <;> rw [hx] at h <;> cases h
      exact ⟨tok, s1, rfl, Classical.not_not.1 hc, hx⟩
  all_goals cases h

theorem eat_false {ty : TokenType} {s s' : S} (h : eat o ty s = (.ok false, s')) :
    ∃ tok, o.peek s = (.ok tok, s') ∧ tok.type ≠ ty := by
  unfold eat at h
  rw [SM.bind_def] at h
  rcases hp : o.peek s with ⟨tok | _ | _ | _, s1⟩ <;> rw [hp] at h <;> simp only at h
  · by_cases hc : tok.type ≠ ty
    · rw [if_pos hc] at h; cases h; exact ⟨tok, rfl, hc⟩
    · rw [if_neg hc, SM.bind_def] at h
      rcases hx : expect o ty s1 with ⟨_ | _ | _ | _, s2⟩ <;> rw [hx] at h <;> cases h
  all_goals cases h

/-- Read again by the parser of modules, the two tokens lead to the same place. -/
theorem parse_again (ht : ∀ s x s', o.peek s = (.ok x, s') → o.peek s' = (.ok x, s')) (lib : Lib) (n : Nat) {s s1 s2 : S} {b : Bool}
    (h1 : expect o .openParen s = (.ok (), s1)) (h2 : quoteKeyword o s1 = (.ok b, s2)) :
    Wat.parse o lib n s = afterKeyword o lib n b s2 := by
  unfold Wat.parse parseRoot
  rw [SM.bind_ok h1, sm_assoc]
  unfold quoteKeyword at h2
  rw [SM.bind_def] at h2
  rcases hc : eat o .component s1 with ⟨(_ | _) | _ | _ | _, sA⟩ <;> rw [hc] at h2 <;>
    simp only [Bool.false_eq_true, if_false, if_true] at h2
  · obtain ⟨tok, hp, hn⟩ := eat_false hc
    rw [SM.bind_def] at h2
    rcases hm : eat o .module sA with ⟨(_ | _) | _ | _ | _, sB⟩ <;> rw [hm] at h2 <;>
      simp only [Bool.false_eq_true, if_false, if_true] at h2
    · rw [SM.bind_def] at h2
      rcases hz : o.next sB with ⟨_ | _ | _ | _, sC⟩ <;> rw [hz] at h2 <;> cases h2
    · cases h2
      obtain ⟨tok', s', hp', ht', he⟩ := eat_true hm
      rw [ht _ _ _ hp] at hp'
      cases hp'
      rw [SM.bind_ok hp, if_pos ht', sm_assoc, parseModule, sm_assoc, SM.bind_ok he]
      simp only [sm_assoc]
      rfl
    all_goals cases h2
  · cases h2
    obtain ⟨tok, s', hp, ht', he⟩ := eat_true hc
    rw [SM.bind_ok hp, if_neg (by rw [ht']; decide), if_pos ht', parseComponent, sm_assoc, SM.bind_ok he]
    rfl
  all_goals cases h2

/-- What comes after `(module` or `(component` begins with a look at the next token. -/
theorem afterKeyword_looks (h : OpsDich Past R o p) (lib : Lib) (n : Nat) (b : Bool) (s : S) (hp : Past (o.peek s).2)
    (hd : (afterKeyword o lib n b s).1 ≠ .diverge) : Past (afterKeyword o lib n b s).2 := by
  cases b with
  | true =>
    have hx := h.same s hp
    simp only [afterKeyword]
    unfold expect
    rw [sm_assoc, SM.bind_def]
    rcases hy : o.next s with ⟨tok | _ | _ | _, s1⟩ <;> rw [hy] at hx <;> simp only at hx ⊢
    · by_cases hc : tok.type = .closeParen
      · rw [if_pos hc]; exact hx
      · rw [if_neg hc]; exact hx
    all_goals exact hx
  | false =>
    cases n with
    | zero => exact absurd rfl hd
    | succ n =>
      have hb := parseSection_dich h lib (n + 1) (n + 1) (Nat.le_refl _)
      have h1 := expect_dich h .closeParen
      have h2 := expect_dich h .openParen
      have h3 := parens_dich h hb n n (Nat.le_refl _)
      simp only [afterKeyword]
      rw [parens, sm_assoc, eat, sm_assoc, SM.bind_def]
      rcases hy : o.peek s with ⟨tok | _ | _ | _, s1⟩ <;> rw [hy] at hp <;> simp only at hp ⊢
      · exact (Dich.bind (Dich.ite (Dich.pure _) (Dich.bind h2 fun _ => Dich.pure _)) fun _ =>
          Dich.bind (Dich.ite (Dich.bind hb fun _ => Dich.bind h1 fun _ => Dich.bind h3 fun _ => Dich.pure _) (Dich.pure _))
            fun _ => Dich.bind h1 fun _ => Dich.pure _).2 s1 hp
      all_goals exact hp

/-- What `parseQuoteWat` does after the word `quote`. -/
def afterQuote (o : Ops S) (b : Bool) : SM S QuoteWat := do
  let s ← parseString o
  expect o .closeParen
  pure (if b then .quoteComponent s else .quoteModule s)

/-- The parser of modules, from a lexer kept before. -/
def restart (o : Ops S) (lib : Lib) (n : Nat) (before : S) : SM S QuoteWat := fun _ =>
  (Wat.parse o lib n >>= fun d => (pure (.wat d) : SM S QuoteWat)) before

/-- What `parseQuoteWat` does after three tokens of the copy. -/
def quoteOr (o : Ops S) (lib : Lib) (n : Nat) (before : S) (b : Bool) (tok : Sig) : SM S QuoteWat :=
  if tok.type ≠ .reserved ∨ tok.capture ≠ txt "quote" then restart o lib n before else afterQuote o b

theorem quoteWat_step (o : Ops S) (lib : Lib) (n : Nat) (s : S) :
    parseQuoteWat o lib n s = (expect o .openParen >>= fun _ => quoteKeyword o >>= fun b => o.next >>= quoteOr o lib n s b) s := by
  unfold parseQuoteWat
  rw [SM.bind_get]
  rfl

/-- If reading the three tokens has gone too far before the third, `parseQuoteWat` goes too far. -/
theorem quoteWat_past (h : TwiceDich Past R o p) (lib : Lib) (n : Nat) (s s1 s2 : S) (b : Bool)
    (h1 : expect o .openParen s = (.ok (), s1)) (h2 : quoteKeyword o s1 = (.ok b, s2)) (hp : Past s2 ∨ Past (o.peek s2).2)
    (hd : (parseQuoteWat o lib n s).1 ≠ .diverge) : Past (parseQuoteWat o lib n s).2 := by
  have hp : Past (o.peek s2).2 := hp.elim (h.peek.2 s2) id
  rcases h.twice with h0 | ht
  · exact absurd hp (h0 _)
  rw [quoteWat_step, SM.bind_ok h1, SM.bind_ok h2, SM.bind_def] at hd ⊢
  have hx := h.same s2 hp
  rcases hy : o.next s2 with ⟨tok | _ | _ | _, s3⟩ <;> rw [hy] at hx hd <;> simp only at hx hd ⊢
  · unfold quoteOr at hd ⊢
    by_cases hc : tok.type ≠ .reserved ∨ tok.capture ≠ txt "quote"
    · rw [if_pos hc] at hd ⊢
      unfold restart at hd ⊢
      rw [SM.bind_def, parse_again ht lib n h1 h2] at hd ⊢
      have k := afterKeyword_looks h.toOpsDich lib n b s2 hp
      rcases hz : afterKeyword o lib n b s2 with ⟨d | _ | _ | _, s4⟩ <;> rw [hz] at k hd <;> simp only at k hd ⊢
      · exact k (by simp)
      · exact k (by simp)
      · exact k (by simp)
      · exact absurd rfl hd
    · rw [if_neg hc]
      have g1 := parseString_dich h.toOpsDich
      have g2 := expect_dich h.toOpsDich .closeParen
      exact (Dich.bind g1 fun _ => Dich.bind g2 fun _ => Dich.pure _).2 s3 hx
  all_goals exact hx

theorem parseQuoteWat_dich (h : TwiceDich Past R o p) (lib : Lib) (n m : Nat) (hn : n ≤ m) :
    Dich Past R (parseQuoteWat o lib n) (parseQuoteWat p lib m) := by
  have g0 := expect_dich h.toOpsDich .openParen
  have g1 := quoteKeyword_dich h.toOpsDich
  have g2 := parse_dich h.toOpsDich lib n m hn
  have g3 : ∀ b, Dich Past R (afterQuote o b) (afterQuote p b) := fun b =>
    Dich.bind (parseString_dich h.toOpsDich) fun _ => Dich.bind (expect_dich h.toOpsDich .closeParen) fun _ => Dich.pure _
  have g4 : Dich Past R (Wat.parse o lib n >>= fun d => (pure (.wat d) : SM S QuoteWat))
      (Wat.parse p lib m >>= fun d => (pure (.wat d) : SM T QuoteWat)) := Dich.bind g2 fun _ => Dich.pure _
  refine ⟨fun s t hr hd => ?_, fun s hs => ?_⟩
  · have past := quoteWat_past h lib n s
    rw [quoteWat_step, SM.bind_def] at hd past ⊢
    rw [quoteWat_step, SM.bind_def]
    have k := g0.1 s t hr
    rcases he : expect o .openParen s with ⟨_ | _ | _ | _, s1⟩ <;> rw [he] at k hd past <;> simp only at hd ⊢
    · rcases k (by simp) with ⟨k1, k2⟩ | kp
      · rcases hf : expect p .openParen t with ⟨r, t1⟩
        rw [hf] at k1 k2
        simp only at k1 k2
        subst k1
        simp only
        rw [SM.bind_def] at hd ⊢
        rw [SM.bind_def]
        have j := g1.1 s1 t1 k2
        rcases hq : quoteKeyword o s1 with ⟨b | _ | _ | _, s2⟩ <;> rw [hq] at j hd <;> simp only at hd ⊢
        · rcases j (by simp) with ⟨j1, j2⟩ | jp
          · rcases hf : quoteKeyword p t1 with ⟨r, t2⟩
            rw [hf] at j1 j2
            simp only at j1 j2
            subst j1
            simp only
            have past := past s1 s2 b rfl hq
            simp only [SM.bind_ok hq] at past
            rw [SM.bind_def] at hd past ⊢
            rw [SM.bind_def]
            rcases h.near s2 t2 j2 (by
              intro e
              rcases hy : o.next s2 with ⟨tok | _ | _ | _, s3⟩ <;> rw [hy] at e hd <;> simp only at e hd
              · cases e
              · cases e
              · cases e
              · exact hd rfl) with ⟨i1, i2⟩ | ip
            · rcases hy : o.next s2 with ⟨tok | _ | _ | _, s3⟩ <;> rw [hy] at i1 i2 hd <;> simp only at hd ⊢ <;>
                rcases hz : p.next t2 with ⟨q, t3⟩ <;> rw [hz] at i1 i2 <;> simp only at i1 i2 <;> subst i1
              · simp only
                unfold quoteOr at hd ⊢
                by_cases hc : tok.type ≠ .reserved ∨ tok.capture ≠ txt "quote"
                · rw [if_pos hc] at hd ⊢
                  rw [if_pos hc]
                  exact g4.1 s t hr hd
                · rw [if_neg hc] at hd ⊢
                  rw [if_neg hc]
                  exact (g3 b).1 s3 t3 i2 hd
              all_goals exact .inl ⟨rfl, i2⟩
            · exact .inr (past (.inr ip) hd)
          · refine .inr ?_
            have past := past s1 s2 b rfl hq (.inl jp)
            simp only [SM.bind_ok hq] at past
            exact past hd
        · rcases j (by simp) with ⟨j1, j2⟩ | jp
          · rcases hf : quoteKeyword p t1 with ⟨r, t2⟩
            rw [hf] at j1 j2
            simp only at j1 j2
            subst j1
            exact .inl ⟨rfl, j2⟩
          · exact .inr jp
        · rcases j (by simp) with ⟨j1, j2⟩ | jp
          · rcases hf : quoteKeyword p t1 with ⟨r, t2⟩
            rw [hf] at j1 j2
            simp only at j1 j2
            subst j1
            exact .inl ⟨rfl, j2⟩
          · exact .inr jp
        · exact absurd rfl hd
      · refine .inr ?_
        have kq := g1.2 s1 kp
        rw [SM.bind_def] at hd ⊢
        rcases hq : quoteKeyword o s1 with ⟨b | _ | _ | _, s2⟩ <;> rw [hq] at kq hd <;> simp only at kq hd ⊢
        · have past := past s1 s2 b rfl hq (.inl kq)
          simp only [SM.bind_ok hq] at past
          exact past hd
        all_goals exact kq
    · rcases k (by simp) with ⟨k1, k2⟩ | kp
      · rcases hf : expect p .openParen t with ⟨r, t1⟩
        rw [hf] at k1 k2
        simp only at k1 k2
        subst k1
        exact .inl ⟨rfl, k2⟩
      · exact .inr kp
    · rcases k (by simp) with ⟨k1, k2⟩ | kp
      · rcases hf : expect p .openParen t with ⟨r, t1⟩
        rw [hf] at k1 k2
        simp only at k1 k2
        subst k1
        exact .inl ⟨rfl, k2⟩
      · exact .inr kp
    · exact absurd rfl hd
  · rw [quoteWat_step]
    rw [SM.bind_def]
    have k := g0.2 s hs
    rcases he : expect o .openParen s with ⟨_ | _ | _ | _, s1⟩ <;> rw [he] at k <;> simp only at k ⊢
    · rw [SM.bind_def]
      have k := g1.2 s1 k
      rcases hq : quoteKeyword o s1 with ⟨b | _ | _ | _, s2⟩ <;> rw [hq] at k <;> simp only at k ⊢
      · rw [SM.bind_def]
        have k := h.next.2 s2 k
        rcases hy : o.next s2 with ⟨tok | _ | _ | _, s3⟩ <;> rw [hy] at k <;> simp only at k ⊢
        · unfold quoteOr
          by_cases hc : tok.type ≠ .reserved ∨ tok.capture ≠ txt "quote"
          · rw [if_pos hc]; exact g4.2 s hs
          · rw [if_neg hc]; exact (g3 b).2 s3 k
        all_goals exact k
      all_goals exact k
    all_goals exact k

theorem quoteKeyword_looks (h : OpsDich Past R o p) (s : S) (hp : Past (o.peek s).2) : Past (quoteKeyword o s).2 := by
  have h1 := expect_dich h .component
  have h2 := eat_dich h .module
  unfold quoteKeyword eat
  rw [sm_assoc, SM.bind_def]
  rcases hy : o.peek s with ⟨tok | _ | _ | _, s1⟩ <;> rw [hy] at hp <;> simp only at hp ⊢
  · exact (Dich.bind (Dich.ite (Dich.pure _) (Dich.bind h1 fun _ => Dich.pure _)) fun _ =>
      Dich.ite (Dich.pure _) (Dich.bind h2 fun _ => Dich.ite (Dich.pure _) (Dich.bind h.next fun _ => Dich.fail))).2 s1 hp
  all_goals exact hp

theorem quoteWat_looks (h : TwiceDich Past R o p) (lib : Lib) (n : Nat) (s s1 : S)
    (h1 : expect o .openParen s = (.ok (), s1)) (hp : Past (o.peek s1).2)
    (hd : (parseQuoteWat o lib n s).1 ≠ .diverge) : Past (parseQuoteWat o lib n s).2 := by
  have k := quoteKeyword_looks h.toOpsDich s1 hp
  rcases hq : quoteKeyword o s1 with ⟨b | _ | _ | _, s2⟩ <;> rw [hq] at k <;> simp only at k
  · exact quoteWat_past h lib n s s1 s2 b h1 hq (.inl k) hd
  all_goals
    rw [quoteWat_step, SM.bind_ok h1, SM.bind_def, hq]
    exact k

theorem parseAssertion_dich (h : TwiceDich Past R o p) (lib : Lib) (n m : Nat) (hn : n ≤ m) (w : List Byte) :
    Dich Past R (parseAssertion o lib n w) (parseAssertion p lib m w) := by
  have h1 := parseAction_dich h.toOpsDich lib n m hn
  have h2 := parseQuoteWat_dich h lib n m hn
  have h3 := parseResults_dich h.toOpsDich lib n m hn
  have h4 := parseString_dich h.toOpsDich
  have h5 := expect_dich h.toOpsDich .closeParen
  have h6 := expect_dich h.toOpsDich .reserved
  have h7 := expectWord_dich h.toOpsDich
  unfold parseAssertion assertionBody parseAssertReturn parseAssertInvalid parseAssertMalformed parseAssertTrap
  repeat (first | exact h7 _ | dich_step)

/-- What `parseDirective` does after two tokens of the copy. -/
def directiveOr (o : Ops S) (lib : Lib) (n : Nat) (before : S) (tok : Sig) : SM S Directive :=
  if tok.capture = txt "module" ∨ tok.capture = txt "component" then
    SM.modify (fun _ => before) >>= fun _ => parseQuoteWat o lib n >>= fun q => pure (.wat q)
  else parseAssertion o lib n tok.capture

theorem directive_step (o : Ops S) (lib : Lib) (n : Nat) (s : S) :
    parseDirective o lib n s = (expect o .openParen >>= fun _ => o.peek >>= directiveOr o lib n s) s := by
  unfold parseDirective
  rw [SM.bind_get]
  rfl

theorem wat_again (o : Ops S) (lib : Lib) (n : Nat) (before s : S) :
    (SM.modify (fun _ => before) >>= fun _ => parseQuoteWat o lib n >>= fun q => (pure (.wat q) : SM S Directive)) s =
      (parseQuoteWat o lib n >>= fun q => (pure (.wat q) : SM S Directive)) before := rfl

theorem parseDirective_dich (h : TwiceDich Past R o p) (lib : Lib) (n m : Nat) (hn : n ≤ m) :
    Dich Past R (parseDirective o lib n) (parseDirective p lib m) := by
  have g0 := expect_dich h.toOpsDich .openParen
  have g1 := parseAssertion_dich h lib n m hn
  have g2 : Dich Past R (parseQuoteWat o lib n >>= fun q => (pure (.wat q) : SM S Directive))
      (parseQuoteWat p lib m >>= fun q => (pure (.wat q) : SM T Directive)) :=
    Dich.bind (parseQuoteWat_dich h lib n m hn) fun _ => Dich.pure _
  have looks : ∀ s s1, expect o .openParen s = (.ok (), s1) → Past (o.peek s1).2 →
      ((parseQuoteWat o lib n >>= fun q => (pure (.wat q) : SM S Directive)) s).1 ≠ .diverge →
      Past ((parseQuoteWat o lib n >>= fun q => (pure (.wat q) : SM S Directive)) s).2 := by
    intro s s1 h1 hp hd
    have k := quoteWat_looks h lib n s s1 h1 hp
    rw [SM.bind_def] at hd ⊢
    rcases hq : parseQuoteWat o lib n s with ⟨b | _ | _ | _, s2⟩ <;> rw [hq] at k hd <;> simp only at k hd ⊢
    · exact k (by simp)
    · exact k (by simp)
    · exact k (by simp)
    · exact absurd rfl hd
  have both : ∀ s s1, expect o .openParen s = (.ok (), s1) → Past (o.peek s1).2 →
      ((o.peek >>= directiveOr o lib n s) s1).1 ≠ .diverge → Past ((o.peek >>= directiveOr o lib n s) s1).2 := by
    intro s s1 h1 hp hd
    rw [SM.bind_def] at hd ⊢
    have hp' := hp
    rcases hy : o.peek s1 with ⟨tok | _ | _ | _, s2⟩ <;> rw [hy] at hd hp' <;> simp only at hd hp' ⊢
    · unfold directiveOr at hd ⊢
      by_cases hc : tok.capture = txt "module" ∨ tok.capture = txt "component"
      · rw [if_pos hc, wat_again] at hd ⊢
        exact looks s s1 h1 hp hd
      · rw [if_neg hc]
        exact (g1 _).2 s2 hp'
    all_goals exact hp'
  refine ⟨fun s t hr hd => ?_, fun s hs => ?_⟩
  · rw [directive_step, SM.bind_def] at hd ⊢
    rw [directive_step, SM.bind_def]
    have k := g0.1 s t hr
    rcases he : expect o .openParen s with ⟨_ | _ | _ | _, s1⟩ <;> rw [he] at k hd <;> simp only at hd ⊢
    · rcases k (by simp) with ⟨k1, k2⟩ | kp
      · rcases hf : expect p .openParen t with ⟨r, t1⟩
        rw [hf] at k1 k2
        simp only at k1 k2
        subst k1
        simp only
        have both := both s s1 he
        rw [SM.bind_def] at hd both ⊢
        rw [SM.bind_def]
        have j := h.peek.1 s1 t1 k2
        rcases hq : o.peek s1 with ⟨tok | _ | _ | _, s2⟩ <;> rw [hq] at j hd both <;> simp only at hd both ⊢
        · rcases j (by simp) with ⟨j1, j2⟩ | jp
          · rcases hf : p.peek t1 with ⟨r, t2⟩
            rw [hf] at j1 j2
            simp only at j1 j2
            subst j1
            simp only
            unfold directiveOr at hd ⊢
            by_cases hc : tok.capture = txt "module" ∨ tok.capture = txt "component"
            · rw [if_pos hc, wat_again] at hd ⊢
              rw [if_pos hc, wat_again]
              exact g2.1 s t hr hd
            · rw [if_neg hc] at hd ⊢
              rw [if_neg hc]
              exact (g1 _).1 s2 t2 j2 hd
          · exact .inr (both jp hd)
        · rcases j (by simp) with ⟨j1, j2⟩ | jp
          · rcases hf : p.peek t1 with ⟨r, t2⟩
            rw [hf] at j1 j2
            simp only at j1 j2
            subst j1
            exact .inl ⟨rfl, j2⟩
          · exact .inr jp
        · rcases j (by simp) with ⟨j1, j2⟩ | jp
          · rcases hf : p.peek t1 with ⟨r, t2⟩
            rw [hf] at j1 j2
            simp only at j1 j2
            subst j1
            exact .inl ⟨rfl, j2⟩
          · exact .inr jp
        · exact absurd rfl hd
      · exact .inr (both s s1 he (h.peek.2 s1 kp) hd)
    · rcases k (by simp) with ⟨k1, k2⟩ | kp
      · rcases hf : expect p .openParen t with ⟨r, t1⟩
        rw [hf] at k1 k2
        simp only at k1 k2
        subst k1
        exact .inl ⟨rfl, k2⟩
      · exact .inr kp
    · rcases k (by simp) with ⟨k1, k2⟩ | kp
      · rcases hf : expect p .openParen t with ⟨r, t1⟩
        rw [hf] at k1 k2
        simp only at k1 k2
        subst k1
        exact .inl ⟨rfl, k2⟩
      · exact .inr kp
    · exact absurd rfl hd
  · rw [directive_step, SM.bind_def]
    have k := g0.2 s hs
    rcases he : expect o .openParen s with ⟨_ | _ | _ | _, s1⟩ <;> rw [he] at k <;> simp only at k ⊢
    · rw [SM.bind_def]
      have k := h.peek.2 s1 k
      rcases hy : o.peek s1 with ⟨tok | _ | _ | _, s2⟩ <;> rw [hy] at k <;> simp only at k ⊢
      · unfold directiveOr
        by_cases hc : tok.capture = txt "module" ∨ tok.capture = txt "component"
        · rw [if_pos hc, wat_again]; exact g2.2 s hs
        · rw [if_neg hc]; exact (g1 _).2 s2 k
      all_goals exact k
    all_goals exact k

theorem parseWast_dich (h : TwiceDich Past R o p) (lib : Lib) (n m : Nat) (hn : n ≤ m) :
    Dich Past R (parseWast o lib n) (parseWast p lib m) := by
  induction n generalizing m with
  | zero => exact Dich.spent _
  | succ n ih =>
    cases m with
    | zero => omega
    | succ m =>
      have h1 := parseDirective_dich h lib n m (by omega)
      have h2 := ih m (by omega)
      have h3 := h.peek
      unfold parseWast; repeat dich_step

end Verif.Wast
