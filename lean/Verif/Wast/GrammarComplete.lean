import Verif.Wast.GrammarSound
import Verif.Wat.GrammarComplete

/-!
# What is in the grammar is accepted by the script parser
-/

namespace Verif.Wast.Grammar

open Verif.Wat Verif.Wat.Spec Verif.Wat.Grammar Spec

variable {β : Type}

theorem constFloat64_some (lib : Lib) (v : U64) (ts : List Sig) (st : Stream) (h : float64 lib v ts) :
    constFloat64 streamOps lib (st.push ts) = (.ok v, st) := by
  rcases h with ⟨w, h, rfl⟩ | ⟨i, ⟨w, j, h, rfl, rfl⟩, rfl⟩
  · unfold constFloat64
    rw [SM.bind_ok (show peekFloat streamOps (st.push [⟨.float, w⟩]) = (.ok true, st.push [⟨.float, w⟩]) from rfl), if_pos rfl]
    unfold parseFloat64
    rw [take_next, if_neg (by simp), h]
    rfl
  · unfold constFloat64
    rw [SM.bind_ok (show peekFloat streamOps (st.push [⟨.integer, w⟩]) = (.ok false, st.push [⟨.integer, w⟩]) from rfl), if_neg (by simp),
      SM.bind_ok (show peekInteger streamOps (st.push [⟨.integer, w⟩]) = (.ok true, st.push [⟨.integer, w⟩]) from rfl), if_pos rfl,
      SM.bind_ok (show parseInt64 streamOps (st.push [⟨.integer, w⟩]) = (.ok (BitVec.ofInt 64 j), st) from
        parseInt64_cons w j ((integerValue_iff w j).2 h) _ _)]
    rfl

theorem constFloat64_none (lib : Lib) (st : Stream) (h : Follow [.integer, .float] st) : constFloat64 streamOps lib st = (.ok 0, st) := by
  obtain ⟨t, r, h, ht⟩ := h
  rcases st with ⟨ts, e⟩
  simp only at h
  subst h
  simp only [List.mem_cons, List.not_mem_nil, or_false, not_or] at ht
  have h1 : (t.type == TokenType.float) = false := by simpa using ht.2
  have h2 : (t.type == TokenType.integer) = false := by simpa using ht.1
  unfold constFloat64
  rw [SM.bind_ok (show peekFloat streamOps ⟨t :: r, e⟩ = (.ok (t.type == TokenType.float), ⟨t :: r, e⟩) from rfl), h1, if_neg (by simp),
    SM.bind_ok (show peekInteger streamOps ⟨t :: r, e⟩ = (.ok (t.type == TokenType.integer), ⟨t :: r, e⟩) from rfl), h2, if_neg (by simp)]
  rfl

theorem parseConst_takes (lib : Lib) (n : Nat) : Takes n (parseConst streamOps lib) (const lib) [.integer, .float] := by
  rintro (_ | c) ts st h hst hn
  · rcases h with rfl | rfl
    · unfold parseConst
      rw [take_next, if_neg (by simp [kw]), kw_neg (by decide), kw_neg (by decide), kw_neg (by decide), kw_neg (by decide), kw_pos]
      rfl
    · unfold parseConst
      rw [take_next, if_neg (by simp [kw]), kw_neg (by decide), kw_neg (by decide), kw_neg (by decide), kw_neg (by decide), kw_neg (by decide),
        kw_pos]
      rfl
  · cases c with
    | i32 v =>
      obtain ⟨_, us, rfl, rfl, h⟩ := h
      unfold parseConst
      rw [List.singleton_append, take_next, if_neg (by simp [kw]), kw_pos, SM.bind_ok (parseInt32_takes (us.length + 1) [] v us st h
        (hst.mono (by simp)) (by omega))]
      rfl
    | i64 v =>
      obtain ⟨_, us, rfl, rfl, h⟩ := h
      unfold parseConst
      rw [List.singleton_append, take_next, if_neg (by simp [kw]), kw_neg (by decide), kw_pos, SM.bind_ok (parseInt64_takes (us.length + 1) [] v us st h
        (hst.mono (by simp)) (by omega))]
      rfl
    | f32 v =>
      obtain ⟨_, us, rfl, rfl, h⟩ := h
      unfold parseConst
      rw [List.singleton_append, take_next, if_neg (by simp [kw]), kw_neg (by decide), kw_neg (by decide), kw_pos,
        SM.bind_ok (constFloat32_takes lib (us.length + 1) [] v us st h (hst.mono (by simp)) (by omega))]
      rfl
    | f64 v =>
      obtain ⟨_, us, rfl, rfl, h⟩ := h
      unfold parseConst
      rw [List.singleton_append, take_next, if_neg (by simp [kw]), kw_neg (by decide), kw_neg (by decide), kw_neg (by decide), kw_pos]
      rcases h with h | ⟨rfl, rfl⟩
      · rw [SM.bind_ok (constFloat64_some lib v us st h)]
        rfl
      · rw [push_nil, SM.bind_ok (constFloat64_none lib st hst)]
        rfl

theorem results_next (lib : Lib) (cs : List Const) (us : List Sig) (h : IsResults lib cs us) (st : Stream)
    (hst : Follow [.openParen, .integer, .float] st) : Follow [.integer, .float] (st.push us) := by
  cases h with
  | nil => exact hst.mono (by simp)
  | const h1 h2 =>
    obtain ⟨vs, rfl, -⟩ := par_inv h1
    exact Follow.cons lp _ _ (by simp [lp])
  | ref h1 h2 => exact Follow.cons lp _ _ (by simp [lp])

theorem parseResults_takes (lib : Lib) (n m : Nat) (hm : n ≤ m) :
    Takes n (parseResults streamOps lib m) (IsResults lib) [.openParen, .integer, .float] := by
  intro cs ts st h hst hn
  induction h generalizing m n with
  | nil =>
    cases m with
    | zero => simp at hn; omega
    | succ m =>
      unfold parseResults
      rw [push_nil, take_eatNot (hst.mono (by simp))]
      rfl
  | const h1 h2 ih =>
    obtain ⟨vs, rfl, hv⟩ := par_inv h1
    simp only [inParens, List.length_append, List.length_cons] at hn
    cases m with
    | zero => omega
    | succ m =>
      unfold parseResults
      rename_i us
      rw [show inParens vs ++ us = lp :: (vs ++ (rp :: us)) by simp [inParens], take_eat,
        take_bind (parseConst_takes lib (vs.length + 1)) hv _ st (Follow.rp _ _ (by simp)) (by omega)]
      simp only
      rw [take_rp, SM.bind_ok (ih (us.length + 1) m (by omega) (by omega))]
      rfl
  | ref h1 h2 ih =>
    simp only [List.length_append, List.length_cons] at hn
    cases m with
    | zero => omega
    | succ m =>
      unfold parseResults
      rename_i vs us
      rw [take_eat, take_bind (parseConst_takes lib (vs.length + 1)) h1 _ st (results_next lib _ _ h2 st hst) (by omega)]
      exact ih (us.length + 1) m (by omega) (by omega)

theorem parseAction_takes (lib : Lib) (n : Nat) : Takes n (parseAction streamOps lib n) (action lib) [] := by
  rintro (_ | i) ts st h hst hn
  · obtain ⟨_, rfl, w, h1, h2, rfl⟩ := par_inv h
    unfold parseAction
    rw [show inParens [kw w] = [lp, kw w, rp] from rfl, take_lp, take_next, if_neg (by simp [kw])]
    unfold actionBody
    rw [if_neg (show ¬(kw w).capture = txt "invoke" from h1), if_neg (show ¬(kw w).capture = txt "get" from h2),
      SM.bind_ok (show (Pure.pure none : SM Stream (Option Invoke)) (st.push [rp]) = (.ok none, st.push [rp]) from rfl), take_rp]
    rfl
  · obtain ⟨_, rfl, _, us, rfl, rfl, t1, _, rfl, h1, t2, t3, rfl, h2, h3⟩ := par_inv h
    simp only [inParens, List.length_append, List.length_cons, List.length_nil] at hn
    unfold parseAction
    rw [show inParens ([kw (txt "invoke")] ++ (t1 ++ (t2 ++ t3))) = lp :: kw (txt "invoke") :: (t1 ++ (t2 ++ (t3 ++ [rp]))) by simp [inParens],
      take_lp, take_next, if_neg (by simp [kw])]
    unfold actionBody
    rw [if_pos (show (kw (txt "invoke")).capture = txt "invoke" from rfl)]
    have hp : parseInvoke streamOps lib n (st.push (t1 ++ (t2 ++ (t3 ++ [rp])))) = (.ok i, st.push [rp]) := by
      unfold parseInvoke parseConsts
      have hs : Follow [.id] (st.push (t2 ++ (t3 ++ [rp]))) := by
        obtain ⟨-, rfl⟩ := h2
        exact Follow.cons _ _ _ (by simp)
      rw [take_bind (parseOptionalId_takes (t1.length + 1)) h1 _ st hs (by omega)]
      rw [take_bind (parseString_takes (t2.length + 1) []) h2 _ st ?_ (by omega)]
      · rw [take_bind (parens_takes (parseConst_takes lib (t3.length + 1)) (by simp) n (by omega)) h3 _ st (Follow.rp _ _ (by simp)) (by omega)]
        rfl
      · cases hc : i.const with
        | nil =>
          rw [hc] at h3
          cases h3
          exact Follow.rp _ _ (by simp)
        | cons c cs =>
          rw [hc] at h3
          obtain ⟨a, b, rfl, ha, -⟩ := h3
          obtain ⟨vs, rfl, -⟩ := par_inv ha
          exact Follow.cons lp _ _ (by simp)
    rw [SM.bind_ok (show (parseInvoke streamOps lib n >>= fun i => (Pure.pure (some i) : SM Stream (Option Invoke)))
      (st.push (t1 ++ (t2 ++ (t3 ++ [rp])))) = (.ok (some i), st.push [rp]) from SM.bind_ok hp), take_rp]
    rfl

theorem eat_keyword (k : TokenType) (w : List Byte) (f g : SM Stream β) (r : List Sig) (st : Stream) :
    (eat streamOps k >>= fun b => if b then f else g) (st.push (⟨k, w⟩ :: r)) = f (st.push r) :=
  (SM.bind_ok (eat_cons ⟨k, w⟩ _ _)).trans (congrFun (if_pos rfl) _)

theorem quoteKeyword_cons (b : Bool) (r : List Sig) (st : Stream) : quoteKeyword streamOps (st.push (keywordTok b :: r)) = (.ok b, st.push r) := by
  cases b with
  | true => exact eat_keyword .component (txt "component") _ _ r st
  | false =>
    unfold quoteKeyword
    rw [SM.bind_ok (show eat streamOps .component (st.push (keywordTok false :: r)) = (.ok false, st.push (keywordTok false :: r)) from
      eat_not (keywordTok false) _ _ _ (by simp [keywordTok])), if_neg (by simp)]
    exact eat_keyword .module (txt "module") _ _ r st

/-- A module or component has no `quote` in third place. -/
theorem directive_third (lib : Lib) (d : Wat.Directive) (ts : List Sig) (h : Wat.Spec.directive lib d ts) :
    ∃ b t r, ts = lp :: keywordTok b :: t :: r ∧ (t.type ≠ .reserved ∨ t.capture ≠ txt "quote") := by
  cases d with
  | component =>
    obtain ⟨_, rfl, rfl⟩ := par_inv h
    exact ⟨true, rp, [], rfl, .inl (by simp [rp])⟩
  | module m =>
    obtain ⟨_, rfl, _, us, rfl, rfl, hm⟩ := par_inv h
    have : ∀ {A : Lang} {a b : List Sig}, par A a → ∃ r, a ++ b = lp :: r := by
      intro A a b h
      obtain ⟨vs, rfl, -⟩ := par_inv h
      exact ⟨_, rfl⟩
    have : us = [] ∨ ∃ r, us = lp :: r := by
      cases hm with
      | nil => exact .inl rfl
      | func hp _ | type hp _ | table hp _ | global hp _ | memory hp _ => exact .inr (this hp)
    rcases this with rfl | ⟨r, rfl⟩
    · exact ⟨false, rp, [], rfl, .inl (by simp [rp])⟩
    · exact ⟨false, lp, r ++ [rp], rfl, .inl (by simp [lp])⟩

theorem parseQuoteWat_takes (lib : Lib) (n : Nat) (q : QuoteWat) (ts : List Sig) (st : Stream) (h : quoteWat lib q ts) (hn : ts.length < n) :
    parseQuoteWat streamOps lib n (st.push ts) = (.ok q, st) := by
  have quoted : ∀ (b : Bool) (s : List Byte), par (tok (keywordTok b) ⬝ word (txt "quote") ⬝ str s) ts →
      parseQuoteWat streamOps lib n (st.push ts) = (.ok (if b then .quoteComponent s else .quoteModule s), st) := by
    intro b s h
    obtain ⟨_, rfl, _, _, rfl, rfl, _, us, rfl, rfl, h3⟩ := par_inv h
    unfold parseQuoteWat
    rw [SM.bind_get]
    rw [show inParens ([keywordTok b] ++ ([kw (txt "quote")] ++ us)) = lp :: keywordTok b :: kw (txt "quote") :: (us ++ [rp]) by simp [inParens],
      take_lp, SM.bind_ok (quoteKeyword_cons b _ st), take_next, if_neg (by simp [kw]),
      take_bind (parseString_takes (us.length + 1) []) h3 _ st (Follow.rp _ _ (by simp)) (by omega), take_rp]
    rfl
  cases q with
  | quoteModule s => exact quoted false s h
  | quoteComponent s => exact quoted true s h
  | wat d =>
    have hp := parse_takes lib n d ts st h hn
    obtain ⟨b, t, r, rfl, ht⟩ := directive_third lib d ts h
    unfold parseQuoteWat
    rw [SM.bind_get, take_lp, SM.bind_ok (quoteKeyword_cons b _ st), take_next, if_pos ht]
    rw [SM.bind_ok (show SM.modify (fun _ => st.push (lp :: keywordTok b :: t :: r)) (st.push r) = (.ok (), st.push (lp :: keywordTok b :: t :: r))
      from rfl), SM.bind_ok hp]
    rfl

theorem assertionBody_takes (lib : Lib) (n : Nat) (d : Directive) (us : List Sig) (st : Stream) (h : assertion lib d us) (hn : us.length < n) :
    ∃ w r, us = kw w :: r ∧ w ≠ txt "module" ∧ w ≠ txt "component" ∧
      parseAssertion streamOps lib n w (st.push (us ++ [rp])) = (.ok d, st) := by
  have act : ∀ n, Takes n (parseAction streamOps lib n) (action lib) [] := parseAction_takes lib
  cases d with
  | wat q => exact h.elim
  | assertReturn a rs =>
    obtain ⟨_, _, rfl, rfl, t1, t2, rfl, h1, h2⟩ := h
    simp only [List.length_append, List.length_cons, List.length_nil] at hn
    refine ⟨txt "assert_return", t1 ++ t2, rfl, by decide, by decide, ?_⟩
    unfold parseAssertion
    rw [SM.bind_ok (a := .assertReturn a rs) (s' := st.push [rp]) ?_, take_rp]
    · rfl
    · unfold assertionBody
      rw [if_pos rfl]
      unfold parseAssertReturn
      rw [show [kw (txt "assert_return")] ++ (t1 ++ t2) ++ [rp] = kw (txt "assert_return") :: (t1 ++ (t2 ++ [rp])) by simp, take_word,
        take_bind (act n) h1 _ st ?_ (by omega), take_bind (parseResults_takes lib (t2.length + 1) n (by omega)) h2 _ st (Follow.rp _ _ (by simp)) (by omega)]
      · rfl
      · have := results_next lib _ _ h2 (st.push [rp]) (Follow.rp _ _ (by simp))
        rw [push_push] at this
        exact this.mono (by simp)
  | assertInvalid q s =>
    obtain ⟨_, _, rfl, rfl, t1, t2, rfl, h1, h2⟩ := h
    simp only [List.length_append, List.length_cons, List.length_nil] at hn
    refine ⟨txt "assert_invalid", t1 ++ t2, rfl, by decide, by decide, ?_⟩
    unfold parseAssertion
    rw [SM.bind_ok (a := .assertInvalid q s) (s' := st.push [rp]) ?_, take_rp]
    · rfl
    · unfold assertionBody
      rw [if_neg (by decide), if_pos rfl]
      unfold parseAssertInvalid
      rw [show [kw (txt "assert_invalid")] ++ (t1 ++ t2) ++ [rp] = kw (txt "assert_invalid") :: (t1 ++ (t2 ++ [rp])) by simp, take_word,
        ← push_push, SM.bind_ok (parseQuoteWat_takes lib n q t1 (st.push (t2 ++ [rp])) h1 (by omega)),
        take_bind (parseString_takes (t2.length + 1) []) h2 _ st (Follow.rp _ _ (by simp)) (by omega)]
      rfl
  | assertMalformed q s =>
    obtain ⟨_, _, rfl, rfl, t1, t2, rfl, h1, h2⟩ := h
    simp only [List.length_append, List.length_cons, List.length_nil] at hn
    refine ⟨txt "assert_malformed", t1 ++ t2, rfl, by decide, by decide, ?_⟩
    unfold parseAssertion
    rw [SM.bind_ok (a := .assertMalformed q s) (s' := st.push [rp]) ?_, take_rp]
    · rfl
    · unfold assertionBody
      rw [if_neg (by decide), if_neg (by decide), if_pos rfl]
      unfold parseAssertMalformed
      rw [show [kw (txt "assert_malformed")] ++ (t1 ++ t2) ++ [rp] = kw (txt "assert_malformed") :: (t1 ++ (t2 ++ [rp])) by simp, take_word,
        ← push_push, SM.bind_ok (parseQuoteWat_takes lib n q t1 (st.push (t2 ++ [rp])) h1 (by omega)),
        take_bind (parseString_takes (t2.length + 1) []) h2 _ st (Follow.rp _ _ (by simp)) (by omega)]
      rfl
  | assertTrap a s =>
    obtain ⟨_, _, rfl, rfl, t1, t2, rfl, h1, h2⟩ := h
    simp only [List.length_append, List.length_cons, List.length_nil] at hn
    refine ⟨txt "assert_trap", t1 ++ t2, rfl, by decide, by decide, ?_⟩
    unfold parseAssertion
    rw [SM.bind_ok (a := .assertTrap a s) (s' := st.push [rp]) ?_, take_rp]
    · rfl
    · unfold assertionBody
      rw [if_neg (by decide), if_neg (by decide), if_neg (by decide), if_pos rfl]
      unfold parseAssertTrap
      rw [show [kw (txt "assert_trap")] ++ (t1 ++ t2) ++ [rp] = kw (txt "assert_trap") :: (t1 ++ (t2 ++ [rp])) by simp,
        SM.bind_ok (show expect streamOps .reserved (st.push (kw (txt "assert_trap") :: (t1 ++ (t2 ++ [rp])))) = (.ok (), st.push (t1 ++ (t2 ++ [rp])))
          from expect_cons (kw (txt "assert_trap")) _ _),
        take_bind (act n) h1 _ st ?_ (by omega), take_bind (parseString_takes (t2.length + 1) []) h2 _ st (Follow.rp _ _ (by simp)) (by omega)]
      · rfl
      · obtain ⟨-, rfl⟩ := h2
        exact Follow.cons _ _ _ (by simp)

theorem directive_cases (lib : Lib) (d : Directive) (ts : List Sig) (h : directive lib d ts) :
    (∃ q, d = .wat q ∧ quoteWat lib q ts) ∨ par (assertion lib d) ts := by
  cases d with
  | wat q => exact .inl ⟨q, rfl, h⟩
  | _ => exact .inr h

theorem quoteWat_second (lib : Lib) (q : QuoteWat) (ts : List Sig) (h : quoteWat lib q ts) : ∃ b r, ts = lp :: keywordTok b :: r := by
  cases q with
  | wat d =>
    obtain ⟨b, t, r, rfl, -⟩ := directive_third lib d ts h
    exact ⟨b, _, rfl⟩
  | quoteModule s =>
    obtain ⟨_, rfl, _, us, rfl, rfl, hm⟩ := par_inv h
    exact ⟨false, _, rfl⟩
  | quoteComponent s =>
    obtain ⟨_, rfl, _, us, rfl, rfl, hm⟩ := par_inv h
    exact ⟨true, _, rfl⟩

theorem parseDirective_takes (lib : Lib) (n : Nat) (d : Directive) (ts : List Sig) (st : Stream) (h : directive lib d ts) (hn : ts.length < n) :
    parseDirective streamOps lib n (st.push ts) = (.ok d, st) := by
  rcases directive_cases lib d ts h with ⟨q, rfl, hq⟩ | h
  · have hp := parseQuoteWat_takes lib n q ts st hq hn
    obtain ⟨b, r, rfl⟩ := quoteWat_second lib q ts hq
    unfold parseDirective
    rw [SM.bind_get, take_lp, take_peek, if_pos (by cases b <;> simp [keywordTok])]
    rw [SM.bind_ok (show SM.modify (fun _ => st.push (lp :: keywordTok b :: r)) (st.push (keywordTok b :: r)) =
      (.ok (), st.push (lp :: keywordTok b :: r)) from rfl), SM.bind_ok hp]
    rfl
  · obtain ⟨us, rfl, hus⟩ := par_inv h
    simp only [inParens, List.length_append, List.length_cons, List.length_nil] at hn
    obtain ⟨w, r, rfl, h1, h2, hp⟩ := assertionBody_takes lib n d us st hus (by omega)
    unfold parseDirective
    rw [SM.bind_get, show inParens (kw w :: r) = lp :: kw w :: (r ++ [rp]) from rfl, take_lp, take_peek,
      if_neg (by show ¬(w = _ ∨ w = _); simp [h1, h2])]
    exact hp

theorem directive_head (lib : Lib) (d : Directive) (ts : List Sig) (h : directive lib d ts) : ∃ r, ts = lp :: r := by
  rcases directive_cases lib d ts h with ⟨q, rfl, hq⟩ | h
  · obtain ⟨b, r, rfl⟩ := quoteWat_second lib q ts hq
    exact ⟨_, rfl⟩
  · obtain ⟨us, rfl, hus⟩ := par_inv h
    exact ⟨_, rfl⟩

theorem parseWast_takes (lib : Lib) (n : Nat) (ds : List Directive) (ts : List Sig) (h : script lib ds ts) (hn : ts.length + 1 < n) :
    parseWast streamOps lib n ⟨ts, true⟩ = (.ok ds, ⟨[], true⟩) := by
  induction ds generalizing n ts with
  | nil =>
    cases h
    cases n with
    | zero => simp at hn
    | succ n => rfl
  | cons d ds ih =>
    obtain ⟨a, b, rfl, hd, hds⟩ := h
    obtain ⟨r, rfl⟩ := directive_head lib d a hd
    simp only [List.length_append, List.length_cons] at hn
    cases n with
    | zero => omega
    | succ n =>
      unfold parseWast
      rw [show (⟨lp :: r ++ b, true⟩ : Stream) = (⟨b, true⟩ : Stream).push (lp :: r) from rfl, take_peek, if_neg (by simp [lp]),
        SM.bind_ok (parseDirective_takes lib n d (lp :: r) ⟨b, true⟩ hd (by simp; omega)), SM.bind_ok (ih n b hds (by omega))]
      rfl

end Verif.Wast.Grammar
