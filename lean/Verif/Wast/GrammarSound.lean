import Verif.Wast.Grammar
import Verif.Wat.GrammarSound

/-!
# What the script parser accepts is in the grammar
-/

namespace Verif.Wast.Grammar

open Verif.Wat Verif.Wat.Spec Verif.Wat.Grammar Spec

variable {P : Stream → Prop}

theorem eat_cases (k : TokenType) (hk : k ≠ .endOfStream) (st : Stream) (hi : st.Fine) (b : Bool) (st' : Stream)
    (h : eat streamOps k st = (.ok b, st')) : b = true ∧ (∃ t : Sig, t.Fine ∧ t.type = k ∧ st = st'.push [t]) ∨ b = false ∧ st = st' := by
  rcases st with ⟨_ | ⟨t, ts⟩, e⟩
  · cases e
    · cases h
    · have : eat streamOps k ⟨[], true⟩ = (.ok false, ⟨[], true⟩) := by
        unfold eat
        rw [SM.bind_ok (show streamOps.peek ⟨[], true⟩ = (.ok eos, ⟨[], true⟩) from rfl), if_pos (by simpa [eos] using Ne.symm hk)]
        rfl
      rw [this] at h
      cases h
      exact .inr ⟨rfl, rfl⟩
  · by_cases ht : t.type = k
    · rw [← ht, eat_cons] at h
      cases h
      exact .inl ⟨rfl, t, hi t (by simp), ht, rfl⟩
    · rw [eat_not t ts e _ ht] at h
      cases h
      exact .inr ⟨rfl, rfl⟩

/-- The token of a keyword. -/
def keywordTok (isComponent : Bool) : Sig := if isComponent then ⟨.component, txt "component"⟩ else ⟨.module, txt "module"⟩

theorem quoteKeyword_reads : Reads P (quoteKeyword streamOps) (fun b => tok (keywordTok b)) := by
  intro st hi _ b st' h
  unfold quoteKeyword at h
  obtain ⟨a, s, h1, h2⟩ := SM.bind_eq_ok.1 h
  rcases eat_cases .component (by simp) st hi a s h1 with ⟨rfl, ⟨t, ht, hk, rfl⟩⟩ | ⟨rfl, rfl⟩
  · rw [if_pos rfl] at h2
    cases h2
    obtain ⟨k, w⟩ := t
    have := ht.component hk
    simp only at this hk
    subst this; subst hk
    exact ⟨_, rfl, rfl⟩
  · rw [if_neg (by simp)] at h2
    obtain ⟨a, s, h3, h4⟩ := SM.bind_eq_ok.1 h2
    rcases eat_cases .module (by simp) st hi a s h3 with ⟨rfl, ⟨t, ht, hk, rfl⟩⟩ | ⟨rfl, rfl⟩
    · rw [if_pos rfl] at h4
      cases h4
      obtain ⟨k, w⟩ := t
      have := ht.module hk
      simp only at this hk
      subst this; subst hk
      exact ⟨_, rfl, rfl⟩
    · rw [if_neg (by simp)] at h4
      obtain ⟨_, _, _, h5⟩ := SM.bind_eq_ok.1 h4
      cases h5

theorem parseQuoteWat_reads (lib : Lib) (n : Nat) : Reads P (parseQuoteWat streamOps lib n) (quoteWat lib) := by
  intro st hi _ q st' h
  unfold parseQuoteWat at h
  rw [SM.bind_get] at h
  obtain ⟨_, s1, h1, g1⟩ := SM.bind_eq_ok.1 h
  obtain ⟨b, s2, h2, g2⟩ := SM.bind_eq_ok.1 g1
  obtain ⟨t, s3, h3, g3⟩ := SM.bind_eq_ok.1 g2
  clear h g1 g2
  split at g3
  · obtain ⟨_, s4, h4, g4⟩ := SM.bind_eq_ok.1 g3
    cases h4
    obtain ⟨d, s5, h5, g5⟩ := SM.bind_eq_ok.1 g4
    cases g5
    exact parse_reads (P := Always) lib n st hi trivial d st' h5
  · rename_i hq
    have hq : t = kw (txt "quote") := by
      obtain ⟨k, w⟩ := t
      simp only [ne_eq, not_or, Decidable.not_not] at hq
      rw [hq.1, hq.2]; rfl
    subst hq
    obtain ⟨_, rfl, rfl⟩ := expectLp_reads (P := Always) st hi trivial _ s1 h1
    obtain ⟨_, rfl, rfl⟩ := quoteKeyword_reads (P := Always) s1 hi.of_push trivial _ s2 h2
    have hs : s2 = s3.push [kw (txt "quote")] := by
      rcases s2 with ⟨_ | ⟨u, us⟩, e⟩
      · cases e <;> cases h3
      · cases h3; rfl
    subst hs
    obtain ⟨s, s4, h4, g4⟩ := SM.bind_eq_ok.1 g3
    obtain ⟨_, s5, h5, g5⟩ := SM.bind_eq_ok.1 g4
    clear g3 g4
    obtain ⟨t4, rfl, h4'⟩ := parseString_reads (P := Always) s3 hi.of_push.of_push.of_push trivial _ s4 h4
    obtain ⟨t5, rfl, h5'⟩ := expectRp_reads (P := Always) s4 hi.of_push.of_push.of_push.of_push trivial _ s5 h5
    cases g5
    refine ⟨lp :: ((keywordTok b :: kw (txt "quote") :: t4) ++ t5), ?_, ?_⟩
    · simp only [push_push]
      simp
    · have key : ∀ k : Sig, par (tok k ⬝ word (txt "quote") ⬝ str s) (lp :: ((k :: kw (txt "quote") :: t4) ++ t5)) := fun k =>
        par_of ⟨[k], _, rfl, rfl, [kw (txt "quote")], t4, rfl, rfl, h4'⟩ h5'
      cases b with
      | true => exact key _
      | false => exact key _

/-! ## Constants -/

theorem constFloat64_reads (lib : Lib) : Reads P (constFloat64 streamOps lib) (fun v => float64 lib v ∣∣ only (v = 0)) := by
  unfold constFloat64
  refine peekFloat_reads ?_ ?_
  · unfold parseFloat64
    refine Reads.next (fun t ht => Reads.ite (fun _ => Reads.fail) fun h => lift_reads fun a ha => ?_) ?_
    · obtain ⟨k, v⟩ := t
      simp only [ne_eq, Decidable.not_not] at h
      subst h
      exact .inl (.inl ⟨v, ha, rfl⟩)
    · rw [if_pos (by simp [eos])]
      exact Reads.fail
  · unfold peekInteger
    refine Reads.bind (A := fun _ => eps) ?_ ?_
    · exact Reads.peek fun t => Reads.pure rfl
    · rintro b _ rfl
      refine Reads.ite (fun _ => ?_) (fun _ => Reads.pure (.inr ⟨rfl, rfl⟩))
      refine Reads.bind parseInt64_reads fun i t1 h1 => Reads.pure (.inl (.inr ⟨i, ?_, rfl⟩))
      rw [List.append_nil]
      exact h1

theorem parseConst_reads (lib : Lib) : Reads P (parseConst streamOps lib) (const lib) := by
  unfold parseConst
  refine Reads.next (fun t ht => Reads.ite (fun _ => Reads.fail) fun h => ?_) ?_
  · obtain ⟨k, w⟩ := t
    simp only [ne_eq, Decidable.not_not] at h
    subst h
    simp only
    have key : ∀ {A : Lang} {ts : List Sig} (v : List Byte), w = v → A ts → (word v ⬝ A) (⟨.reserved, w⟩ :: (ts ++ [])) := by
      rintro A ts v rfl h
      exact ⟨[kw w], ts, by simp [kw], rfl, h⟩
    refine Reads.ite (fun h => Reads.bind parseInt32_reads fun v t1 h1 => Reads.pure (key _ h h1)) fun _ => ?_
    refine Reads.ite (fun h => Reads.bind parseInt64_reads fun v t1 h1 => Reads.pure (key _ h h1)) fun _ => ?_
    refine Reads.ite (fun h => Reads.bind (constFloat32_reads lib) fun v t1 h1 => Reads.pure (key _ h h1)) fun _ => ?_
    refine Reads.ite (fun h => Reads.bind (constFloat64_reads lib) fun v t1 h1 => Reads.pure (key _ h h1)) fun _ => ?_
    refine Reads.ite (fun h => Reads.pure (.inl ?_)) fun _ => ?_
    · subst h; rfl
    refine Reads.ite (fun h => Reads.pure (.inr ?_)) fun _ => Reads.fail
    subst h; rfl
  · rw [if_pos (by simp [eos])]
    exact Reads.fail

theorem parseResults_reads (lib : Lib) (n : Nat) : Reads P (parseResults streamOps lib n) (IsResults lib) := by
  induction n generalizing P with
  | zero => exact Reads.spent
  | succ n ih =>
    unfold parseResults
    refine Reads.eatLp ?_ (Reads.pure .nil)
    refine Reads.bind (parseConst_reads lib) fun c t1 h1 => ?_
    cases c with
    | none =>
      exact ih.mono fun cs t2 h2 => .ref h1 h2
    | some c =>
      simp only
      refine Reads.bind expectRp_reads fun _ t2 h2 => Reads.bind ih fun cs t3 h3 => Reads.pure ?_
      have := IsResults.const (par_of h1 h2) h3
      simpa using this

/-! ## Actions and assertions -/

theorem parseAction_reads (lib : Lib) (n : Nat) : Reads P (parseAction streamOps lib n) (action lib) := by
  unfold parseAction
  refine Reads.bind expectLp_reads ?_
  rintro _ _ rfl
  refine Reads.next (fun t ht => Reads.ite (fun _ => Reads.fail) fun h => ?_) ?_
  · obtain ⟨k, w⟩ := t
    simp only [ne_eq, Decidable.not_not] at h
    subst h
    simp only
    unfold actionBody
    split
    · rename_i hw
      subst hw
      unfold parseInvoke parseConsts
      refine Reads.bind (A := fun i ts => ∃ i', i = some i' ∧ (optIdent i'.name ⬝ str i'.string ⬝ many (fun c => par (const lib c)) i'.const) ts) ?_ ?_
      · refine Reads.bind (A := fun i => optIdent i.name ⬝ str i.string ⬝ many (fun c => par (const lib c)) i.const) ?_ ?_
        · refine Reads.bind parseOptionalId_reads fun id t1 h1 => Reads.bind parseString_reads fun s t2 h2 =>
            Reads.bind (parens_reads (parseConst_reads lib) n) fun cs t3 h3 => Reads.pure ?_
          exact ⟨t1, t2 ++ t3, by simp, h1, t2, t3, rfl, h2, h3⟩
        · intro i t1 h1
          refine Reads.pure ⟨i, rfl, ?_⟩
          rw [List.append_nil]
          exact h1
      · rintro _ t1 ⟨i, rfl, h1⟩
        refine Reads.bind expectRp_reads fun _ t2 h2 => Reads.pure ?_
        have := par_of (A := word (txt "invoke") ⬝ optIdent i.name ⬝ str i.string ⬝ many (fun c => par (const lib c)) i.const)
          ⟨[kw (txt "invoke")], t1, rfl, rfl, h1⟩ h2
        rw [List.append_nil]
        exact this
    · split
      · exact Reads.bind Reads.fail (A := fun _ _ => False) (fun _ _ h => h.elim)
      · rename_i h1 h2
        refine Reads.bind (A := fun i ts => i = none ∧ ts = []) (Reads.pure ⟨rfl, rfl⟩) ?_
        rintro _ _ ⟨rfl, rfl⟩
        refine Reads.bind expectRp_reads fun _ t2 h2' => Reads.pure ?_
        have := par_of (A := fun ts => ∃ w, w ≠ txt "invoke" ∧ w ≠ txt "get" ∧ ts = [kw w]) ⟨w, h1, h2, rfl⟩ h2'
        rw [List.append_nil]
        exact this
  · rw [if_pos (by simp [eos])]
    exact Reads.fail

/-- An assertion without its parentheses. -/
def assertion (lib : Lib) : Directive → Lang
  | .wat _ => never
  | .assertReturn a rs => word (txt "assert_return") ⬝ action lib a ⬝ IsResults lib rs
  | .assertInvalid q s => word (txt "assert_invalid") ⬝ quoteWat lib q ⬝ str s
  | .assertMalformed q s => word (txt "assert_malformed") ⬝ quoteWat lib q ⬝ str s
  | .assertTrap a s => word (txt "assert_trap") ⬝ action lib a ⬝ str s

theorem assertion_par (lib : Lib) (d : Directive) (ts : List Sig) (h : par (assertion lib d) ts) : directive lib d ts := by
  cases d with
  | wat q => obtain ⟨us, _, h'⟩ := par_inv h; exact h'.elim
  | _ => exact h

theorem expectNext_reads (t : Sig) (k : TokenType) (hk : k ≠ .endOfStream) : Reads (IsNext t) (expect streamOps k)
    (fun _ ts => t.type = k ∧ ts = [t]) := by
  intro st hi hp a st' h
  obtain ⟨ts, rfl, u, -, hu, rfl⟩ := expect_reads (P := Always) k hk st hi trivial a st' h
  refine ⟨[u], rfl, ?_⟩
  rcases hp with hp | ⟨hp, -⟩
  · simp only [Stream.push, List.singleton_append, List.head?_cons, Option.some.injEq] at hp
    subst hp
    exact ⟨hu, rfl⟩
  · simp [Stream.push] at hp

theorem assertionBody_reads (lib : Lib) (n : Nat) (t : Sig) : Reads (IsNext t) (assertionBody streamOps lib n t.capture) (assertion lib) := by
  unfold assertionBody
  refine Reads.ite (fun h => ?_) fun _ => Reads.ite (fun h => ?_) fun _ => Reads.ite (fun h => ?_) fun _ => Reads.ite (fun h => ?_) fun _ => Reads.fail
  · refine Reads.bind (expectWord_reads _) ?_
    rintro _ _ rfl
    refine Reads.bind (parseAction_reads lib n) fun a t1 h1 => Reads.bind (parseResults_reads lib n) fun rs t2 h2 => Reads.pure ?_
    exact ⟨[kw (txt "assert_return")], t1 ++ t2, by simp, rfl, t1, t2, rfl, h1, h2⟩
  · refine Reads.bind (expectWord_reads _) ?_
    rintro _ _ rfl
    refine Reads.bind (parseQuoteWat_reads lib n) fun a t1 h1 => Reads.bind parseString_reads fun rs t2 h2 => Reads.pure ?_
    exact ⟨[kw (txt "assert_invalid")], t1 ++ t2, by simp, rfl, t1, t2, rfl, h1, h2⟩
  · refine Reads.bind (expectWord_reads _) ?_
    rintro _ _ rfl
    refine Reads.bind (parseQuoteWat_reads lib n) fun a t1 h1 => Reads.bind parseString_reads fun rs t2 h2 => Reads.pure ?_
    exact ⟨[kw (txt "assert_malformed")], t1 ++ t2, by simp, rfl, t1, t2, rfl, h1, h2⟩
  · refine Reads.bind (expectNext_reads t .reserved (by simp)) ?_
    rintro _ _ ⟨hk, rfl⟩
    refine Reads.bind (parseAction_reads lib n) fun a t1 h1 => Reads.bind parseString_reads fun rs t2 h2 => Reads.pure ?_
    obtain ⟨k, w⟩ := t
    simp only at hk h
    subst hk; subst h
    exact ⟨[kw (txt "assert_trap")], t1 ++ t2, by simp [kw], rfl, t1, t2, rfl, h1, h2⟩

theorem parseAssertion_reads (lib : Lib) (n : Nat) (t : Sig) :
    Reads (IsNext t) (parseAssertion streamOps lib n t.capture) (fun d => assertion lib d ⬝ tok rp) := by
  unfold parseAssertion
  refine Reads.bind (assertionBody_reads lib n t) fun d t1 h1 => Reads.bind expectRp_reads fun _ t2 h2 => Reads.pure ?_
  exact ⟨t1, t2, by simp, h1, h2⟩

theorem parseDirective_reads (lib : Lib) (n : Nat) : Reads P (parseDirective streamOps lib n) (directive lib) := by
  intro st hi _ d st' h
  unfold parseDirective at h
  rw [SM.bind_get] at h
  obtain ⟨_, s1, h1, g1⟩ := SM.bind_eq_ok.1 h
  obtain ⟨t, s2, h2, g2⟩ := SM.bind_eq_ok.1 g1
  clear h g1
  split at g2
  · obtain ⟨_, s4, h4, g4⟩ := SM.bind_eq_ok.1 g2
    cases h4
    obtain ⟨q, s5, h5, g5⟩ := SM.bind_eq_ok.1 g4
    cases g5
    exact parseQuoteWat_reads (P := Always) lib n st hi trivial q st' h5
  · obtain ⟨_, rfl, rfl⟩ := expectLp_reads (P := Always) st hi trivial _ s1 h1
    have hs : s1 = s2 ∧ IsNext t s1 := by
      rcases s1 with ⟨_ | ⟨u, us⟩, e⟩
      · cases e
        · cases h2
        · cases h2; exact ⟨rfl, .inr ⟨rfl, rfl⟩⟩
      · cases h2; exact ⟨rfl, .inl rfl⟩
    obtain ⟨rfl, hn⟩ := hs
    obtain ⟨ts, rfl, h3⟩ := parseAssertion_reads lib n t s1 hi.of_push hn d st' g2
    refine ⟨[lp] ++ ts, push_push _ _ _, assertion_par lib d _ ?_⟩
    exact ⟨[lp], ts, rfl, rfl, h3⟩

/-- No token is an end of stream. -/
def NoEnd (st : Stream) : Prop := ∀ t ∈ st.toks, t.type ≠ .endOfStream

theorem NoEnd.of_push {s : Stream} {ts : List Sig} (h : NoEnd (s.push ts)) : NoEnd s := fun t ht => h t (by simp [Stream.push, ht])

/-- A success has read everything. -/
theorem parseWast_reads (lib : Lib) (n : Nat) (st : Stream) (hi : st.Fine) (he : NoEnd st) (ds : List Directive) (st' : Stream)
    (h : parseWast streamOps lib n st = (.ok ds, st')) : st' = ⟨[], true⟩ ∧ st.ended = true ∧ script lib ds st.toks := by
  induction n generalizing st ds with
  | zero => cases h
  | succ n ih =>
    unfold parseWast at h
    obtain ⟨t, s1, h1, g1⟩ := SM.bind_eq_ok.1 h
    clear h
    have hs : s1 = st ∧ IsNext t st ∧ (st.toks = [] → st.ended = true) := by
      rcases st with ⟨_ | ⟨u, us⟩, e⟩
      · cases e
        · cases h1
        · cases h1; exact ⟨rfl, .inr ⟨rfl, rfl⟩, fun _ => rfl⟩
      · cases h1; exact ⟨rfl, .inl rfl, by simp⟩
    obtain ⟨rfl, hn, hen⟩ := hs
    split at g1
    · rename_i ht
      cases g1
      rcases hn with hn | ⟨hn, -⟩
      · exact absurd ht (he t (List.mem_of_mem_head? hn))
      · have := hen hn
        rcases st' with ⟨ts, e⟩
        simp only at hn this
        subst hn; subst this
        exact ⟨rfl, rfl, rfl⟩
    · obtain ⟨d, s2, h2, g2⟩ := SM.bind_eq_ok.1 g1
      obtain ⟨ds', s3, h3, g3⟩ := SM.bind_eq_ok.1 g2
      cases g3
      obtain ⟨ts, rfl, hd⟩ := parseDirective_reads (P := Always) lib n s1 hi trivial d s2 h2
      obtain ⟨i1, i2, i3⟩ := ih s2 hi.of_push he.of_push ds' h3
      exact ⟨i1, i2, ts, s2.toks, rfl, hd, i3⟩

end Verif.Wast.Grammar
