import Verif.Wast.Parse
import Verif.Wat.ParseProps

/-!
# The script parser reads tokens and ends
-/

namespace Verif.Wast

open Verif.Wat

/-! ## Different sources of tokens -/

section
variable {S T α : Type} {R : S → T → Prop} {o : Ops S} {p : Ops T}

theorem constFloat64_sim (h : OpsSim R o p) (lib : Lib) : Sim R (constFloat64 o lib) (constFloat64 p lib) := by
  have := parseInt64_sim h
  unfold constFloat64 peekFloat peekInteger parseFloat64; repeat sim_step

theorem parseConst_sim (h : OpsSim R o p) (lib : Lib) : Sim R (parseConst o lib) (parseConst p lib) := by
  have h1 := parseInt32_sim h
  have h2 := parseInt64_sim h
  have h3 := constFloat32_sim h lib
  have h4 := constFloat64_sim h lib
  unfold parseConst; repeat sim_step

theorem parseResults_sim (h : OpsSim R o p) (lib : Lib) (n m : Nat) (hn : n ≤ m) : Sim R (parseResults o lib n) (parseResults p lib m) := by
  induction n generalizing m with
  | zero => exact Sim.spent _
  | succ n ih =>
    cases m with
    | zero => omega
    | succ m =>
      have h1 := eat_sim h .openParen
      have h2 := expect_sim h .closeParen
      have h3 := ih m (by omega)
      unfold parseResults
      refine Sim.bind h1 fun b => Sim.ite (Sim.bind (parseConst_sim h lib) fun c => ?_) (Sim.pure _)
      cases c with
      | none => exact h3
      | some c => simp only; repeat sim_step

theorem parseAction_sim (h : OpsSim R o p) (lib : Lib) (n m : Nat) (hn : n ≤ m) : Sim R (parseAction o lib n) (parseAction p lib m) := by
  have h1 := expect_sim h .openParen
  have h2 := expect_sim h .closeParen
  have h3 := parens_sim h (parseConst_sim h lib) n m hn
  have h4 := parseOptionalId_sim h
  have h5 := parseString_sim h
  unfold parseAction actionBody parseInvoke parseConsts; repeat sim_step

theorem parseQuoteWat_sim (h : OpsSim R o p) (lib : Lib) (n m : Nat) (hn : n ≤ m) : Sim R (parseQuoteWat o lib n) (parseQuoteWat p lib m) := by
  have h1 := expect_sim h .openParen
  have h2 := expect_sim h .closeParen
  have h3 := parseString_sim h
  have h4 := parse_sim h lib n m hn
  have h5 := eat_sim h .component
  have h6 := eat_sim h .module
  unfold parseQuoteWat quoteKeyword
  refine Sim.bindGet fun s t hst => ?_
  have h7 := Sim.modify (R := R) s t hst
  repeat sim_step

theorem parseDirective_sim (h : OpsSim R o p) (lib : Lib) (n m : Nat) (hn : n ≤ m) :
    Sim R (parseDirective o lib n) (parseDirective p lib m) := by
  have h1 := expect_sim h .openParen
  have h2 := expect_sim h .closeParen
  have h3 := parseString_sim h
  have h4 := parseQuoteWat_sim h lib n m hn
  have h5 := parseAction_sim h lib n m hn
  have h6 := parseResults_sim h lib n m hn
  have h8 := expect_sim h .reserved
  have h9 := expectWord_sim h (txt "assert_return")
  have h10 := expectWord_sim h (txt "assert_invalid")
  have h11 := expectWord_sim h (txt "assert_malformed")
  unfold parseDirective parseAssertion assertionBody parseAssertReturn parseAssertInvalid parseAssertMalformed parseAssertTrap
  refine Sim.bindGet fun s t hst => ?_
  have h7 := Sim.modify (R := R) s t hst
  repeat sim_step

theorem parseWast_sim (h : OpsSim R o p) (lib : Lib) (n m : Nat) (hn : n ≤ m) : Sim R (parseWast o lib n) (parseWast p lib m) := by
  induction n generalizing m with
  | zero => exact Sim.spent _
  | succ n ih =>
    cases m with
    | zero => omega
    | succ m =>
      have h1 := parseDirective_sim h lib n m (by omega)
      have h2 := ih m (by omega)
      unfold parseWast; repeat sim_step

end

/-! ## The parser ends -/

section
variable {α β : Type}

theorem constFloat64_safe (lib : Lib) (h : lib.Total) (n : Nat) : Safe n 0 (constFloat64 streamOps lib) := by
  unfold constFloat64 peekFloat peekInteger
  refine Safe.bind0 (Safe.bind0 (peek_safe _) fun _ => Safe.pure _ _) fun b => Safe.ite ?_ ?_
  · unfold parseFloat64
    exact (Safe.next (d := 0) (fun t => Safe.ite (Safe.fail _ _) (Safe.lift _ (h.f64 _))) (fun st => rfl)).drop
  · refine Safe.bind0 (Safe.bind0 (peek_safe _) fun _ => Safe.pure _ _) fun b => Safe.ite ?_ (Safe.pure _ _)
    exact (Safe.bind1 (parseInt64_safe _) fun _ => Safe.pure _ _).drop

theorem parseConst_safe (lib : Lib) (h : lib.Total) (n : Nat) : Safe n 1 (parseConst streamOps lib) := by
  unfold parseConst
  refine Safe.next (d := 0) (fun t => Safe.ite (Safe.fail _ _) (Safe.ite ?_ (Safe.ite ?_ (Safe.ite ?_ (Safe.ite ?_
    (Safe.ite (Safe.pure _ _) (Safe.ite (Safe.pure _ _) (Safe.fail _ _)))))))) (fun st => rfl)
  · exact (Safe.bind1 (parseInt32_safe _) fun _ => Safe.pure _ _).drop
  · exact (Safe.bind1 (parseInt64_safe _) fun _ => Safe.pure _ _).drop
  · exact (Safe.bind1 (constFloat32_safe lib h _) fun _ => Safe.pure _ _).drop
  · exact Safe.bind0 (constFloat64_safe lib h _) fun _ => Safe.pure _ _

theorem parseResults_safe (lib : Lib) (h : lib.Total) (n : Nat) : Safe n 0 (parseResults streamOps lib n) := by
  induction n with
  | zero => intro st h; omega
  | succ n ih =>
    unfold parseResults
    refine Safe.eat (by simp) ?_ ?_
    · rw [if_pos rfl]
      refine Safe.bind0 (parseConst_safe lib h _).drop fun c => ?_
      cases c with
      | none => exact ih
      | some c =>
        exact Safe.bind0 (expect_safe _ _ (by simp)).drop fun _ => Safe.bind0 ih fun _ => Safe.pure _ _
    · rw [if_neg (by simp)]
      exact Safe.pure _ _

theorem parseAction_safe (lib : Lib) (h : lib.Total) (n : Nat) : Safe n 1 (parseAction streamOps lib n) := by
  unfold parseAction
  refine Safe.bind1 (expect_safe _ _ (by simp)) fun _ => ?_
  refine (Safe.next (d := 0) (fun t => Safe.ite (Safe.fail _ _) (Safe.bind0 ?_ fun _ => Safe.bind0 (expect_safe _ _ (by simp)).drop fun _ =>
    Safe.pure _ _)) (fun st => rfl)).drop
  unfold actionBody parseInvoke parseConsts
  refine Safe.ite ?_ (Safe.ite (Safe.fail _ _) (Safe.pure _ _))
  refine Safe.bind0 (Safe.bind0 (parseOptionalId_safe _) fun _ => Safe.bind0 (parseString_safe _).drop fun _ => Safe.bind0 ?_ fun _ =>
    Safe.pure _ _) fun _ => Safe.pure _ _
  exact (parens_safe (N := n) (parseConst_safe lib h _).drop n (by omega)).weaken (by omega) (Nat.le_refl _)

/-- From states with no more tokens than `s`, `f` returns, and a success leaves at least `d` tokens less than in `s`. -/
def SafeFrom (s : Stream) (d : Nat) (f : SM Stream α) : Prop :=
  ∀ st : Stream, st.toks.length ≤ s.toks.length →
    (f st).1.Returns ∧ ∀ a, (f st).1 = .ok a → (f st).2.toks.length + d ≤ s.toks.length

theorem SafeFrom.bind {s : Stream} {d : Nat} {f : SM Stream α} {g : α → SM Stream β} (h : Safe (s.toks.length + 1) 0 f)
    (hg : ∀ a, SafeFrom s d (g a)) : SafeFrom s d (f >>= g) := by
  intro st hs
  obtain ⟨h1, h2⟩ := h st (by omega)
  rw [SM.bind_def]
  rcases hf : f st with ⟨r, st'⟩
  rw [hf] at h1 h2
  cases r with
  | ok a =>
    have h3 := h2 a rfl
    simp only at h3
    exact hg a st' (by omega)
  | err => exact ⟨.inr rfl, fun a h => by simp at h⟩
  | panic => simp at h1
  | diverge => simp at h1

theorem SafeFrom.ite {s : Stream} {d : Nat} {c : Prop} [Decidable c] {f g : SM Stream α} (h : SafeFrom s d f) (h' : SafeFrom s d g) :
    SafeFrom s d (if c then f else g) := by
  split
  · exact h
  · exact h'

theorem SafeFrom.of {s : Stream} {d n : Nat} {f : SM Stream α} (h : Safe n d f) (hn : s.toks.length < n) : SafeFrom s d f := by
  intro st hs
  obtain ⟨h1, h2⟩ := h st (by omega)
  exact ⟨h1, fun a ha => by have := h2 a ha; omega⟩

/-- Going back. -/
theorem SafeFrom.back {s : Stream} {d n : Nat} {f : Unit → SM Stream α} (h : Safe n d (f ())) (hn : s.toks.length < n) :
    SafeFrom s d (SM.modify (fun _ => s) >>= f) := by
  intro st _
  rw [SM.bind_ok (show SM.modify (fun _ => s) st = (.ok (), s) from rfl)]
  exact h s hn

theorem Safe.get {n d : Nat} {f : Stream → SM Stream α} (h : ∀ s : Stream, s.toks.length < n → SafeFrom s d (f s)) :
    Safe n d (SM.get >>= f) := fun st hs => h st hs st (Nat.le_refl _)

theorem next_safe (n : Nat) : Safe n 0 streamOps.next := by
  rintro ⟨_ | ⟨t, ts⟩, e⟩ _
  · cases e <;> simp [streamOps]
  · simp [streamOps]

theorem quoteKeyword_safe (n : Nat) : Safe n 0 (quoteKeyword streamOps) := by
  unfold quoteKeyword
  refine Safe.eat (by simp) (by rw [if_pos rfl]; exact Safe.pure _ _) ?_
  rw [if_neg (by simp)]
  refine Safe.eat (by simp) (by rw [if_pos rfl]; exact Safe.pure _ _) ?_
  rw [if_neg (by simp)]
  exact (Safe.next (d := 0) (fun t => Safe.fail _ _) (fun st => rfl)).drop

theorem parseQuoteWat_safe (lib : Lib) (h : lib.Total) (n : Nat) : Safe n 1 (parseQuoteWat streamOps lib n) := by
  refine Safe.get fun s hs => ?_
  refine SafeFrom.bind (expect_safe _ _ (by simp)).drop fun _ => SafeFrom.bind (quoteKeyword_safe _) fun _ =>
    SafeFrom.bind (next_safe _) fun _ => SafeFrom.ite (SafeFrom.back (n := n) ?_ hs) (SafeFrom.of (n := n) ?_ hs)
  · exact Safe.bind1 (parse_safe lib h n) fun _ => Safe.pure _ _
  · exact Safe.bind1 (parseString_safe _) fun _ => Safe.bind0 (expect_safe _ _ (by simp)).drop fun _ => Safe.pure _ _

theorem parseAssertion_safe (lib : Lib) (h : lib.Total) (n : Nat) (w : List Byte) : Safe n 1 (parseAssertion streamOps lib n w) := by
  refine Safe.bind1 (f := assertionBody streamOps lib n w) ?_ fun _ => Safe.bind0 (expect_safe _ _ (by simp)).drop fun _ => Safe.pure _ _
  refine Safe.ite ?_ (Safe.ite ?_ (Safe.ite ?_ (Safe.ite ?_ (Safe.fail _ _))))
  · exact Safe.bind1 (expectWord_safe _ _) fun _ => Safe.bind0 (parseAction_safe lib h n).drop fun _ =>
      Safe.bind0 (parseResults_safe lib h n) fun _ => Safe.pure _ _
  · exact Safe.bind1 (expectWord_safe _ _) fun _ => Safe.bind0 (parseQuoteWat_safe lib h n).drop fun _ =>
      Safe.bind0 (parseString_safe n).drop fun _ => Safe.pure _ _
  · exact Safe.bind1 (expectWord_safe _ _) fun _ => Safe.bind0 (parseQuoteWat_safe lib h n).drop fun _ =>
      Safe.bind0 (parseString_safe n).drop fun _ => Safe.pure _ _
  · exact Safe.bind1 (expect_safe _ _ (by simp)) fun _ => Safe.bind0 (parseAction_safe lib h n).drop fun _ =>
      Safe.bind0 (parseString_safe n).drop fun _ => Safe.pure _ _

theorem parseDirective_safe (lib : Lib) (h : lib.Total) (n : Nat) : Safe n 1 (parseDirective streamOps lib n) := by
  refine Safe.get fun s hs => ?_
  refine SafeFrom.bind (expect_safe _ _ (by simp)).drop fun _ => SafeFrom.bind (peek_safe _) fun _ =>
    SafeFrom.ite (SafeFrom.back (n := n) ?_ hs) (SafeFrom.of (parseAssertion_safe lib h n _) hs)
  exact Safe.bind1 (parseQuoteWat_safe lib h n) fun _ => Safe.pure _ _

/-- The inner bounds are one less than the bound of the loop, so that the text must be one shorter. -/
theorem parseWast_safe (lib : Lib) (h : lib.Total) (n : Nat) : Safe n 0 (parseWast streamOps lib (n + 1)) := by
  induction n with
  | zero => intro st h; omega
  | succ n ih =>
    unfold parseWast
    refine Safe.bind0 (peek_safe _) fun t => Safe.ite (Safe.pure _ _) ?_
    exact (Safe.bind (d := 1) (e := 0) (k := 0) (parseDirective_safe lib h (n + 1)) (fun _ =>
      Safe.bind0 ih fun _ => Safe.pure _ _) (by omega))

/-- The result of the parser is that on the tokens of the text, for every bound greater than the number of tokens. -/
theorem parseScript_tokens (lib : Lib) (h : lib.Total) (text : List Byte) (n m : Nat) (hn : text.length + 1 < n)
    (hm : (significant text).toks.length + 1 < m) :
    parseScript lib n text = (parseWast streamOps lib m (significant text)).1 ∧ (parseScript lib n text).Returns := by
  have hs := significant_length text
  obtain ⟨m, rfl⟩ : ∃ k, m = k + 1 := ⟨m - 1, by omega⟩
  obtain ⟨n, rfl⟩ : ∃ k, n = k + 1 := ⟨n - 1, by omega⟩
  have h1 := (parseWast_safe lib h m (significant text) (by omega)).1
  have h2 := (parseWast_safe lib h n (significant text) (by omega)).1
  have hd : ∀ r : Res (List Directive), r.Returns → r ≠ .diverge := by
    rintro r (⟨a, rfl⟩ | rfl) <;> simp
  have e1 : parseScript lib (n + 1) text = (parseWast streamOps lib (n + 1) (significant text)).1 :=
    text_reads (parseWast_sim lexOps_sim lib _ _ (Nat.le_refl _)) text (hd _ h2)
  rw [e1]
  refine ⟨?_, h2⟩
  rcases Nat.le_total (n + 1) (m + 1) with hl | hl
  · exact (parseWast_sim stream_refl lib _ _ hl _ _ rfl (hd _ h2)).1
  · exact (parseWast_sim stream_refl lib _ _ hl _ _ rfl (hd _ h1)).1.symm

end

end Verif.Wast
