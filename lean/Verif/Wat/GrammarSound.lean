import Verif.Wat.Grammar
import Verif.Wat.PrintRead
import Verif.Wat.NumberLemmas

/-!
# What the parser accepts is in the grammar
-/

namespace Verif.Wat.Grammar

open Spec

variable {α β : Type}

/-- Tokens in front of a stream. -/
def _root_.Verif.Wat.Stream.push (s : Stream) (ts : List Sig) : Stream := ⟨ts ++ s.toks, s.ended⟩

theorem push_push (s : Stream) (a b : List Sig) : (s.push b).push a = s.push (a ++ b) := by simp [Stream.push]

theorem push_nil (s : Stream) : s.push [] = s := rfl

/-- What is true of every token of the lexer, as far as the parser depends on it. -/
structure _root_.Verif.Wat.Sig.Fine (t : Sig) : Prop where
  lp : t.type = .openParen → t.capture = txt "("
  rp : t.type = .closeParen → t.capture = txt ")"
  module : t.type = .module → t.capture = txt "module"
  component : t.type = .component → t.capture = txt "component"
  string : t.type = .string → ∃ s, ch '"' ∉ s ∧ t.capture = ch '"' :: s ++ [ch '"']
  val : ∀ v, t.capture = valWord v → t.type = .reserved

/-- Tokens of the lexer. -/
def _root_.Verif.Wat.Stream.Fine (st : Stream) : Prop := ∀ t ∈ st.toks, t.Fine

theorem _root_.Verif.Wat.Stream.Fine.of_push {s : Stream} {ts : List Sig} (h : (s.push ts).Fine) : s.Fine :=
  fun t ht => h t (by simp [Stream.push, ht])

/-- From states with `P`, a success of `f` has taken tokens in `C`. -/
def Reads (P : Stream → Prop) (f : SM Stream α) (C : α → Lang) : Prop :=
  ∀ st, st.Fine → P st → ∀ a st', f st = (.ok a, st') → ∃ ts, st = st'.push ts ∧ C a ts

/-- Any state. -/
def Always : Stream → Prop := fun _ => True

/-- The next token. -/
def IsNext (t : Sig) (st : Stream) : Prop := st.toks.head? = some t ∨ st.toks = [] ∧ t = eos

variable {P : Stream → Prop} {f : SM Stream α} {g : α → SM Stream β} {A : α → Lang} {C : β → Lang}

theorem Reads.from {C : α → Lang} (h : Reads Always f C) : Reads P f C := fun st hf _ => h st hf trivial

theorem Reads.mono {C D : α → Lang} (h : Reads P f C) (k : ∀ a ts, C a ts → D a ts) : Reads P f D := by
  intro st hi hp a st' hf
  obtain ⟨ts, e, h⟩ := h st hi hp a st' hf
  exact ⟨ts, e, k a ts h⟩

theorem Reads.pure {C : α → Lang} {a : α} (h : C a []) : Reads P (pure a) C := by
  intro st _ _ b st' hf
  cases hf
  exact ⟨[], rfl, h⟩

theorem Reads.fail {C : α → Lang} : Reads P (SM.fail : SM Stream α) C := by
  intro st _ _ b st' hf
  cases hf

theorem Reads.spent {C : α → Lang} : Reads P (spent : SM Stream α) C := by
  intro st _ _ b st' hf
  cases hf

theorem Reads.bind (hf : Reads P f A) (hg : ∀ a t1, A a t1 → Reads Always (g a) (fun b t2 => C b (t1 ++ t2))) :
    Reads P (f >>= g) C := by
  intro st hi hp b st' h
  obtain ⟨a, s, h1, h2⟩ := SM.bind_eq_ok.1 h
  obtain ⟨t1, rfl, ha⟩ := hf st hi hp a s h1
  obtain ⟨t2, rfl, hc⟩ := hg a t1 ha s hi.of_push trivial b st' h2
  exact ⟨t1 ++ t2, push_push _ _ _, hc⟩

theorem Reads.ite {C : α → Lang} {c : Prop} [Decidable c] {g : SM Stream α} (h1 : c → Reads P f C) (h2 : ¬ c → Reads P g C) :
    Reads P (if c then f else g) C := by
  split
  · exact h1 ‹_›
  · exact h2 ‹_›

theorem Reads.next {g : Sig → SM Stream β} (hg : ∀ t, t.Fine → Reads Always (g t) (fun b t2 => C b (t :: t2)))
    (he : Reads Always (g eos) (fun _ _ => False)) : Reads P (streamOps.next >>= g) C := by
  rintro ⟨_ | ⟨t, ts⟩, e⟩ hi _ b st' h
  · cases e
    · cases h
    · obtain ⟨_, _, h⟩ := he _ hi trivial b st' h
      exact h.elim
  · obtain ⟨t2, e1, hc⟩ := hg t (hi t (by simp)) ⟨ts, e⟩ (fun u hu => hi u (List.mem_cons_of_mem _ hu)) trivial b st' h
    refine ⟨t :: t2, ?_, hc⟩
    rw [show (⟨t :: ts, e⟩ : Stream) = (⟨ts, e⟩ : Stream).push [t] from rfl, e1, push_push]
    rfl

theorem Reads.peek {g : Sig → SM Stream β} (hg : ∀ t, Reads (IsNext t) (g t) C) : Reads P (streamOps.peek >>= g) C := by
  rintro ⟨_ | ⟨t, ts⟩, e⟩ hi _ b st' h
  · cases e
    · cases h
    · exact hg eos _ hi (.inr ⟨rfl, rfl⟩) b st' h
  · exact hg t _ hi (.inl rfl) b st' h

theorem Reads.never {C : α → Lang} (h : Reads P f (fun _ _ => False)) : Reads P f C := h.mono fun _ _ h => h.elim

theorem lp_of (t : Sig) (h : t.Fine) (ht : t.type = .openParen) : t = lp := by
  obtain ⟨k, w⟩ := t
  have := h.lp ht
  simp only at this ht
  subst this; subst ht; rfl

theorem rp_of (t : Sig) (h : t.Fine) (ht : t.type = .closeParen) : t = rp := by
  obtain ⟨k, w⟩ := t
  have := h.rp ht
  simp only at this ht
  subst this; subst ht; rfl

theorem expect_reads (k : TokenType) (hk : k ≠ .endOfStream) :
    Reads P (expect streamOps k) (fun _ ts => ∃ t : Sig, t.Fine ∧ t.type = k ∧ ts = [t]) := by
  unfold expect
  refine Reads.next (fun t ht => Reads.ite (fun h => Reads.pure ⟨t, ht, h, rfl⟩) (fun _ => Reads.fail)) ?_
  rw [if_neg (fun h => hk h.symm)]
  exact Reads.fail

theorem expectRp_reads : Reads P (expect streamOps .closeParen) (fun _ => tok rp) :=
  (expect_reads .closeParen (by simp)).mono fun _ ts ⟨t, h1, h2, e⟩ => by rw [e, rp_of t h1 h2]; rfl

theorem expectLp_reads : Reads P (expect streamOps .openParen) (fun _ => tok lp) :=
  (expect_reads .openParen (by simp)).mono fun _ ts ⟨t, h1, h2, e⟩ => by rw [e, lp_of t h1 h2]; rfl

theorem expectWord_reads (w : List Byte) : Reads P (expectWord streamOps w) (fun _ => word w) := by
  unfold expectWord
  refine Reads.next (fun t ht => Reads.ite (fun _ => Reads.fail) fun h => Reads.ite (fun _ => Reads.fail) fun h' => Reads.pure ?_) ?_
  · obtain ⟨k, v⟩ := t
    simp only [ne_eq, Decidable.not_not] at h h'
    subst h; subst h'; rfl
  · rw [if_pos (by simp [eos])]
    exact Reads.fail

theorem eatLp_cases (st : Stream) (hi : st.Fine) (b : Bool) (st' : Stream) (h : eat streamOps .openParen st = (.ok b, st')) :
    b = true ∧ st = st'.push [lp] ∨ b = false ∧ st = st' ∧ ∀ t ∈ st.toks.head?, t.type ≠ .openParen := by
  rcases st with ⟨_ | ⟨t, ts⟩, e⟩
  · cases e
    · cases h
    · cases h
      exact .inr ⟨rfl, rfl, by simp⟩
  · by_cases ht : t.type = .openParen
    · rw [← ht, eat_cons] at h
      cases h
      left
      rw [← lp_of t (hi t (by simp)) ht]
      exact ⟨rfl, rfl⟩
    · rw [eat_not t ts e _ ht] at h
      cases h
      exact .inr ⟨rfl, rfl, by simpa using ht⟩

theorem Reads.eatLp {f g : SM Stream β} (hf : Reads Always f (fun b t2 => C b (lp :: t2))) (hg : Reads Always g C) :
    Reads P (eat streamOps .openParen >>= fun b => if b then f else g) C := by
  intro st hi hp b st' h
  obtain ⟨a, s, h1, h2⟩ := SM.bind_eq_ok.1 h
  rcases eatLp_cases st hi a s h1 with ⟨rfl, rfl⟩ | ⟨rfl, rfl, -⟩
  · rw [if_pos rfl] at h2
    obtain ⟨t2, rfl, hc⟩ := hf s hi.of_push trivial b st' h2
    exact ⟨lp :: t2, push_push _ _ _, hc⟩
  · rw [if_neg (by simp)] at h2
    exact hg st hi trivial b st' h2

theorem par_of {A : Lang} {ts us : List Sig} (h : A ts) (hr : tok rp us) : par A (lp :: (ts ++ us)) :=
  ⟨[lp], ts ++ us, rfl, rfl, ts, us, rfl, h, hr⟩

theorem parens_reads {f : SM Stream α} {A : α → Lang} (hf : Reads Always f A) (n : Nat) :
    Reads P (parens streamOps f n) (many fun x => par (A x)) := by
  induction n generalizing P with
  | zero => exact Reads.spent
  | succ n ih =>
    unfold parens
    refine Reads.eatLp ?_ (Reads.pure rfl)
    refine Reads.bind hf fun x t1 h1 => Reads.bind expectRp_reads fun _ t2 h2 => Reads.bind ih fun xs t3 h3 => Reads.pure ?_
    exact ⟨lp :: (t1 ++ t2), t3, by simp, par_of h1 h2, h3⟩

theorem while_reads {f : SM Stream α} {A : α → Lang} (c : Sig → Bool) (hf : Reads Always f A) (n : Nat) :
    Reads P (while_ streamOps c f n) (many A) := by
  induction n generalizing P with
  | zero => exact Reads.spent
  | succ n ih =>
    unfold while_
    refine Reads.peek fun t => Reads.ite (fun _ => ?_) (fun _ => Reads.pure rfl)
    exact Reads.bind hf.from fun x t1 h1 => Reads.bind ih fun xs t2 h2 => Reads.pure ⟨t1, t2, by simp, h1, h2⟩

theorem parseId_reads : Reads P (parseId streamOps) ident := by
  unfold parseId
  refine Reads.next (fun t _ => Reads.ite (fun _ => Reads.fail) fun h => Reads.pure ?_) ?_
  · obtain ⟨k, v⟩ := t
    simp only [ne_eq, Decidable.not_not] at h
    subst h; rfl
  · rw [if_pos (by simp [eos])]
    exact Reads.fail

theorem parseOptionalId_reads : Reads P (parseOptionalId streamOps) optIdent := by
  unfold parseOptionalId
  refine Reads.peek fun t => Reads.ite (fun _ => ?_) (fun _ => Reads.pure rfl)
  refine Reads.bind parseId_reads fun w t1 h1 => Reads.pure ?_
  rw [List.append_nil]
  exact h1

theorem parseString_reads : Reads P (parseString streamOps) str := by
  unfold parseString
  refine Reads.next (fun t ht => Reads.ite (fun _ => Reads.fail) fun h => Reads.pure ?_) ?_
  · obtain ⟨k, v⟩ := t
    simp only [ne_eq, Decidable.not_not] at h
    subst h
    obtain ⟨s, hs, e⟩ := ht.string rfl
    simp only at e
    subst e
    show str (trimQuotes _) _
    rw [trimQuotes_quoted s hs]
    exact ⟨hs, rfl⟩
  · rw [if_pos (by simp [eos])]
    exact Reads.fail

theorem integer_reads (f : Int → α) : Reads P (streamOps.next >>= fun t => if t.type ≠ .integer then SM.fail else
    SM.lift (integerValue t.capture) >>= fun i => pure (f i)) (fun a ts => ∃ w i, ConstInt w i ∧ a = f i ∧ ts = [⟨.integer, w⟩]) := by
  refine Reads.next (fun t ht => Reads.ite (fun _ => Reads.fail) fun h => ?_) ?_
  · obtain ⟨k, v⟩ := t
    simp only [ne_eq, Decidable.not_not] at h
    subst h
    simp only
    intro st _ _ a st' h
    cases hv : integerValue v with
    | ok i =>
      rw [hv] at h
      cases h
      exact ⟨[], rfl, v, i, (integerValue_iff v i).1 hv, rfl, rfl⟩
    | err => rw [hv] at h; cases h
    | panic => rw [hv] at h; cases h
    | diverge => rw [hv] at h; cases h
  · rw [if_pos (by simp [eos])]
    exact Reads.fail

theorem parseInt32_reads : Reads P (parseInt32 streamOps) int32 := integer_reads _

theorem parseInt64_reads : Reads P (parseInt64 streamOps) int64 := integer_reads _

theorem lift_reads {r : Res α} {C : α → Lang} (h : ∀ a, r = .ok a → C a []) : Reads P (SM.lift r) C := by
  intro st _ _ a st' hf
  cases r with
  | ok b => cases hf; exact ⟨[], rfl, h _ rfl⟩
  | err => cases hf
  | panic => cases hf
  | diverge => cases hf

theorem peekFloat_reads {f g : SM Stream β} (hf : Reads Always f C) (hg : Reads Always g C) :
    Reads P (peekFloat streamOps >>= fun b => if b then f else g) C := by
  rintro ⟨_ | ⟨t, ts⟩, e⟩ hi _ b st' h
  · cases e
    · cases h
    · exact hg _ hi trivial b st' h
  · obtain ⟨a, s, h1, h2⟩ := SM.bind_eq_ok.1 h
    cases h1
    split at h2
    · exact hf _ hi trivial b st' h2
    · exact hg _ hi trivial b st' h2

theorem constFloat32_reads (lib : Lib) : Reads P (constFloat32 streamOps lib) (float32 lib) := by
  unfold constFloat32
  refine peekFloat_reads ?_ ?_
  · unfold parseFloat32
    refine Reads.next (fun t ht => Reads.ite (fun _ => Reads.fail) fun h => lift_reads fun a ha => ?_) ?_
    · obtain ⟨k, v⟩ := t
      simp only [ne_eq, Decidable.not_not] at h
      subst h
      exact .inl ⟨v, (float32Value_iff lib v a).1 ha, rfl⟩
    · rw [if_pos (by simp [eos])]
      exact Reads.fail
  · refine Reads.bind parseInt32_reads fun i t1 h1 => Reads.pure (.inr ⟨i, ?_, rfl⟩)
    rw [List.append_nil]
    exact h1

theorem constFloat64_reads (lib : Lib) : Reads P (constFloat64 streamOps lib) (float64 lib) := by
  unfold constFloat64
  refine peekFloat_reads ?_ ?_
  · unfold parseFloat64
    refine Reads.next (fun t ht => Reads.ite (fun _ => Reads.fail) fun h => lift_reads fun a ha => ?_) ?_
    · obtain ⟨k, v⟩ := t
      simp only [ne_eq, Decidable.not_not] at h
      subst h
      exact .inl ⟨v, ha, rfl⟩
    · rw [if_pos (by simp [eos])]
      exact Reads.fail
  · refine Reads.bind parseInt64_reads fun i t1 h1 => Reads.pure (.inr ⟨i, ?_, rfl⟩)
    rw [List.append_nil]
    exact h1

theorem parseIndex_reads : Reads P (parseIndex streamOps) index := by
  unfold parseIndex
  refine Reads.next (fun t ht => Reads.ite (fun h => ?_) fun _ => Reads.ite (fun h => Reads.pure ?_) fun _ => Reads.fail) ?_
  · obtain ⟨k, v⟩ := t
    simp only at h
    subst h
    refine Reads.bind (A := fun i ts => Strconv.atoi v = .ok i ∧ ts = []) (lift_reads fun a ha => ⟨ha, rfl⟩) ?_
    rintro i t1 ⟨h1, rfl⟩
    exact Reads.pure ⟨v, i, (atoi_iff v i).1 h1, rfl, rfl⟩
  · obtain ⟨k, v⟩ := t
    simp only at h
    subst h
    rfl
  · rw [if_neg (by simp [eos]), if_neg (by simp [eos])]
    exact Reads.fail

/-! ## Types -/

theorem valTypes_lookup (w : List Byte) (v : ValType) (h : valTypes.lookup w = some v) : w = valWord v := by
  unfold valTypes at h
  simp only [List.lookup_cons, List.lookup_nil] at h
  repeat' split at h
  all_goals cases h
  all_goals exact eq_of_beq (by assumption)

theorem parseValType_reads : Reads P (parseValType streamOps) val := by
  unfold parseValType
  refine Reads.next (fun t ht => ?_) ?_
  · cases hv : valTypes.lookup t.capture with
    | none => exact Reads.fail
    | some v =>
      refine Reads.pure ?_
      have h1 := valTypes_lookup _ _ hv
      have h2 := ht.val v h1
      obtain ⟨k, w⟩ := t
      simp only at h1 h2
      subst h1; subst h2; rfl
  · exact Reads.fail

theorem parseLocal_reads : Reads P (parseLocal streamOps) (fun t => word (txt "local") ⬝ val t) :=
  Reads.bind (expectWord_reads _) fun _ t1 h1 => parseValType_reads.mono fun _ t2 h2 => ⟨t1, t2, rfl, h1, h2⟩

/-- `(param …)` without the parentheses. -/
def paramIn (p : Parameter) : Lang :=
  match p.id, p.types with
  | some w, [t] => word (txt "param") ⬝ ident w ⬝ val t
  | none, ts => word (txt "param") ⬝ many val ts
  | _, _ => never

theorem param_par (p : Parameter) : param p = par (paramIn p) := by
  obtain ⟨id, ts⟩ := p
  rcases id with _ | w
  · rfl
  · rcases ts with _ | ⟨t, _ | ⟨u, ts⟩⟩
    · funext x; simp [param, paramIn, par, never, Lang.cat]
    · rfl
    · funext x; simp [param, paramIn, par, never, Lang.cat]

/-- `(result …)` without the parentheses. -/
def resultIn (r : Result) : Lang :=
  match r.types with
  | [t] => word (txt "result") ⬝ val t
  | _ => never

theorem result_par (r : Result) : result r = par (resultIn r) := by
  obtain ⟨ts⟩ := r
  rcases ts with _ | ⟨t, _ | ⟨u, ts⟩⟩
  · funext x; simp [result, resultIn, par, never, Lang.cat]
  · rfl
  · funext x; simp [result, resultIn, par, never, Lang.cat]

theorem parseParameter_reads (n : Nat) : Reads P (parseParameter streamOps n) paramIn := by
  unfold parseParameter
  refine Reads.bind (expectWord_reads _) fun _ t1 h1 => Reads.bind parseOptionalId_reads fun id t2 h2 => ?_
  rcases id with _ | w
  · refine Reads.bind (A := many val) (while_reads _ parseValType_reads n) fun ts t3 h3 => Reads.pure ?_
    cases h2
    exact ⟨t1, t3, by simp, h1, h3⟩
  · refine Reads.bind (A := fun ts us => ∃ t, ts = [t] ∧ val t us) ?_ ?_
    · refine Reads.bind parseValType_reads fun t t3 h3 => Reads.pure ⟨t, rfl, by rwa [List.append_nil]⟩
    · rintro _ t3 ⟨t, rfl, h3⟩
      exact Reads.pure ⟨t1, t2 ++ t3, by simp, h1, t2, t3, rfl, h2, h3⟩

theorem parseResult_reads : Reads P (parseResult streamOps) resultIn := by
  unfold parseResult
  exact Reads.bind (expectWord_reads _) fun _ t1 h1 => Reads.bind parseValType_reads fun t t2 h2 =>
    Reads.pure ⟨t1, t2, by simp, h1, h2⟩

/-- What is in a pair of parentheses of a function type. -/
def funcTypeItem : FuncTypeItem → Lang
  | .param p => paramIn p
  | .result r => resultIn r
  | .nothing => eps

theorem parseFuncTypeItem_reads (n : Nat) : Reads P (parseFuncTypeItem streamOps n) funcTypeItem := by
  unfold parseFuncTypeItem
  refine Reads.peek fun t => Reads.ite (fun _ => ?_) fun _ => Reads.ite (fun _ => ?_) fun _ => Reads.pure rfl
  · exact Reads.bind (parseParameter_reads n) fun p t1 h1 => Reads.pure (by rw [List.append_nil]; exact h1)
  · exact Reads.bind parseResult_reads fun p t1 h1 => Reads.pure (by rw [List.append_nil]; exact h1)

theorem isFuncType_iff (f : FuncType) (ts : List Sig) :
    IsFuncType f ts ↔ ∃ items, f = FuncType.ofItems items ∧ many (fun i => par (funcTypeItem i)) items ts := by
  constructor
  · intro h
    induction h with
    | nil => exact ⟨[], rfl, rfl⟩
    | param hp _ ih =>
      obtain ⟨items, rfl, h⟩ := ih
      rw [param_par] at hp
      exact ⟨.param _ :: items, rfl, _, _, rfl, hp, h⟩
    | result hp _ ih =>
      obtain ⟨items, rfl, h⟩ := ih
      rw [result_par] at hp
      exact ⟨.result _ :: items, rfl, _, _, rfl, hp, h⟩
    | nothing _ ih =>
      obtain ⟨items, rfl, h⟩ := ih
      exact ⟨.nothing :: items, rfl, [lp, rp], _, rfl, par_of (A := eps) (ts := []) rfl rfl, h⟩
  · rintro ⟨items, rfl, h⟩
    induction items generalizing ts with
    | nil => cases h; exact .nil
    | cons x xs ih =>
      obtain ⟨a, b, rfl, h1, h2⟩ := h
      have k := ih b h2
      cases x with
      | param p => rw [funcTypeItem, ← param_par] at h1; exact .param h1 k
      | result r => rw [funcTypeItem, ← result_par] at h1; exact .result h1 k
      | nothing =>
        obtain ⟨_, _, rfl, rfl, _, _, rfl, rfl, rfl⟩ := h1
        exact .nothing k

theorem parseFuncType_reads (n : Nat) : Reads P (parseFuncType streamOps n) (fun f => word (txt "func") ⬝ IsFuncType f) := by
  unfold parseFuncType
  exact Reads.bind (expectWord_reads _) fun _ t1 h1 => Reads.bind (parens_reads (parseFuncTypeItem_reads n) n) fun items t2 h2 =>
    Reads.pure ⟨t1, t2, by simp, h1, (isFuncType_iff _ _).2 ⟨items, rfl, h2⟩⟩

theorem parseType_reads (n : Nat) : Reads P (parseType streamOps n) typeDef := by
  unfold parseType
  refine Reads.bind (expectWord_reads _) fun _ t1 h1 => Reads.bind parseOptionalId_reads fun id t2 h2 =>
    Reads.bind (A := fun f => par (word (txt "func") ⬝ IsFuncType f) ∣∣ only (f = ⟨[], []⟩)) ?_ fun f t3 h3 =>
    Reads.pure ⟨t1, t2 ++ t3, by simp, h1, t2, t3, rfl, h2, h3⟩
  unfold typeBody
  refine Reads.eatLp ?_ (Reads.pure (.inr ⟨rfl, rfl⟩))
  refine Reads.bind (parseFuncType_reads n) fun f t3 h3 => Reads.bind expectRp_reads fun _ t4 h4 => Reads.pure (.inl ?_)
  rw [List.append_nil]
  exact par_of h3 h4

theorem parseLimits_reads : Reads P (parseLimits streamOps) limits := by
  unfold parseLimits
  refine Reads.bind parseInt32_reads fun m t1 h1 => Reads.bind (A := fun o => match o with | none => eps | some m => int32 m) ?_ fun o t2 h2 =>
    Reads.pure ⟨t1, t2, by simp, h1, h2⟩
  unfold limitsMax
  refine Reads.peek fun t => Reads.ite (fun _ => ?_) fun _ => Reads.pure rfl
  exact Reads.bind parseInt32_reads fun m t2 h2 => Reads.pure (by rw [List.append_nil]; exact h2)

theorem refType_lookup (w : List Byte) : refTypes.lookup w = refType w := by
  unfold refTypes refType
  simp only [List.lookup_cons, List.lookup_nil]
  by_cases h1 : w = txt "funcref"
  · subst h1; decide
  · by_cases h2 : w = txt "externref"
    · subst h2; decide
    · rw [if_neg h1, if_neg h2]
      have e1 : (w == txt "funcref") = false := by simpa using h1
      have e2 : (w == txt "externref") = false := by simpa using h2
      simp [e1, e2]

theorem parseTableType_reads : Reads P (parseTableType streamOps) tableType := by
  unfold parseTableType
  refine Reads.bind (A := fun l => limits l ∣∣ only (l = ⟨0, none⟩)) ?_ fun l t1 h1 => ?_
  · unfold tableLimits
    refine Reads.peek fun t => Reads.ite (fun _ => ?_) fun _ => Reads.pure (.inr ⟨rfl, rfl⟩)
    exact parseLimits_reads.mono fun l ts h => .inl h
  · refine Reads.next (fun t ht => Reads.ite (fun _ => Reads.fail) fun h => Reads.pure ?_) ?_
    · obtain ⟨k, w⟩ := t
      simp only [ne_eq, Decidable.not_not] at h
      subst h
      exact ⟨t1, [kw w], rfl, h1, w, refType_lookup w, rfl⟩
    · rw [if_pos (by simp [eos])]
      exact Reads.fail

theorem parseTable_reads (n : Nat) : Reads P (parseTable streamOps n) table := by
  unfold parseTable
  refine Reads.bind (expectWord_reads _) fun _ t1 h1 => Reads.bind parseOptionalId_reads fun id t2 h2 =>
    Reads.bind parseTableType_reads fun ty t3 h3 => Reads.bind (parens_reads (A := fun e => word (txt "elem") ⬝ ident e) ?_ n) fun es t4 h4 =>
    Reads.pure ⟨t1, t2 ++ (t3 ++ t4), by simp, h1, t2, t3 ++ t4, rfl, h2, t3, t4, rfl, h3, h4⟩
  unfold parseElement
  refine Reads.next (fun t ht => Reads.ite (fun _ => Reads.fail) fun h => Reads.ite (fun h' => ?_) fun _ => Reads.fail) ?_
  · obtain ⟨k, w⟩ := t
    simp only [ne_eq, Decidable.not_not] at h h'
    subst h; subst h'
    exact parseId_reads.mono fun e ts h => ⟨[_], ts, rfl, rfl, h⟩
  · rw [if_pos (by simp [eos])]
    exact Reads.fail

theorem parseMemory_reads : Reads P (parseMemory streamOps) memory := by
  unfold parseMemory
  exact Reads.bind (expectWord_reads _) fun _ t1 h1 => Reads.bind parseOptionalId_reads fun id t2 h2 =>
    Reads.bind parseLimits_reads fun l t3 h3 => Reads.pure ⟨t1, t2 ++ t3, by simp, h1, t2, t3, rfl, h2, h3⟩

theorem parseExport_reads : Reads P (parseExport streamOps) (fun s => word (txt "export") ⬝ str s) :=
  Reads.bind (expectWord_reads _) fun _ t1 h1 => parseString_reads.mono fun _ t2 h2 => ⟨t1, t2, rfl, h1, h2⟩

theorem parseImport_reads : Reads P (parseImport streamOps) (fun _ ts => ∃ s s', (word (txt "import") ⬝ str s ⬝ str s') ts) :=
  Reads.bind (expectWord_reads _) fun _ t1 h1 => Reads.bind parseString_reads fun s t2 h2 => Reads.bind parseString_reads fun s' t3 h3 =>
    Reads.pure ⟨s, s', t1, t2 ++ t3, by simp, h1, t2, t3, rfl, h2, h3⟩

theorem parseTypeUse_reads : Reads P (parseTypeUse streamOps) (fun w => par (word (txt "type") ⬝ ident w)) :=
  Reads.bind expectLp_reads fun _ t1 h1 => Reads.bind (expectWord_reads _) fun _ t2 h2 => Reads.bind parseId_reads fun w t3 h3 =>
    Reads.bind expectRp_reads fun _ t4 h4 => Reads.pure ⟨t1, t2 ++ t3 ++ t4, by simp, h1, t2 ++ t3, t4, rfl, ⟨t2, t3, rfl, h2, h3⟩, h4⟩

theorem parseBlockType_reads (n : Nat) : Reads P (parseBlockType streamOps n) (many results) := by
  induction n generalizing P with
  | zero => exact Reads.spent
  | succ n ih =>
    intro st hi _ rs st' h
    unfold parseBlockType at h
    rw [SM.bind_get] at h
    obtain ⟨b, s, h1, h2⟩ := SM.bind_eq_ok.1 h
    rcases eatLp_cases st hi b s h1 with ⟨rfl, e⟩ | ⟨rfl, -, -⟩
    · rw [if_pos rfl] at h2
      obtain ⟨t, s', h3, h4⟩ := SM.bind_eq_ok.1 h2
      split at h4
      · cases h4
        exact ⟨[], rfl, rfl⟩
      · have hs : s' = s := by
          rcases s with ⟨_ | ⟨u, us⟩, en⟩
          · cases en
            · cases h3
            · cases h3; rfl
          · cases h3; rfl
        subst hs
        subst e
        have k : Reads Always (do
            expectWord streamOps (txt "result")
            let ts ← while_ streamOps (fun tok => tok.type != .closeParen) (parseValType streamOps) n
            expect streamOps .closeParen
            let rs ← parseBlockType streamOps n
            pure ((⟨ts⟩ : Result) :: rs)) (fun rs ts => many results rs (lp :: ts)) := by
          refine Reads.bind (expectWord_reads _) fun _ t1 h1 => Reads.bind (while_reads _ parseValType_reads n) fun ts t2 h2 =>
            Reads.bind expectRp_reads fun _ t3 h3 => Reads.bind ih fun rs t4 h4 => Reads.pure ?_
          exact ⟨lp :: (t1 ++ t2 ++ t3), t4, by simp, par_of (A := word (txt "result") ⬝ many val ts) ⟨t1, t2, rfl, h1, h2⟩ h3, h4⟩
        obtain ⟨t2, rfl, hc⟩ := k s' hi.of_push trivial rs st' h4
        exact ⟨lp :: t2, push_push _ _ _, hc⟩
    · rw [if_neg (by simp)] at h2
      cases h2
      exact ⟨[], rfl, rfl⟩

/-! ## Instructions -/

theorem insts_iff (lib : Lib) (is : List Inst) (ts : List Sig) : IsInsts lib is ts ↔ many (fun i => par (IsInst lib i)) is ts := by
  induction is generalizing ts with
  | nil =>
    constructor
    · rintro ⟨⟩; rfl
    · rintro rfl; exact .nil
  | cons i is ih =>
    constructor
    · intro h
      cases h with
      | cons h1 h2 => exact ⟨_, _, rfl, par_of h1 rfl, (ih _).1 h2⟩
    · rintro ⟨_, b, rfl, ⟨_, _, rfl, rfl, t, _, rfl, h1, rfl⟩, h2⟩
      exact .cons h1 ((ih b).2 h2)

/-- What is in a pair of parentheses of an `if`. -/
def ifItem (lib : Lib) : IfItem → Lang
  | .result r => resultIn r
  | .thens is => word (txt "then") ⬝ IsInsts lib is
  | .elses is => word (txt "else") ⬝ IsInsts lib is
  | .inst i => IsInst lib i

/-- The results of an `if`. -/
def ifResults (items : List IfItem) : List Result := items.filterMap fun | .result r => some r | _ => none
/-- The instructions of the condition. -/
def ifClause (items : List IfItem) : List Inst := items.filterMap fun | .inst i => some i | _ => none
/-- The last `then`. -/
def ifThens (items : List IfItem) : Option (List Inst) := (items.filterMap fun | .thens is => some is | _ => none).getLast?
/-- The last `else`. -/
def ifElses (items : List IfItem) : Option (List Inst) := (items.filterMap fun | .elses is => some is | _ => none).getLast?

theorem ifOfItems_eq (name : Option (List Byte)) (items : List IfItem) :
    ifOfItems name items = .ifThen name (ifResults items) (ifClause items) ((ifThens items).getD []) (ifElses items) := rfl

theorem par_cons {A : Lang} {w : List Byte} {ts : List Sig} (h : A ts) : par (word w ⬝ A) (inParens (kw w :: ts)) :=
  par_of (A := word w ⬝ A) ⟨[kw w], ts, rfl, rfl, h⟩ rfl

theorem par_inv {A : Lang} {ts : List Sig} (h : par A ts) : ∃ us, ts = inParens us ∧ A us := by
  obtain ⟨_, _, rfl, rfl, t, _, rfl, h1, rfl⟩ := h
  exact ⟨t, rfl, h1⟩

theorem isIf_iff (lib : Lib) (rs : List Result) (clause : List Inst) (thens elses : Option (List Inst)) (ts : List Sig) :
    IsIf lib rs clause thens elses ts ↔ ∃ items, many (fun i => par (ifItem lib i)) items ts ∧ rs = ifResults items ∧
      clause = ifClause items ∧ thens = ifThens items ∧ elses = ifElses items := by
  constructor
  · intro h
    induction ts using (measure List.length).wf.induction generalizing rs clause thens elses with
    | _ ts ih =>
    cases h with
    | nil => exact ⟨[], rfl, rfl, rfl, rfl, rfl⟩
    | result h1 h2 =>
      rw [result_par] at h1
      obtain ⟨a, rfl, h1'⟩ := par_inv h1
      obtain ⟨items, k, rfl, rfl, rfl, rfl⟩ := ih _ (by simp [InvImage, WellFoundedRelation.rel, inParens]; omega) _ _ _ _ h2
      exact ⟨.result _ :: items, ⟨_, _, rfl, h1, k⟩, rfl, rfl, rfl, rfl⟩
    | clause h1 h2 =>
      obtain ⟨items, k, rfl, rfl, rfl, rfl⟩ := ih _ (by simp [InvImage, WellFoundedRelation.rel, inParens]; omega) _ _ _ _ h2
      exact ⟨.inst _ :: items, ⟨_, _, rfl, par_of h1 rfl, k⟩, rfl, rfl, rfl, rfl⟩
    | then_ h1 h2 =>
      obtain ⟨items, k, rfl, rfl, rfl, rfl⟩ := ih _ (by simp [InvImage, WellFoundedRelation.rel, inParens]; omega) _ _ _ _ h2
      refine ⟨.thens _ :: items, ⟨_, _, rfl, par_cons h1, k⟩, rfl, rfl, ?_, rfl⟩
      simp [ifThens, List.getLast?_cons]
    | else_ h1 h2 =>
      obtain ⟨items, k, rfl, rfl, rfl, rfl⟩ := ih _ (by simp [InvImage, WellFoundedRelation.rel, inParens]; omega) _ _ _ _ h2
      refine ⟨.elses _ :: items, ⟨_, _, rfl, par_cons h1, k⟩, rfl, rfl, rfl, ?_⟩
      simp [ifElses, List.getLast?_cons]
  · rintro ⟨items, h, rfl, rfl, rfl, rfl⟩
    induction items generalizing ts with
    | nil => cases h; exact .nil
    | cons x xs ih =>
      obtain ⟨a, b, rfl, h1, h2⟩ := h
      have k := ih b h2
      cases x with
      | result r => rw [ifItem, ← result_par] at h1; exact .result h1 k
      | inst i =>
        obtain ⟨a, rfl, h1'⟩ := par_inv h1
        exact .clause h1' k
      | thens is =>
        obtain ⟨_, rfl, _, a, rfl, rfl, h1'⟩ := par_inv h1
        have := IsIf.then_ h1' k
        simpa [ifThens, ifResults, ifClause, ifElses, List.getLast?_cons] using this
      | elses is =>
        obtain ⟨_, rfl, _, a, rfl, rfl, h1'⟩ := par_inv h1
        have := IsIf.else_ h1' k
        simpa [ifThens, ifResults, ifClause, ifElses, List.getLast?_cons] using this

theorem lookup_mem {κ ν : Type} [BEq κ] [LawfulBEq κ] (l : List (κ × ν)) (k : κ) (v : ν) (h : l.lookup k = some v) : (k, v) ∈ l := by
  induction l with
  | nil => cases h
  | cons x l ih =>
    obtain ⟨k', v'⟩ := x
    rw [List.lookup_cons] at h
    split at h
    · rename_i hk
      cases h
      rw [eq_of_beq hk]
      simp
    · exact List.mem_cons_of_mem _ (ih h)

theorem plain_lookup (w : List Byte) (p : Plain) (h : plainWords.lookup w = some p) : w = plainWord p := by
  have : ∀ x ∈ plainWords, x.1 = plainWord x.2 := by decide
  exact this _ (lookup_mem _ _ _ h)

theorem indexed_lookup (w : List Byte) (k : Indexed) (h : indexedWords.lookup w = some k) : w = indexedWord k := by
  have : ∀ x ∈ indexedWords, x.1 = indexedWord x.2 := by decide
  exact this _ (lookup_mem _ _ _ h)

theorem lost_of_nil (w : List Byte) (h : nilWords.contains w = true) : w ∈ lostWords := by
  have : ∀ w ∈ nilWords, w ∈ lostWords := by decide
  exact this w (by simpa using h)

theorem parseInsts_reads (lib : Lib) {inst : SM Stream Inst} (hf : Reads Always inst (IsInst lib)) (n : Nat) :
    Reads P (parens streamOps inst n) (IsInsts lib) :=
  (parens_reads hf n).mono fun is ts h => (insts_iff lib is ts).2 h

theorem parseIfItem_reads (lib : Lib) {inst : SM Stream Inst} (hf : Reads Always inst (IsInst lib)) (n : Nat) :
    Reads P (parseIfItem streamOps inst n) (ifItem lib) := by
  unfold parseIfItem
  refine Reads.peek fun t => Reads.ite (fun _ => ?_) fun _ => Reads.ite (fun _ => ?_) fun _ => Reads.ite (fun _ => ?_) fun _ => ?_
  · exact Reads.bind parseResult_reads fun r t1 h1 => Reads.pure (by rw [List.append_nil]; exact h1)
  · exact Reads.bind (expectWord_reads _) fun _ t1 h1 => Reads.bind (parseInsts_reads lib hf n) fun is t2 h2 =>
      Reads.pure ⟨t1, t2, by simp, h1, h2⟩
  · exact Reads.bind (expectWord_reads _) fun _ t1 h1 => Reads.bind (parseInsts_reads lib hf n) fun is t2 h2 =>
      Reads.pure ⟨t1, t2, by simp, h1, h2⟩
  · exact Reads.bind hf.from fun i t1 h1 => Reads.pure (by rw [List.append_nil]; exact h1)

theorem parseHead_reads (lib : Lib) {inst : SM Stream Inst} (hf : Reads Always inst (IsInst lib)) (n : Nat) (w : List Byte) :
    Reads P (parseHead streamOps lib inst n w) (fun i ts => IsHead lib i (kw w :: ts)) := by
  unfold parseHead
  cases hp : plainWords.lookup w with
  | some p =>
    refine Reads.pure ?_
    rw [plain_lookup w p hp]
    exact .plain
  | none =>
    simp only
    cases hk : indexedWords.lookup w with
    | some k =>
      refine Reads.bind parseIndex_reads fun i t1 h1 => Reads.pure ?_
      rw [indexed_lookup w k hk, List.append_nil]
      exact .indexed h1
    | none =>
      simp only
      refine Reads.ite (fun h => Reads.pure (.lost (lost_of_nil w h))) fun _ => ?_
      refine Reads.ite (fun h => ?_) fun _ => Reads.ite (fun h => ?_) fun _ => Reads.ite (fun h => ?_) fun _ =>
        Reads.ite (fun h => ?_) fun _ => Reads.ite (fun h => ?_) fun _ => Reads.ite (fun h => ?_) fun _ =>
        Reads.ite (fun h => ?_) fun _ => Reads.ite (fun h => ?_) fun _ => Reads.fail
      · exact Reads.bind parseInt32_reads fun v t1 h1 => Reads.pure (by rw [List.append_nil, h]; exact .i32Const h1)
      · exact Reads.bind parseInt64_reads fun v t1 h1 => Reads.pure (by rw [List.append_nil, h]; exact .i64Const h1)
      · exact Reads.bind (constFloat32_reads lib) fun v t1 h1 => Reads.pure (by rw [List.append_nil, h]; exact .f32Const h1)
      · exact Reads.bind (constFloat64_reads lib) fun v t1 h1 => Reads.pure (by rw [List.append_nil, h]; exact .f64Const h1)
      · unfold parseBlock
        exact Reads.bind parseOptionalId_reads fun name t1 h1 => Reads.bind (parseBlockType_reads n) fun rs t2 h2 =>
          Reads.bind (parseInsts_reads lib hf n) fun is t3 h3 => Reads.pure (by rw [List.append_nil, h]; exact .block h1 h2 h3)
      · unfold parseBlock
        exact Reads.bind parseOptionalId_reads fun name t1 h1 => Reads.bind (parseBlockType_reads n) fun rs t2 h2 =>
          Reads.bind (parseInsts_reads lib hf n) fun is t3 h3 => Reads.pure (by rw [List.append_nil, h]; exact .loop h1 h2 h3)
      · unfold parseIf
        exact Reads.bind parseOptionalId_reads fun name t1 h1 => Reads.bind (parens_reads (parseIfItem_reads lib hf n) n) fun items t2 h2 =>
          Reads.pure (by
            rw [List.append_nil, h, ifOfItems_eq]
            exact .ifThen h1 ((isIf_iff _ _ _ _ _ _).2 ⟨items, h2, rfl, rfl, rfl, rfl⟩))
      · exact Reads.bind parseTypeUse_reads fun v t1 h1 => Reads.pure (by rw [List.append_nil, h]; exact .callIndirect h1)

/-- The next token is no `(`. -/
def NotLp (st : Stream) : Prop := ∀ t ∈ st.toks.head?, t.type ≠ .openParen

theorem parens_stop (f : SM Stream α) (n : Nat) (st st' : Stream) (hi : st.Fine) (A : α → Lang) (hf : Reads Always f A) (xs : List α)
    (h : parens streamOps f n st = (.ok xs, st')) : NotLp st' := by
  induction n generalizing st xs with
  | zero => cases h
  | succ n ih =>
    unfold parens at h
    obtain ⟨b, s, h1, h2⟩ := SM.bind_eq_ok.1 h
    rcases eatLp_cases st hi b s h1 with ⟨rfl, rfl⟩ | ⟨rfl, rfl, hl⟩
    · rw [if_pos rfl] at h2
      obtain ⟨x, s1, h3, h4⟩ := SM.bind_eq_ok.1 h2
      obtain ⟨_, s2, h5, h6⟩ := SM.bind_eq_ok.1 h4
      obtain ⟨ys, s3, h7, h8⟩ := SM.bind_eq_ok.1 h6
      cases h8
      obtain ⟨t1, rfl, -⟩ := hf s hi.of_push trivial x s1 h3
      obtain ⟨t2, rfl, -⟩ := expectRp_reads (P := Always) s1 hi.of_push.of_push trivial _ s2 h5
      exact ih s2 hi.of_push.of_push.of_push ys h7
    · rw [if_neg (by simp)] at h2
      cases h2
      exact hl

/-- `f` leaves no `(` behind an instruction without operands. -/
def Stops (f : SM Stream Inst) : Prop := ∀ st, st.Fine → ∀ i st', f st = (.ok i, st') → TakesOperands i ∨ NotLp st'

theorem Stops.pure {i : Inst} (h : TakesOperands i) : Stops (pure i) := by
  intro st _ j st' hf
  cases hf
  exact .inl h

theorem Stops.bindPure (f : SM Stream β) (g : β → Inst) (h : ∀ b, TakesOperands (g b)) : Stops (f >>= fun b => Pure.pure (g b)) := by
  intro st hi j st' hf
  obtain ⟨b, s, -, h2⟩ := SM.bind_eq_ok.1 hf
  cases h2
  exact .inl (h b)

theorem Stops.ite {c : Prop} [Decidable c] {f g : SM Stream Inst} (h1 : Stops f) (h2 : Stops g) : Stops (if c then f else g) := by
  split
  · exact h1
  · exact h2

theorem Stops.fail : Stops SM.fail := by
  intro st _ i st' h
  cases h

theorem Stops.bind {f : SM Stream β} {g : β → SM Stream Inst} {A : β → Lang} (hf : Reads Always f A) (hg : ∀ b, Stops (g b)) : Stops (f >>= g) := by
  intro st hi j st' h
  obtain ⟨b, s, h1, h2⟩ := SM.bind_eq_ok.1 h
  obtain ⟨t, rfl, -⟩ := hf st hi trivial b s h1
  exact hg b s hi.of_push j st' h2

theorem Stops.parens {f : SM Stream α} {A : α → Lang} (hf : Reads Always f A) (n : Nat) (g : List α → Inst) :
    Stops (Wat.parens streamOps f n >>= fun b => Pure.pure (g b)) := by
  intro st hi j st' h
  obtain ⟨b, s, h1, h2⟩ := SM.bind_eq_ok.1 h
  cases h2
  exact .inr (parens_stop f n st _ hi A hf b h1)

theorem parseHead_stops (lib : Lib) {inst : SM Stream Inst} (hf : Reads Always inst (IsInst lib)) (n : Nat) (w : List Byte) :
    Stops (parseHead streamOps lib inst n w) := by
  unfold parseHead
  cases plainWords.lookup w with
  | some p => exact Stops.pure trivial
  | none =>
    simp only
    cases indexedWords.lookup w with
    | some k => exact Stops.bindPure _ _ fun _ => trivial
    | none =>
      simp only
      refine Stops.ite (Stops.pure trivial) ?_
      refine Stops.ite (Stops.bindPure _ _ fun _ => trivial) (Stops.ite (Stops.bindPure _ _ fun _ => trivial)
        (Stops.ite (Stops.bindPure _ _ fun _ => trivial) (Stops.ite (Stops.bindPure _ _ fun _ => trivial)
        (Stops.ite ?_ (Stops.ite ?_ (Stops.ite ?_ (Stops.ite (Stops.bindPure _ _ fun _ => trivial) Stops.fail)))))))
      · exact Stops.bind parseOptionalId_reads fun _ => Stops.bind (parseBlockType_reads n) fun _ => Stops.parens hf n _
      · exact Stops.bind parseOptionalId_reads fun _ => Stops.bind (parseBlockType_reads n) fun _ => Stops.parens hf n _
      · exact Stops.bind parseOptionalId_reads fun _ => Stops.parens (parseIfItem_reads lib hf n) n _

theorem parseInstruction_reads (lib : Lib) (n : Nat) : Reads P (parseInstruction streamOps lib n) (IsInst lib) := by
  induction n generalizing P with
  | zero => exact Reads.spent
  | succ n ih =>
    unfold parseInstruction
    refine Reads.next (fun t ht => Reads.ite (fun _ => Reads.fail) fun h => ?_) ?_
    · obtain ⟨k, w⟩ := t
      simp only [ne_eq, Decidable.not_not] at h
      subst h
      intro st hi _ j st' h
      obtain ⟨i, s, h1, h2⟩ := SM.bind_eq_ok.1 h
      obtain ⟨t1, rfl, k1⟩ := parseHead_reads (P := Always) lib ih n w st hi trivial i s h1
      have k2 := parseHead_stops lib ih n w _ hi i s h1
      unfold parseFolded at h2
      obtain ⟨u, s', h3, h4⟩ := SM.bind_eq_ok.1 h2
      have hs : s' = s ∧ IsNext u s := by
        rcases s with ⟨_ | ⟨u, us⟩, en⟩
        · cases en
          · cases h3
          · cases h3; exact ⟨rfl, .inr ⟨rfl, rfl⟩⟩
        · cases h3; exact ⟨rfl, .inl rfl⟩
      obtain ⟨rfl, hu⟩ := hs
      by_cases hl : u.type = .openParen
      · rw [if_neg (by simpa using hl)] at h4
        obtain ⟨ps, s2, h5, h6⟩ := SM.bind_eq_ok.1 h4
        cases h6
        have hat : ¬ NotLp s' := by
          intro hn
          rcases hu with hu | ⟨-, rfl⟩
          · exact hn u (by rw [hu]; rfl) hl
          · cases hl
        have k3 := parens_stop _ n s' st' hi.of_push _ ih ps h5
        obtain ⟨t2, rfl, k4⟩ := parseInsts_reads (P := Always) lib ih n s' hi.of_push trivial ps st' h5
        refine ⟨t1 ++ t2, push_push _ _ _, ?_⟩
        rcases k2 with k2 | k2
        · have := IsInst.folded k2 k1 (fun hps => ?_) k4
          · exact this
          · subst hps
            cases k4
            exact hat k3
        · exact absurd k2 hat
      · rw [if_pos hl] at h4
        cases h4
        exact ⟨t1, rfl, .alone k1⟩
    · rw [if_pos (by simp [eos])]
      exact Reads.fail

/-! ## Modules -/

theorem parseGlobal_reads (lib : Lib) (n : Nat) : Reads P (parseGlobal streamOps lib n) (global lib) := by
  unfold parseGlobal
  refine Reads.bind (expectWord_reads _) fun _ t1 h1 => Reads.bind parseOptionalId_reads fun id t2 h2 =>
    Reads.bind (A := fun ty => globalType ty.1 ty.2) ?_ fun ty t3 h3 => Reads.bind (parseInsts_reads lib (parseInstruction_reads lib n) n) fun is t4 h4 =>
    Reads.pure ⟨t1, t2 ++ (t3 ++ t4), by simp, h1, t2, t3 ++ t4, rfl, h2, t3, t4, rfl, h3, h4⟩
  unfold parseGlobalType
  refine Reads.eatLp ?_ ?_
  · refine Reads.bind (expectWord_reads _) fun _ t3 h3 => Reads.bind parseValType_reads fun t t4 h4 => Reads.bind expectRp_reads fun _ t5 h5 =>
      Reads.pure ?_
    have := par_of (A := word (txt "mut") ⬝ val t) ⟨t3, t4, rfl, h3, h4⟩ h5
    simpa [globalType] using this
  · exact Reads.bind parseValType_reads fun t t3 h3 => Reads.pure (by rw [List.append_nil]; exact h3)

/-- What is in a pair of parentheses of a function. -/
def funcItem (lib : Lib) : FuncItem → Lang
  | .local_ t => word (txt "local") ⬝ val t
  | .param p => paramIn p
  | .result r => resultIn r
  | .export_ s => word (txt "export") ⬝ str s
  | .import_ => fun ts => ∃ s s', (word (txt "import") ⬝ str s ⬝ str s') ts
  | .inst i => IsInst lib i

theorem parseFuncItem_reads (lib : Lib) (n : Nat) : Reads P (parseFuncItem streamOps lib n) (funcItem lib) := by
  unfold parseFuncItem
  refine Reads.peek fun t => Reads.ite (fun _ => ?_) fun _ => Reads.ite (fun _ => ?_) fun _ => Reads.ite (fun _ => ?_) fun _ =>
    Reads.ite (fun _ => ?_) fun _ => Reads.ite (fun _ => ?_) fun _ => ?_
  · exact Reads.bind parseLocal_reads fun r t1 h1 => Reads.pure (by rw [List.append_nil]; exact h1)
  · exact Reads.bind (parseParameter_reads n) fun r t1 h1 => Reads.pure (by rw [List.append_nil]; exact h1)
  · exact Reads.bind parseResult_reads fun r t1 h1 => Reads.pure (by rw [List.append_nil]; exact h1)
  · exact Reads.bind parseExport_reads fun r t1 h1 => Reads.pure (by rw [List.append_nil]; exact h1)
  · exact Reads.bind parseImport_reads fun r t1 h1 => Reads.pure (by rw [List.append_nil]; exact h1)
  · exact Reads.bind (parseInstruction_reads lib n) fun r t1 h1 => Reads.pure (by rw [List.append_nil]; exact h1)

theorem isFunc_iff (lib : Lib) (f : Function) (ts : List Sig) :
    IsFunc lib f ts ↔ ∃ items rest a b, f = Function.ofItems f.id items rest ∧ ts = a ++ b ∧
      many (fun i => par (funcItem lib i)) items a ∧ many (IsInst lib) rest b := by
  constructor
  · intro h
    induction h with
    | rest h => exact ⟨[], _, [], _, rfl, rfl, rfl, h⟩
    | local_ hp _ ih =>
      obtain ⟨items, rest, a, b, e, rfl, h1, h2⟩ := ih
      rw [e]
      exact ⟨.local_ _ :: items, rest, _ ++ a, b, rfl, by simp, ⟨_, a, rfl, hp, h1⟩, h2⟩
    | param hp _ ih =>
      obtain ⟨items, rest, a, b, e, rfl, h1, h2⟩ := ih
      rw [e]
      rw [param_par] at hp
      exact ⟨.param _ :: items, rest, _ ++ a, b, rfl, by simp, ⟨_, a, rfl, hp, h1⟩, h2⟩
    | result hp _ ih =>
      obtain ⟨items, rest, a, b, e, rfl, h1, h2⟩ := ih
      rw [e]
      rw [result_par] at hp
      exact ⟨.result _ :: items, rest, _ ++ a, b, rfl, by simp, ⟨_, a, rfl, hp, h1⟩, h2⟩
    | export_ hp _ ih =>
      obtain ⟨items, rest, a, b, e, rfl, h1, h2⟩ := ih
      rw [e]
      exact ⟨.export_ _ :: items, rest, _ ++ a, b, rfl, by simp, ⟨_, a, rfl, hp, h1⟩, h2⟩
    | import_ hp _ ih =>
      obtain ⟨items, rest, a, b, e, rfl, h1, h2⟩ := ih
      rw [e]
      obtain ⟨us, rfl, hus⟩ := par_inv hp
      exact ⟨.import_ :: items, rest, _ ++ a, b, rfl, by simp [inParens], ⟨_, a, rfl, par_of (A := funcItem lib .import_) ⟨_, _, hus⟩ rfl, h1⟩, h2⟩
    | inst hp _ ih =>
      obtain ⟨items, rest, a, b, e, rfl, h1, h2⟩ := ih
      rw [e]
      exact ⟨.inst _ :: items, rest, _ ++ a, b, rfl, by simp, ⟨_, a, rfl, hp, h1⟩, h2⟩
  · rintro ⟨items, rest, a, b, e, rfl, h1, h2⟩
    generalize f.id = id at e
    subst e
    induction items generalizing a with
    | nil => cases h1; exact .rest h2
    | cons x xs ih =>
      obtain ⟨c, d, rfl, h3, h4⟩ := h1
      have k := ih d h4
      rw [List.append_assoc]
      cases x with
      | local_ t => exact .local_ h3 k
      | param p => rw [funcItem, ← param_par] at h3; exact .param h3 k
      | result r => rw [funcItem, ← result_par] at h3; exact .result h3 k
      | export_ s => exact .export_ h3 k
      | import_ =>
        obtain ⟨us, rfl, s, s', hus⟩ := par_inv h3
        exact .import_ (par_of hus rfl) k
      | inst i => exact .inst h3 k

theorem parseFunc_reads (lib : Lib) (n : Nat) : Reads P (parseFunc streamOps lib n) (func lib) := by
  unfold parseFunc
  refine Reads.bind (expectWord_reads _) fun _ t1 h1 => Reads.bind parseOptionalId_reads fun id t2 h2 =>
    Reads.bind (parens_reads (parseFuncItem_reads lib n) n) fun items t3 h3 =>
    Reads.bind (while_reads _ (parseInstruction_reads lib n) n) fun rest t4 h4 => Reads.pure ?_
  exact ⟨t1, t2 ++ (t3 ++ t4), by simp, h1, t2, t3 ++ t4, rfl, h2, (isFunc_iff _ _ _).2 ⟨items, rest, t3, t4, rfl, rfl, h3, h4⟩⟩

/-- What is in a pair of parentheses of a module. -/
def sectionIn (lib : Lib) : Section → Lang
  | .func f => func lib f
  | .type t => typeDef t
  | .table t => table t
  | .global g => global lib g
  | .memory m => memory m

theorem parseSection_reads (lib : Lib) (n : Nat) : Reads P (parseSection streamOps lib n) (sectionIn lib) := by
  unfold parseSection
  refine Reads.peek fun t => Reads.ite (fun _ => ?_) fun _ => Reads.ite (fun _ => ?_) fun _ => Reads.ite (fun _ => ?_) fun _ =>
    Reads.ite (fun _ => ?_) fun _ => Reads.ite (fun _ => ?_) fun _ => Reads.fail
  · exact Reads.bind (parseFunc_reads lib n) fun r t1 h1 => Reads.pure (by rw [List.append_nil]; exact h1)
  · exact Reads.bind (parseType_reads n) fun r t1 h1 => Reads.pure (by rw [List.append_nil]; exact h1)
  · exact Reads.bind (parseTable_reads n) fun r t1 h1 => Reads.pure (by rw [List.append_nil]; exact h1)
  · exact Reads.bind (parseGlobal_reads lib n) fun r t1 h1 => Reads.pure (by rw [List.append_nil]; exact h1)
  · exact Reads.bind parseMemory_reads fun r t1 h1 => Reads.pure (by rw [List.append_nil]; exact h1)

theorem isModule_iff (lib : Lib) (m : Module) (ts : List Sig) :
    IsModule lib m ts ↔ ∃ items, m = Module.ofSections items ∧ many (fun i => par (sectionIn lib i)) items ts := by
  constructor
  · intro h
    induction h with
    | nil => exact ⟨[], rfl, rfl⟩
    | func hp _ ih =>
      obtain ⟨items, rfl, h⟩ := ih
      exact ⟨.func _ :: items, rfl, _, _, rfl, hp, h⟩
    | type hp _ ih =>
      obtain ⟨items, rfl, h⟩ := ih
      exact ⟨.type _ :: items, rfl, _, _, rfl, hp, h⟩
    | table hp _ ih =>
      obtain ⟨items, rfl, h⟩ := ih
      exact ⟨.table _ :: items, rfl, _, _, rfl, hp, h⟩
    | global hp _ ih =>
      obtain ⟨items, rfl, h⟩ := ih
      exact ⟨.global _ :: items, rfl, _, _, rfl, hp, h⟩
    | memory hp _ ih =>
      obtain ⟨items, rfl, h⟩ := ih
      exact ⟨.memory _ :: items, rfl, _, _, rfl, hp, h⟩
  · rintro ⟨items, rfl, h⟩
    induction items generalizing ts with
    | nil => cases h; exact .nil
    | cons x xs ih =>
      obtain ⟨a, b, rfl, h1, h2⟩ := h
      have k := ih b h2
      cases x with
      | func f => exact .func h1 k
      | type t => exact .type h1 k
      | table t => exact .table h1 k
      | global g => exact .global h1 k
      | memory m => exact .memory h1 k

/-- What is in the parentheses of a directive. -/
def directiveIn (lib : Lib) : Directive → Lang
  | .component => tok ⟨.component, txt "component"⟩
  | .module m => tok ⟨.module, txt "module"⟩ ⬝ IsModule lib m

theorem directive_par (lib : Lib) (d : Directive) : directive lib d = par (directiveIn lib d) := by
  cases d <;> rfl

theorem parse_reads (lib : Lib) (n : Nat) : Reads P (parse streamOps lib n) (directive lib) := by
  unfold parse
  refine Reads.bind expectLp_reads fun _ t1 h1 => Reads.bind (A := directiveIn lib) ?_ fun d t2 h2 =>
    Reads.bind expectRp_reads fun _ t3 h3 => Reads.pure ?_
  · unfold parseRoot
    refine Reads.peek fun t => Reads.ite (fun _ => ?_) fun _ => Reads.ite (fun _ => ?_) fun _ => Reads.fail
    · refine Reads.bind (A := fun m => tok ⟨.module, txt "module"⟩ ⬝ IsModule lib m) ?_ fun m t2 h2 => Reads.pure (by rw [List.append_nil]; exact h2)
      unfold parseModule
      refine Reads.bind (expect_reads .module (by simp)) fun _ t2 h2 => Reads.bind (parens_reads (parseSection_reads lib n) n) fun items t3 h3 =>
        Reads.pure ?_
      obtain ⟨⟨k, w⟩, hf, h4, rfl⟩ := h2
      have := hf.module h4
      simp only at this h4
      subst this; subst h4
      exact ⟨_, t3, by simp, rfl, (isModule_iff _ _ _).2 ⟨items, rfl, h3⟩⟩
    · refine Reads.bind (expect_reads .component (by simp)) fun _ t2 h2 => Reads.pure ?_
      obtain ⟨⟨k, w⟩, hf, h4, rfl⟩ := h2
      have := hf.component h4
      simp only at this h4
      subst this; subst h4
      rfl
  · rw [directive_par]
    exact ⟨t1, t2 ++ t3, by simp, h1, t2, t3, rfl, h2, h3⟩

end Verif.Wat.Grammar
