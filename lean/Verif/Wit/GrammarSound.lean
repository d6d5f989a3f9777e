import Verif.Wit.Grammar
import Verif.Wit.StreamStep

/-!
# What the parser accepts is in the grammar
-/

namespace Verif.Wit

open Spec

variable {α β : Type}

/-- Tokens in front of a stream. -/
def Stream.push (s : Stream) (ts : List Sig) : Stream := ⟨ts ++ s.toks, s.ended⟩

theorem push_push (s : Stream) (a b : List Sig) : (s.push b).push a = s.push (a ++ b) := by simp [Stream.push]

theorem push_nil (s : Stream) : s.push [] = s := rfl

/-- From states with `P`, a success of `f` has taken tokens in `C`. -/
def Reads (P : Stream → Prop) (f : SM Stream α) (C : α → Lang) : Prop :=
  ∀ st, P st → ∀ a st', f st = (.ok a, st') → ∃ ts, st = st'.push ts ∧ C a ts

/-- The same if tokens are left. At the end of the text `parseType` succeeds without a token. -/
def ReadsIf (P : Stream → Prop) (f : SM Stream α) (C : α → Lang) : Prop :=
  ∀ st, P st → ∀ a st', f st = (.ok a, st') → ∃ ts, st = st'.push ts ∧ (st'.toks ≠ [] → C a ts)

/-- `f` fails on no token. -/
def Eats (f : SM Stream α) : Prop := ∀ e a st', f ⟨[], e⟩ ≠ (.ok a, st')

/-- Any state. -/
def Always : Stream → Prop := fun _ => True

/-- The next token is not of the given type. -/
def NotAt (k : TokenType) (st : Stream) : Prop := ∀ t ∈ st.toks.head?, t.type ≠ k

/-- The next token. -/
def IsNext (t : Sig) (st : Stream) : Prop := st.toks.head? = some t ∨ st.toks = [] ∧ t = eos

variable {P : Stream → Prop} {f : SM Stream α} {g : α → SM Stream β} {A : α → Lang} {C : β → Lang}

theorem Reads.toIf {C : α → Lang} (h : Reads P f C) : ReadsIf P f C := by
  intro st hp a st' hf
  obtain ⟨ts, e, hc⟩ := h st hp a st' hf
  exact ⟨ts, e, fun _ => hc⟩

theorem Reads.from {C : α → Lang} (h : Reads Always f C) : Reads P f C := fun st _ => h st trivial

theorem ReadsIf.from {C : α → Lang} (h : ReadsIf Always f C) : ReadsIf P f C := fun st _ => h st trivial

theorem Reads.mono {C D : α → Lang} (h : Reads P f C) (k : ∀ a ts, C a ts → D a ts) : Reads P f D := by
  intro st hp a st' hf
  obtain ⟨ts, e, h⟩ := h st hp a st' hf
  exact ⟨ts, e, k a ts h⟩

theorem Reads.pure {C : α → Lang} {a : α} (h : C a []) : Reads P (pure a) C := by
  intro st _ b st' hf
  cases hf
  exact ⟨[], rfl, h⟩

theorem Reads.fail {C : α → Lang} : Reads P (SM.fail : SM Stream α) C := by
  intro st _ b st' hf
  cases hf

theorem Reads.spent {C : α → Lang} : Reads P (spent : SM Stream α) C := by
  intro st _ b st' hf
  cases hf

theorem Reads.bind (hf : Reads P f A) (hg : ∀ a t1, A a t1 → Reads Always (g a) (fun b t2 => C b (t1 ++ t2))) :
    Reads P (f >>= g) C := by
  intro st hp b st' h
  obtain ⟨a, s, h1, h2⟩ := SM.bind_eq_ok.1 h
  obtain ⟨t1, rfl, ha⟩ := hf st hp a s h1
  obtain ⟨t2, rfl, hc⟩ := hg a t1 ha s trivial b st' h2
  exact ⟨t1 ++ t2, push_push _ _ _, hc⟩

theorem push_ne (s : Stream) (ts : List Sig) (h : s.toks ≠ []) : (s.push ts).toks ≠ [] :=
  fun e => h (List.append_eq_nil_iff.1 e).2

theorem ReadsIf.bind (hf : ReadsIf P f A) (hg : ∀ a t1, ReadsIf Always (g a) (fun b t2 => A a t1 → C b (t1 ++ t2))) :
    ReadsIf P (f >>= g) C := by
  intro st hp b st' h
  obtain ⟨a, s, h1, h2⟩ := SM.bind_eq_ok.1 h
  obtain ⟨t1, rfl, ha⟩ := hf st hp a s h1
  obtain ⟨t2, rfl, hc⟩ := hg a t1 s trivial b st' h2
  exact ⟨t1 ++ t2, push_push _ _ _, fun hne => hc hne (ha (push_ne _ _ hne))⟩

theorem Reads.bindIf (hf : ReadsIf P f A) (he : ∀ a, Eats (g a))
    (hg : ∀ a t1, A a t1 → Reads Always (g a) (fun b t2 => C b (t1 ++ t2))) : Reads P (f >>= g) C := by
  intro st hp b st' h
  obtain ⟨a, s, h1, h2⟩ := SM.bind_eq_ok.1 h
  have hs : s.toks ≠ [] := by
    intro hs
    rcases s with ⟨ts, e⟩
    simp only at hs
    subst hs
    exact he a e b st' h2
  obtain ⟨t1, rfl, ha⟩ := hf st hp a s h1
  obtain ⟨t2, rfl, hc⟩ := hg a t1 (ha hs) s trivial b st' h2
  exact ⟨t1 ++ t2, push_push _ _ _, hc⟩

theorem ReadsIf.pure {C : α → Lang} {a : α} (h : C a []) : ReadsIf P (Pure.pure a) C := (Reads.pure h).toIf

theorem Reads.ite {C : α → Lang} {c : Prop} [Decidable c] {g : SM Stream α} (h1 : c → Reads P f C) (h2 : ¬ c → Reads P g C) :
    Reads P (if c then f else g) C := by
  split
  · exact h1 ‹_›
  · exact h2 ‹_›

theorem ReadsIf.ite {C : α → Lang} {c : Prop} [Decidable c] {g : SM Stream α} (h1 : c → ReadsIf P f C) (h2 : ¬ c → ReadsIf P g C) :
    ReadsIf P (if c then f else g) C := by
  split
  · exact h1 ‹_›
  · exact h2 ‹_›

theorem ReadsIf.notAt {A : α → Lang} {k : TokenType} (h : ReadsIf Always f A) :
    ReadsIf (NotAt k) f (fun a => (A a).notBegin k) := by
  intro st hp a st' hf
  obtain ⟨ts, rfl, ha⟩ := h st trivial a st' hf
  refine ⟨ts, rfl, fun hne => ⟨ha hne, fun t ht => hp t ?_⟩⟩
  cases ts with
  | nil => simp at ht
  | cons x xs => simpa [Stream.push] using ht

theorem next_reads : Reads P streamOps.next (fun t ts => ts = [t] ∨ t = eos ∧ ts = []) := by
  rintro ⟨_ | ⟨t, ts⟩, e⟩ _ a st' h
  · cases e
    · cases h
    · cases h
      exact ⟨[], rfl, .inr ⟨rfl, rfl⟩⟩
  · cases h
    exact ⟨[t], rfl, .inl rfl⟩

theorem expect_reads (k : TokenType) (hk : k ≠ .endOfStream) : Reads P (expect streamOps k) (fun _ => T k) := by
  intro st hp a st' h
  rcases st with ⟨_ | ⟨t, ts⟩, e⟩
  · rw [expect_empty e k hk] at h; cases h
  · by_cases ht : t.type = k
    · rw [expect_cons t ts e k ht] at h
      cases h
      refine ⟨[t], rfl, t.capture, ?_⟩
      rw [← ht]
    · rw [expect_not t ts e k ht] at h; cases h

theorem parseId_reads : Reads P (parseId streamOps) ident := by
  intro st hp a st' h
  rcases st with ⟨_ | ⟨t, ts⟩, e⟩
  · rw [parseId_empty e] at h; cases h
  · by_cases ht : t.IsId
    · rw [parseId_cons t ts e ht] at h
      cases h
      refine ⟨[t], rfl, ?_⟩
      rcases ht with h | h
      · left; rw [← h]
      · right; rw [← h]
    · rw [parseId_not t ts e ht] at h; cases h

/-- `expect` and something after it. -/
theorem Reads.expect {k : TokenType} (hk : k ≠ .endOfStream) {g : Unit → SM Stream β}
    (hg : ∀ t1, T k t1 → Reads Always (g ()) (fun b t2 => C b (t1 ++ t2))) : Reads P (Wit.expect streamOps k >>= g) C :=
  Reads.bind (expect_reads k hk) fun _ t1 h => hg t1 h

theorem Reads.ident {g : List Byte → SM Stream β}
    (hg : ∀ w t1, Spec.ident w t1 → Reads Always (g w) (fun b t2 => C b (t1 ++ t2))) : Reads P (parseId streamOps >>= g) C :=
  Reads.bind parseId_reads fun w t1 h => hg w t1 h

theorem Eats.expect {k : TokenType} (hk : k ≠ .endOfStream) {g : Unit → SM Stream β} : Eats (Wit.expect streamOps k >>= g) := by
  intro e a st' h
  rw [SM.bind_err (expect_empty e k hk)] at h
  cases h

/-- `eat` and something after it. -/
theorem Reads.eat {k : TokenType} (hk : k ≠ .endOfStream) {f g : SM Stream β}
    (hf : ∀ t1, T k t1 → Reads Always f (fun b t2 => C b (t1 ++ t2))) (hg : Reads (NotAt k) g C) :
    Reads P (eatTok streamOps k >>= fun b => if b then f else g) C := by
  intro st hp b st' h
  rcases st with ⟨_ | ⟨t, ts⟩, e⟩
  · cases e
    · rw [SM.bind_err (eat_err k)] at h; cases h
    · rw [SM.bind_ok (eat_end k hk), if_neg (by simp)] at h
      exact hg _ (fun t ht => by cases ht) b st' h
  · by_cases ht : t.type = k
    · rw [SM.bind_ok (eat_cons t ts e k ht), if_pos rfl] at h
      obtain ⟨t2, e1, hc⟩ := hf [t] ⟨t.capture, by rw [← ht]⟩ _ trivial b st' h
      refine ⟨[t] ++ t2, ?_, hc⟩
      rw [← push_push, ← e1]
      rfl
    · rw [SM.bind_ok (eat_not t ts e k ht), if_neg (by simp)] at h
      exact hg _ (fun u hu => by cases hu; exact ht) b st' h

theorem ReadsIf.eat {k : TokenType} (hk : k ≠ .endOfStream) {f g : SM Stream β}
    (hf : ∀ t1, T k t1 → ReadsIf Always f (fun b t2 => C b (t1 ++ t2))) (hg : ReadsIf (NotAt k) g C) :
    ReadsIf P (eatTok streamOps k >>= fun b => if b then f else g) C := by
  intro st hp b st' h
  rcases st with ⟨_ | ⟨t, ts⟩, e⟩
  · cases e
    · rw [SM.bind_err (eat_err k)] at h; cases h
    · rw [SM.bind_ok (eat_end k hk), if_neg (by simp)] at h
      exact hg _ (fun t ht => by cases ht) b st' h
  · by_cases ht : t.type = k
    · rw [SM.bind_ok (eat_cons t ts e k ht), if_pos rfl] at h
      obtain ⟨t2, e1, hc⟩ := hf [t] ⟨t.capture, by rw [← ht]⟩ _ trivial b st' h
      refine ⟨[t] ++ t2, ?_, hc⟩
      rw [← push_push, ← e1]
      rfl
    · rw [SM.bind_ok (eat_not t ts e k ht), if_neg (by simp)] at h
      exact hg _ (fun u hu => by cases hu; exact ht) b st' h

theorem peek_at (st : Stream) (t : Sig) (st' : Stream) (h : streamOps.peek st = (.ok t, st')) : st' = st ∧ IsNext t st := by
  rcases st with ⟨_ | ⟨u, us⟩, e⟩
  · cases e
    · cases h
    · cases h
      exact ⟨rfl, .inr ⟨rfl, rfl⟩⟩
  · cases h
    exact ⟨rfl, .inl rfl⟩

theorem Reads.peek {g : Sig → SM Stream β} (hg : ∀ t, Reads (IsNext t) (g t) C) : Reads P (streamOps.peek >>= g) C := by
  intro st hp b st' h
  obtain ⟨t, s, h1, h2⟩ := SM.bind_eq_ok.1 h
  obtain ⟨rfl, hat⟩ := peek_at st t s h1
  exact hg t s hat b st' h2

theorem ReadsIf.peek {g : Sig → SM Stream β} (hg : ∀ t, ReadsIf (IsNext t) (g t) C) : ReadsIf P (streamOps.peek >>= g) C := by
  intro st hp b st' h
  obtain ⟨t, s, h1, h2⟩ := SM.bind_eq_ok.1 h
  obtain ⟨rfl, hat⟩ := peek_at st t s h1
  exact hg t s hat b st' h2

theorem Eats.peek {g : Sig → SM Stream β} (h : Eats (g eos)) : Eats (streamOps.peek >>= g) := by
  intro e a st' h1
  cases e
  · cases h1
  · exact h true a st' h1

theorem Eats.eatIf {k : TokenType} (hk : k ≠ .endOfStream) {f g : SM Stream β} (hg : Eats g) :
    Eats (eatTok streamOps k >>= fun b => if b then f else g) := by
  intro e a st' h
  cases e
  · rw [SM.bind_err (eat_err k)] at h; cases h
  · rw [SM.bind_ok (eat_end k hk), if_neg (by simp)] at h
    exact hg true a st' h

/-! ## Lists -/

theorem untilTok_reads {f : SM Stream α} {A : α → Lang} (k : TokenType) (hk : k ≠ .endOfStream) (hf : Reads Always f A) (n : Nat) :
    Reads P (untilTok streamOps k f n) (fun xs => many A xs ⬝ T k) := by
  induction n generalizing P with
  | zero => exact Reads.spent
  | succ n ih =>
    unfold untilTok
    refine Reads.eat hk (fun t1 h1 => Reads.pure ⟨[], t1, by simp, rfl, h1⟩) ?_
    refine Reads.bind hf.from fun x t1 h1 => Reads.bind ih fun xs t2 h2 => Reads.pure ?_
    obtain ⟨a, b, rfl, ha, hb⟩ := h2
    exact ⟨t1 ++ a, b, by simp, ⟨t1, a, rfl, h1, ha⟩, hb⟩

theorem itemLoop_reads {f : SM Stream α} {A : α → Lang} (k : TokenType) (hk : k ≠ .endOfStream) (hf : ReadsIf (NotAt k) f A) (n : Nat) :
    Reads P (itemLoop streamOps k f n) (fun xs => commas A xs ⬝ T k) := by
  induction n generalizing P with
  | zero => exact Reads.spent
  | succ n ih =>
    unfold itemLoop
    refine Reads.eat hk (fun t1 h1 => Reads.pure ⟨[], t1, by simp, rfl, h1⟩) ?_
    refine Reads.bindIf hf (fun a => Eats.eatIf (by simp) (Eats.expect hk)) fun x t1 h1 => ?_
    refine Reads.eat (by simp) (fun t2 h2 => Reads.bind ih fun xs t3 h3 => Reads.pure ?_) (Reads.expect hk fun t2 h2 => Reads.pure ?_)
    · obtain ⟨a, b, rfl, ha, hb⟩ := h3
      exact ⟨t1 ++ (t2 ++ a), b, by simp, ⟨t1, t2 ++ a, rfl, h1, .inl ⟨t2, a, rfl, h2, ha⟩⟩, hb⟩
    · exact ⟨t1, t2, by simp, ⟨t1, [], by simp, h1, .inr ⟨rfl, rfl⟩⟩, h2⟩

theorem parseItemList_reads {f : SM Stream α} {A : α → Lang} (b k : TokenType) (hb : b ≠ .endOfStream) (hk : k ≠ .endOfStream)
    (hf : ReadsIf (NotAt k) f A) (n : Nat) : Reads P (parseItemList streamOps b k f n) (fun xs => T b ⬝ commas A xs ⬝ T k) :=
  Reads.expect hb fun t1 h1 => (itemLoop_reads k hk hf n).mono fun _ ts h => ⟨t1, ts, rfl, h1, h⟩

/-! ## Types -/

theorem tys_commas (ts : List Ty) : tys ts = commas (fun t => (ty t).notBegin .greater) ts := by
  induction ts with
  | nil => simp [tys, commas]
  | cons t ts ih => rw [tys, commas, ih]

theorem ReadsIf.expect {k : TokenType} (hk : k ≠ .endOfStream) {g : Unit → SM Stream β}
    (hg : ∀ t1, T k t1 → ReadsIf Always (g ()) (fun b t2 => C b (t1 ++ t2))) : ReadsIf P (Wit.expect streamOps k >>= g) C := by
  intro st hp b st' h
  obtain ⟨a, s, h1, h2⟩ := SM.bind_eq_ok.1 h
  obtain ⟨t1, rfl, ha⟩ := expect_reads k hk st hp a s h1
  obtain ⟨t2, rfl, hc⟩ := hg t1 ha s trivial b st' h2
  exact ⟨t1 ++ t2, push_push _ _ _, hc⟩

theorem ReadsIf.ident {g : List Byte → SM Stream β}
    (hg : ∀ w t1, Spec.ident w t1 → ReadsIf Always (g w) (fun b t2 => C b (t1 ++ t2))) : ReadsIf P (parseId streamOps >>= g) C := by
  intro st hp b st' h
  obtain ⟨a, s, h1, h2⟩ := SM.bind_eq_ok.1 h
  obtain ⟨t1, rfl, ha⟩ := parseId_reads st hp a s h1
  obtain ⟨t2, rfl, hc⟩ := hg a t1 ha s trivial b st' h2
  exact ⟨t1 ++ t2, push_push _ _ _, hc⟩

/-- The types of `stream` and `result` after `<`. -/
def pairInner : Option Ty × Option Ty → Lang
  | (none, some b) => T .underscore ⬝ T .comma ⬝ ty b
  | (some a, none) => (ty a).notBegin .underscore
  | (some a, some b) => (ty a).notBegin .underscore ⬝ T .comma ⬝ ty b
  | (none, none) => never

theorem parsePair_reads {f : SM Stream Ty} (hf : ReadsIf Always f ty) :
    Reads P (parsePair streamOps f) (fun p ts => p = (none, none) ∧ ts = [] ∨ (T .less ⬝ pairInner p ⬝ T .greater) ts) := by
  unfold parsePair
  refine Reads.eat (by simp) (fun t1 h1 => ?_) (Reads.pure (.inl ⟨rfl, rfl⟩))
  refine Reads.bindIf (A := pairInner) ?_ (fun _ => Eats.expect (by simp)) fun p t2 h2 => Reads.expect (by simp) fun t3 h3 => Reads.pure ?_
  · unfold parsePairInner
    refine ReadsIf.eat (by simp) (fun t2 h2 => ?_) ?_
    · refine ReadsIf.expect (by simp) fun t3 h3 => ReadsIf.bind hf fun b t4 => ReadsIf.pure fun h4 => ?_
      exact ⟨t2, t3 ++ t4, by simp, h2, t3, t4, rfl, h3, h4⟩
    · refine ReadsIf.bind hf.notAt fun a t2 => ?_
      refine ReadsIf.bind (A := fun s ts => match s with | none => ts = [] | some b => (T .comma ⬝ ty b) ts) ?_ ?_
      · unfold parseSecond
        refine ReadsIf.eat (by simp) (fun t3 h3 => ReadsIf.bind hf fun b t4 => ReadsIf.pure fun h4 => ?_) (ReadsIf.pure rfl)
        exact ⟨t3, t4, by simp, h3, h4⟩
      · rintro (_ | b) t3
        · refine ReadsIf.pure ?_
          rintro rfl h2
          simp only [List.append_nil]
          exact h2
        · refine ReadsIf.pure fun h3 h2 => ⟨t2, t3, by simp, h2, h3⟩
  · exact .inr ⟨t1, t2 ++ t3, by simp, h1, t2, t3, rfl, h2, h3⟩

theorem parseBracketed_reads {f : SM Stream Ty} (hf : ReadsIf Always f ty) :
    Reads P (parseBracketed streamOps f) (fun t => T .less ⬝ ty t ⬝ T .greater) :=
  Reads.expect (by simp) fun t1 h1 => Reads.bindIf hf (fun _ => Eats.expect (by simp)) fun _ t2 h2 =>
    Reads.expect (by simp) fun t3 h3 => Reads.pure ⟨t1, t2 ++ t3, by simp, h1, t2, t3, rfl, h2, h3⟩

theorem parseHandle_reads : Reads P (parseHandle streamOps) (fun w => T .less ⬝ ident w ⬝ T .greater) :=
  Reads.expect (by simp) fun t1 h1 => Reads.ident fun _ t2 h2 =>
    Reads.expect (by simp) fun t3 h3 => Reads.pure ⟨t1, t2 ++ t3, by simp, h1, t2, t3, rfl, h2, h3⟩

theorem parseFuture_reads {f : SM Stream Ty} (hf : ReadsIf Always f ty) :
    Reads P (parseFuture streamOps f) (fun r ts => match r with | none => ts = [] | some t => (T .less ⬝ ty t ⬝ T .greater) ts) :=
  Reads.eat (by simp) (fun t1 h1 => Reads.bindIf hf (fun _ => Eats.expect (by simp)) fun _ t2 h2 =>
    Reads.expect (by simp) fun t3 h3 => Reads.pure ⟨t1, t2 ++ t3, by simp, h1, t2, t3, rfl, h2, h3⟩) (Reads.pure rfl)

theorem typeOf_reads {f : SM Stream Ty} (hf : ReadsIf Always f ty) (n : Nat) (tok : Sig) :
    ReadsIf P (parseTypeOf streamOps f n tok) (fun t ts => ty t (tok :: ts)) := by
  have ht : ∀ {k}, tok.type = k → T k [tok] := fun h => ⟨tok.capture, by rw [← h]⟩
  have hcat : ∀ {k} {A : Lang} {ts}, tok.type = k → A ts → (T k ⬝ A) (tok :: ts) := fun h ha => ⟨[tok], _, rfl, ht h, ha⟩
  unfold parseTypeOf
  refine ReadsIf.ite (fun h => ReadsIf.pure (by rw [ty]; exact ht h)) fun n1 => ?_
  refine ReadsIf.ite (fun h => ReadsIf.pure (by rw [ty]; exact ht h)) fun n2 => ?_
  refine ReadsIf.ite (fun h => ReadsIf.pure (by rw [ty]; exact ht h)) fun n3 => ?_
  refine ReadsIf.ite (fun h => ReadsIf.pure (by rw [ty]; exact ht h)) fun n4 => ?_
  refine ReadsIf.ite (fun h => (Reads.bind (parsePair_reads hf) fun p ts hp => Reads.pure ?_).toIf) fun n5 => ?_
  · rcases hp with ⟨rfl, rfl⟩ | hp
    · simp only [List.append_nil]; rw [ty]; exact ht h
    · rw [List.append_nil]
      obtain ⟨t1, t2, rfl, h1, t3, t4, rfl, h3, h4⟩ := hp
      rcases p with ⟨_ | a, _ | b⟩
      · exact h3.elim
      · rw [ty]
        obtain ⟨t5, t6, rfl, h5, t7, t8, rfl, h7, h8⟩ := h3
        exact hcat h ⟨t1, _, rfl, h1, t5, t7 ++ (t8 ++ t4), by simp, h5, t7, _, rfl, h7, t8, t4, rfl, h8, h4⟩
      · rw [ty]
        exact hcat h ⟨t1, _, rfl, h1, t3, t4, rfl, h3, h4⟩
      · rw [ty]
        obtain ⟨t5, t6, rfl, h5, t7, t8, rfl, h7, h8⟩ := h3
        exact hcat h ⟨t1, _, rfl, h1, t5, t7 ++ (t8 ++ t4), by simp, h5, t7, _, rfl, h7, t8, t4, rfl, h8, h4⟩
  refine ReadsIf.ite (fun h => (Reads.bind (parseFuture_reads hf) fun p ts hp => Reads.pure ?_).toIf) fun n6 => ?_
  · rw [List.append_nil]
    cases p with
    | none => simp only at hp; subst hp; rw [ty]; exact ht h
    | some t => rw [ty]; exact hcat h hp
  refine ReadsIf.ite (fun h => (Reads.bind (parseBracketed_reads hf) fun p ts hp => Reads.pure ?_).toIf) fun n7 => ?_
  · rw [List.append_nil, ty]; exact hcat h hp
  refine ReadsIf.ite (fun h => (Reads.bind (parseBracketed_reads hf) fun p ts hp => Reads.pure ?_).toIf) fun n8 => ?_
  · rw [List.append_nil, ty]; exact hcat h hp
  refine ReadsIf.ite (fun h => (Reads.bind (parsePair_reads hf) fun p ts hp => Reads.pure ?_).toIf) fun n9 => ?_
  · rcases hp with ⟨rfl, rfl⟩ | hp
    · simp only [List.append_nil]; rw [ty]; exact ht h
    · rw [List.append_nil]
      obtain ⟨t1, t2, rfl, h1, t3, t4, rfl, h3, h4⟩ := hp
      rcases p with ⟨_ | a, _ | b⟩
      · exact h3.elim
      · rw [ty]
        obtain ⟨t5, t6, rfl, h5, t7, t8, rfl, h7, h8⟩ := h3
        exact hcat h ⟨t1, _, rfl, h1, t5, t7 ++ (t8 ++ t4), by simp, h5, t7, _, rfl, h7, t8, t4, rfl, h8, h4⟩
      · rw [ty]
        exact hcat h ⟨t1, _, rfl, h1, t3, t4, rfl, h3, h4⟩
      · rw [ty]
        obtain ⟨t5, t6, rfl, h5, t7, t8, rfl, h7, h8⟩ := h3
        exact hcat h ⟨t1, _, rfl, h1, t5, t7 ++ (t8 ++ t4), by simp, h5, t7, _, rfl, h7, t8, t4, rfl, h8, h4⟩
  refine ReadsIf.ite (fun h => (Reads.bind (parseItemList_reads .less .greater (by simp) (by simp) hf.notAt n) fun p ts hp => Reads.pure ?_).toIf) fun n10 => ?_
  · rw [List.append_nil, ty, tys_commas]; exact hcat h hp
  refine ReadsIf.ite (fun h => (Reads.bind parseHandle_reads fun p ts hp => Reads.pure ?_).toIf) fun n11 => ?_
  · rw [List.append_nil, ty]; exact hcat h hp
  refine ReadsIf.ite (fun h => (Reads.bind parseHandle_reads fun p ts hp => Reads.pure ?_).toIf) fun n12 => ?_
  · rw [List.append_nil, ty]; exact hcat h hp
  refine ReadsIf.pure ?_
  rw [ty]
  exact ⟨tok.type, by simp only [typeWords, List.mem_cons, List.not_mem_nil, or_false, not_or]; exact ⟨n1, n2, n3, n4, n5, n6, n7, n8, n9, n10, n11, n12⟩, rfl⟩

theorem type_reads (n : Nat) : ReadsIf P (parseType streamOps n) ty := by
  induction n generalizing P with
  | zero => exact Reads.spent.toIf
  | succ n ih =>
    intro st _ a st' h
    obtain ⟨tok, s, h1, h2⟩ := SM.bind_eq_ok.1 h
    obtain ⟨t2, rfl, hc⟩ := typeOf_reads (P := Always) ih n tok s trivial a st' h2
    rcases st with ⟨_ | ⟨t, ts⟩, e⟩
    · cases e
      · cases h1
      · have e1 : st'.push t2 = ⟨[], true⟩ := (congrArg Prod.snd h1).symm
        refine ⟨t2, e1.symm, fun hne => absurd (congrArg Stream.toks e1) (push_ne _ _ hne)⟩
    · have e1 : st'.push t2 = ⟨ts, e⟩ := (congrArg Prod.snd h1).symm
      have e2 : t = tok := by injection congrArg Prod.fst h1
      subst e2
      refine ⟨t :: t2, ?_, hc⟩
      change _ = st'.push ([t] ++ t2)
      rw [← push_push, e1]
      rfl

/-! ## Functions -/

theorem parameter_reads (n : Nat) : ReadsIf P (parseParameter streamOps n) parameter :=
  ReadsIf.ident fun _ t1 h1 => ReadsIf.expect (by simp) fun t2 h2 => ReadsIf.bind (type_reads n) fun _ t3 => ReadsIf.pure fun h3 =>
    ⟨t1, t2 ++ t3, by simp, h1, t2, t3, rfl, h2, h3⟩

theorem parameterLoop_reads (n k : Nat) : Reads P (parameterLoop streamOps n k) (fun ps => commas parameter ps ⬝ T .closeParen) := by
  induction k generalizing P with
  | zero => exact Reads.spent
  | succ k ih =>
    unfold parameterLoop
    refine Reads.eat (by simp) (fun t1 h1 => Reads.pure ⟨[], t1, by simp, rfl, h1⟩) ?_
    refine Reads.bindIf (parameter_reads n) (fun a => Eats.peek ?_) fun x t1 h1 => Reads.peek fun t => ?_
    · intro e a st' h
      cases h
    · refine Reads.ite (fun _ => Reads.expect (by simp) fun t2 h2 => Reads.bind ih fun xs t3 h3 => Reads.pure ?_)
        fun _ => Reads.ite (fun _ => Reads.expect (by simp) fun t2 h2 => Reads.pure ?_) fun _ => Reads.fail
      · obtain ⟨a, b, rfl, ha, hb⟩ := h3
        exact ⟨t1 ++ (t2 ++ a), b, by simp, ⟨t1, t2 ++ a, rfl, h1, .inl ⟨t2, a, rfl, h2, ha⟩⟩, hb⟩
      · exact ⟨t1, t2, by simp, ⟨t1, [], by simp, h1, .inr ⟨rfl, rfl⟩⟩, h2⟩

theorem parameters_reads (n : Nat) : Reads P (parseParameters streamOps n) parameters :=
  Reads.expect (by simp) fun t1 h1 => (parameterLoop_reads n n).mono fun _ ts h => ⟨t1, ts, rfl, h1, h⟩

theorem IsNext.notAt {t : Sig} {k : TokenType} {st : Stream} (h : IsNext t st) (hk : t.type ≠ k) : NotAt k st := by
  intro u hu
  rcases h with h | ⟨h, -⟩
  · rw [h] at hu; cases hu; exact hk
  · rw [h] at hu; cases hu

theorem results_reads (n : Nat) : ReadsIf P (parseResults streamOps n) results := by
  unfold parseResults
  refine ReadsIf.eat (by simp) (fun t1 h1 => ReadsIf.peek fun t => ?_) (ReadsIf.pure (.inl ⟨rfl, rfl⟩))
  refine ReadsIf.ite (fun _ => (Reads.bind (parameters_reads n) fun ps t2 h2 => Reads.pure ?_).toIf) fun hn => ?_
  · exact .inr ⟨t1, t2, by simp, h1, h2⟩
  · have h : ReadsIf (IsNext t) (parseType streamOps n) (fun a => (ty a).notBegin .openParen) := fun st hs =>
      (ReadsIf.notAt (type_reads n)) st (hs.notAt hn)
    exact ReadsIf.bind h fun a t2 => ReadsIf.pure fun h2 => ⟨[], _, rfl, ⟨rfl, rfl⟩, t1, t2, by simp, h1, h2⟩

theorem func_reads (n : Nat) : ReadsIf P (parseFunc streamOps n) func :=
  ReadsIf.expect (by simp) fun t1 h1 => ReadsIf.bind (parameters_reads n).toIf fun _ t2 => ReadsIf.bind (results_reads n) fun _ t3 =>
    ReadsIf.pure fun h3 h2 => ⟨t1, t2 ++ t3, by simp, h1, t2, t3, rfl, h2, h3⟩

theorem funcItem_reads (n : Nat) : Reads P (parseFuncItem streamOps n) funcItem :=
  Reads.ident fun _ t1 h1 => Reads.expect (by simp) fun t2 h2 => Reads.bindIf (func_reads n) (fun _ => Eats.expect (by simp)) fun _ t3 h3 =>
    Reads.expect (by simp) fun t4 h4 => Reads.pure ⟨t1, t2 ++ (t3 ++ t4), by simp, h1, t2, _, rfl, h2, t3, t4, rfl, h3, h4⟩

/-! ## Type definitions -/

theorem typeItem_reads (n : Nat) : Reads P (parseTypeItem streamOps n) typeDef :=
  Reads.expect (by simp) fun t1 h1 => Reads.ident fun _ t2 h2 => Reads.expect (by simp) fun t3 h3 =>
    Reads.bindIf (type_reads n) (fun _ => Eats.expect (by simp)) fun _ t4 h4 => Reads.expect (by simp) fun t5 h5 =>
      Reads.pure ⟨t1, t2 ++ (t3 ++ (t4 ++ t5)), by simp, h1, t2, _, rfl, h2, t3, _, rfl, h3, t4, t5, rfl, h4, h5⟩

theorem recordField_reads (n : Nat) : ReadsIf P (parseRecordField streamOps n) field :=
  ReadsIf.ident fun _ t1 h1 => ReadsIf.expect (by simp) fun t2 h2 => ReadsIf.bind (type_reads n) fun _ t3 => ReadsIf.pure fun h3 =>
    ⟨t1, t2 ++ t3, by simp, h1, t2, t3, rfl, h2, h3⟩

theorem record_reads (n : Nat) : Reads P (parseRecord streamOps n) typeDef :=
  Reads.expect (by simp) fun t1 h1 => Reads.ident fun _ t2 h2 =>
    Reads.bind (parseItemList_reads .openBrace .closeBrace (by simp) (by simp) (recordField_reads n) n) fun _ t3 h3 =>
      Reads.pure ⟨t1, t2 ++ t3, by simp, h1, t2, t3, rfl, h2, h3⟩

theorem flags_reads (n : Nat) : Reads P (parseFlags streamOps n) typeDef :=
  Reads.expect (by simp) fun t1 h1 => Reads.ident fun _ t2 h2 =>
    Reads.bind (parseItemList_reads .openBrace .closeBrace (by simp) (by simp) parseId_reads.toIf n) fun _ t3 h3 =>
      Reads.pure ⟨t1, t2 ++ t3, by simp, h1, t2, t3, rfl, h2, h3⟩

theorem enum_reads (n : Nat) : Reads P (parseEnum streamOps n) typeDef :=
  Reads.expect (by simp) fun t1 h1 => Reads.ident fun _ t2 h2 =>
    Reads.bind (parseItemList_reads .openBrace .closeBrace (by simp) (by simp) parseId_reads.toIf n) fun _ t3 h3 =>
      Reads.pure ⟨t1, t2 ++ t3, by simp, h1, t2, t3, rfl, h2, h3⟩

theorem variantCase_reads (n : Nat) : Reads P (parseVariantCase streamOps n) case_ := by
  refine Reads.ident fun w t1 h1 => Reads.bind (A := fun r ts => match r with
    | none => ts = []
    | some t => (T .openParen ⬝ ty t ⬝ T .closeParen) ts) ?_ ?_
  · exact Reads.eat (by simp) (fun t1 h1 => Reads.bindIf (type_reads n) (fun _ => Eats.expect (by simp)) fun _ t2 h2 =>
      Reads.expect (by simp) fun t3 h3 => Reads.pure ⟨t1, t2 ++ t3, by simp, h1, t2, t3, rfl, h2, h3⟩) (Reads.pure rfl)
  · rintro (_ | t) t2 h2
    · simp only at h2
      subst h2
      exact Reads.pure (by simpa [case_] using h1)
    · exact Reads.pure ⟨t1, t2, by simp, h1, h2⟩

theorem variant_reads (n : Nat) : Reads P (parseVariant streamOps n) typeDef :=
  Reads.expect (by simp) fun t1 h1 => Reads.ident fun _ t2 h2 =>
    Reads.bind (parseItemList_reads .openBrace .closeBrace (by simp) (by simp) (variantCase_reads n).toIf n) fun _ t3 h3 =>
      Reads.pure ⟨t1, t2 ++ t3, by simp, h1, t2, t3, rfl, h2, h3⟩

theorem staticOrMethod_reads (n : Nat) : Reads P (parseStaticOrMethod streamOps n) method := by
  intro st _ m st' h
  rcases static_or_method n st with ⟨i, c, t, rest, hs, hi, hc, ht, e⟩ | e | e
  · rw [e] at h
    obtain ⟨ts, e1, hm⟩ := (Reads.bindIf (P := Always) (C := fun m ts => (ident i.capture ⬝ T .colon ⬝ T .static) [i, c, t] → method m ([i, c, t] ++ ts))
      (func_reads n) (fun _ => Eats.expect (by simp)) fun f t1 h1 =>
        Reads.expect (by simp) fun t2 h2 => Reads.pure fun hp => by
          obtain ⟨a, b, e0, ha, b1, b2, rfl, hb1, hb2⟩ := hp
          rw [e0]
          exact ⟨a, b1 ++ (b2 ++ (t1 ++ t2)), by simp, ha, b1, _, rfl, hb1, b2, _, rfl, hb2, t1, t2, rfl, h1, h2⟩) _ trivial m st' h
    refine ⟨[i, c, t] ++ ts, ?_, hm ?_⟩
    · rw [← push_push, ← e1]
      rcases st with ⟨st, b⟩
      simp only at hs
      subst hs
      rfl
    · refine ⟨[i], [c, t], rfl, ?_, [c], [t], rfl, ⟨c.capture, by rw [← hc]⟩, ⟨t.capture, by rw [← ht]⟩⟩
      rcases hi with h | h
      · left; rw [← h]
      · right; rw [← h]
  · rw [e] at h
    have hr : Reads Always ((do
        let f ← parseFuncItem streamOps n
        pure (.method [] f)) : SM Stream ResourceMethod) method :=
      Reads.bind (funcItem_reads n) fun f t1 h1 => Reads.pure ⟨[], t1, by simp, ⟨rfl, rfl⟩, h1⟩
    exact hr st trivial m st' h
  · rw [h] at e
    cases e

theorem resourceMethod_reads (n : Nat) : Reads P (parseResourceMethod streamOps n) method :=
  Reads.eat (by simp) (fun t1 h1 => Reads.bind (parameters_reads n) fun _ t2 h2 => Reads.expect (by simp) fun t3 h3 =>
    Reads.pure ⟨t1, t2 ++ t3, by simp, h1, t2, t3, rfl, h2, h3⟩) (staticOrMethod_reads n)

theorem methodLoop_reads (n k : Nat) : Reads P (methodLoop streamOps n k) (many method) := by
  induction k generalizing P with
  | zero => exact Reads.spent
  | succ k ih =>
    exact Reads.peek fun t => Reads.ite (fun _ => Reads.bind (resourceMethod_reads n) fun _ t1 h1 => Reads.bind ih fun _ t2 h2 =>
      Reads.pure ⟨t1, t2, by simp, h1, h2⟩) fun _ => Reads.pure rfl

theorem resource_reads (n : Nat) : Reads P (parseResource streamOps n) typeDef := by
  refine Reads.expect (by simp) fun t1 h1 => Reads.ident fun w t2 h2 => Reads.bind (A := fun ms =>
    T .openBrace ⬝ many method ms ⬝ T .closeBrace ∣∣ only (ms = []) ⬝ T .semicolon ∣∣ only (ms = [])) ?_ fun ms t3 h3 => Reads.pure ?_
  · refine Reads.peek fun t => Reads.ite (fun _ => Reads.expect (by simp) fun t1 h1 => Reads.pure ?_) fun _ =>
      Reads.ite (fun _ => Reads.expect (by simp) fun t1 h1 => Reads.bind (methodLoop_reads n n) fun ms t2 h2 => Reads.expect (by simp) fun t3 h3 => Reads.pure ?_)
        fun _ => Reads.pure ?_
    · exact .inr (.inl ⟨[], t1, by simp, ⟨rfl, rfl⟩, h1⟩)
    · exact .inl ⟨t1, t2 ++ t3, by simp, h1, t2, t3, rfl, h2, h3⟩
    · exact .inr (.inr ⟨rfl, rfl⟩)
  · exact ⟨t1, t2 ++ t3, by simp, h1, t2, t3, rfl, h2, h3⟩

theorem typeDef_reads (n : Nat) : Reads P (parseTypeDef streamOps n) typeDef :=
  Reads.peek fun _ => Reads.ite (fun _ => resource_reads n) fun _ => Reads.ite (fun _ => variant_reads n) fun _ =>
    Reads.ite (fun _ => record_reads n) fun _ => Reads.ite (fun _ => flags_reads n) fun _ => Reads.ite (fun _ => enum_reads n) fun _ =>
    Reads.ite (fun _ => typeItem_reads n) fun _ => Reads.fail

/-! ## Paths and uses -/

theorem usePath_reads : Reads P (parseUsePath streamOps) path := by
  refine Reads.ident fun w t1 h1 => Reads.eat (by simp) (fun t2 h2 => ?_) (Reads.pure ⟨[], t1, by simp, ⟨⟨rfl, rfl⟩, rfl⟩, h1⟩)
  unfold parsePath
  exact Reads.ident fun _ _ _ => Reads.expect (by simp) fun _ _ => Reads.ident fun _ _ _ => Reads.bind (A := fun _ => never) Reads.fail
    fun _ _ h => h.elim

theorem as_reads : Reads P (parseAs streamOps) as_ :=
  Reads.eat (by simp) (fun t1 h1 => Reads.ident fun _ t2 h2 => Reads.pure ⟨t1, t2, by simp, h1, h2⟩) (Reads.pure rfl)

theorem useName_reads : Reads P (parseUseName streamOps) useName :=
  Reads.ident fun _ t1 h1 => Reads.bind as_reads fun _ t2 h2 => Reads.pure ⟨t1, t2, by simp, h1, h2⟩

theorem use_reads (n : Nat) : Reads P (parseUse streamOps n) use := by
  refine Reads.expect (by simp) fun t1 h1 => Reads.bind usePath_reads fun _ t2 h2 => Reads.expect (by simp) fun t3 h3 =>
    Reads.bind (parseItemList_reads .openBrace .closeBrace (by simp) (by simp) useName_reads.toIf n) fun _ t4 h4 =>
      Reads.expect (by simp) fun t5 h5 => Reads.pure ?_
  obtain ⟨a, b, rfl, ha, c, d, rfl, hc, hd⟩ := h4
  exact ⟨t1, t2 ++ (t3 ++ (a ++ (c ++ (d ++ t5)))), by simp, h1, t2, _, rfl, h2, t3, _, rfl, h3, a, _, rfl, ha, c, _, rfl, hc, d, t5, rfl, hd, h5⟩

theorem include_reads (n : Nat) : Reads P (parseInclude streamOps n) include_ := by
  refine Reads.expect (by simp) fun t1 h1 => Reads.bind usePath_reads fun _ t2 h2 => Reads.bind (A := fun ns =>
    T .with ⬝ T .openBrace ⬝ many includeName ns ⬝ T .closeBrace ∣∣ only (ns = []) ⬝ T .semicolon) ?_ fun ns t3 h3 =>
      Reads.pure ⟨t1, t2 ++ t3, by simp, h1, t2, t3, rfl, h2, h3⟩
  refine Reads.eat (by simp) (fun t1 h1 => Reads.expect (by simp) fun t2 h2 => (untilTok_reads (A := includeName) .closeBrace (by simp) ?_ n).mono
    fun ns ts h => .inl ⟨t1, t2 ++ ts, rfl, h1, t2, ts, rfl, h2, h⟩)
    (Reads.expect (by simp) fun t1 h1 => Reads.pure (.inr ⟨[], t1, by simp, ⟨rfl, rfl⟩, h1⟩))
  exact Reads.ident fun _ t1 h1 => Reads.expect (by simp) fun t2 h2 => Reads.ident fun _ t3 h3 => Reads.pure
    ⟨t1, t2 ++ t3, by simp, h1, t2, t3, rfl, h2, h3⟩

/-! ## Interfaces and worlds -/

theorem Reads.map {f : SM Stream α} {A : α → Lang} {w : α → β} {C : β → Lang} (hf : Reads P f A) (h : ∀ a ts, A a ts → C (w a) ts) :
    Reads P (f >>= fun a => Pure.pure (w a)) C :=
  Reads.bind hf fun a t1 h1 => Reads.pure (by simpa using h a t1 h1)

theorem interfaceItem_reads (n : Nat) : Reads P (parseInterfaceItem streamOps n) interfaceItem :=
  Reads.peek fun _ => Reads.ite (fun _ => Reads.map (use_reads n) fun _ _ h => h) fun _ =>
    Reads.ite (fun _ => Reads.map (resource_reads n) fun _ _ h => h) fun _ =>
    Reads.ite (fun _ => Reads.map (record_reads n) fun _ _ h => h) fun _ =>
    Reads.ite (fun _ => Reads.map (flags_reads n) fun _ _ h => h) fun _ =>
    Reads.ite (fun _ => Reads.map (variant_reads n) fun _ _ h => h) fun _ =>
    Reads.ite (fun _ => Reads.map (enum_reads n) fun _ _ h => h) fun _ =>
    Reads.ite (fun _ => Reads.map (typeDef_reads n) fun _ _ h => h) fun _ => Reads.map (funcItem_reads n) fun _ _ h => h

theorem interfaceItems_reads (n : Nat) : Reads P (parseInterfaceItems streamOps n) interfaceItems :=
  Reads.expect (by simp) fun t1 h1 => (untilTok_reads .closeBrace (by simp) (interfaceItem_reads n) n).mono fun _ ts h => ⟨t1, ts, rfl, h1, h⟩

theorem externRest_reads (n : Nat) (id : List Byte) (t0 : List Sig) (h0 : (ident id ⬝ T .colon) t0) :
    Reads P (externRest n id) (fun x ts => externType x (t0 ++ ts)) := by
  obtain ⟨a, b, rfl, ha, hb⟩ := h0
  refine Reads.peek fun _ => Reads.ite (fun _ => Reads.bindIf (func_reads n) (fun _ => Eats.expect (by simp)) fun _ t1 h1 =>
    Reads.expect (by simp) fun t2 h2 => Reads.pure ⟨a, b ++ (t1 ++ t2), by simp, ha, b, _, rfl, hb, t1, t2, rfl, h1, h2⟩) fun _ =>
    Reads.ite (fun _ => Reads.expect (by simp) fun t1 h1 => Reads.bind (interfaceItems_reads n) fun _ t2 h2 => Reads.pure
      ⟨a, b ++ (t1 ++ t2), by simp, ha, b, _, rfl, hb, t1, t2, rfl, h1, h2⟩) fun _ => Reads.fail

theorem externType_reads (n : Nat) : Reads P (parseExternType streamOps n) externType := by
  intro st _ x st' h
  rcases extern_cases n st with ⟨i, c, rest, hs, hi, hc, e⟩ | e | e
  · rw [e] at h
    obtain ⟨ts, e1, hx⟩ := externRest_reads (P := Always) n i.capture [i, c] ⟨[i], [c], rfl, by
      rcases hi with h | h
      · left; rw [← h]
      · right; rw [← h], c.capture, by rw [← hc]⟩ _ trivial x st' h
    refine ⟨[i, c] ++ ts, ?_, hx⟩
    rw [← push_push, ← e1]
    rcases st with ⟨st, b⟩
    simp only at hs
    subst hs
    rfl
  · rw [e] at h
    exact Reads.bind (P := Always) (C := externType) usePath_reads (fun p t1 h1 => Reads.expect (by simp) fun t2 h2 =>
      Reads.pure ⟨t1, t2, by simp, h1, h2⟩) st trivial x st' h
  · rw [h] at e
    cases e

/-- What a success of `f` can be. -/
def Yields (f : SM Stream α) (Q : α → Prop) : Prop := ∀ st a st', f st = (.ok a, st') → Q a

theorem Reads.and {f : SM Stream α} {A : α → Lang} {Q : α → Prop} (hf : Reads P f A) (hq : Yields f Q) :
    Reads P f (fun a => only (Q a) ⬝ A a) := by
  intro st hp a st' h
  obtain ⟨ts, e, ha⟩ := hf st hp a st' h
  exact ⟨ts, e, [], ts, rfl, ⟨hq st a st' h, rfl⟩, ha⟩

theorem Yields.last {f : SM Stream α} {w : α → β} {Q : β → Prop} (h : ∀ a, Q (w a)) : Yields (f >>= fun a => Pure.pure (w a)) Q := by
  intro st b st' e
  obtain ⟨a, s, -, h2⟩ := SM.bind_eq_ok.1 e
  cases h2
  exact h a

theorem Yields.bind {f : SM Stream α} {g : α → SM Stream β} {Q : β → Prop} (h : ∀ a, Yields (g a) Q) : Yields (f >>= g) Q := by
  intro st b st' e
  obtain ⟨a, s, -, h2⟩ := SM.bind_eq_ok.1 e
  exact h a s b st' h2

theorem worldTypeDef_reads (n : Nat) (t : Sig) (ht : t.type = .type) :
    Reads (IsNext t) (parseTypeDef streamOps n) (fun d => only (InWorld d) ⬝ typeDef d) := by
  intro st hs a st' h
  obtain ⟨u, s, h1, h2⟩ := SM.bind_eq_ok.1 h
  obtain ⟨rfl, hu⟩ := peek_at st u s h1
  have e : u = t := by
    rcases hs with e | ⟨e, e'⟩
    · rcases hu with e1 | ⟨e1, -⟩
      · exact Option.some.inj (e1.symm.trans e)
      · rw [e1] at e; cases e
    · subst e'; cases ht
  subst e
  simp only [ht, if_neg (by simp : ¬ TokenType.type = .resource), if_neg (by simp : ¬ TokenType.type = .variant),
    if_neg (by simp : ¬ TokenType.type = .record), if_neg (by simp : ¬ TokenType.type = .flags),
    if_neg (by simp : ¬ TokenType.type = .enum), if_pos] at h2
  exact ((typeItem_reads (P := Always) n).and (Yields.bind fun _ => Yields.bind fun _ => Yields.bind fun _ => Yields.bind fun _ =>
    Yields.last fun _ => trivial)) s trivial a st' h2

theorem worldItem_reads (n : Nat) : Reads P (parseWorldItem streamOps n) worldItem := by
  refine Reads.peek fun t => Reads.ite (fun _ => Reads.map (A := fun e => T .export ⬝ externType e) ?_ fun _ _ h => h) fun _ =>
    Reads.ite (fun _ => Reads.map (A := fun e => T .import ⬝ externType e) ?_ fun _ _ h => h) fun _ =>
    Reads.ite (fun _ => Reads.map (use_reads n) fun _ _ h => h) fun _ =>
    Reads.ite (fun ht => Reads.map (worldTypeDef_reads n t ht) fun _ _ h => h) fun _ =>
    Reads.ite (fun _ => Reads.map ((record_reads n).and ?_) fun _ _ h => h) fun _ =>
    Reads.ite (fun _ => Reads.map ((variant_reads n).and ?_) fun _ _ h => h) fun _ =>
    Reads.ite (fun _ => Reads.map ((resource_reads n).and ?_) fun _ _ h => h) fun _ =>
    Reads.ite (fun _ => Reads.map (include_reads n) fun _ _ h => h) fun _ => Reads.fail
  · exact Reads.expect (by simp) fun t1 h1 => (externType_reads n).mono fun _ ts h => ⟨t1, ts, rfl, h1, h⟩
  · exact Reads.expect (by simp) fun t1 h1 => (externType_reads n).mono fun _ ts h => ⟨t1, ts, rfl, h1, h⟩
  · exact Yields.bind fun _ => Yields.bind fun _ => Yields.last fun _ => trivial
  · exact Yields.bind fun _ => Yields.bind fun _ => Yields.last fun _ => trivial
  · exact Yields.bind fun _ => Yields.bind fun _ => Yields.last fun _ => trivial

/-! ## Documents -/

theorem integer_reads : Reads P (parseInteger streamOps) (fun i => number (BitVec.ofInt 64 i)) := by
  intro st _ i st' h
  obtain ⟨t, s, h1, h2⟩ := SM.bind_eq_ok.1 h
  obtain ⟨ts, rfl, ht⟩ := next_reads (P := Always) st trivial t s h1
  by_cases hi : t.type = .integer
  · rw [if_pos hi] at h2
    have e : Strconv.parseInt t.capture 32 = .ok i := congrArg Prod.fst h2
    have e' : s = st' := congrArg Prod.snd h2
    subst e'
    rcases ht with rfl | ⟨rfl, -⟩
    · exact ⟨[t], rfl, t.capture, i, e, rfl, by rw [← hi]⟩
    · cases hi
  · rw [if_neg hi] at h2
    cases h2

theorem packageVersion_reads : Reads P (parsePackageVersion streamOps) version := by
  refine Reads.eat (by simp) (fun t1 h1 => Reads.map (A := fun v => only (v.pre = [] ∧ v.build = []) ⬝
    number v.major ⬝ T .period ⬝ number v.minor ⬝ T .period ⬝ number v.patch) ?_ fun v ts h => ?_) (Reads.pure rfl)
  · exact Reads.bind integer_reads fun _ t1 h1 => Reads.expect (by simp) fun t2 h2 => Reads.bind integer_reads fun _ t3 h3 =>
      Reads.expect (by simp) fun t4 h4 => Reads.bind integer_reads fun _ t5 h5 => Reads.pure
        ⟨[], _, rfl, ⟨⟨rfl, rfl⟩, rfl⟩, t1, t2 ++ (t3 ++ (t4 ++ t5)), by simp, h1, t2, _, rfl, h2, t3, _, rfl, h3, t4, t5, rfl, h4, h5⟩
  · obtain ⟨a, b, rfl, ⟨ha, rfl⟩, hb⟩ := h
    exact ⟨[], t1 ++ b, rfl, ⟨ha, rfl⟩, t1, b, rfl, h1, hb⟩

theorem nextIf_reads : ReadsIf P streamOps.next (fun t ts => ts = [t]) := by
  rintro ⟨_ | ⟨t, ts⟩, e⟩ _ a st' h
  · cases e
    · cases h
    · cases h
      exact ⟨[], rfl, fun h => absurd rfl h⟩
  · cases h
    exact ⟨[t], rfl, fun _ => rfl⟩

theorem packageDeclaration_reads (tok : Sig) (h : tok.type = .package) :
    Reads P (parsePackageDeclaration streamOps) (fun p ts => package (some p) (tok :: ts)) := by
  refine Reads.bindIf nextIf_reads (fun _ => Eats.expect (by simp)) fun ns t1 h1 => Reads.expect (by simp) fun t2 h2 =>
    Reads.ident fun _ t3 h3 => Reads.bind packageVersion_reads fun _ t4 h4 => Reads.expect (by simp) fun t5 h5 => Reads.pure ?_
  subst h1
  exact ⟨[tok], [ns] ++ (t2 ++ (t3 ++ (t4 ++ t5))), by simp, ⟨tok.capture, by rw [← h]⟩, [ns], _, rfl, ⟨ns.type, rfl⟩, t2, _, rfl, h2,
    t3, _, rfl, h3, t4, t5, rfl, h4, h5⟩

theorem astItem_reads (n : Nat) (tok : Sig) : Reads P (parseAstItem streamOps n tok) (fun i ts => itemOrToken i (tok :: ts)) := by
  have ht : ∀ {k}, tok.type = k → T k [tok] := fun h => ⟨tok.capture, by rw [← h]⟩
  refine Reads.ite (fun h => Reads.map (A := fun u ts => topLevelUse u (tok :: ts)) ?_ fun _ _ h => h) fun n1 =>
    Reads.ite (fun h => Reads.map (A := fun u ts => world u (tok :: ts)) ?_ fun _ _ h => h) fun n2 =>
    Reads.ite (fun h => Reads.map (A := fun u ts => interface u (tok :: ts)) ?_ fun _ _ h => h) fun n3 => Reads.pure ?_
  · exact Reads.bind usePath_reads fun _ t1 h1 => Reads.bind as_reads fun _ t2 h2 => Reads.pure
      ⟨[tok], t1 ++ t2, by simp, ht h, t1, t2, rfl, h1, h2⟩
  · exact Reads.ident fun _ t1 h1 => Reads.expect (by simp) fun t2 h2 => Reads.bind (untilTok_reads .closeBrace (by simp) (worldItem_reads n) n)
      fun _ t3 h3 => Reads.pure ⟨[tok], t1 ++ (t2 ++ t3), by simp, ht h, t1, _, rfl, h1, t2, t3, rfl, h2, h3⟩
  · exact Reads.ident fun _ t1 h1 => Reads.bind (interfaceItems_reads n) fun _ t2 h2 => Reads.pure
      ⟨[tok], t1 ++ t2, by simp, ht h, t1, t2, rfl, h1, h2⟩
  · exact ⟨tok, by simp only [List.mem_cons, List.not_mem_nil, or_false, not_or]; exact ⟨n1, n2, n3⟩, rfl⟩

/-- The next token, or the end of the text. -/
theorem streamNext_cases (st s : Stream) (t : Sig) (h : streamOps.next st = (.ok t, s)) :
    st = s.push [t] ∨ s = st ∧ st = ⟨[], true⟩ ∧ t = eos := by
  rcases st with ⟨_ | ⟨u, us⟩, e⟩
  · cases e
    · cases h
    · cases h
      exact .inr ⟨rfl, rfl, rfl⟩
  · cases h
    exact .inl rfl

theorem astLoop_reads (n k : Nat) (tok : Sig) (htok : tok.type ≠ .endOfStream) (st st' : Stream) (is : List AstItem)
    (hst : ∀ t ∈ st.toks, t.type ≠ .endOfStream) (h : astLoop streamOps n k tok st = (.ok is, st')) :
    st' = ⟨[], true⟩ ∧ ∃ ts, st = st'.push ts ∧ many itemOrToken is (tok :: ts) := by
  induction k generalizing tok st is with
  | zero => cases h
  | succ k ih =>
    unfold astLoop at h
    rw [if_pos htok] at h
    obtain ⟨i, s1, h1, h⟩ := SM.bind_eq_ok.1 h
    obtain ⟨t, s2, h2, h⟩ := SM.bind_eq_ok.1 h
    obtain ⟨js, s3, h3, h⟩ := SM.bind_eq_ok.1 h
    cases h
    obtain ⟨t1, rfl, hi⟩ := astItem_reads (P := Always) n tok st trivial i s1 h1
    rcases streamNext_cases s1 s2 t h2 with rfl | ⟨rfl, rfl, rfl⟩
    · obtain ⟨e1, t2, rfl, hj⟩ := ih t (hst t (by simp [Stream.push])) s2 js (fun u hu => hst u (by simp [Stream.push, hu])) h3
      refine ⟨e1, t1 ++ ([t] ++ t2), by rw [push_push, push_push, List.append_assoc], ?_⟩
      exact ⟨tok :: t1, [t] ++ t2, by simp, hi, hj⟩
    · cases k with
      | zero => cases h3
      | succ k =>
        unfold astLoop at h3
        rw [if_neg (by simp [eos])] at h3
        cases h3
        exact ⟨rfl, t1, rfl, tok :: t1, [], by simp, hi, rfl⟩

/-- A text the parser accepts has no lexical error, and its tokens are a document with other tokens between its items. -/
theorem parseAst_reads (n : Nat) (st st' : Stream) (a : Ast) (hst : ∀ t ∈ st.toks, t.type ≠ .endOfStream)
    (h : parseAst streamOps n st = (.ok a, st')) : st.ended = true ∧ documentOrTokens a st.toks := by
  obtain ⟨tok, s1, h1, h⟩ := SM.bind_eq_ok.1 h
  obtain ⟨p, s2, h2, h⟩ := SM.bind_eq_ok.1 h
  obtain ⟨is, s3, h3, h⟩ := SM.bind_eq_ok.1 h
  cases h
  have empty : ∀ s js s', astLoop streamOps n n eos s = (.ok js, s') → js = [] := by
    intro s js s' h
    cases n with
    | zero => cases h
    | succ n => unfold astLoop at h; rw [if_neg (by simp [eos])] at h; cases h; rfl
  by_cases hp : tok.type = .package
  · unfold parseAstPackage at h2
    rw [if_pos hp] at h2
    obtain ⟨d, s4, h4, h2⟩ := SM.bind_eq_ok.1 h2
    obtain ⟨t, s5, h5, h2⟩ := SM.bind_eq_ok.1 h2
    cases h2
    rcases streamNext_cases st s1 tok h1 with rfl | ⟨rfl, rfl, rfl⟩
    · obtain ⟨t1, rfl, hd⟩ := packageDeclaration_reads (P := Always) tok hp s1 trivial d s4 h4
      rcases streamNext_cases s4 s2 t h5 with rfl | ⟨rfl, rfl, rfl⟩
      · obtain ⟨e1, t2, rfl, hj⟩ := astLoop_reads n n t (hst t (by simp [Stream.push])) s2 _ is (fun u hu => hst u (by simp [Stream.push, hu])) h3
        subst e1
        exact ⟨rfl, tok :: t1, t :: t2, by simp [Stream.push], hd, hj⟩
      · obtain rfl := empty _ _ _ h3
        exact ⟨rfl, tok :: t1, [], by simp [Stream.push], hd, rfl⟩
    · cases hp
  · unfold parseAstPackage at h2
    rw [if_neg hp] at h2
    cases h2
    rcases streamNext_cases st s1 tok h1 with rfl | ⟨rfl, rfl, rfl⟩
    · obtain ⟨e1, t2, rfl, hj⟩ := astLoop_reads n n tok (hst tok (by simp [Stream.push])) s1 _ is (fun u hu => hst u (by simp [Stream.push, hu])) h3
      subst e1
      exact ⟨rfl, [], tok :: t2, by simp [Stream.push], rfl, hj⟩
    · obtain rfl := empty _ _ _ h3
      exact ⟨rfl, [], [], rfl, rfl, rfl⟩

end Verif.Wit
