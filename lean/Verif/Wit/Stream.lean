import Verif.Wit.LexRun
import Verif.Wit.ParseSim

/-!
# The tokens a parser sees

A text as the parser sees it: the tokens that are neither white space nor comments, and whether an end of stream or a
lexical error follows.
-/

namespace Verif.Wit

variable [Unicode]

/-- Tokens, followed by the end of the text or by a lexical error. -/
structure Stream where
  toks : List Sig
  ended : Bool
  deriving DecidableEq, Repr

/-- The end of stream token. -/
def eos : Sig := ⟨.endOfStream, []⟩

/-- Reading from a list of tokens. -/
def streamOps : Ops Stream where
  peek := fun st => match st.toks with
    | t :: _ => (.ok t, st)
    | [] => if st.ended then (.ok eos, st) else (.err, st)
  next := fun st => match st.toks with
    | t :: ts => (.ok t, { st with toks := ts })
    | [] => if st.ended then (.ok eos, st) else (.err, st)

/-- The tokens `Next` returns, at most `n` of them, without white space and comments. -/
def collect : Nat → Lexer → Stream
  | 0, _ => ⟨[], false⟩
  | n + 1, l =>
    match nextTok l with
    | (.ok t, l') =>
      if t.type = .endOfStream then ⟨[], true⟩
      else if t.type.isTrivia then collect n l'
      else ⟨t.sig :: (collect n l').toks, (collect n l').ended⟩
    | _ => ⟨[], false⟩

/-- The tokens of a text. -/
def significant (text : List Byte) : Stream := collect (text.length + 1) (Lexer.new text)

/-- What is left to read, in tokens at most. -/
def left (l : Lexer) : Nat := l.input.length - l.position + if l.peekToken.isSome then 1 else 0

/-- A lexer as its callers can have it. -/
structure Ready (l : Lexer) : Prop where
  inv : Inv l
  peeked : ∀ t, l.peekToken = some t → t.type = .endOfStream → l.position = l.input.length

theorem ready_new (text : List Byte) : Ready (Lexer.new text) := ⟨inv_new text, fun t h => by simp [Lexer.new] at h⟩

/-- One call of `Next`. -/
theorem next_cases (l : Lexer) (h : Ready l) :
    ((nextTok l).1 = .err ∧ l.peekToken = none) ∨
    ∃ t l', nextTok l = (.ok t, l') ∧ Ready l' ∧ l'.input = l.input ∧ l'.peekToken = none ∧
      (t.type = .endOfStream → l'.position = l.input.length) ∧ (t.type ≠ .endOfStream → left l' < left l) := by
  cases hp : l.peekToken with
  | some t =>
    refine .inr ⟨t, { l with peekToken := none }, by simp [nextTok, hp], ?_, rfl, rfl, ?_, ?_⟩
    · exact ⟨⟨h.inv.le, h.inv.bound, h.inv.line, h.inv.column⟩, fun t h => by simp at h⟩
    · intro ht; exact h.peeked t hp ht
    · intro _; simp [left, hp]
  | none =>
    obtain ⟨i1, i2, i3, k⟩ := lexNext_inv l h.inv
    rw [nextTok_fresh l hp]
    rcases k with ⟨he, -⟩ | ⟨t, ht, ho, hle, hcap, -, -, -, -, heos, hne⟩
    · exact .inl ⟨he, rfl⟩
    · refine .inr ⟨t, (lexNext l).2, Prod.ext ht rfl, ⟨i1, fun u hu => ?_⟩, i2, i3.trans hp, ?_, ?_⟩
      · rw [i3, hp] at hu; cases hu
      · intro hk; rw [← ho]; exact heos hk
      · intro hk
        have h1 := hne hk
        have h2 := i1.bound
        rw [i2] at h2
        simp only [left, i2, i3, hp]
        omega

theorem collect_end (l : Lexer) (h : Ready l) (hp : l.peekToken = none) (he : l.position = l.input.length) (n : Nat) :
    collect (n + 1) l = ⟨[], true⟩ := by
  rcases next_cases l h with ⟨h1, -⟩ | ⟨t, l', h1, h2, h3, -, -, h5⟩
  · rw [nextTok_fresh l hp] at h1
    have hn : l.input[l.position]? = none := by rw [he]; simp
    obtain ⟨-, -, -, k⟩ := lexNext_inv l h.inv
    rcases k with ⟨-, -, k⟩ | ⟨t, ht, -⟩
    · have := (lexNext_inv l h.inv).1.bound
      rw [(lexNext_inv l h.inv).2.1] at this
      omega
    · rw [ht] at h1; cases h1
  · rw [collect, h1]
    by_cases hk : t.type = .endOfStream
    · simp [hk]
    · have := h5 hk
      simp [left, hp, he] at this

/-- The bound of `collect` does not matter. -/
theorem collect_bound (l : Lexer) (h : Ready l) (n m : Nat) (hn : left l < n) (hm : left l < m) : collect n l = collect m l := by
  induction n generalizing l m with
  | zero => omega
  | succ n ih =>
    cases m with
    | zero => omega
    | succ m =>
      rcases next_cases l h with ⟨h1, -⟩ | ⟨t, l', h1, h2, h3, -, -, h5⟩
      · rw [collect, collect]
        rcases hx : nextTok l with ⟨r, l'⟩
        rw [hx] at h1
        simp only at h1
        subst h1
        rfl
      · rw [collect, collect, h1]
        by_cases hk : t.type = .endOfStream
        · simp [hk]
        · have := h5 hk
          have e := ih l' h2 m (by omega) (by omega)
          simp only [e]

/-- The lexer will give the tokens of the stream. -/
structure Gives (st : Stream) (l : Lexer) : Prop where
  ready : Ready l
  gives : collect (left l + 1) l = st

theorem gives_new (text : List Byte) : Gives (significant text) (Lexer.new text) := by
  refine ⟨ready_new text, ?_⟩
  exact collect_bound _ (ready_new text) _ _ (by omega) (by simp [left, Lexer.new])

theorem left_le (l : Lexer) : left l ≤ l.input.length + 1 := by
  unfold left; split <;> omega

theorem nextLoop_gives (l : Lexer) (h : Ready l) (n : Nat) (hn : left l < n) :
    match collect (left l + 1) l with
    | ⟨[], false⟩ => (nextLoop n l).1 = .err
    | ⟨[], true⟩ => (nextLoop n l).1 = .ok eos ∧ Gives ⟨[], true⟩ (nextLoop n l).2
    | ⟨t :: ts, e⟩ => (nextLoop n l).1 = .ok t ∧ Gives ⟨ts, e⟩ (nextLoop n l).2 := by
  induction n generalizing l with
  | zero => omega
  | succ n ih =>
    rw [nextLoop]
    rcases next_cases l h with ⟨h1, -⟩ | ⟨t, l', h1, h2, h3, hp, h4, h5⟩
    · rcases hx : nextTok l with ⟨r, l'⟩
      rw [hx] at h1
      simp only at h1
      subst h1
      rw [collect, hx]
      simp only
      rw [SM.bind_err hx]
    · rw [SM.bind_ok h1, collect, h1]
      by_cases hk : t.type = .endOfStream
      · simp only [if_pos hk, hk]
        have he := h4 hk
        refine ⟨?_, ?_⟩
        · simp [TokenType.isTrivia, Token.sig, hk, eos]
        · simp only [TokenType.isTrivia, Bool.false_eq_true, if_false, SM.pure_def]
          exact ⟨h2, collect_end l' h2 hp (by rw [h3]; exact he) _⟩
      · have hl := h5 hk
        have e := collect_bound l' h2 (left l) (left l' + 1) (by omega) (by omega)
        simp only [if_neg hk]
        rw [e]
        by_cases ht : t.type.isTrivia = true
        · rw [if_pos ht, if_pos ht]
          exact ih l' h2 (by omega)
        · rw [if_neg ht, if_neg ht]
          exact ⟨rfl, h2, rfl⟩

/-- One call of `Peek`. -/
theorem peek_cases (l : Lexer) (h : Ready l) (t : Token) (l' : Lexer) (hn : nextTok l = (.ok t, l')) :
    ∃ l1, peekCaught l = (.ok t, l1) ∧ Ready l1 ∧ l1.input = l.input ∧ nextTok l1 = nextTok l := by
  cases hp : l.peekToken with
  | some u =>
    have : (nextTok l) = (.ok u, { l with peekToken := none }) := by simp [nextTok, hp]
    rw [hn] at this
    cases this
    exact ⟨l, by simp [peekCaught, peekTok, hp], h, rfl, rfl⟩
  | none =>
    have hf := nextTok_fresh l hp
    rw [hf] at hn
    obtain ⟨i1, i2, i3, k⟩ := lexNext_inv l h.inv
    rw [hn] at i1 i2 i3 k
    simp only at i1 i2 i3
    refine ⟨{ l' with peekToken := some t }, ?_, ⟨⟨i1.le, i1.bound, i1.line, i1.column⟩, ?_⟩, i2, ?_⟩
    · simp [peekCaught, peekTok, hp, hn]
    · intro u hu ht
      simp only [Option.some.injEq] at hu
      subst hu
      rcases k with ⟨he, -⟩ | ⟨u, hu, ho, -, -, -, -, -, -, heos, -⟩
      · cases he
      · cases hu
        simp only at ho
        show l'.position = l'.input.length
        rw [← ho, i2]
        exact heos ht
    · have : nextTok { l' with peekToken := some t } = (.ok t, { l' with peekToken := none }) := rfl
      rw [this, hf, hn]
      have hl : ({ l' with peekToken := none } : Lexer) = l' := by
        rw [hp] at i3
        cases l'
        simp only at i3
        subst i3
        rfl
      rw [hl]

theorem peekLoop_gives (l : Lexer) (h : Ready l) (n : Nat) (hn : left l < n) :
    match collect (left l + 1) l with
    | ⟨[], false⟩ => (peekLoop n l).1 = .err
    | ⟨[], true⟩ => (peekLoop n l).1 = .ok eos ∧ Gives ⟨[], true⟩ (peekLoop n l).2
    | ⟨t :: ts, e⟩ => (peekLoop n l).1 = .ok t ∧ Gives ⟨t :: ts, e⟩ (peekLoop n l).2 := by
  induction n generalizing l with
  | zero => omega
  | succ n ih =>
    rw [peekLoop]
    rcases next_cases l h with ⟨h1, hp⟩ | ⟨t, l', h1, h2, h3, hp, h4, h5⟩
    · rcases hx : nextTok l with ⟨r, l'⟩
      rw [hx] at h1
      simp only at h1
      subst h1
      rw [collect, hx]
      simp only
      have hc : peekCaught l = (.err, l') := by
        rw [nextTok_fresh l hp] at hx
        simp [peekCaught, peekTok, hp, hx]
      rw [SM.bind_err hc]
    · obtain ⟨l1, k1, k2, k3, k4⟩ := peek_cases l h t l' h1
      have same : ∀ m, collect m l1 = collect m l := by
        intro m
        cases m with
        | zero => rfl
        | succ m => rw [collect, collect, k4]
      have hc : collect (left l1 + 1) l1 = collect (left l + 1) l := by
        rw [collect_bound l1 k2 _ (left l + left l1 + 1) (by omega) (by omega), same]
        exact collect_bound l h _ _ (by omega) (by omega)
      rw [SM.bind_ok k1]
      by_cases ht : t.type.isTrivia = true
      · rw [if_pos ht]
        have hk : t.type ≠ .endOfStream := by intro hk; simp [hk, TokenType.isTrivia] at ht
        have hl := h5 hk
        have e := collect_bound l' h2 (left l) (left l' + 1) (by omega) (by omega)
        rw [SM.bind_ok (k4.trans h1), collect, h1]
        simp only [if_neg hk, if_pos ht]
        rw [e]
        exact ih l' h2 (by omega)
      · rw [if_neg ht]
        rcases hs : collect (left l + 1) l with ⟨ts, e⟩
        have hg : Gives ⟨ts, e⟩ l1 := ⟨k2, hc.trans hs⟩
        rw [collect, h1] at hs
        simp only [if_neg ht] at hs
        by_cases hk : t.type = .endOfStream
        · simp only [if_pos hk] at hs
          injection hs with hs1 hs2
          subst hs1; subst hs2
          exact ⟨by simp [Token.sig, hk, eos], hg⟩
        · simp only [if_neg hk] at hs
          injection hs with hs1 hs2
          subst hs1
          exact ⟨rfl, hg⟩

/-- The lexer reads as its stream does. -/
theorem lexOps_sim : OpsSim Gives streamOps lexOps := by
  constructor
  · intro st l h _
    have k := peekLoop_gives l h.ready (l.input.length + 3) (by have := left_le l; omega)
    rw [h.gives] at k
    rcases st with ⟨_ | ⟨t, ts⟩, e⟩
    · cases e
      · exact ⟨k.symm, fun a ha => by simp [streamOps] at ha⟩
      · exact ⟨k.1.symm, fun a ha => k.2⟩
    · exact ⟨k.1.symm, fun a ha => k.2⟩
  · intro st l h _
    have k := nextLoop_gives l h.ready (l.input.length + 3) (by have := left_le l; omega)
    rw [h.gives] at k
    rcases st with ⟨_ | ⟨t, ts⟩, e⟩
    · cases e
      · exact ⟨k.symm, fun a ha => by simp [streamOps] at ha⟩
      · exact ⟨k.1.symm, fun a ha => k.2⟩
    · exact ⟨k.1.symm, fun a ha => k.2⟩

end Verif.Wit
