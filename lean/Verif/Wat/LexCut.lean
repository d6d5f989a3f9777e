import Verif.Wat.Render

/-!
# The tokens of a text do not depend on what follows
-/

namespace Verif.Wat

open Spec

/-- All tokens of a text up to its end or the first error, white space and comments too. -/
inductive Pieces : List Byte → List Sig → Prop
  | stop {w : List Byte} : (first w = none ∨ ∃ n, first w = some (.endOfStream, n)) → Pieces w []
  | more {c rest : List Byte} {ty ty' : TokenType} {ps : List Sig} : first (c ++ rest) = some (ty, c.length) → ty ≠ .endOfStream →
    classify ty c = .ok ty' → Pieces rest ps → Pieces (c ++ rest) (⟨ty', c⟩ :: ps)

/-- The text of tokens. -/
def sigText (ps : List Sig) : List Byte := (ps.map (·.capture)).flatten

theorem first_nonempty (c rest : List Byte) (ty : TokenType) (h : first (c ++ rest) = some (ty, c.length)) (he : ty ≠ .endOfStream) : c ≠ [] := by
  rintro rfl
  cases rest with
  | nil => simp [first] at h; exact he h.symm
  | cons b w =>
    have := first_pos (b :: w) (by simp) ty 0 h
    omega

theorem pieces_exist (w : List Byte) : ∃ ps, Pieces w ps ∧ ps.length ≤ w.length := by
  induction w using (measure List.length).wf.induction with
  | _ w ih =>
  cases h : first w with
  | none => exact ⟨[], .stop (.inl h), Nat.zero_le _⟩
  | some x =>
    obtain ⟨ty, n⟩ := x
    by_cases he : ty = .endOfStream
    · subst he
      exact ⟨[], .stop (.inr ⟨n, h⟩), Nat.zero_le _⟩
    · have hle := first_le w ty n h
      have e : first (w.take n ++ w.drop n) = some (ty, (w.take n).length) := by
        rw [List.take_append_drop, List.length_take, Nat.min_eq_left hle, h]
      have hne := first_nonempty _ _ ty e he
      have hlen : 0 < (w.take n).length := List.length_pos_iff.2 hne
      rw [List.length_take] at hlen
      obtain ⟨ps, h1, h2⟩ := ih (w.drop n) (by simp [InvImage, WellFoundedRelation.rel]; omega)
      obtain ⟨ty', hc, -⟩ := classify_ok ty (w.take n)
      refine ⟨⟨ty', w.take n⟩ :: ps, ?_, ?_⟩
      · have := Pieces.more e he hc h1
        rwa [List.take_append_drop] at this
      · simp only [List.length_cons, List.length_drop] at h2 ⊢
        omega

theorem pieces_unique (w : List Byte) (ps qs : List Sig) (h1 : Pieces w ps) (h2 : Pieces w qs) : ps = qs := by
  induction h1 generalizing qs with
  | stop h =>
    cases h2 with
    | stop _ => rfl
    | more h3 h4 _ _ => rcases h with h | ⟨n, h⟩ <;> rw [h3] at h <;> cases h; exact absurd rfl h4
  | @more c rest ty ty' ps h h' hc hr ih =>
    generalize hw : c ++ rest = w at h h2
    cases h2 with
    | stop h3 => rcases h3 with h3 | ⟨n, h3⟩ <;> rw [h3] at h <;> cases h; exact absurd rfl h'
    | @more c2 rest2 ty2 ty2' ps2 g g' gc gr =>
      rw [g] at h
      simp only [Option.some.injEq, Prod.mk.injEq] at h
      obtain ⟨rfl, hl⟩ := h
      obtain ⟨rfl, rfl⟩ := List.append_inj hw hl.symm
      rw [gc] at hc
      cases hc
      rw [ih _ gr]

theorem pieces_text (w : List Byte) (ps : List Sig) (h : Pieces w ps) : sigText ps <+: w := by
  induction h with
  | stop _ => exact List.nil_prefix
  | more _ _ _ _ ih =>
    simp only [sigText, List.map_cons, List.flatten_cons]
    exact (List.prefix_append_right_inj _).2 ih

theorem classify_end (ty : TokenType) (c : List Byte) (ty' : TokenType) (h : classify ty c = .ok ty') (he : ty ≠ .endOfStream) : ty' ≠ .endOfStream := by
  obtain ⟨u, hu, h1, -⟩ := classify_ok ty c
  rw [h] at hu
  cases hu
  exact fun k => he (h1.1 k)

theorem pieces_collect (w : List Byte) (ps : List Sig) (h : Pieces w ps) (l : Lexer) (hl : Fresh l w) (n : Nat) (hn : ps.length < n) :
    (collect n l).toks = ps.filter fun t => !t.type.isTrivia := by
  induction h generalizing l n with
  | stop h =>
    cases n with
    | zero => simp at hn
    | succ n =>
      rcases h with h | ⟨k, h⟩
      · have := lexNext_at l (Nat.le_of_eq hl.offset) hl.ready.inv.bound
        rw [hl.rest, h] at this
        obtain ⟨p, -, -, e⟩ := this
        rw [collect, nextTok_fresh l hl.peek, e]
        rfl
      · have := lexNext_at l (Nat.le_of_eq hl.offset) hl.ready.inv.bound
        rw [hl.rest, h] at this
        obtain ⟨ty', hc, e⟩ := this
        rw [classify_other _ _ (by simp)] at hc
        cases hc
        rw [collect, nextTok_fresh l hl.peek, e]
        rfl
  | @more c rest ty ty' ps hf he hc hr ih =>
    cases n with
    | zero => simp at hn
    | succ n =>
      obtain ⟨l', k1, k2⟩ := collect_cons l c rest hl ty ty' hf hc (classify_end _ _ _ hc he) n
      rw [k2, List.filter_cons]
      simp only [List.length_cons] at hn
      cases ht : ty'.isTrivia
      · simp [ih l' k1 n (by omega)]
      · simp [ih l' k1 n (by omega)]

theorem pieces_significant (w : List Byte) (ps : List Sig) (h : Pieces w ps) : (significant w).toks = ps.filter fun t => !t.type.isTrivia := by
  obtain ⟨qs, h1, h2⟩ := pieces_exist w
  rw [pieces_unique w ps qs h h1]
  exact pieces_collect w qs h1 _ (fresh_new _) _ (by omega)

theorem run_append (p : Byte → Bool) (c r : List Byte) (h : run p (c ++ r) < c.length) (r' : List Byte) : run p (c ++ r') = run p (c ++ r) := by
  induction c with
  | nil => simp at h
  | cons b c ih =>
    simp only [run, List.cons_append, List.takeWhile_cons] at *
    split
    · rename_i hb
      simp only [hb, if_true, List.length_cons] at h ⊢
      rw [ih (by omega)]
    · rfl

theorem closing_cons (b b' : Byte) (w : List Byte) :
    closing (b :: b' :: w) = if b = ch ';' ∧ b' = ch ')' then some 2 else (closing (b' :: w)).map (· + 1) := by
  rw [closing]
  simp only [List.head?_cons, Option.some.injEq]

theorem closing_append (c r : List Byte) (n : Nat) (h : closing (c ++ r) = some n) (hn : n ≤ c.length) (r' : List Byte) :
    closing (c ++ r') = some n := by
  induction c generalizing n with
  | nil =>
    exfalso
    simp at hn
    subst hn
    cases r with
    | nil => simp [closing] at h
    | cons b w =>
      simp only [List.nil_append, closing] at h
      split at h
      · simp at h
      · simp at h
  | cons b c ih =>
    cases c with
    | nil =>
      exfalso
      simp only [List.cons_append, closing] at h
      simp only [List.length_cons, List.length_nil, List.nil_append] at hn h
      split at h
      · simp at h; omega
      · simp only [Option.map_eq_some_iff] at h
        obtain ⟨m, h1, rfl⟩ := h
        obtain ⟨p, hp, -⟩ := closing_some r m h1
        have : (r.take m).length ≤ m := by simp; omega
        rw [hp] at this
        simp [txt] at this
        omega
    | cons b' c =>
      simp only [List.cons_append] at h ⊢
      rw [closing_cons] at h ⊢
      by_cases hb : b = ch ';' ∧ b' = ch ')'
      · rw [if_pos hb] at h ⊢
        exact h
      · rw [if_neg hb] at h ⊢
        simp only [Option.map_eq_some_iff] at h ⊢
        obtain ⟨m, h1, rfl⟩ := h
        exact ⟨m, ih m h1 (by simp only [List.length_cons] at hn ⊢; omega), rfl⟩

/-- The first token depends on its text and the next byte. -/
theorem first_append (c : List Byte) (x : Byte) (r r' : List Byte) (ty : TokenType) (h : first (c ++ x :: r) = some (ty, c.length))
    (he : ty ≠ .endOfStream) : first (c ++ x :: r') = some (ty, c.length) := by
  cases c with
  | nil => exact absurd rfl (first_nonempty _ _ ty h he)
  | cons b c =>
    have rn : ∀ p, run p (c ++ x :: r) ≤ c.length → run p (c ++ x :: r') = run p (c ++ x :: r) := by
      intro p hp
      have := run_append p (c ++ [x]) r (by simpa using Nat.lt_succ_of_le hp) r'
      simpa using this
    have hh : (c ++ x :: r).head? = (c ++ x :: r').head? := by cases c <;> rfl
    simp only [List.cons_append, List.length_cons] at h ⊢
    rw [first] at h ⊢
    rw [← hh]
    by_cases h1 : isSpace b = true
    · rw [if_pos h1] at h ⊢
      simp only [Option.some.injEq, Prod.mk.injEq] at h ⊢
      rw [rn _ (by omega)]
      exact h
    rw [if_neg h1] at h ⊢
    by_cases h2 : b = ch '('
    · rw [if_pos h2] at h ⊢
      split at h
      · rename_i h3
        rw [if_pos h3]
        cases hc : closing (c ++ x :: r).tail with
        | none =>
          rw [hc] at h
          simp only [Option.some.injEq, Prod.mk.injEq] at h
          exact absurd h.1.symm he
        | some n =>
          rw [hc] at h
          simp only [Option.some.injEq, Prod.mk.injEq] at h
          have : closing (c ++ x :: r').tail = some n := by
            cases c with
            | nil => simp at h; omega
            | cons b' c =>
              simp only [List.cons_append, List.tail_cons, List.length_cons] at hc h ⊢
              exact closing_append c (x :: r) n hc (by omega) _
          rw [this]
          simp only [Option.some.injEq, Prod.mk.injEq]
          exact h
      · rename_i h3
        rw [if_neg h3]
        exact h
    rw [if_neg h2] at h ⊢
    by_cases h3 : b = ch ')'
    · rw [if_pos h3] at h ⊢
      exact h
    rw [if_neg h3] at h ⊢
    by_cases h4 : b = ch '"'
    · rw [if_pos h4] at h ⊢
      simp only at h ⊢
      split at h
      · rename_i h5
        simp only [Option.some.injEq, Prod.mk.injEq] at h
        rw [rn _ (by omega), if_pos (by simp; omega)]
        simp only [Option.some.injEq, Prod.mk.injEq]
        exact h
      · simp only [Option.some.injEq, Prod.mk.injEq] at h
        exact absurd h.1.symm he
    rw [if_neg h4] at h ⊢
    by_cases h5 : b = ch ';'
    · rw [if_pos h5] at h ⊢
      split at h
      · rename_i h6
        rw [if_pos h6]
        simp only at h ⊢
        split at h
        · rename_i h7
          simp only [Option.some.injEq, Prod.mk.injEq] at h
          cases c with
          | nil => simp at h
          | cons b' c =>
            simp only [List.cons_append, List.tail_cons, List.length_cons] at h h7
            have := run_append (· != ch '\n') (c ++ [x]) r (by simp; omega) r'
            simp only [List.append_assoc, List.singleton_append] at this
            have hlt : run (· != ch '\n') (b' :: c ++ x :: r').tail < (b' :: c ++ x :: r').tail.length := by
              simp only [List.cons_append, List.tail_cons]
              rw [this]
              simp
              omega
            rw [if_pos hlt]
            simp only [List.cons_append, List.tail_cons, List.length_cons, this, Option.some.injEq, Prod.mk.injEq]
            exact h
        · simp only [Option.some.injEq, Prod.mk.injEq] at h
          exact absurd h.1.symm he
      · rename_i h6
        rw [if_neg (by simp)] at h
        cases h
    rw [if_neg h5] at h ⊢
    by_cases h6 : isIdChar b = true
    · rw [if_pos h6] at h ⊢
      simp only [Option.some.injEq, Prod.mk.injEq] at h ⊢
      rw [rn _ (by omega)]
      exact h
    · rw [if_neg h6] at h
      cases h

/-- What comes after a closing parenthesis does not change the tokens up to it. -/
theorem pieces_concat (w : List Byte) (p q : List Sig) (x : List Byte) (h : Pieces w (p ++ ⟨.closeParen, x⟩ :: q)) :
    x = txt ")" ∧ (∃ r, w = sigText p ++ ch ')' :: r) ∧
      ∀ r q', Pieces r q' → Pieces (sigText p ++ ch ')' :: r) (p ++ ⟨.closeParen, x⟩ :: q') := by
  induction p generalizing w with
  | nil =>
    cases h with
    | @more c rest ty ty' ps hf he hc hr =>
      have hty := kind_of_type ty .closeParen x hc (by simp)
      subst hty
      have hs := first_shape _ _ _ hf
      rw [List.take_left] at hs
      have hs : x = txt ")" := hs
      subst hs
      refine ⟨rfl, ⟨rest, rfl⟩, fun r q' hq => ?_⟩
      have := Pieces.more (c := txt ")") (rest := r) (ty := .closeParen) (ty' := .closeParen) (ps := q') ?_ (by simp) (by decide) hq
      · exact this
      · show first (ch ')' :: r) = _
        rw [first, if_neg (by decide), if_neg (by decide), if_pos rfl]
        rfl
  | cons t p ih =>
    cases h with
    | @more c rest ty ty' ps hf he hc hr =>
      obtain ⟨h1, ⟨r, rfl⟩, h3⟩ := ih rest hr
      refine ⟨h1, ⟨r, by simp [sigText]⟩, fun r' q' hq => ?_⟩
      have hq := h3 r' q' hq
      have e : ∃ y s s', sigText p ++ ch ')' :: r = y :: s ∧ sigText p ++ ch ')' :: r' = y :: s' := by
        cases hs : sigText p with
        | nil => exact ⟨_, _, _, rfl, rfl⟩
        | cons b bs => exact ⟨_, _, _, rfl, rfl⟩
      obtain ⟨y, s, s', e1, e2⟩ := e
      rw [e1] at hf
      have := Pieces.more (c := c) (rest := sigText p ++ ch ')' :: r') (by rw [e2]; exact first_append c y s s' ty hf he) he hc hq
      simpa [sigText] using this

theorem pieces_append (w : List Byte) (p q : List Sig) (x : List Byte) (h : Pieces w (p ++ ⟨.closeParen, x⟩ :: q)) :
    x = txt ")" ∧ (∃ r, w = sigText p ++ ch ')' :: r) ∧
      ∀ r, ∃ q', Pieces (sigText p ++ ch ')' :: r) (p ++ ⟨.closeParen, x⟩ :: q') := by
  obtain ⟨h1, h2, h3⟩ := pieces_concat w p q x h
  refine ⟨h1, h2, fun r => ?_⟩
  obtain ⟨q', hq, -⟩ := pieces_exist r
  exact ⟨q', h3 r q' hq⟩

/-- Whether the end is reached is seen from what is left. -/
theorem pieces_ended (w : List Byte) (ps : List Sig) (h : Pieces w ps) : (significant w).ended = (first (w.drop (sigText ps).length)).isSome := by
  have key : ∀ (l : Lexer) (n : Nat), Fresh l w → ps.length < n → (collect n l).ended = (first (w.drop (sigText ps).length)).isSome := by
    induction h with
    | stop h =>
      intro l n hl hn
      cases n with
      | zero => simp at hn
      | succ n =>
        rcases h with h | ⟨k, h⟩
        · have := lexNext_at l (Nat.le_of_eq hl.offset) hl.ready.inv.bound
          rw [hl.rest, h] at this
          obtain ⟨p, -, -, e⟩ := this
          rw [collect, nextTok_fresh l hl.peek, e]
          simp [sigText, h]
        · have := lexNext_at l (Nat.le_of_eq hl.offset) hl.ready.inv.bound
          rw [hl.rest, h] at this
          obtain ⟨ty', hc, e⟩ := this
          rw [classify_other _ _ (by simp)] at hc
          cases hc
          rw [collect, nextTok_fresh l hl.peek, e]
          simp [sigText, h]
    | @more c rest ty ty' ps hf he hc hr ih =>
      intro l n hl hn
      cases n with
      | zero => simp at hn
      | succ n =>
        obtain ⟨l', k1, k2⟩ := collect_cons l c rest hl ty ty' hf hc (classify_end _ _ _ hc he) n
        simp only [List.length_cons] at hn
        have e : (c ++ rest).drop (sigText (⟨ty', c⟩ :: ps)).length = rest.drop (sigText ps).length := by
          simp [sigText, List.drop_append]
        rw [k2, e, ← ih l' n k1 (by omega)]
        split <;> rfl
  obtain ⟨qs, h1, h2⟩ := pieces_exist w
  have := pieces_unique w ps qs h h1
  subst this
  exact key _ _ (fresh_new _) (by omega)

end Verif.Wat
