import Verif.Wat.GrammarSound

/-!
# What is in the grammar is accepted
-/

namespace Verif.Wat.Grammar

open Spec

variable {α β : Type}

/-- A token of none of the given types is next. -/
def Follow (ks : List TokenType) (st : Stream) : Prop := ∃ t r, st.toks = t :: r ∧ t.type ∉ ks

/-- Tokens in `A`, if they are less than `n` and what follows is none of `ks`, are taken by `f`. -/
def Takes (n : Nat) (f : SM Stream α) (A : α → Lang) (ks : List TokenType) : Prop :=
  ∀ a ts st, A a ts → Follow ks st → ts.length < n → f (st.push ts) = (.ok a, st)

theorem Follow.mono {fs gs : List TokenType} {st : Stream} (h : Follow fs st) (hk : ∀ k ∈ gs, k ∈ fs) : Follow gs st := by
  obtain ⟨t, r, h, ht⟩ := h
  exact ⟨t, r, h, fun k => ht (hk _ k)⟩

theorem Follow.cons (t : Sig) (r : List Sig) (st : Stream) {fs : List TokenType} (h : t.type ∉ fs) : Follow fs (st.push (t :: r)) :=
  ⟨t, r ++ st.toks, rfl, h⟩

theorem Follow.rp (r : List Sig) (st : Stream) {fs : List TokenType} (h : TokenType.closeParen ∉ fs) : Follow fs (st.push (rp :: r)) :=
  Follow.cons _ _ _ h

theorem push_cons (st : Stream) (t : Sig) (r : List Sig) : st.push (t :: r) = ⟨t :: (st.push r).toks, (st.push r).ended⟩ := rfl

/-! ## Steps -/

theorem take_rp (g : Unit → SM Stream β) (r : List Sig) (st : Stream) :
    (expect streamOps .closeParen >>= g) (st.push (rp :: r)) = g () (st.push r) := SM.bind_ok (expect_cons Verif.Wat.rp _ _)

theorem take_lp (g : Unit → SM Stream β) (r : List Sig) (st : Stream) :
    (expect streamOps .openParen >>= g) (st.push (lp :: r)) = g () (st.push r) := SM.bind_ok (expect_cons lp _ _)

theorem take_word (w : List Byte) (g : Unit → SM Stream β) (r : List Sig) (st : Stream) :
    (expectWord streamOps w >>= g) (st.push (kw w :: r)) = g () (st.push r) := SM.bind_ok (expectWord_cons w _ _)

theorem take_eat (f g : SM Stream β) (r : List Sig) (st : Stream) :
    (eat streamOps .openParen >>= fun b => if b then f else g) (st.push (lp :: r)) = f (st.push r) :=
  (SM.bind_ok (eat_cons lp _ _)).trans (congrFun (if_pos rfl) _)

theorem take_eatNot {st : Stream} (h : Follow [.openParen] st) (f g : SM Stream β) :
    (eat streamOps .openParen >>= fun b => if b then f else g) st = g st := by
  obtain ⟨t, r, h, ht⟩ := h
  rcases st with ⟨ts, e⟩
  simp only at h
  subst h
  exact (SM.bind_ok (eat_not t r e _ (by simpa using ht))).trans (congrFun (if_neg (by simp)) _)

theorem take_bind {n : Nat} {f : SM Stream α} {A : α → Lang} {ks : List TokenType} (hf : Takes n f A ks) {a : α} {t r : List Sig} (h : A a t)
    (g : α → SM Stream β) (st : Stream) (hr : Follow ks (st.push r)) (hn : t.length < n) :
    (f >>= g) (st.push (t ++ r)) = g a (st.push r) := by
  rw [← push_push]
  exact SM.bind_ok (hf a t _ h hr hn)

theorem take_last {n : Nat} {f : SM Stream α} {A : α → Lang} {ks : List TokenType} (hf : Takes n f A ks) {a : α} {t : List Sig} (h : A a t)
    (g : α → SM Stream β) (st : Stream) (hr : Follow ks st) (hn : t.length < n) : (f >>= g) (st.push t) = g a st :=
  SM.bind_ok (hf a t _ h hr hn)

theorem take_peek (g : Sig → SM Stream β) (t : Sig) (r : List Sig) (st : Stream) :
    (streamOps.peek >>= g) (st.push (t :: r)) = g t (st.push (t :: r)) := rfl

theorem take_next (g : Sig → SM Stream β) (t : Sig) (r : List Sig) (st : Stream) :
    (streamOps.next >>= g) (st.push (t :: r)) = g t (st.push r) := rfl

theorem peek_follow {ks : List TokenType} {st : Stream} (h : Follow ks st) (g : Sig → SM Stream β) :
    ∃ t, t.type ∉ ks ∧ (streamOps.peek >>= g) st = g t st := by
  obtain ⟨t, r, h, ht⟩ := h
  rcases st with ⟨ts, e⟩
  simp only at h
  subst h
  exact ⟨t, ht, rfl⟩

theorem kw_pos {w : List Byte} {f g : SM Stream β} : (if (kw w).capture = w then f else g) = f := if_pos rfl

theorem kw_neg {w w' : List Byte} {f g : SM Stream β} (h : w ≠ w') : (if (kw w).capture = w' then f else g) = g := if_neg h

theorem par_length {A : Lang} {ts : List Sig} (h : par A ts) : 2 ≤ ts.length := by
  obtain ⟨us, rfl, -⟩ := par_inv h
  simp [inParens]

theorem parens_takes {n : Nat} {f : SM Stream α} {A : α → Lang} {ks : List TokenType} (hf : Takes n f A ks) (hk : TokenType.closeParen ∉ ks) (m : Nat)
    (hm : n ≤ m) : Takes n (parens streamOps f m) (many fun x => par (A x)) [.openParen] := by
  intro xs
  induction xs generalizing m n with
  | nil =>
    rintro _ st rfl hst hn
    cases m with
    | zero => simp at hn; omega
    | succ m => exact take_eatNot hst _ _
  | cons x xs ih =>
    rintro _ st ⟨a, b, rfl, hx, hxs⟩ hst hn
    obtain ⟨us, rfl, hus⟩ := par_inv hx
    simp only [inParens, List.length_append, List.length_cons] at hn
    cases m with
    | zero => omega
    | succ m =>
      unfold parens
      rw [show inParens us ++ b = lp :: (us ++ (rp :: b)) by simp [inParens], take_eat,
        take_bind hf hus _ st (Follow.rp _ _ hk) (by omega), take_rp,
        SM.bind_ok (ih (n := n - 1) (m := m) (fun a ts st h1 h2 h3 => hf a ts st h1 h2 (by omega)) (by omega) b st hxs hst (by omega))]
      rfl

/-- The loops go on before an item and end before what follows. -/
theorem while_takes {n : Nat} {f : SM Stream α} {A : α → Lang} {ks : List TokenType} (c : Sig → Bool) (hf : Takes n f A ks)
    (hb : ∀ a ts, A a ts → ∃ t r, ts = t :: r ∧ c t = true ∧ t.type ∉ ks) (m : Nat) (hm : n ≤ m) (xs : List α) (ts : List Sig) (st : Stream)
    (h : many A xs ts) (u : Sig) (us : List Sig) (hu : st.toks = u :: us) (huc : c u = false) (huk : u.type ∉ ks) (hn : ts.length < n) :
    while_ streamOps c f m (st.push ts) = (.ok xs, st) := by
  induction xs generalizing m n ts with
  | nil =>
    cases h
    cases m with
    | zero => simp at hn; omega
    | succ m =>
      rcases st with ⟨ts, e⟩
      simp only at hu
      subst hu
      unfold while_
      rw [push_nil, peek_bind, huc]
      rfl
  | cons x xs ih =>
    obtain ⟨a, b, rfl, hx, hxs⟩ := h
    obtain ⟨t, r, rfl, ht, htk⟩ := hb x a hx
    simp only [List.length_append, List.length_cons] at hn
    cases m with
    | zero => omega
    | succ m =>
      unfold while_
      rw [List.cons_append, take_peek, ht, if_pos rfl, ← List.cons_append]
      have hfl : Follow ks (st.push b) := by
        cases xs with
        | nil => cases hxs; exact ⟨u, us, hu, huk⟩
        | cons y ys =>
          obtain ⟨c', d, rfl, hy, -⟩ := hxs
          obtain ⟨t', r', rfl, -, htk'⟩ := hb y c' hy
          exact Follow.cons _ _ _ htk'
      rw [take_bind hf hx _ st hfl (by simp; omega),
        SM.bind_ok (ih (n := n - 1) (m := m) (fun a ts st h1 h2 h3 => hf a ts st h1 h2 (by omega)) (by omega) b hxs (by omega))]
      rfl

theorem parseId_takes (n : Nat) (ks : List TokenType) : Takes n (parseId streamOps) ident ks := by
  rintro w _ st rfl _ _
  exact parseId_cons w _ _

theorem parseOptionalId_takes (n : Nat) : Takes n (parseOptionalId streamOps) optIdent [.id] := by
  rintro (_ | w) _ st h hst _
  · cases h
    unfold parseOptionalId
    obtain ⟨t, ht, e⟩ := peek_follow hst (fun tok => if tok.type = .id then do
      let id ← parseId streamOps
      pure (some id) else pure none)
    exact e.trans (congrFun (if_neg (by simpa using ht)) _)
  · cases h
    exact parseOptionalId_some w _ _

theorem parseString_takes (n : Nat) (ks : List TokenType) : Takes n (parseString streamOps) str ks := by
  rintro s _ st ⟨hs, rfl⟩ _ _
  refine (parseString_cons _ _ _).trans ?_
  rw [trimQuotes_quoted s hs]
  rfl

theorem parseInt32_takes (n : Nat) (ks : List TokenType) : Takes n (parseInt32 streamOps) int32 ks := by
  rintro v _ st ⟨w, i, h, rfl, rfl⟩ _ _
  exact parseInt32_cons w i ((integerValue_iff w i).2 h) _ _

theorem parseInt64_takes (n : Nat) (ks : List TokenType) : Takes n (parseInt64 streamOps) int64 ks := by
  rintro v _ st ⟨w, i, h, rfl, rfl⟩ _ _
  exact parseInt64_cons w i ((integerValue_iff w i).2 h) _ _

theorem constFloat32_takes (lib : Lib) (n : Nat) (ks : List TokenType) : Takes n (constFloat32 streamOps lib) (float32 lib) ks := by
  rintro v _ st (⟨w, h, rfl⟩ | ⟨i, ⟨w, j, h, rfl, rfl⟩, rfl⟩) _ _
  · refine (constFloat32_cons lib w _ _).trans ?_
    rw [(float32Value_iff lib w v).2 h]
    rfl
  · unfold constFloat32
    rw [SM.bind_ok (show peekFloat streamOps (st.push [⟨.integer, w⟩]) = (.ok false, st.push [⟨.integer, w⟩]) from rfl), if_neg (by simp),
      SM.bind_ok (show parseInt32 streamOps (st.push [⟨.integer, w⟩]) = (.ok (BitVec.ofInt 32 j), st) from
        parseInt32_cons w j ((integerValue_iff w j).2 h) _ _)]
    rfl

theorem constFloat64_takes (lib : Lib) (n : Nat) (ks : List TokenType) : Takes n (constFloat64 streamOps lib) (float64 lib) ks := by
  rintro v _ st (⟨w, h, rfl⟩ | ⟨i, ⟨w, j, h, rfl, rfl⟩, rfl⟩) _ _
  · refine (constFloat64_cons lib w _ _).trans ?_
    rw [h]
    rfl
  · unfold constFloat64
    rw [SM.bind_ok (show peekFloat streamOps (st.push [⟨.integer, w⟩]) = (.ok false, st.push [⟨.integer, w⟩]) from rfl), if_neg (by simp),
      SM.bind_ok (show parseInt64 streamOps (st.push [⟨.integer, w⟩]) = (.ok (BitVec.ofInt 64 j), st) from
        parseInt64_cons w j ((integerValue_iff w j).2 h) _ _)]
    rfl

theorem parseIndex_takes (n : Nat) (ks : List TokenType) : Takes n (parseIndex streamOps) index ks := by
  rintro (v | w) _ st h _ _
  · obtain ⟨w, i, h, rfl, rfl⟩ := h
    unfold parseIndex
    rw [take_next, if_pos rfl]
    simp only [(atoi_iff w i).2 h]
    rfl
  · cases h
    unfold parseIndex
    rw [take_next, if_neg (by simp), if_pos rfl]
    rfl

/-! ## Types -/

theorem parseValType_takes (n : Nat) (ks : List TokenType) : Takes n (parseValType streamOps) val ks := by
  rintro v _ st rfl _ _
  exact parseValType_cons _ _ _ (by cases v <;> decide) _ _

theorem parseLocal_takes (n : Nat) (ks : List TokenType) : Takes n (parseLocal streamOps) (fun t => word (txt "local") ⬝ val t) ks := by
  rintro v _ st ⟨_, t, rfl, rfl, h⟩ hst hn
  unfold parseLocal
  rw [List.singleton_append, take_word]
  exact parseValType_takes n ks v t st h hst (by simp at hn ⊢; omega)

theorem vals_begin (v : ValType) (ts : List Sig) (h : val v ts) : ∃ t r, ts = t :: r ∧ t.type = .reserved := by
  cases h
  exact ⟨_, [], rfl, rfl⟩

theorem parseParameter_takes (n m : Nat) (hm : n ≤ m) : Takes n (parseParameter streamOps m) paramIn [.reserved, .id] := by
  rintro ⟨id, ts⟩ us st h hst hn
  unfold parseParameter
  rcases id with _ | w
  · obtain ⟨_, t, rfl, rfl, h⟩ := h
    simp only [List.singleton_append, List.length_cons] at hn
    rw [List.singleton_append, take_word, SM.bind_ok (a := none) (s' := st.push t)]
    · obtain ⟨u, us, hu, hk⟩ := hst
      have := while_takes (fun tok => tok.type == .reserved) (parseValType_takes n []) (fun a ts h => by
        obtain ⟨t, r, rfl, ht⟩ := vals_begin a ts h
        exact ⟨t, r, rfl, by simp [ht], by simp⟩) m hm ts t st h u us hu (by simp at hk; simp [hk]) (by simp) (by omega)
      exact SM.bind_ok (show parameterTypes streamOps m false (st.push t) = _ from this)
    · refine parseOptionalId_takes (n + 1) none [] (st.push t) rfl ?_ (by simp)
      cases ts with
      | nil => cases h; exact hst.mono (by simp)
      | cons v vs =>
        obtain ⟨a, b, rfl, h1, h2⟩ := h
        cases h1
        exact Follow.cons _ _ _ (by simp [kw])
  · rcases ts with _ | ⟨t, _ | ⟨u, ts⟩⟩
    · exact h.elim
    · obtain ⟨_, _, rfl, rfl, _, a, rfl, rfl, ha⟩ := h
      rw [List.singleton_append, take_word, take_bind (parseOptionalId_takes 2) (a := some w) rfl _ st ?_ (by simp)]
      · refine SM.bind_ok (show parameterTypes streamOps m true (st.push a) = (.ok [t], st) from ?_)
        exact SM.bind_ok (parseValType_takes (a.length + 1) [] t a st ha (hst.mono (by simp)) (by simp))
      · cases ha
        exact Follow.cons _ _ _ (by simp [kw])
    · exact h.elim

theorem parseResult_takes (n : Nat) (ks : List TokenType) : Takes n (parseResult streamOps) resultIn ks := by
  rintro ⟨ts⟩ us st h hst hn
  rcases ts with _ | ⟨t, _ | ⟨u, ts⟩⟩
  · exact h.elim
  · obtain ⟨_, a, rfl, rfl, ha⟩ := h
    unfold parseResult
    rw [List.singleton_append, take_word, SM.bind_ok (parseValType_takes (a.length + 1) ks t a st ha hst (by simp))]
    rfl
  · exact h.elim

/-- Beginning with a word. -/
def Words (A : Lang) (ws : List (List Byte)) : Prop := ∀ ts, A ts → ∃ w r, ts = kw w :: r ∧ w ∈ ws

theorem Words.cat (w : List Byte) (A : Lang) : Words (word w ⬝ A) [w] := by
  rintro ts ⟨_, r, rfl, rfl, -⟩
  exact ⟨w, r, rfl, by simp⟩

theorem param_words (p : Parameter) : Words (paramIn p) [txt "param"] := by
  obtain ⟨id, ts⟩ := p
  rcases id with _ | w
  · exact Words.cat _ _
  · rcases ts with _ | ⟨t, _ | ⟨u, ts⟩⟩
    · intro _ h; exact h.elim
    · exact Words.cat _ _
    · intro _ h; exact h.elim

theorem result_words (r : Result) : Words (resultIn r) [txt "result"] := by
  obtain ⟨ts⟩ := r
  rcases ts with _ | ⟨t, _ | ⟨u, ts⟩⟩
  · intro _ h; exact h.elim
  · exact Words.cat _ _
  · intro _ h; exact h.elim

theorem parseFuncTypeItem_takes (n m : Nat) (hm : n ≤ m) (i : FuncTypeItem) (ts r : List Sig) (st : Stream) (h : funcTypeItem i ts) (hn : ts.length < n) :
    parseFuncTypeItem streamOps m (st.push (ts ++ rp :: r)) = (.ok i, st.push (rp :: r)) := by
  unfold parseFuncTypeItem
  have hst : ∀ ks, TokenType.closeParen ∉ ks → Follow ks (st.push (rp :: r)) := fun ks hk => Follow.rp _ _ hk
  cases i with
  | param p =>
    obtain ⟨w, r', rfl, hw⟩ := param_words p ts h
    obtain rfl : w = txt "param" := by simpa using hw
    rw [List.cons_append, take_peek, kw_pos, ← List.cons_append,
      take_bind (parseParameter_takes n m hm) h _ st (hst _ (by simp)) hn]
    rfl
  | result x =>
    obtain ⟨w, r', rfl, hw⟩ := result_words x ts h
    obtain rfl : w = txt "result" := by simpa using hw
    rw [List.cons_append, take_peek, if_neg (by decide), kw_pos, ← List.cons_append,
      take_bind (parseResult_takes n []) h _ st (hst _ (by simp)) hn]
    rfl
  | nothing =>
    cases h
    rw [List.nil_append, take_peek, if_neg (by decide), if_neg (by decide)]
    rfl

/-- `parens` for items that are read up to their `)`. -/
theorem parens_takes' {n : Nat} {f : SM Stream α} {A : α → Lang}
    (hf : ∀ a ts r (st : Stream), A a ts → ts.length < n → f (st.push (ts ++ rp :: r)) = (.ok a, st.push (rp :: r))) (m : Nat) (hm : n ≤ m) :
    Takes n (parens streamOps f m) (many fun x => par (A x)) [.openParen] := by
  intro xs
  induction xs generalizing m n with
  | nil =>
    rintro _ st rfl hst hn
    cases m with
    | zero => simp at hn; omega
    | succ m => exact take_eatNot hst _ _
  | cons x xs ih =>
    rintro _ st ⟨a, b, rfl, hx, hxs⟩ hst hn
    obtain ⟨us, rfl, hus⟩ := par_inv hx
    simp only [inParens, List.length_append, List.length_cons] at hn
    cases m with
    | zero => omega
    | succ m =>
      unfold parens
      rw [show inParens us ++ b = lp :: (us ++ (rp :: b)) by simp [inParens], take_eat,
        SM.bind_ok (hf x us b st hus (by omega)), take_rp,
        SM.bind_ok (ih (n := n - 1) (m := m) (fun a ts r st h1 h2 => hf a ts r st h1 (by omega)) (by omega) b st hxs hst (by omega))]
      rfl

theorem parseFuncType_takes (n m : Nat) (hm : n ≤ m) :
    Takes n (parseFuncType streamOps m) (fun f => word (txt "func") ⬝ IsFuncType f) [.openParen] := by
  rintro f _ st ⟨_, ts, rfl, rfl, h⟩ hst hn
  obtain ⟨items, rfl, h'⟩ := (isFuncType_iff _ _).1 h
  unfold parseFuncType
  rw [List.singleton_append, take_word, SM.bind_ok (parens_takes' (n := n) (fun a ts r st h hn => parseFuncTypeItem_takes n m hm a ts r st h hn) m hm
    items ts st h' hst (by simp at hn; omega))]
  rfl

theorem optIdent_follow {id : Option (List Byte)} {a : List Sig} (h : optIdent id a) (g : Option (List Byte) → SM Stream β) (r : List Sig) (st : Stream)
    (hr : Follow [.id] (st.push r)) : (parseOptionalId streamOps >>= g) (st.push (a ++ r)) = g id (st.push r) :=
  take_bind (parseOptionalId_takes (a.length + 1)) h g st hr (Nat.lt_succ_self _)

theorem parseType_takes (n m : Nat) (hm : n ≤ m) : Takes n (parseType streamOps m) typeDef [.id, .openParen] := by
  rintro ⟨id, f⟩ _ st ⟨_, _, rfl, rfl, a, b, rfl, ha, h⟩ hst hn
  simp only [List.length_append, List.length_cons, List.length_nil] at hn
  unfold parseType typeBody
  rcases h with h | ⟨h, rfl⟩
  · obtain ⟨us, rfl, hus⟩ := par_inv h
    simp only [inParens, List.length_append, List.length_cons] at hn
    rw [List.singleton_append, take_word, optIdent_follow ha _ (inParens us) _ (Follow.cons lp _ _ (by simp [lp]))]
    refine SM.bind_ok ?_
    rw [show inParens us = lp :: (us ++ [rp]) from rfl, take_eat,
      take_bind (parseFuncType_takes n m hm) hus _ st (Follow.rp _ _ (by simp)) (by omega), take_rp]
    rfl
  · simp only at h
    subst h
    rw [List.singleton_append, take_word, optIdent_follow ha _ _ _ (hst.mono (by simp))]
    refine SM.bind_ok ?_
    rw [push_nil, take_eatNot (hst.mono (by simp))]
    rfl

theorem parseLimits_takes (n : Nat) : Takes n (parseLimits streamOps) limits [.integer] := by
  rintro ⟨min, max⟩ _ st ⟨a, b, rfl, h1, h2⟩ hst hn
  unfold parseLimits
  cases max with
  | none =>
    cases h2
    rw [take_bind (parseInt32_takes (a.length + 1) []) h1 _ st (hst.mono (by simp)) (by simp)]
    obtain ⟨t, ht, e⟩ := peek_follow hst (fun tok => if tok.type = .integer then do
      let n ← parseInt32 streamOps
      pure (some n) else pure none)
    exact SM.bind_ok (show limitsMax streamOps st = (.ok none, st) from e.trans (congrFun (if_neg (by simpa using ht)) _))
  | some m =>
    obtain ⟨w, i, h, hm, rfl⟩ := h2
    rw [take_bind (parseInt32_takes (a.length + 1) [.openParen]) h1 _ st (Follow.cons _ _ _ (by simp)) (by simp)]
    refine SM.bind_ok ?_
    unfold limitsMax
    rw [take_peek, if_pos rfl, take_last (parseInt32_takes 2 [.integer]) (a := m) ⟨w, i, h, hm, rfl⟩ _ st hst (by simp)]
    rfl

theorem parseTableType_takes (n : Nat) (ks : List TokenType) : Takes n (parseTableType streamOps) tableType ks := by
  rintro ⟨l, rt⟩ _ st ⟨a, _, rfl, h1, w, rfl, rfl⟩ hst hn
  unfold parseTableType
  rw [SM.bind_ok (a := l) (s' := st.push [kw w])]
  · rw [take_next, if_neg (by simp [kw])]
    simp only [kw, refType_lookup]
    rfl
  · unfold tableLimits
    rcases h1 with h1 | ⟨h1, rfl⟩
    · obtain ⟨_, b, rfl, ⟨w', i, h3, h4, rfl⟩, h5⟩ := h1
      rw [List.append_assoc, List.singleton_append, take_peek, if_pos rfl, ← List.singleton_append, ← List.append_assoc, ← push_push]
      exact parseLimits_takes (n + (b.length + 2)) l _ _ ⟨_, b, rfl, ⟨w', i, h3, h4, rfl⟩, h5⟩ (Follow.cons _ _ _ (by simp [kw])) (by simp; omega)
    · simp only at h1
      subst h1
      rw [List.nil_append, take_peek, if_neg (by simp [kw])]
      rfl

theorem parseElement_takes (n : Nat) (ks : List TokenType) : Takes n (parseElement streamOps) (fun e => word (txt "elem") ⬝ ident e) ks := by
  rintro w _ st ⟨_, _, rfl, rfl, rfl⟩ hst hn
  unfold parseElement
  rw [List.singleton_append, take_next, if_neg (by simp [kw]), kw_pos]
  exact parseId_cons w _ _

theorem parseTable_takes (n m : Nat) (hm : n ≤ m) : Takes n (parseTable streamOps m) table [.id, .openParen] := by
  rintro ⟨id, tt, es⟩ _ st ⟨_, _, rfl, rfl, a, _, rfl, ha, b, c, rfl, hb, hc⟩ hst hn
  simp only [List.length_append, List.length_cons, List.length_nil] at hn
  unfold parseTable
  have hfb : Follow [.id] (st.push (b ++ c)) := by
    obtain ⟨d, _, rfl, h1, w, -, rfl⟩ := hb
    rcases h1 with ⟨_, _, rfl, ⟨w', i, h3, h4, rfl⟩, h5⟩ | ⟨h1, rfl⟩
    · exact Follow.cons _ _ _ (by simp)
    · exact Follow.cons _ _ _ (by simp [kw])
  rw [List.singleton_append, take_word, optIdent_follow ha _ _ _ hfb]
  have hfc : Follow [] (st.push c) := by
    cases es with
    | nil => cases hc; exact hst.mono (by simp)
    | cons e es =>
      obtain ⟨_, d, rfl, h1, -⟩ := hc
      obtain ⟨us, rfl, -⟩ := par_inv h1
      exact Follow.cons _ _ _ (by simp)
  rw [take_bind (parseTableType_takes n []) hb _ st hfc (by omega),
    take_last (parens_takes (n := n) (parseElement_takes n []) (by simp) m hm) hc _ st (hst.mono (by simp)) (by omega)]
  rfl

theorem parseMemory_takes (n : Nat) : Takes n (parseMemory streamOps) memory [.integer] := by
  rintro ⟨id, l⟩ _ st ⟨_, _, rfl, rfl, a, b, rfl, ha, hb⟩ hst hn
  simp only [List.length_append, List.length_cons, List.length_nil] at hn
  unfold parseMemory
  have hfb : Follow [.id] (st.push b) := by
    obtain ⟨_, _, rfl, ⟨w', i, h3, h4, rfl⟩, h5⟩ := hb
    exact Follow.cons _ _ _ (by simp)
  rw [List.singleton_append, take_word, optIdent_follow ha _ _ _ hfb, take_last (parseLimits_takes n) hb _ st hst (by omega)]
  rfl

theorem parseExport_takes (n : Nat) (ks : List TokenType) : Takes n (parseExport streamOps) (fun s => word (txt "export") ⬝ str s) ks := by
  rintro s _ st ⟨_, b, rfl, rfl, hb⟩ hst hn
  unfold parseExport
  rw [List.singleton_append, take_word]
  exact parseString_takes (b.length + 1) ks s b st hb hst (by simp)

theorem parseImport_takes (n : Nat) (ks : List TokenType) :
    Takes n (parseImport streamOps) (fun _ ts => ∃ s s', (word (txt "import") ⬝ str s ⬝ str s') ts) ks := by
  rintro _ _ st ⟨s, s', _, _, rfl, rfl, _, _, rfl, ⟨h1, rfl⟩, h2, rfl⟩ hst hn
  unfold parseImport
  rw [List.singleton_append, take_word, take_bind (parseString_takes 2 []) (a := s) ⟨h1, rfl⟩ _ st (Follow.cons _ _ _ (by simp)) (by simp),
    take_last (parseString_takes 2 ks) (a := s') ⟨h2, rfl⟩ _ st hst (by simp)]
  rfl

theorem parseTypeUse_takes (n : Nat) (ks : List TokenType) : Takes n (parseTypeUse streamOps) (fun w => par (word (txt "type") ⬝ ident w)) ks := by
  rintro w ts st h hst hn
  obtain ⟨_, rfl, _, _, rfl, rfl, rfl⟩ := par_inv h
  unfold parseTypeUse
  rw [show inParens ([kw (txt "type")] ++ [⟨.id, w⟩]) = lp :: kw (txt "type") :: ([⟨.id, w⟩] ++ [rp]) from rfl, take_lp, take_word,
    take_bind (parseId_takes 2 []) (a := w) rfl _ st (Follow.rp _ _ (by simp)) (by simp), take_rp]
  rfl

/-- No `(result` is next. -/
def NoResult (st : Stream) : Prop := Follow [.openParen] st ∨ ∃ w r, st.toks = lp :: kw w :: r ∧ w ≠ txt "result"

theorem parseBlockType_takes (n : Nat) (rs : List Result) (ts : List Sig) (st : Stream) (h : many results rs ts) (hst : NoResult st)
    (hn : ts.length < n) : parseBlockType streamOps n (st.push ts) = (.ok rs, st) := by
  induction n generalizing rs ts with
  | zero => omega
  | succ n ih =>
    unfold parseBlockType
    rw [SM.bind_get]
    cases rs with
    | nil =>
      cases h
      rw [push_nil]
      rcases hst with hst | ⟨w, r, hs, hw⟩
      · rw [take_eatNot hst]
        rfl
      · rcases st with ⟨ts, en⟩
        simp only at hs
        subst hs
        rw [SM.bind_ok (eat_lp _ _), if_pos rfl, peek_bind, if_pos (by simpa [kw] using hw)]
        rfl
    | cons x rs =>
      obtain ⟨a, b, rfl, h1, h2⟩ := h
      obtain ⟨_, rfl, _, us, rfl, rfl, h3⟩ := par_inv h1
      simp only [inParens, List.length_append, List.length_cons] at hn
      rw [show inParens ([kw (txt "result")] ++ us) ++ b = lp :: kw (txt "result") :: (us ++ rp :: b) by simp [inParens], take_eat, take_peek,
        if_neg (by simp [kw]), take_word, ← push_push]
      have := while_takes (n := n) (fun tok => tok.type != .closeParen) (parseValType_takes n []) (fun a ts h => by
        obtain ⟨t, r, rfl, ht⟩ := vals_begin a ts h
        exact ⟨t, r, rfl, by simp [ht], by simp⟩) n (Nat.le_refl _) x.types us (st.push (rp :: b)) h3 rp (b ++ st.toks) rfl (by simp [rp])
          (by simp) (by simp at hn; omega)
      rw [SM.bind_ok this, take_rp, SM.bind_ok (ih rs b h2 (by simp at hn; omega))]
      rfl

/-! ## Instructions -/

/-- Words that begin no instruction. -/
def noInst : List (List Byte) :=
  [txt "result", txt "then", txt "else", txt "local", txt "param", txt "export", txt "import"]

theorem head_words (lib : Lib) (i : Inst) (ts : List Sig) (h : IsHead lib i ts) : ∃ w r, ts = kw w :: r ∧ w ∉ noInst := by
  cases h with
  | lost hw => exact ⟨_, _, rfl, (by decide : ∀ w ∈ lostWords, w ∉ noInst) _ hw⟩
  | @plain p => exact ⟨_, _, rfl, by cases p <;> decide⟩
  | @indexed k _ _ _ => exact ⟨_, _, rfl, by cases k <;> decide⟩
  | i32Const _ => exact ⟨_, _, rfl, by decide⟩
  | i64Const _ => exact ⟨_, _, rfl, by decide⟩
  | f32Const _ => exact ⟨_, _, rfl, by decide⟩
  | f64Const _ => exact ⟨_, _, rfl, by decide⟩
  | callIndirect _ => exact ⟨_, _, rfl, by decide⟩
  | block _ _ _ => exact ⟨_, _, rfl, by decide⟩
  | loop _ _ _ => exact ⟨_, _, rfl, by decide⟩
  | ifThen _ _ => exact ⟨_, _, rfl, by decide⟩

theorem inst_words (lib : Lib) (i : Inst) (ts : List Sig) (h : IsInst lib i ts) : ∃ w r, ts = kw w :: r ∧ w ∉ noInst := by
  cases h with
  | alone h => exact head_words lib _ _ h
  | folded _ h _ _ =>
    obtain ⟨w, r, rfl, hw⟩ := head_words lib _ _ h
    exact ⟨w, _, rfl, hw⟩

theorem insts_noResult (lib : Lib) (is : List Inst) (ts : List Sig) (h : IsInsts lib is ts) (st : Stream) (hst : Follow [.openParen] st) :
    NoResult (st.push ts) := by
  cases h with
  | nil => exact .inl hst
  | cons h _ =>
    obtain ⟨w, r, rfl, hw⟩ := inst_words lib _ _ h
    exact .inr ⟨w, _, rfl, fun e => hw (by simp [noInst, e])⟩

theorem insts_follow (lib : Lib) (is : List Inst) (ts : List Sig) (h : IsInsts lib is ts) (st : Stream) (k : TokenType) (hk : k ≠ .openParen)
    (hst : Follow [k] st) : Follow [k] (st.push ts) := by
  cases h with
  | nil => exact hst
  | cons h _ => exact Follow.cons _ _ _ (by simpa [lp] using fun e => hk e.symm)

theorem insts_follow' (lib : Lib) (is : List Inst) (ts : List Sig) (h : IsInsts lib is ts) (st : Stream) (hst : Follow [] st) :
    Follow [] (st.push ts) := by
  cases h with
  | nil => exact hst
  | cons h _ => exact Follow.cons _ _ _ (by simp)

theorem insts_takes (lib : Lib) {inst : SM Stream Inst} (n : Nat) (hf : Takes n inst (IsInst lib) [.openParen, .id]) :
    Takes n (parens streamOps inst n) (IsInsts lib) [.openParen] := by
  intro is ts st h
  exact parens_takes hf (by simp) n (Nat.le_refl _) is ts st ((insts_iff _ _ _).1 h)

theorem ifItem_takes (lib : Lib) {inst : SM Stream Inst} (n : Nat) (hf : Takes n inst (IsInst lib) [.openParen, .id]) :
    Takes n (parseIfItem streamOps inst n) (ifItem lib) [.openParen, .id] := by
  intro i ts st h hst hn
  unfold parseIfItem
  cases i with
  | result r =>
    obtain ⟨w, r', rfl, hw⟩ := result_words r ts h
    obtain rfl : w = txt "result" := by simpa using hw
    rw [take_peek, kw_pos, take_last (parseResult_takes n _) h _ st hst hn]
    rfl
  | thens is =>
    obtain ⟨_, us, rfl, rfl, hus⟩ := h
    rw [List.singleton_append, take_peek, if_neg (by decide), kw_pos, take_word,
      take_last (insts_takes lib n hf) hus _ st (hst.mono (by simp)) (by simp at hn; omega)]
    rfl
  | elses is =>
    obtain ⟨_, us, rfl, rfl, hus⟩ := h
    rw [List.singleton_append, take_peek, if_neg (by decide), if_neg (by decide), kw_pos, take_word,
      take_last (insts_takes lib n hf) hus _ st (hst.mono (by simp)) (by simp at hn; omega)]
    rfl
  | inst i =>
    obtain ⟨w, r, rfl, hw⟩ := inst_words lib i ts h
    simp only [noInst, List.mem_cons, not_or] at hw
    rw [take_peek, kw_neg hw.1, kw_neg hw.2.1, kw_neg hw.2.2.1, take_last hf h _ st hst hn]
    rfl

theorem many_par_follow (A : α → Lang) (xs : List α) (ts : List Sig) (h : many (fun x => par (A x)) xs ts) (st : Stream) (k : TokenType)
    (hk : k ≠ .openParen) (hst : Follow [k] st) : Follow [k] (st.push ts) := by
  cases xs with
  | nil => cases h; exact hst
  | cons x xs =>
    obtain ⟨_, b, rfl, h1, -⟩ := h
    obtain ⟨us, rfl, -⟩ := par_inv h1
    exact Follow.cons _ _ _ (by simpa [lp] using fun e => hk e.symm)

theorem block_takes (lib : Lib) {inst : SM Stream Inst} (n : Nat) (hf : Takes n inst (IsInst lib) [.openParen, .id])
    (mk : Option (List Byte) → List Result → List Inst → Inst) (name : Option (List Byte)) (rs : List Result) (is : List Inst) (a b c : List Sig)
    (h1 : optIdent name a) (h2 : many results rs b) (h3 : IsInsts lib is c) (st : Stream) (hst : Follow [.openParen, .id] st)
    (hn : (a ++ (b ++ c)).length < n) : parseBlock streamOps mk inst n (st.push (a ++ (b ++ c))) = (.ok (mk name rs is), st) := by
  simp only [List.length_append] at hn
  unfold parseBlock
  have hb : Follow [.id] (st.push (b ++ c)) := by
    rw [← push_push]
    exact many_par_follow _ rs b h2 _ _ (by simp) (insts_follow lib is c h3 st _ (by simp) (hst.mono (by simp)))
  rw [optIdent_follow h1 _ _ _ hb, ← push_push,
    SM.bind_ok (parseBlockType_takes n rs b _ h2 (insts_noResult lib is c h3 st (hst.mono (by simp))) (by omega)),
    take_last (insts_takes lib n hf) h3 _ st (hst.mono (by simp)) (by omega)]
  rfl

theorem head_takes (lib : Lib) {inst : SM Stream Inst} (n : Nat) (hf : Takes n inst (IsInst lib) [.openParen, .id]) (i : Inst) (ts : List Sig)
    (h : IsHead lib i ts) : ∃ w us, ts = kw w :: us ∧ ∀ st, TakesOperands i ∧ Follow [] st ∨ Follow [.openParen, .id] st → us.length < n →
      parseHead streamOps lib inst n w (st.push us) = (.ok i, st) := by
  have wk : ∀ {st : Stream}, TakesOperands i ∧ Follow [] st ∨ Follow [.openParen, .id] st → Follow [] st :=
    fun h => h.elim (·.2) (·.mono (by simp))
  cases h with
  | lost hw =>
    refine ⟨_, _, rfl, fun st _ _ => ?_⟩
    have := (by decide : ∀ w ∈ lostWords, plainWords.lookup w = none ∧ indexedWords.lookup w = none ∧ nilWords.contains w = true) _ hw
    simp only [parseHead, this.1, this.2.1, this.2.2, if_true]
    rfl
  | @plain p =>
    refine ⟨_, _, rfl, fun st _ _ => ?_⟩
    have : plainWords.lookup (plainWord p) = some p := by cases p <;> decide
    simp only [parseHead, this]
    rfl
  | @indexed k i us hi =>
    refine ⟨_, _, rfl, fun st hst hn => ?_⟩
    have : plainWords.lookup (indexedWord k) = none ∧ indexedWords.lookup (indexedWord k) = some k := by cases k <;> decide
    simp only [parseHead, this.1, this.2]
    rw [take_last (parseIndex_takes n []) hi _ st (wk hst) hn]
    rfl
  | i32Const hi =>
    exact ⟨_, _, rfl, fun st hst hn => take_last (parseInt32_takes n []) hi _ st (wk hst) hn⟩
  | i64Const hi =>
    exact ⟨_, _, rfl, fun st hst hn => take_last (parseInt64_takes n []) hi _ st (wk hst) hn⟩
  | f32Const hi =>
    exact ⟨_, _, rfl, fun st hst hn => take_last (constFloat32_takes lib n []) hi _ st (wk hst) hn⟩
  | f64Const hi =>
    exact ⟨_, _, rfl, fun st hst hn => take_last (constFloat64_takes lib n []) hi _ st (wk hst) hn⟩
  | callIndirect hi =>
    exact ⟨_, _, rfl, fun st hst hn => take_last (parseTypeUse_takes n []) hi _ st (wk hst) hn⟩
  | @block name rs is a b c h1 h2 h3 =>
    refine ⟨_, _, rfl, fun st hst hn => ?_⟩
    exact block_takes lib n hf .block name rs is a b c h1 h2 h3 st (hst.resolve_left fun h => h.1) hn
  | @loop name rs is a b c h1 h2 h3 =>
    refine ⟨_, _, rfl, fun st hst hn => ?_⟩
    exact block_takes lib n hf .loop name rs is a b c h1 h2 h3 st (hst.resolve_left fun h => h.1) hn
  | @ifThen name rs clause thens elses a b h1 h2 =>
    refine ⟨_, _, rfl, fun st hst hn => ?_⟩
    have hst' := hst.resolve_left fun h => h.1
    obtain ⟨items, k, rfl, rfl, rfl, rfl⟩ := (isIf_iff _ _ _ _ _ _).1 h2
    simp only [List.length_append] at hn
    change parseIf streamOps inst n _ = _
    unfold parseIf
    rw [optIdent_follow h1 _ _ _ (many_par_follow _ _ _ k st .id (by simp) (hst'.mono (by simp))),
      take_last (parens_takes (ifItem_takes lib n hf) (by simp) n (Nat.le_refl _)) k _ st (hst'.mono (by simp)) (by omega)]
    rfl

theorem parseInstruction_takes (lib : Lib) (n : Nat) : Takes n (parseInstruction streamOps lib n) (IsInst lib) [.openParen, .id] := by
  induction n with
  | zero => intro _ _ _ _ _ h; omega
  | succ n ih =>
    intro i ts st h hst hn
    cases h with
    | alone h =>
      obtain ⟨w, us, rfl, k⟩ := head_takes lib n ih i ts h
      rw [push_cons, parseInstruction_cons, SM.bind_ok (k st (.inr hst) (by simp at hn; omega))]
      obtain ⟨t, r, hs, ht⟩ := hst
      rcases st with ⟨ts, en⟩
      simp only at hs
      subst hs
      exact parseFolded_not _ _ _ _ (by simp at ht; exact ht.1) _ _
    | @folded i ps ts us ho h hp hps =>
      obtain ⟨w, vs, rfl, k⟩ := head_takes lib n ih i ts h
      simp only [List.cons_append, List.length_cons, List.length_append] at hn
      have hl : ∃ r, us = lp :: r := by
        cases hps with
        | nil => exact absurd rfl hp
        | cons _ _ => exact ⟨_, rfl⟩
      obtain ⟨r, rfl⟩ := hl
      have hd := k (st.push (lp :: r)) (.inl ⟨ho, Follow.cons _ _ _ (by simp)⟩) (by omega)
      rw [push_push] at hd
      rw [List.cons_append, push_cons, parseInstruction_cons, SM.bind_ok hd]
      unfold parseFolded
      rw [take_peek, if_neg (by simp [lp]), take_last (insts_takes lib n ih) hps _ st (hst.mono (by simp)) (by omega)]
      rfl

/-- With a larger bound on the recursion. -/
theorem parseInstruction_more (lib : Lib) (n m : Nat) (h : n ≤ m) : Takes n (parseInstruction streamOps lib m) (IsInst lib) [.openParen, .id] :=
  fun i ts st hi hst hn => parseInstruction_takes lib m i ts st hi hst (by omega)

/-! ## Modules -/

theorem parseGlobal_takes (lib : Lib) (n m : Nat) (hm : n ≤ m) : Takes n (parseGlobal streamOps lib m) (global lib) [.id, .openParen] := by
  rintro ⟨id, isMut, ty, is⟩ _ st ⟨_, _, rfl, rfl, a, _, rfl, ha, b, c, rfl, hb, hc⟩ hst hn
  simp only [List.length_append, List.length_cons, List.length_nil] at hn
  unfold parseGlobal
  have hi := take_last (β := Global) (parens_takes (n := n) (parseInstruction_more lib n m hm) (by simp) m hm) ((insts_iff _ _ _).1 hc)
  cases isMut with
  | true =>
    obtain ⟨_, rfl, _, us, rfl, rfl, hus⟩ := par_inv hb
    rw [List.singleton_append, take_word, optIdent_follow ha _ _ _ (by exact Follow.cons lp _ _ (by simp [lp])),
      SM.bind_ok (a := (true, ty)) (s' := st.push c), hi _ st (hst.mono (by simp)) (by omega)]
    · rfl
    · unfold parseGlobalType
      rw [show inParens ([kw (txt "mut")] ++ us) ++ c = lp :: kw (txt "mut") :: (us ++ rp :: c) by simp [inParens], take_eat, take_word,
        take_bind (parseValType_takes (us.length + 1) []) hus _ st (Follow.rp _ _ (by simp)) (by simp), take_rp]
      rfl
  | false =>
    cases hb
    rw [List.singleton_append, take_word, optIdent_follow ha _ _ _ (by exact Follow.cons (kw (valWord ty)) _ _ (by simp [kw])),
      SM.bind_ok (a := (false, ty)) (s' := st.push c), hi _ st (hst.mono (by simp)) (by omega)]
    · rfl
    · unfold parseGlobalType
      rw [take_eatNot (by exact Follow.cons (kw (valWord ty)) _ _ (by simp [kw])),
        take_bind (parseValType_takes 2 []) (a := ty) rfl _ st (insts_follow' lib is c hc st (hst.mono (by simp))) (by simp)]
      rfl

theorem funcItem_takes (lib : Lib) (n m : Nat) (hm : n ≤ m) :
    Takes n (parseFuncItem streamOps lib m) (funcItem lib) [.openParen, .id, .reserved] := by
  intro i ts st h hst hn
  unfold parseFuncItem
  cases i with
  | local_ t =>
    obtain ⟨_, us, rfl, rfl, hus⟩ := h
    rw [List.singleton_append, take_peek, kw_pos]
    exact take_last (parseLocal_takes n _) (a := t) ⟨_, us, rfl, rfl, hus⟩ _ st hst hn
  | param p =>
    obtain ⟨w, r', rfl, hw⟩ := param_words p ts h
    obtain rfl : w = txt "param" := by simpa using hw
    rw [take_peek, kw_neg (by decide), kw_pos]
    exact take_last (parseParameter_takes n m hm) h _ st (hst.mono (by simp)) hn
  | result r =>
    obtain ⟨w, r', rfl, hw⟩ := result_words r ts h
    obtain rfl : w = txt "result" := by simpa using hw
    rw [take_peek, kw_neg (by decide), kw_neg (by decide), kw_pos]
    exact take_last (parseResult_takes n _) h _ st hst hn
  | export_ s =>
    obtain ⟨_, us, rfl, rfl, hus⟩ := h
    rw [List.singleton_append, take_peek, kw_neg (by decide), kw_neg (by decide), kw_neg (by decide), kw_pos]
    exact take_last (parseExport_takes n _) (a := s) ⟨_, us, rfl, rfl, hus⟩ _ st hst hn
  | import_ =>
    obtain ⟨s, s', _, us, rfl, rfl, hus⟩ := h
    rw [List.singleton_append, take_peek, kw_neg (by decide), kw_neg (by decide), kw_neg (by decide), kw_neg (by decide), kw_pos]
    exact take_last (parseImport_takes n _) (a := ()) ⟨s, s', _, us, rfl, rfl, hus⟩ _ st hst hn
  | inst i =>
    obtain ⟨w, r, rfl, hw⟩ := inst_words lib i ts h
    simp only [noInst, List.mem_cons, not_or] at hw
    rw [take_peek, kw_neg hw.2.2.2.1, kw_neg hw.2.2.2.2.1, kw_neg hw.1, kw_neg hw.2.2.2.2.2.1, kw_neg hw.2.2.2.2.2.2.1]
    exact take_last (parseInstruction_more lib n m hm) h _ st (hst.mono (by simp)) hn

theorem parseFunc_takes (lib : Lib) (n m : Nat) (hm : n ≤ m) (f : Function) (ts r : List Sig) (st : Stream) (h : func lib f ts) (hn : ts.length < n) :
    parseFunc streamOps lib m (st.push (ts ++ rp :: r)) = (.ok f, st.push (rp :: r)) := by
  obtain ⟨_, _, rfl, rfl, a, _, rfl, ha, h⟩ := h
  obtain ⟨items, rest, b, c, e, rfl, hb, hc⟩ := (isFunc_iff _ _ _).1 h
  simp only [List.length_append, List.length_cons, List.length_nil] at hn
  unfold parseFunc
  have hfc : Follow [.openParen, .id] (st.push (c ++ rp :: r)) := by
    cases rest with
    | nil => cases hc; exact Follow.rp _ _ (by simp)
    | cons i is =>
      obtain ⟨d, d', rfl, hd, -⟩ := hc
      obtain ⟨w, r', rfl, -⟩ := inst_words lib i d hd
      exact Follow.cons (kw w) _ _ (by simp [kw])
  have hfb : Follow [.id] (st.push (b ++ (c ++ rp :: r))) := by
    rw [← push_push]
    exact many_par_follow _ items b hb _ _ (by simp) (hfc.mono (by simp))
  rw [show [kw (txt "func")] ++ (a ++ (b ++ c)) ++ rp :: r = kw (txt "func") :: (a ++ (b ++ (c ++ rp :: r))) by simp, take_word,
    optIdent_follow ha _ _ _ hfb, take_bind (parens_takes (funcItem_takes lib n m hm) (by simp) m hm) hb _ st (hfc.mono (by simp)) (by omega),
    ← push_push]
  have := while_takes (n := n) (fun tok => tok.type != .closeParen) (parseInstruction_more lib n m hm) (fun i ts h => by
    obtain ⟨w, r, rfl, -⟩ := inst_words lib i ts h
    exact ⟨kw w, r, rfl, by simp [kw], by simp [kw]⟩) m hm rest c (st.push (rp :: r)) hc rp (r ++ st.toks) rfl (by simp [rp]) (by simp [rp])
      (by omega)
  rw [SM.bind_ok this]
  exact congrArg (fun f => (Res.ok f, st.push (rp :: r))) e.symm

theorem section_takes (lib : Lib) (n m : Nat) (hm : n ≤ m) (x : Section) (ts r : List Sig) (st : Stream) (h : sectionIn lib x ts)
    (hn : ts.length < n) : parseSection streamOps lib m (st.push (ts ++ rp :: r)) = (.ok x, st.push (rp :: r)) := by
  have hst : ∀ ks, TokenType.closeParen ∉ ks → Follow ks (st.push (rp :: r)) := fun ks hk => Follow.rp _ _ hk
  unfold parseSection
  cases x with
  | func f =>
    have k := parseFunc_takes lib n m hm f ts r st h hn
    obtain ⟨_, _, rfl, rfl, -⟩ := h
    rw [List.singleton_append, List.cons_append, take_peek, kw_pos]
    exact SM.bind_ok k
  | type t =>
    have k := take_bind (parseType_takes n m hm) h (fun t => pure (Section.type t)) st (hst _ (by simp)) hn
    obtain ⟨_, _, rfl, rfl, -⟩ := h
    rw [List.singleton_append, List.cons_append, take_peek, kw_neg (by decide), kw_pos]
    exact k
  | table t =>
    have k := take_bind (parseTable_takes n m hm) h (fun t => pure (Section.table t)) st (hst _ (by simp)) hn
    obtain ⟨_, _, rfl, rfl, -⟩ := h
    rw [List.singleton_append, List.cons_append, take_peek, kw_neg (by decide), kw_neg (by decide), kw_pos]
    exact k
  | global g =>
    have k := take_bind (parseGlobal_takes lib n m hm) h (fun t => pure (Section.global t)) st (hst _ (by simp)) hn
    obtain ⟨_, _, rfl, rfl, -⟩ := h
    rw [List.singleton_append, List.cons_append, take_peek, kw_neg (by decide), kw_neg (by decide), kw_neg (by decide), kw_pos]
    exact k
  | memory x =>
    have k := take_bind (parseMemory_takes n) h (fun t => pure (Section.memory t)) st (hst _ (by simp)) hn
    obtain ⟨_, _, rfl, rfl, -⟩ := h
    rw [List.singleton_append, List.cons_append, take_peek, kw_neg (by decide), kw_neg (by decide), kw_neg (by decide), kw_neg (by decide), kw_pos]
    exact k

theorem root_takes (lib : Lib) (n : Nat) (d : Directive) (ts r : List Sig) (st : Stream) (h : directiveIn lib d ts)
    (hn : ts.length < n) : parseRoot streamOps lib n (st.push (ts ++ rp :: r)) = (.ok d, st.push (rp :: r)) := by
  unfold parseRoot
  cases d with
  | component =>
    cases h
    rw [List.singleton_append, take_peek, if_neg (by simp), if_pos rfl]
    exact SM.bind_ok (expect_cons ⟨.component, txt "component"⟩ _ _)
  | module m =>
    obtain ⟨_, us, rfl, rfl, h⟩ := h
    obtain ⟨items, rfl, hi⟩ := (isModule_iff _ _ _).1 h
    rw [List.singleton_append, List.cons_append, take_peek, if_pos rfl]
    refine SM.bind_ok ?_
    unfold parseModule
    rw [SM.bind_ok (show expect streamOps .module (st.push (⟨.module, txt "module"⟩ :: (us ++ rp :: r))) = (.ok (), st.push (us ++ rp :: r)) from
        expect_cons ⟨.module, txt "module"⟩ _ _),
      take_bind (parens_takes' (n := n) (fun x ts r st h hn => section_takes lib n n (Nat.le_refl _) x ts r st h hn) n (Nat.le_refl _)) hi _ st
        (Follow.rp _ _ (by simp)) (by simp at hn; omega)]
    rfl

theorem parse_takes (lib : Lib) (n : Nat) (d : Directive) (ts : List Sig) (st : Stream) (h : directive lib d ts)
    (hn : ts.length < n) : parse streamOps lib n (st.push ts) = (.ok d, st) := by
  rw [directive_par] at h
  obtain ⟨us, rfl, hus⟩ := par_inv h
  simp only [inParens, List.length_append, List.length_cons] at hn
  unfold parse
  rw [show inParens us = lp :: (us ++ [rp]) from rfl, take_lp, SM.bind_ok (root_takes lib n d us [] st hus (by omega)), take_rp]
  rfl

end Verif.Wat.Grammar
