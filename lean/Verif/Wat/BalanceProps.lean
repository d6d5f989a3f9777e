import Verif.Wat.GrammarProps

/-!
# Parentheses: C83 for modules
-/

namespace Verif.Wat

namespace Spec

/-- Every parenthesis is matched. -/
inductive Balanced : List Sig → Prop
  | nil : Balanced []
  | other {t : Sig} {ts : List Sig} : t.type ≠ .openParen → t.type ≠ .closeParen → Balanced ts → Balanced (t :: ts)
  | parens {o c : Sig} {ts us : List Sig} : o.type = .openParen → c.type = .closeParen → Balanced ts → Balanced us →
    Balanced (o :: (ts ++ c :: us))

end Spec

open Spec

theorem Spec.Balanced.append {ts us : List Sig} (h : Balanced ts) (h' : Balanced us) : Balanced (ts ++ us) := by
  induction h with
  | nil => exact h'
  | other h1 h2 _ ih => exact .other h1 h2 ih
  | parens h1 h2 i1 _ _ ih =>
    have := Balanced.parens h1 h2 i1 ih
    simpa using this

theorem Spec.Balanced.one {t : Sig} (h1 : t.type ≠ .openParen) (h2 : t.type ≠ .closeParen) : Balanced [t] := .other h1 h2 .nil

theorem Spec.Balanced.inParens {ts : List Sig} (h : Balanced ts) : Balanced (inParens ts) := .parens rfl rfl h .nil

/-! ## Counting -/

/-- The number of tokens of a type. -/
def count (k : TokenType) (ts : List Sig) : Nat := (ts.filter fun t => t.type = k).length

theorem count_append (k : TokenType) (a b : List Sig) : count k (a ++ b) = count k a + count k b := by simp [count]

theorem count_cons (k : TokenType) (t : Sig) (b : List Sig) : count k (t :: b) = (if t.type = k then 1 else 0) + count k b := by
  unfold count
  rw [List.filter_cons]
  split <;> simp_all
  omega

theorem balanced_count {ts : List Sig} (h : Balanced ts) : count .openParen ts = count .closeParen ts := by
  induction h with
  | nil => rfl
  | other h1 h2 _ ih => rw [count_cons, count_cons, if_neg h1, if_neg h2, ih]
  | parens h1 h2 _ _ i1 i2 =>
    simp only [count_cons, count_append, h1, h2, i1, i2]
    simp
    omega

theorem balanced_prefix {ts : List Sig} (h : Balanced ts) (p q : List Sig) (e : ts = p ++ q) : count .closeParen p ≤ count .openParen p := by
  induction h generalizing p q with
  | nil =>
    rw [List.nil_eq, List.append_eq_nil_iff] at e
    rw [e.1]; exact Nat.le_refl _
  | @other t ts h1 h2 _ ih =>
    cases p with
    | nil => exact Nat.le_refl _
    | cons x p =>
      simp only [List.cons_append, List.cons.injEq] at e
      obtain ⟨rfl, e⟩ := e
      have := ih p q e
      rw [count_cons, count_cons, if_neg h1, if_neg h2]
      omega
  | @parens o c ts us h1 h2 b1 _ i1 i2 =>
    cases p with
    | nil => exact Nat.le_refl _
    | cons x p =>
      simp only [List.cons_append, List.cons.injEq] at e
      obtain ⟨rfl, e⟩ := e
      rw [count_cons, count_cons, if_pos h1, if_neg (by simp [h1])]
      rcases List.append_eq_append_iff.1 e with ⟨a, rfl, e'⟩ | ⟨a, e', -⟩
      · cases a with
        | nil =>
          have := balanced_count b1
          rw [List.append_nil]
          omega
        | cons y a =>
          simp only [List.cons_append, List.cons.injEq] at e'
          obtain ⟨rfl, e'⟩ := e'
          have k1 := balanced_count b1
          have k2 := i2 a q e'
          rw [count_append, count_append, count_cons, count_cons, if_pos h2, if_neg (by simp [h2])]
          omega
      · have := i1 p a e'
        omega

/-- Nothing shorter is balanced. -/
theorem inParens_least {us : List Sig} (h : Balanced us) (p q : List Sig) (e : inParens us = p ++ q) (hp : p ≠ []) (hq : q ≠ []) :
    ¬ Balanced p := by
  intro hb
  cases p with
  | nil => exact hp rfl
  | cons x p =>
    simp only [inParens, List.cons_append, List.cons.injEq] at e
    obtain ⟨rfl, e⟩ := e
    have k := balanced_count hb
    rw [count_cons, count_cons, if_pos (show lp.type = .openParen from rfl), if_neg (show ¬ lp.type = .closeParen by simp [lp])] at k
    rcases List.append_eq_append_iff.1 e with ⟨a, rfl, e'⟩ | ⟨a, e', -⟩
    · cases a with
      | nil =>
        have := balanced_count h
        rw [List.append_nil] at k
        omega
      | cons y a =>
        simp only [List.cons_append, List.cons.injEq, List.nil_eq, List.append_eq_nil_iff] at e'
        exact hq e'.2.2
    · have := balanced_prefix h p a e'
      omega

/-! ## The grammar -/

/-- All sequences are balanced. -/
def Balances (A : Lang) : Prop := ∀ ts, A ts → Balanced ts

theorem Balances.cat {A B : Lang} (h : Balances A) (h' : Balances B) : Balances (A ⬝ B) := by
  rintro _ ⟨a, b, rfl, ha, hb⟩
  exact (h a ha).append (h' b hb)

theorem Balances.alt {A B : Lang} (h : Balances A) (h' : Balances B) : Balances (A ∣∣ B) := by
  rintro ts (ha | hb)
  · exact h ts ha
  · exact h' ts hb

theorem Balances.eps : Balances eps := by rintro _ rfl; exact .nil

theorem Balances.only (p : Prop) : Balances (only p) := by rintro _ ⟨-, rfl⟩; exact .nil

theorem Balances.tok {t : Sig} (h1 : t.type ≠ .openParen) (h2 : t.type ≠ .closeParen) : Balances (tok t) := by rintro _ rfl; exact .one h1 h2

theorem Balances.word (w : List Byte) : Balances (word w) := .tok (by simp [kw]) (by simp [kw])

theorem Balances.par {A : Lang} (h : Balances A) : Balances (par A) := by
  intro ts ht
  obtain ⟨us, rfl, hu⟩ := Grammar.par_inv ht
  exact (h us hu).inParens

theorem Balances.many {α : Type} {A : α → Lang} (h : ∀ x, Balances (A x)) (xs : List α) : Balances (many A xs) := by
  induction xs with
  | nil => exact .eps
  | cons x xs ih => exact (h x).cat ih

theorem Balances.ident (w : List Byte) : Balances (ident w) := .tok (by simp) (by simp)

theorem Balances.optIdent (o : Option (List Byte)) : Balances (optIdent o) := by
  cases o with
  | none => exact .eps
  | some w => exact .ident w

theorem Balances.val (t : ValType) : Balances (val t) := .word _

theorem Balances.str (s : List Byte) : Balances (str s) := by
  rintro _ ⟨-, rfl⟩
  exact .one (by simp) (by simp)

theorem Balances.int32 (v : U32) : Balances (int32 v) := by
  rintro _ ⟨w, i, -, -, rfl⟩
  exact .one (by simp) (by simp)

theorem Balances.int64 (v : U64) : Balances (int64 v) := by
  rintro _ ⟨w, i, -, -, rfl⟩
  exact .one (by simp) (by simp)

theorem Balances.float32 (lib : Lib) (v : U32) : Balances (float32 lib v) := by
  rintro _ (⟨w, -, rfl⟩ | ⟨i, h, -⟩)
  · exact .one (by simp) (by simp)
  · exact Balances.int32 i _ h

theorem Balances.float64 (lib : Lib) (v : U64) : Balances (float64 lib v) := by
  rintro _ (⟨w, -, rfl⟩ | ⟨i, h, -⟩)
  · exact .one (by simp) (by simp)
  · exact Balances.int64 i _ h

theorem Balances.index (i : Index) : Balances (index i) := by
  cases i with
  | raw v =>
    rintro _ ⟨w, i, -, -, rfl⟩
    exact .one (by simp) (by simp)
  | id w => exact .ident w

theorem Balances.results (r : Result) : Balances (results r) := .par ((Balances.word _).cat (.many .val _))

theorem Balances.result (r : Result) : Balances (result r) := by
  unfold Spec.result
  split
  · exact .par ((Balances.word _).cat (.val _))
  · exact fun _ h => h.elim

theorem Balances.param (p : Parameter) : Balances (param p) := by
  unfold Spec.param
  split
  · exact .par ((Balances.word _).cat ((Balances.ident _).cat (.val _)))
  · exact .par ((Balances.word _).cat (.many .val _))
  · exact fun _ h => h.elim

theorem Balances.cons {A : Lang} (w : List Byte) {ts : List Sig} (h : Balances A) (ht : A ts) : Balanced (kw w :: ts) :=
  .other (by simp [kw]) (by simp [kw]) (h ts ht)

theorem kw_balanced (w : List Byte) {ts : List Sig} (h : Balanced ts) : Balanced (kw w :: ts) := .other (by simp [kw]) (by simp [kw]) h

mutual

theorem inst_balanced (lib : Lib) (i : Inst) (ts : List Sig) : IsInst lib i ts → Balanced ts
  | .alone h => head_balanced lib _ _ h
  | .folded _ h _ hs => (head_balanced lib _ _ h).append (insts_balanced lib _ _ hs)

theorem head_balanced (lib : Lib) (i : Inst) (ts : List Sig) : IsHead lib i ts → Balanced ts
  | .lost _ => kw_balanced _ .nil
  | .plain => kw_balanced _ .nil
  | .indexed h => kw_balanced _ (Balances.index _ _ h)
  | .i32Const h => kw_balanced _ (Balances.int32 _ _ h)
  | .i64Const h => kw_balanced _ (Balances.int64 _ _ h)
  | .f32Const h => kw_balanced _ (Balances.float32 _ _ _ h)
  | .f64Const h => kw_balanced _ (Balances.float64 _ _ _ h)
  | .callIndirect h => kw_balanced _ (((Balances.word _).cat (.ident _)).par _ h)
  | .block h1 h2 h3 => kw_balanced _ ((Balances.optIdent _ _ h1).append ((Balances.many .results _ _ h2).append (insts_balanced lib _ _ h3)))
  | .loop h1 h2 h3 => kw_balanced _ ((Balances.optIdent _ _ h1).append ((Balances.many .results _ _ h2).append (insts_balanced lib _ _ h3)))
  | .ifThen h1 h2 => kw_balanced _ ((Balances.optIdent _ _ h1).append (if_balanced lib _ _ _ _ _ h2))

theorem insts_balanced (lib : Lib) (is : List Inst) (ts : List Sig) : IsInsts lib is ts → Balanced ts
  | .nil => .nil
  | .cons h hs => (inst_balanced lib _ _ h).inParens.append (insts_balanced lib _ _ hs)

theorem if_balanced (lib : Lib) (rs : List Result) (clause : List Inst) (thens elses : Option (List Inst)) (ts : List Sig) :
    IsIf lib rs clause thens elses ts → Balanced ts
  | .nil => .nil
  | .result h hs => (Balances.result _ _ h).append (if_balanced lib _ _ _ _ _ hs)
  | .clause h hs => (inst_balanced lib _ _ h).inParens.append (if_balanced lib _ _ _ _ _ hs)
  | .then_ h hs => (kw_balanced _ (insts_balanced lib _ _ h)).inParens.append (if_balanced lib _ _ _ _ _ hs)
  | .else_ h hs => (kw_balanced _ (insts_balanced lib _ _ h)).inParens.append (if_balanced lib _ _ _ _ _ hs)

end

theorem func_balanced (lib : Lib) (f : Function) (ts : List Sig) (h : IsFunc lib f ts) : Balanced ts := by
  induction h with
  | rest h => exact Balances.many (fun i ts h => inst_balanced lib i ts h) _ _ h
  | local_ h _ ih => exact (((Balances.word _).cat (.val _)).par _ h).append ih
  | param h _ ih => exact (Balances.param _ _ h).append ih
  | result h _ ih => exact (Balances.result _ _ h).append ih
  | export_ h _ ih => exact (((Balances.word _).cat (.str _)).par _ h).append ih
  | import_ h _ ih => exact (((Balances.word _).cat ((Balances.str _).cat (.str _))).par _ h).append ih
  | inst h _ ih => exact (Balances.par (fun ts h => inst_balanced lib _ ts h) _ h).append ih

theorem funcType_balanced (f : FuncType) (ts : List Sig) (h : IsFuncType f ts) : Balanced ts := by
  induction h with
  | nil => exact .nil
  | param h _ ih => exact (Balances.param _ _ h).append ih
  | result h _ ih => exact (Balances.result _ _ h).append ih
  | nothing _ ih => exact (Balanced.inParens .nil).append ih

theorem Balances.limits (l : Limits) : Balances (limits l) := by
  refine (Balances.int32 _).cat ?_
  cases l.max with
  | none => exact .eps
  | some m => exact .int32 m

theorem module_balanced (lib : Lib) (m : Module) (ts : List Sig) (h : IsModule lib m ts) : Balanced ts := by
  induction h with
  | nil => exact .nil
  | func h _ ih =>
    exact (((Balances.word _).cat ((Balances.optIdent _).cat fun ts h => func_balanced lib _ ts h)).par _ h).append ih
  | type h _ ih =>
    refine Balanced.append (Balances.par ((Balances.word _).cat ((Balances.optIdent _).cat (.alt (.par ?_) (.only _)))) _ h) ih
    exact (Balances.word _).cat fun ts h => funcType_balanced _ ts h
  | table h _ ih =>
    refine Balanced.append (Balances.par ((Balances.word _).cat ((Balances.optIdent _).cat (.cat (.cat (.alt (.limits _) (.only _)) ?_) (.many ?_ _)))) _ h) ih
    · rintro _ ⟨w, -, rfl⟩
      exact kw_balanced _ .nil
    · exact fun e => .par ((Balances.word _).cat (.ident _))
  | global h _ ih =>
    refine Balanced.append (Balances.par ((Balances.word _).cat ((Balances.optIdent _).cat (.cat ?_ fun ts h => insts_balanced lib _ ts h))) _ h) ih
    unfold globalType
    split
    · exact .par ((Balances.word _).cat (.val _))
    · exact .val _
  | memory h _ ih =>
    exact (((Balances.word _).cat ((Balances.optIdent _).cat (.limits _))).par _ h).append ih

/-- What is written of a directive is in parentheses, with balanced tokens between them. -/
theorem directive_balanced (lib : Lib) (d : Directive) (ts : List Sig) (h : directive lib d ts) : ∃ us, ts = inParens us ∧ Balanced us := by
  cases d with
  | component =>
    obtain ⟨us, rfl, hu⟩ := Grammar.par_inv h
    exact ⟨us, rfl, Balances.tok (by simp) (by simp) _ hu⟩
  | module m =>
    obtain ⟨us, rfl, hu⟩ := Grammar.par_inv h
    exact ⟨us, rfl, Balances.cat (.tok (by simp) (by simp)) (fun ts h => module_balanced lib _ ts h) _ hu⟩

/-- C83. What an accepted text is read as stands from its first token, an opening parenthesis, to the closing parenthesis
that belongs to it: the tokens between are balanced, and no shorter beginning of the text is. -/
theorem wat_balanced (lib : Lib) (h : lib.Total) (text : List Byte) (n : Nat) (hn : text.length < n) (d : Directive)
    (ha : parseText lib n text = .ok d) :
    ∃ ts rest, tokens text = ts ++ rest ∧ directive lib d ts ∧ Balanced ts ∧
      ∀ p q, tokens text = p ++ q → p ≠ [] → p.length < ts.length → ¬ Balanced p := by
  obtain ⟨ts, rest, e, hd⟩ := (wat_accepted_iff lib h text n hn d).1 ha
  obtain ⟨us, rfl, hu⟩ := directive_balanced lib d ts hd
  refine ⟨inParens us, rest, e, hd, hu.inParens, fun p q e' hp hl => ?_⟩
  rw [e] at e'
  rcases List.append_eq_append_iff.1 e' with ⟨a, rfl, -⟩ | ⟨a, e2, -⟩
  · simp at hl
    omega
  · refine inParens_least hu p a e2 hp ?_
    rintro rfl
    rw [List.append_nil] at e2
    rw [e2] at hl
    omega

/-- C83. So a text whose parentheses never match up is refused. -/
theorem unbalanced_refused (lib : Lib) (h : lib.Total) (text : List Byte) (n : Nat) (hn : text.length < n)
    (hb : ∀ p q, tokens text = p ++ q → p ≠ [] → ¬ Balanced p) : parseText lib n text = .err := by
  rw [wat_refused_iff lib h text n hn]
  intro d ts rest e hd
  obtain ⟨us, rfl, hu⟩ := directive_balanced lib d ts hd
  exact hb _ rest e (by simp [inParens]) hu.inParens

example : ∃ d ts rest, tokens oddText = ts ++ rest ∧ directive someLib d ts ∧ Balanced ts ∧ rest ≠ [] := by
  obtain ⟨d, h⟩ := oddText_accepted
  obtain ⟨ts, rest, e, hd, hb, -⟩ := wat_balanced someLib someLib_total oddText 200 (by decide) d h
  refine ⟨d, ts, rest, e, hd, hb, ?_⟩
  rintro rfl
  rw [List.append_nil] at e
  have := balanced_count hb
  rw [← e] at this
  exact absurd this (by decide +kernel)

example : tokens (txt "(module (func)") = [lp, ⟨.module, txt "module"⟩, lp, kw (txt "func"), rp] := by decide +kernel

end Verif.Wat
