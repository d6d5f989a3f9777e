import Verif.Wat.BalanceProps
import Verif.Wat.Render

/-!
# C153: the sections of a WAT module are read one by one
-/

namespace Verif.Wat

open Spec

namespace Spec

/-- The word `module`. -/
def moduleTok : Sig := ⟨.module, txt "module"⟩

/-- What two modules have, each kind of items one after the other. -/
def Module.merge (a b : Module) : Module :=
  ⟨a.functions ++ b.functions, a.memory ++ b.memory, a.types ++ b.types, a.tables ++ b.tables, a.globals ++ b.globals⟩

/-- What comes of two modules: both together, if both are accepted. -/
def mergeResults : Res Directive → Res Directive → Res Directive
  | .ok (.module a), .ok (.module b) => .ok (.module (Module.merge a b))
  | _, _ => .err

/-- No kind of items is in both modules. -/
def Apart (a b : Module) : Prop :=
  (a.functions = [] ∨ b.functions = []) ∧ (a.memory = [] ∨ b.memory = []) ∧ (a.types = [] ∨ b.types = []) ∧
    (a.tables = [] ∨ b.tables = []) ∧ (a.globals = [] ∨ b.globals = [])

end Spec

/-! ## Proofs -/

theorem ofSections_append (xs ys : List Section) :
    Module.ofSections (xs ++ ys) = Module.merge (Module.ofSections xs) (Module.ofSections ys) := by
  simp only [Module.ofSections, Module.merge, List.filterMap_append]

/-- A part of a pair of parentheses has more opening than closing parentheses. -/
theorem inParens_open {us : List Sig} (h : Balanced us) (p q : List Sig) (e : inParens us = p ++ q) (hp : p ≠ []) (hq : q ≠ []) :
    count .closeParen p < count .openParen p := by
  cases p with
  | nil => exact absurd rfl hp
  | cons x p =>
    simp only [inParens, List.cons_append, List.cons.injEq] at e
    obtain ⟨rfl, e⟩ := e
    rw [count_cons, count_cons, if_pos (show lp.type = .openParen from rfl), if_neg (show ¬ lp.type = .closeParen by simp [lp])]
    rcases List.append_eq_append_iff.1 e with ⟨a, rfl, e'⟩ | ⟨a, e', -⟩
    · cases a with
      | nil =>
        have := balanced_count h
        rw [List.append_nil]
        omega
      | cons y a =>
        simp only [List.cons_append, List.cons.injEq, List.nil_eq, List.append_eq_nil_iff] at e'
        exact absurd e'.2.2 hq
    · have := balanced_prefix h p a e'
      omega

/-- Sections can be cut where as many parentheses are closed as are opened. -/
theorem sections_cut (S : Section → Lang) (hS : ∀ x ts, S x ts → Balanced ts) (xs : List Section) (p q : List Sig)
    (h : many (fun i => par (S i)) xs (p ++ q)) (hp : count .openParen p = count .closeParen p) :
    ∃ ys zs, xs = ys ++ zs ∧ many (fun i => par (S i)) ys p ∧ many (fun i => par (S i)) zs q := by
  induction xs generalizing p with
  | nil =>
    obtain ⟨rfl, rfl⟩ := List.append_eq_nil_iff.1 h
    exact ⟨[], [], rfl, rfl, rfl⟩
  | cons x xs ih =>
    obtain ⟨a, b, e, ha, hb⟩ := h
    obtain ⟨u, rfl, hu⟩ := Grammar.par_inv ha
    have hbal := hS x u hu
    by_cases hne : p = []
    · subst hne
      exact ⟨[], x :: xs, rfl, rfl, by rw [List.nil_append] at e; exact ⟨_, b, e, ha, hb⟩⟩
    rcases List.append_eq_append_iff.1 e with ⟨c, e1, e2⟩ | ⟨c, rfl, e2⟩
    · by_cases hc : c = []
      · subst hc
        rw [List.append_nil] at e1
        subst e1
        exact ⟨[x], xs, rfl, ⟨_, [], (List.append_nil _).symm, ha, rfl⟩, by rw [e2]; exact hb⟩
      · have := inParens_open hbal p c e1 hne hc
        omega
    · subst e2
      obtain ⟨ys, zs, rfl, h1, h2⟩ := ih c hb (by
        have := balanced_count hbal.inParens
        rw [count_append, count_append] at hp
        omega)
      exact ⟨x :: ys, zs, rfl, ⟨_, c, rfl, ha, h1⟩, h2⟩

theorem section_balanced (lib : Lib) (x : Section) (ts : List Sig) (h : Grammar.sectionIn lib x ts) : Balanced ts := by
  cases x with
  | func f => exact ((Balances.word _).cat ((Balances.optIdent _).cat fun ts h => func_balanced lib _ ts h)) _ h
  | type t =>
    refine ((Balances.word _).cat ((Balances.optIdent _).cat (.alt (.par ?_) (.only _)))) _ h
    exact (Balances.word _).cat fun ts h => funcType_balanced _ ts h
  | table t =>
    refine ((Balances.word _).cat ((Balances.optIdent _).cat (.cat (.cat (.alt (.limits _) (.only _)) ?_) (.many ?_ _)))) _ h
    · rintro _ ⟨w, -, rfl⟩
      exact kw_balanced _ .nil
    · exact fun e => .par ((Balances.word _).cat (.ident _))
  | global g =>
    refine ((Balances.word _).cat ((Balances.optIdent _).cat (.cat ?_ fun ts h => insts_balanced lib _ ts h))) _ h
    unfold globalType
    split
    · exact .par ((Balances.word _).cat (.val _))
    · exact .val _
  | memory m => exact ((Balances.word _).cat ((Balances.optIdent _).cat (.limits _))) _ h

theorem many_cat {α : Type} (A : α → Lang) (xs ys : List α) (ts us : List Sig) (h : many A xs ts) (h' : many A ys us) :
    many A (xs ++ ys) (ts ++ us) := by
  induction xs generalizing ts with
  | nil => cases h; exact h'
  | cons x xs ih =>
    obtain ⟨a, b, rfl, ha, hb⟩ := h
    exact ⟨a, b ++ us, by simp, ha, ih b hb⟩

/-- The sections of two modules. -/
theorem module_merge (lib : Lib) (a b : Module) (A B : List Sig) (ha : IsModule lib a A) (hb : IsModule lib b B) :
    IsModule lib (Module.merge a b) (A ++ B) := by
  obtain ⟨xs, rfl, h1⟩ := (Grammar.isModule_iff lib _ _).1 ha
  obtain ⟨ys, rfl, h2⟩ := (Grammar.isModule_iff lib _ _).1 hb
  exact (Grammar.isModule_iff lib _ _).2 ⟨xs ++ ys, (ofSections_append xs ys).symm, many_cat _ _ _ _ _ h1 h2⟩

/-- A module whose text has a balanced beginning. -/
theorem module_cut (lib : Lib) (c : Module) (C A D rest : List Sig) (hc : IsModule lib c C) (hA : Balanced A)
    (e : A ++ D = C ++ rp :: rest) :
    ∃ a b B, c = Module.merge a b ∧ IsModule lib a A ∧ IsModule lib b B ∧ D = B ++ rp :: rest := by
  have hab := balanced_count hA
  rcases List.append_eq_append_iff.1 e with ⟨B, rfl, e2⟩ | ⟨B, rfl, e2⟩
  · obtain ⟨xs, rfl, h1⟩ := (Grammar.isModule_iff lib _ _).1 hc
    obtain ⟨ys, zs, rfl, h2, h3⟩ := sections_cut _ (fun x ts h => section_balanced lib x ts h) xs A B h1 hab
    exact ⟨_, _, B, ofSections_append ys zs, (Grammar.isModule_iff lib _ _).2 ⟨ys, rfl, h2⟩,
      (Grammar.isModule_iff lib _ _).2 ⟨zs, rfl, h3⟩, e2⟩
  · cases B with
    | nil =>
      rw [List.append_nil] at hA hab ⊢
      refine ⟨c, ⟨[], [], [], [], []⟩, [], ?_, hc, .nil, ?_⟩
      · simp [Module.merge]
      · rw [List.nil_append] at e2
        rw [← e2]; rfl
    | cons t B =>
      exfalso
      rw [List.cons_append, List.cons.injEq] at e2
      obtain ⟨rfl, -⟩ := e2
      have c1 := balanced_prefix hA (C ++ [rp]) B (by simp)
      have c2 := balanced_count (module_balanced lib c C hc)
      rw [count_append, count_append, c2] at c1
      have : count .closeParen [rp] = 1 ∧ count .openParen [rp] = 0 := by decide
      omega

theorem accepted_module (lib : Lib) (hlib : lib.Total) (text : List Byte) (n : Nat) (hn : text.length < n) (A : List Sig)
    (e : tokens text = lp :: moduleTok :: A) (c : Module) :
    parseText lib n text = .ok (.module c) ↔ ∃ C rest, A = C ++ rp :: rest ∧ IsModule lib c C := by
  rw [wat_accepted_iff lib hlib text n hn, e]
  constructor
  · rintro ⟨ts, rest, e', h⟩
    obtain ⟨u, rfl, _, C, rfl, rfl, hC⟩ := Grammar.par_inv h
    refine ⟨C, rest, ?_, hC⟩
    simpa [inParens, moduleTok] using e'
  · rintro ⟨C, rest, rfl, hC⟩
    refine ⟨inParens (moduleTok :: C), rest, by simp [inParens], ?_⟩
    exact ⟨[lp], moduleTok :: C ++ [rp], rfl, rfl, moduleTok :: C, [rp], rfl, ⟨[moduleTok], C, rfl, rfl, hC⟩, rfl⟩

theorem accepted_is_module (lib : Lib) (hlib : lib.Total) (text : List Byte) (n : Nat) (hn : text.length < n) (A : List Sig)
    (e : tokens text = lp :: moduleTok :: A) : parseText lib n text = .err ∨ ∃ c, parseText lib n text = .ok (.module c) := by
  rcases (wat_parser_ends lib hlib text n n hn hn).1 with ⟨d, h⟩ | h
  · cases d with
    | component =>
      obtain ⟨ts, rest, e', h'⟩ := (wat_accepted_iff lib hlib text n hn _).1 h
      obtain ⟨u, rfl, rfl⟩ := Grammar.par_inv h'
      rw [e] at e'
      simp [inParens, moduleTok] at e'
    | module c => exact .inr ⟨c, h⟩
  · exact .inl h

/-- C153. A module with the sections `A` and then `B`, where the parentheses in `A` match, is accepted exactly if the module
with the sections `A` and the module with the sections `B` are, and it has what the two have, one after the other. -/
theorem wat_sections (lib : Lib) (hlib : lib.Total) (A B : List Sig) (hA : Balanced A) (ta tb t : List Byte) (na nb n : Nat)
    (hna : ta.length < na) (hnb : tb.length < nb) (hn : t.length < n) (ea : tokens ta = lp :: moduleTok :: (A ++ [rp]))
    (eb : tokens tb = lp :: moduleTok :: (B ++ [rp])) (e : tokens t = lp :: moduleTok :: (A ++ (B ++ [rp]))) :
    parseText lib n t = mergeResults (parseText lib na ta) (parseText lib nb tb) := by
  have key : ∀ c, parseText lib n t = .ok (.module c) ↔ ∃ a b, parseText lib na ta = .ok (.module a) ∧
      parseText lib nb tb = .ok (.module b) ∧ c = Module.merge a b := by
    intro c
    rw [accepted_module lib hlib t n hn _ e]
    constructor
    · rintro ⟨C, rest, e1, hC⟩
      obtain ⟨a, b, B', rfl, ha, hb, e2⟩ := module_cut lib c C A _ rest hC hA e1
      exact ⟨a, b, (accepted_module lib hlib ta na hna _ ea a).2 ⟨A, [], rfl, ha⟩,
        (accepted_module lib hlib tb nb hnb _ eb b).2 ⟨B', rest, e2, hb⟩, rfl⟩
    · rintro ⟨a, b, h1, h2, rfl⟩
      obtain ⟨C, rest, e1, hC⟩ := (accepted_module lib hlib ta na hna _ ea a).1 h1
      obtain ⟨D, rest', e2, hD⟩ := (accepted_module lib hlib tb nb hnb _ eb b).1 h2
      obtain ⟨a1, a2, A', rfl, h3, h4, h5⟩ := module_cut lib a C A _ rest hC hA e1
      have : A' = [] := by
        cases A' with
        | nil => rfl
        | cons x xs =>
          rw [List.cons_append, List.cons.injEq] at h5
          have := congrArg List.length h5.2
          simp at this
      subst this
      have := module_merge lib _ _ _ _ (module_merge lib _ _ _ _ h3 h4) hD
      rw [List.append_nil] at this
      exact ⟨A ++ D, rest', by rw [e2]; simp, this⟩
  rcases accepted_is_module lib hlib ta na hna _ ea with ha | ⟨a, ha⟩ <;>
    rcases accepted_is_module lib hlib tb nb hnb _ eb with hb | ⟨b, hb⟩
  case inr.inr =>
    rw [(key (Module.merge a b)).2 ⟨a, b, ha, hb, rfl⟩, ha, hb]
    rfl
  all_goals
    rw [ha, hb]
    rcases accepted_is_module lib hlib t n hn _ e with h | ⟨c, h⟩
    · rw [h]; rfl
    · obtain ⟨a', b', h1, h2, -⟩ := (key c).1 h
      first
      | (rw [ha] at h1; cases h1; done)
      | (rw [hb] at h2; cases h2)

theorem merge_apart (a b : Module) (h : Apart a b) : Module.merge a b = Module.merge b a := by
  obtain ⟨a1, a2, a3, a4, a5⟩ := a
  obtain ⟨b1, b2, b3, b4, b5⟩ := b
  obtain ⟨h1, h2, h3, h4, h5⟩ := h
  simp only at h1 h2 h3 h4 h5
  simp only [Module.merge, Module.mk.injEq]
  refine ⟨?_, ?_, ?_, ?_, ?_⟩
  · rcases h1 with rfl | rfl <;> simp
  · rcases h2 with rfl | rfl <;> simp
  · rcases h3 with rfl | rfl <;> simp
  · rcases h4 with rfl | rfl <;> simp
  · rcases h5 with rfl | rfl <;> simp

/-- C153, the order of sections. Two groups of sections with no kind of items in common can be exchanged; what comes of the text is
the same. -/
theorem wat_sections_swap (lib : Lib) (hlib : lib.Total) (A B : List Sig) (hA : Balanced A) (hB : Balanced B)
    (ta tb t t' : List Byte) (na nb n n' : Nat) (hna : ta.length < na) (hnb : tb.length < nb) (hn : t.length < n)
    (hn' : t'.length < n') (ea : tokens ta = lp :: moduleTok :: (A ++ [rp])) (eb : tokens tb = lp :: moduleTok :: (B ++ [rp]))
    (e : tokens t = lp :: moduleTok :: (A ++ (B ++ [rp]))) (e' : tokens t' = lp :: moduleTok :: (B ++ (A ++ [rp])))
    (h : ∀ a b, parseText lib na ta = .ok (.module a) → parseText lib nb tb = .ok (.module b) → Apart a b) :
    parseText lib n t = parseText lib n' t' := by
  rw [wat_sections lib hlib A B hA ta tb t na nb n hna hnb hn ea eb e,
    wat_sections lib hlib B A hB tb ta t' nb na n' hnb hna hn' eb ea e']
  rcases accepted_is_module lib hlib ta na hna _ ea with ha | ⟨a, ha⟩ <;>
    rcases accepted_is_module lib hlib tb nb hnb _ eb with hb | ⟨b, hb⟩
  all_goals rw [ha, hb]
  all_goals first | rfl | (show Res.ok _ = Res.ok _; rw [merge_apart a b (h a b ha hb)])

/-- C153, on texts written down: the tokens with a space between them. -/
theorem wat_sections_written (lib : Lib) (hlib : lib.Total) (A B : List Sig) (hA : Balanced A) (wa : ∀ u ∈ A, Written u)
    (wb : ∀ u ∈ B, Written u) (na nb n : Nat) :
    let text (X : List Sig) := sep ((lp :: moduleTok :: (X ++ [rp])).map (·.capture))
    (text A).length < na → (text B).length < nb → (text (A ++ B)).length < n →
    parseText lib n (text (A ++ B)) = mergeResults (parseText lib na (text A)) (parseText lib nb (text B)) := by
  intro text hna hnb hn
  have w : ∀ X : List Sig, (∀ u ∈ X, Written u) → tokens (text X) = lp :: moduleTok :: (X ++ [rp]) := fun X hX => by
    rw [← significant_toks, significant_sep]
    intro u hu
    simp only [List.mem_cons, List.mem_append, List.not_mem_nil, or_false] at hu
    rcases hu with rfl | rfl | hu | rfl
    · exact .openParen
    · exact written_word _ _ (by decide +kernel)
    · exact hX u hu
    · exact .closeParen
  refine wat_sections lib hlib A B hA _ _ _ na nb n hna hnb hn (w A wa) (w B wb) ?_
  rw [w (A ++ B) (by
    intro u hu
    rcases List.mem_append.1 hu with hu | hu
    · exact wa u hu
    · exact wb u hu), List.append_assoc]

/-! ## Cases that meet the hypotheses -/

/-- The tokens of `(func $f) (memory 1)`. -/
def someSections : List Sig :=
  inParens [kw (txt "func"), ⟨.id, txt "$f"⟩] ++ inParens [kw (txt "memory"), ⟨.integer, txt "1"⟩]

/-- The tokens of `(table 1 funcref)`. -/
def moreSections : List Sig := inParens [kw (txt "table"), ⟨.integer, txt "1"⟩, kw (txt "funcref")]

example : Balanced someSections ∧ Balanced moreSections ∧
    tokens (txt "(module (; a ;) (func $f)(memory 1))") = lp :: moduleTok :: (someSections ++ [rp]) ∧
    tokens (txt "(module(table 1 funcref))") = lp :: moduleTok :: (moreSections ++ [rp]) ∧
    tokens (txt "(module (func $f) (memory 1) (table 1 funcref) )") = lp :: moduleTok :: (someSections ++ (moreSections ++ [rp])) ∧
    tokens (txt "(module (table 1 funcref) (func $f) (memory 1) )") = lp :: moduleTok :: (moreSections ++ (someSections ++ [rp])) ∧
    isOk (parseText someLib 100 (txt "(module (; a ;) (func $f)(memory 1))")) = true ∧
    isOk (parseText someLib 100 (txt "(module(table 1 funcref))")) = true := by
  refine ⟨?_, ?_, by decide +kernel, by decide +kernel, by decide +kernel, by decide +kernel, by decide +kernel, by decide +kernel⟩
  · exact (Balanced.inParens (.other (by decide) (by decide) (.other (by decide) (by decide) .nil))).append
      (Balanced.inParens (.other (by decide) (by decide) (.other (by decide) (by decide) .nil)))
  · exact Balanced.inParens (.other (by decide) (by decide) (.other (by decide) (by decide) (.other (by decide) (by decide) .nil)))

/-- **Parentheses that do not match.** If the parentheses of the first part do not match, the second part may be inside a
section of the first: the whole is accepted although the first part is not. -/
theorem sections_unbalanced :
    isOk (parseText someLib 100 (txt "(module (func )")) = false ∧
    isOk (parseText someLib 100 (txt "(module drop) )")) = false ∧
    isOk (parseText someLib 100 (txt "(module (func drop) )")) = true := by decide +kernel

end Verif.Wat
