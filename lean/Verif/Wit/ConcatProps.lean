import Verif.Wit.Concat

/-!
# C149: one WIT text after another
-/

namespace Verif.Wit

open Spec

namespace Spec

/-- What comes of the second text, with the first before it: the package of the first and the items of both. -/
def before (a : Ast) : Res Ast → Res Ast
  | .ok b => .ok ⟨a.package, a.items ++ b.items⟩
  | r => r

/-- The first token that is neither white space nor a comment, if there is one, can neither begin a package declaration nor
go on with a use that has come before. -/
def BeginsAfresh [Unicode] (text : List Byte) : Prop :=
  ∀ t ∈ (tokens text).head?, t.type ≠ .package ∧ t.type ≠ .as ∧ t.type ≠ .colon

/-- The texts, each on a new line after the first. -/
def inLines (a : List Byte) : List (List Byte) → List Byte
  | [] => a
  | b :: bs => inLines (a ++ txt "\n" ++ b) bs

end Spec

theorem loose_append (is js : List AstItem) (ts us : List Sig) (h : loose is ts) (h' : loose js us)
    (hu : ∀ t ∈ us.head?, t.type ≠ .as ∧ t.type ≠ .colon) : loose (is ++ js) (ts ++ us) := by
  induction is generalizing ts with
  | nil => cases h; exact h'
  | cons i is ih =>
    obtain ⟨a, b, rfl, ha, hb, ho⟩ := h
    refine ⟨a, b ++ us, by simp, ha, ih b hb, fun hi t ht => ?_⟩
    cases b with
    | nil => exact hu t ht
    | cons x b => exact ho hi t ht

theorem loose_drop (is ks : List AstItem) (ts us : List Sig) (h : loose is ts) (h' : loose ks (ts ++ us))
    (hu : ∀ t ∈ us.head?, t.type ≠ .as ∧ t.type ≠ .colon) : ∃ js, ks = is ++ js ∧ loose js us := by
  induction is generalizing ts ks with
  | nil => cases h; exact ⟨ks, rfl, h'⟩
  | cons i is ih =>
    obtain ⟨a, b, rfl, ha, hb, ho⟩ := h
    have hf : OpenUse i → ∀ t ∈ (b ++ us).head?, t.type ≠ .as ∧ t.type ≠ .colon := fun hi t ht => by
      cases b with
      | nil => exact hu t ht
      | cons x b => exact ho hi t ht
    cases ks with
    | nil =>
      obtain ⟨t, r, rfl, -⟩ := looseItem_takes (a.length + 1) i a (b ++ us) ha hf (by omega)
      cases h'
    | cons k ks =>
      obtain ⟨a', b', e, hk, hks, ho'⟩ := h'
      obtain ⟨t, r, rfl, h1⟩ := looseItem_takes (a.length + a'.length + 1) i a (b ++ us) ha hf (by omega)
      obtain ⟨t', r', rfl, h2⟩ := looseItem_takes (_ + a'.length + 1) k a' b' hk ho' (by omega)
      rw [List.cons_append, List.cons_append, List.cons_append, List.append_assoc] at e
      injection e with e1 e2
      subst e1
      rw [e2, h2] at h1
      cases h1
      obtain ⟨js, rfl, hj⟩ := ih ks b hb hks
      exact ⟨js, rfl, hj⟩

variable [Unicode]

theorem wit_err (text : List Byte) (n : Nat) (hn : text.length < n) (h : ∀ a, parseText n text ≠ .ok a) : parseText n text = .err := by
  rcases (wit_parser_ends text n n hn hn).1 with ⟨a, e⟩ | e
  · exact absurd e (h a)
  · exact e

/-- C149. After a text that is accepted, on a new line, a text that begins afresh is read as if it stood alone: it is
accepted if it is accepted alone, with its items after those of the first, and refused if it is refused alone. -/
theorem wit_concat (a b : List Byte) (n m k : Nat) (hn : a.length < n) (hm : b.length < m) (hk : a.length + 1 + b.length < k)
    (t : Ast) (ha : parseText n a = .ok t) (hb : BeginsAfresh b) :
    parseText k (a ++ txt "\n" ++ b) = before t (parseText m b) := by
  obtain ⟨la, ga⟩ := (accepted_iff_loose a n hn t).1 ha
  have et : a ++ txt "\n" ++ b = a ++ ch '\n' :: b := by rw [List.append_assoc]; rfl
  rw [et]
  obtain ⟨e1, e2⟩ := tokens_newline a b la
  have hlen : (a ++ ch '\n' :: b).length < k := by simp; omega
  have hu : ∀ x ∈ (tokens b).head?, x.type ≠ .as ∧ x.type ≠ .colon := fun x hx => (hb x hx).2
  have hp : ∀ x ∈ (tokens b).head?, x.type ≠ .package := fun x hx => (hb x hx).1
  by_cases hok : ∃ u, parseText m b = .ok u
  · obtain ⟨u, hu'⟩ := hok
    obtain ⟨lb, gb⟩ := (accepted_iff_loose b m hm u).1 hu'
    have gb : loose u.items (tokens b) := by
      rcases u with ⟨_ | p, is⟩
      · exact gb.1
      · obtain ⟨x, y, e, hx, -⟩ := gb
        obtain ⟨w, r, rfl, -⟩ := package_takes p x ⟨[], true⟩ hx
        exact absurd rfl (hp ⟨.package, w⟩ (by rw [e]; rfl))
    rw [hu']
    refine (accepted_iff_loose _ k hlen _).2 ⟨e2.2 lb, ?_⟩
    rw [e1]
    rcases t with ⟨_ | p, is⟩
    · refine ⟨loose_append _ _ _ _ ga.1 gb hu, fun x hx => ?_⟩
      rcases hta : tokens a with _ | ⟨y, ys⟩
      · rw [hta] at hx; exact hp x hx
      · rw [hta] at hx; exact ga.2 x (by rw [hta]; exact hx)
    · obtain ⟨x, y, e, hx, hy⟩ := ga
      exact ⟨x, y ++ tokens b, by rw [e, List.append_assoc], hx, loose_append _ _ _ _ hy gb hu⟩
  · have hno : ∀ u, parseText m b ≠ .ok u := fun u h => hok ⟨u, h⟩
    rw [wit_err b m hm hno]
    refine wit_err _ k hlen fun w hw => ?_
    obtain ⟨lw, gw⟩ := (accepted_iff_loose _ k hlen w).1 hw
    have lb := e2.1 lw
    rw [e1] at gw
    have : ∃ js, loose js (tokens b) := by
      rcases t with ⟨_ | p, is⟩
      · rcases w with ⟨_ | q, ws⟩
        · obtain ⟨js, -, hj⟩ := loose_drop is ws _ _ ga.1 gw.1 hu
          exact ⟨js, hj⟩
        · obtain ⟨x, y, e, hx, -⟩ := gw
          obtain ⟨v, r, rfl, -⟩ := package_takes q x ⟨[], true⟩ hx
          rcases hta : tokens a with _ | ⟨z, zs⟩
          · rw [hta, List.nil_append] at e
            exact absurd rfl (hp ⟨.package, v⟩ (by rw [e]; rfl))
          · rw [hta] at e
            injection e with e3 e4
            exact absurd (by rw [e3]) (ga.2 z (by rw [hta]; rfl))
      · obtain ⟨x, y, e, hx, hy⟩ := ga
        obtain ⟨v, r, rfl, h1⟩ := package_takes p x ⟨y ++ tokens b, true⟩ hx
        rcases w with ⟨_ | q, ws⟩
        · exact absurd rfl (gw.2 ⟨.package, v⟩ (by rw [e]; rfl))
        · obtain ⟨x', y', e', hx', hy'⟩ := gw
          obtain ⟨v', r', rfl, h2⟩ := package_takes q x' ⟨y', true⟩ hx'
          rw [e, List.append_assoc, List.cons_append, List.cons_append] at e'
          injection e' with e3 e4
          have : Stream.push ⟨y ++ tokens b, true⟩ r = Stream.push ⟨y', true⟩ r' := by
            unfold Stream.push; rw [e4]
          rw [this, h2] at h1
          cases h1
          obtain ⟨js, -, hj⟩ := loose_drop is ws _ _ hy hy' hu
          exact ⟨js, hj⟩
    obtain ⟨js, hj⟩ := this
    exact hno ⟨none, js⟩ ((accepted_iff_loose b m hm _).2 ⟨lb, hj, hp⟩)

/-- C149. Any number of texts, each of them accepted: together they are accepted, with the package of the first and the
items of all, in order. -/
theorem wit_concat_all (a : List Byte) (bs : List (List Byte × Ast)) (n k : Nat) (hn : a.length < n)
    (hk : (inLines a (bs.map (·.1))).length < k) (t : Ast) (ha : parseText n a = .ok t)
    (hb : ∀ b ∈ bs, BeginsAfresh b.1 ∧ ∃ m, b.1.length < m ∧ parseText m b.1 = .ok b.2) :
    parseText k (inLines a (bs.map (·.1))) = .ok ⟨t.package, t.items ++ bs.flatMap (·.2.items)⟩ := by
  induction bs generalizing a n t with
  | nil =>
    rw [List.map_nil, inLines, ← (wit_parser_ends a n k hn hk).2, ha, List.flatMap_nil, List.append_nil]
  | cons b bs ih =>
    obtain ⟨hf, m, hm, hp⟩ := hb b (List.mem_cons_self ..)
    have := wit_concat a b.1 n m (a.length + 1 + b.1.length + 1) hn hm (by omega) t ha hf
    rw [hp] at this
    have hlen : (a ++ txt "\n" ++ b.1).length < a.length + 1 + b.1.length + 1 := by
      rw [List.length_append, List.length_append]; have : (txt "\n").length = 1 := by decide
      omega
    have h2 := ih (a ++ txt "\n" ++ b.1) _ hlen hk _ this (fun c hc => hb c (List.mem_cons_of_mem _ hc))
    rw [List.map_cons, inLines, h2, List.flatMap_cons, List.append_assoc]

omit [Unicode] in
/-- **The new line is needed.** Without it a line comment at the end of the first text takes the second one away. -/
theorem concat_comment : letI := someTables
    (parseText 100 (txt "interface a {} // end") matches .ok ⟨none, [_]⟩) ∧
    (parseText 100 (txt "interface b {}") matches .ok ⟨none, [_]⟩) ∧
    (parseText 100 (txt "interface a {} // end" ++ txt "interface b {}") matches .ok ⟨none, [_]⟩) ∧
    (parseText 100 (txt "interface a {} // end" ++ txt "\n" ++ txt "interface b {}") matches .ok ⟨none, [_, _]⟩) := by
  decide +kernel

omit [Unicode] in
/-- **Where it stops.** A second package declaration is neither read as one nor refused: the text is accepted, and each of
the tokens of the declaration is an item without content. And an `as` at the beginning of
the second text gives the use of the first its name. -/
theorem concat_package_lost : letI := someTables
    (parseText 100 (txt "interface a {}") matches .ok ⟨none, [_]⟩) ∧
    (parseText 100 (txt "package n:p; interface b {}") matches .ok ⟨some _, [_]⟩) ∧
    (parseText 100 (txt "interface a {}" ++ txt "\n" ++ txt "package n:p; interface b {}") matches
      .ok ⟨none, [_, ⟨none, none, none⟩, ⟨none, none, none⟩, ⟨none, none, none⟩, ⟨none, none, none⟩, ⟨none, none, none⟩, _]⟩) ∧
    (parseText 100 (txt "use c") matches .ok ⟨none, [⟨none, none, some ⟨_, none⟩⟩]⟩) ∧
    (parseText 100 (txt "as d") matches .ok ⟨none, [⟨none, none, none⟩, ⟨none, none, none⟩]⟩) ∧
    (parseText 100 (txt "use c" ++ txt "\n" ++ txt "as d") matches .ok ⟨none, [⟨none, none, some ⟨_, some _⟩⟩]⟩) := by
  decide +kernel

/-- The hypotheses are met: a text with a package that ends with a line comment, and a second text with two items. -/
example : letI := someTables
    (parseText 100 (txt "package n:p; interface a {} // end") matches .ok ⟨some _, [_]⟩) ∧
    (∀ t ∈ (tokens (txt "/* c */ interface b {} world w {}")).head?, t.type = .interface) ∧
    (parseText 100 (txt "/* c */ interface b {} world w {}") matches .ok ⟨none, [_, _]⟩) ∧
    (parseText 100 (txt "package n:p; interface a {} // end" ++ txt "\n" ++ txt "/* c */ interface b {} world w {}") matches
      .ok ⟨some _, [_, _, _]⟩) := by
  decide +kernel

end Verif.Wit
