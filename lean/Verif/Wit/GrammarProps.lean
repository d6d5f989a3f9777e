import Verif.Wit.GrammarLoose
import Verif.Wit.ParseProps

/-!
# The WIT parser and its grammar: C56, C76, C77
-/

namespace Verif.Wit

open Spec

variable [Unicode]

namespace Spec

/-- The tokens of a text other than white space and comments. -/
def tokens (text : List Byte) : List Sig := (meaning (lexed text).1).map fun p => ⟨p.1, p.2⟩

/-- The text has no lexical error. -/
def Lexes (text : List Byte) : Prop := (lexed text).2 = true

omit [Unicode] in
/-- An item that is none: the `AstItem` with all its fields nil. -/
def Empty (i : AstItem) : Prop := i = ⟨none, none, none⟩

end Spec

theorem significant_tokens (text : List Byte) : significant text = ⟨tokens text, (lexed text).2⟩ := by
  obtain ⟨a1, a2⟩ := collect_lexed (text.length + 1) (Lexer.new text)
  have e1 : (significant text).toks = tokens text := by
    unfold tokens lexed
    rw [← a1, List.map_map]
    exact (List.map_id _).symm
  have e2 : (significant text).ended = (lexed text).2 := a2
  rw [← e1, ← e2]

theorem go_no_end (n : Nat) (l : Lexer) : ∀ t ∈ (lexed.go n l).1, t.type ≠ .endOfStream := by
  induction n generalizing l with
  | zero => simp [lexed.go]
  | succ n ih =>
    rw [lexed.go]
    rcases nextTok l with ⟨r, l'⟩
    cases r with
    | ok t =>
      simp only
      split
      · simp
      · rename_i h
        simp only [List.mem_cons, forall_eq_or_imp]
        exact ⟨h, ih l'⟩
    | err => simp
    | panic => simp
    | diverge => simp

theorem tokens_no_end (text : List Byte) : ∀ t ∈ tokens text, t.type ≠ .endOfStream := by
  intro t ht
  simp only [tokens, meaning, List.mem_map, List.mem_filter] at ht
  obtain ⟨p, ⟨u, ⟨hu, -⟩, rfl⟩, rfl⟩ := ht
  exact go_no_end _ _ u hu

/-- What is accepted is a document with other tokens between its items, without lexical errors. -/
theorem accepted_shape (text : List Byte) (n : Nat) (hn : text.length < n) (a : Ast) (h : parseText n text = .ok a) :
    Lexes text ∧ documentOrTokens a (tokens text) := by
  have k := (parseText_tokens text n ((significant text).toks.length + 1) hn (by omega)).1
  rw [h] at k
  rcases hp : parseAst streamOps ((significant text).toks.length + 1) (significant text) with ⟨r, st⟩
  rw [hp] at k
  simp only at k
  subst k
  have hs := significant_tokens text
  have := parseAst_reads _ (significant text) st a (by rw [hs]; exact tokens_no_end text) hp
  rw [hs] at this
  exact this

/-- C76, one direction: a text whose tokens are a document is accepted, as that document. -/
theorem document_accepted (text : List Byte) (n : Nat) (hn : text.length < n) (a : Ast) (hl : Lexes text) (h : document a (tokens text)) :
    parseText n text = .ok a := by
  have k := (parseText_tokens text n ((significant text).toks.length + 2) hn (by omega)).1
  have hs := significant_tokens text
  have e : (lexed text).2 = true := hl
  rw [e] at hs
  rw [k, hs, parseAst_takes _ a (tokens text) h (by simp)]

omit [Unicode] in
theorem many_items (is : List AstItem) (h : ∀ i ∈ is, ¬ Empty i) (ts : List Sig) (hm : many itemOrToken is ts) : many item is ts := by
  induction is generalizing ts with
  | nil => exact hm
  | cons i is ih =>
    obtain ⟨a, b, rfl, hi, his⟩ := hm
    refine ⟨a, b, rfl, ?_, ih (fun j hj => h j (by simp [hj])) b his⟩
    have hne := h i (by simp)
    rcases i with ⟨_ | i, _ | w, _ | u⟩
    · exact absurd rfl hne
    all_goals exact hi

omit [Unicode] in
theorem items_not_empty (is : List AstItem) (ts : List Sig) (hm : many item is ts) : ∀ i ∈ is, ¬ Empty i := by
  induction is generalizing ts with
  | nil => simp
  | cons i is ih =>
    obtain ⟨a, b, rfl, hi, his⟩ := hm
    simp only [List.mem_cons, forall_eq_or_imp]
    refine ⟨?_, ih b his⟩
    rintro rfl
    exact hi

/-- C76. A text is accepted as a tree without empty items exactly if it has no lexical error and its tokens are written as
the grammar says that the tree is. -/
theorem accepted_iff_document (text : List Byte) (n : Nat) (hn : text.length < n) (a : Ast) :
    parseText n text = .ok a ∧ (∀ i ∈ a.items, ¬ Empty i) ↔ Lexes text ∧ document a (tokens text) := by
  constructor
  · rintro ⟨h, he⟩
    obtain ⟨hl, p, b, e, hp, hb⟩ := accepted_shape text n hn a h
    exact ⟨hl, p, b, e, hp, many_items a.items he b hb⟩
  · rintro ⟨hl, h⟩
    refine ⟨document_accepted text n hn a hl h, ?_⟩
    obtain ⟨p, b, e, hp, hb⟩ := h
    exact items_not_empty a.items b hb

/-- C76, for all trees. A text is accepted as a tree exactly if it has no lexical error and its tokens are written as the
grammar says, with other tokens between the items as its empty items. -/
theorem accepted_iff_loose (text : List Byte) (n : Nat) (hn : text.length < n) (a : Ast) :
    parseText n text = .ok a ↔ Lexes text ∧ looseDocument a (tokens text) := by
  have hs := significant_tokens text
  constructor
  · intro h
    have k := (parseText_tokens text n ((significant text).toks.length + 1) hn (by omega)).1
    rw [h] at k
    rcases hp : parseAst streamOps ((significant text).toks.length + 1) (significant text) with ⟨r, st⟩
    rw [hp] at k
    simp only at k
    subst k
    have := parseAst_loose _ (significant text) st a (by rw [hs]; exact tokens_no_end text) hp
    rw [hs] at this
    exact this
  · rintro ⟨hl, h⟩
    have k := (parseText_tokens text n ((significant text).toks.length + 2) hn (by omega)).1
    have e : (lexed text).2 = true := hl
    rw [e] at hs
    rw [k, hs, looseDocument_takes _ a (tokens text) h (tokens_no_end text) (by simp)]

omit [Unicode] in
/-- C77, for all trees. No sequence of tokens can be read as two documents, also with other tokens between the items. -/
theorem loose_unambiguous (ts : List Sig) (hts : ∀ t ∈ ts, t.type ≠ .endOfStream) (a b : Ast) (ha : looseDocument a ts) (hb : looseDocument b ts) : a = b := by
  have h1 := looseDocument_takes (ts.length + 2) a ts ha hts (by omega)
  have h2 := looseDocument_takes (ts.length + 2) b ts hb hts (by omega)
  rw [h1] at h2
  injection h2 with h3
  injection h3

omit [Unicode] in
/-- C77. No sequence of tokens can be read as two documents. -/
theorem document_unambiguous (ts : List Sig) (a b : Ast) (ha : document a ts) (hb : document b ts) : a = b := by
  have h1 := parseAst_takes (ts.length + 2) a ts ha (by omega)
  have h2 := parseAst_takes (ts.length + 2) b ts hb (by omega)
  rw [h1] at h2
  injection h2 with h3
  injection h3

/-- C56, for trees without empty items: such a text is a package declaration, uses, worlds and interfaces only. What is
missing: a text with something else at top level is accepted, as `lone_token_accepted` shows; the tree has an empty item
for every other token. -/
theorem only_items_accepted_partial (text : List Byte) (n : Nat) (hn : text.length < n) (a : Ast) (h : parseText n text = .ok a)
    (he : ∀ i ∈ a.items, ¬ Empty i) :
    Lexes text ∧ ∃ p : List Sig, ∃ parts : List (List Sig), tokens text = p ++ parts.flatten ∧ package a.package p ∧
      ∀ x ∈ parts, (∃ u, topLevelUse u x) ∨ (∃ w, world w x) ∨ ∃ i, interface i x := by
  obtain ⟨hl, p, b, e, hp, hb⟩ := (accepted_iff_document text n hn a).1 ⟨h, he⟩
  refine ⟨hl, p, ?_⟩
  have : ∀ (is : List AstItem) (ts : List Sig), many item is ts → ∃ parts : List (List Sig), ts = parts.flatten ∧
      ∀ x ∈ parts, (∃ u, topLevelUse u x) ∨ (∃ w, world w x) ∨ ∃ i, interface i x := by
    intro is
    induction is with
    | nil =>
      rintro ts rfl
      exact ⟨[], rfl, by simp⟩
    | cons i is ih =>
      rintro ts ⟨a, b, rfl, hi, his⟩
      obtain ⟨parts, rfl, hp⟩ := ih b his
      refine ⟨a :: parts, rfl, ?_⟩
      simp only [List.mem_cons, forall_eq_or_imp]
      refine ⟨?_, hp⟩
      rcases i with ⟨_ | i, _ | w, _ | u⟩
      · exact hi.elim
      · exact .inl ⟨u, hi⟩
      · exact .inr (.inl ⟨w, hi⟩)
      · exact hi.elim
      · exact .inr (.inr ⟨i, hi⟩)
      · exact hi.elim
      · exact hi.elim
      · exact hi.elim
  obtain ⟨parts, rfl, hx⟩ := this a.items b hb
  exact ⟨parts, e, hp, hx⟩

/-- C56 does not hold as stated: every text that is one token, other than the words that begin an item or a package
declaration, is accepted. The token becomes an item with nothing in it. -/
theorem lone_token_accepted (text : List Byte) (n : Nat) (hn : text.length < n) (hl : Lexes text) (t : Sig) (ht : tokens text = [t])
    (hk : t.type ∉ [.use, .world, .interface, .package]) : parseText n text = .ok ⟨none, [⟨none, none, none⟩]⟩ := by
  have k := (parseText_tokens text n 3 hn (by rw [significant_tokens, ht]; simp)).1
  have hs := significant_tokens text
  have e : (lexed text).2 = true := hl
  have he : t.type ≠ .endOfStream := tokens_no_end text t (by rw [ht]; simp)
  rw [e, ht] at hs
  rw [k, hs]
  simp only [List.mem_cons, List.not_mem_nil, or_false, not_or] at hk
  obtain ⟨k1, k2, k3, k4⟩ := hk
  unfold parseAst
  rw [next_bind]
  unfold parseAstPackage
  rw [if_neg k4]
  change ((astLoop streamOps 3 3 t >>= fun is => pure (⟨none, is⟩ : Ast)) ⟨[], true⟩).1 = _
  unfold astLoop
  rw [if_pos he]
  unfold parseAstItem
  rw [if_neg k1, if_neg k2, if_neg k3]
  rfl

/-! ## Types in the tree -/

namespace Spec

/-- The document `interface i { type t = … ; }`. -/
def aliasDocument (i t : List Byte) (a : Ty) : Ast := ⟨none, [⟨some ⟨i, [.typeDef (.type t a)]⟩, none, none⟩]⟩

/-- Its tokens, up to the texts of keywords and punctuation. -/
def AliasTokens (i t : List Byte) (type : List Sig) (ts : List Sig) : Prop :=
  ∃ w1 w2 w3 w4 w5 w6, ts = [⟨.interface, w1⟩, ⟨.id, i⟩, ⟨.openBrace, w2⟩, ⟨.type, w3⟩, ⟨.id, t⟩, ⟨.equal, w4⟩] ++ type ++ [⟨.semicolon, w5⟩, ⟨.closeBrace, w6⟩]

/-- The built-in types of WIT without parameters: the token of the word and the node of the tree for it. -/
def builtins : List (TokenType × Ty) :=
  [(.u8, .u8), (.u16, .u16), (.u32, .u32), (.u64, .u64), (.s8, .s8), (.s16, .s16), (.s32, .s32), (.s64, .s64), (.float32, .float32),
   (.float64, .float64), (.char, .char), (.bool, .bool), (.string, .string)]

end Spec

omit [Unicode] in
theorem alias_document (i t : List Byte) (a : Ty) (type ts : List Sig) (h : AliasTokens i t type ts) (ha : ty a type) :
    document (aliasDocument i t a) ts := by
  obtain ⟨w1, w2, w3, w4, w5, w6, rfl⟩ := h
  refine ⟨[], _, rfl, rfl, _, [], (List.append_nil _).symm, ?_, rfl⟩
  refine ⟨[⟨.interface, w1⟩], _, rfl, ⟨w1, rfl⟩, [⟨.id, i⟩], _, rfl, .inl rfl, [⟨.openBrace, w2⟩], _, rfl, ⟨w2, rfl⟩, ?_⟩
  refine ⟨[⟨.type, w3⟩, ⟨.id, t⟩, ⟨.equal, w4⟩] ++ type ++ [⟨.semicolon, w5⟩], [⟨.closeBrace, w6⟩], by simp, ?_, ⟨w6, rfl⟩⟩
  refine ⟨_, [], (List.append_nil _).symm, ?_, rfl⟩
  exact ⟨[⟨.type, w3⟩], _, rfl, ⟨w3, rfl⟩, [⟨.id, t⟩], _, rfl, .inl rfl, [⟨.equal, w4⟩], _, rfl, ⟨w4, rfl⟩, type, _, rfl, ha, ⟨w5, rfl⟩⟩

/-- A type alias is parsed to the alias of any type its tokens can be read as. -/
theorem alias_parsed (text : List Byte) (n : Nat) (hn : text.length < n) (hl : Lexes text) (i t : List Byte) (a : Ty) (type : List Sig)
    (h : AliasTokens i t type (tokens text)) (ha : ty a type) : parseText n text = .ok (aliasDocument i t a) :=
  document_accepted text n hn _ hl (alias_document i t a type _ h ha)

/-- C78, for the words `u32`, `float32`, `float64` and `string`: an alias of a built-in type is an alias of the node for
that type. What is missing: the other nine built-in types, see `other_builtins_are_names`. -/
theorem builtin_types_partial (text : List Byte) (n : Nat) (hn : text.length < n) (hl : Lexes text) (i t w : List Byte)
    (k : TokenType) (a : Ty) (hk : (k, a) ∈ builtins) (hs : k ∈ [.u32, .float32, .float64, .string])
    (h : AliasTokens i t [⟨k, w⟩] (tokens text)) : parseText n text = .ok (aliasDocument i t a) := by
  refine alias_parsed text n hn hl i t a _ h ?_
  simp only [builtins, List.mem_cons, Prod.mk.injEq, List.not_mem_nil, or_false] at hk hs
  rcases hs with rfl | rfl | rfl | rfl <;> simp at hk <;> subst hk <;> rw [ty] <;> exact ⟨w, rfl⟩

/-- C78 does not hold for the other built-in types: an alias of one of them is an alias of a type of that name, as if a
document had defined it. -/
theorem other_builtins_are_names (text : List Byte) (n : Nat) (hn : text.length < n) (hl : Lexes text) (i t w : List Byte)
    (k : TokenType) (a : Ty) (hk : (k, a) ∈ builtins) (hs : k ∉ [.u32, .float32, .float64, .string])
    (h : AliasTokens i t [⟨k, w⟩] (tokens text)) : parseText n text = .ok (aliasDocument i t (.id w)) ∧ a ≠ .id w := by
  constructor
  · refine alias_parsed text n hn hl i t _ _ h ?_
    rw [ty]
    refine ⟨k, ?_, rfl⟩
    simp only [builtins, List.mem_cons, Prod.mk.injEq, List.not_mem_nil, or_false] at hk
    rcases hk with ⟨rfl, -⟩ | ⟨rfl, -⟩ | ⟨rfl, -⟩ | ⟨rfl, -⟩ | ⟨rfl, -⟩ | ⟨rfl, -⟩ | ⟨rfl, -⟩ | ⟨rfl, -⟩ | ⟨rfl, -⟩ | ⟨rfl, -⟩ | ⟨rfl, -⟩ |
      ⟨rfl, -⟩ | ⟨rfl, -⟩ <;> simp [typeWords] at hs ⊢
  · simp only [builtins, List.mem_cons, Prod.mk.injEq, List.not_mem_nil, or_false] at hk
    rcases hk with ⟨-, rfl⟩ | ⟨-, rfl⟩ | ⟨-, rfl⟩ | ⟨-, rfl⟩ | ⟨-, rfl⟩ | ⟨-, rfl⟩ | ⟨-, rfl⟩ | ⟨-, rfl⟩ | ⟨-, rfl⟩ | ⟨-, rfl⟩ | ⟨-, rfl⟩ |
      ⟨-, rfl⟩ | ⟨-, rfl⟩ <;> simp

/-- Lists and options keep their element type, but in the embedded `Type`: `ItemType`, the field for it, is nil whatever
the element is. -/
theorem item_type_unset (text : List Byte) (n : Nat) (hn : text.length < n) (hl : Lexes text) (i t w1 w2 w3 : List Byte) (a : Ty)
    (type : List Sig) (ha : ty a type) :
    (AliasTokens i t (⟨.list, w1⟩ :: ⟨.less, w2⟩ :: (type ++ [⟨.greater, w3⟩])) (tokens text) →
      parseText n text = .ok (aliasDocument i t (.list (some a) none))) ∧
    (AliasTokens i t (⟨.option, w1⟩ :: ⟨.less, w2⟩ :: (type ++ [⟨.greater, w3⟩])) (tokens text) →
      parseText n text = .ok (aliasDocument i t (.option (some a) none))) := by
  refine ⟨fun h => alias_parsed text n hn hl i t _ _ h ?_, fun h => alias_parsed text n hn hl i t _ _ h ?_⟩
  · rw [ty]
    exact ⟨[⟨.list, w1⟩], _, rfl, ⟨w1, rfl⟩, [⟨.less, w2⟩], _, rfl, ⟨w2, rfl⟩, type, _, rfl, ha, ⟨w3, rfl⟩⟩
  · rw [ty]
    exact ⟨[⟨.option, w1⟩], _, rfl, ⟨w1, rfl⟩, [⟨.less, w2⟩], _, rfl, ⟨w2, rfl⟩, type, _, rfl, ha, ⟨w3, rfl⟩⟩

example : letI := someTables; Lexes (txt "interface i { type t = u8; }") ∧
    AliasTokens (txt "i") (txt "t") [⟨.u8, txt "u8"⟩] (tokens (txt "interface i { type t = u8; }")) := by
  refine ⟨by unfold Lexes; decide +kernel, txt "interface", txt "{", txt "type", txt "=", txt ";", txt "}", by decide +kernel⟩

example : letI := someTables; Lexes (txt "interface i { type t = list<u32>; }") ∧
    AliasTokens (txt "i") (txt "t") (⟨.list, txt "list"⟩ :: ⟨.less, txt "<"⟩ :: ([⟨.u32, txt "u32"⟩] ++ [⟨.greater, txt ">"⟩]))
      (tokens (txt "interface i { type t = list<u32>; }")) := by
  refine ⟨by unfold Lexes; decide +kernel, txt "interface", txt "{", txt "type", txt "=", txt ";", txt "}", by decide +kernel⟩

/-- A check of a result: accepted, with so many items and none of them empty. -/
def acceptedItems : Res Ast → Nat → Bool
  | .ok a, n => a.items.length = n && a.items.all fun i => i.interface.isSome || i.world.isSome || i.use.isSome
  | _, _ => false

/-- A document with most of what the grammar has. -/
def sampleText : List Byte := txt
  "package a:b@1.2.3; use x as y interface i { use p.{q as r, s}; type t = list<option<u32>>; record c { x: t, y: result<_, string>, } flags f { a, b } variant v { a, b(tuple<t, f>) } enum e { a } resource r { constructor(x: t); m: func(); s: static func(a: own<r>) -> borrow<r>; } resource q g: func(a: u8, b: stream<t>) -> (c: future<t>); } world w { import a: func(); export b: interface { } import i; include z with { a as b } include z; type t = string; }"

example : letI := someTables; acceptedItems (parseText (sampleText.length + 1) sampleText) 3 = true := by decide +kernel

example : letI := someTables; ∃ a : Ast, a.items.length = 3 ∧ document a (tokens sampleText) := by
  letI := someTables
  have h : acceptedItems (parseText (sampleText.length + 1) sampleText) 3 = true := by decide +kernel
  rcases hp : parseText (sampleText.length + 1) sampleText with a | _ | _ | _
  · rw [hp] at h
    simp only [acceptedItems, Bool.and_eq_true, decide_eq_true_eq, List.all_eq_true] at h
    refine ⟨a, h.1, ((accepted_iff_document sampleText _ (by omega) a).1 ⟨hp, ?_⟩).2⟩
    rintro i hi rfl
    have := h.2 _ hi
    simp at this
  all_goals rw [hp] at h; cases h

example : letI := someTables; Lexes (txt " ; // x") ∧ tokens (txt " ; // x") = [⟨.semicolon, txt ";"⟩] := by
  exact ⟨by unfold Lexes; decide +kernel, by decide +kernel⟩

example : letI := someTables; Lexes (txt "use a; } world w { }") ∧
    looseDocument ⟨none, [⟨none, none, some ⟨⟨txt "a", none, []⟩, none⟩⟩, ⟨none, none, none⟩, ⟨none, none, none⟩, ⟨none, some ⟨txt "w", []⟩, none⟩]⟩
      (tokens (txt "use a; } world w { }")) := by
  refine ⟨by unfold Lexes; decide +kernel, ?_⟩
  have e : (letI := someTables; tokens (txt "use a; } world w { }")) = [⟨.use, txt "use"⟩, ⟨.id, txt "a"⟩, ⟨.semicolon, txt ";"⟩, ⟨.closeBrace, txt "}"⟩,
    ⟨.world, txt "world"⟩, ⟨.id, txt "w"⟩, ⟨.openBrace, txt "{"⟩, ⟨.closeBrace, txt "}"⟩] := by decide +kernel
  rw [e]
  refine ⟨⟨[⟨.use, txt "use"⟩, ⟨.id, txt "a"⟩], _, rfl, ?_, ⟨[⟨.semicolon, txt ";"⟩], _, rfl, ?_, ⟨[⟨.closeBrace, txt "}"⟩], _, rfl, ?_,
    ⟨_, [], (List.append_nil _).symm, ?_, rfl, ?_⟩, ?_⟩, ?_⟩, ?_⟩, ?_⟩
  · exact ⟨[_], [_], rfl, ⟨_, rfl⟩, [_], [], rfl, ⟨[], _, rfl, ⟨⟨rfl, rfl⟩, rfl⟩, .inl rfl⟩, rfl⟩
  · exact ⟨_, by decide, rfl⟩
  · exact ⟨_, by decide, rfl⟩
  · exact ⟨[_], _, rfl, ⟨_, rfl⟩, [_], _, rfl, .inl rfl, [_], _, rfl, ⟨_, rfl⟩, [], _, rfl, rfl, ⟨_, rfl⟩⟩
  all_goals simp

end Verif.Wit
