import Verif.Wast.Local
import Verif.Wast.Props
import Verif.Wat.ErrorPlace

/-!
# The place an error of the parser of scripts names: C147

As for modules (C144). The parser of scripts reads ahead on a copy of its lexer, so that it may have looked further than the
token its error names; this makes no difference, because it looks at the same tokens again.
-/

namespace Verif.Wast

open Verif.Wat (Lib Lexer Token Seen Sig TokenType watchOps watch numOps skipTo stepOver answer At Beyond)

/-- `Parse` of a script: its outcome, and the token the parser looked at last. Where the parser makes an error with
`parseError(tok)`, `tok` is the result of the last call of `peek` or `next`.
-- models wast/parse/parser.go:17-36, 429-437, and `tok` at 71, 146, 218, 280, 318, 377, 380 and 391 -/
def scriptWatched (lib : Lib) (n : Nat) (text : List Byte) : Res (List Directive) × Seen :=
  ((parseWast watchOps lib n (Lexer.new text, .nothing)).1, (parseWast watchOps lib n (Lexer.new text, .nothing)).2.2)

/-! ## The outcome is that of `Parse` -/

theorem TwiceDich.ofNever {S T : Type} {R : S → T → Prop} {o : Wat.Ops S} {p : Wat.Ops T} (h : Wat.OpsDich (fun _ => False) R o p) :
    TwiceDich (fun _ => False) R o p :=
  ⟨h, fun s t hr hd => h.next.1 s t hr hd, .inl fun _ h => h⟩

theorem watch_dich : Wat.OpsDich (fun _ => False) (fun l (s : Lexer × Seen) => s.1 = l) Wat.lexOps watchOps := by
  refine ⟨⟨?_, fun _ h => h⟩, ⟨?_, fun _ h => h⟩, fun _ h => h⟩
  · rintro l ⟨l', s⟩ h _
    simp only at h
    subst h
    simp only [watchOps, watch, Wat.lexOps]
    rw [Wat.peekWhole_loop]
    exact .inl ⟨rfl, rfl⟩
  · rintro l ⟨l', s⟩ h _
    simp only at h
    subst h
    simp only [watchOps, watch, Wat.lexOps]
    rw [Wat.nextWhole_loop]
    exact .inl ⟨rfl, rfl⟩

theorem script_returns (lib : Lib) (h : lib.Total) (text : List Byte) (n : Nat) (hn : text.length + 1 < n) :
    parseScript lib n text ≠ .diverge := by
  intro e
  have hr := (wast_parser_ends lib h text n n hn hn).1
  rw [e] at hr
  rcases hr with ⟨_, hr⟩ | hr <;> cases hr

/-- The outcome of a parse that is watched is that of the parse. -/
theorem watched_outcome (lib : Lib) (h : lib.Total) (text : List Byte) (n : Nat) (hn : text.length + 1 < n) :
    (scriptWatched lib n text).1 = parseScript lib n text := by
  have k := (parseWast_dich (TwiceDich.ofNever watch_dich) lib n n (Nat.le_refl n)).1 (Lexer.new text) (Lexer.new text, .nothing) rfl
    (script_returns lib h text n hn)
  rcases k with ⟨k1, -⟩ | k
  · exact k1.symm
  · exact k.elim

theorem watched_returns (lib : Lib) (h : lib.Total) (text : List Byte) (n : Nat) (hn : text.length + 1 < n) :
    (scriptWatched lib n text).1 ≠ .diverge := by
  rw [watched_outcome lib h text n hn]
  exact script_returns lib h text n hn

theorem watched_bound (lib : Lib) (h : lib.Total) (text : List Byte) (n m : Nat) (hn : text.length + 1 < n) (hm : n ≤ m) :
    scriptWatched lib n text = scriptWatched lib m text := by
  have k := (parseWast_dich (TwiceDich.ofNever (Wat.dich_refl watchOps)) lib n m hm).1 (Lexer.new text, .nothing) _ rfl
    (watched_returns lib h text n hn)
  rcases k with ⟨k1, k2⟩ | k
  · unfold scriptWatched
    rw [k1, k2]
  · exact k.elim

/-! ## Tokens by their number -/

theorem watched_num (lib : Lib) (h : lib.Total) (text : List Byte) (n : Nat) (hn : text.length + 1 < n) :
    (scriptWatched lib n text).1 = (parseWast (numOps (answer text) (text.length + 3)) lib n (0, .nothing)).1 ∧
    (scriptWatched lib n text).2 = (parseWast (numOps (answer text) (text.length + 3)) lib n (0, .nothing)).2.2 := by
  have k := (parseWast_dich (TwiceDich.ofNever (Wat.num_dich text)) lib n n (Nat.le_refl n)).1 (Lexer.new text, .nothing)
    (0, .nothing) ⟨rfl, .inl rfl⟩ (watched_returns lib h text n hn)
  rcases k with ⟨k1, k2, -⟩ | k
  · exact ⟨k1, k2⟩
  · exact k.elim

theorem skipTo_found (a : Nat → Res Token) (n i : Nat) (t : Token) (j : Nat) (h : skipTo a n i = (.ok t, j)) :
    a j = .ok t ∧ t.type.isTrivia = false := by
  induction n generalizing i with
  | zero => cases h
  | succ n ih =>
    rw [skipTo] at h
    rcases hx : a i with u | _ | _ | _ <;> rw [hx] at h <;> simp only at h
    · by_cases hk : u.type.isTrivia = true
      · rw [if_pos hk] at h; exact ih (i + 1) h
      · rw [if_neg hk] at h
        cases h
        exact ⟨hx, by simpa using hk⟩
    all_goals cases h

theorem num_twice (a : Nat → Res Token) (f : Nat) (s : Nat × Seen) (x : Sig) (s' : Nat × Seen)
    (h : (numOps a f).peek s = (.ok x, s')) : (numOps a f).peek s' = (.ok x, s') := by
  simp only [numOps] at h ⊢
  rcases hx : skipTo a f s.1 with ⟨r, j⟩
  rw [hx] at h
  simp only at h
  cases r with
  | ok t =>
    obtain ⟨h1, h2⟩ := skipTo_found a f s.1 t j hx
    cases f with
    | zero => cases hx
    | succ f =>
      have e : skipTo a (f + 1) j = (.ok t, j) := by
        rw [skipTo, h1]
        simp only
        rw [if_neg (by rw [h2]; simp)]
      cases h
      simp only
      rw [e]
      rfl
  | _ => cases h

theorem alike_twice (a b : Nat → Res Token) (k f f' : Nat) (hab : ∀ i, i < k → ∃ t, a i = .ok t ∧ b i = .ok t) (hf : k < f') :
    TwiceDich (fun (s : Nat × Seen) => k ≤ s.1 ∧ Beyond a k s.2) (fun (s q : Nat × Seen) => s = q ∧ s.1 ≤ k)
      (numOps a f) (numOps b f') := by
  refine ⟨Wat.alike_dich a b k f f' hab hf, ?_, .inr (num_twice a f)⟩
  rintro ⟨i, s⟩ _ ⟨rfl, hi⟩ hd
  simp only [numOps] at hd hi ⊢
  rcases Wat.skipTo_alike a b k hab f f' i hi (by omega) (Wat.sigOf_diverge _ hd) with ⟨h1, h2⟩ | h
  · rw [← h1]
    exact .inl ⟨rfl, rfl, h2⟩
  · exact .inr h

/-- C147. Two scripts begin with the same tokens, and the parser, reading the first, looks at one of them last: at the one its
error names, if it refuses the script. Then it does with the second script what it does with the first, and looks at the same
token last. -/
theorem script_error_local (lib : Lib) (h : lib.Total) (text text' : List Byte) (ts : List Token)
    (hd : ∀ t ∈ ts, t.type ≠ .endOfStream) (h1 : Wat.nexts ts.length (Lexer.new text) = ts.map .ok)
    (h2 : Wat.nexts ts.length (Lexer.new text') = ts.map .ok) (n n' : Nat) (hn : text.length + 1 < n)
    (hn' : text'.length + 1 < n') (tok : Token) (hm : tok ∈ ts) (hs : (scriptWatched lib n text).2 = .token tok) :
    scriptWatched lib n' text' = scriptWatched lib n text := by
  have hab : ∀ i, i < ts.length → ∃ t, answer text i = .ok t ∧ answer text' i = .ok t := by
    intro i hi
    have a1 := Wat.answer_nexts text ts.length i hi
    have a2 := Wat.answer_nexts text' ts.length i hi
    rw [h1, List.getElem?_map, List.getElem?_eq_getElem hi] at a1
    rw [h2, List.getElem?_map, List.getElem?_eq_getElem hi] at a2
    simp only [Option.map_some, Option.some.injEq] at a1 a2
    exact ⟨_, a1.symm, a2.symm⟩
  have hl := Wat.number_le text' ts hd h2
  rw [watched_bound lib h text' n' (max n n') hn' (Nat.le_max_right _ _)]
  obtain ⟨w1, w2⟩ := watched_num lib h text n hn
  obtain ⟨v1, v2⟩ := watched_num lib h text' (max n n') (Nat.lt_of_lt_of_le hn' (Nat.le_max_right _ _))
  have hr := watched_returns lib h text n hn
  rw [w1] at hr
  have k := (parseWast_dich (alike_twice (answer text) (answer text') ts.length (text.length + 3) (text'.length + 3) hab (by omega))
    lib n (max n n') (Nat.le_max_left _ _)).1 (0, .nothing) (0, .nothing) ⟨rfl, Nat.zero_le _⟩ hr
  rcases k with ⟨k1, k2, -⟩ | ⟨-, k⟩
  · refine Prod.ext ?_ ?_
    · rw [v1, w1, k1]
    · rw [v2, w2, k2]
  · exfalso
    rw [← w2, hs] at k
    rcases k with k | ⟨j, t, hj, ht, e⟩
    · cases k
    · cases e
      obtain ⟨i, hi, e⟩ := List.getElem_of_mem hm
      have a1 := Wat.answer_nexts text ts.length i hi
      rw [h1, List.getElem?_map, List.getElem?_eq_getElem hi] at a1
      simp only [Option.map_some, Option.some.injEq] at a1
      rw [e] at a1
      exact Wat.answer_once text i j (by omega) tok a1.symm ht (hd tok hm)

/-- C147, the place. The token looked at last stands in the script at its position, is neither white space nor a comment, and
the line and the column an error names are those of the position. -/
theorem script_error_place (lib : Lib) (h : lib.Total) (text : List Byte) (n : Nat) (hn : text.length + 1 < n) (tok : Token)
    (hs : (scriptWatched lib n text).2 = .token tok) :
    tok.place = (Wat.Spec.line (text.take tok.position) + 1, Wat.Spec.column (text.take tok.position) + 1, tok.position) ∧
    tok.capture <+: text.drop tok.position ∧ tok.type ≠ .whitespace ∧ tok.type ≠ .lineComment ∧ tok.type ≠ .blockComment := by
  obtain ⟨w1, w2⟩ := watched_num lib h text n hn
  have hr := watched_returns lib h text n hn
  rw [w1] at hr
  have k := (parseWast_dich (TwiceDich.ofNever (Wat.seen_dich (answer text) (text.length + 3))) lib n n (Nat.le_refl n)).1
    (0, .nothing) (0, .nothing) ⟨rfl, .inl rfl⟩ hr
  rw [w2] at hs
  rcases k with ⟨-, -, k⟩ | k
  · rw [hs] at k
    rcases k with k | k | ⟨i, t, ha, hk, e⟩
    · cases k
    · cases k
    · cases e
      obtain ⟨hi, hin, -⟩ := Wat.afterNexts_inv i _ (Wat.inv_new text) rfl
      unfold answer at ha
      rw [Wat.nextTok_fresh _ (Wat.at_fresh text i)] at ha
      have hin' : (Wat.afterNexts i (Lexer.new text)).input = text := hin
      rcases (Wat.lexNext_inv _ hi).2.2.2 with h | ⟨t, h, -, -, h2, h3, h4, h5, -, -, -⟩
      · rw [h.1] at ha; cases ha
      · rw [ha] at h
        cases h
        rw [hi.line, hin', ← h3] at h4
        rw [hi.column, hin', ← h3] at h5
        refine ⟨by unfold Wat.Token.place; rw [h4, h5], ?_, ?_, ?_, ?_⟩
        · rw [h2, hin', ← h3]
          exact List.take_prefix _ _
        all_goals (intro e; rw [e] at hk; cases hk)
  · exact k.elim

/-! ## Cases that meet the hypotheses -/

/-- The tokens of `(assert_trap (invoke x`. -/
def trapTokens : List Token :=
  [⟨.openParen, 0, 0, 0, txt "("⟩, ⟨.reserved, 1, 1, 0, txt "assert_trap"⟩, ⟨.whitespace, 12, 12, 0, txt " "⟩,
    ⟨.openParen, 13, 13, 0, txt "("⟩, ⟨.reserved, 14, 14, 0, txt "invoke"⟩, ⟨.whitespace, 20, 20, 0, txt " "⟩,
    ⟨.reserved, 21, 21, 0, txt "x"⟩]

example : (∀ t ∈ trapTokens, t.type ≠ .endOfStream) ∧
    Wat.nexts trapTokens.length (Lexer.new (txt "(assert_trap (invoke x) \"a\")")) = trapTokens.map .ok ∧
    Wat.nexts trapTokens.length (Lexer.new (txt "(assert_trap (invoke x (((")) = trapTokens.map .ok := by decide +kernel

example : (scriptWatched Wat.someLib 60 (txt "(assert_trap (invoke x) \"a\")")).2 = .token ⟨.reserved, 21, 21, 0, txt "x"⟩ := by
  decide +kernel

/-- The third token of a module, read from the copy and again. -/
example : (scriptWatched Wat.someLib 60 (txt "(module)\n(module quot)")).2 = .token ⟨.reserved, 17, 8, 1, txt "quot"⟩ := by
  decide +kernel

end Verif.Wast
