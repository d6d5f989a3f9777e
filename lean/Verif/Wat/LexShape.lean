import Verif.Wat.LexRun

/-!
# The shape of each kind of token
-/

namespace Verif.Wat

namespace Spec

/-- What text a token of a kind takes from the text `w`, `c` being that prefix of `w`. -/
def Shape (ty : TokenType) (w c : List Byte) : Prop :=
  match ty with
  | .whitespace => c ≠ [] ∧ (∀ b ∈ c, isSpace b = true) ∧ ∀ b, (w.drop c.length).head? = some b → isSpace b = false
  | .openParen => c = txt "(" ∧ ¬ txt "(;" <+: w
  | .closeParen => c = txt ")"
  | .string => ∃ body, c = [ch '"'] ++ body ++ [ch '"'] ∧ ch '"' ∉ body
  | .lineComment => ∃ body, c = txt ";;" ++ body ++ [ch '\n'] ∧ ch '\n' ∉ body
  | .blockComment => ∃ body, c = txt "(;" ++ body ++ txt ";)" ∧ ∀ q, q ++ txt ";)" <+: body ++ txt ";)" → q = body
  | .id => ∃ name, c = [ch '$'] ++ name ∧ name ≠ [] ∧ (∀ b ∈ name, isIdChar b = true) ∧
      ∀ b, (w.drop c.length).head? = some b → isIdChar b = false
  | .reserved => c ≠ [] ∧ (∀ b ∈ c, isIdChar b = true) ∧ (∀ b, (w.drop c.length).head? = some b → isIdChar b = false) ∧
      (c.head? = some (ch '$') → c = [ch '$'])
  | .endOfStream => c = w ∧ (c = [] ∨ (∃ body, c = [ch '"'] ++ body ∧ ch '"' ∉ body) ∨
      (∃ body, c = txt "(;" ++ body ∧ ∀ q, ¬ q ++ txt ";)" <+: body) ∨
      (∃ body, c = txt ";;" ++ body ∧ ch '\n' ∉ body) ∨ c = txt ";")
  | _ => False

end Spec

open Spec

theorem run_split (p : Byte → Bool) (w : List Byte) : w.take (run p w) = w.takeWhile p ∧ w.drop (run p w) = w.dropWhile p := by
  induction w with
  | nil => simp [run]
  | cons b w ih =>
    by_cases h : p b = true
    · simp only [run, List.takeWhile_cons, h, if_true, List.length_cons, List.take_succ_cons, List.drop_succ_cons,
        List.dropWhile_cons]
      exact ⟨by rw [show (List.takeWhile p w).length = run p w from rfl, ih.1], by
        rw [show (List.takeWhile p w).length = run p w from rfl, ih.2]⟩
    · simp [run, List.takeWhile_cons, h, List.dropWhile_cons]

theorem dropWhile_head (p : Byte → Bool) (w : List Byte) (b : Byte) (h : (w.dropWhile p).head? = some b) : p b = false := by
  induction w with
  | nil => simp at h
  | cons c w ih =>
    by_cases hc : p c = true
    · rw [List.dropWhile_cons, if_pos hc] at h; exact ih h
    · rw [List.dropWhile_cons, if_neg hc] at h
      simp only [List.head?_cons, Option.some.injEq] at h
      subst h
      simpa using hc

/-- The bytes before the first `c`. -/
theorem run_until (c : Byte) (w : List Byte) :
    (run (· != c) w < w.length → w.take (run (· != c) w + 1) = w.take (run (· != c) w) ++ [c]) ∧
    c ∉ w.take (run (· != c) w) ∧ (¬ run (· != c) w < w.length → c ∉ w) := by
  have hs := run_split (· != c) w
  have hn : c ∉ w.take (run (· != c) w) := by
    rw [hs.1]
    intro h
    have := List.all_takeWhile (p := (· != c)) (l := w)
    rw [List.all_eq_true] at this
    have := this c h
    simp at this
  refine ⟨?_, hn, ?_⟩
  · intro h
    have hd : (w.dropWhile (· != c)).head? = some w[run (· != c) w] := by
      rw [← hs.2, List.head?_drop, List.getElem?_eq_getElem h]
    have := dropWhile_head _ _ _ hd
    simp only [bne_eq_false_iff_eq] at this
    rw [List.take_succ_eq_append_getElem h, this]
  · intro h
    rw [List.take_of_length_le (by omega)] at hn
    exact hn

theorem closing_some (w : List Byte) (n : Nat) (h : closing w = some n) :
    ∃ p, w.take n = p ++ txt ";)" ∧ ∀ q, q ++ txt ";)" <+: p ++ txt ";)" → q = p := by
  induction w generalizing n with
  | nil => cases h
  | cons b w ih =>
    rw [closing] at h
    split at h
    · rename_i hb
      cases h
      cases w with
      | nil => simp at hb
      | cons c w =>
        simp only [List.head?_cons, Option.some.injEq] at hb
        obtain ⟨rfl, rfl⟩ := hb
        refine ⟨[], rfl, ?_⟩
        intro q hq
        have := hq.length_le
        simp only [List.length_append, List.length_nil] at this
        exact List.length_eq_zero_iff.1 (by omega)
    · rename_i hb
      rw [Option.map_eq_some_iff] at h
      obtain ⟨m, hm, rfl⟩ := h
      obtain ⟨p, hp, hq⟩ := ih m hm
      refine ⟨b :: p, by rw [List.take_succ_cons, hp]; rfl, ?_⟩
      intro q hq2
      cases q with
      | nil =>
        exfalso
        apply hb
        rw [List.nil_append, List.cons_append, ← hp] at hq2
        have : txt ";)" = [ch ';', ch ')'] := rfl
        rw [this, List.cons_prefix_cons] at hq2
        refine ⟨hq2.1.symm, ?_⟩
        have h2 := hq2.2.trans (List.take_prefix m w)
        cases w with
        | nil => simp at h2
        | cons c w => rw [List.cons_prefix_cons] at h2; rw [h2.1]; rfl
      | cons c q =>
        rw [List.cons_append, List.cons_append, List.cons_prefix_cons] at hq2
        rw [hq2.1, hq q hq2.2]

theorem closing_none (w : List Byte) (h : closing w = none) (q : List Byte) : ¬ q ++ txt ";)" <+: w := by
  induction w generalizing q with
  | nil =>
    intro h
    have := h.length_le
    simp [txt] at this
  | cons b w ih =>
    rw [closing] at h
    split at h
    · cases h
    · rename_i hb
      rw [Option.map_eq_none_iff] at h
      intro hq
      cases q with
      | nil =>
        apply hb
        have : txt ";)" = [ch ';', ch ')'] := rfl
        rw [List.nil_append, this, List.cons_prefix_cons] at hq
        refine ⟨hq.1.symm, ?_⟩
        cases w with
        | nil => have := hq.2; simp at this
        | cons c w => have h2 := hq.2; rw [List.cons_prefix_cons] at h2; rw [h2.1]; rfl
      | cons c q =>
        rw [List.cons_append, List.cons_prefix_cons] at hq
        exact ih h q hq.2

theorem closing_none_of (w : List Byte) (h : ∀ q, ¬ q ++ txt ";)" <+: w) : closing w = none := by
  cases hc : closing w with
  | none => rfl
  | some n =>
    obtain ⟨p, hp, -⟩ := closing_some w n hc
    exact absurd (hp ▸ List.take_prefix n w) (h p)

theorem take_run_cons (p : Byte → Bool) (b : Byte) (hb : p b = true) (w : List Byte) :
    let c := (b :: w).take (1 + run p w)
    c = b :: w.takeWhile p ∧ (∀ x ∈ c, p x = true) ∧ ∀ x, ((b :: w).drop c.length).head? = some x → p x = false := by
  simp only
  have e : (b :: w).take (1 + run p w) = b :: w.takeWhile p := by
    rw [Nat.add_comm, List.take_succ_cons, (run_split p w).1]
  rw [e]
  refine ⟨rfl, ?_, ?_⟩
  · intro x hx
    rcases List.mem_cons.1 hx with rfl | hx
    · exact hb
    · have := List.all_takeWhile (p := p) (l := w)
      rw [List.all_eq_true] at this
      exact this x hx
  · intro x hx
    rw [List.length_cons, List.drop_succ_cons] at hx
    rw [show (w.takeWhile p).length = run p w from rfl, (run_split p w).2] at hx
    exact dropWhile_head _ _ _ hx

/-- The first token has the shape of its kind. -/
theorem first_shape (w : List Byte) (ty : TokenType) (n : Nat) (h : first w = some (ty, n)) : Shape ty w (w.take n) := by
  cases w with
  | nil =>
    simp only [first, Option.some.injEq, Prod.mk.injEq] at h
    obtain ⟨rfl, rfl⟩ := h
    exact ⟨rfl, .inl rfl⟩
  | cons b w =>
    rw [first] at h
    split at h
    · rename_i hb
      cases h
      obtain ⟨e, h1, h2⟩ := take_run_cons isSpace b hb w
      exact ⟨by rw [e]; simp, h1, h2⟩
    split at h
    · rename_i hb
      subst hb
      split at h
      · rename_i hh
        cases w with
        | nil => simp at hh
        | cons c w =>
          simp only [List.head?_cons, Option.some.injEq] at hh
          subst hh
          simp only [List.tail_cons] at h
          split at h
          · rename_i m hm
            cases h
            obtain ⟨p, hp, hq⟩ := closing_some _ _ hm
            refine ⟨p, ?_, hq⟩
            rw [Nat.add_comm, List.take_succ_cons, List.take_succ_cons, hp]
            rfl
          · rename_i hm
            cases h
            refine ⟨List.take_of_length_le (by simp only [List.length_cons]; omega), .inr (.inr (.inl ⟨w, ?_, closing_none w hm⟩))⟩
            rw [List.take_of_length_le (by simp only [List.length_cons]; omega)]
            rfl
      · rename_i hh
        cases h
        refine ⟨rfl, ?_⟩
        intro h
        have : txt "(;" = [ch '(', ch ';'] := rfl
        rw [this, List.cons_prefix_cons] at h
        cases w with
        | nil => have := h.2; simp at this
        | cons c w => have h2 := h.2; rw [List.cons_prefix_cons] at h2; rw [h2.1] at hh; exact hh rfl
    split at h
    · rename_i hb
      subst hb
      cases h
      rfl
    split at h
    · rename_i hb
      subst hb
      simp only at h
      obtain ⟨r1, r2, r3⟩ := run_until (ch '"') w
      split at h
      · rename_i hr
        cases h
        refine ⟨w.take (run (· != ch '"') w), ?_, r2⟩
        rw [List.take_succ_cons, r1 hr]
        rfl
      · rename_i hr
        cases h
        have e : (ch '"' :: w).take (1 + w.length) = ch '"' :: w :=
          List.take_of_length_le (by simp only [List.length_cons]; omega)
        rw [e]
        exact ⟨rfl, .inr (.inl ⟨w, rfl, r3 hr⟩)⟩
    split at h
    · rename_i hb
      subst hb
      split at h
      · rename_i hh
        cases w with
        | nil => simp at hh
        | cons c w =>
          simp only [List.head?_cons, Option.some.injEq] at hh
          subst hh
          change (if run (· != ch '\n') w < w.length then some (TokenType.lineComment, run (· != ch '\n') w + 3)
            else some (TokenType.endOfStream, 1 + (ch ';' :: w).length)) = some (ty, n) at h
          obtain ⟨r1, r2, r3⟩ := run_until (ch '\n') w
          split at h
          · rename_i hr
            cases h
            refine ⟨w.take (run (· != ch '\n') w), ?_, r2⟩
            rw [List.take_succ_cons, List.take_succ_cons, r1 hr]
            rfl
          · rename_i hr
            cases h
            have e : (ch ';' :: ch ';' :: w).take (1 + (ch ';' :: w).length) = ch ';' :: ch ';' :: w :=
              List.take_of_length_le (by simp only [List.length_cons]; omega)
            rw [e]
            exact ⟨rfl, .inr (.inr (.inr (.inl ⟨w, rfl, r3 hr⟩)))⟩
      · split at h
        · rename_i hw
          subst hw
          cases h
          exact ⟨rfl, .inr (.inr (.inr (.inr rfl)))⟩
        · cases h
    split at h
    · rename_i hb
      simp only [Option.some.injEq, Prod.mk.injEq] at h
      obtain ⟨h, rfl⟩ := h
      obtain ⟨e, h1, h2⟩ := take_run_cons isIdChar b hb w
      split at h
      · rename_i hd
        obtain ⟨hd, hr⟩ := hd
        subst hd h
        refine ⟨w.takeWhile isIdChar, e, ?_, ?_, h2⟩
        · intro h0
          rw [run, h0] at hr
          simp at hr
        · intro x hx
          exact h1 x (by rw [e]; exact List.mem_cons_of_mem _ hx)
      · rename_i hd
        subst h
        refine ⟨by rw [e]; simp, h1, h2, ?_⟩
        rw [e]
        simp only [List.head?_cons, Option.some.injEq]
        intro hb2
        rw [hb2, List.cons.injEq]
        refine ⟨rfl, List.length_eq_zero_iff.1 ?_⟩
        have : ¬ 1 ≤ run isIdChar w := fun hr => hd ⟨hb2, hr⟩
        rw [run] at this
        omega
    · cases h

/-! ## Single answers of a run -/

theorem nexts_getElem? (n : Nat) (l : Lexer) (i : Nat) (h : i < n) : (nexts n l)[i]? = some (nextTok (afterNexts i l)).1 := by
  induction n generalizing l i with
  | zero => omega
  | succ n ih =>
    cases i with
    | zero => rfl
    | succ i => rw [nexts, List.getElem?_cons_succ, ih _ i (by omega), afterNexts]

theorem nexts_take (n : Nat) (l : Lexer) (i : Nat) (h : i ≤ n) : (nexts n l).take i = nexts i l := by
  induction n generalizing l i with
  | zero => have : i = 0 := by omega
            subst this; rfl
  | succ n ih =>
    cases i with
    | zero => rfl
    | succ i => rw [nexts, List.take_succ_cons, ih _ i (by omega), nexts]

theorem nexts_length (n : Nat) (l : Lexer) : (nexts n l).length = n := by
  induction n generalizing l with
  | zero => rfl
  | succ n ih => rw [nexts, List.length_cons, ih]

theorem nexts_succ (n : Nat) (l : Lexer) : nexts (n + 1) l = nexts n l ++ [(nextTok (afterNexts n l)).1] := by
  induction n generalizing l with
  | zero => rfl
  | succ n ih => rw [nexts, ih, nexts, afterNexts]; rfl

/-- Every token of a run without an error has the shape of some kind of the automata, of which its type is the
refinement. -/
theorem token_shape (input : List Byte) (n : Nat) (ts : List Token) (h : nexts n (Lexer.new input) = ts.map .ok)
    (t : Token) (ht : t ∈ ts) : ∃ ty, classify ty t.capture = .ok t.type ∧ Shape ty (input.drop t.position) t.capture := by
  obtain ⟨i, hi, rfl⟩ := List.getElem_of_mem ht
  have hn : n = ts.length := by rw [← nexts_length n (Lexer.new input), h, List.length_map]
  have hpre : nexts i (Lexer.new input) = (ts.take i).map .ok := by
    rw [← nexts_take n _ i (by omega), h, List.map_take]
  have hat := nexts_getElem? n (Lexer.new input) i (by omega)
  rw [h, List.getElem?_map, List.getElem?_eq_getElem hi, Option.map_some, Option.some.injEq] at hat
  cases hf : first (input.drop (textOf (ts.take i)).length) with
  | none =>
    exfalso
    obtain ⟨h1, h2, h3⟩ := afterNexts_inv i _ (inv_new input) rfl
    obtain ⟨a, b⟩ := afterNexts_at i _ (inv_new input) rfl rfl _ hpre
    have hx := lexNext_at _ h1.le h1.bound
    rw [b, a, h2, show (Lexer.new input).offset = 0 from rfl, Nat.zero_add, show (Lexer.new input).input = input from rfl,
      hf] at hx
    obtain ⟨p, -, -, hp⟩ := hx
    rw [nextTok_fresh _ h3, hp] at hat
    cases hat
  | some r =>
    obtain ⟨ty, k⟩ := r
    obtain ⟨ty', c1, c2⟩ := next_at input i _ hpre ty k hf
    rw [c2] at hat
    have hat := Res.ok.inj hat
    rw [hat]
    exact ⟨ty, c1, first_shape _ _ _ hf⟩

end Verif.Wat
