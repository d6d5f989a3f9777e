import Verif.Wit.GrammarLoose
import Verif.Wit.GrammarProps

/-!
# The tokens of one WIT text after another

With a newline between them, two texts have the tokens of the one and then those of the other.
-/

namespace Verif.Wit

open Spec

/-! ## The newline ends every token but white space -/

theorem decode_newline (w b : List Byte) (hw : w ≠ []) : decode (w ++ ch '\n' :: b) = decode w := by
  refine (decode_prefix w _ hw ?_).symm
  cases w with
  | nil => exact absurd rfl hw
  | cons x w =>
    rw [List.cons_append]
    by_cases hx : x.toNat < 128
    · rw [decode_ascii x _ hx]; simp
    · obtain ⟨-, -, -, h4⟩ := decode_wide x (w ++ ch '\n' :: b) (by omega)
      refine Nat.le_of_not_lt fun hlt => ?_
      have : ch '\n' ∈ (x :: (w ++ ch '\n' :: b)).take (decode (x :: (w ++ ch '\n' :: b))).2 := by
        rw [List.mem_take_iff_getElem]
        refine ⟨(x :: w).length, ?_, ?_⟩
        · simp only [List.length_cons, List.length_append] at hlt ⊢; omega
        · simp
      have := h4 _ this
      revert this
      decide

theorem run_newline_stops (f : Nat → Bool) (hf : f (rn '\n') = false) (w b : List Byte) : run f (w ++ ch '\n' :: b) = run f w := by
  induction w using rune_induction with
  | nil => rw [List.nil_append, run_eq, if_neg (by simp), decode_char '\n' (by decide), hf, run_nil]; rfl
  | step w hw ih =>
    have hp := decode_pos w hw
    rw [run_eq, if_neg (by simp), decode_newline w b hw, run_eq f w, if_neg hw, List.drop_append_of_le_length hp.2, ih]

theorem run_newline_goes (f : Nat → Bool) (hf : f (rn '\n') = true) (w b : List Byte) :
    run f (w ++ ch '\n' :: b) = if run f w = w.length then w.length + (1 + run f b) else run f w := by
  induction w using rune_induction with
  | nil =>
    rw [List.nil_append, run_eq, if_neg (by simp), decode_char '\n' (by decide), if_pos hf, run_nil]
    simp
  | step w hw ih =>
    have hp := decode_pos w hw
    rw [run_eq, if_neg (by simp), decode_newline w b hw, List.drop_append_of_le_length hp.2, ih]
    have hr := run_eq f w
    rw [if_neg hw] at hr
    rw [List.length_drop]
    split
    · rename_i h
      rw [if_pos h] at hr
      rw [hr]
      have := hp.2
      split
      · rename_i h'; rw [if_pos (by omega)]; omega
      · rename_i h'; rw [if_neg (by omega)]
    · rename_i h
      rw [if_neg h] at hr
      rw [hr, if_neg (by omega)]

theorem closing_more (d : Nat) (w v : List Byte) (n : Nat) (h : closing d w = some n) : closing d (w ++ v) = some n := by
  induction w using two_induction generalizing d n with
  | nil => cases d <;> simp [closing] at h ⊢; exact h
  | one b => cases d <;> simp [closing] at h ⊢; exact h
  | two b c w ih1 ih2 =>
    cases d with
    | zero => simp [closing] at h ⊢; exact h
    | succ d =>
      rw [closing] at h
      rw [List.cons_append, List.cons_append, closing]
      split at h
      · rename_i hc
        rw [Option.map_eq_some_iff] at h
        obtain ⟨m, hm, rfl⟩ := h
        rw [if_pos hc, ih1 _ _ hm]; rfl
      · rename_i hc
        rw [if_neg hc]
        split at h
        · rename_i hc'
          rw [Option.map_eq_some_iff] at h
          obtain ⟨m, hm, rfl⟩ := h
          rw [if_pos hc', ih1 _ _ hm]; rfl
        · rename_i hc'
          rw [Option.map_eq_some_iff] at h
          obtain ⟨m, hm, rfl⟩ := h
          rw [if_neg hc', ← List.cons_append, ih2 _ _ hm]; rfl

theorem takeWhile_newline (w b : List Byte) :
    (w ++ ch '\n' :: b).takeWhile (· != ch '\n') = w.takeWhile (· != ch '\n') := by
  induction w with
  | nil => simp
  | cons x w ih => simp only [List.cons_append, List.takeWhile_cons, ih]

variable [Unicode]

theorem space_newline : isSpace (rn '\n') = true := rfl
theorem key_newline : isKeyLikeContinue (rn '\n') = false := rfl
theorem start_newline : isKeyLikeStart (rn '\n') = false := rfl
theorem digit_newline : isDigit (rn '\n') = false := rfl

omit [Unicode] in
theorem head_newline (v b : List Byte) (c : Char) (hc : ch '\n' ≠ ch c) :
    (v ++ ch '\n' :: b).head? = some (ch c) ↔ v.head? = some (ch c) := by
  cases v with
  | nil => simpa using hc
  | cons x v => simp

/-- A token of a text is a token of the text continued, but white space at the end goes on. -/
theorem first_newline (w b : List Byte) (hw : w ≠ []) (ty : TokenType) (k : Nat) (h : first w = some (ty, k)) :
    first (w ++ ch '\n' :: b) =
      some (ty, if ty = .whitespace ∧ k = w.length then w.length + (1 + run isSpace b) else k) := by
  have hp := decode_pos w hw
  have hd := decode_newline w b hw
  have hdr : (w ++ ch '\n' :: b).drop (decode w).2 = w.drop (decode w).2 ++ ch '\n' :: b := List.drop_append_of_le_length hp.2
  unfold first at h ⊢
  rw [if_neg hw] at h
  rw [if_neg (by simp)]
  simp only [hd, hdr] at h ⊢
  generalize hv : w.drop (decode w).2 = v at h ⊢
  have hvl : v.length = w.length - (decode w).2 := by rw [← hv, List.length_drop]
  split at h
  · rename_i hs
    cases h
    rw [if_pos hs, run_newline_goes _ space_newline]
    congr 2
    split
    · rename_i hr
      rw [if_pos ⟨rfl, by omega⟩]; omega
    · rename_i hr
      rw [if_neg (by omega)]
  rename_i hs
  rw [if_neg hs]
  split at h
  · rename_i hsl
    rw [if_pos hsl]
    split at h
    · rename_i h1
      cases h
      rw [if_pos ((head_newline v b '/' (by decide)).2 h1), if_neg (by simp)]
      cases v with
      | nil => cases h1
      | cons x v => rw [List.cons_append, List.tail_cons, List.tail_cons, takeWhile_newline]
    · rename_i h1
      rw [if_neg (fun e => h1 ((head_newline v b '/' (by decide)).1 e))]
      split at h
      · rename_i h2
        rw [if_pos ((head_newline v b '*' (by decide)).2 h2)]
        rw [Option.map_eq_some_iff] at h
        obtain ⟨m, hm, e⟩ := h
        cases e
        cases v with
        | nil => cases h2
        | cons x v => 
          rw [List.cons_append, List.tail_cons]
          rw [List.tail_cons] at hm
          rw [closing_more _ _ _ _ hm, if_neg (by simp)]
          rfl
      · rename_i h2
        cases h
        rw [if_neg (fun e => h2 ((head_newline v b '*' (by decide)).1 e)), if_neg (by simp)]
  rename_i hsl
  rw [if_neg hsl]
  cases hsg : single (decode w).1 with
  | some ty' =>
    rw [hsg] at h
    cases h
    have := (singles_kinds _ (single_some _ _ hsg)).2.2.1
    simp only at this ⊢
    rw [if_neg (fun e => this e.1)]
  | none =>
    rw [hsg] at h
    simp only at h ⊢
    split at h
    · rename_i hm
      rw [if_pos hm]
      split at h
      · rename_i h1
        cases h
        rw [if_pos ((head_newline v b '>' (by decide)).2 h1), if_neg (by simp)]
      · rename_i h1
        cases h
        rw [if_neg (fun e => h1 ((head_newline v b '>' (by decide)).1 e)), if_neg (by simp)]
    rename_i hm
    rw [if_neg hm]
    split at h
    · rename_i hpc
      rw [if_pos hpc]
      split at h
      · rename_i h1
        cases h
        have hpv := decode_pos v h1.1
        rw [decode_newline v b h1.1, if_pos ⟨by simp, h1.2⟩, if_neg (by simp), List.drop_append_of_le_length hpv.2,
          run_newline_stops _ key_newline]
      · rename_i h1
        cases h
        rw [if_neg, if_neg (by simp)]
        intro hh
        by_cases hve : v = []
        · subst hve
          rw [List.nil_append, decode_char '\n' (by decide)] at hh
          exact absurd hh.2 (by rw [start_newline]; simp)
        · rw [decode_newline v b hve] at hh
          exact h1 ⟨hve, hh.2⟩
    rename_i hpc
    rw [if_neg hpc]
    split at h
    · rename_i h1
      cases h
      rw [if_pos h1, if_neg (by simp), run_newline_stops _ key_newline]
    rename_i h1
    rw [if_neg h1]
    split at h
    · rename_i h2
      cases h
      rw [if_pos h2, if_neg (by simp), run_newline_stops _ digit_newline]
    · cases h

/-! ## Reading from a text -/

/-- The tokens from here on other than white space and comments, at most `n` tokens. -/
def sigsOf : Nat → List Byte → Stream
  | 0, _ => ⟨[], false⟩
  | n + 1, w =>
    match first w with
    | none => ⟨[], false⟩
    | some (ty, k) =>
      if classify ty (w.take k) = .endOfStream then ⟨[], true⟩
      else if (classify ty (w.take k)).isTrivia then sigsOf n (w.drop k)
      else ⟨⟨classify ty (w.take k), w.take k⟩ :: (sigsOf n (w.drop k)).toks, (sigsOf n (w.drop k)).ended⟩

theorem collect_sigs (n : Nat) (l : Lexer) (hl : Inv l) (ho : l.offset = l.position) (hp : l.peekToken = none) :
    collect n l = sigsOf n (l.input.drop l.position) := by
  induction n generalizing l with
  | zero => rfl
  | succ n ih =>
    rw [collect, sigsOf, nextTok_fresh l hp]
    have h := lexNext_at l hl.le hl.bound
    have hi := (lexNext_inv l hl).1
    cases hf : first (l.input.drop l.position) with
    | none =>
      rw [hf] at h
      obtain ⟨p, -, -, h⟩ := h
      rw [h]
    | some x =>
      obtain ⟨ty, k⟩ := x
      rw [hf] at h
      simp only at h
      rw [h] at hi
      have hcap : (l.input.drop l.offset).take (l.position + k - l.offset) = (l.input.drop l.position).take k := by
        rw [ho]; congr 1; omega
      rw [h]
      simp only
      rw [ih _ hi rfl hp]
      simp only [hcap, List.drop_drop, Token.sig]
      by_cases he : classify ty ((l.input.drop l.position).take k) = .endOfStream
      · rw [if_pos he, if_pos he]
      · simp only [if_neg he]

theorem significant_sigs (text : List Byte) (n : Nat) (hn : text.length < n) : significant text = sigsOf n text := by
  unfold significant
  rw [← collect_bound _ (ready_new text) n (text.length + 1) (by simpa [left, Lexer.new] using hn)
    (by simp [left, Lexer.new]), collect_sigs n _ (inv_new text) rfl rfl]
  · rfl

theorem sigs_bound (w : List Byte) (n m : Nat) (hn : w.length < n) (hm : w.length < m) : sigsOf n w = sigsOf m w := by
  rw [← significant_sigs w n hn, ← significant_sigs w m hm]

theorem first_nil : first [] = some (.endOfStream, 0) := by unfold first; rw [if_pos rfl]

/-- White space at the beginning is passed over. -/
theorem sigs_space (b : List Byte) (n m : Nat) (hn : b.length < n) (hm : b.length < m) :
    sigsOf n (b.drop (run isSpace b)) = sigsOf m b := by
  by_cases hz : run isSpace b = 0
  · rw [hz, List.drop_zero]; exact sigs_bound b n m hn hm
  · cases m with
    | zero => omega
    | succ m =>
      have hr := run_eq isSpace b
      have hb : b ≠ [] := by intro hb; rw [if_pos hb] at hr; exact hz hr
      rw [if_neg hb] at hr
      have hs : isSpace (decode b).1 = true := by
        cases hs : isSpace (decode b).1 with
        | true => rfl
        | false => rw [hs] at hr; exact absurd hr hz
      rw [if_pos hs] at hr
      have hp := decode_pos b hb
      rw [sigsOf.eq_def (m + 1) b]
      simp only
      have : first b = some (.whitespace, run isSpace b) := by
        unfold first
        rw [if_neg hb]
        simp only
        rw [if_pos hs, hr]
      rw [this]
      have hle := run_le isSpace b
      simp only [classify, if_neg (show ¬ TokenType.whitespace = .id by simp), TokenType.isTrivia]
      rw [if_neg (by simp), if_pos trivial]
      refine sigs_bound _ _ _ ?_ ?_ <;> rw [List.length_drop] <;> omega

/-- The tokens of a text without lexical errors, a newline and a text are those of the one and those of the other. -/
theorem sigs_newline (n : Nat) (w b : List Byte) (hn : w.length < n) (hw : (sigsOf n w).ended = true) (m k : Nat)
    (hm : w.length + 1 + b.length < m) (hk : b.length < k) :
    sigsOf m (w ++ ch '\n' :: b) = ⟨(sigsOf n w).toks ++ (sigsOf k b).toks, (sigsOf k b).ended⟩ := by
  induction n generalizing w m with
  | zero => omega
  | succ n ih =>
    cases m with
    | zero => omega
    | succ m =>
      by_cases hwe : w = []
      · subst hwe
        have e1 : sigsOf (n + 1) [] = ⟨[], true⟩ := by rw [sigsOf, first_nil]; rfl
        rw [e1, List.nil_append, List.nil_append]
        have hr : run isSpace (ch '\n' :: b) = 1 + run isSpace b := by
          rw [run_eq, if_neg (by simp), decode_char '\n' (by decide), if_pos space_newline]; simp
        have hs := sigs_space (ch '\n' :: b) (m + 1) (m + 1) (by simp at hm ⊢; omega) (by simp at hm ⊢; omega)
        rw [← hs, hr, Nat.add_comm 1, List.drop_succ_cons, sigs_space b (m + 1) k (by simp at hm; omega) hk]
      · rw [sigsOf] at hw
        cases hf : first w with
        | none => rw [hf] at hw; cases hw
        | some x =>
          obtain ⟨ty, j⟩ := x
          obtain ⟨hle, he0, hpos⟩ := first_bounds _ _ _ hf
          have hj := hpos hwe
          have hne : ty ≠ .endOfStream := fun h => hwe (he0.1 h)
          have hfn := first_newline w b hwe ty j hf
          rw [hf] at hw
          simp only at hw
          by_cases hws : ty = .whitespace ∧ j = w.length
          · obtain ⟨rfl, rfl⟩ := hws
            rw [if_pos ⟨rfl, rfl⟩] at hfn
            have e1 : sigsOf (n + 1) w = ⟨[], true⟩ := by
              rw [sigsOf, hf]
              simp only [classify, if_neg (show ¬ TokenType.whitespace = .id by simp), TokenType.isTrivia]
              rw [if_neg (by simp), if_pos trivial, List.drop_length]
              cases n with
              | zero => have := List.length_pos_iff.2 hwe; omega
              | succ n => rw [sigsOf, first_nil]; rfl
            rw [e1, List.nil_append, sigsOf, hfn]
            simp only [classify, if_neg (show ¬ TokenType.whitespace = .id by simp), TokenType.isTrivia]
            rw [if_neg (by simp), if_pos trivial, List.drop_append, List.drop_of_length_le (by omega), List.nil_append,
              show w.length + (1 + run isSpace b) - w.length = run isSpace b + 1 by omega, List.drop_succ_cons,
              sigs_space b m k (by omega) hk]
          · rw [if_neg hws] at hfn
            have ht : (w ++ ch '\n' :: b).take j = w.take j := List.take_append_of_le_length hle
            have hd : (w ++ ch '\n' :: b).drop j = w.drop j ++ ch '\n' :: b := List.drop_append_of_le_length hle
            have hc : classify ty (w.take j) ≠ .endOfStream := fun h => hne ((classify_eos _ _).1 h)
            rw [if_neg hc] at hw
            rw [sigsOf, sigsOf.eq_def (n + 1) w, hfn]
            simp only [hf]
            rw [ht, hd, if_neg hc, if_neg hc]
            have hl : (w.drop j).length = w.length - j := List.length_drop
            split at hw
            · rename_i h2
              rw [if_pos h2, if_pos h2]
              exact ih (w.drop j) (by omega) hw m (by omega)
            · rename_i h2
              rw [if_neg h2, if_neg h2, ih (w.drop j) (by omega) hw m (by omega)]
              simp

/-- The tokens of two texts with a newline between them. -/
theorem tokens_newline (a b : List Byte) (ha : Lexes a) :
    tokens (a ++ ch '\n' :: b) = tokens a ++ tokens b ∧ (Lexes (a ++ ch '\n' :: b) ↔ Lexes b) := by
  have h := sigs_newline (a.length + 1) a b (by omega)
    (by rw [← significant_sigs a _ (by omega), significant_tokens]; exact ha) (a.length + b.length + 2) (b.length + 1) (by omega) (by omega)
  rw [← significant_sigs a _ (by omega), ← significant_sigs b _ (by omega),
    ← significant_sigs _ _ (by simp; omega), significant_tokens, significant_tokens, significant_tokens] at h
  injection h with h1 h2
  exact ⟨h1, by unfold Lexes; rw [h2]⟩

end Verif.Wit
