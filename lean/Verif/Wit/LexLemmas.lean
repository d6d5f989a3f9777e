import Verif.Wit.Lex

/-!
# The WIT lexer as a function of the text that is left
-/

namespace Verif.Wit

/-! ## Characters -/

theorem decode_ascii (b : Byte) (w : List Byte) (h : b.toNat < 128) : decode (b :: w) = (b.toNat, 1) := by
  rw [decode, if_pos h]

theorem lead_cases (b : Byte) (k lo hi : Nat) (h : lead b = some (k, lo, hi)) :
    (k = 2 ∧ 0xC2 ≤ b.toNat ∧ b.toNat ≤ 0xDF ∧ lo = 0x80 ∧ hi = 0xBF) ∨
    (k = 3 ∧ 0xE0 ≤ b.toNat ∧ b.toNat ≤ 0xEF ∧ 0x80 ≤ lo ∧ hi ≤ 0xBF ∧ (b.toNat = 0xE0 → lo = 0xA0) ∧ (b.toNat = 0xED → hi = 0x9F)) ∨
    (k = 4 ∧ 0xF0 ≤ b.toNat ∧ b.toNat ≤ 0xF4 ∧ 0x80 ≤ lo ∧ hi ≤ 0xBF ∧ (b.toNat = 0xF0 → lo = 0x90) ∧ (b.toNat = 0xF4 → hi = 0x8F)) := by
  unfold lead at h
  simp only at h
  repeat' split at h
  all_goals first
    | (cases h; omega)
    | (simp at h)

theorem isTail_iff (b : Byte) : isTail b = true ↔ 0x80 ≤ b.toNat ∧ b.toNat ≤ 0xBF := by simp [isTail]

/-- A character that is not ASCII has no ASCII byte. -/
theorem decode_wide (b : Byte) (w : List Byte) (h : 128 ≤ b.toNat) :
    128 ≤ (decode (b :: w)).1 ∧ 1 ≤ (decode (b :: w)).2 ∧ (decode (b :: w)).2 ≤ (b :: w).length ∧
      ∀ x ∈ (b :: w).take (decode (b :: w)).2, 128 ≤ x.toNat := by
  have one : 128 ≤ runeError ∧ 1 ≤ 1 ∧ 1 ≤ (b :: w).length ∧ ∀ x ∈ (b :: w).take 1, 128 ≤ x.toNat := by
    refine ⟨by decide, Nat.le_refl _, by simp, ?_⟩
    intro x hx
    simp at hx
    subst hx
    exact h
  rw [decode, if_neg (by omega), decodeWide.eq_def]
  split
  · rename_i lo hi c w' hl
    split
    · rename_i hc
      have := lead_cases _ _ _ _ hl
      refine ⟨by simp only; omega, by simp only; omega, by simp, ?_⟩
      intro x hx
      simp at hx
      rcases hx with rfl | rfl <;> omega
    · exact one
  · rename_i lo hi c d w' hl
    split
    · rename_i hc
      have := lead_cases _ _ _ _ hl
      obtain ⟨hc, hd⟩ := hc
      rw [isTail_iff] at hd
      refine ⟨by simp only; omega, by simp only; omega, by simp, ?_⟩
      intro x hx
      simp at hx
      rcases hx with rfl | rfl | rfl <;> omega
    · exact one
  · rename_i lo hi c d e w' hl
    split
    · rename_i hc
      have := lead_cases _ _ _ _ hl
      obtain ⟨hc, hd, he⟩ := hc
      rw [isTail_iff] at hd he
      refine ⟨by simp only; omega, by simp only; omega, by simp, ?_⟩
      intro x hx
      simp at hx
      rcases hx with rfl | rfl | rfl | rfl <;> omega
    · exact one
  · exact one

theorem decode_pos (w : List Byte) (h : w ≠ []) : 1 ≤ (decode w).2 ∧ (decode w).2 ≤ w.length := by
  cases w with
  | nil => exact absurd rfl h
  | cons b w =>
    by_cases hb : b.toNat < 128
    · rw [decode_ascii b w hb]; simp
    · have := decode_wide b w (by omega); exact ⟨this.2.1, this.2.2.1⟩

/-- The first character is a given ASCII character. -/
theorem decode_is (c : Char) (hc : c.toNat < 128) (b : Byte) (w : List Byte) : (decode (b :: w)).1 = rn c ↔ b = ch c := by
  have e : (ch c).toNat = c.toNat := by
    unfold ch
    rw [BitVec.toNat_ofNat]
    omega
  by_cases hb : b.toNat < 128
  · rw [decode_ascii b w hb]
    unfold rn
    constructor
    · intro h; exact BitVec.eq_of_toNat_eq (by rw [e]; exact h)
    · rintro rfl; exact e
  · have h := decode_wide b w (by omega)
    constructor
    · intro h2
      unfold rn at h2
      omega
    · rintro rfl
      omega

theorem decode_char (c : Char) (hc : c.toNat < 128) (w : List Byte) : decode (ch c :: w) = (rn c, 1) := by
  have e : (ch c).toNat = c.toNat := by
    unfold ch
    rw [BitVec.toNat_ofNat]
    omega
  rw [decode_ascii _ _ (by omega), e]
  rfl

/-- A text cut somewhere after its first character has the same first character. -/
theorem decode_prefix (c v : List Byte) (hne : c ≠ []) (h : (decode (c ++ v)).2 ≤ c.length) : decode c = decode (c ++ v) := by
  cases c with
  | nil => exact absurd rfl hne
  | cons b c =>
    rw [List.cons_append] at h ⊢
    by_cases hb : b.toNat < 128
    · rw [decode_ascii b _ hb, decode_ascii b _ hb]
    · rw [decode, if_neg hb] at h ⊢
      rw [decode, if_neg hb]
      rcases hl : lead b with _ | ⟨k, lo, hi⟩
      · rfl
      · rw [hl] at h
        have cut : ∀ (P : Prop) [Decidable P] (x n : Nat), ¬ n ≤ (b :: c).length →
            (if P then (x, n) else (runeError, 1)).2 ≤ (b :: c).length →
            (runeError, 1) = (if P then (x, n) else (runeError, 1)) := by
          intro P _ x n hn h
          by_cases hP : P
          · rw [if_pos hP] at h; exact absurd h hn
          · rw [if_neg hP]
        rcases lead_cases _ _ _ _ hl with ⟨rfl, -⟩ | ⟨rfl, -⟩ | ⟨rfl, -⟩
        · rcases c with _ | ⟨x, c⟩
          · rcases v with _ | ⟨x, v⟩
            · rfl
            · exact cut _ _ _ (by simp) h
          · rfl
        · rcases c with _ | ⟨x, _ | ⟨y, c⟩⟩
          · rcases v with _ | ⟨x, _ | ⟨y, v⟩⟩
            · rfl
            · rfl
            · exact cut _ _ _ (by simp) h
          · rcases v with _ | ⟨y, v⟩
            · rfl
            · exact cut _ _ _ (by simp) h
          · rfl
        · rcases c with _ | ⟨x, _ | ⟨y, _ | ⟨z, c⟩⟩⟩
          · rcases v with _ | ⟨x, _ | ⟨y, _ | ⟨z, v⟩⟩⟩
            · rfl
            · rfl
            · rfl
            · exact cut _ _ _ (by simp) h
          · rcases v with _ | ⟨y, _ | ⟨z, v⟩⟩
            · rfl
            · rfl
            · exact cut _ _ _ (by simp) h
          · rcases v with _ | ⟨z, v⟩
            · rfl
            · exact cut _ _ _ (by simp) h
          · rfl

/-! ## Runs of characters -/

/-- The bytes of the first characters that pass a test, at most `n` characters. -/
def runs (f : Nat → Bool) : Nat → List Byte → Nat
  | 0, _ => 0
  | n + 1, w =>
    if w = [] then 0
    else if f (decode w).1 then (decode w).2 + runs f n (w.drop (decode w).2)
    else 0

/-- The bytes of the first characters that pass a test. -/
def run (f : Nat → Bool) (w : List Byte) : Nat := runs f w.length w

theorem runs_bound (f : Nat → Bool) (n m : Nat) (w : List Byte) (hn : w.length ≤ n) (hm : w.length ≤ m) :
    runs f n w = runs f m w := by
  induction n generalizing m w with
  | zero =>
    have : w = [] := List.length_eq_zero_iff.1 (by omega)
    subst this
    cases m <;> simp [runs]
  | succ n ih =>
    cases m with
    | zero =>
      have : w = [] := List.length_eq_zero_iff.1 (by omega)
      subst this
      simp [runs]
    | succ m =>
      rw [runs, runs]
      by_cases hw : w = []
      · rw [if_pos hw, if_pos hw]
      · have hp := decode_pos w hw
        rw [if_neg hw, if_neg hw, ih m (w.drop (decode w).2) (by rw [List.length_drop]; omega)
          (by rw [List.length_drop]; omega)]

theorem run_eq (f : Nat → Bool) (w : List Byte) :
    run f w = if w = [] then 0 else if f (decode w).1 then (decode w).2 + run f (w.drop (decode w).2) else 0 := by
  by_cases hw : w = []
  · subst hw; rfl
  · have hp := decode_pos w hw
    unfold run
    rw [runs_bound f w.length (w.length + 1) w (Nat.le_refl _) (by omega), runs, if_neg hw, if_neg hw,
      runs_bound f w.length (w.drop (decode w).2).length (w.drop (decode w).2) (by rw [List.length_drop]; omega) (Nat.le_refl _)]

theorem run_nil (f : Nat → Bool) : run f [] = 0 := by rw [run_eq, if_pos rfl]

/-- Induction over the characters of a text. -/
theorem rune_induction {P : List Byte → Prop} (nil : P []) (step : ∀ w, w ≠ [] → P (w.drop (decode w).2) → P w)
    (w : List Byte) : P w := by
  suffices h : ∀ n (w : List Byte), w.length ≤ n → P w from h w.length w (Nat.le_refl _)
  intro n
  induction n with
  | zero =>
    intro w hw
    have : w = [] := List.length_eq_zero_iff.1 (by omega)
    subst this
    exact nil
  | succ n ih =>
    intro w hw
    by_cases h : w = []
    · subst h; exact nil
    · have hp := decode_pos w h
      exact step w h (ih _ (by rw [List.length_drop]; omega))

theorem run_le (f : Nat → Bool) (w : List Byte) : run f w ≤ w.length := by
  induction w using rune_induction with
  | nil => simp [run_nil]
  | step w hw ih =>
    have hp := decode_pos w hw
    rw [List.length_drop] at ih
    rw [run_eq, if_neg hw]
    split <;> omega

/-- Up to the first newline. -/
theorem run_line (w : List Byte) : run (· != rn '\n') w = (w.takeWhile (· != ch '\n')).length := by
  induction w using rune_induction with
  | nil => rfl
  | step w hw ih =>
    rw [run_eq, if_neg hw, ih]
    cases w with
    | nil => exact absurd rfl hw
    | cons b w =>
      have his := decode_is '\n' (by decide) b w
      by_cases hb : b = ch '\n'
      · rw [if_neg (by simp [his.2 hb])]
        simp [hb]
      · rw [if_pos (by simpa using fun h => hb (his.1 h))]
        by_cases ha : b.toNat < 128
        · rw [decode_ascii b w ha]
          simp only [List.drop_succ_cons, List.drop_zero]
          rw [List.takeWhile_cons, if_pos (by simpa using hb), List.length_cons, Nat.add_comm]
        · obtain ⟨-, -, h3, h4⟩ := decode_wide b w (by omega)
          generalize (decode (b :: w)).2 = k at h3 h4 ⊢
          conv => rhs; rw [← List.take_append_drop k (b :: w)]
          rw [List.takeWhile_append_of_pos, List.length_append, List.length_take, Nat.min_eq_left h3]
          intro x hx
          have h5 := h4 x hx
          have h6 : (ch '\n').toNat = 10 := by decide
          simp only [bne_iff_ne, ne_eq]
          rintro rfl
          omega

/-! ## Comments -/

/-- The bytes up to the end marker that balances `d` begin markers. -/
def closing : Nat → List Byte → Option Nat
  | 0, _ => some 0
  | _ + 1, [] => none
  | _ + 1, [_] => none
  | d + 1, b :: c :: w =>
    if b = ch '/' ∧ c = ch '*' then (closing (d + 2) w).map (· + 2)
    else if b = ch '*' ∧ c = ch '/' then (closing d w).map (· + 2)
    else (closing (d + 1) (c :: w)).map (· + 1)

theorem two_induction {P : List Byte → Prop} (nil : P []) (one : ∀ b, P [b]) (two : ∀ b c w, P w → P (c :: w) → P (b :: c :: w))
    (w : List Byte) : P w := by
  suffices h : P w ∧ ∀ b, P (b :: w) from h.1
  induction w with
  | nil => exact ⟨nil, one⟩
  | cons c w ih => exact ⟨ih.2 c, fun b => two b c w ih.1 (ih.2 c)⟩

theorem closing_le (d : Nat) (w : List Byte) (n : Nat) (h : closing d w = some n) : n ≤ w.length := by
  induction w using two_induction generalizing d n with
  | nil => cases d <;> simp [closing] at h; omega
  | one b => cases d <;> simp [closing] at h; omega
  | two b c w ih1 ih2 =>
    cases d with
    | zero => simp [closing] at h; omega
    | succ d =>
      rw [closing] at h
      repeat' split at h
      all_goals
        rw [Option.map_eq_some_iff] at h
        obtain ⟨m, hm, rfl⟩ := h
      · have := ih1 _ _ hm; simp only [List.length_cons]; omega
      · have := ih1 _ _ hm; simp only [List.length_cons]; omega
      · have := ih2 _ _ hm; simp only [List.length_cons] at this ⊢; omega

/-- Bytes that are no markers are passed over. -/
theorem closing_skip (d : Nat) (p w : List Byte) (hp : ∀ x ∈ p, 128 ≤ x.toNat) :
    closing (d + 1) (p ++ w) = (closing (d + 1) w).map (· + p.length) := by
  have h1 : (ch '/').toNat = 47 := by decide
  have h2 : (ch '*').toNat = 42 := by decide
  induction p with
  | nil => simp
  | cons b p ih =>
    have hb := hp b (by simp)
    have ihp := ih (fun x hx => hp x (by simp [hx]))
    rw [List.cons_append]
    rcases hq : p ++ w with _ | ⟨c, q⟩
    · have : p = [] ∧ w = [] := by simpa using hq
      obtain ⟨rfl, rfl⟩ := this
      simp [closing]
    · rw [closing, if_neg (by rintro ⟨rfl, -⟩; omega), if_neg (by rintro ⟨rfl, -⟩; omega), ← hq, ihp, Option.map_map]
      congr 1

/-- One step of `closing` over one character of the text. -/
theorem closing_rune (d : Nat) (b : Byte) (w : List Byte) :
    closing (d + 1) (b :: w) =
      if b = ch '/' ∧ w.head? = some (ch '*') then (closing (d + 2) w.tail).map (· + 2)
      else if b = ch '*' ∧ w.head? = some (ch '/') then (closing d w.tail).map (· + 2)
      else (closing (d + 1) ((b :: w).drop (decode (b :: w)).2)).map (· + (decode (b :: w)).2) := by
  by_cases ha : b.toNat < 128
  · rw [decode_ascii b w ha]
    cases w with
    | nil => simp [closing]
    | cons c w => simp [closing]
  · have h1 : (ch '/').toNat = 47 := by decide
    have h2 : (ch '*').toNat = 42 := by decide
    obtain ⟨-, -, h3, h4⟩ := decode_wide b w (by omega)
    rw [if_neg (by rintro ⟨rfl, -⟩; omega), if_neg (by rintro ⟨rfl, -⟩; omega)]
    have := closing_skip d _ ((b :: w).drop (decode (b :: w)).2) h4
    rw [List.take_append_drop, List.length_take, Nat.min_eq_left h3] at this
    exact this

/-! ## The loops -/

/-- The text the lexer has not looked at. -/
def Lexer.rest (l : Lexer) : List Byte := l.input.drop l.position

/-- The lexer further on. -/
def Lexer.skip (l : Lexer) (n : Nat) : Lexer := { l with position := l.position + n }

theorem skip_rest (l : Lexer) (n : Nat) : (l.skip n).rest = l.rest.drop n := by
  simp [Lexer.skip, Lexer.rest]

theorem skip_skip (l : Lexer) (n m : Nat) : (l.skip n).skip m = l.skip (n + m) := by
  simp [Lexer.skip, Nat.add_assoc]

theorem skip_zero (l : Lexer) : l.skip 0 = l := rfl

theorem rest_nil (l : Lexer) : l.rest = [] ↔ l.position ≥ l.input.length := by
  simp [Lexer.rest]

theorem peekRune_at (l : Lexer) : peekRune l = (.ok (if l.rest = [] then none else some (decode l.rest).1), l) := by
  unfold peekRune
  by_cases h : l.position ≥ l.input.length
  · rw [if_pos h, if_pos ((rest_nil l).2 h)]
  · rw [if_neg h, if_neg (fun h2 => h ((rest_nil l).1 h2))]; rfl

theorem readRune_nil (l : Lexer) (h : l.rest = []) : readRune l = (.ok none, l) := by
  unfold readRune
  rw [if_pos ((rest_nil l).1 h)]

theorem readRune_at (l : Lexer) (h : l.rest ≠ []) : readRune l = (.ok (some (decode l.rest).1), l.skip (decode l.rest).2) := by
  unfold readRune
  rw [if_neg (fun h2 => h ((rest_nil l).2 h2))]
  rfl

theorem eatIf_at (f : Nat → Bool) (l : Lexer) :
    eatIf f l = if l.rest ≠ [] ∧ f (decode l.rest).1 = true then (.ok true, l.skip (decode l.rest).2) else (.ok false, l) := by
  unfold eatIf
  rw [SM.bind_ok (peekRune_at l)]
  by_cases h : l.rest = []
  · rw [if_pos h, if_neg (by simp [h])]
    rfl
  · rw [if_neg h]
    by_cases hf : f (decode l.rest).1 = true
    · rw [if_pos ⟨h, hf⟩]
      simp only [hf, if_true]
      have e : expectIf f l = (.ok (), l.skip (decode l.rest).2) := by
        unfold expectIf
        rw [SM.bind_ok (readRune_at l h)]
        simp [hf]
      rw [SM.bind_ok e]
      rfl
    · rw [if_neg (by simp [hf])]
      simp [hf]

theorem eat_at (c : Char) (hc : c.toNat < 128) (l : Lexer) :
    eat c l = if l.rest.head? = some (ch c) then (.ok true, l.skip 1) else (.ok false, l) := by
  unfold eat
  rw [eatIf_at]
  rcases h : l.rest with _ | ⟨b, w⟩
  · rfl
  · have his := decode_is c hc b w
    by_cases hb : b = ch c
    · subst hb
      rw [if_pos ⟨by simp, by simp [his.2 rfl]⟩, decode_char c hc, if_pos (by simp)]
    · rw [if_neg (by simp [his, hb]), if_neg (by simp [hb])]

theorem eatLoop_at (f : Nat → Bool) (n : Nat) (l : Lexer) (h : l.rest.length < n) :
    eatLoop f n l = (.ok (), l.skip (run f l.rest)) := by
  induction n generalizing l with
  | zero => omega
  | succ n ih =>
    rw [eatLoop, SM.bind_def, eatIf_at, run_eq]
    by_cases hr : l.rest = []
    · rw [if_neg (by simp [hr]), if_pos hr]; rfl
    · rw [if_neg hr]
      by_cases hf : f (decode l.rest).1 = true
      · rw [if_pos ⟨hr, hf⟩, if_pos hf]
        have hp := decode_pos _ hr
        simp only [if_true]
        rw [ih _ (by rw [skip_rest, List.length_drop]; omega), skip_rest, skip_skip]
      · rw [if_neg (by simp [hf]), if_neg hf]; rfl

theorem blockLoop_at (n d : Nat) (l : Lexer) (h : l.rest.length < n) :
    match closing d l.rest with
    | some k => blockLoop n d l = (.ok (), l.skip k)
    | none => blockLoop n d l = (.err, l.skip l.rest.length) := by
  induction n generalizing d l with
  | zero => omega
  | succ n ih =>
    rw [blockLoop]
    cases d with
    | zero => rw [closing]; simp [skip_zero]
    | succ d =>
      rw [if_pos (by omega)]
      by_cases hr : l.rest = []
      · rw [hr, closing]
        simp only
        rw [SM.bind_ok (readRune_nil l hr)]
        rfl
      · rw [SM.bind_ok (readRune_at l hr)]
        have hp := decode_pos _ hr
        simp only
        rcases hw : l.rest with _ | ⟨b, w⟩
        · exact absurd hw hr
        have step : ∀ (k d' : Nat) (m : SM Lexer Unit), 1 ≤ k → k ≤ (b :: w).length →
            m = blockLoop n d' →
            match (closing d' ((b :: w).drop k)).map (· + k) with
            | some j => m (l.skip k) = (.ok (), l.skip j)
            | none => m (l.skip k) = (.err, l.skip (b :: w).length) := by
          rintro k d' m h1 h2 rfl
          have := ih d' (l.skip k) (by rw [skip_rest, hw, List.length_drop]; rw [hw] at h; omega)
          rw [skip_rest, hw] at this
          split at this
          · rename_i j hj
            rw [hj]
            simp only [Option.map_some]
            rw [this, skip_skip, Nat.add_comm]
          · rename_i hj
            rw [hj]
            simp only [Option.map_none]
            rw [this, skip_skip, List.length_drop]
            congr 2
            omega
        rw [closing_rune]
        have s1 := decode_is '/' (by decide) b w
        have s2 := decode_is '*' (by decide) b w
        have ne : rn '*' ≠ rn '/' := by decide
        rw [hw] at hp
        by_cases hb : b = ch '/'
        · subst hb
          have hd := decode_char '/' (by decide) w
          simp only [hd, if_true]
          rw [SM.bind_def, eat_at '*' (by decide), skip_rest, hw]
          simp only [List.drop_succ_cons, List.drop_zero]
          by_cases hh : w.head? = some (ch '*')
          · rw [if_pos hh, if_pos ⟨trivial, hh⟩]
            cases w with
            | nil => simp at hh
            | cons c w =>
              simp only [if_true]
              rw [skip_skip]
              exact step 2 (d + 2) _ (by omega) (by simp) rfl
          · rw [if_neg hh, if_neg (by simp [hh]), if_neg (by rintro ⟨h, -⟩; exact absurd h (by decide))]
            simp only [Bool.false_eq_true, if_false]
            exact step 1 (d + 1) _ (by omega) (by simp) rfl
        · rw [if_neg (fun h => hb (s1.1 h)), if_neg (by simp [hb])]
          by_cases hb2 : b = ch '*'
          · subst hb2
            have hd := decode_char '*' (by decide) w
            simp only [hd, if_true]
            rw [SM.bind_def, eat_at '/' (by decide), skip_rest, hw]
            simp only [List.drop_succ_cons, List.drop_zero]
            by_cases hh : w.head? = some (ch '/')
            · rw [if_pos hh, if_pos ⟨trivial, hh⟩]
              cases w with
              | nil => simp at hh
              | cons c w =>
                simp only [if_true]
                rw [skip_skip]
                exact step 2 d _ (by omega) (by simp) rfl
            · rw [if_neg hh, if_neg (by simp [hh])]
              simp only [Bool.false_eq_true, if_false]
              exact step 1 (d + 1) _ (by omega) (by simp) rfl
          · rw [if_neg (fun h => hb2 (s2.1 h)), if_neg (by simp [hb2])]
            exact step _ (d + 1) _ hp.1 hp.2 rfl

/-! ## One call -/

section
variable [Unicode]

/-- The first token of a text and its length, if there is one. A word is an identifier here. -/
def first (w : List Byte) : Option (TokenType × Nat) :=
  if w = [] then some (.endOfStream, 0)
  else
    let r := (decode w).1
    let k := (decode w).2
    let v := w.drop k
    if isSpace r then some (.whitespace, k + run isSpace v)
    else if r = rn '/' then
      if v.head? = some (ch '/') then some (.lineComment, 2 + (v.tail.takeWhile (· != ch '\n')).length)
      else if v.head? = some (ch '*') then (closing 1 v.tail).map fun n => (.blockComment, 2 + n)
      else some (.slash, 1)
    else match single r with
    | some ty => some (ty, 1)
    | none =>
      if r = rn '-' then
        if v.head? = some (ch '>') then some (.rightArrow, 2) else some (.minus, 1)
      else if r = rn '%' then
        if v ≠ [] ∧ isKeyLikeStart (decode v).1 then
          some (.explicitId, 1 + ((decode v).2 + run isKeyLikeContinue (v.drop (decode v).2)))
        else some (.explicitId, 1)
      else if isKeyLikeStart r then some (.id, k + run isKeyLikeContinue v)
      else if isDigit r then some (.integer, k + run isDigit v)
      else none

/-- The type of a token that looks like a token of the given type. -/
def classify (ty : TokenType) (c : List Byte) : TokenType := if ty = .id then wordType c else ty

omit [Unicode] in
theorem wordType_cases (c : List Byte) : wordType c = .id ∨ ∃ k ∈ keywordMap, k.1 = c ∧ wordType c = k.2 := by
  unfold wordType
  cases h : keywordMap.find? (·.1 == c) with
  | none => exact .inl rfl
  | some k =>
    refine .inr ⟨k, List.mem_of_find?_eq_some h, ?_, rfl⟩
    have := List.find?_some h
    simpa using this

omit [Unicode] in
theorem keyword_kinds : ∀ k ∈ keywordMap, k.2 ≠ .endOfStream ∧ k.2 ≠ .whitespace ∧ k.2 ≠ .lineComment ∧
    k.2 ≠ .blockComment ∧ k.2 ≠ .id ∧ k.2 ≠ .explicitId ∧ k.2 ≠ .integer ∧ k.2 ≠ .minus ∧ k.2 ≠ .rightArrow := by decide

omit [Unicode] in
theorem classify_eos (ty : TokenType) (c : List Byte) : classify ty c = .endOfStream ↔ ty = .endOfStream := by
  unfold classify
  split
  · rename_i h
    subst h
    rcases wordType_cases c with h | ⟨k, hk, -, h⟩
    · simp [h]
    · have := (keyword_kinds k hk).1
      simp [h, this]
  · rfl

omit [Unicode] in
theorem single_some (r : Nat) (ty : TokenType) (h : single r = some ty) : (r, ty) ∈ singles := by
  unfold single at h
  rw [Option.map_eq_some_iff] at h
  obtain ⟨k, hk, rfl⟩ := h
  have := List.find?_some hk
  simp only [beq_iff_eq] at this
  subst this
  exact List.mem_of_find?_eq_some hk

omit [Unicode] in
theorem singles_kinds : ∀ k ∈ singles, k.2 ≠ .endOfStream ∧ k.2 ≠ .id ∧ k.2 ≠ .whitespace ∧ k.2 ≠ .lineComment ∧
    k.2 ≠ .blockComment ∧ k.2 ≠ .explicitId ∧ k.2 ≠ .integer ∧ k.2 ≠ .minus ∧ k.2 ≠ .rightArrow ∧ k.2 ≠ .slash := by decide

/-- What follows a token is in the text, and only the end of the text is empty. -/
theorem first_bounds (w : List Byte) (ty : TokenType) (n : Nat) (h : first w = some (ty, n)) :
    n ≤ w.length ∧ (ty = .endOfStream ↔ w = []) ∧ (w ≠ [] → 1 ≤ n) := by
  unfold first at h
  split at h
  · rename_i hw
    cases h
    simp [hw]
  rename_i hw
  have hp := decode_pos w hw
  simp only at h
  have hl : (w.drop (decode w).2).length = w.length - (decode w).2 := List.length_drop
  generalize (w.drop (decode w).2) = v at h hl
  have tail : ∀ c, v.head? = some c → v.tail.length + 1 = v.length := by
    intro c hc
    cases v with
    | nil => simp at hc
    | cons x v => simp
  split at h
  · cases h
    have := run_le isSpace v
    exact ⟨by omega, by simp [hw], fun _ => by omega⟩
  split at h
  · split at h
    · rename_i hh
      cases h
      have h1 := tail _ hh
      have h2 := (List.takeWhile_prefix (· != ch '\n') (l := v.tail)).length_le
      exact ⟨by omega, by simp [hw], fun _ => by omega⟩
    split at h
    · rename_i hh
      rw [Option.map_eq_some_iff] at h
      obtain ⟨m, hm, he⟩ := h
      cases he
      have h1 := tail _ hh
      have h2 := closing_le _ _ _ hm
      exact ⟨by omega, by simp [hw], fun _ => by omega⟩
    · cases h
      exact ⟨by omega, by simp [hw], fun _ => by omega⟩
  split at h
  · rename_i ty' hs
    cases h
    have := (singles_kinds _ (single_some _ _ hs)).1
    exact ⟨by omega, by simpa [hw] using this, fun _ => by omega⟩
  split at h
  · split at h
    · rename_i hh
      cases h
      have h1 := tail _ hh
      exact ⟨by omega, by simp [hw], fun _ => by omega⟩
    · cases h
      exact ⟨by omega, by simp [hw], fun _ => by omega⟩
  split at h
  · split at h
    · rename_i hh
      cases h
      have h1 := decode_pos v hh.1
      have h2 := run_le isKeyLikeContinue (v.drop (decode v).2)
      rw [List.length_drop] at h2
      exact ⟨by omega, by simp [hw], fun _ => by omega⟩
    · cases h
      exact ⟨by omega, by simp [hw], fun _ => by omega⟩
  split at h
  · cases h
    have := run_le isKeyLikeContinue v
    exact ⟨by omega, by simp [hw], fun _ => by omega⟩
  split at h
  · cases h
    have := run_le isDigit v
    exact ⟨by omega, by simp [hw], fun _ => by omega⟩
  · cases h

theorem lexNext_first (l : Lexer) (h1 : l.offset ≤ l.position) (h2 : l.position ≤ l.input.length) :
    match first l.rest with
    | some (ty, n) => ∃ c, capture (l.skip n) = (.ok c, l.skip n) ∧ lexNext l = makeToken (classify ty c) (l.skip n)
    | none => ∃ n, 1 ≤ n ∧ n ≤ l.rest.length ∧ lexNext l = (.err, l.skip n) := by
  have hlen : l.rest.length = l.input.length - l.position := List.length_drop
  have cap : ∀ n, n ≤ l.rest.length → ∃ c, capture (l.skip n) = (.ok c, l.skip n) := by
    intro n hn
    unfold capture
    rw [if_neg (by simp only [Classical.not_not, Lexer.skip]; omega)]
    exact ⟨_, rfl⟩
  have done : ∀ (ty : TokenType) (n : Nat), n ≤ l.rest.length → lexNext l = makeToken ty (l.skip n) → ty ≠ .id →
      ∃ c, capture (l.skip n) = (.ok c, l.skip n) ∧ lexNext l = makeToken (classify ty c) (l.skip n) := by
    intro ty n hn h hid
    obtain ⟨c, hc⟩ := cap n hn
    refine ⟨c, hc, ?_⟩
    unfold classify
    rw [if_neg hid]
    exact h
  have start : l.rest ≠ [] → lexNext l = (match some (decode l.rest).1 with
      | none => makeToken .endOfStream
      | some r =>
        if isSpace r then do
          eatLoop isSpace (l.input.length + 1)
          makeToken .whitespace
        else if r = rn '/' then do
          if ← eat '/' then do
            eatLoop (· != rn '\n') (l.input.length + 1)
            makeToken .lineComment
          else if ← eat '*' then do
            blockLoop (l.input.length + 1) 1
            makeToken .blockComment
          else makeToken .slash
        else match single r with
        | some ty => makeToken ty
        | none =>
          if r = rn '-' then do
            if ← eat '>' then makeToken .rightArrow else makeToken .minus
          else if r = rn '%' then do
            if ← eatIf isKeyLikeStart then do
              eatLoop isKeyLikeContinue (l.input.length + 1)
              makeToken .explicitId
            else makeToken .explicitId
          else if isKeyLikeStart r then do
            eatLoop isKeyLikeContinue (l.input.length + 1)
            makeToken (wordType (← capture))
          else if isDigit r then do
            eatLoop isDigit (l.input.length + 1)
            makeToken .integer
          else SM.fail : SM Lexer Token) (l.skip (decode l.rest).2) := by
    intro hr
    unfold lexNext
    rw [SM.bind_get, SM.bind_ok (readRune_at l hr)]
    rfl
  by_cases hr : l.rest = []
  · have hf : first l.rest = some (.endOfStream, 0) := by unfold first; rw [if_pos hr]
    rw [hf]
    refine done _ 0 (Nat.zero_le _) ?_ (by decide)
    unfold lexNext
    rw [SM.bind_get, SM.bind_ok (readRune_nil l hr)]
    rfl
  · have e := start hr
    clear start
    have hb := first_bounds l.rest
    have hp := decode_pos _ hr
    have hrest : (l.skip (decode l.rest).2).rest = l.rest.drop (decode l.rest).2 := skip_rest _ _
    have small : ∀ m, (l.skip m).rest.length < l.input.length + 1 := by
      intro m
      rw [skip_rest, List.length_drop]
      omega
    unfold first at hb ⊢
    rw [if_neg hr] at hb ⊢
    simp only at e hb ⊢
    by_cases hs : isSpace (decode l.rest).1 = true
    · rw [if_pos hs] at e hb ⊢
      refine done _ _ (hb _ _ rfl).1 ?_ (by decide)
      rw [e, SM.bind_ok (eatLoop_at _ _ _ (small _)), hrest, skip_skip]
    rw [if_neg hs] at e hb ⊢
    by_cases hd : (decode l.rest).1 = rn '/'
    · have h1 : (decode l.rest).2 = 1 := by
        rcases hw : l.rest with _ | ⟨b, w⟩
        · exact absurd hw hr
        · rw [hw] at hd
          rw [(decode_is '/' (by decide) b w).1 hd, decode_char '/' (by decide)]
      rw [if_pos hd] at e hb ⊢
      rw [SM.bind_def, eat_at '/' (by decide), hrest, h1] at e
      rw [h1] at hb ⊢
      by_cases hh : (l.rest.drop 1).head? = some (ch '/')
      · rw [if_pos hh] at e hb ⊢
        refine done _ _ (hb _ _ rfl).1 ?_ (by decide)
        rw [e]
        simp only [if_true]
        rw [skip_skip, SM.bind_ok (eatLoop_at _ _ _ (small _)), skip_rest, skip_skip, run_line, List.tail_drop]
      rw [if_neg hh] at e hb ⊢
      simp only [Bool.false_eq_true, if_false] at e
      rw [SM.bind_def, eat_at '*' (by decide), skip_rest] at e
      by_cases hh : (l.rest.drop 1).head? = some (ch '*')
      · rw [if_pos hh] at e hb ⊢
        simp only [if_true] at e
        rw [skip_skip] at e
        have hbl := blockLoop_at (l.input.length + 1) 1 (l.skip (1 + 1)) (small _)
        rw [skip_rest, show l.rest.drop (1 + 1) = (l.rest.drop 1).tail by rw [List.tail_drop]] at hbl
        cases hc : closing 1 (l.rest.drop 1).tail with
        | some m =>
          rw [hc] at hb hbl
          simp only at hbl
          refine done _ _ (hb _ _ rfl).1 ?_ (by decide)
          rw [e, SM.bind_ok hbl, skip_skip]
        | none =>
          rw [hc] at hbl
          simp only at hbl
          simp only [Option.map_none]
          refine ⟨1 + 1 + (l.rest.drop 1).tail.length, by omega, ?_, ?_⟩
          · rw [List.tail_drop, List.length_drop]
            rcases hw : l.rest with _ | ⟨b, _ | ⟨c, w⟩⟩
            · rw [hw] at hh; simp at hh
            · rw [hw] at hh; simp at hh
            · simp only [List.length_cons]; omega
          · rw [e, SM.bind_err hbl, skip_skip]
      · rw [if_neg hh] at e hb ⊢
        simp only [Bool.false_eq_true, if_false] at e
        exact done _ _ (hb _ _ rfl).1 e (by decide)
    rw [if_neg hd] at e hb ⊢
    have ascii : ∀ c : Char, c.toNat < 128 → (decode l.rest).1 = rn c → (decode l.rest).2 = 1 := by
      intro c hc hd
      rcases hw : l.rest with _ | ⟨b, w⟩
      · exact absurd hw hr
      · rw [hw] at hd
        rw [(decode_is c hc b w).1 hd, decode_char c hc]
    cases hsi : single (decode l.rest).1 with
    | some ty =>
      rw [hsi] at e hb
      simp only at e hb ⊢
      have hm := single_some _ _ hsi
      have hk := singles_kinds _ hm
      have h1 : (decode l.rest).2 = 1 := by
        have : ∀ k ∈ singles, ∃ c : Char, c.toNat < 128 ∧ k.1 = rn c := by
          intro k hk
          simp only [singles, List.mem_cons, List.not_mem_nil, or_false] at hk
          rcases hk with rfl | rfl | rfl | rfl | rfl | rfl | rfl | rfl | rfl | rfl | rfl | rfl | rfl | rfl <;>
            exact ⟨_, by decide, rfl⟩
        obtain ⟨c, hc, hd⟩ := this _ hm
        exact ascii c hc hd
      rw [h1] at e
      exact done _ _ (hb _ _ rfl).1 e hk.2.1
    | none =>
      rw [hsi] at e hb
      simp only at e hb ⊢
      by_cases hm : (decode l.rest).1 = rn '-'
      · have h1 := ascii '-' (by decide) hm
        rw [if_pos hm] at e hb ⊢
        rw [SM.bind_def, eat_at '>' (by decide), hrest, h1] at e
        rw [h1] at hb ⊢
        by_cases hh : (l.rest.drop 1).head? = some (ch '>')
        · rw [if_pos hh] at e hb ⊢
          simp only [if_true] at e
          rw [skip_skip] at e
          exact done _ _ (hb _ _ rfl).1 e (by decide)
        · rw [if_neg hh] at e hb ⊢
          simp only [Bool.false_eq_true, if_false] at e
          exact done _ _ (hb _ _ rfl).1 e (by decide)
      rw [if_neg hm] at e hb ⊢
      by_cases hpc : (decode l.rest).1 = rn '%'
      · have h1 := ascii '%' (by decide) hpc
        rw [if_pos hpc] at e hb ⊢
        rw [SM.bind_def, eatIf_at, hrest, h1] at e
        rw [h1] at hb ⊢
        by_cases hh : l.rest.drop 1 ≠ [] ∧ isKeyLikeStart (decode (l.rest.drop 1)).1 = true
        · rw [if_pos hh] at e hb ⊢
          simp only [if_true] at e
          refine done _ _ (hb _ _ rfl).1 ?_ (by decide)
          rw [e, skip_skip, SM.bind_ok (eatLoop_at _ _ _ (small _)), skip_rest, skip_skip, List.drop_drop, Nat.add_assoc]
        · rw [if_neg hh] at e hb ⊢
          simp only [Bool.false_eq_true, if_false] at e
          exact done _ _ (hb _ _ rfl).1 e (by decide)
      rw [if_neg hpc] at e hb ⊢
      by_cases hk : isKeyLikeStart (decode l.rest).1 = true
      · rw [if_pos hk] at e hb ⊢
        obtain ⟨c, hc⟩ := cap _ (hb _ _ rfl).1
        refine ⟨c, hc, ?_⟩
        rw [e, SM.bind_ok (eatLoop_at _ _ _ (small _)), hrest, skip_skip, SM.bind_ok hc]
        rfl
      rw [if_neg hk] at e hb ⊢
      by_cases hdg : isDigit (decode l.rest).1 = true
      · rw [if_pos hdg] at e hb ⊢
        refine done _ _ (hb _ _ rfl).1 ?_ (by decide)
        rw [e, SM.bind_ok (eatLoop_at _ _ _ (small _)), hrest, skip_skip]
      rw [if_neg hdg] at e ⊢
      exact ⟨_, hp.1, hp.2, e⟩

/-- The token that `first` describes, when the text not yet returned begins at `offset` and the lexer stands at
`position`. -/
theorem lexNext_at (l : Lexer) (h1 : l.offset ≤ l.position) (h2 : l.position ≤ l.input.length) :
    match first (l.input.drop l.position) with
    | some (ty, n) =>
      lexNext l = (.ok ⟨classify ty ((l.input.drop l.offset).take (l.position + n - l.offset)), l.offset, l.column, l.line,
          (l.input.drop l.offset).take (l.position + n - l.offset)⟩,
          { l with
            position := l.position + n, offset := l.position + n,
            line := (advance ((l.input.drop l.offset).take (l.position + n - l.offset)) (l.line, l.column)).1,
            column := (advance ((l.input.drop l.offset).take (l.position + n - l.offset)) (l.line, l.column)).2 })
    | none => ∃ p, l.position < p ∧ p ≤ l.input.length ∧ lexNext l = (.err, { l with position := p }) := by
  have h := lexNext_first l h1 h2
  have hlen : l.rest.length = l.input.length - l.position := List.length_drop
  change match first l.rest with | some (ty, n) => _ | none => _
  split at h
  · rename_i ty n hf
    have hb := (first_bounds _ _ _ hf).1
    obtain ⟨c, hc, hl⟩ := h
    have hin : ¬ ¬ ((l.skip n).offset ≤ (l.skip n).position ∧ (l.skip n).position ≤ (l.skip n).input.length) := by
      simp only [Classical.not_not, Lexer.skip]; omega
    unfold capture at hc
    rw [if_neg hin] at hc
    cases hc
    rw [hl, makeToken, if_neg hin]
    rfl
  · rename_i hf
    obtain ⟨n, h3, h4, h5⟩ := h
    exact ⟨l.position + n, by omega, by omega, h5⟩

end

end Verif.Wit
