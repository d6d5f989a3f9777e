import Verif.Wat.OwnRules
import Verif.Wat.Render

/-!
# What the WAT lexer returns for any rules
-/

namespace Verif.Wat

open Spec

/-- A lexeme after some bytes. -/
def Lexeme.run : Lexeme → List Byte → Option Lexeme
  | l, [] => some l
  | l, b :: w => (l.eat b).bind (·.run w)

theorem Lexeme.run_append (l : Lexeme) (w v : List Byte) : l.run (w ++ v) = (l.run w).bind (·.run v) := by
  induction w generalizing l with
  | nil => rfl
  | cons b w ih =>
    show (l.eat b).bind _ = ((l.eat b).bind _).bind _
    cases l.eat b with
    | none => rfl
    | some l' => exact ih l'

theorem Lexeme.eat_rule (l l' : Lexeme) (b : Byte) (h : l.eat b = some l') : l'.rule = l.rule := by
  unfold Lexeme.eat at h
  split at h
  · rw [Option.map_eq_some_iff] at h
    obtain ⟨e, -, rfl⟩ := h
    rfl
  · split at h
    · cases h; rfl
    · cases h

theorem Lexeme.run_rule (l l' : Lexeme) (w : List Byte) (h : l.run w = some l') : l'.rule = l.rule := by
  induction w generalizing l with
  | nil => cases h; rfl
  | cons b w ih =>
    obtain ⟨m, h1, h2⟩ := Option.bind_eq_some_iff.1 h
    rw [ih m h2, Lexeme.eat_rule l m b h1]

/-- The lexemes after some bytes. -/
def alive (rs : List Rule) (w : List Byte) : List Lexeme := rs.filterMap fun r => (⟨r, 0⟩ : Lexeme).run w

theorem check_eat (r : Rule) (b : Byte) : r.check b = ((⟨r, 0⟩ : Lexeme).eat b).isSome := by
  cases r with
  | dfa d ty =>
    show (d.node 0).edges.any (fun e => e.1 b) = (((d.node 0).edges.find? fun e => e.1 b).map _).isSome
    rw [Option.isSome_map]
    induction (d.node 0).edges with
    | nil => rfl
    | cons e es ih =>
      rw [List.any_cons, List.find?_cons]
      cases e.1 b with
      | true => rfl
      | false => simpa using ih
  | str s ty =>
    show decide (s.head? = some b) = (if s[0]? = some b then some _ else none : Option Lexeme).isSome
    rw [List.head?_eq_getElem?]
    by_cases h : s[0]? = some b
    · rw [if_pos h]; simp [h]
    · rw [if_neg h]; simp [h]

theorem begin_alive (rs : List Rule) (b : Byte) : beginLexemes rs b = alive rs [b] := by
  unfold beginLexemes alive
  induction rs with
  | nil => rfl
  | cons r rs ih =>
    have hr : (⟨r, 0⟩ : Lexeme).run [b] = (⟨r, 0⟩ : Lexeme).eat b := by
      show ((⟨r, 0⟩ : Lexeme).eat b).bind _ = _
      cases (⟨r, 0⟩ : Lexeme).eat b <;> rfl
    have hc := check_eat r b
    rw [List.filterMap_cons, hr]
    cases he : (⟨r, 0⟩ : Lexeme).eat b with
    | none =>
      rw [he] at hc
      rw [List.filter_cons_of_neg (by simp [hc])]
      exact ih
    | some l =>
      rw [he] at hc
      rw [List.filter_cons_of_pos (by simp [hc]), List.map_cons, he, ih]
      rfl

theorem alive_step (rs : List Rule) (w : List Byte) (b : Byte) : (alive rs w).filterMap (·.eat b) = alive rs (w ++ [b]) := by
  unfold alive
  rw [List.filterMap_filterMap]
  congr 1
  funext r
  rw [Lexeme.run_append]
  cases (⟨r, 0⟩ : Lexeme).run w with
  | none => rfl
  | some l =>
    show l.eat b = (l.eat b).bind _
    cases l.eat b <;> rfl

theorem scan_append (v rest : List Byte) (w : List Byte) (p : Nat) (rs : List Rule)
    (h : ∀ u b, u ++ [b] <+: v → alive rs (w ++ (u ++ [b])) ≠ []) :
    scan (v ++ rest) p (alive rs w) = scan rest (p + v.length) (alive rs (w ++ v)) := by
  induction v generalizing w p with
  | nil => simp
  | cons b v ih =>
    rw [List.cons_append, scan, alive_step, if_neg, ih (w ++ [b])]
    · rw [List.append_assoc, List.singleton_append, List.length_cons, Nat.add_right_comm, Nat.add_assoc]
    · intro u c hu
      have := h (b :: u) c (by simpa using hu)
      simpa using this
    · have := h [] b (by simp)
      simpa using this

theorem dfa_node (d : Dfa) (q : Nat) (node : Node) (h : d.nodes[q]? = some node) : d.node q = node := by
  simp [Dfa.node, h]

theorem leads_run (d : Dfa) (ty : TokenType) (q q' : Nat) (w : List Byte) :
    Leads d q w q' ↔ (⟨.dfa d ty, q⟩ : Lexeme).run w = some ⟨.dfa d ty, q'⟩ := by
  constructor
  · intro h
    induction h with
    | nil q => rfl
    | cons q q' b w node before after f p hn he hf hb _ ih =>
      show (((d.node q).edges.find? fun e => e.1 b).map _).bind _ = _
      rw [dfa_node d q node hn, he, List.find?_append, List.find?_eq_none.2 (by intro e h; simp [hb e h]), Option.none_or,
        List.find?_cons_of_pos (by exact hf)]
      exact ih
  · intro h
    induction w generalizing q with
    | nil => cases h; exact .nil _
    | cons b w ih =>
      obtain ⟨m, h0, h2⟩ := Option.bind_eq_some_iff.1 h
      have h1 : ((d.node q).edges.find? fun e => e.1 b).map (fun e => (⟨.dfa d ty, e.2⟩ : Lexeme)) = some m := h0
      clear h0
      rw [Option.map_eq_some_iff] at h1
      obtain ⟨⟨f, p⟩, h1, rfl⟩ := h1
      rw [List.find?_eq_some_iff_append] at h1
      obtain ⟨hf, before, after, he, hb⟩ := h1
      cases hn : d.nodes[q]? with
      | none => simp [Dfa.node, hn] at he
      | some node =>
        rw [dfa_node d q node hn] at he
        exact .cons q q' b w node before after f p hn he hf (fun e h => by simpa using hb e h) (ih p h2)

theorem str_run (s : List Byte) (ty : TokenType) (n : Nat) (w : List Byte) :
    (⟨.str s ty, n⟩ : Lexeme).run w = if w <+: s.drop n then some ⟨.str s ty, n + w.length⟩ else none := by
  induction w generalizing n with
  | nil => simp [Lexeme.run]
  | cons b w ih =>
    show (if s[n]? = some b then some (⟨.str s ty, n + 1⟩ : Lexeme) else none).bind _ = _
    by_cases h : s[n]? = some b
    · have hd : s.drop n = b :: s.drop (n + 1) := by
        obtain ⟨hl, hb⟩ := List.getElem?_eq_some_iff.1 h
        rw [List.drop_eq_getElem_cons hl, hb]
      rw [if_pos h, Option.bind_some, ih, hd, List.length_cons, Nat.add_right_comm, Nat.add_assoc]
      by_cases hp : w <+: s.drop (n + 1)
      · rw [if_pos hp, if_pos (List.cons_prefix_cons.2 ⟨rfl, hp⟩)]
      · rw [if_neg hp, if_neg (fun h => hp (List.cons_prefix_cons.1 h).2)]
    · rw [if_neg h, Option.bind_none, if_neg]
      intro hp
      apply h
      obtain ⟨r, hr⟩ := hp
      have := congrArg List.head? hr
      simpa using this.symm

theorem viable_iff (r : Rule) (w : List Byte) : Viable r w ↔ ∃ l, (⟨r, 0⟩ : Lexeme).run w = some l := by
  cases r with
  | dfa d ty =>
    constructor
    · rintro ⟨q, h⟩
      exact ⟨_, (leads_run d ty 0 q w).1 h⟩
    · rintro ⟨⟨r, q⟩, h⟩
      have hr := Lexeme.run_rule _ _ _ h
      simp only at hr
      subst hr
      exact ⟨q, (leads_run d ty 0 q w).2 h⟩
  | str s ty =>
    rw [str_run]
    show w <+: s ↔ _
    rw [List.drop_zero]
    by_cases h : w <+: s
    · simp [h]
    · simp [h]

theorem matches_iff (r : Rule) (w : List Byte) : Matches r w ↔ ∃ l, (⟨r, 0⟩ : Lexeme).run w = some l ∧ l.accepted = true := by
  cases r with
  | dfa d ty =>
    constructor
    · rintro ⟨q, node, h, hn, hf⟩
      refine ⟨_, (leads_run d ty 0 q w).1 h, ?_⟩
      show (d.node q).final = true
      rw [dfa_node d q node hn, hf]
    · rintro ⟨⟨r, q⟩, h, ha⟩
      have hr := Lexeme.run_rule _ _ _ h
      simp only at hr
      subst hr
      have ha : (d.node q).final = true := ha
      cases hn : d.nodes[q]? with
      | none => simp [Dfa.node, hn] at ha
      | some node =>
        rw [dfa_node d q node hn] at ha
        exact ⟨q, node, (leads_run d ty 0 q w).2 h, hn, ha⟩
  | str s ty =>
    rw [str_run]
    show w = s ↔ _
    rw [List.drop_zero]
    constructor
    · rintro rfl
      refine ⟨⟨.str w ty, 0 + w.length⟩, by simp, ?_⟩
      simp [Lexeme.accepted]
    · rintro ⟨l, h, ha⟩
      by_cases hp : w <+: s
      · rw [if_pos hp] at h
        cases h
        simp only [Lexeme.accepted, Nat.zero_add, ge_iff_le, decide_eq_true_eq] at ha
        exact hp.eq_of_length_le ha
      · rw [if_neg hp] at h
        cases h

theorem alive_nil (rs : List Rule) (w : List Byte) : alive rs w = [] ↔ ∀ r ∈ rs, ¬ Viable r w := by
  unfold alive
  rw [List.filterMap_eq_nil_iff]
  constructor
  · intro h r hr hv
    obtain ⟨l, hl⟩ := (viable_iff r w).1 hv
    rw [h r hr] at hl
    cases hl
  · intro h r hr
    cases hx : (⟨r, 0⟩ : Lexeme).run w with
    | none => rfl
    | some l => exact absurd ((viable_iff r w).2 ⟨l, hx⟩) (h r hr)

theorem firstAccepted_none (rs : List Rule) (w : List Byte) (h : ∀ r ∈ rs, ¬ Matches r w) : firstAccepted (alive rs w) = none := by
  unfold firstAccepted alive
  rw [Option.map_eq_none_iff, List.find?_eq_none]
  intro l hl ha
  obtain ⟨r, hr, hx⟩ := List.mem_filterMap.1 hl
  exact h r hr ((matches_iff r w).2 ⟨l, hx, ha⟩)

theorem firstAccepted_first (rs : List Rule) (w : List Byte) (r : Rule) (h : FirstMatch rs w r) :
    firstAccepted (alive rs w) = some r.type := by
  obtain ⟨before, after, rfl, hm, hb⟩ := h
  obtain ⟨l, hl, ha⟩ := (matches_iff r w).1 hm
  unfold firstAccepted alive
  rw [List.filterMap_append, List.find?_append, List.find?_eq_none.2, Option.none_or, List.filterMap_cons, hl]
  · simp only
    rw [List.find?_cons_of_pos ha, Option.map_some, Lexeme.run_rule _ _ _ hl]
  · intro l' hl' ha'
    obtain ⟨r', hr', hx⟩ := List.mem_filterMap.1 hl'
    exact hb r' hr' ((matches_iff r' w).2 ⟨l', hx, ha'⟩)

theorem viable_prefix (r : Rule) (u v : List Byte) (h : Viable r (u ++ v)) : Viable r u := by
  rw [viable_iff, Lexeme.run_append] at h
  obtain ⟨l, h⟩ := h
  obtain ⟨m, h1, -⟩ := Option.bind_eq_some_iff.1 h
  exact (viable_iff r u).2 ⟨m, h1⟩

/-- What the loop decides after the longest bytes that a rule can have read. -/
theorem scan_longest (rs : List Rule) (b : Byte) (t w : List Byte) (p : Nat)
    (h : Longest (fun w => ∃ r ∈ rs, Viable r w) (b :: t) w) :
    scan t p (beginLexemes rs b) =
      match firstAccepted (alive rs w) with
      | some ty => (.ok ty, p + (w.length - 1))
      | none => (if w = b :: t then .ok .endOfStream else .err, p + (w.length - 1)) := by
  obtain ⟨hp, hn, ⟨r, hr, hv⟩, hl⟩ := h
  cases w with
  | nil => exact absurd rfl hn
  | cons b' v =>
    obtain ⟨rest, hrest⟩ := hp
    rw [List.cons_append] at hrest
    injection hrest with h1 h2
    subst h1 h2
    rw [begin_alive, scan_append v rest [b'] p rs]
    · rw [List.singleton_append, List.length_cons, Nat.add_sub_cancel]
      cases rest with
      | nil =>
        rw [scan, List.append_nil, if_pos rfl]
        cases firstAccepted (alive rs (b' :: v)) <;> rfl
      | cons c rest =>
        rw [scan, alive_step, (alive_nil rs _).2, if_pos (by rfl), if_neg]
        · cases firstAccepted (alive rs (b' :: v)) <;> rfl
        · intro e
          have := congrArg List.length e
          simp at this
        · intro r' hr' hv'
          have := hl ((b' :: v) ++ [c]) ⟨rest, by simp⟩ (by simp) ⟨r', hr', hv'⟩
          simp only [List.length_append, List.length_cons, List.length_nil] at this
          omega
    · intro u c hu
      obtain ⟨x, hx⟩ := hu
      intro e
      refine (alive_nil rs _).1 e r hr (viable_prefix r _ x ?_)
      rw [List.append_assoc, hx]
      exact hv

theorem makeToken_ok (ty ty' : TokenType) (l : Lexer) (h : l.offset ≤ l.position ∧ l.position ≤ l.input.length)
    (hc : classify ty ((l.input.drop l.offset).take (l.position - l.offset)) = .ok ty') :
    (makeToken ty l).1 = .ok ⟨ty', l.offset, l.column, l.line, (l.input.drop l.offset).take (l.position - l.offset)⟩ ∧
    (makeToken ty l).2.position = l.position ∧ (makeToken ty l).2.offset = l.position ∧ (makeToken ty l).2.input = l.input := by
  unfold makeToken
  rw [if_neg (by simpa using h)]
  simp only
  rw [hc]
  exact ⟨rfl, rfl, rfl, rfl⟩

/-- What `Next` does, with the longest bytes that a rule can have read: they are a token of the type of the first rule they
are a token of; if there is none and these are all the bytes left the answer is the end of the text, and an error
otherwise. -/
theorem own_rules (rs : List Rule) (l : Lexer) (ho : l.offset = l.position) (w : List Byte)
    (h : Longest (fun w => ∃ r ∈ rs, Viable r w) (l.input.drop l.position) w) :
    (∀ r, FirstMatch rs w r → ∃ ty, TypeOf r w ty ∧
      (ruleNext rs l).1 = .ok ⟨ty, l.position, l.column, l.line, w⟩ ∧
      (ruleNext rs l).2.position = l.position + w.length ∧ (ruleNext rs l).2.offset = l.position + w.length ∧
      (ruleNext rs l).2.input = l.input) ∧
    ((∀ r ∈ rs, ¬ Matches r w) → w = l.input.drop l.position →
      (ruleNext rs l).1 = .ok ⟨.endOfStream, l.position, l.column, l.line, w⟩) ∧
    ((∀ r ∈ rs, ¬ Matches r w) → w ≠ l.input.drop l.position → (ruleNext rs l).1 = .err) := by
  obtain ⟨b, t, ht⟩ : ∃ b t, l.input.drop l.position = b :: t := by
    cases hd : l.input.drop l.position with
    | nil =>
      have := h.prefix_
      rw [hd] at this
      exact absurd (List.prefix_nil.1 this) h.nonempty
    | cons b t => exact ⟨b, t, rfl⟩
  have hb : l.input[l.position]? = some b := by
    rw [← List.head?_drop, ht]; rfl
  have htl : l.input.drop (l.position + 1) = t := by
    rw [← List.tail_drop, ht]; rfl
  have hlt : l.position < l.input.length := (List.getElem?_eq_some_iff.1 hb).1
  have hs := scan_longest rs b t w (l.position + 1) (ht ▸ h)
  have hw : 1 ≤ w.length := by
    cases w with
    | nil => exact absurd rfl h.nonempty
    | cons => simp
  have hlen : w.length ≤ l.input.length - l.position := by
    have := h.prefix_.length_le
    rwa [List.length_drop] at this
  have hpos : l.position + 1 + (w.length - 1) = l.position + w.length := by omega
  have hcap : (l.input.drop l.position).take (l.position + w.length - l.position) = w := by
    rw [Nat.add_sub_cancel_left]
    exact (List.prefix_iff_eq_take.1 h.prefix_).symm
  have hne : (beginLexemes rs b).length ≠ 0 := by
    obtain ⟨r, hr, hv⟩ := h.holds
    rw [begin_alive]
    intro e
    have hp := h.prefix_
    rw [ht] at hp
    cases w with
    | nil => exact absurd rfl h.nonempty
    | cons b' v =>
      obtain ⟨x, hx⟩ := hp
      injection hx with h1 _
      subst h1
      exact (alive_nil rs _).1 (List.length_eq_zero_iff.1 e) r hr (viable_prefix r [b'] v hv)
  have key : ruleNext rs l = match scan t (l.position + 1) (beginLexemes rs b) with
      | (.ok ty, p) => makeToken ty { l with position := p }
      | (.err, p) => (.err, { l with position := p })
      | (.panic, p) => (.panic, { l with position := p })
      | (.diverge, p) => (.diverge, { l with position := p }) := by
    unfold ruleNext
    rw [hb]
    simp only [if_neg hne, htl]
    rcases scan t (l.position + 1) (beginLexemes rs b) with ⟨_ | _ | _ | _, _⟩ <;> rfl
  rw [hpos] at hs
  have hok : ({ l with position := l.position + w.length } : Lexer).offset ≤ ({ l with position := l.position + w.length } : Lexer).position ∧
      ({ l with position := l.position + w.length } : Lexer).position ≤ ({ l with position := l.position + w.length } : Lexer).input.length := by
    show l.offset ≤ l.position + w.length ∧ l.position + w.length ≤ l.input.length
    omega
  refine ⟨fun r hr => ?_, fun hn hw => ?_, fun hn hw => ?_⟩
  · rw [firstAccepted_first rs w r hr] at hs
    rw [key, hs]
    simp only
    obtain ⟨ty, hty, -⟩ := classify_ok r.type w
    have m := makeToken_ok r.type ty { l with position := l.position + w.length } hok
      (by show classify r.type ((l.input.drop l.offset).take (l.position + w.length - l.offset)) = _; rw [ho, hcap]; exact hty)
    simp only [ho, hcap] at m ⊢
    refine ⟨ty, ⟨fun he => ?_, fun he => ?_⟩, m.1, m.2.1, m.2.2.1, m.2.2.2⟩
    · rw [he] at hty; exact (classify_iff w ty).1 hty
    · rw [classify_other _ _ he] at hty; exact (Res.ok.inj hty).symm
  · rw [firstAccepted_none rs w hn] at hs
    rw [ht] at hw
    simp only [if_pos hw] at hs
    rw [key, hs]
    simp only
    have m := makeToken_ok .endOfStream .endOfStream { l with position := l.position + w.length } hok (classify_other _ _ (by decide))
    simp only [ho, hcap] at m ⊢
    exact m.1
  · rw [firstAccepted_none rs w hn] at hs
    rw [ht] at hw
    simp only [if_neg hw] at hs
    rw [key, hs]

/-- Where no rule can read the next byte, the answer is an error. -/
theorem own_rules_none (rs : List Rule) (l : Lexer) (b : Byte) (t : List Byte) (ht : l.input.drop l.position = b :: t)
    (h : ∀ r ∈ rs, ¬ Viable r [b]) : (ruleNext rs l).1 = .err := by
  have hb : l.input[l.position]? = some b := by
    rw [← List.head?_drop, ht]; rfl
  unfold ruleNext
  rw [hb]
  simp only
  rw [begin_alive, (alive_nil rs [b]).2 h]
  rfl

/-- A token is the text from the place of the lexer on, and the next is looked for after it. -/
theorem own_rules_taken (rs : List Rule) (l : Lexer) (ho : l.offset = l.position) (hl : l.position ≤ l.input.length) (t : Token)
    (h : (ruleNext rs l).1 = .ok t) :
    t.position = l.position ∧ (ruleNext rs l).2.input = l.input ∧ (ruleNext rs l).2.offset = (ruleNext rs l).2.position ∧
    l.input.drop l.position = t.capture ++ l.input.drop (ruleNext rs l).2.position ∧ (ruleNext rs l).2.position ≤ l.input.length := by
  have made : ∀ (ty : TokenType) (p : Nat) (t : Token), l.position ≤ p → p ≤ l.input.length → (makeToken ty { l with position := p }).1 = .ok t →
      t.position = l.position ∧ (makeToken ty { l with position := p }).2.input = l.input ∧
      (makeToken ty { l with position := p }).2.offset = (makeToken ty { l with position := p }).2.position ∧
      l.input.drop l.position = t.capture ++ l.input.drop (makeToken ty { l with position := p }).2.position ∧
      (makeToken ty { l with position := p }).2.position ≤ l.input.length := by
    intro ty p t h1 h2 ht
    obtain ⟨ty', hty, -⟩ := classify_ok ty ((l.input.drop l.offset).take (p - l.offset))
    have m := makeToken_ok ty ty' { l with position := p } (by simp only; omega) hty
    rw [m.1] at ht
    cases ht
    refine ⟨ho, m.2.2.2, by rw [m.2.1, m.2.2.1], ?_, by rw [m.2.1]; exact h2⟩
    rw [m.2.1]
    show _ = (l.input.drop l.offset).take (p - l.offset) ++ l.input.drop p
    rw [ho]
    have e : l.input.drop p = (l.input.drop l.position).drop (p - l.position) := by rw [List.drop_drop]; congr 1; omega
    rw [e, List.take_append_drop]
  have scanned : ∀ (r : List Byte) (p : Nat) (ls : List Lexeme), p ≤ (scan r p ls).2 ∧ (scan r p ls).2 ≤ p + r.length := by
    intro r
    induction r with
    | nil => intro p ls; exact ⟨Nat.le_refl _, Nat.le_refl _⟩
    | cons b r ih =>
      intro p ls
      rw [scan]
      split
      · split <;> exact ⟨Nat.le_refl _, Nat.le_add_right _ _⟩
      · have := ih (p + 1) (ls.filterMap (·.eat b))
        rw [List.length_cons]
        omega
  unfold ruleNext at h ⊢
  cases hb : l.input[l.position]? with
  | none =>
    rw [hb] at h
    exact made .endOfStream l.position t (Nat.le_refl _) hl h
  | some b =>
    rw [hb] at h
    simp only at h ⊢
    have hlt : l.position < l.input.length := (List.getElem?_eq_some_iff.1 hb).1
    by_cases hz : (beginLexemes rs b).length = 0
    · rw [if_pos hz] at h; cases h
    · rw [if_neg hz] at h ⊢
      have k := scanned (l.input.drop (l.position + 1)) (l.position + 1) (beginLexemes rs b)
      rw [List.length_drop] at k
      generalize scan (l.input.drop (l.position + 1)) (l.position + 1) (beginLexemes rs b) = sc at h k ⊢
      obtain ⟨r, p⟩ := sc
      cases r with
      | ok ty => exact made ty p t (by omega) (by omega) h
      | err => cases h
      | panic => cases h
      | diverge => cases h

/-- The tokens of the calls of `Next` up to the first error, at most so many, and the lexer after them. -/
def ruleTokens (rs : List Rule) : Nat → Lexer → List Token × Lexer
  | 0, l => ([], l)
  | n + 1, l =>
    match ruleNext rs l with
    | (.ok t, l') => (t :: (ruleTokens rs n l').1, (ruleTokens rs n l').2)
    | _ => ([], l)

/-- Nothing is lost and nothing is made up, whatever the rules are: the texts of the tokens, one after another, and what is
left are the text. -/
theorem own_rules_lossless (rs : List Rule) (text : List Byte) (n : Nat) :
    text = textOf (ruleTokens rs n (Lexer.new text)).1 ++ text.drop (ruleTokens rs n (Lexer.new text)).2.position := by
  suffices ∀ (l : Lexer), l.input = text → l.offset = l.position → l.position ≤ text.length →
      text.drop l.position = textOf (ruleTokens rs n l).1 ++ text.drop (ruleTokens rs n l).2.position from
    this (Lexer.new text) rfl rfl (Nat.zero_le _)
  induction n with
  | zero => intro l _ _ _; rfl
  | succ n ih =>
    intro l hi ho hl
    have k := own_rules_taken rs l ho (by rw [hi]; exact hl)
    rw [ruleTokens]
    rcases hx : ruleNext rs l with ⟨r, l'⟩
    rw [hx] at k
    cases r with
    | ok t =>
      obtain ⟨-, k2, k3, k4, k5⟩ := k t rfl
      simp only at k2 k3 k4 k5
      have e := ih l' (k2.trans hi) k3 (hi ▸ k5)
      simp only
      rw [hi] at k4
      rw [k4, e]
      simp [textOf]
    | err => rfl
    | panic => rfl
    | diverge => rfl

/-- C137, where no rule can read on after the longest token. `Next` returns the longest beginning of the rest of the text
that is a token of a rule, of the type of the first such rule, and goes on after it. Missing: where a rule can read on but
does not come to an end, `Next` does not go back to the longest token: see `no_going_back`. -/
theorem longest_token_partial (rs : List Rule) (l : Lexer) (ho : l.offset = l.position) (w : List Byte) (r : Rule)
    (h : Longest (fun w => ∃ r ∈ rs, Matches r w) (l.input.drop l.position) w) (hr : FirstMatch rs w r)
    (hv : ∀ v, v <+: l.input.drop l.position → (∃ r ∈ rs, Viable r v) → v.length ≤ w.length) :
    ∃ ty, TypeOf r w ty ∧ (ruleNext rs l).1 = .ok ⟨ty, l.position, l.column, l.line, w⟩ ∧
      (ruleNext rs l).2.position = l.position + w.length ∧ (ruleNext rs l).2.offset = l.position + w.length ∧
      (ruleNext rs l).2.input = l.input := by
  refine (own_rules rs l ho w ⟨h.prefix_, h.nonempty, ?_, fun v hp _ hx => hv v hp hx⟩).1 r hr
  obtain ⟨r, hr, hm⟩ := h.holds
  obtain ⟨l, hl, -⟩ := (matches_iff r w).1 hm
  exact ⟨r, hr, (viable_iff r w).2 ⟨l, hl⟩⟩

/-- The rules of an example: the words a, abc and bb. -/
def abcRules : List Rule := [.str (txt "a") .id, .str (txt "abc") .string, .dfa ⟨[⟨[((· == ch 'b'), 1)], false⟩, ⟨[((· == ch 'b'), 2)], false⟩, ⟨[], true⟩]⟩ .integer]

/-- C137 is false of the code: a is the longest token of the text abb, but the answer is an error, since the rule of abc
has read on. -/
theorem no_going_back : Longest (fun w => ∃ r ∈ abcRules, Matches r w) (txt "abb") (txt "a") ∧
    (ruleNext abcRules (Lexer.new (txt "abb"))).1 = .err := by
  refine ⟨⟨by decide, by decide, ⟨_, List.mem_cons_self, rfl⟩, ?_⟩, by decide +kernel⟩
  intro v hv hn ⟨r, hr, hm⟩
  rcases List.mem_cons.1 hr with rfl | hr
  · have : v = txt "a" := hm
    rw [this]; decide
  rcases List.mem_cons.1 hr with rfl | hr
  · have : v = txt "abc" := hm
    rw [this] at hv
    exact absurd hv (by decide)
  rw [List.mem_singleton.1 hr] at hm
  obtain ⟨x, hx⟩ := hv
  obtain ⟨q, node, hl, -⟩ := hm
  cases hl with
  | nil => exact absurd rfl hn
  | cons _ _ b w node before after f p h1 h2 h3 h4 h5 =>
    cases h1
    cases before with
    | nil =>
      injection h2 with h2 h6
      cases h2
      have : b = ch 'b' := by simpa using h3
      rw [this] at hx
      exact absurd (Option.some.inj (congrArg List.head? hx) : ch 'b' = ch 'a') (by decide)
    | cons e before =>
      have := congrArg List.length h2
      simp at this

/-- The hypotheses of `longest_token_partial` for the text bba. -/
example : Longest (fun w => ∃ r ∈ abcRules, Matches r w) (txt "bba") (txt "bb") ∧ (∃ r, FirstMatch abcRules (txt "bb") r) ∧
    ∀ v, v <+: txt "bba" → (∃ r ∈ abcRules, Viable r v) → v.length ≤ (txt "bb").length := by
  have hm : ∀ (r : Rule) (w : List Byte), Matches r w ↔ (((⟨r, 0⟩ : Lexeme).run w).map Lexeme.accepted == some true) = true := by
    intro r w
    rw [matches_iff]
    cases (⟨r, 0⟩ : Lexeme).run w <;> simp
  have hv : ∀ v, v <+: txt "bba" → (∃ r ∈ abcRules, Viable r v) → v.length ≤ (txt "bb").length := by
    rintro v hp ⟨r, hr, h⟩
    obtain ⟨l, h⟩ := (viable_iff r v).1 h
    have key : ∀ n ≤ 3, ∀ r ∈ abcRules, ((⟨r, 0⟩ : Lexeme).run ((txt "bba").take n)).isSome → n ≤ 2 := by decide +kernel
    have hl : v.length ≤ 3 := hp.length_le
    rw [List.prefix_iff_eq_take.1 hp] at h
    exact key v.length hl r hr (by rw [h]; rfl)
  refine ⟨⟨by decide, by decide, ?_, ?_⟩, ⟨_, abcRules.take 2, [], rfl, (hm _ _).2 (by decide +kernel), ?_⟩, hv⟩
  · exact ⟨_, List.mem_of_getElem? (i := 2) rfl, (hm _ _).2 (by decide +kernel)⟩
  · rintro v hp - ⟨r, hr, h⟩
    obtain ⟨l, hl, -⟩ := (matches_iff r v).1 h
    exact hv v hp ⟨r, hr, (viable_iff r v).2 ⟨l, hl⟩⟩
  · intro r hr h
    have key : ∀ r ∈ abcRules.take 2, (((⟨r, 0⟩ : Lexeme).run (txt "bb")).map Lexeme.accepted == some true) = false := by decide +kernel
    exact absurd ((hm r _).1 h) (by rw [key r hr]; simp)

end Verif.Wat
