import Verif.Binary.Spec
import Verif.Leb128.Lemmas
import Verif.Leb128.Props

/-!
# Every reader takes exactly its grammar
-/

namespace Verif.Binary

variable {α β : Type}

/-- The reader `r` takes exactly the byte strings of `G`, whatever follows, and otherwise returns an error. -/
structure Takes (r : Rd α) (G : α → List Byte → Prop) : Prop where
  ok_iff : ∀ bs a rest, r bs = (.ok a, rest) ↔ ∃ used, bs = used ++ rest ∧ G a used
  tame : ∀ bs, (r bs).1.Returns

theorem Takes.congr {r : Rd α} {G H : α → List Byte → Prop} (h : Takes r G) (e : ∀ a u, G a u ↔ H a u) : Takes r H :=
  ⟨fun bs a rest => by simp only [h.ok_iff, e], h.tame⟩

theorem Takes.pure (a : α) : Takes (pure a : Rd α) (fun b u => b = a ∧ u = []) := by
  refine ⟨fun bs b rest => ?_, fun bs => by simp⟩
  rw [SM.pure_def]
  simp only [Prod.mk.injEq, Res.ok.injEq]
  constructor
  · rintro ⟨rfl, rfl⟩; exact ⟨[], rfl, rfl, rfl⟩
  · rintro ⟨u, rfl, rfl, rfl⟩; exact ⟨rfl, rfl⟩

theorem Takes.fail : Takes (SM.fail : Rd α) (fun _ _ => False) :=
  ⟨fun bs b rest => by simp, fun bs => by simp⟩

theorem Takes.bind {r : Rd α} {f : α → Rd β} {G : α → List Byte → Prop} {H : α → β → List Byte → Prop}
    (h : Takes r G) (h' : ∀ a, Takes (f a) (H a)) :
    Takes (r >>= f) (fun b u => ∃ a u1 u2, u = u1 ++ u2 ∧ G a u1 ∧ H a b u2) := by
  refine ⟨fun bs b rest => ?_, fun bs => ?_⟩
  · rw [SM.bind_eq_ok]
    constructor
    · rintro ⟨a, s1, e1, e2⟩
      obtain ⟨u1, rfl, g1⟩ := (h.ok_iff _ _ _).1 e1
      obtain ⟨u2, rfl, g2⟩ := ((h' a).ok_iff _ _ _).1 e2
      exact ⟨u1 ++ u2, by simp, a, u1, u2, rfl, g1, g2⟩
    · rintro ⟨u, rfl, a, u1, u2, rfl, g1, g2⟩
      exact ⟨a, u2 ++ rest, (h.ok_iff _ _ _).2 ⟨u1, by simp, g1⟩, ((h' a).ok_iff _ _ _).2 ⟨u2, rfl, g2⟩⟩
  · rw [SM.bind_def]
    have ht := h.tame bs
    rcases e : r bs with ⟨x, s1⟩
    rw [e] at ht
    cases x with
    | ok a => exact (h' a).tame s1
    | err => simp
    | panic => simp at ht
    | diverge => simp at ht

theorem Takes.ite {c : Prop} [Decidable c] {r s : Rd α} {G H : α → List Byte → Prop} (h : c → Takes r G)
    (h' : ¬ c → Takes s H) : Takes (if c then r else s) (fun a u => if c then G a u else H a u) := by
  by_cases hc : c
  · simp only [hc, if_true]; exact h hc
  · simp only [hc, if_false]; exact h' hc

/-- What was cut is refused. -/
theorem Takes.cut {r : Rd α} {G : α → List Byte → Prop} (h : Takes r G) {a : α} {p s : List Byte} (hs : s ≠ [])
    (g : G a (p ++ s)) : (r p).1 = .err := by
  have h1 : r (p ++ s) = (.ok a, []) := (h.ok_iff _ _ _).2 ⟨p ++ s, by simp, g⟩
  rcases h.tame p with ⟨a', e⟩ | e
  · exfalso
    have : r p = (.ok a', (r p).2) := by rw [← e]
    obtain ⟨u, hp, g'⟩ := (h.ok_iff _ _ _).1 this
    have h2 : r (p ++ s) = (.ok a', (r p).2 ++ s) := (h.ok_iff _ _ _).2 ⟨u, by rw [← List.append_assoc, ← hp], g'⟩
    rw [h1] at h2
    simp only [Prod.mk.injEq] at h2
    have := h2.2.symm
    simp at this
    exact hs this.2
  · exact e

/-- The bytes read determine the value. -/
theorem Takes.det {r : Rd α} {G : α → List Byte → Prop} (h : Takes r G) {a b : α} {u v x y : List Byte}
    (g : G a u) (g' : G b v) (e : u ++ x = v ++ y) : a = b ∧ u = v ∧ x = y := by
  have h1 : r (u ++ x) = (.ok a, x) := (h.ok_iff _ _ _).2 ⟨u, rfl, g⟩
  have h2 : r (v ++ y) = (.ok b, y) := (h.ok_iff _ _ _).2 ⟨v, rfl, g'⟩
  rw [e, h2] at h1
  simp only [Prod.mk.injEq, Res.ok.injEq] at h1
  obtain ⟨rfl, rfl⟩ := h1
  exact ⟨rfl, List.append_cancel_right e, rfl⟩

theorem takes_byte : Takes readByte (fun b u => u = [b]) := by
  refine ⟨fun bs b rest => ?_, fun bs => by cases bs <;> simp [readByte]⟩
  cases bs with
  | nil => simp [readByte]
  | cons x xs =>
    simp only [readByte, Prod.mk.injEq, Res.ok.injEq]
    constructor
    · rintro ⟨rfl, rfl⟩; exact ⟨[x], rfl, rfl⟩
    · rintro ⟨u, e, rfl⟩; simpa using e

theorem takes_bytes (n : Nat) : Takes (readBytes n) (fun p u => u = p ∧ p.length = n) := by
  refine ⟨fun bs b rest => ?_, fun bs => by unfold readBytes; split <;> simp⟩
  unfold readBytes
  constructor
  · intro h
    split at h
    · simp at h
    · simp only [Prod.mk.injEq, Res.ok.injEq] at h
      obtain ⟨rfl, rfl⟩ := h
      exact ⟨_, (List.take_append_drop n bs).symm, rfl, by rw [List.length_take]; omega⟩
  · rintro ⟨u, rfl, rfl, rfl⟩
    rw [if_neg (by simp)]
    simp

theorem takes_leb : Takes readLeb AnyNum := by
  refine ⟨fun bs n rest => ?_, fun bs => ?_⟩
  · unfold readLeb
    rcases Leb128.inputs_covered bs with ⟨pre, last, rest', rfl, h2, h3⟩ | h
    · rw [(Leb128.decoders_agree pre last rest' h2 h3).1]
      simp only [Prod.mk.injEq, Res.ok.injEq]
      constructor
      · rintro ⟨rfl, rfl⟩
        exact ⟨pre ++ [last], by simp, ⟨pre, last, rfl, h2, h3⟩, rfl⟩
      · rintro ⟨u, e, ⟨pre', last', rfl, h4, h5⟩, rfl⟩
        have h6 := (Leb128.decoders_agree pre' last' rest h4 h5).1
        have h7 := (Leb128.decoders_agree pre last rest' h2 h3).1
        have e' : pre ++ last :: rest' = pre' ++ last' :: rest := by simpa using e
        rw [e', h6] at h7
        simp only [Res.ok.injEq, Prod.mk.injEq] at h7
        exact ⟨h7.1.symm, h7.2.2.symm⟩
    · rw [(Leb128.truncated_is_error bs h).1]
      simp only [Prod.mk.injEq, reduceCtorEq, false_and, false_iff, not_exists, not_and]
      rintro u rfl ⟨⟨pre, last, rfl, h4, h5⟩, -⟩
      have := h last (by simp)
      omega
  · unfold readLeb
    rcases Leb128.inputs_covered bs with ⟨pre, last, rest', rfl, h2, h3⟩ | h
    · rw [(Leb128.decoders_agree pre last rest' h2 h3).1]; simp
    · rw [(Leb128.truncated_is_error bs h).1]; simp

theorem takes_many {r : Rd α} {G : α → List Byte → Prop} (h : Takes r G) :
    (n : Nat) → Takes (readMany r n) (fun xs u => xs.length = n ∧ Seq G xs u)
  | 0 => (Takes.pure []).congr fun xs u => by
      constructor
      · rintro ⟨rfl, rfl⟩; exact ⟨rfl, .nil⟩
      · rintro ⟨h, hs⟩
        cases hs with
        | nil => exact ⟨rfl, rfl⟩
        | cons _ _ => simp at h
  | n + 1 => by
    unfold readMany
    refine (h.bind fun x => (takes_many h n).bind fun xs => .pure (x :: xs)).congr fun ys u => ?_
    constructor
    · rintro ⟨x, u1, u2, rfl, g, xs, v1, v2, rfl, ⟨hl, hs⟩, rfl, rfl⟩
      exact ⟨by simp [hl], by rw [List.append_nil]; exact .cons g hs⟩
    · rintro ⟨hl, hs⟩
      cases hs with
      | nil => simp at hl
      | @cons x xs u v g hs => exact ⟨x, u, v, rfl, g, xs, v, [], by simp, ⟨by simpa using hl, hs⟩, rfl, rfl⟩

/-- A count and that many elements. -/
theorem takes_vec {r : Rd α} {G : α → List Byte → Prop} (h : Takes r G) :
    Takes (do let n ← readLeb; readMany r n.toNat) (Vec AnyNum G) := by
  refine (takes_leb.bind fun n => takes_many h n.toNat).congr fun xs u => ?_
  constructor
  · rintro ⟨n, u1, u2, rfl, g, hl, hs⟩; exact ⟨n, u1, u2, g, hl.symm, hs, rfl⟩
  · rintro ⟨n, c, b, g, hl, hs, rfl⟩; exact ⟨n, c, b, rfl, g, hl.symm, hs⟩

theorem takes_valType : Takes readValueType IsValType := by
  unfold readValueType
  refine (takes_byte.bind fun b => Takes.ite (fun _ => .pure _) fun _ => .ite (fun _ => .pure _) fun _ =>
    .ite (fun _ => .pure _) fun _ => .ite (fun _ => .pure _) fun _ => .fail).congr fun t u => ?_
  constructor
  · rintro ⟨b, u1, u2, rfl, rfl, h⟩
    by_cases h1 : b = 0x7f
    · rw [if_pos h1] at h; obtain ⟨rfl, rfl⟩ := h; subst h1; rfl
    rw [if_neg h1] at h
    by_cases h2 : b = 0x7e
    · rw [if_pos h2] at h; obtain ⟨rfl, rfl⟩ := h; subst h2; rfl
    rw [if_neg h2] at h
    by_cases h3 : b = 0x7d
    · rw [if_pos h3] at h; obtain ⟨rfl, rfl⟩ := h; subst h3; rfl
    rw [if_neg h3] at h
    by_cases h4 : b = 0x7c
    · rw [if_pos h4] at h; obtain ⟨rfl, rfl⟩ := h; subst h4; rfl
    rw [if_neg h4] at h
    exact h.elim
  · intro h
    cases t <;> simp only [IsValType] at h <;> subst h
    · exact ⟨0x7f, [0x7f], [], rfl, rfl, by rw [if_pos rfl]; exact ⟨rfl, rfl⟩⟩
    · exact ⟨0x7e, [0x7e], [], rfl, rfl, by rw [if_neg (by decide), if_pos rfl]; exact ⟨rfl, rfl⟩⟩
    · exact ⟨0x7d, [0x7d], [], rfl, rfl, by rw [if_neg (by decide), if_neg (by decide), if_pos rfl]; exact ⟨rfl, rfl⟩⟩
    · exact ⟨0x7c, [0x7c], [], rfl, rfl, by
        rw [if_neg (by decide), if_neg (by decide), if_neg (by decide), if_pos rfl]; exact ⟨rfl, rfl⟩⟩

theorem takes_valTypes : Takes readValueTypes (Vec AnyNum IsValType) := takes_vec takes_valType

theorem takes_type : Takes readType (IsFuncType AnyNum) := by
  unfold readType
  refine (takes_byte.bind fun b => Takes.ite (fun _ => .fail) fun _ => takes_valTypes.bind fun ps =>
    takes_valTypes.bind fun rs => .pure (⟨ps, rs⟩ : FuncType)).congr fun t u => ?_
  constructor
  · rintro ⟨b, u1, u2, rfl, rfl, h⟩
    by_cases hb : b = 0x60
    · rw [if_neg (not_not_intro hb)] at h
      obtain ⟨ps, v1, v2, rfl, g1, rs, w1, w2, rfl, g2, rfl, rfl⟩ := h
      subst hb
      exact ⟨v1, w1, g1, g2, by simp⟩
    · rw [if_pos hb] at h; exact h.elim
  · rintro ⟨a, b, g1, g2, rfl⟩
    refine ⟨0x60, [0x60], a ++ b, rfl, rfl, ?_⟩
    rw [if_neg (by simp)]
    exact ⟨t.params, a, b, rfl, g1, t.results, b, [], by simp, g2, rfl, rfl⟩

theorem takes_funcTypes : Takes readFuncTypes (Vec AnyNum (IsFuncType AnyNum)) := takes_vec takes_type

theorem takes_func : Takes readFunc (fun f u => f.locals = [] ∧ f.body = none ∧ AnyNum f.type u) := by
  unfold readFunc
  refine (takes_leb.bind fun i => .pure (⟨i, [], none⟩ : Func)).congr fun f u => ?_
  constructor
  · rintro ⟨i, u1, u2, rfl, g, rfl, rfl⟩; exact ⟨rfl, rfl, by simpa using g⟩
  · rintro ⟨h1, h2, g⟩; exact ⟨f.type, u, [], by simp, g, by cases f; simp_all, rfl⟩

/-- Function declarations are type indices. -/
theorem seq_funcs (u : List Byte) (fs : List Func) :
    Seq (fun f u => f.locals = [] ∧ f.body = none ∧ AnyNum f.type u) fs u ↔
      ∃ is : List U32, fs = is.map (fun i => ⟨i, [], none⟩) ∧ Seq AnyNum is u := by
  constructor
  · intro h
    induction h with
    | nil => exact ⟨[], rfl, .nil⟩
    | @cons f fs u v g _ ih =>
      obtain ⟨is, rfl, hs⟩ := ih
      refine ⟨f.type :: is, ?_, .cons g.2.2 hs⟩
      obtain ⟨h1, h2, -⟩ := g
      cases f; simp_all
  · rintro ⟨is, rfl, hs⟩
    induction hs with
    | nil => exact .nil
    | cons g _ ih => exact .cons ⟨rfl, rfl, g⟩ ih

theorem takes_funcs : Takes readFuncs
    (fun fs u => ∃ is : List U32, fs = is.map (fun i => ⟨i, [], none⟩) ∧ Vec AnyNum AnyNum is u) := by
  refine (takes_vec takes_func).congr fun fs u => ?_
  unfold Vec
  constructor
  · rintro ⟨n, c, b, g, hl, hs, rfl⟩
    obtain ⟨is, rfl, hs'⟩ := (seq_funcs _ _).1 hs
    exact ⟨is, rfl, n, c, b, g, by simpa using hl, hs', rfl⟩
  · rintro ⟨is, rfl, n, c, b, g, hl, hs, rfl⟩
    exact ⟨n, c, b, g, by simpa using hl, (seq_funcs _ _).2 ⟨is, rfl, hs⟩, rfl⟩

theorem takes_string : Takes readString (Name AnyNum) := by
  unfold readString
  refine (takes_leb.bind fun n => Takes.ite (fun _ => .pure []) fun _ => takes_bytes n.toNat).congr fun s u => ?_
  constructor
  · rintro ⟨n, u1, u2, rfl, g, h⟩
    by_cases hn : n = 0
    · rw [if_pos hn] at h; obtain ⟨rfl, rfl⟩ := h; subst hn; exact ⟨0, u1, g, rfl, rfl⟩
    · rw [if_neg hn] at h; obtain ⟨rfl, h⟩ := h; exact ⟨n, u1, g, h.symm, rfl⟩
  · rintro ⟨n, c, g, hl, rfl⟩
    refine ⟨n, c, s, rfl, g, ?_⟩
    by_cases hn : n = 0
    · rw [if_pos hn]
      subst hn
      have : s = [] := List.length_eq_zero_iff.1 hl.symm
      exact ⟨this, this⟩
    · rw [if_neg hn]; exact ⟨rfl, hl.symm⟩

theorem takes_export : Takes readExport (IsExport AnyNum) := by
  unfold readExport
  refine (takes_string.bind fun name => takes_byte.bind fun kind => takes_leb.bind fun i =>
    Takes.ite (fun _ => .pure (⟨name, i⟩ : Export)) fun _ => .fail).congr fun e u => ?_
  constructor
  · rintro ⟨name, u1, u2, rfl, g1, kind, v1, v2, rfl, rfl, i, w1, w2, rfl, g2, h⟩
    by_cases hk : kind = 0x00
    · rw [if_pos hk] at h; obtain ⟨rfl, rfl⟩ := h; subst hk
      exact ⟨u1, w1, g1, g2, by simp⟩
    · rw [if_neg hk] at h; exact h.elim
  · rintro ⟨a, b, g1, g2, rfl⟩
    exact ⟨e.name, a, 0x00 :: b, rfl, g1, 0x00, [0x00], b, rfl, rfl, e.func, b, [], by simp, g2, by
      rw [if_pos rfl]; exact ⟨rfl, rfl⟩⟩

theorem takes_exports : Takes readExports (Vec AnyNum (IsExport AnyNum)) := takes_vec takes_export

theorem takes_instr : Takes readInstruction (IsInstr AnyNum) := by
  unfold readInstruction
  refine (takes_byte.bind fun b => Takes.ite (fun _ => .pure Instr.end_) fun _ => .ite
    (fun _ => takes_leb.bind fun i => .pure (Instr.localGet i)) fun _ =>
      .ite (fun _ => .pure Instr.i32Add) fun _ => .fail).congr fun t u => ?_
  constructor
  · rintro ⟨b, u1, u2, rfl, rfl, h⟩
    by_cases h1 : b = 0x0b
    · rw [if_pos h1] at h; obtain ⟨rfl, rfl⟩ := h; subst h1; rfl
    rw [if_neg h1] at h
    by_cases h2 : b = 0x20
    · rw [if_pos h2] at h; obtain ⟨i, v1, v2, rfl, g, rfl, rfl⟩ := h; subst h2
      exact ⟨v1, g, by simp⟩
    rw [if_neg h2] at h
    by_cases h3 : b = 0x6a
    · rw [if_pos h3] at h; obtain ⟨rfl, rfl⟩ := h; subst h3; rfl
    rw [if_neg h3] at h
    exact h.elim
  · intro h
    cases t with
    | end_ => cases h; exact ⟨0x0b, [0x0b], [], rfl, rfl, by rw [if_pos rfl]; exact ⟨rfl, rfl⟩⟩
    | i32Add =>
      cases h
      exact ⟨0x6a, [0x6a], [], rfl, rfl, by rw [if_neg (by decide), if_neg (by decide), if_pos rfl]; exact ⟨rfl, rfl⟩⟩
    | localGet i =>
      obtain ⟨a, g, rfl⟩ := h
      exact ⟨0x20, [0x20], a, rfl, rfl, by
        rw [if_neg (by decide), if_pos rfl]; exact ⟨i, a, [], by simp, g, rfl, rfl⟩⟩

theorem isInstr_length {num : U32 → List Byte → Prop} {i : Instr} {u : List Byte} (h : IsInstr num i u) :
    1 ≤ u.length := by
  cases i <;> simp only [IsInstr] at h
  · subst h; simp
  · obtain ⟨a, -, rfl⟩ := h; simp
  · subst h; simp

theorem expr_cons {num : U32 → List Byte → Prop} {i : Instr} {is : List Instr} {u v : List Byte} (hi : i ≠ .end_)
    (g : IsInstr num i u) (h : IsExpr num is v) : IsExpr num (i :: is) (u ++ v) := by
  obtain ⟨hs, body, rfl, hb⟩ := h
  exact ⟨.cons g hs, i :: body, rfl, by simp [hb, Ne.symm hi]⟩

theorem exprLoop_ok : (fuel : Nat) → (bs : List Byte) → bs.length < fuel → ∀ is rest,
    readExpressionLoop fuel bs = (.ok is, rest) ↔ ∃ used, bs = used ++ rest ∧ IsExpr AnyNum is used
  | 0, bs, hf => by omega
  | fuel + 1, bs, hf => by
    intro is rest
    unfold readExpressionLoop
    rw [SM.bind_eq_ok]
    constructor
    · rintro ⟨i, s1, e1, e2⟩
      obtain ⟨u, rfl, g⟩ := (takes_instr.ok_iff _ _ _).1 e1
      rw [SM.ite_app] at e2
      split at e2
      · rename_i hi
        simp only [SM.pure_def, Prod.mk.injEq, Res.ok.injEq] at e2
        obtain ⟨rfl, rfl⟩ := e2
        subst hi
        exact ⟨u, rfl, by rw [← List.append_nil u]; exact .cons g .nil, [], rfl, by simp⟩
      · rename_i hi
        obtain ⟨is', s2, e3, e4⟩ := SM.bind_eq_ok.1 e2
        simp only [SM.pure_def, Prod.mk.injEq, Res.ok.injEq] at e4
        obtain ⟨rfl, rfl⟩ := e4
        have := isInstr_length g
        simp only [List.length_append] at hf
        obtain ⟨v, rfl, h⟩ := (exprLoop_ok fuel s1 (by omega) _ _).1 e3
        exact ⟨u ++ v, by simp, expr_cons hi g h⟩
    · rintro ⟨used, rfl, hs, body, rfl, hb⟩
      cases body with
      | nil =>
        cases hs with
        | @cons _ _ u v g hs =>
          cases hs
          refine ⟨.end_, rest, (takes_instr.ok_iff _ _ _).2 ⟨u, by simp, g⟩, ?_⟩
          rw [SM.ite_app, if_pos rfl]; rfl
      | cons i body =>
        cases hs with
        | @cons _ _ u v g hs =>
          have hi : i ≠ .end_ := fun e => hb (by simp [e])
          refine ⟨i, v ++ rest, (takes_instr.ok_iff _ _ _).2 ⟨u, by simp, g⟩, ?_⟩
          rw [SM.ite_app, if_neg hi]
          have := isInstr_length g
          simp only [List.length_append] at hf
          rw [SM.bind_ok ((exprLoop_ok fuel (v ++ rest) (by simp only [List.length_append]; omega) (body ++ [.end_]) rest).2
            ⟨v, rfl, hs, body, rfl, fun e => hb (by simp [e])⟩)]
          rfl

theorem exprLoop_tame : (fuel : Nat) → (bs : List Byte) → bs.length < fuel →
    (readExpressionLoop fuel bs).1.Returns
  | 0, bs, hf => by omega
  | fuel + 1, bs, hf => by
    unfold readExpressionLoop
    rw [SM.bind_def]
    have ht := takes_instr.tame bs
    rcases e : readInstruction bs with ⟨x, s1⟩
    rw [e] at ht
    cases x with
    | ok i =>
      obtain ⟨u, rfl, g⟩ := (takes_instr.ok_iff _ _ _).1 e
      have := isInstr_length g
      simp only [List.length_append] at hf
      show ((if i = .end_ then _ else _ : Rd (List Instr)) s1).1.Returns
      rw [SM.ite_app]
      split
      · simp
      · have ht' := exprLoop_tame fuel s1 (by omega)
        rw [SM.bind_def]
        rcases e' : readExpressionLoop fuel s1 with ⟨y, s2⟩
        rw [e'] at ht'
        cases y <;> simp_all
    | err => simp
    | panic => simp at ht
    | diverge => simp at ht

theorem takes_expr : Takes readExpression (IsExpr AnyNum) :=
  ⟨fun bs a rest => exprLoop_ok _ bs (Nat.lt_succ_self _) a rest, fun bs => exprLoop_tame _ bs (Nat.lt_succ_self _)⟩

theorem takes_update : (n i : Nat) → (fs : List Func) → Takes (updateFuncsLoop n i fs)
    (fun fs' u => ∃ cs, Seq TakenCode cs u ∧ cs.length = n ∧ (n = 0 ∨ i + n ≤ fs.length) ∧
      fs' = fs.take i ++ fill (fs.drop i) cs)
  | 0, i, fs => (Takes.pure fs).congr fun fs' u => by
      constructor
      · rintro ⟨rfl, rfl⟩; exact ⟨[], .nil, rfl, .inl rfl, by rw [fill]; simp⟩
      · rintro ⟨cs, hs, hl, -, rfl⟩
        cases hs with
        | nil => exact ⟨by rw [fill]; simp, rfl⟩
        | cons _ _ => simp at hl
  | n + 1, i, fs => by
    unfold updateFuncsLoop
    cases hi : fs[i]? with
    | none =>
      refine Takes.fail.congr fun fs' u => ?_
      rw [List.getElem?_eq_none_iff] at hi
      constructor
      · exact False.elim
      · rintro ⟨cs, -, -, h, -⟩; omega
    | some f =>
      obtain ⟨hlt, hf⟩ := List.getElem?_eq_some_iff.1 hi
      refine (takes_leb.bind fun _ => takes_valTypes.bind fun locals => takes_expr.bind fun body =>
        takes_update n (i + 1) (fs.set i { f with locals := locals, body := some body })).congr fun fs' u => ?_
      have key : ∀ c cs, (fs.set i { f with locals := c.1, body := some c.2 }).take (i + 1) ++
          fill ((fs.set i { f with locals := c.1, body := some c.2 }).drop (i + 1)) cs =
          fs.take i ++ fill (fs.drop i) (c :: cs) := by
        intro c cs
        rw [List.drop_eq_getElem_cons hlt, fill, hf, List.take_succ_eq_append_getElem (by simpa using hlt)]
        simp only [List.take_set, List.getElem_set_self, List.append_assoc, List.cons_append, List.nil_append]
        rw [List.set_eq_of_length_le (by rw [List.length_take]; omega), List.drop_set_of_lt (by omega)]
      constructor
      · rintro ⟨sz, u1, u2, rfl, g1, locals, v1, v2, rfl, g2, body, w1, w2, rfl, g3, cs, hs, hl, hle, rfl⟩
        refine ⟨(locals, body) :: cs, ?_, by simp [hl], .inr ?_, key (locals, body) cs⟩
        · have : u1 ++ (v1 ++ (w1 ++ w2)) = (u1 ++ (v1 ++ w1)) ++ w2 := by simp
          rw [this]
          exact .cons ⟨sz, u1, v1, w1, g1, g2, g3, rfl⟩ hs
        · rcases hle with rfl | hle
          · omega
          · simp at hle; omega
      · rintro ⟨cs, hs, hl, hle, rfl⟩
        cases hs with
        | nil => simp at hl
        | @cons c cs u w2 g hs =>
          obtain ⟨sz, s, a, b, g1, g2, g3, rfl⟩ := g
          refine ⟨sz, s, a ++ (b ++ w2), by simp, g1, c.1, a, b ++ w2, rfl, g2, c.2, b, w2, rfl, g3, cs, hs,
            by simpa using hl, ?_, (key c cs).symm⟩
          right; simp; omega

theorem takes_code (fs : List Func) : Takes (updateFuncs fs)
    (fun fs' u => ∃ cs, Vec AnyNum TakenCode cs u ∧ cs.length ≤ fs.length ∧ fs' = fill fs cs) := by
  unfold updateFuncs
  refine (takes_leb.bind fun n => takes_update n.toNat 0 fs).congr fun fs' u => ?_
  constructor
  · rintro ⟨n, u1, u2, rfl, g, cs, hs, hl, hle, rfl⟩
    exact ⟨cs, ⟨n, u1, u2, g, hl.symm, hs, rfl⟩, by omega, by simp⟩
  · rintro ⟨cs, ⟨n, c, b, g, hl, hs, rfl⟩, hle, rfl⟩
    exact ⟨n, c, b, rfl, g, cs, hs, hl.symm, by omega, by simp⟩

/-- Header and contents of a section. -/
def oneSection (m : Module) : Rd Module := do
  let id ← readByte
  let size ← readLeb
  readSection m id size

theorem takes_section (m : Module) : Takes (oneSection m)
    (fun m' u => ∃ sec : Sec, TakenSec sec u ∧ sec.run m = some m') := by
  unfold oneSection readSection
  refine (takes_byte.bind fun id => takes_leb.bind fun size =>
    Takes.ite (fun _ => takes_funcTypes.bind fun ts => .pure _) fun _ =>
    Takes.ite (fun _ => takes_funcs.bind fun ts => .pure _) fun _ =>
    Takes.ite (fun _ => (takes_code _).bind fun ts => .pure _) fun _ =>
    Takes.ite (fun _ => takes_exports.bind fun ts => .pure _) fun _ =>
      (takes_bytes _).bind fun _ => .pure _).congr fun m' u => ?_
  constructor
  · rintro ⟨id, u1, u2, rfl, rfl, size, v1, v2, rfl, g1, h⟩
    split at h
    · rename_i hid; subst hid
      obtain ⟨ts, w1, w2, rfl, g2, rfl, rfl⟩ := h
      exact ⟨.types ts, ⟨size, v1, w1, g1, g2, by simp⟩, rfl⟩
    split at h
    · rename_i hid; subst hid
      obtain ⟨ts, w1, w2, rfl, ⟨is, rfl, g2⟩, rfl, rfl⟩ := h
      exact ⟨.funcs is, ⟨size, v1, w1, g1, g2, by simp⟩, rfl⟩
    split at h
    · rename_i hid; subst hid
      obtain ⟨ts, w1, w2, rfl, ⟨cs, g2, hle, rfl⟩, rfl, rfl⟩ := h
      exact ⟨.code cs, ⟨size, v1, w1, g1, g2, by simp⟩, by simp [Sec.run, hle]⟩
    split at h
    · rename_i hid; subst hid
      obtain ⟨ts, w1, w2, rfl, g2, rfl, rfl⟩ := h
      exact ⟨.exports ts, ⟨size, v1, w1, g1, g2, by simp⟩, rfl⟩
    · rename_i h1 h3 h10 h7
      obtain ⟨p, w1, w2, rfl, ⟨rfl, g2⟩, rfl, rfl⟩ := h
      exact ⟨.other id w1, ⟨⟨h1, h3, h7, h10⟩, size, v1, g1, g2.symm, by simp⟩, rfl⟩
  · rintro ⟨sec, g, hr⟩
    cases sec with
    | types ts =>
      obtain ⟨n, s, b, g1, g2, rfl⟩ := g
      refine ⟨1, [1], s ++ b, rfl, rfl, n, s, b, rfl, g1, ?_⟩
      rw [if_pos rfl]
      exact ⟨ts, b, [], by simp, g2, by simpa [Sec.run, eq_comm] using hr, rfl⟩
    | funcs is =>
      obtain ⟨n, s, b, g1, g2, rfl⟩ := g
      refine ⟨3, [3], s ++ b, rfl, rfl, n, s, b, rfl, g1, ?_⟩
      rw [if_neg (by decide), if_pos rfl]
      exact ⟨_, b, [], by simp, ⟨is, rfl, g2⟩, by simpa [Sec.run, eq_comm] using hr, rfl⟩
    | exports es =>
      obtain ⟨n, s, b, g1, g2, rfl⟩ := g
      refine ⟨7, [7], s ++ b, rfl, rfl, n, s, b, rfl, g1, ?_⟩
      rw [if_neg (by decide), if_neg (by decide), if_neg (by decide), if_pos rfl]
      exact ⟨es, b, [], by simp, g2, by simpa [Sec.run, eq_comm] using hr, rfl⟩
    | code cs =>
      obtain ⟨n, s, b, g1, g2, rfl⟩ := g
      refine ⟨10, [10], s ++ b, rfl, rfl, n, s, b, rfl, g1, ?_⟩
      rw [if_neg (by decide), if_neg (by decide), if_pos rfl]
      simp only [Sec.run] at hr
      split at hr
      · rename_i hle
        exact ⟨_, b, [], by simp, ⟨cs, g2, hle, rfl⟩, by simpa [eq_comm] using hr, rfl⟩
      · simp at hr
    | other id p =>
      obtain ⟨⟨h1, h3, h7, h10⟩, n, s, g1, g2, rfl⟩ := g
      refine ⟨id, [id], s ++ p, rfl, rfl, n, s, p, rfl, g1, ?_⟩
      rw [if_neg h1, if_neg h3, if_neg h10, if_neg h7]
      exact ⟨p, p, [], by simp, ⟨rfl, g2.symm⟩, by simpa [Sec.run, eq_comm] using hr, rfl⟩

theorem takenSec_length {s : Sec} {u : List Byte} (h : TakenSec s u) : 1 ≤ u.length := by
  cases s <;> simp only [TakenSec] at h
  · obtain ⟨_, _, _, -, -, rfl⟩ := h; simp
  · obtain ⟨_, _, _, -, -, rfl⟩ := h; simp
  · obtain ⟨_, _, _, -, -, rfl⟩ := h; simp
  · obtain ⟨_, _, _, -, -, rfl⟩ := h; simp
  · obtain ⟨-, _, _, -, -, rfl⟩ := h; simp

theorem moduleLoop_nil (fuel : Nat) (m : Module) : readModuleLoop (fuel + 1) m [] = (.ok m, []) := rfl

theorem moduleLoop_cons (fuel : Nat) (m : Module) (b : Byte) (bs : List Byte) :
    readModuleLoop (fuel + 1) m (b :: bs) = (oneSection m >>= fun m => readModuleLoop fuel m) (b :: bs) := by
  conv => lhs; unfold readModuleLoop
  unfold oneSection
  rw [SM.bind_def, SM.bind_def]
  simp only [readSectionHeader, SM.bind_def, readByte]
  cases h : readLeb bs with
  | mk r s => cases r <;> rfl

theorem moduleLoop_ok : (fuel : Nat) → (m : Module) → (bs : List Byte) → bs.length < fuel → ∀ m' rest,
    readModuleLoop fuel m bs = (.ok m', rest) ↔
      rest = [] ∧ ∃ secs, Seq TakenSec secs bs ∧ runAll m secs = some m'
  | 0, m, bs, hf => by omega
  | fuel + 1, m, [], hf => by
    intro m' rest
    rw [moduleLoop_nil]
    simp only [Prod.mk.injEq, Res.ok.injEq]
    constructor
    · rintro ⟨rfl, rfl⟩; exact ⟨rfl, [], .nil, rfl⟩
    · rintro ⟨rfl, secs, hs, hr⟩
      generalize hbs : ([] : List Byte) = bs at hs
      cases hs with
      | nil => exact ⟨by simpa [runAll] using hr, rfl⟩
      | cons g _ =>
        have := takenSec_length g
        have := congrArg List.length hbs
        simp at this; omega
  | fuel + 1, m, b :: bs, hf => by
    intro m' rest
    rw [moduleLoop_cons, SM.bind_eq_ok]
    generalize hbs : b :: bs = cs at *
    constructor
    · rintro ⟨m1, s1, e1, e2⟩
      obtain ⟨u, rfl, sec, g, hr⟩ := ((takes_section m).ok_iff _ _ _).1 e1
      have := takenSec_length g
      simp only [List.length_append] at hf
      obtain ⟨rfl, secs, hs, hrs⟩ := (moduleLoop_ok fuel m1 s1 (by omega) _ _).1 e2
      exact ⟨rfl, sec :: secs, .cons g hs, by simp [runAll, hr, hrs]⟩
    · rintro ⟨rfl, secs, hs, hr⟩
      cases hs with
      | nil => simp at hbs
      | @cons sec secs u v g hs =>
        have := takenSec_length g
        simp only [List.length_append] at hf
        simp only [runAll] at hr
        cases hm : sec.run m with
        | none => simp [hm] at hr
        | some m1 =>
          rw [hm] at hr
          exact ⟨m1, v, ((takes_section m).ok_iff _ _ _).2 ⟨u, rfl, sec, g, hm⟩,
            (moduleLoop_ok fuel m1 v (by omega) _ _).2 ⟨rfl, secs, hs, hr⟩⟩

theorem moduleLoop_tame : (fuel : Nat) → (m : Module) → (bs : List Byte) → bs.length < fuel →
    (readModuleLoop fuel m bs).1.Returns
  | 0, m, bs, hf => by omega
  | fuel + 1, m, [], hf => by rw [moduleLoop_nil]; simp
  | fuel + 1, m, b :: bs, hf => by
    rw [moduleLoop_cons, SM.bind_def]
    have ht := (takes_section m).tame (b :: bs)
    rcases e : oneSection m (b :: bs) with ⟨x, s1⟩
    rw [e] at ht
    cases x with
    | ok m1 =>
      obtain ⟨u, hu, sec, g, hr⟩ := ((takes_section m).ok_iff _ _ _).1 e
      have := takenSec_length g
      have := congrArg List.length hu
      simp only [List.length_append] at this
      exact moduleLoop_tame fuel m1 s1 (by omega)
    | err => simp
    | panic => simp at ht
    | diverge => simp at ht

theorem readModule_ok (bs : List Byte) (m : Module) (rest : List Byte) :
    readModule bs = (.ok m, rest) ↔ rest = [] ∧ ∃ secs, Seq TakenSec secs bs ∧ runAll ⟨[], [], []⟩ secs = some m :=
  moduleLoop_ok _ _ bs (Nat.lt_succ_self _) m rest

theorem readModule_tame (bs : List Byte) : (readModule bs).1.Returns := moduleLoop_tame _ _ bs (Nat.lt_succ_self _)

/-! ## Sections are determined by their bytes -/

/-- A reader of sections, used only to show that the grammar is unambiguous. -/
def anySection : Rd Sec := do
  let id ← readByte
  let size ← readLeb
  if id = 1 then do
    let ts ← readFuncTypes
    pure (.types ts)
  else if id = 3 then do
    let n ← readLeb
    let is ← readMany readLeb n.toNat
    pure (.funcs is)
  else if id = 10 then do
    let n ← readLeb
    let cs ← readMany (do
      let _ ← readLeb
      let l ← readValueTypes
      let b ← readExpression
      pure (l, b)) n.toNat
    pure (.code cs)
  else if id = 7 then do
    let es ← readExports
    pure (.exports es)
  else do
    let p ← readBytes size.toNat
    pure (.other id p)

theorem takes_codeEntry : Takes (do
      let _ ← readLeb
      let l ← readValueTypes
      let b ← readExpression
      pure (l, b)) TakenCode := by
  refine (takes_leb.bind fun n => takes_valTypes.bind fun l => takes_expr.bind fun b => .pure (l, b)).congr fun c u => ?_
  constructor
  · rintro ⟨n, u1, u2, rfl, g1, l, v1, v2, rfl, g2, b, w1, w2, rfl, g3, rfl, rfl⟩
    exact ⟨n, u1, v1, w1, g1, g2, g3, by simp⟩
  · rintro ⟨n, s, a, b, g1, g2, g3, rfl⟩
    exact ⟨n, s, a ++ b, rfl, g1, c.1, a, b, rfl, g2, c.2, b, [], by simp, g3, rfl, rfl⟩

theorem takes_anySection : Takes anySection TakenSec := by
  unfold anySection
  refine (takes_byte.bind fun id => takes_leb.bind fun size =>
    Takes.ite (fun _ => takes_funcTypes.bind fun ts => .pure (Sec.types ts)) fun _ =>
    Takes.ite (fun _ => takes_leb.bind fun n => (takes_many takes_leb n.toNat).bind fun is => .pure (Sec.funcs is)) fun _ =>
    Takes.ite (fun _ => takes_leb.bind fun n => (takes_many takes_codeEntry n.toNat).bind fun cs => .pure (Sec.code cs)) fun _ =>
    Takes.ite (fun _ => takes_exports.bind fun es => .pure (Sec.exports es)) fun _ =>
      (takes_bytes _).bind fun p => .pure (Sec.other id p)).congr fun sec u => ?_
  constructor
  · rintro ⟨id, u1, u2, rfl, rfl, size, v1, v2, rfl, g1, h⟩
    split at h
    · rename_i hid; subst hid
      obtain ⟨ts, w1, w2, rfl, g2, rfl, rfl⟩ := h
      exact ⟨size, v1, w1, g1, g2, by simp⟩
    split at h
    · rename_i hid; subst hid
      obtain ⟨n, x1, x2, rfl, g2, is, w1, w2, rfl, ⟨hl, hs⟩, rfl, rfl⟩ := h
      exact ⟨size, v1, x1 ++ w1, g1, ⟨n, x1, w1, g2, hl.symm, hs, rfl⟩, by simp⟩
    split at h
    · rename_i hid; subst hid
      obtain ⟨n, x1, x2, rfl, g2, is, w1, w2, rfl, ⟨hl, hs⟩, rfl, rfl⟩ := h
      exact ⟨size, v1, x1 ++ w1, g1, ⟨n, x1, w1, g2, hl.symm, hs, rfl⟩, by simp⟩
    split at h
    · rename_i hid; subst hid
      obtain ⟨ts, w1, w2, rfl, g2, rfl, rfl⟩ := h
      exact ⟨size, v1, w1, g1, g2, by simp⟩
    · rename_i h1 h3 h10 h7
      obtain ⟨p, w1, w2, rfl, ⟨rfl, g2⟩, rfl, rfl⟩ := h
      exact ⟨⟨h1, h3, h7, h10⟩, size, v1, g1, g2.symm, by simp⟩
  · intro g
    cases sec with
    | types ts =>
      obtain ⟨n, s, b, g1, g2, rfl⟩ := g
      refine ⟨1, [1], s ++ b, rfl, rfl, n, s, b, rfl, g1, ?_⟩
      rw [if_pos rfl]
      exact ⟨ts, b, [], by simp, g2, rfl, rfl⟩
    | funcs is =>
      obtain ⟨n, s, b, g1, ⟨k, c, b', g2, hl, hs, rfl⟩, rfl⟩ := g
      refine ⟨3, [3], s ++ (c ++ b'), rfl, rfl, n, s, c ++ b', rfl, g1, ?_⟩
      rw [if_neg (by decide), if_pos rfl]
      exact ⟨k, c, b', rfl, g2, is, b', [], by simp, ⟨hl.symm, hs⟩, rfl, rfl⟩
    | exports es =>
      obtain ⟨n, s, b, g1, g2, rfl⟩ := g
      refine ⟨7, [7], s ++ b, rfl, rfl, n, s, b, rfl, g1, ?_⟩
      rw [if_neg (by decide), if_neg (by decide), if_neg (by decide), if_pos rfl]
      exact ⟨es, b, [], by simp, g2, rfl, rfl⟩
    | code cs =>
      obtain ⟨n, s, b, g1, ⟨k, c, b', g2, hl, hs, rfl⟩, rfl⟩ := g
      refine ⟨10, [10], s ++ (c ++ b'), rfl, rfl, n, s, c ++ b', rfl, g1, ?_⟩
      rw [if_neg (by decide), if_neg (by decide), if_pos rfl]
      exact ⟨k, c, b', rfl, g2, cs, b', [], by simp, ⟨hl.symm, hs⟩, rfl, rfl⟩
    | other id p =>
      obtain ⟨⟨h1, h3, h7, h10⟩, n, s, g1, g2, rfl⟩ := g
      refine ⟨id, [id], s ++ p, rfl, rfl, n, s, p, rfl, g1, ?_⟩
      rw [if_neg h1, if_neg h3, if_neg h10, if_neg h7]
      exact ⟨p, p, [], by simp, ⟨rfl, g2.symm⟩, rfl, rfl⟩

/-- Sections read from the front are the first of all sections. -/
theorem seq_split {parts : List Sec} {u : List Byte} (h1 : Seq TakenSec parts u) : ∀ {secs : List Sec} {v : List Byte},
    Seq TakenSec secs (u ++ v) → ∃ more, secs = parts ++ more ∧ Seq TakenSec more v := by
  induction h1 with
  | nil => intro secs v h; exact ⟨secs, rfl, h⟩
  | @cons sec parts u w g _ ih =>
    intro secs v h
    generalize hb : u ++ w ++ v = bs at h
    cases h with
    | nil =>
      have := takenSec_length g
      have := congrArg List.length hb
      simp only [List.length_append, List.length_nil] at this; omega
    | @cons sec' secs u' w' g' h =>
      rw [List.append_assoc] at hb
      obtain ⟨rfl, rfl, rfl⟩ := takes_anySection.det g g' hb
      obtain ⟨more, rfl, hm⟩ := ih h
      exact ⟨more, rfl, hm⟩

theorem seq_det {secs parts : List Sec} {u : List Byte} (h1 : Seq TakenSec parts u) (h : Seq TakenSec secs u) :
    secs = parts := by
  obtain ⟨more, rfl, hm⟩ := seq_split h1 (v := []) (by simpa using h)
  generalize hb : ([] : List Byte) = bs at hm
  cases hm with
  | nil => simp
  | cons g _ =>
    have := takenSec_length g
    have := congrArg List.length hb
    simp only [List.length_append, List.length_nil] at this; omega

end Verif.Binary
