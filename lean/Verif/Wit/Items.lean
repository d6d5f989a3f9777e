import Verif.Wit.GrammarLoose
import Verif.Wit.GrammarProps
import Verif.Wit.Render

/-!
# C154: the items of WIT interfaces and worlds are read one by one
-/

namespace Verif.Wit

open Spec

namespace Spec

/-- What comes of a text that begins with an interface, with other items in front of those of the interface. -/
def addItems (as : List InterfaceItem) : Res Ast → Res Ast
  | .ok ⟨p, ⟨some ⟨name, bs⟩, w, u⟩ :: is⟩ => .ok ⟨p, ⟨some ⟨name, as ++ bs⟩, w, u⟩ :: is⟩
  | x => x

/-- What comes of a text that begins with a world, with other items in front of those of the world. -/
def addWorldItems (as : List WorldItem) : Res Ast → Res Ast
  | .ok ⟨p, ⟨i, some ⟨name, bs⟩, u⟩ :: is⟩ => .ok ⟨p, ⟨i, some ⟨name, as ++ bs⟩, u⟩ :: is⟩
  | x => x

/-- The first token can not go on with a resource that lacks its semicolon. -/
def NotGoingOn (ts : List Sig) : Prop := ∀ t ∈ ts.head?, t.type ≠ .semicolon ∧ t.type ≠ .openBrace

end Spec

/-! ## Cutting lists of items -/

theorem many_cat {α : Type} (A : α → Lang) (xs ys : List α) (ts us : List Sig) (h : many A xs ts) (h' : many A ys us) :
    many A (xs ++ ys) (ts ++ us) := by
  induction xs generalizing ts with
  | nil => cases h; exact h'
  | cons x xs ih =>
    obtain ⟨a, b, rfl, ha, hb⟩ := h
    exact ⟨a, b ++ us, by simp, ha, ih b hb⟩

theorem many_follow {α : Type} {item : α → Lang} {js : List TokenType} (hb : ∀ x, Begins (item x) js)
    (hj : ∀ j ∈ js, j ∉ [TokenType.semicolon, .openBrace]) (xs : List α) (C D : List Sig) (h : many item xs C) (hD : NotGoingOn D)
    (hne : D ≠ []) : Follow [.semicolon, .openBrace] ⟨C ++ D, true⟩ := by
  cases xs with
  | nil =>
    cases h
    cases D with
    | nil => exact absurd rfl hne
    | cons d D =>
      have := hD d rfl
      exact .inr ⟨d, D, rfl, by simp [this.1, this.2]⟩
  | cons x xs =>
    obtain ⟨a, b, rfl, ha, -⟩ := h
    obtain ⟨t, r, rfl, ht⟩ := hb x a ha
    exact .inr ⟨t, r ++ b ++ D, by simp, hj _ ht⟩

theorem items_cut {α : Type} {item : α → Lang} {parser : Nat → SM Stream α} {js : List TokenType}
    (ht : ∀ n, Takes n (parser n) item [.semicolon, .openBrace]) (hb : ∀ x, Begins (item x) js)
    (hj : ∀ j ∈ js, j ∉ [TokenType.semicolon, .openBrace]) (hc : TokenType.closeBrace ∉ js) (as cs : List α) (A C D R : List Sig)
    (cb : Sig) (hcb : cb.type = .closeBrace) (ha : many item as A) (h : many item cs C) (hD : NotGoingOn D)
    (e : A ++ D = C ++ cb :: R) : ∃ bs B, cs = as ++ bs ∧ many item bs B ∧ D = B ++ cb :: R := by
  induction as generalizing A cs C with
  | nil =>
    cases ha
    exact ⟨cs, C, rfl, h, e⟩
  | cons a as ih =>
    obtain ⟨a1, A', rfl, ha1, hA'⟩ := ha
    cases cs with
    | nil =>
      cases h
      obtain ⟨t, r, rfl, htt⟩ := hb a a1 ha1
      simp only [List.cons_append, List.nil_append, List.cons.injEq] at e
      rw [e.1, hcb] at htt
      exact absurd htt hc
    | cons c cs =>
      obtain ⟨c1, C', rfl, hc1, hC'⟩ := h
      have hcD : NotGoingOn (cb :: R) := by
        intro t h
        cases h
        rw [hcb]
        simp
      have hne : D ≠ [] ∨ A' ≠ [] ∨ (D = [] ∧ A' = []) := by
        by_cases h1 : D = [] <;> by_cases h2 : A' = [] <;> simp [h1, h2]
      have f1 : Follow [.semicolon, .openBrace] ⟨A' ++ D, true⟩ := by
        by_cases h1 : D = []
        · subst h1
          cases as with
          | nil => cases hA'; exact .inl rfl
          | cons x xs =>
            obtain ⟨p, q, rfl, hp, -⟩ := hA'
            obtain ⟨t, r, rfl, ht⟩ := hb x p hp
            exact .inr ⟨t, r ++ q, by simp, hj _ ht⟩
        · exact many_follow hb hj as A' D hA' hD h1
      have f2 := many_follow hb hj cs C' (cb :: R) hC' hcD (by simp)
      have k1 := ht (a1.length + c1.length + 1) a a1 ⟨A' ++ D, true⟩ ha1 f1 (by omega)
      have k2 := ht (a1.length + c1.length + 1) c c1 ⟨C' ++ cb :: R, true⟩ hc1 f2 (by omega)
      have e' : (⟨A' ++ D, true⟩ : Stream).push a1 = (⟨C' ++ cb :: R, true⟩ : Stream).push c1 := by
        simp only [Stream.push, Stream.mk.injEq, and_true]
        rw [← List.append_assoc, ← List.append_assoc]
        exact e
      rw [e', k2] at k1
      simp only [Prod.mk.injEq, Res.ok.injEq, Stream.mk.injEq, and_true] at k1
      obtain ⟨rfl, e2⟩ := k1
      obtain ⟨bs, B, rfl, h1, h2⟩ := ih cs A' C' hA' hC' e2.symm
      exact ⟨bs, B, rfl, h1, h2⟩

/-! ## Documents that begin with an interface or a world -/

theorem interface_document (w1 w3 nm : List Byte) (k : TokenType) (hk : k = .id ∨ k = .explicitId) (a : Ast) (X : List Sig) :
    looseDocument a (⟨.interface, w1⟩ :: ⟨k, nm⟩ :: ⟨.openBrace, w3⟩ :: X) ↔
      ∃ bs C w R is, a = ⟨none, ⟨some ⟨nm, bs⟩, none, none⟩ :: is⟩ ∧ X = C ++ ⟨.closeBrace, w⟩ :: R ∧ many interfaceItem bs C ∧
        loose is R := by
  constructor
  · intro h
    obtain ⟨p, is⟩ := a
    cases p with
    | some p =>
      exfalso
      obtain ⟨x, y, e, ⟨_, _, rfl, ⟨w, rfl⟩, -⟩, -⟩ := h
      simp at e
    | none =>
      obtain ⟨h, -⟩ := h
      cases is with
      | nil => cases h
      | cons i is =>
        obtain ⟨x, R, e, hi, hR, -⟩ := h
        rcases i with ⟨_ | i, _ | wo, _ | u⟩
        · exfalso
          obtain ⟨t, ht, rfl⟩ := hi
          simp only [List.singleton_append, List.cons.injEq] at e
          rw [← e.1] at ht
          simp at ht
        · exfalso
          obtain ⟨_, _, rfl, ⟨w, rfl⟩, -⟩ := hi
          simp at e
        · exfalso
          obtain ⟨_, _, rfl, ⟨w, rfl⟩, -⟩ := hi
          simp at e
        · exact hi.elim
        · obtain ⟨_, _, rfl, ⟨w, rfl⟩, n, _, rfl, hn, _, _, rfl, ⟨v, rfl⟩, C, _, rfl, hC, u, rfl⟩ := hi
          obtain ⟨nm', bs⟩ := i
          have : n = [⟨k, nm⟩] ∧ nm' = nm := by
            rcases hn with rfl | rfl <;> simp_all
          obtain ⟨rfl, rfl⟩ := this
          refine ⟨bs, C, u, R, is, rfl, ?_, hC, hR⟩
          simp only [List.cons_append, List.nil_append, List.cons.injEq, List.append_assoc] at e
          exact e.2.2.2
        · exact hi.elim
        · exact hi.elim
        · exact hi.elim
  · rintro ⟨bs, C, w, R, is, rfl, rfl, hC, hR⟩
    refine ⟨⟨⟨.interface, w1⟩ :: ⟨k, nm⟩ :: ⟨.openBrace, w3⟩ :: (C ++ [⟨.closeBrace, w⟩]), R, by simp, ?_, hR, ?_⟩, ?_⟩
    · refine ⟨[_], _, rfl, ⟨w1, rfl⟩, [⟨k, nm⟩], _, rfl, ?_, [_], _, rfl, ⟨w3, rfl⟩, C, [_], rfl, hC, w, rfl⟩
      rcases hk with rfl | rfl
      · exact .inl rfl
      · exact .inr rfl
    · rintro ⟨u, hu⟩
      cases hu
    · intro t ht
      cases ht
      simp

theorem world_document (w1 w3 nm : List Byte) (k : TokenType) (hk : k = .id ∨ k = .explicitId) (a : Ast) (X : List Sig) :
    looseDocument a (⟨.world, w1⟩ :: ⟨k, nm⟩ :: ⟨.openBrace, w3⟩ :: X) ↔
      ∃ bs C w R is, a = ⟨none, ⟨none, some ⟨nm, bs⟩, none⟩ :: is⟩ ∧ X = C ++ ⟨.closeBrace, w⟩ :: R ∧ many worldItem bs C ∧
        loose is R := by
  constructor
  · intro h
    obtain ⟨p, is⟩ := a
    cases p with
    | some p =>
      exfalso
      obtain ⟨x, y, e, ⟨_, _, rfl, ⟨w, rfl⟩, -⟩, -⟩ := h
      simp at e
    | none =>
      obtain ⟨h, -⟩ := h
      cases is with
      | nil => cases h
      | cons i is =>
        obtain ⟨x, R, e, hi, hR, -⟩ := h
        rcases i with ⟨_ | i, _ | wo, _ | u⟩
        · exfalso
          obtain ⟨t, ht, rfl⟩ := hi
          simp only [List.singleton_append, List.cons.injEq] at e
          rw [← e.1] at ht
          simp at ht
        · exfalso
          obtain ⟨_, _, rfl, ⟨w, rfl⟩, -⟩ := hi
          simp at e
        · obtain ⟨_, _, rfl, ⟨w, rfl⟩, n, _, rfl, hn, _, _, rfl, ⟨v, rfl⟩, C, _, rfl, hC, u, rfl⟩ := hi
          obtain ⟨nm', bs⟩ := wo
          have : n = [⟨k, nm⟩] ∧ nm' = nm := by
            rcases hn with rfl | rfl <;> simp_all
          obtain ⟨rfl, rfl⟩ := this
          refine ⟨bs, C, u, R, is, rfl, ?_, hC, hR⟩
          simp only [List.cons_append, List.nil_append, List.cons.injEq, List.append_assoc] at e
          exact e.2.2.2
        · exact hi.elim
        · exfalso
          obtain ⟨_, _, rfl, ⟨w, rfl⟩, -⟩ := hi
          simp at e
        · exact hi.elim
        · exact hi.elim
        · exact hi.elim
  · rintro ⟨bs, C, w, R, is, rfl, rfl, hC, hR⟩
    refine ⟨⟨⟨.world, w1⟩ :: ⟨k, nm⟩ :: ⟨.openBrace, w3⟩ :: (C ++ [⟨.closeBrace, w⟩]), R, by simp, ?_, hR, ?_⟩, ?_⟩
    · refine ⟨[_], _, rfl, ⟨w1, rfl⟩, [⟨k, nm⟩], _, rfl, ?_, [_], _, rfl, ⟨w3, rfl⟩, C, [_], rfl, hC, w, rfl⟩
      rcases hk with rfl | rfl
      · exact .inl rfl
      · exact .inr rfl
    · rintro ⟨u, hu⟩
      cases hu
    · intro t ht
      cases ht
      simp

/-! ## Items are read one by one -/

variable [Unicode]

omit [Unicode] in
/-- A text that is one interface begins with three tokens, then come its items and a brace. -/
theorem interface_head (H A : List Sig) (cb : Sig) (hH : H.length = 3) (nm : List Byte) (as : List InterfaceItem)
    (h : looseDocument ⟨none, [⟨some ⟨nm, as⟩, none, none⟩]⟩ (H ++ (A ++ [cb]))) :
    ∃ w1 k w3, (k = .id ∨ k = .explicitId) ∧ H = [⟨.interface, w1⟩, ⟨k, nm⟩, ⟨.openBrace, w3⟩] ∧ many interfaceItem as A := by
  obtain ⟨⟨x, R, e, hi, hR, -⟩, -⟩ := h
  cases hR
  obtain ⟨_, _, rfl, ⟨w, rfl⟩, n, _, rfl, hn, _, _, rfl, ⟨v, rfl⟩, C, _, rfl, hC, u, rfl⟩ := hi
  have : ∃ k, (k = TokenType.id ∨ k = .explicitId) ∧ n = [⟨k, nm⟩] := by
    rcases hn with rfl | rfl
    · exact ⟨.id, .inl rfl, rfl⟩
    · exact ⟨.explicitId, .inr rfl, rfl⟩
  obtain ⟨k, hk, rfl⟩ := this
  match H, hH with
  | [h1, h2, h3], _ =>
    simp only [List.cons_append, List.nil_append, List.append_nil, List.cons.injEq] at e
    obtain ⟨rfl, rfl, rfl, e⟩ := e
    obtain ⟨rfl, -⟩ := List.append_inj' e rfl
    exact ⟨w, k, v, hk, rfl, hC⟩

/-- C154, for interfaces. A text begins with `interface`, a name and a brace (`H`), then come the tokens `A` and then `D`. If
`A` are the items of an interface, then the text is read as the one without `A`, with these items in front: it is accepted exactly
if that is, and nothing else of the tree differs. -/
theorem wit_items (H A D : List Sig) (hH : H.length = 3) (cb : Sig) (nm : List Byte) (as : List InterfaceItem) (ta tb t : List Byte)
    (na nb n : Nat) (hna : ta.length < na) (hnb : tb.length < nb) (hn : t.length < n) (ea : tokens ta = H ++ (A ++ [cb]))
    (eb : tokens tb = H ++ D) (e : tokens t = H ++ (A ++ D)) (hl : Lexes t ↔ Lexes tb) (hD : NotGoingOn D)
    (ha : parseText na ta = .ok ⟨none, [⟨some ⟨nm, as⟩, none, none⟩]⟩) :
    parseText n t = addItems as (parseText nb tb) := by
  have h := ((accepted_iff_loose ta na hna _).1 ha).2
  rw [ea] at h
  obtain ⟨w1, k, w3, hk, rfl, hA⟩ := interface_head H A cb hH nm as h
  simp only [List.cons_append, List.nil_append] at e eb
  have key : ∀ a, parseText n t = .ok a ↔ ∃ bs is, parseText nb tb = .ok ⟨none, ⟨some ⟨nm, bs⟩, none, none⟩ :: is⟩ ∧
      a = ⟨none, ⟨some ⟨nm, as ++ bs⟩, none, none⟩ :: is⟩ := by
    intro a
    rw [accepted_iff_loose t n hn a, e, interface_document w1 w3 nm k hk]
    constructor
    · rintro ⟨l, cs, C, w, R, is, rfl, e1, hC, hR⟩
      obtain ⟨bs, B, rfl, hB, rfl⟩ := items_cut interfaceItem_takes interfaceItem_begins (by simp) (by simp) as cs A C D R _ rfl hA hC hD e1
      refine ⟨bs, is, (accepted_iff_loose tb nb hnb _).2 ⟨hl.1 l, ?_⟩, rfl⟩
      rw [eb, interface_document w1 w3 nm k hk]
      exact ⟨bs, B, w, R, is, rfl, rfl, hB, hR⟩
    · rintro ⟨bs, is, hb, rfl⟩
      obtain ⟨l, hb⟩ := (accepted_iff_loose tb nb hnb _).1 hb
      rw [eb, interface_document w1 w3 nm k hk] at hb
      obtain ⟨bs', C, w, R, is', e1, rfl, hC, hR⟩ := hb
      cases e1
      exact ⟨hl.2 l, as ++ bs, A ++ C, w, R, is, rfl, by simp, many_cat _ _ _ _ _ hA hC, hR⟩
  have r1 := (wit_parser_ends t n n hn hn).1
  have r2 := (wit_parser_ends tb nb nb hnb hnb).1
  cases hb : parseText nb tb with
  | ok b =>
    have := (accepted_iff_loose tb nb hnb b).1 hb
    rw [eb, interface_document w1 w3 nm k hk] at this
    obtain ⟨-, bs, C, w, R, is, rfl, -⟩ := this
    exact (key _).2 ⟨bs, is, hb, rfl⟩
  | err =>
    cases ht : parseText n t with
    | ok a =>
      obtain ⟨bs, is, h1, -⟩ := (key a).1 ht
      rw [hb] at h1
      cases h1
    | err => rfl
    | panic => rw [ht] at r1; simp [Res.Returns] at r1
    | diverge => rw [ht] at r1; simp [Res.Returns] at r1
  | panic => rw [hb] at r2; simp [Res.Returns] at r2
  | diverge => rw [hb] at r2; simp [Res.Returns] at r2

/-- C154, for two groups of items of interfaces: if both are accepted alone, they are accepted in both orders. -/
theorem wit_items_swap (H A B : List Sig) (hH : H.length = 3) (ca cb : Sig) (nm : List Byte) (as bs : List InterfaceItem)
    (ta tb t t' : List Byte) (n : Nat) (hna : ta.length < n) (hnb : tb.length < n) (hn : t.length < n) (hn' : t'.length < n)
    (ea : tokens ta = H ++ (A ++ [ca])) (eb : tokens tb = H ++ (B ++ [cb])) (e : tokens t = H ++ (A ++ (B ++ [cb])))
    (e' : tokens t' = H ++ (B ++ (A ++ [ca]))) (hl : Lexes t) (hl' : Lexes t')
    (ha : parseText n ta = .ok ⟨none, [⟨some ⟨nm, as⟩, none, none⟩]⟩) (hb : parseText n tb = .ok ⟨none, [⟨some ⟨nm, bs⟩, none, none⟩]⟩) :
    parseText n t = .ok ⟨none, [⟨some ⟨nm, as ++ bs⟩, none, none⟩]⟩ ∧ parseText n t' = .ok ⟨none, [⟨some ⟨nm, bs ++ as⟩, none, none⟩]⟩ := by
  obtain ⟨la, h1⟩ := (accepted_iff_loose ta n hna _).1 ha
  obtain ⟨lb, h2⟩ := (accepted_iff_loose tb n hnb _).1 hb
  have go : ∀ (X : List Sig) (c : Sig) (xs : List InterfaceItem),
      looseDocument ⟨none, [⟨some ⟨nm, xs⟩, none, none⟩]⟩ (H ++ (X ++ [c])) → NotGoingOn (X ++ [c]) := by
    intro X c xs h
    obtain ⟨w1, k, w3, hk, rfl, -⟩ := interface_head H X c hH nm xs h
    simp only [List.cons_append, List.nil_append] at h
    rw [interface_document w1 w3 nm k hk] at h
    obtain ⟨ys, C, w, R, is, -, e, hC, -⟩ := h
    rw [e]
    intro t ht
    cases ys with
    | nil =>
      cases hC
      cases ht
      simp
    | cons y ys =>
      obtain ⟨p, q, rfl, hp, -⟩ := hC
      obtain ⟨u, r, rfl, hu⟩ := interfaceItem_begins y p hp
      cases ht
      constructor <;> (intro h; rw [h] at hu; simp at hu)
  rw [ea] at h1
  rw [eb] at h2
  constructor
  · rw [wit_items H A _ hH ca nm as ta tb t n n n hna hnb hn ea eb e ⟨fun _ => lb, fun _ => hl⟩ (go B cb bs h2) ha, hb]
    rfl
  · rw [wit_items H B _ hH cb nm bs tb ta t' n n n hnb hna hn' eb ea e' ⟨fun _ => la, fun _ => hl'⟩ (go A ca as h1) hb, ha]
    rfl

omit [Unicode] in
/-- A text that is one world begins with three tokens, then come its items and a brace. -/
theorem world_head (H A : List Sig) (cb : Sig) (hH : H.length = 3) (nm : List Byte) (as : List WorldItem)
    (h : looseDocument ⟨none, [⟨none, some ⟨nm, as⟩, none⟩]⟩ (H ++ (A ++ [cb]))) :
    ∃ w1 k w3, (k = .id ∨ k = .explicitId) ∧ H = [⟨.world, w1⟩, ⟨k, nm⟩, ⟨.openBrace, w3⟩] ∧ many worldItem as A := by
  obtain ⟨⟨x, R, e, hi, hR, -⟩, -⟩ := h
  cases hR
  obtain ⟨_, _, rfl, ⟨w, rfl⟩, n, _, rfl, hn, _, _, rfl, ⟨v, rfl⟩, C, _, rfl, hC, u, rfl⟩ := hi
  have : ∃ k, (k = TokenType.id ∨ k = .explicitId) ∧ n = [⟨k, nm⟩] := by
    rcases hn with rfl | rfl
    · exact ⟨.id, .inl rfl, rfl⟩
    · exact ⟨.explicitId, .inr rfl, rfl⟩
  obtain ⟨k, hk, rfl⟩ := this
  match H, hH with
  | [h1, h2, h3], _ =>
    simp only [List.cons_append, List.nil_append, List.append_nil, List.cons.injEq] at e
    obtain ⟨rfl, rfl, rfl, e⟩ := e
    obtain ⟨rfl, -⟩ := List.append_inj' e rfl
    exact ⟨w, k, v, hk, rfl, hC⟩

/-- C154, for worlds. A text begins with `world`, a name and a brace (`H`), then come the tokens `A` and then `D`. If
`A` are the items of a world, then the text is read as the one without `A`, with these items in front: it is accepted exactly
if that is, and nothing else of the tree differs. -/
theorem wit_world_items (H A D : List Sig) (hH : H.length = 3) (cb : Sig) (nm : List Byte) (as : List WorldItem) (ta tb t : List Byte)
    (na nb n : Nat) (hna : ta.length < na) (hnb : tb.length < nb) (hn : t.length < n) (ea : tokens ta = H ++ (A ++ [cb]))
    (eb : tokens tb = H ++ D) (e : tokens t = H ++ (A ++ D)) (hl : Lexes t ↔ Lexes tb) (hD : NotGoingOn D)
    (ha : parseText na ta = .ok ⟨none, [⟨none, some ⟨nm, as⟩, none⟩]⟩) :
    parseText n t = addWorldItems as (parseText nb tb) := by
  have h := ((accepted_iff_loose ta na hna _).1 ha).2
  rw [ea] at h
  obtain ⟨w1, k, w3, hk, rfl, hA⟩ := world_head H A cb hH nm as h
  simp only [List.cons_append, List.nil_append] at e eb
  have key : ∀ a, parseText n t = .ok a ↔ ∃ bs is, parseText nb tb = .ok ⟨none, ⟨none, some ⟨nm, bs⟩, none⟩ :: is⟩ ∧
      a = ⟨none, ⟨none, some ⟨nm, as ++ bs⟩, none⟩ :: is⟩ := by
    intro a
    rw [accepted_iff_loose t n hn a, e, world_document w1 w3 nm k hk]
    constructor
    · rintro ⟨l, cs, C, w, R, is, rfl, e1, hC, hR⟩
      obtain ⟨bs, B, rfl, hB, rfl⟩ := items_cut worldItem_takes worldItem_begins (by simp) (by simp) as cs A C D R _ rfl hA hC hD e1
      refine ⟨bs, is, (accepted_iff_loose tb nb hnb _).2 ⟨hl.1 l, ?_⟩, rfl⟩
      rw [eb, world_document w1 w3 nm k hk]
      exact ⟨bs, B, w, R, is, rfl, rfl, hB, hR⟩
    · rintro ⟨bs, is, hb, rfl⟩
      obtain ⟨l, hb⟩ := (accepted_iff_loose tb nb hnb _).1 hb
      rw [eb, world_document w1 w3 nm k hk] at hb
      obtain ⟨bs', C, w, R, is', e1, rfl, hC, hR⟩ := hb
      cases e1
      exact ⟨hl.2 l, as ++ bs, A ++ C, w, R, is, rfl, by simp, many_cat _ _ _ _ _ hA hC, hR⟩
  have r1 := (wit_parser_ends t n n hn hn).1
  have r2 := (wit_parser_ends tb nb nb hnb hnb).1
  cases hb : parseText nb tb with
  | ok b =>
    have := (accepted_iff_loose tb nb hnb b).1 hb
    rw [eb, world_document w1 w3 nm k hk] at this
    obtain ⟨-, bs, C, w, R, is, rfl, -⟩ := this
    exact (key _).2 ⟨bs, is, hb, rfl⟩
  | err =>
    cases ht : parseText n t with
    | ok a =>
      obtain ⟨bs, is, h1, -⟩ := (key a).1 ht
      rw [hb] at h1
      cases h1
    | err => rfl
    | panic => rw [ht] at r1; simp [Res.Returns] at r1
    | diverge => rw [ht] at r1; simp [Res.Returns] at r1
  | panic => rw [hb] at r2; simp [Res.Returns] at r2
  | diverge => rw [hb] at r2; simp [Res.Returns] at r2

/-- C154, for two groups of items of worlds: if both are accepted alone, they are accepted in both orders. -/
theorem wit_world_items_swap (H A B : List Sig) (hH : H.length = 3) (ca cb : Sig) (nm : List Byte) (as bs : List WorldItem)
    (ta tb t t' : List Byte) (n : Nat) (hna : ta.length < n) (hnb : tb.length < n) (hn : t.length < n) (hn' : t'.length < n)
    (ea : tokens ta = H ++ (A ++ [ca])) (eb : tokens tb = H ++ (B ++ [cb])) (e : tokens t = H ++ (A ++ (B ++ [cb])))
    (e' : tokens t' = H ++ (B ++ (A ++ [ca]))) (hl : Lexes t) (hl' : Lexes t')
    (ha : parseText n ta = .ok ⟨none, [⟨none, some ⟨nm, as⟩, none⟩]⟩) (hb : parseText n tb = .ok ⟨none, [⟨none, some ⟨nm, bs⟩, none⟩]⟩) :
    parseText n t = .ok ⟨none, [⟨none, some ⟨nm, as ++ bs⟩, none⟩]⟩ ∧ parseText n t' = .ok ⟨none, [⟨none, some ⟨nm, bs ++ as⟩, none⟩]⟩ := by
  obtain ⟨la, h1⟩ := (accepted_iff_loose ta n hna _).1 ha
  obtain ⟨lb, h2⟩ := (accepted_iff_loose tb n hnb _).1 hb
  have go : ∀ (X : List Sig) (c : Sig) (xs : List WorldItem),
      looseDocument ⟨none, [⟨none, some ⟨nm, xs⟩, none⟩]⟩ (H ++ (X ++ [c])) → NotGoingOn (X ++ [c]) := by
    intro X c xs h
    obtain ⟨w1, k, w3, hk, rfl, -⟩ := world_head H X c hH nm xs h
    simp only [List.cons_append, List.nil_append] at h
    rw [world_document w1 w3 nm k hk] at h
    obtain ⟨ys, C, w, R, is, -, e, hC, -⟩ := h
    rw [e]
    intro t ht
    cases ys with
    | nil =>
      cases hC
      cases ht
      simp
    | cons y ys =>
      obtain ⟨p, q, rfl, hp, -⟩ := hC
      obtain ⟨u, r, rfl, hu⟩ := worldItem_begins y p hp
      cases ht
      constructor <;> (intro h; rw [h] at hu; simp at hu)
  rw [ea] at h1
  rw [eb] at h2
  constructor
  · rw [wit_world_items H A _ hH ca nm as ta tb t n n n hna hnb hn ea eb e ⟨fun _ => lb, fun _ => hl⟩ (go B cb bs h2) ha, hb]
    rfl
  · rw [wit_world_items H B _ hH cb nm bs tb ta t' n n n hnb hna hn' eb ea e' ⟨fun _ => la, fun _ => hl'⟩ (go A ca as h1) hb, ha]
    rfl

/-- C154, on texts written down: the tokens with a space between them. -/
theorem wit_items_written (H A D : List Sig) (hH : H.length = 3) (cb : Sig) (nm : List Byte) (as : List InterfaceItem) (n : Nat)
    (wh : ∀ u ∈ H, Written u) (wa : ∀ u ∈ A, Written u) (wc : Written cb) (wd : ∀ u ∈ D, Written u) (hD : NotGoingOn D) :
    let text (X : List Sig) := sep ((H ++ X).map (·.capture))
    (text (A ++ [cb])).length < n → (text (A ++ D)).length < n → (text D).length < n →
    parseText n (text (A ++ [cb])) = .ok ⟨none, [⟨some ⟨nm, as⟩, none, none⟩]⟩ →
    parseText n (text (A ++ D)) = addItems as (parseText n (text D)) := by
  intro text h1 h2 h3 ha
  have w : ∀ X : List Sig, (∀ u ∈ X, Written u) → Lexes (text X) ∧ tokens (text X) = H ++ X := fun X hX =>
    render_tokens (H ++ X) fun u hu => by
      rcases List.mem_append.1 hu with hu | hu
      · exact wh u hu
      · exact hX u hu
  have w1 := w (A ++ [cb]) fun u hu => by
    rcases List.mem_append.1 hu with hu | hu
    · exact wa u hu
    · rw [List.mem_singleton.1 hu]; exact wc
  have w2 := w (A ++ D) fun u hu => by
    rcases List.mem_append.1 hu with hu | hu
    · exact wa u hu
    · exact wd u hu
  have w3 := w D wd
  exact wit_items H A D hH cb nm as _ _ _ n n n h1 h3 h2 w1.2 w3.2 w2.2 ⟨fun _ => w3.1, fun _ => w2.1⟩ hD ha

omit [Unicode] in
/-- **A resource goes on.** A resource needs no semicolon, so a semicolon after it belongs to it: the hypothesis about what
follows the items cannot be left out. -/
theorem resource_goes_on : letI := someTables
    (parseText 100 (txt "interface i { resource r }") matches .ok ⟨none, [⟨some ⟨_, [_]⟩, none, none⟩]⟩) ∧
    (parseText 100 (txt "interface i { ; }") matches .err) ∧
    (parseText 100 (txt "interface i { resource r ; }") matches .ok ⟨none, [⟨some ⟨_, [_]⟩, none, none⟩]⟩) := by
  decide +kernel

/-! ## Cases that meet the hypotheses -/

/-- The tokens of `interface i {`. -/
def interfaceHead : List Sig := [⟨.interface, txt "interface"⟩, ⟨.id, txt "i"⟩, ⟨.openBrace, txt "{"⟩]

/-- The tokens of `x: func(); resource r`. -/
def frontItems : List Sig := [⟨.id, txt "x"⟩, ⟨.colon, txt ":"⟩, ⟨.func, txt "func"⟩, ⟨.openParen, txt "("⟩,
  ⟨.closeParen, txt ")"⟩, ⟨.semicolon, txt ";"⟩, ⟨.resource, txt "resource"⟩, ⟨.id, txt "r"⟩]

/-- The tokens of `type x = y; } interface j { }`. -/
def backItems : List Sig := [⟨.type, txt "type"⟩, ⟨.id, txt "x"⟩, ⟨.equal, txt "="⟩, ⟨.id, txt "y"⟩, ⟨.semicolon, txt ";"⟩,
  ⟨.closeBrace, txt "}"⟩, ⟨.interface, txt "interface"⟩, ⟨.id, txt "j"⟩, ⟨.openBrace, txt "{"⟩, ⟨.closeBrace, txt "}"⟩]

omit [Unicode] in
/-- The hypotheses of `wit_items` are met, with a resource as the last item that is put in front, a comment, and a text that
goes on after the interface. -/
example : letI := someTables
    tokens (txt "interface i { x: func(); resource r }") = interfaceHead ++ (frontItems ++ [⟨.closeBrace, txt "}"⟩]) ∧
    tokens (txt "interface i { type x = y; } interface j { }") = interfaceHead ++ backItems ∧
    tokens (txt "interface i { x: func(); resource r /* c */ type x = y; } interface j { }") =
      interfaceHead ++ (frontItems ++ backItems) :=
  ⟨by decide +kernel, by decide +kernel, by decide +kernel⟩

omit [Unicode] in
example : letI := someTables
    (Lexes (txt "interface i { x: func(); resource r /* c */ type x = y; } interface j { }") ↔
      Lexes (txt "interface i { type x = y; } interface j { }")) := by
  unfold Lexes
  decide +kernel

omit [Unicode] in
example : letI := someTables
    NotGoingOn backItems ∧
    (parseText 100 (txt "interface i { x: func(); resource r }") matches .ok ⟨none, [⟨some ⟨_, [_, _]⟩, none, none⟩]⟩) ∧
    (parseText 100 (txt "interface i { type x = y; } interface j { }") matches
      .ok ⟨none, [⟨some ⟨_, [_]⟩, none, none⟩, ⟨some _, none, none⟩]⟩) :=
  ⟨by unfold NotGoingOn; decide +kernel, by decide +kernel, by decide +kernel⟩

/-- The tokens of `world w {`. -/
def worldHead : List Sig := [⟨.world, txt "world"⟩, ⟨.id, txt "w"⟩, ⟨.openBrace, txt "{"⟩]

/-- The tokens of `type x = y;`. -/
def worldItemA : List Sig := [⟨.type, txt "type"⟩, ⟨.id, txt "x"⟩, ⟨.equal, txt "="⟩, ⟨.id, txt "y"⟩, ⟨.semicolon, txt ";"⟩]

/-- The tokens of `include v;`. -/
def worldItemB : List Sig := [⟨.include, txt "include"⟩, ⟨.id, txt "v"⟩, ⟨.semicolon, txt ";"⟩]

omit [Unicode] in
/-- The hypotheses of `wit_world_items_swap` are met. -/
example : letI := someTables
    tokens (txt "world w { type x = y; }") = worldHead ++ (worldItemA ++ [⟨.closeBrace, txt "}"⟩]) ∧
    tokens (txt "world w { include v; }") = worldHead ++ (worldItemB ++ [⟨.closeBrace, txt "}"⟩]) ∧
    tokens (txt "world w { type x = y; include v; }") =
      worldHead ++ (worldItemA ++ (worldItemB ++ [⟨.closeBrace, txt "}"⟩])) ∧
    tokens (txt "world w { include v; type x = y; }") =
      worldHead ++ (worldItemB ++ (worldItemA ++ [⟨.closeBrace, txt "}"⟩])) :=
  ⟨by decide +kernel, by decide +kernel, by decide +kernel, by decide +kernel⟩

omit [Unicode] in
example : letI := someTables
    Lexes (txt "world w { type x = y; include v; }") ∧ Lexes (txt "world w { include v; type x = y; }") := by
  unfold Lexes
  decide +kernel

omit [Unicode] in
example : letI := someTables
    (parseText 100 (txt "world w { type x = y; }") matches .ok ⟨none, [⟨none, some ⟨_, [_]⟩, none⟩]⟩) ∧
    (parseText 100 (txt "world w { include v; }") matches .ok ⟨none, [⟨none, some ⟨_, [_]⟩, none⟩]⟩) :=
  ⟨by decide +kernel, by decide +kernel⟩

end Verif.Wit
