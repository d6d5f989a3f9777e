import Verif.Wit.GrammarComplete

/-!
# Documents with other tokens between their items

The grammar of all that the parser accepts. A token at top level that begins no item is accepted as an item without
content, and so is the semicolon after a `use`.
-/

namespace Verif.Wit

open Spec

namespace Spec

/-- A use without `as`. -/
def OpenUse (i : AstItem) : Prop := ∃ p, i = ⟨none, none, some ⟨p, none⟩⟩

/-- Items, and other tokens as empty items. After a use without `as` there is no token `as` or `:`, as it would belong to
the use. -/
def loose : List AstItem → Lang
  | [] => eps
  | i :: is => itemOrToken i ⬝ fun ts => loose is ts ∧ (OpenUse i → ∀ t ∈ ts.head?, t.type ≠ .as ∧ t.type ≠ .colon)

/-- All that is accepted: a package declaration and such items. Without a declaration the first token is not `package`. -/
def looseDocument (a : Ast) : Lang :=
  match a.package with
  | none => (loose a.items).notBegin .package
  | some p => package (some p) ⬝ loose a.items

end Spec

/-! ## What is accepted -/

theorem eat_false (k : TokenType) (hk : k ≠ .endOfStream) (st s : Stream) (h : eatTok streamOps k st = (.ok false, s)) :
    s = st ∧ NotAt k st := by
  rcases st with ⟨_ | ⟨t, ts⟩, e⟩
  · cases e
    · cases h
    · rw [eat_end k hk] at h
      cases h
      exact ⟨rfl, fun t ht => by simp at ht⟩
  · by_cases ht : t.type = k
    · rw [eat_cons t ts e k ht] at h
      cases h
    · rw [eat_not t ts e k ht] at h
      cases h
      refine ⟨rfl, fun u hu => ?_⟩
      simp only [List.head?_cons, Option.mem_def, Option.some.injEq] at hu
      subst hu
      exact ht

theorem usePath_after (st s : Stream) (p : UsePath) (h : parseUsePath streamOps st = (.ok p, s)) : NotAt .colon s := by
  unfold parseUsePath at h
  obtain ⟨id, s1, h1, h⟩ := SM.bind_eq_ok.1 h
  obtain ⟨b, s2, h2, h⟩ := SM.bind_eq_ok.1 h
  cases b with
  | false =>
    cases h
    exact (eat_false _ (by simp) _ _ h2).1 ▸ (eat_false _ (by simp) _ _ h2).2
  | true =>
    rw [if_pos rfl] at h
    unfold parsePath at h
    obtain ⟨_, s3, _, h⟩ := SM.bind_eq_ok.1 h
    obtain ⟨_, s4, _, h⟩ := SM.bind_eq_ok.1 h
    obtain ⟨_, s5, _, h⟩ := SM.bind_eq_ok.1 h
    obtain ⟨_, s6, h6, h⟩ := SM.bind_eq_ok.1 h
    cases h6

theorem astItem_after (n : Nat) (tok : Sig) (st s : Stream) (i : AstItem) (h : parseAstItem streamOps n tok st = (.ok i, s)) (ho : OpenUse i) :
    ∀ t ∈ s.toks.head?, t.type ≠ .as ∧ t.type ≠ .colon := by
  obtain ⟨p, rfl⟩ := ho
  unfold parseAstItem at h
  split at h
  · obtain ⟨u, s1, h1, h⟩ := SM.bind_eq_ok.1 h
    cases h
    unfold parseTopLevelUse at h1
    obtain ⟨q, s2, h2, h1⟩ := SM.bind_eq_ok.1 h1
    obtain ⟨a, s3, h3, h1⟩ := SM.bind_eq_ok.1 h1
    cases h1
    unfold parseAs at h3
    obtain ⟨b, s4, h4, h3⟩ := SM.bind_eq_ok.1 h3
    cases b with
    | false =>
      cases h3
      obtain ⟨rfl, k⟩ := eat_false _ (by simp) _ _ h4
      exact fun t ht => ⟨k t ht, usePath_after _ _ _ h2 t ht⟩
    | true =>
      rw [if_pos rfl] at h3
      obtain ⟨_, s5, _, h3⟩ := SM.bind_eq_ok.1 h3
      cases h3
  split at h
  · obtain ⟨u, s1, h1, h⟩ := SM.bind_eq_ok.1 h
    cases h
  split at h
  · obtain ⟨u, s1, h1, h⟩ := SM.bind_eq_ok.1 h
    cases h
  · cases h

theorem astLoop_loose (n k : Nat) (tok : Sig) (htok : tok.type ≠ .endOfStream) (st st' : Stream) (is : List AstItem)
    (hst : ∀ t ∈ st.toks, t.type ≠ .endOfStream) (h : astLoop streamOps n k tok st = (.ok is, st')) :
    st' = ⟨[], true⟩ ∧ ∃ ts, st = st'.push ts ∧ loose is (tok :: ts) := by
  induction k generalizing tok st is with
  | zero => cases h
  | succ k ih =>
    unfold astLoop at h
    rw [if_pos htok] at h
    obtain ⟨i, s1, h1, h⟩ := SM.bind_eq_ok.1 h
    obtain ⟨t, s2, h2, h⟩ := SM.bind_eq_ok.1 h
    obtain ⟨js, s3, h3, h⟩ := SM.bind_eq_ok.1 h
    cases h
    obtain ⟨t1, rfl, hi⟩ := astItem_reads (P := Always) n tok st trivial i s1 h1
    have ha := astItem_after n tok _ s1 i h1
    rcases streamNext_cases s1 s2 t h2 with rfl | ⟨rfl, rfl, rfl⟩
    · obtain ⟨e1, t2, rfl, hj⟩ := ih t (hst t (by simp [Stream.push])) s2 js (fun u hu => hst u (by simp [Stream.push, hu])) h3
      refine ⟨e1, t1 ++ ([t] ++ t2), by rw [push_push, push_push, List.append_assoc], ?_⟩
      exact ⟨tok :: t1, [t] ++ t2, by simp, hi, hj, fun ho u hu => ha ho u (by simpa [Stream.push] using hu)⟩
    · cases k with
      | zero => cases h3
      | succ k =>
        unfold astLoop at h3
        rw [if_neg (by simp [eos])] at h3
        cases h3
        exact ⟨rfl, t1, rfl, tok :: t1, [], by simp, hi, rfl, fun _ u hu => by simp at hu⟩

/-- A text the parser accepts has no lexical error, and its tokens are in the grammar. -/
theorem parseAst_loose (n : Nat) (st st' : Stream) (a : Ast) (hst : ∀ t ∈ st.toks, t.type ≠ .endOfStream)
    (h : parseAst streamOps n st = (.ok a, st')) : st.ended = true ∧ looseDocument a st.toks := by
  obtain ⟨tok, s1, h1, h⟩ := SM.bind_eq_ok.1 h
  obtain ⟨p, s2, h2, h⟩ := SM.bind_eq_ok.1 h
  obtain ⟨is, s3, h3, h⟩ := SM.bind_eq_ok.1 h
  cases h
  have empty : ∀ s js s', astLoop streamOps n n eos s = (.ok js, s') → js = [] := by
    intro s js s' h
    cases n with
    | zero => cases h
    | succ n => unfold astLoop at h; rw [if_neg (by simp [eos])] at h; cases h; rfl
  by_cases hp : tok.type = .package
  · unfold parseAstPackage at h2
    rw [if_pos hp] at h2
    obtain ⟨d, s4, h4, h2⟩ := SM.bind_eq_ok.1 h2
    obtain ⟨t, s5, h5, h2⟩ := SM.bind_eq_ok.1 h2
    cases h2
    rcases streamNext_cases st s1 tok h1 with rfl | ⟨rfl, rfl, rfl⟩
    · obtain ⟨t1, rfl, hd⟩ := packageDeclaration_reads (P := Always) tok hp s1 trivial d s4 h4
      rcases streamNext_cases s4 s2 t h5 with rfl | ⟨rfl, rfl, rfl⟩
      · obtain ⟨e1, t2, rfl, hj⟩ := astLoop_loose n n t (hst t (by simp [Stream.push])) s2 _ is (fun u hu => hst u (by simp [Stream.push, hu])) h3
        subst e1
        exact ⟨rfl, tok :: t1, t :: t2, by simp [Stream.push], hd, hj⟩
      · obtain rfl := empty _ _ _ h3
        exact ⟨rfl, tok :: t1, [], by simp [Stream.push], hd, rfl⟩
    · cases hp
  · unfold parseAstPackage at h2
    rw [if_neg hp] at h2
    cases h2
    rcases streamNext_cases st s1 tok h1 with rfl | ⟨rfl, rfl, rfl⟩
    · obtain ⟨e1, t2, rfl, hj⟩ := astLoop_loose n n tok (hst tok (by simp [Stream.push])) s1 _ is (fun u hu => hst u (by simp [Stream.push, hu])) h3
      subst e1
      refine ⟨rfl, ?_, ?_⟩
      · simpa [Stream.push] using hj
      · intro u hu
        simp [Stream.push] at hu
        subst hu
        exact hp
    · obtain rfl := empty _ _ _ h3
      exact ⟨rfl, rfl, fun u hu => by simp at hu⟩

/-! ## What is in the grammar -/

theorem looseItem_takes (n : Nat) (i : AstItem) (ts : List Sig) (b : List Sig) (h : itemOrToken i ts)
    (hb : OpenUse i → ∀ t ∈ b.head?, t.type ≠ .as ∧ t.type ≠ .colon) (hn : ts.length < n) :
    ∃ t r, ts = t :: r ∧ parseAstItem streamOps n t ⟨r ++ b, true⟩ = (.ok i, ⟨b, true⟩) := by
  by_cases he : i = ⟨none, none, none⟩
  · subst he
    obtain ⟨t, ht, rfl⟩ := h
    simp only [List.mem_cons, List.not_mem_nil, or_false, not_or] at ht
    refine ⟨t, [], rfl, ?_⟩
    unfold parseAstItem
    rw [if_neg ht.1, if_neg ht.2.1, if_neg ht.2.2]
    rfl
  have hi : item i ts := by
    rcases i with ⟨_ | i, _ | w, _ | u⟩
    · exact absurd rfl he
    all_goals exact h
  by_cases hu : ∃ p w, i = ⟨none, none, some ⟨p, some w⟩⟩
  · obtain ⟨p, w, rfl⟩ := hu
    obtain ⟨wu, r, rfl, t1, _, rfl, h1, t2, t3, rfl, h2, h3⟩ := T_cons hi
    refine ⟨⟨.use, wu⟩, _, rfl, ?_⟩
    simp only [List.length_cons, List.length_append] at hn
    change (parseTopLevelUse streamOps >>= fun u => pure (⟨none, none, some u⟩ : AstItem)) (Stream.push ⟨b, true⟩ (t1 ++ (t2 ++ t3))) = _
    have : parseTopLevelUse streamOps (Stream.push ⟨b, true⟩ (t1 ++ (t2 ++ t3))) = (.ok ⟨p, some w⟩, ⟨b, true⟩) := by
      unfold parseTopLevelUse
      rw [take_bind (usePath_takes n) h1 _ _ (Follow.T h2 (by simp) _) (by omega)]
      have : parseAs streamOps (Stream.push ⟨b, true⟩ (t2 ++ t3)) = (.ok (some w), ⟨b, true⟩) := by
        unfold parseAs
        rw [take_eat h2, ident_last h3]
        rfl
      rw [SM.bind_ok this]
      rfl
    rw [SM.bind_ok this]
    rfl
  by_cases ho : OpenUse i
  · have hf : Follow [.colon, .as] ⟨b, true⟩ := by
      cases b with
      | nil => exact .inl rfl
      | cons t b =>
        refine .inr ⟨t, b, rfl, ?_⟩
        have := hb ho t (by simp)
        simp [this.1, this.2]
    obtain ⟨k, w, r, rfl, -, hp⟩ := astItem_takes n i ts ⟨b, true⟩ hi hf hn
    exact ⟨_, r, rfl, hp⟩
  · rcases i with ⟨_ | i, _ | wo, _ | ⟨p, _ | w⟩⟩
    · exact absurd rfl he
    · exact absurd ⟨p, rfl⟩ ho
    · exact absurd ⟨p, w, rfl⟩ hu
    · obtain ⟨w, r, rfl, t1, _, rfl, h1, t2, t3, rfl, h2, h3⟩ := T_cons hi
      refine ⟨⟨.world, w⟩, _, rfl, ?_⟩
      simp only [List.length_cons, List.length_append] at hn
      change (parseWorld streamOps n >>= fun u => pure (⟨none, some u, none⟩ : AstItem)) (Stream.push ⟨b, true⟩ (t1 ++ (t2 ++ t3))) = _
      have : parseWorld streamOps n (Stream.push ⟨b, true⟩ (t1 ++ (t2 ++ t3))) = (.ok wo, ⟨b, true⟩) := by
        unfold parseWorld
        rw [take_ident h1, take_expect h2, SM.bind_ok (untilTok_takes .closeBrace (by simp) (worldItem_takes n) worldItem_begins (by simp) (by simp) (by simp)
          n wo.items t3 _ h3 (by omega) (by omega))]
        rfl
      rw [SM.bind_ok this]
      rfl
    · exact hi.elim
    · exact hi.elim
    · obtain ⟨w, r, rfl, t1, t2, rfl, h1, h2⟩ := T_cons hi
      refine ⟨⟨.interface, w⟩, _, rfl, ?_⟩
      simp only [List.length_cons, List.length_append] at hn
      change (parseInterface streamOps n >>= fun u => pure (⟨some u, none, none⟩ : AstItem)) (Stream.push ⟨b, true⟩ (t1 ++ t2)) = _
      have hf : Follow [] ⟨b, true⟩ := by
        cases b with
        | nil => exact .inl rfl
        | cons t b => exact .inr ⟨t, b, rfl, by simp⟩
      have : parseInterface streamOps n (Stream.push ⟨b, true⟩ (t1 ++ t2)) = (.ok i, ⟨b, true⟩) := by
        unfold parseInterface
        rw [take_ident h1, take_last (interfaceItems_takes n []) h2 _ _ hf (by omega)]
        rfl
      rw [SM.bind_ok this]
      rfl
    all_goals exact hi.elim

theorem loose_cons_ne (i : AstItem) (is : List AstItem) : ¬ loose (i :: is) [] := by
  rintro ⟨a, b, e, h, -⟩
  obtain ⟨t, r, rfl, -⟩ := looseItem_takes (a.length + 1) i a [] h (fun _ t ht => by simp at ht) (by omega)
  simp at e

theorem loose_takes (n m : Nat) (is : List AstItem) (t : Sig) (ts : List Sig) (h : loose is (t :: ts)) (he : t.type ≠ .endOfStream)
    (hts : ∀ u ∈ ts, u.type ≠ .endOfStream) (hn : ts.length + 1 < n) (hm : ts.length + 1 < m) :
    astLoop streamOps n m t ⟨ts, true⟩ = (.ok is, ⟨[], true⟩) := by
  induction is generalizing m t ts with
  | nil => cases h
  | cons i is ih =>
    obtain ⟨a, b, e, hi, his, ho⟩ := h
    have hla : ts.length + 1 = a.length + b.length := by rw [← List.length_append, ← e]; rfl
    obtain ⟨t0, r, rfl, hp⟩ := looseItem_takes n i a b hi ho (by omega)
    rw [List.cons_append] at e
    injection e with e1 e2
    subst e1 e2
    cases m with
    | zero => omega
    | succ m =>
      unfold astLoop
      rw [if_pos he, SM.bind_ok hp]
      cases b with
      | nil =>
        rw [next_end]
        cases is with
        | cons j js => exact absurd his (loose_cons_ne j js)
        | nil =>
          cases m with
          | zero => omega
          | succ m => rfl
      | cons t' b =>
        rw [next_bind]
        simp only [List.length_cons, List.length_append] at hla hn hm
        rw [SM.bind_ok (ih m t' b his (hts t' (by simp)) (fun u hu => hts u (by simp [hu])) (by omega) (by omega))]
        rfl

/-- The tokens of a document, with others between its items, are parsed to the document. -/
theorem looseDocument_takes (n : Nat) (a : Ast) (ts : List Sig) (h : looseDocument a ts) (hts : ∀ u ∈ ts, u.type ≠ .endOfStream)
    (hn : ts.length + 1 < n) : parseAst streamOps n ⟨ts, true⟩ = (.ok a, ⟨[], true⟩) := by
  have loop : ∀ (is : List AstItem) (b : List Sig) (p : Option PackageDeclaration), loose is b → (∀ u ∈ b, u.type ≠ .endOfStream) → b.length + 1 < n →
      ((streamOps.next >>= fun t => do
        let is ← astLoop streamOps n n t
        pure (⟨p, is⟩ : Ast)) : SM Stream Ast) ⟨b, true⟩ = (.ok ⟨p, is⟩, ⟨[], true⟩) := by
    intro is b p h hts hb
    cases b with
    | nil =>
      rw [next_end]
      cases n with
      | zero => omega
      | succ n =>
        cases is with
        | nil => rfl
        | cons i is => exact absurd h (loose_cons_ne i is)
    | cons t b =>
      rw [next_bind, SM.bind_ok (loose_takes n n is t b h (hts t (by simp)) (fun u hu => hts u (by simp [hu])) (by simp at hb; omega) (by simp at hb; omega))]
      rfl
  rcases a with ⟨_ | p, is⟩
  · obtain ⟨his, hk⟩ := h
    rw [← loop is ts none his hts hn]
    unfold parseAst
    cases ts with
    | nil => rfl
    | cons t c =>
      rw [next_bind, next_bind]
      unfold parseAstPackage
      rw [if_neg (hk t (by simp))]
      rfl
  · obtain ⟨b, c, rfl, hb, his⟩ := h
    obtain ⟨w, r, rfl, hp⟩ := package_takes p b ⟨c, true⟩ hb
    have hp' : parsePackageDeclaration streamOps ⟨r ++ c, true⟩ = (.ok p, ⟨c, true⟩) := hp
    rw [← loop is c (some p) his (fun u hu => hts u (by simp [hu])) (by simp at hn; omega)]
    unfold parseAst
    rw [List.cons_append, next_bind]
    unfold parseAstPackage
    rw [if_pos rfl]
    cases c with
    | nil =>
      have : ((do
        let p ← parsePackageDeclaration streamOps
        let tok' ← streamOps.next
        pure (some p, tok')) : SM Stream (Option PackageDeclaration × Sig)) ⟨r ++ [], true⟩ = (.ok (some p, eos), ⟨[], true⟩) := by
        rw [SM.bind_ok hp']; rfl
      rw [SM.bind_ok this]
      rfl
    | cons t c =>
      have : ((do
        let p ← parsePackageDeclaration streamOps
        let tok' ← streamOps.next
        pure (some p, tok')) : SM Stream (Option PackageDeclaration × Sig)) ⟨r ++ t :: c, true⟩ = (.ok (some p, t), ⟨c, true⟩) := by
        rw [SM.bind_ok hp']; rfl
      rw [SM.bind_ok this]
      rfl

end Verif.Wit
