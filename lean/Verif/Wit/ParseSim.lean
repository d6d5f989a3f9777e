import Verif.Wit.Parse

/-!
# Parsers over different sources

If the calls that read tokens agree between two sources, so does the parser; and a greater bound on loops changes
nothing but the outcome `diverge`.
-/

namespace Verif.Wit

variable {S T α β : Type} {R : S → T → Prop}

/-- On related states, if `f` does not run out of its bound, `g` has the same outcome and, after a success, related
states follow. -/
def Sim (R : S → T → Prop) (f : SM S α) (g : SM T α) : Prop :=
  ∀ s t, R s t → (f s).1 ≠ .diverge → (f s).1 = (g t).1 ∧ ∀ a, (f s).1 = .ok a → R (f s).2 (g t).2

theorem Sim.pure (a : α) : Sim R (pure a : SM S α) (pure a : SM T α) := fun _ _ h _ => ⟨rfl, fun _ _ => h⟩

theorem Sim.fail : Sim R (SM.fail : SM S α) (SM.fail : SM T α) :=
  fun _ _ _ _ => ⟨rfl, fun _ h => by simp at h⟩

theorem Sim.lift (r : Res α) : Sim R (SM.lift r : SM S α) (SM.lift r : SM T α) := fun _ _ h _ => ⟨rfl, fun _ _ => h⟩

theorem Sim.spent (g : SM T α) : Sim R (spent : SM S α) g := fun _ _ _ h => absurd rfl h

theorem Sim.modify (s : S) (t : T) (h : R s t) : Sim R (SM.modify fun _ => s : SM S Unit) (SM.modify fun _ => t : SM T Unit) :=
  fun _ _ _ _ => ⟨rfl, fun _ _ => h⟩

theorem Sim.bind {f : SM S α} {g : SM T α} {f' : α → SM S β} {g' : α → SM T β} (h : Sim R f g)
    (h' : ∀ a, Sim R (f' a) (g' a)) : Sim R (f >>= f') (g >>= g') := by
  intro s t hr hd
  rw [SM.bind_def] at hd ⊢
  rw [SM.bind_def]
  have k := h s t hr
  rcases hf : f s with ⟨r, s'⟩
  rcases hg : g t with ⟨q, t'⟩
  rw [hf] at k hd
  rw [hg] at k
  cases r with
  | ok a =>
    obtain ⟨k1, k2⟩ := k (by simp)
    simp only at k1 k2 hd
    subst k1
    exact h' a s' t' (k2 a rfl) hd
  | err =>
    obtain ⟨k1, -⟩ := k (by simp)
    simp only at k1
    subst k1
    exact ⟨rfl, fun _ h => by simp at h⟩
  | panic =>
    obtain ⟨k1, -⟩ := k (by simp)
    simp only at k1
    subst k1
    exact ⟨rfl, fun _ h => by simp at h⟩
  | diverge => exact absurd rfl hd

theorem Sim.bindGet {f' : S → SM S β} {g' : T → SM T β} (h' : ∀ s t, R s t → Sim R (f' s) (g' t)) :
    Sim R (SM.get >>= f') (SM.get >>= g') := by
  intro s t hr hd
  exact h' s t hr s t hr hd

theorem Sim.ite {c : Prop} [Decidable c] {f f' : SM S α} {g g' : SM T α} (h : Sim R f g) (h' : Sim R f' g') :
    Sim R (if c then f else f') (if c then g else g') := by
  split
  · exact h
  · exact h'

/-- Calls that agree. -/
structure OpsSim (R : S → T → Prop) (o : Ops S) (p : Ops T) : Prop where
  peek : Sim R o.peek p.peek
  next : Sim R o.next p.next

variable {o : Ops S} {p : Ops T}

macro "sim_step" : tactic => `(tactic| first
  | assumption
  | exact Sim.pure _
  | exact Sim.fail
  | exact Sim.lift _
  | exact OpsSim.peek ‹_›
  | exact OpsSim.next ‹_›
  | refine Sim.bind ?_ (fun _ => ?_)
  | refine Sim.ite ?_ ?_)

theorem expect_sim (h : OpsSim R o p) (ty : TokenType) : Sim R (expect o ty) (expect p ty) := by
  unfold expect; repeat sim_step

theorem eatTok_sim (h : OpsSim R o p) (ty : TokenType) : Sim R (eatTok o ty) (eatTok p ty) := by
  have := expect_sim h ty
  unfold eatTok; repeat sim_step

theorem parseId_sim (h : OpsSim R o p) : Sim R (parseId o) (parseId p) := by
  unfold parseId; repeat sim_step

theorem parseInteger_sim (h : OpsSim R o p) : Sim R (parseInteger o) (parseInteger p) := by
  unfold parseInteger; repeat sim_step

/-- Steps with the calls of every parser that reads tokens. -/
macro "sim_all" h:ident : tactic => `(tactic| repeat first
  | sim_step
  | exact expect_sim $h _
  | exact eatTok_sim $h _
  | exact parseId_sim $h
  | exact parseInteger_sim $h)

theorem untilTok_sim (h : OpsSim R o p) (c : TokenType) {f : SM S α} {g : SM T α} (hb : Sim R f g) (n m : Nat) (hn : n ≤ m) :
    Sim R (untilTok o c f n) (untilTok p c g m) := by
  induction n generalizing m with
  | zero => exact Sim.spent _
  | succ n ih =>
    cases m with
    | zero => omega
    | succ m =>
      have h3 := ih m (by omega)
      unfold untilTok; sim_all h

theorem itemLoop_sim (h : OpsSim R o p) (c : TokenType) {f : SM S α} {g : SM T α} (hb : Sim R f g) (n m : Nat) (hn : n ≤ m) :
    Sim R (itemLoop o c f n) (itemLoop p c g m) := by
  induction n generalizing m with
  | zero => exact Sim.spent _
  | succ n ih =>
    cases m with
    | zero => omega
    | succ m =>
      have h3 := ih m (by omega)
      unfold itemLoop; sim_all h

theorem parseItemList_sim (h : OpsSim R o p) (b c : TokenType) {f : SM S α} {g : SM T α} (hb : Sim R f g) (n m : Nat)
    (hn : n ≤ m) : Sim R (parseItemList o b c f n) (parseItemList p b c g m) :=
  Sim.bind (expect_sim h _) fun _ => itemLoop_sim h c hb n m hn

theorem parsePair_sim (h : OpsSim R o p) {f : SM S Ty} {g : SM T Ty} (hb : Sim R f g) : Sim R (parsePair o f) (parsePair p g) := by
  have h1 : Sim R (parseSecond o f) (parseSecond p g) := by unfold parseSecond; sim_all h
  have h2 : Sim R (parsePairInner o f) (parsePairInner p g) := by unfold parsePairInner; sim_all h
  unfold parsePair; sim_all h

theorem parseTypeOf_sim (h : OpsSim R o p) {f : SM S Ty} {g : SM T Ty} (hb : Sim R f g) (n m : Nat) (hn : n ≤ m) (t : Sig) :
    Sim R (parseTypeOf o f n t) (parseTypeOf p g m t) := by
  have h1 := parsePair_sim h hb
  have h2 : Sim R (parseFuture o f) (parseFuture p g) := by unfold parseFuture; sim_all h
  have h3 : Sim R (parseBracketed o f) (parseBracketed p g) := by unfold parseBracketed; sim_all h
  have h4 : Sim R (parseHandle o) (parseHandle p) := by unfold parseHandle; sim_all h
  have h5 := parseItemList_sim h .less .greater hb n m hn
  unfold parseTypeOf; sim_all h

theorem parseType_sim (h : OpsSim R o p) (n m : Nat) (hn : n ≤ m) : Sim R (parseType o n) (parseType p m) := by
  induction n generalizing m with
  | zero => exact Sim.spent _
  | succ n ih =>
    cases m with
    | zero => omega
    | succ m =>
      unfold parseType
      exact Sim.bind h.next fun t => parseTypeOf_sim h (ih m (by omega)) n m (by omega) t

theorem parseParameter_sim (h : OpsSim R o p) (n m : Nat) (hn : n ≤ m) : Sim R (parseParameter o n) (parseParameter p m) := by
  have h1 := parseType_sim h n m hn
  unfold parseParameter; sim_all h

theorem parameterLoop_sim (h : OpsSim R o p) (n m : Nat) (hn : n ≤ m) (k l : Nat) (hk : k ≤ l) :
    Sim R (parameterLoop o n k) (parameterLoop p m l) := by
  have h1 := parseParameter_sim h n m hn
  induction k generalizing l with
  | zero => exact Sim.spent _
  | succ k ih =>
    cases l with
    | zero => omega
    | succ l =>
      have h3 := ih l (by omega)
      unfold parameterLoop; sim_all h

theorem parseParameters_sim (h : OpsSim R o p) (n m : Nat) (hn : n ≤ m) : Sim R (parseParameters o n) (parseParameters p m) := by
  have h1 := parameterLoop_sim h n m hn n m hn
  unfold parseParameters; sim_all h

theorem parseFunc_sim (h : OpsSim R o p) (n m : Nat) (hn : n ≤ m) : Sim R (parseFunc o n) (parseFunc p m) := by
  have h1 := parseParameters_sim h n m hn
  have h2 := parseType_sim h n m hn
  have h3 : Sim R (parseResults o n) (parseResults p m) := by unfold parseResults; sim_all h
  unfold parseFunc; sim_all h

theorem parseFuncItem_sim (h : OpsSim R o p) (n m : Nat) (hn : n ≤ m) : Sim R (parseFuncItem o n) (parseFuncItem p m) := by
  have h1 := parseFunc_sim h n m hn
  unfold parseFuncItem; sim_all h

theorem parseTypeItem_sim (h : OpsSim R o p) (n m : Nat) (hn : n ≤ m) : Sim R (parseTypeItem o n) (parseTypeItem p m) := by
  have h1 := parseType_sim h n m hn
  unfold parseTypeItem; sim_all h

theorem parseRecord_sim (h : OpsSim R o p) (n m : Nat) (hn : n ≤ m) : Sim R (parseRecord o n) (parseRecord p m) := by
  have h1 := parseType_sim h n m hn
  have h2 : Sim R (parseRecordField o n) (parseRecordField p m) := by unfold parseRecordField; sim_all h
  have h3 := parseItemList_sim h .openBrace .closeBrace h2 n m hn
  unfold parseRecord; sim_all h

theorem parseFlags_sim (h : OpsSim R o p) (n m : Nat) (hn : n ≤ m) : Sim R (parseFlags o n) (parseFlags p m) := by
  have h3 := parseItemList_sim h .openBrace .closeBrace (parseId_sim h) n m hn
  unfold parseFlags; sim_all h

theorem parseEnum_sim (h : OpsSim R o p) (n m : Nat) (hn : n ≤ m) : Sim R (parseEnum o n) (parseEnum p m) := by
  have h3 := parseItemList_sim h .openBrace .closeBrace (parseId_sim h) n m hn
  unfold parseEnum; sim_all h

theorem parseVariant_sim (h : OpsSim R o p) (n m : Nat) (hn : n ≤ m) : Sim R (parseVariant o n) (parseVariant p m) := by
  have h1 := parseType_sim h n m hn
  have h2 : Sim R (parseCaseType o n) (parseCaseType p m) := by unfold parseCaseType; sim_all h
  have h3 : Sim R (parseVariantCase o n) (parseVariantCase p m) := by unfold parseVariantCase; sim_all h
  have h4 := parseItemList_sim h .openBrace .closeBrace h3 n m hn
  unfold parseVariant; sim_all h

theorem parseResourceMethod_sim (h : OpsSim R o p) (n m : Nat) (hn : n ≤ m) :
    Sim R (parseResourceMethod o n) (parseResourceMethod p m) := by
  have h1 := parseParameters_sim h n m hn
  have h2 := parseFunc_sim h n m hn
  have h3 := parseFuncItem_sim h n m hn
  have h4 : Sim R (parseConstructor o n) (parseConstructor p m) := by unfold parseConstructor; sim_all h
  have h5 : Sim R (parseStaticOrMethod o n) (parseStaticOrMethod p m) := by
    unfold parseStaticOrMethod
    refine Sim.bindGet fun s t hst => ?_
    have h6 := Sim.modify (R := R) s t hst
    sim_all h
  unfold parseResourceMethod; sim_all h

theorem methodLoop_sim (h : OpsSim R o p) (n m : Nat) (hn : n ≤ m) (k l : Nat) (hk : k ≤ l) :
    Sim R (methodLoop o n k) (methodLoop p m l) := by
  have h1 := parseResourceMethod_sim h n m hn
  induction k generalizing l with
  | zero => exact Sim.spent _
  | succ k ih =>
    cases l with
    | zero => omega
    | succ l =>
      have h3 := ih l (by omega)
      unfold methodLoop; sim_all h

theorem parseResource_sim (h : OpsSim R o p) (n m : Nat) (hn : n ≤ m) : Sim R (parseResource o n) (parseResource p m) := by
  have h1 := methodLoop_sim h n m hn n m hn
  have h2 : Sim R (parseMethods o n) (parseMethods p m) := by unfold parseMethods; sim_all h
  unfold parseResource; sim_all h

theorem parseTypeDef_sim (h : OpsSim R o p) (n m : Nat) (hn : n ≤ m) : Sim R (parseTypeDef o n) (parseTypeDef p m) := by
  have h1 := parseResource_sim h n m hn
  have h2 := parseVariant_sim h n m hn
  have h3 := parseRecord_sim h n m hn
  have h4 := parseFlags_sim h n m hn
  have h5 := parseEnum_sim h n m hn
  have h6 := parseTypeItem_sim h n m hn
  unfold parseTypeDef; sim_all h

theorem parseUsePath_sim (h : OpsSim R o p) : Sim R (parseUsePath o) (parseUsePath p) := by
  unfold parseUsePath parsePath parseOptionalVersion; sim_all h

theorem parseAs_sim (h : OpsSim R o p) : Sim R (parseAs o) (parseAs p) := by
  unfold parseAs; sim_all h

theorem parseUse_sim (h : OpsSim R o p) (n m : Nat) (hn : n ≤ m) : Sim R (parseUse o n) (parseUse p m) := by
  have h1 := parseUsePath_sim h
  have h2 := parseAs_sim h
  have h3 : Sim R (parseUseName o) (parseUseName p) := by unfold parseUseName; sim_all h
  have h4 := parseItemList_sim h .openBrace .closeBrace h3 n m hn
  unfold parseUse; sim_all h

theorem parseInclude_sim (h : OpsSim R o p) (n m : Nat) (hn : n ≤ m) : Sim R (parseInclude o n) (parseInclude p m) := by
  have h1 := parseUsePath_sim h
  have h2 : Sim R (parseIncludeName o) (parseIncludeName p) := by unfold parseIncludeName; sim_all h
  have h3 := untilTok_sim h .closeBrace h2 n m hn
  have h4 : Sim R (parseIncludeNames o n) (parseIncludeNames p m) := by unfold parseIncludeNames; sim_all h
  unfold parseInclude; sim_all h

theorem parseInterfaceItems_sim (h : OpsSim R o p) (n m : Nat) (hn : n ≤ m) :
    Sim R (parseInterfaceItems o n) (parseInterfaceItems p m) := by
  have h1 := parseResource_sim h n m hn
  have h2 := parseVariant_sim h n m hn
  have h3 := parseRecord_sim h n m hn
  have h4 := parseFlags_sim h n m hn
  have h5 := parseEnum_sim h n m hn
  have h6 := parseTypeDef_sim h n m hn
  have h7 := parseUse_sim h n m hn
  have h8 := parseFuncItem_sim h n m hn
  have h9 : Sim R (parseInterfaceItem o n) (parseInterfaceItem p m) := by unfold parseInterfaceItem; sim_all h
  exact Sim.bind (expect_sim h _) fun _ => untilTok_sim h _ h9 n m hn

theorem parseExternType_sim (h : OpsSim R o p) (n m : Nat) (hn : n ≤ m) : Sim R (parseExternType o n) (parseExternType p m) := by
  have h1 := parseInterfaceItems_sim h n m hn
  have h2 := parseFunc_sim h n m hn
  have h3 := parseUsePath_sim h
  unfold parseExternType
  refine Sim.bindGet fun s t hst => ?_
  have h6 := Sim.modify (R := R) s t hst
  sim_all h

theorem parseWorld_sim (h : OpsSim R o p) (n m : Nat) (hn : n ≤ m) : Sim R (parseWorld o n) (parseWorld p m) := by
  have h0 := parseExternType_sim h n m hn
  have h1 := parseResource_sim h n m hn
  have h2 := parseVariant_sim h n m hn
  have h3 := parseRecord_sim h n m hn
  have h4 := parseInclude_sim h n m hn
  have h6 := parseTypeDef_sim h n m hn
  have h7 := parseUse_sim h n m hn
  have h9 : Sim R (parseWorldItem o n) (parseWorldItem p m) := by unfold parseWorldItem parseExport parseImport; sim_all h
  have h10 := untilTok_sim h .closeBrace h9 n m hn
  unfold parseWorld; sim_all h

theorem parsePackageDeclaration_sim (h : OpsSim R o p) : Sim R (parsePackageDeclaration o) (parsePackageDeclaration p) := by
  unfold parsePackageDeclaration parsePackageVersion parseVersion; sim_all h

theorem parseAstItem_sim (h : OpsSim R o p) (n m : Nat) (hn : n ≤ m) (t : Sig) :
    Sim R (parseAstItem o n t) (parseAstItem p m t) := by
  have h1 := parseWorld_sim h n m hn
  have h2 := parseInterfaceItems_sim h n m hn
  have h3 := parseUsePath_sim h
  have h4 := parseAs_sim h
  unfold parseAstItem parseInterface parseTopLevelUse; sim_all h

theorem astLoop_sim (h : OpsSim R o p) (n m : Nat) (hn : n ≤ m) (k l : Nat) (hk : k ≤ l) (t : Sig) :
    Sim R (astLoop o n k t) (astLoop p m l t) := by
  induction k generalizing l t with
  | zero => exact Sim.spent _
  | succ k ih =>
    cases l with
    | zero => omega
    | succ l =>
      unfold astLoop
      exact Sim.ite (Sim.bind (parseAstItem_sim h n m hn t) fun _ => Sim.bind h.next fun t' =>
        Sim.bind (ih l (by omega) t') fun _ => Sim.pure _) (Sim.pure _)

theorem parseAst_sim (h : OpsSim R o p) (n m : Nat) (hn : n ≤ m) : Sim R (parseAst o n) (parseAst p m) := by
  have h1 := parsePackageDeclaration_sim h
  unfold parseAst parseAstPackage
  refine Sim.bind h.next fun t => Sim.bind ?_ fun q => Sim.bind (astLoop_sim h n m hn n m hn _) fun _ => Sim.pure _
  sim_all h

end Verif.Wit
