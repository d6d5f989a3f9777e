import Verif.Wat.Parse

/-!
# Parsers over different sources

If the calls that read tokens agree between two sources, so does the parser; and a greater bound on loops changes
nothing but the outcome `diverge`.
-/

namespace Verif.Wat

variable {S T α β : Type} {R : S → T → Prop}

/-- On related states, if `f` does not run out of its bound, `g` has the same outcome and, after a success, related
states follow. -/
def Sim (R : S → T → Prop) (f : SM S α) (g : SM T α) : Prop :=
  ∀ s t, R s t → (f s).1 ≠ .diverge → (f s).1 = (g t).1 ∧ ∀ a, (f s).1 = .ok a → R (f s).2 (g t).2

theorem Sim.pure (a : α) : Sim R (pure a : SM S α) (pure a : SM T α) := fun _ _ h _ => ⟨rfl, fun _ _ => h⟩

theorem Sim.fail : Sim R (SM.fail : SM S α) (SM.fail : SM T α) :=
  fun _ _ _ _ => ⟨rfl, fun _ h => by simp at h⟩

theorem Sim.lift (r : Res α) : Sim R (SM.lift r : SM S α) (SM.lift r : SM T α) := fun _ _ h _ => ⟨rfl, fun _ _ => h⟩

theorem Sim.spent (g : SM T α) : Sim R (spent : SM S α) g := fun _ _ _ h => absurd rfl h

theorem Sim.modify (s : S) (t : T) (h : R s t) : Sim R (SM.modify fun _ => s : SM S Unit) (SM.modify fun _ => t : SM T Unit) :=
  fun _ _ _ _ => ⟨rfl, fun _ _ => h⟩

theorem Sim.bind {f : SM S α} {g : SM T α} {f' : α → SM S β} {g' : α → SM T β} (h : Sim R f g)
    (h' : ∀ a, Sim R (f' a) (g' a)) : Sim R (f >>= f') (g >>= g') := by
  intro s t hr hd
  rw [SM.bind_def] at hd ⊢
  rw [SM.bind_def]
  have k := h s t hr
  rcases hf : f s with ⟨r, s'⟩
  rcases hg : g t with ⟨q, t'⟩
  rw [hf] at k hd
  rw [hg] at k
  cases r with
  | ok a =>
    obtain ⟨k1, k2⟩ := k (by simp)
    simp only at k1 k2 hd
    subst k1
    exact h' a s' t' (k2 a rfl) hd
  | err =>
    obtain ⟨k1, -⟩ := k (by simp)
    simp only at k1
    subst k1
    exact ⟨rfl, fun _ h => by simp at h⟩
  | panic =>
    obtain ⟨k1, -⟩ := k (by simp)
    simp only at k1
    subst k1
    exact ⟨rfl, fun _ h => by simp at h⟩
  | diverge => exact absurd rfl hd

theorem Sim.bindGet {f' : S → SM S β} {g' : T → SM T β} (h' : ∀ s t, R s t → Sim R (f' s) (g' t)) :
    Sim R (SM.get >>= f') (SM.get >>= g') := by
  intro s t hr hd
  exact h' s t hr s t hr hd

theorem Sim.ite {c : Prop} [Decidable c] {f f' : SM S α} {g g' : SM T α} (h : Sim R f g) (h' : Sim R f' g') :
    Sim R (if c then f else f') (if c then g else g') := by
  split
  · exact h
  · exact h'

/-- Calls that agree. -/
structure OpsSim (R : S → T → Prop) (o : Ops S) (p : Ops T) : Prop where
  peek : Sim R o.peek p.peek
  next : Sim R o.next p.next

variable {o : Ops S} {p : Ops T}

macro "sim_step" : tactic => `(tactic| first
  | assumption
  | exact Sim.pure _
  | exact Sim.fail
  | exact Sim.lift _
  | exact OpsSim.peek ‹_›
  | exact OpsSim.next ‹_›
  | refine Sim.bind ?_ (fun _ => ?_)
  | refine Sim.ite ?_ ?_)

theorem expect_sim (h : OpsSim R o p) (ty : TokenType) : Sim R (expect o ty) (expect p ty) := by
  unfold expect; repeat sim_step

theorem expectWord_sim (h : OpsSim R o p) (w : List Byte) : Sim R (expectWord o w) (expectWord p w) := by
  unfold expectWord; repeat sim_step

theorem eat_sim (h : OpsSim R o p) (ty : TokenType) : Sim R (eat o ty) (eat p ty) := by
  have := expect_sim h ty
  unfold eat; repeat sim_step

theorem parens_sim (h : OpsSim R o p) {f : SM S α} {g : SM T α} (hb : Sim R f g) (n m : Nat) (hn : n ≤ m) :
    Sim R (parens o f n) (parens p g m) := by
  induction n generalizing m with
  | zero => exact Sim.spent _
  | succ n ih =>
    cases m with
    | zero => omega
    | succ m =>
      have h1 := eat_sim h .openParen
      have h2 := expect_sim h .closeParen
      have h3 := ih m (by omega)
      unfold parens; repeat sim_step

theorem while_sim (h : OpsSim R o p) (c : Sig → Bool) {f : SM S α} {g : SM T α} (hb : Sim R f g) (n m : Nat) (hn : n ≤ m) :
    Sim R (while_ o c f n) (while_ p c g m) := by
  induction n generalizing m with
  | zero => exact Sim.spent _
  | succ n ih =>
    cases m with
    | zero => omega
    | succ m =>
      have h3 := ih m (by omega)
      unfold while_; repeat sim_step

theorem parseId_sim (h : OpsSim R o p) : Sim R (parseId o) (parseId p) := by
  unfold parseId; repeat sim_step

theorem parseOptionalId_sim (h : OpsSim R o p) : Sim R (parseOptionalId o) (parseOptionalId p) := by
  have := parseId_sim h
  unfold parseOptionalId; repeat sim_step

theorem parseString_sim (h : OpsSim R o p) : Sim R (parseString o) (parseString p) := by
  unfold parseString; repeat sim_step

theorem parseInt32_sim (h : OpsSim R o p) : Sim R (parseInt32 o) (parseInt32 p) := by
  unfold parseInt32; repeat sim_step

theorem parseInt64_sim (h : OpsSim R o p) : Sim R (parseInt64 o) (parseInt64 p) := by
  unfold parseInt64; repeat sim_step

theorem constFloat32_sim (h : OpsSim R o p) (lib : Lib) : Sim R (constFloat32 o lib) (constFloat32 p lib) := by
  have := parseInt32_sim h
  unfold constFloat32 peekFloat parseFloat32; repeat sim_step

theorem constFloat64_sim (h : OpsSim R o p) (lib : Lib) : Sim R (constFloat64 o lib) (constFloat64 p lib) := by
  have := parseInt64_sim h
  unfold constFloat64 peekFloat parseFloat64; repeat sim_step

theorem parseIndex_sim (h : OpsSim R o p) : Sim R (parseIndex o) (parseIndex p) := by
  unfold parseIndex; repeat sim_step

theorem parseValType_sim (h : OpsSim R o p) : Sim R (parseValType o) (parseValType p) := by
  unfold parseValType
  refine Sim.bind h.next (fun tok => ?_)
  cases valTypes.lookup tok.capture <;> sim_step

theorem parseLocal_sim (h : OpsSim R o p) : Sim R (parseLocal o) (parseLocal p) := by
  have h1 := parseValType_sim h
  have h2 := expectWord_sim h
  unfold parseLocal; exact Sim.bind (h2 _) fun _ => h1

theorem parseParameter_sim (h : OpsSim R o p) (n m : Nat) (hn : n ≤ m) : Sim R (parseParameter o n) (parseParameter p m) := by
  have h1 := parseValType_sim h
  have h2 := expectWord_sim h (txt "param")
  have h3 := parseOptionalId_sim h
  have h4 := while_sim h (fun tok => tok.type == .reserved) h1 n m hn
  unfold parseParameter parameterTypes; repeat sim_step

theorem parseResult_sim (h : OpsSim R o p) : Sim R (parseResult o) (parseResult p) := by
  have h1 := parseValType_sim h
  have h2 := expectWord_sim h (txt "result")
  unfold parseResult; repeat sim_step

theorem parseFuncType_sim (h : OpsSim R o p) (n m : Nat) (hn : n ≤ m) : Sim R (parseFuncType o n) (parseFuncType p m) := by
  have h1 := parseResult_sim h
  have h2 := expectWord_sim h (txt "func")
  have h3 := parseParameter_sim h n m hn
  have h4 : Sim R (parseFuncTypeItem o n) (parseFuncTypeItem p m) := by
    unfold parseFuncTypeItem; repeat sim_step
  have h5 := parens_sim h h4 n m hn
  unfold parseFuncType; repeat sim_step

theorem parseType_sim (h : OpsSim R o p) (n m : Nat) (hn : n ≤ m) : Sim R (parseType o n) (parseType p m) := by
  have h1 := parseFuncType_sim h n m hn
  have h2 := expectWord_sim h (txt "type")
  have h3 := parseOptionalId_sim h
  have h4 := eat_sim h .openParen
  have h5 := expect_sim h .closeParen
  unfold parseType typeBody; repeat sim_step

theorem parseLimits_sim (h : OpsSim R o p) : Sim R (parseLimits o) (parseLimits p) := by
  have h1 := parseInt32_sim h
  unfold parseLimits limitsMax; repeat sim_step

theorem parseTable_sim (h : OpsSim R o p) (n m : Nat) (hn : n ≤ m) : Sim R (parseTable o n) (parseTable p m) := by
  have h1 := parseLimits_sim h
  have h2 := expectWord_sim h (txt "table")
  have h3 := parseOptionalId_sim h
  have h4 := parseId_sim h
  have h5 : Sim R (parseElement o) (parseElement p) := by unfold parseElement; repeat sim_step
  have h6 := parens_sim h h5 n m hn
  unfold parseTable parseTableType tableLimits; repeat sim_step

theorem parseMemory_sim (h : OpsSim R o p) : Sim R (parseMemory o) (parseMemory p) := by
  have h1 := parseLimits_sim h
  have h2 := expectWord_sim h (txt "memory")
  have h3 := parseOptionalId_sim h
  unfold parseMemory; repeat sim_step

theorem parseExport_sim (h : OpsSim R o p) : Sim R (parseExport o) (parseExport p) := by
  have h1 := parseString_sim h
  have h2 := expectWord_sim h (txt "export")
  unfold parseExport; repeat sim_step

theorem parseImport_sim (h : OpsSim R o p) : Sim R (parseImport o) (parseImport p) := by
  have h1 := parseString_sim h
  have h2 := expectWord_sim h (txt "import")
  unfold parseImport; repeat sim_step

theorem parseTypeUse_sim (h : OpsSim R o p) : Sim R (parseTypeUse o) (parseTypeUse p) := by
  have h1 := parseId_sim h
  have h2 := expectWord_sim h (txt "type")
  have h3 := expect_sim h .openParen
  have h4 := expect_sim h .closeParen
  unfold parseTypeUse; repeat sim_step

theorem parseBlockType_sim (h : OpsSim R o p) (n m : Nat) (hn : n ≤ m) : Sim R (parseBlockType o n) (parseBlockType p m) := by
  induction n generalizing m with
  | zero => exact Sim.spent _
  | succ n ih =>
    cases m with
    | zero => omega
    | succ m =>
      have h1 := eat_sim h .openParen
      have h2 := expect_sim h .closeParen
      have h3 := ih m (by omega)
      have h4 := expectWord_sim h (txt "result")
      have h5 := while_sim h (fun tok => tok.type != .closeParen) (parseValType_sim h) n m (by omega)
      unfold parseBlockType
      refine Sim.bindGet fun s t hst => ?_
      have h6 := Sim.modify (R := R) s t hst
      repeat sim_step

theorem parseHead_sim (h : OpsSim R o p) (lib : Lib) {f : SM S Inst} {g : SM T Inst} (hb : Sim R f g) (n m : Nat) (hn : n ≤ m)
    (w : List Byte) : Sim R (parseHead o lib f n w) (parseHead p lib g m w) := by
  have h1 := parseIndex_sim h
  have h2 := parseInt32_sim h
  have h3 := parseInt64_sim h
  have h4 := constFloat32_sim h lib
  have h5 := constFloat64_sim h lib
  have h6 := parseTypeUse_sim h
  have h7 := parens_sim h hb n m hn
  have h8 := parseOptionalId_sim h
  have h9 := parseBlockType_sim h n m hn
  have h10 := parseResult_sim h
  have h11 := expectWord_sim h (txt "then")
  have h12 := expectWord_sim h (txt "else")
  have h13 : Sim R (parseIfItem o f n) (parseIfItem p g m) := by unfold parseIfItem; repeat sim_step
  have h14 := parens_sim h h13 n m hn
  unfold parseHead
  cases plainWords.lookup w with
  | some _ => sim_step
  | none =>
    cases indexedWords.lookup w with
    | some _ => simp only; repeat sim_step
    | none => simp only [parseBlock, parseIf]; repeat sim_step

theorem parseInstruction_sim (h : OpsSim R o p) (lib : Lib) (n m : Nat) (hn : n ≤ m) :
    Sim R (parseInstruction o lib n) (parseInstruction p lib m) := by
  induction n generalizing m with
  | zero => exact Sim.spent _
  | succ n ih =>
    cases m with
    | zero => omega
    | succ m =>
      have h1 := ih m (by omega)
      have h2 := parseHead_sim h lib h1 n m (by omega)
      have h3 := parens_sim h h1 n m (by omega)
      unfold parseInstruction
      refine Sim.bind h.next fun tok => Sim.ite Sim.fail (Sim.bind (h2 _) fun i => ?_)
      unfold parseFolded; repeat sim_step

theorem parseGlobal_sim (h : OpsSim R o p) (lib : Lib) (n m : Nat) (hn : n ≤ m) :
    Sim R (parseGlobal o lib n) (parseGlobal p lib m) := by
  have h1 := parens_sim h (parseInstruction_sim h lib n m hn) n m hn
  have h2 := expectWord_sim h (txt "global")
  have h3 := parseOptionalId_sim h
  have h4 := eat_sim h .openParen
  have h5 := expect_sim h .closeParen
  have h6 := expectWord_sim h (txt "mut")
  have h7 := parseValType_sim h
  unfold parseGlobal parseGlobalType; repeat sim_step

theorem parseFunc_sim (h : OpsSim R o p) (lib : Lib) (n m : Nat) (hn : n ≤ m) :
    Sim R (parseFunc o lib n) (parseFunc p lib m) := by
  have h1 := parseInstruction_sim h lib n m hn
  have h2 := parseLocal_sim h
  have h3 := parseParameter_sim h n m hn
  have h4 := parseResult_sim h
  have h5 := parseExport_sim h
  have h6 := parseImport_sim h
  have h7 : Sim R (parseFuncItem o lib n) (parseFuncItem p lib m) := by unfold parseFuncItem; repeat sim_step
  have h8 := parens_sim h h7 n m hn
  have h9 := while_sim h (fun tok => tok.type != .closeParen) h1 n m hn
  have h10 := parseOptionalId_sim h
  have h11 := expectWord_sim h (txt "func")
  unfold parseFunc; repeat sim_step

theorem parseModule_sim (h : OpsSim R o p) (lib : Lib) (n m : Nat) (hn : n ≤ m) :
    Sim R (parseModule o lib n) (parseModule p lib m) := by
  have h1 := parseFunc_sim h lib n m hn
  have h2 := parseType_sim h n m hn
  have h3 := parseTable_sim h n m hn
  have h4 := parseGlobal_sim h lib n m hn
  have h5 := parseMemory_sim h
  have h6 : Sim R (parseSection o lib n) (parseSection p lib m) := by unfold parseSection; repeat sim_step
  have h7 := parens_sim h h6 n m hn
  have h8 := expect_sim h .module
  unfold parseModule; repeat sim_step

theorem parse_sim (h : OpsSim R o p) (lib : Lib) (n m : Nat) (hn : n ≤ m) : Sim R (parse o lib n) (parse p lib m) := by
  have h1 := parseModule_sim h lib n m hn
  have h2 := expect_sim h .openParen
  have h3 := expect_sim h .closeParen
  have h4 := expect_sim h .component
  unfold parse parseRoot parseComponent; repeat sim_step

end Verif.Wat
