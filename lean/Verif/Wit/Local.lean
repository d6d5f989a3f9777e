import Verif.Wit.ParseSim

/-!
# How far the WIT parser looks

Two sources that agree up to some token: either the parser does the same with both, or it has looked past that token.
-/

namespace Verif.Wit

variable {S T α β : Type} {Past : S → Prop} {R : S → T → Prop}

/-- On related states `f` runs out of its bound, or does what `g` does and leaves related states, or has looked too far;
and what has looked too far stays so. -/
def Dich (Past : S → Prop) (R : S → T → Prop) (f : SM S α) (g : SM T α) : Prop :=
  (∀ s t, R s t → (f s).1 ≠ .diverge → ((f s).1 = (g t).1 ∧ R (f s).2 (g t).2) ∨ Past (f s).2) ∧
  ∀ s, Past s → Past (f s).2

theorem Dich.pure (a : α) : Dich Past R (pure a : SM S α) (pure a : SM T α) :=
  ⟨fun _ _ h _ => .inl ⟨rfl, h⟩, fun _ h => h⟩

theorem Dich.fail : Dich Past R (SM.fail : SM S α) (SM.fail : SM T α) := ⟨fun _ _ h _ => .inl ⟨rfl, h⟩, fun _ h => h⟩

theorem Dich.lift (r : Res α) : Dich Past R (SM.lift r : SM S α) (SM.lift r : SM T α) :=
  ⟨fun _ _ h _ => .inl ⟨rfl, h⟩, fun _ h => h⟩

theorem Dich.spent (g : SM T α) : Dich Past R (spent : SM S α) g := ⟨fun _ _ _ h => absurd rfl h, fun _ h => h⟩

theorem Dich.bind {f : SM S α} {g : SM T α} {f' : α → SM S β} {g' : α → SM T β} (h : Dich Past R f g)
    (h' : ∀ a, Dich Past R (f' a) (g' a)) : Dich Past R (f >>= f') (g >>= g') := by
  refine ⟨fun s t hr hd => ?_, fun s hs => ?_⟩
  · rw [SM.bind_def] at hd ⊢
    rw [SM.bind_def]
    have k := h.1 s t hr
    rcases hf : f s with ⟨r, s'⟩
    rcases hg : g t with ⟨q, t'⟩
    rw [hf] at k hd
    rw [hg] at k
    cases r with
    | ok a =>
      rcases k (by simp) with ⟨k1, k2⟩ | k
      · simp only at k1 k2 hd
        subst k1
        exact (h' a).1 s' t' k2 hd
      · exact .inr ((h' a).2 s' k)
    | err =>
      rcases k (by simp) with ⟨k1, k2⟩ | k
      · simp only at k1
        subst k1
        exact .inl ⟨rfl, k2⟩
      · exact .inr k
    | panic =>
      rcases k (by simp) with ⟨k1, k2⟩ | k
      · simp only at k1
        subst k1
        exact .inl ⟨rfl, k2⟩
      · exact .inr k
    | diverge => exact absurd rfl hd
  · have k := h.2 s hs
    rw [SM.bind_def]
    rcases hf : f s with ⟨r, s'⟩
    rw [hf] at k
    cases r with
    | ok a => exact (h' a).2 s' k
    | _ => exact k

theorem Dich.ite {c : Prop} [Decidable c] {f f' : SM S α} {g g' : SM T α} (h : Dich Past R f g) (h' : Dich Past R f' g') :
    Dich Past R (if c then f else f') (if c then g else g') := by
  split
  · exact h
  · exact h'

/-- Calls that agree until they look too far. What is too far for `peek` is too far for `next`. -/
structure OpsDich (Past : S → Prop) (R : S → T → Prop) (o : Ops S) (p : Ops T) : Prop where
  peek : Dich Past R o.peek p.peek
  next : Dich Past R o.next p.next
  same : ∀ s, Past (o.peek s).2 → Past (o.next s).2

variable {o : Ops S} {p : Ops T}

macro "dich_step" : tactic => `(tactic| first
  | assumption
  | exact Dich.pure _
  | exact Dich.fail
  | exact Dich.lift _
  | exact OpsDich.peek ‹_›
  | exact OpsDich.next ‹_›
  | refine Dich.bind ?_ (fun _ => ?_)
  | refine Dich.ite ?_ ?_)

theorem expect_dich (h : OpsDich Past R o p) (ty : TokenType) : Dich Past R (expect o ty) (expect p ty) := by
  unfold expect; repeat dich_step

theorem eatTok_dich (h : OpsDich Past R o p) (ty : TokenType) : Dich Past R (eatTok o ty) (eatTok p ty) := by
  have := expect_dich h ty
  unfold eatTok; repeat dich_step

theorem parseId_dich (h : OpsDich Past R o p) : Dich Past R (parseId o) (parseId p) := by
  unfold parseId; repeat dich_step

theorem parseInteger_dich (h : OpsDich Past R o p) : Dich Past R (parseInteger o) (parseInteger p) := by
  unfold parseInteger; repeat dich_step

/-- Steps with the calls of every parser that reads tokens. -/
macro "dich_all" h:ident : tactic => `(tactic| repeat first
  | dich_step
  | exact expect_dich $h _
  | exact eatTok_dich $h _
  | exact parseId_dich $h
  | exact parseInteger_dich $h)

theorem untilTok_dich (h : OpsDich Past R o p) (c : TokenType) {f : SM S α} {g : SM T α} (hb : Dich Past R f g) (n m : Nat) (hn : n ≤ m) :
    Dich Past R (untilTok o c f n) (untilTok p c g m) := by
  induction n generalizing m with
  | zero => exact Dich.spent _
  | succ n ih =>
    cases m with
    | zero => omega
    | succ m =>
      have h3 := ih m (by omega)
      unfold untilTok; dich_all h

theorem itemLoop_dich (h : OpsDich Past R o p) (c : TokenType) {f : SM S α} {g : SM T α} (hb : Dich Past R f g) (n m : Nat) (hn : n ≤ m) :
    Dich Past R (itemLoop o c f n) (itemLoop p c g m) := by
  induction n generalizing m with
  | zero => exact Dich.spent _
  | succ n ih =>
    cases m with
    | zero => omega
    | succ m =>
      have h3 := ih m (by omega)
      unfold itemLoop; dich_all h

theorem parseItemList_dich (h : OpsDich Past R o p) (b c : TokenType) {f : SM S α} {g : SM T α} (hb : Dich Past R f g) (n m : Nat)
    (hn : n ≤ m) : Dich Past R (parseItemList o b c f n) (parseItemList p b c g m) :=
  Dich.bind (expect_dich h _) fun _ => itemLoop_dich h c hb n m hn

theorem parsePair_dich (h : OpsDich Past R o p) {f : SM S Ty} {g : SM T Ty} (hb : Dich Past R f g) : Dich Past R (parsePair o f) (parsePair p g) := by
  have h1 : Dich Past R (parseSecond o f) (parseSecond p g) := by unfold parseSecond; dich_all h
  have h2 : Dich Past R (parsePairInner o f) (parsePairInner p g) := by unfold parsePairInner; dich_all h
  unfold parsePair; dich_all h

theorem parseTypeOf_dich (h : OpsDich Past R o p) {f : SM S Ty} {g : SM T Ty} (hb : Dich Past R f g) (n m : Nat) (hn : n ≤ m) (t : Sig) :
    Dich Past R (parseTypeOf o f n t) (parseTypeOf p g m t) := by
  have h1 := parsePair_dich h hb
  have h2 : Dich Past R (parseFuture o f) (parseFuture p g) := by unfold parseFuture; dich_all h
  have h3 : Dich Past R (parseBracketed o f) (parseBracketed p g) := by unfold parseBracketed; dich_all h
  have h4 : Dich Past R (parseHandle o) (parseHandle p) := by unfold parseHandle; dich_all h
  have h5 := parseItemList_dich h .less .greater hb n m hn
  unfold parseTypeOf; dich_all h

theorem parseType_dich (h : OpsDich Past R o p) (n m : Nat) (hn : n ≤ m) : Dich Past R (parseType o n) (parseType p m) := by
  induction n generalizing m with
  | zero => exact Dich.spent _
  | succ n ih =>
    cases m with
    | zero => omega
    | succ m =>
      unfold parseType
      exact Dich.bind h.next fun t => parseTypeOf_dich h (ih m (by omega)) n m (by omega) t

theorem parseParameter_dich (h : OpsDich Past R o p) (n m : Nat) (hn : n ≤ m) : Dich Past R (parseParameter o n) (parseParameter p m) := by
  have h1 := parseType_dich h n m hn
  unfold parseParameter; dich_all h

theorem parameterLoop_dich (h : OpsDich Past R o p) (n m : Nat) (hn : n ≤ m) (k l : Nat) (hk : k ≤ l) :
    Dich Past R (parameterLoop o n k) (parameterLoop p m l) := by
  have h1 := parseParameter_dich h n m hn
  induction k generalizing l with
  | zero => exact Dich.spent _
  | succ k ih =>
    cases l with
    | zero => omega
    | succ l =>
      have h3 := ih l (by omega)
      unfold parameterLoop; dich_all h

theorem parseParameters_dich (h : OpsDich Past R o p) (n m : Nat) (hn : n ≤ m) : Dich Past R (parseParameters o n) (parseParameters p m) := by
  have h1 := parameterLoop_dich h n m hn n m hn
  unfold parseParameters; dich_all h

theorem parseFunc_dich (h : OpsDich Past R o p) (n m : Nat) (hn : n ≤ m) : Dich Past R (parseFunc o n) (parseFunc p m) := by
  have h1 := parseParameters_dich h n m hn
  have h2 := parseType_dich h n m hn
  have h3 : Dich Past R (parseResults o n) (parseResults p m) := by unfold parseResults; dich_all h
  unfold parseFunc; dich_all h

theorem parseFuncItem_dich (h : OpsDich Past R o p) (n m : Nat) (hn : n ≤ m) : Dich Past R (parseFuncItem o n) (parseFuncItem p m) := by
  have h1 := parseFunc_dich h n m hn
  unfold parseFuncItem; dich_all h

theorem parseTypeItem_dich (h : OpsDich Past R o p) (n m : Nat) (hn : n ≤ m) : Dich Past R (parseTypeItem o n) (parseTypeItem p m) := by
  have h1 := parseType_dich h n m hn
  unfold parseTypeItem; dich_all h

theorem parseRecord_dich (h : OpsDich Past R o p) (n m : Nat) (hn : n ≤ m) : Dich Past R (parseRecord o n) (parseRecord p m) := by
  have h1 := parseType_dich h n m hn
  have h2 : Dich Past R (parseRecordField o n) (parseRecordField p m) := by unfold parseRecordField; dich_all h
  have h3 := parseItemList_dich h .openBrace .closeBrace h2 n m hn
  unfold parseRecord; dich_all h

theorem parseFlags_dich (h : OpsDich Past R o p) (n m : Nat) (hn : n ≤ m) : Dich Past R (parseFlags o n) (parseFlags p m) := by
  have h3 := parseItemList_dich h .openBrace .closeBrace (parseId_dich h) n m hn
  unfold parseFlags; dich_all h

theorem parseEnum_dich (h : OpsDich Past R o p) (n m : Nat) (hn : n ≤ m) : Dich Past R (parseEnum o n) (parseEnum p m) := by
  have h3 := parseItemList_dich h .openBrace .closeBrace (parseId_dich h) n m hn
  unfold parseEnum; dich_all h

theorem parseVariant_dich (h : OpsDich Past R o p) (n m : Nat) (hn : n ≤ m) : Dich Past R (parseVariant o n) (parseVariant p m) := by
  have h1 := parseType_dich h n m hn
  have h2 : Dich Past R (parseCaseType o n) (parseCaseType p m) := by unfold parseCaseType; dich_all h
  have h3 : Dich Past R (parseVariantCase o n) (parseVariantCase p m) := by unfold parseVariantCase; dich_all h
  have h4 := parseItemList_dich h .openBrace .closeBrace h3 n m hn
  unfold parseVariant; dich_all h

theorem sm_assoc {U γ : Type} (m : SM U α) (f : α → SM U β) (g : β → SM U γ) : (m >>= f) >>= g = m >>= fun a => f a >>= g := by
  funext s
  rw [SM.bind_def, SM.bind_def, SM.bind_def]
  rcases m s with ⟨_ | _ | _ | _, s'⟩ <;> rfl

/-- If the next token is the one asked for, it is taken; if not, nothing is. -/
def lookElse {U : Type} (o : Ops U) (ty : TokenType) (f g : SM U β) : SM U β := fun s =>
  match eatTok o ty s with
  | (.ok true, s1) => f s1
  | (.ok false, _) => g s
  | (.err, s1) => (.err, s1)
  | (.panic, s1) => (.panic, s1)
  | (.diverge, s1) => (.diverge, s1)

theorem eatTok_false {U : Type} (o : Ops U) (ty : TokenType) (s s1 : U) (e : eatTok o ty s = (.ok false, s1)) : (o.peek s).2 = s1 := by
  unfold eatTok at e
  rw [SM.bind_def] at e
  rcases hp : o.peek s with ⟨tok | _ | _ | _, s2⟩ <;> rw [hp] at e <;> simp only at e
  · by_cases hc : tok.type ≠ ty
    · rw [if_pos hc] at e
      injection e with _ e
    · rw [if_neg hc, SM.bind_def] at e
      rcases hx : expect o ty s2 with ⟨_ | _ | _ | _, s3⟩ <;> rw [hx] at e <;> cases e
  all_goals cases e

theorem lookElse_dich (h : OpsDich Past R o p) (ty : TokenType) {f g : SM S β} {f' g' : SM T β} (hf : Dich Past R f f')
    (hg : Dich Past R g g') (hl : ∀ s, Past (o.peek s).2 → Past (g s).2) :
    Dich Past R (lookElse o ty f g) (lookElse p ty f' g') := by
  have hE := eatTok_dich h ty
  refine ⟨fun s t hr hd => ?_, fun s hs => ?_⟩
  · have k := hE.1 s t hr
    unfold lookElse at hd ⊢
    rcases he : eatTok o ty s with ⟨r, s1⟩
    rcases hq : eatTok p ty t with ⟨q, t1⟩
    rw [he] at k hd
    rw [hq] at k
    rcases r with b | _ | _ | _
    · rcases k (by simp) with ⟨k1, k2⟩ | kp
      · simp only at k1 k2
        subst k1
        cases b with
        | false => exact hg.1 s t hr hd
        | true => exact hf.1 s1 t1 k2 hd
      · cases b with
        | false =>
          have := eatTok_false o ty s s1 he
          exact .inr (hl s (by rw [this]; exact kp))
        | true => exact .inr (hf.2 s1 kp)
    · rcases k (by simp) with ⟨k1, k2⟩ | kp
      · simp only at k1
        subst k1
        exact .inl ⟨rfl, k2⟩
      · exact .inr kp
    · rcases k (by simp) with ⟨k1, k2⟩ | kp
      · simp only at k1
        subst k1
        exact .inl ⟨rfl, k2⟩
      · exact .inr kp
    · exact absurd rfl hd
  · have k := hE.2 s hs
    unfold lookElse
    rcases he : eatTok o ty s with ⟨r, s1⟩
    rw [he] at k
    rcases r with (_ | _) | _ | _ | _
    · exact hg.2 s hs
    · exact hf.2 s1 k
    all_goals exact k

theorem next_first (h : OpsDich Past R o p) (ty : TokenType) {g : Unit → SM S β} (hg : ∀ a s, Past s → Past (g a s).2) (s : S)
    (hs : Past (o.peek s).2) : Past ((expect o ty >>= g) s).2 := by
  have k := h.same s hs
  unfold expect
  rw [sm_assoc, SM.bind_def]
  rcases hx : o.next s with ⟨tok | _ | _ | _, s1⟩ <;> rw [hx] at k
  · simp only at k ⊢
    by_cases hc : tok.type = ty
    · rw [if_pos hc]; exact hg _ s1 k
    · rw [if_neg hc]; exact k
  all_goals exact k

/-- The method after `static`. -/
def staticFrom {U : Type} (o : Ops U) (n : Nat) (id : List Byte) : SM U ResourceMethod := do
  let f ← parseFunc o n
  expect o .semicolon
  pure (.static id f)

/-- The method without `static`. -/
def methodFrom {U : Type} (o : Ops U) (n : Nat) (id : List Byte) : SM U ResourceMethod := do
  let f ← parseFunc o n
  expect o .semicolon
  pure (.method [] ⟨id, f⟩)

/-- A clone that has read a name and a colon is where the lexer is when it has read them. -/
theorem staticOrMethod_eq {U : Type} (o : Ops U) (n : Nat) : parseStaticOrMethod o n = (do
    let id ← parseId o
    expect o .colon
    lookElse o .static (staticFrom o n id) (methodFrom o n id)) := by
  funext s
  unfold parseStaticOrMethod
  rw [SM.bind_get]
  simp only [SM.bind_def, parseFuncItem, staticFrom, methodFrom, lookElse]
  rcases h1 : parseId o s with ⟨id | _ | _ | _, s1⟩ <;> simp only
  rcases h2 : expect o .colon s1 with ⟨_ | _ | _ | _, s2⟩ <;> simp only
  rcases h3 : eatTok o .static s2 with ⟨(_ | _) | _ | _ | _, s3⟩ <;> simp only [Bool.false_eq_true, if_false, if_true]
  · simp only [SM.modify, SM.bind_def, h1, h2]
    rcases h4 : parseFunc o n s2 with ⟨f | _ | _ | _, s4⟩ <;> simp only
    rcases h5 : expect o .semicolon s4 with ⟨_ | _ | _ | _, s5⟩ <;> rfl
  · rfl

theorem parseResourceMethod_dich (h : OpsDich Past R o p) (n m : Nat) (hn : n ≤ m) :
    Dich Past R (parseResourceMethod o n) (parseResourceMethod p m) := by
  have h1 := parseParameters_dich h n m hn
  have h2 := parseFunc_dich h n m hn
  have h3 := parseFuncItem_dich h n m hn
  have h4 : Dich Past R (parseConstructor o n) (parseConstructor p m) := by unfold parseConstructor; dich_all h
  have h5 : Dich Past R (parseStaticOrMethod o n) (parseStaticOrMethod p m) := by
    rw [staticOrMethod_eq, staticOrMethod_eq]
    have h7 : ∀ id, Dich Past R (staticFrom o n id) (staticFrom p m id) := fun id => by unfold staticFrom; dich_all h
    have h8 : ∀ id, Dich Past R (methodFrom o n id) (methodFrom p m id) := fun id => by unfold methodFrom; dich_all h
    refine Dich.bind (parseId_dich h) fun id => Dich.bind (expect_dich h _) fun _ => lookElse_dich h _ (h7 id) (h8 id) ?_
    intro s hs
    unfold methodFrom parseFunc
    rw [sm_assoc]
    have h9 : Dich Past R (parseParameters o n >>= fun ps => parseResults o n >>= fun rs => pure (⟨ps, rs⟩ : FuncType))
        (parseParameters p m >>= fun ps => parseResults p m >>= fun rs => pure (⟨ps, rs⟩ : FuncType)) := by
      have hr : Dich Past R (parseResults o n) (parseResults p m) := by
        have := parseType_dich h n m hn
        unfold parseResults; dich_all h
      dich_all h
    have h10 : ∀ a : Unit, Dich Past R ((parseParameters o n >>= fun ps => parseResults o n >>= fun rs => pure (⟨ps, rs⟩ : FuncType)) >>=
        fun f => expect o .semicolon >>= fun _ => pure (ResourceMethod.method [] ⟨id, f⟩))
        ((parseParameters p m >>= fun ps => parseResults p m >>= fun rs => pure (⟨ps, rs⟩ : FuncType)) >>=
        fun f => expect p .semicolon >>= fun _ => pure (ResourceMethod.method [] ⟨id, f⟩)) := fun _ => by dich_all h
    exact next_first h _ (fun a s hs => (h10 a).2 s hs) s hs
  unfold parseResourceMethod; dich_all h

theorem methodLoop_dich (h : OpsDich Past R o p) (n m : Nat) (hn : n ≤ m) (k l : Nat) (hk : k ≤ l) :
    Dich Past R (methodLoop o n k) (methodLoop p m l) := by
  have h1 := parseResourceMethod_dich h n m hn
  induction k generalizing l with
  | zero => exact Dich.spent _
  | succ k ih =>
    cases l with
    | zero => omega
    | succ l =>
      have h3 := ih l (by omega)
      unfold methodLoop; dich_all h

theorem parseResource_dich (h : OpsDich Past R o p) (n m : Nat) (hn : n ≤ m) : Dich Past R (parseResource o n) (parseResource p m) := by
  have h1 := methodLoop_dich h n m hn n m hn
  have h2 : Dich Past R (parseMethods o n) (parseMethods p m) := by unfold parseMethods; dich_all h
  unfold parseResource; dich_all h

theorem parseTypeDef_dich (h : OpsDich Past R o p) (n m : Nat) (hn : n ≤ m) : Dich Past R (parseTypeDef o n) (parseTypeDef p m) := by
  have h1 := parseResource_dich h n m hn
  have h2 := parseVariant_dich h n m hn
  have h3 := parseRecord_dich h n m hn
  have h4 := parseFlags_dich h n m hn
  have h5 := parseEnum_dich h n m hn
  have h6 := parseTypeItem_dich h n m hn
  unfold parseTypeDef; dich_all h

theorem parseUsePath_dich (h : OpsDich Past R o p) : Dich Past R (parseUsePath o) (parseUsePath p) := by
  unfold parseUsePath parsePath parseOptionalVersion; dich_all h

theorem parseAs_dich (h : OpsDich Past R o p) : Dich Past R (parseAs o) (parseAs p) := by
  unfold parseAs; dich_all h

theorem parseUse_dich (h : OpsDich Past R o p) (n m : Nat) (hn : n ≤ m) : Dich Past R (parseUse o n) (parseUse p m) := by
  have h1 := parseUsePath_dich h
  have h2 := parseAs_dich h
  have h3 : Dich Past R (parseUseName o) (parseUseName p) := by unfold parseUseName; dich_all h
  have h4 := parseItemList_dich h .openBrace .closeBrace h3 n m hn
  unfold parseUse; dich_all h

theorem parseInclude_dich (h : OpsDich Past R o p) (n m : Nat) (hn : n ≤ m) : Dich Past R (parseInclude o n) (parseInclude p m) := by
  have h1 := parseUsePath_dich h
  have h2 : Dich Past R (parseIncludeName o) (parseIncludeName p) := by unfold parseIncludeName; dich_all h
  have h3 := untilTok_dich h .closeBrace h2 n m hn
  have h4 : Dich Past R (parseIncludeNames o n) (parseIncludeNames p m) := by unfold parseIncludeNames; dich_all h
  unfold parseInclude; dich_all h

theorem parseInterfaceItems_dich (h : OpsDich Past R o p) (n m : Nat) (hn : n ≤ m) :
    Dich Past R (parseInterfaceItems o n) (parseInterfaceItems p m) := by
  have h1 := parseResource_dich h n m hn
  have h2 := parseVariant_dich h n m hn
  have h3 := parseRecord_dich h n m hn
  have h4 := parseFlags_dich h n m hn
  have h5 := parseEnum_dich h n m hn
  have h6 := parseTypeDef_dich h n m hn
  have h7 := parseUse_dich h n m hn
  have h8 := parseFuncItem_dich h n m hn
  have h9 : Dich Past R (parseInterfaceItem o n) (parseInterfaceItem p m) := by unfold parseInterfaceItem; dich_all h
  exact Dich.bind (expect_dich h _) fun _ => untilTok_dich h _ h9 n m hn

/-- A clone that has read a name and looked at the token after it is where `parseUsePath` is when it has done so. -/
theorem externType_eq {U : Type} (o : Ops U) (n : Nat) : parseExternType o n = (do
    let id ← parseId o
    let b ← eatTok o .colon
    if b then do
      let tok ← o.peek
      if tok.type = .func then do
        let f ← parseFunc o n
        expect o .semicolon
        pure (.func id f)
      else if tok.type = .interface then do
        expect o .interface
        let items ← parseInterfaceItems o n
        pure (.interface id items)
      else SM.fail
    else do
      expect o .semicolon
      pure (.usePath ⟨id, none, []⟩)) := by
  funext s
  unfold parseExternType
  rw [SM.bind_get]
  simp only [SM.bind_def, parseUsePath]
  rcases h1 : parseId o s with ⟨id | _ | _ | _, s1⟩ <;> simp only
  rcases h2 : eatTok o .colon s1 with ⟨(_ | _) | _ | _ | _, s2⟩ <;> simp only [Bool.false_eq_true, if_false, if_true]
  simp only [SM.modify, SM.bind_def, h1, h2]
  rfl

theorem parseExternType_dich (h : OpsDich Past R o p) (n m : Nat) (hn : n ≤ m) : Dich Past R (parseExternType o n) (parseExternType p m) := by
  have h1 := parseInterfaceItems_dich h n m hn
  have h2 := parseFunc_dich h n m hn
  have h3 := parseUsePath_dich h
  rw [externType_eq, externType_eq]
  dich_all h

theorem parseWorld_dich (h : OpsDich Past R o p) (n m : Nat) (hn : n ≤ m) : Dich Past R (parseWorld o n) (parseWorld p m) := by
  have h0 := parseExternType_dich h n m hn
  have h1 := parseResource_dich h n m hn
  have h2 := parseVariant_dich h n m hn
  have h3 := parseRecord_dich h n m hn
  have h4 := parseInclude_dich h n m hn
  have h6 := parseTypeDef_dich h n m hn
  have h7 := parseUse_dich h n m hn
  have h9 : Dich Past R (parseWorldItem o n) (parseWorldItem p m) := by unfold parseWorldItem parseExport parseImport; dich_all h
  have h10 := untilTok_dich h .closeBrace h9 n m hn
  unfold parseWorld; dich_all h

theorem parsePackageDeclaration_dich (h : OpsDich Past R o p) : Dich Past R (parsePackageDeclaration o) (parsePackageDeclaration p) := by
  unfold parsePackageDeclaration parsePackageVersion parseVersion; dich_all h

theorem parseAstItem_dich (h : OpsDich Past R o p) (n m : Nat) (hn : n ≤ m) (t : Sig) :
    Dich Past R (parseAstItem o n t) (parseAstItem p m t) := by
  have h1 := parseWorld_dich h n m hn
  have h2 := parseInterfaceItems_dich h n m hn
  have h3 := parseUsePath_dich h
  have h4 := parseAs_dich h
  unfold parseAstItem parseInterface parseTopLevelUse; dich_all h

theorem astLoop_dich (h : OpsDich Past R o p) (n m : Nat) (hn : n ≤ m) (k l : Nat) (hk : k ≤ l) (t : Sig) :
    Dich Past R (astLoop o n k t) (astLoop p m l t) := by
  induction k generalizing l t with
  | zero => exact Dich.spent _
  | succ k ih =>
    cases l with
    | zero => omega
    | succ l =>
      unfold astLoop
      exact Dich.ite (Dich.bind (parseAstItem_dich h n m hn t) fun _ => Dich.bind h.next fun t' =>
        Dich.bind (ih l (by omega) t') fun _ => Dich.pure _) (Dich.pure _)

theorem parseAst_dich (h : OpsDich Past R o p) (n m : Nat) (hn : n ≤ m) : Dich Past R (parseAst o n) (parseAst p m) := by
  have h1 := parsePackageDeclaration_dich h
  unfold parseAst parseAstPackage
  refine Dich.bind h.next fun t => Dich.bind ?_ fun q => Dich.bind (astLoop_dich h n m hn n m hn _) fun _ => Dich.pure _
  dich_all h

end Verif.Wit
