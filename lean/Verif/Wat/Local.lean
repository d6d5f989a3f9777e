import Verif.Wat.ParseSim

/-!
# How far a parser looks

Two sources that agree up to some token: either the parser does the same with both, or it has looked past that token.
-/

namespace Verif.Wat

variable {S T α β : Type} {Past : S → Prop} {R : S → T → Prop}

/-- On related states `f` runs out of its bound, or does what `g` does and leaves related states, or has looked too far;
and what has looked too far stays so. -/
def Dich (Past : S → Prop) (R : S → T → Prop) (f : SM S α) (g : SM T α) : Prop :=
  (∀ s t, R s t → (f s).1 ≠ .diverge → ((f s).1 = (g t).1 ∧ R (f s).2 (g t).2) ∨ Past (f s).2) ∧
  ∀ s, Past s → Past (f s).2

theorem Dich.pure (a : α) : Dich Past R (pure a : SM S α) (pure a : SM T α) :=
  ⟨fun _ _ h _ => .inl ⟨rfl, h⟩, fun _ h => h⟩

theorem Dich.fail : Dich Past R (SM.fail : SM S α) (SM.fail : SM T α) := ⟨fun _ _ h _ => .inl ⟨rfl, h⟩, fun _ h => h⟩

theorem Dich.lift (r : Res α) : Dich Past R (SM.lift r : SM S α) (SM.lift r : SM T α) :=
  ⟨fun _ _ h _ => .inl ⟨rfl, h⟩, fun _ h => h⟩

theorem Dich.spent (g : SM T α) : Dich Past R (spent : SM S α) g := ⟨fun _ _ _ h => absurd rfl h, fun _ h => h⟩

theorem Dich.bind {f : SM S α} {g : SM T α} {f' : α → SM S β} {g' : α → SM T β} (h : Dich Past R f g)
    (h' : ∀ a, Dich Past R (f' a) (g' a)) : Dich Past R (f >>= f') (g >>= g') := by
  refine ⟨fun s t hr hd => ?_, fun s hs => ?_⟩
  · rw [SM.bind_def] at hd ⊢
    rw [SM.bind_def]
    have k := h.1 s t hr
    rcases hf : f s with ⟨r, s'⟩
    rcases hg : g t with ⟨q, t'⟩
    rw [hf] at k hd
    rw [hg] at k
    cases r with
    | ok a =>
      rcases k (by simp) with ⟨k1, k2⟩ | k
      · simp only at k1 k2 hd
        subst k1
        exact (h' a).1 s' t' k2 hd
      · exact .inr ((h' a).2 s' k)
    | err =>
      rcases k (by simp) with ⟨k1, k2⟩ | k
      · simp only at k1
        subst k1
        exact .inl ⟨rfl, k2⟩
      · exact .inr k
    | panic =>
      rcases k (by simp) with ⟨k1, k2⟩ | k
      · simp only at k1
        subst k1
        exact .inl ⟨rfl, k2⟩
      · exact .inr k
    | diverge => exact absurd rfl hd
  · have k := h.2 s hs
    rw [SM.bind_def]
    rcases hf : f s with ⟨r, s'⟩
    rw [hf] at k
    cases r with
    | ok a => exact (h' a).2 s' k
    | _ => exact k

theorem Dich.ite {c : Prop} [Decidable c] {f f' : SM S α} {g g' : SM T α} (h : Dich Past R f g) (h' : Dich Past R f' g') :
    Dich Past R (if c then f else f') (if c then g else g') := by
  split
  · exact h
  · exact h'

/-- Calls that agree until they look too far. What is too far for `peek` is too far for `next`. -/
structure OpsDich (Past : S → Prop) (R : S → T → Prop) (o : Ops S) (p : Ops T) : Prop where
  peek : Dich Past R o.peek p.peek
  next : Dich Past R o.next p.next
  same : ∀ s, Past (o.peek s).2 → Past (o.next s).2

variable {o : Ops S} {p : Ops T}

macro "dich_step" : tactic => `(tactic| first
  | assumption
  | exact Dich.pure _
  | exact Dich.fail
  | exact Dich.lift _
  | exact OpsDich.peek ‹_›
  | exact OpsDich.next ‹_›
  | refine Dich.bind ?_ (fun _ => ?_)
  | refine Dich.ite ?_ ?_)

theorem expect_dich (h : OpsDich Past R o p) (ty : TokenType) : Dich Past R (expect o ty) (expect p ty) := by
  unfold expect; repeat dich_step

theorem expectWord_dich (h : OpsDich Past R o p) (w : List Byte) : Dich Past R (expectWord o w) (expectWord p w) := by
  unfold expectWord; repeat dich_step

theorem eat_dich (h : OpsDich Past R o p) (ty : TokenType) : Dich Past R (eat o ty) (eat p ty) := by
  have := expect_dich h ty
  unfold eat; repeat dich_step

theorem parens_dich (h : OpsDich Past R o p) {f : SM S α} {g : SM T α} (hb : Dich Past R f g) (n m : Nat) (hn : n ≤ m) :
    Dich Past R (parens o f n) (parens p g m) := by
  induction n generalizing m with
  | zero => exact Dich.spent _
  | succ n ih =>
    cases m with
    | zero => omega
    | succ m =>
      have h1 := eat_dich h .openParen
      have h2 := expect_dich h .closeParen
      have h3 := ih m (by omega)
      unfold parens; repeat dich_step

theorem while_dich (h : OpsDich Past R o p) (c : Sig → Bool) {f : SM S α} {g : SM T α} (hb : Dich Past R f g) (n m : Nat) (hn : n ≤ m) :
    Dich Past R (while_ o c f n) (while_ p c g m) := by
  induction n generalizing m with
  | zero => exact Dich.spent _
  | succ n ih =>
    cases m with
    | zero => omega
    | succ m =>
      have h3 := ih m (by omega)
      unfold while_; repeat dich_step

theorem parseId_dich (h : OpsDich Past R o p) : Dich Past R (parseId o) (parseId p) := by
  unfold parseId; repeat dich_step

theorem parseOptionalId_dich (h : OpsDich Past R o p) : Dich Past R (parseOptionalId o) (parseOptionalId p) := by
  have := parseId_dich h
  unfold parseOptionalId; repeat dich_step

theorem parseString_dich (h : OpsDich Past R o p) : Dich Past R (parseString o) (parseString p) := by
  unfold parseString; repeat dich_step

theorem parseInt32_dich (h : OpsDich Past R o p) : Dich Past R (parseInt32 o) (parseInt32 p) := by
  unfold parseInt32; repeat dich_step

theorem parseInt64_dich (h : OpsDich Past R o p) : Dich Past R (parseInt64 o) (parseInt64 p) := by
  unfold parseInt64; repeat dich_step

theorem constFloat32_dich (h : OpsDich Past R o p) (lib : Lib) : Dich Past R (constFloat32 o lib) (constFloat32 p lib) := by
  have := parseInt32_dich h
  unfold constFloat32 peekFloat parseFloat32; repeat dich_step

theorem constFloat64_dich (h : OpsDich Past R o p) (lib : Lib) : Dich Past R (constFloat64 o lib) (constFloat64 p lib) := by
  have := parseInt64_dich h
  unfold constFloat64 peekFloat parseFloat64; repeat dich_step

theorem parseIndex_dich (h : OpsDich Past R o p) : Dich Past R (parseIndex o) (parseIndex p) := by
  unfold parseIndex; repeat dich_step

theorem parseValType_dich (h : OpsDich Past R o p) : Dich Past R (parseValType o) (parseValType p) := by
  unfold parseValType
  refine Dich.bind h.next (fun tok => ?_)
  cases valTypes.lookup tok.capture <;> dich_step

theorem parseLocal_dich (h : OpsDich Past R o p) : Dich Past R (parseLocal o) (parseLocal p) := by
  have h1 := parseValType_dich h
  have h2 := expectWord_dich h
  unfold parseLocal; exact Dich.bind (h2 _) fun _ => h1

theorem parseParameter_dich (h : OpsDich Past R o p) (n m : Nat) (hn : n ≤ m) : Dich Past R (parseParameter o n) (parseParameter p m) := by
  have h1 := parseValType_dich h
  have h2 := expectWord_dich h (txt "param")
  have h3 := parseOptionalId_dich h
  have h4 := while_dich h (fun tok => tok.type == .reserved) h1 n m hn
  unfold parseParameter parameterTypes; repeat dich_step

theorem parseResult_dich (h : OpsDich Past R o p) : Dich Past R (parseResult o) (parseResult p) := by
  have h1 := parseValType_dich h
  have h2 := expectWord_dich h (txt "result")
  unfold parseResult; repeat dich_step

theorem parseFuncType_dich (h : OpsDich Past R o p) (n m : Nat) (hn : n ≤ m) : Dich Past R (parseFuncType o n) (parseFuncType p m) := by
  have h1 := parseResult_dich h
  have h2 := expectWord_dich h (txt "func")
  have h3 := parseParameter_dich h n m hn
  have h4 : Dich Past R (parseFuncTypeItem o n) (parseFuncTypeItem p m) := by
    unfold parseFuncTypeItem; repeat dich_step
  have h5 := parens_dich h h4 n m hn
  unfold parseFuncType; repeat dich_step

theorem parseType_dich (h : OpsDich Past R o p) (n m : Nat) (hn : n ≤ m) : Dich Past R (parseType o n) (parseType p m) := by
  have h1 := parseFuncType_dich h n m hn
  have h2 := expectWord_dich h (txt "type")
  have h3 := parseOptionalId_dich h
  have h4 := eat_dich h .openParen
  have h5 := expect_dich h .closeParen
  unfold parseType typeBody; repeat dich_step

theorem parseLimits_dich (h : OpsDich Past R o p) : Dich Past R (parseLimits o) (parseLimits p) := by
  have h1 := parseInt32_dich h
  unfold parseLimits limitsMax; repeat dich_step

theorem parseTable_dich (h : OpsDich Past R o p) (n m : Nat) (hn : n ≤ m) : Dich Past R (parseTable o n) (parseTable p m) := by
  have h1 := parseLimits_dich h
  have h2 := expectWord_dich h (txt "table")
  have h3 := parseOptionalId_dich h
  have h4 := parseId_dich h
  have h5 : Dich Past R (parseElement o) (parseElement p) := by unfold parseElement; repeat dich_step
  have h6 := parens_dich h h5 n m hn
  unfold parseTable parseTableType tableLimits; repeat dich_step

theorem parseMemory_dich (h : OpsDich Past R o p) : Dich Past R (parseMemory o) (parseMemory p) := by
  have h1 := parseLimits_dich h
  have h2 := expectWord_dich h (txt "memory")
  have h3 := parseOptionalId_dich h
  unfold parseMemory; repeat dich_step

theorem parseExport_dich (h : OpsDich Past R o p) : Dich Past R (parseExport o) (parseExport p) := by
  have h1 := parseString_dich h
  have h2 := expectWord_dich h (txt "export")
  unfold parseExport; repeat dich_step

theorem parseImport_dich (h : OpsDich Past R o p) : Dich Past R (parseImport o) (parseImport p) := by
  have h1 := parseString_dich h
  have h2 := expectWord_dich h (txt "import")
  unfold parseImport; repeat dich_step

theorem parseTypeUse_dich (h : OpsDich Past R o p) : Dich Past R (parseTypeUse o) (parseTypeUse p) := by
  have h1 := parseId_dich h
  have h2 := expectWord_dich h (txt "type")
  have h3 := expect_dich h .openParen
  have h4 := expect_dich h .closeParen
  unfold parseTypeUse; repeat dich_step

theorem sm_assoc {U γ : Type} (m : SM U α) (f : α → SM U β) (g : β → SM U γ) : (m >>= f) >>= g = m >>= fun a => f a >>= g := by
  funext s
  rw [SM.bind_def, SM.bind_def, SM.bind_def]
  rcases m s with ⟨_ | _ | _ | _, s'⟩ <;> rfl

/-- What `parseBlockType` does after the word `result`, and what comes then. -/
def resultThen {U : Type} (o : Ops U) (n : Nat) (K : List Result → SM U β) : SM U β := do
  expectWord o (txt "result")
  let ts ← while_ o (fun tok => tok.type != .closeParen) (parseValType o) n
  expect o .closeParen
  parseBlockType o n >>= fun rs => K (⟨ts⟩ :: rs)

theorem blockType_step {U : Type} (o : Ops U) (n : Nat) (K : List Result → SM U β) (s : U) :
    (parseBlockType o (n + 1) >>= K) s = match eat o .openParen s with
      | (.ok true, s1) => (match o.peek s1 with
        | (.ok tok, s2) => if tok.capture ≠ txt "result" then K [] s else resultThen o n K s2
        | (.err, s2) => (.err, s2)
        | (.panic, s2) => (.panic, s2)
        | (.diverge, s2) => (.diverge, s2))
      | (.ok false, _) => K [] s
      | (.err, s1) => (.err, s1)
      | (.panic, s1) => (.panic, s1)
      | (.diverge, s1) => (.diverge, s1) := by
  rw [parseBlockType, sm_assoc, SM.bind_get, sm_assoc, SM.bind_def]
  rcases eat o .openParen s with ⟨(_ | _) | _ | _ | _, s1⟩ <;> simp only [Bool.false_eq_true, if_false, if_true]
  · rfl
  · rw [sm_assoc, SM.bind_def]
    rcases o.peek s1 with ⟨tok | _ | _ | _, s2⟩ <;> simp only
    by_cases hc : tok.capture ≠ txt "result"
    · rw [if_pos hc, if_pos hc]; rfl
    · rw [if_neg hc, if_neg hc]
      unfold resultThen
      simp only [sm_assoc]
      rfl

/-- The end of `parseBlockType` may have looked at two tokens that it has not taken; if what comes then looks at them
again, nothing is lost. -/
theorem blockType_then (h : OpsDich Past R o p) (n m : Nat) (hn : n ≤ m) {K : List Result → SM S β} {K' : List Result → SM T β}
    (hk : ∀ rs, Dich Past R (K rs) (K' rs))
    (d1 : ∀ rs s, (K rs s).1 ≠ .diverge → Past (o.peek s).2 → Past (K rs s).2)
    (d2 : ∀ rs s s', eat o .openParen s = (.ok true, s') → Past (o.peek s').2 → (K rs s).1 ≠ .diverge → Past (K rs s).2) :
    Dich Past R (parseBlockType o n >>= K) (parseBlockType p m >>= K') := by
  induction n generalizing m K K' with
  | zero => exact Dich.spent _
  | succ n ih =>
    cases m with
    | zero => omega
    | succ m =>
      have hE := eat_dich h .openParen
      have tail : Dich Past R (resultThen o n K) (resultThen p m K') := by
        have h4 := expectWord_dich h (txt "result")
        have h5 := while_dich h (fun tok => tok.type != .closeParen) (parseValType_dich h) n m (by omega)
        have h6 := expect_dich h .closeParen
        unfold resultThen
        exact Dich.bind h4 fun _ => Dich.bind h5 fun ts => Dich.bind h6 fun _ =>
          ih m (by omega) (fun rs => hk _) (fun rs => d1 _) (fun rs => d2 _)
      have off : ∀ s s1, eat o .openParen s = (.ok false, s1) → (o.peek s).2 = s1 := by
        intro s s1 e
        unfold eat at e
        rw [SM.bind_def] at e
        rcases hp : o.peek s with ⟨tok | _ | _ | _, s2⟩ <;> rw [hp] at e <;> simp only at e
        · by_cases hc : tok.type ≠ .openParen
          · rw [if_pos hc] at e
            injection e with _ e
          · rw [if_neg hc, SM.bind_def] at e
            rcases hx : expect o .openParen s2 with ⟨_ | _ | _ | _, s3⟩ <;> rw [hx] at e <;> cases e
        all_goals cases e
      refine ⟨fun s t hr hd => ?_, fun s hs => ?_⟩
      · rw [blockType_step] at hd ⊢
        rw [blockType_step]
        have k := hE.1 s t hr
        rcases he : eat o .openParen s with ⟨r, s1⟩
        rcases hg : eat p .openParen t with ⟨q, t1⟩
        rw [he] at k hd
        rw [hg] at k
        rcases r with b | _ | _ | _
        · rcases k (by simp) with ⟨k1, k2⟩ | kp
          · simp only at k1 k2
            subst k1
            cases b with
            | false => exact (hk []).1 s t hr hd
            | true =>
              simp only at hd ⊢
              have j := h.peek.1 s1 t1 k2
              rcases hp : o.peek s1 with ⟨u, s2⟩
              rcases hq : p.peek t1 with ⟨v, t2⟩
              rw [hp] at j hd
              rw [hq] at j
              rcases u with tok | _ | _ | _
              · rcases j (by simp) with ⟨j1, j2⟩ | j
                · simp only at j1 j2 hd ⊢
                  subst j1
                  simp only
                  by_cases hc : tok.capture ≠ txt "result"
                  · rw [if_pos hc] at hd ⊢
                    rw [if_pos hc]
                    exact (hk []).1 s t hr hd
                  · rw [if_neg hc] at hd ⊢
                    rw [if_neg hc]
                    exact tail.1 s2 t2 j2 hd
                · right
                  simp only at j hd ⊢
                  by_cases hc : tok.capture ≠ txt "result"
                  · rw [if_pos hc] at hd ⊢
                    exact d2 [] s s1 he (by rw [hp]; exact j) hd
                  · rw [if_neg hc]
                    exact tail.2 s2 j
              · rcases j (by simp) with ⟨j1, j2⟩ | j
                · simp only at j1 j2
                  subst j1
                  exact .inl ⟨rfl, j2⟩
                · exact .inr j
              · rcases j (by simp) with ⟨j1, j2⟩ | j
                · simp only at j1 j2
                  subst j1
                  exact .inl ⟨rfl, j2⟩
                · exact .inr j
              · exact absurd rfl hd
          · right
            simp only at kp
            clear k
            cases b with
            | false => exact d1 [] s hd (by rw [off s s1 he]; exact kp)
            | true =>
              simp only at hd ⊢
              have j := h.peek.2 s1 kp
              rcases hp : o.peek s1 with ⟨u, s2⟩
              rw [hp] at j hd
              rcases u with tok | _ | _ | _
              · simp only at j hd ⊢
                by_cases hc : tok.capture ≠ txt "result"
                · rw [if_pos hc] at hd ⊢
                  exact d2 [] s s1 he (by rw [hp]; exact j) hd
                · rw [if_neg hc]
                  exact tail.2 s2 j
              · exact j
              · exact j
              · exact j
        · rcases k (by simp) with ⟨k1, k2⟩ | k
          · simp only at k1 k2
            subst k1
            exact .inl ⟨rfl, k2⟩
          · exact .inr k
        · rcases k (by simp) with ⟨k1, k2⟩ | k
          · simp only at k1 k2
            subst k1
            exact .inl ⟨rfl, k2⟩
          · exact .inr k
        · exact absurd rfl hd
      · rw [blockType_step]
        have k := hE.2 s hs
        rcases he : eat o .openParen s with ⟨(_ | _) | _ | _ | _, s1⟩ <;> rw [he] at k <;> simp only at k ⊢
        · exact (hk []).2 s hs
        · have j := h.peek.2 s1 k
          rcases hp : o.peek s1 with ⟨tok | _ | _ | _, s2⟩ <;> rw [hp] at j <;> simp only at j ⊢
          · by_cases hc : tok.capture ≠ txt "result"
            · rw [if_pos hc]; exact (hk []).2 s hs
            · rw [if_neg hc]; exact tail.2 s2 j
          all_goals exact j
        all_goals exact k

theorem parseBlock_dich (h : OpsDich Past R o p) (mk : Option (List Byte) → List Result → List Inst → Inst) {f : SM S Inst}
    {g : SM T Inst} (hb : Dich Past R f g) (hf : ∀ s, (f s).1 ≠ .diverge → Past (o.next s).2 → Past (f s).2) (n m : Nat)
    (hn : n ≤ m) : Dich Past R (parseBlock o mk f n) (parseBlock p mk g m) := by
  have hP := parens_dich h hb n m hn
  have hc := expect_dich h .closeParen
  unfold parseBlock
  refine Dich.bind (parseOptionalId_dich h) fun name => ?_
  cases n with
  | zero => exact Dich.spent _
  | succ n =>
    have step : ∀ (K : List Inst → SM S Inst) (s : S), (parens o f (n + 1) >>= K) s =
        (eat o .openParen >>= fun b => if b then (do
          let x ← f
          expect o .closeParen
          let xs ← parens o f n
          K (x :: xs)) else K []) s := by
      intro K s
      rw [parens, sm_assoc, SM.bind_def, SM.bind_def]
      rcases eat o .openParen s with ⟨(_ | _) | _ | _ | _, s1⟩ <;> simp only [Bool.false_eq_true, if_false, if_true, sm_assoc] <;> rfl
    have mono : ∀ (rs : List Result) (s1 : S), Past s1 → Past ((do
        let x ← f
        expect o .closeParen
        let xs ← parens o f n
        pure (mk name rs (x :: xs)) : SM S Inst) s1).2 := by
      intro rs
      exact (Dich.bind hb fun _ => Dich.bind hc fun _ => Dich.bind (parens_dich h hb n n (Nat.le_refl _)) fun _ => Dich.pure _).2
    refine blockType_then h (n + 1) m hn (fun rs => Dich.bind hP fun _ => Dich.pure _) ?_ ?_
    · intro rs s _ hp
      rw [step]
      unfold eat
      rw [sm_assoc, SM.bind_def]
      rcases hq : o.peek s with ⟨tok | _ | _ | _, s1⟩ <;> rw [hq] at hp <;> simp only at hp ⊢
      · have he := (expect_dich h .openParen).2 s1 hp
        by_cases ht : tok.type ≠ .openParen
        · rw [if_pos ht]; exact hp
        · rw [if_neg ht, sm_assoc, SM.bind_def]
          rcases hx : expect o .openParen s1 with ⟨_ | _ | _ | _, s2⟩ <;> rw [hx] at he <;> simp only at he ⊢
          · exact mono rs s2 he
          all_goals exact he
      all_goals exact hp
    · intro rs s s1 he hp hd
      rw [step, SM.bind_ok he] at hd ⊢
      simp only [if_true] at hd ⊢
      rw [SM.bind_def] at hd ⊢
      have hnx := h.same s1 hp
      have k := hf s1
      rcases hx : f s1 with ⟨_ | _ | _ | _, s2⟩ <;> rw [hx] at k hd <;> simp only at k hd ⊢
      · exact (Dich.bind hc fun _ => Dich.bind (parens_dich h hb n n (Nat.le_refl _)) fun _ => Dich.pure _).2 s2 (k (by simp) hnx)
      · exact k (by simp) hnx
      · exact k (by simp) hnx
      · exact absurd rfl hd

theorem parseHead_dich (h : OpsDich Past R o p) (lib : Lib) {f : SM S Inst} {g : SM T Inst} (hb : Dich Past R f g)
    (hf : ∀ s, (f s).1 ≠ .diverge → Past (o.next s).2 → Past (f s).2) (n m : Nat) (hn : n ≤ m)
    (w : List Byte) : Dich Past R (parseHead o lib f n w) (parseHead p lib g m w) := by
  have h1 := parseIndex_dich h
  have h2 := parseInt32_dich h
  have h3 := parseInt64_dich h
  have h4 := constFloat32_dich h lib
  have h5 := constFloat64_dich h lib
  have h6 := parseTypeUse_dich h
  have h7 := parens_dich h hb n m hn
  have h8 := parseOptionalId_dich h
  have h9 := fun mk => parseBlock_dich h mk hb hf n m hn
  have h10 := parseResult_dich h
  have h11 := expectWord_dich h (txt "then")
  have h12 := expectWord_dich h (txt "else")
  have h13 : Dich Past R (parseIfItem o f n) (parseIfItem p g m) := by unfold parseIfItem; repeat dich_step
  have h14 := parens_dich h h13 n m hn
  unfold parseHead
  cases plainWords.lookup w with
  | some _ => dich_step
  | none =>
    cases indexedWords.lookup w with
    | some _ => simp only; repeat dich_step
    | none => simp only [parseIf]; repeat (first | exact h9 _ | dich_step)

theorem parseInstruction_both (h : OpsDich Past R o p) (lib : Lib) (n m : Nat) (hn : n ≤ m) :
    Dich Past R (parseInstruction o lib n) (parseInstruction p lib m) ∧
    ∀ s, (parseInstruction o lib n s).1 ≠ .diverge → Past (o.next s).2 → Past (parseInstruction o lib n s).2 := by
  induction n generalizing m with
  | zero => exact ⟨Dich.spent _, fun _ hd => absurd rfl hd⟩
  | succ n ih =>
    cases m with
    | zero => omega
    | succ m =>
      obtain ⟨h1, hf⟩ := ih m (by omega)
      have h2 := parseHead_dich h lib h1 hf n m (by omega)
      have h3 := parens_dich h h1 n m (by omega)
      have rest : ∀ tok : Sig, Dich Past R
          (if tok.type ≠ .reserved then SM.fail else do
            let i ← parseHead o lib (parseInstruction o lib n) n tok.capture
            parseFolded o (parseInstruction o lib n) n i)
          (if tok.type ≠ .reserved then SM.fail else do
            let i ← parseHead p lib (parseInstruction p lib m) m tok.capture
            parseFolded p (parseInstruction p lib m) m i) := by
        intro tok
        refine Dich.ite Dich.fail (Dich.bind (h2 _) fun i => ?_)
        unfold parseFolded; repeat dich_step
      refine ⟨?_, ?_⟩
      · unfold parseInstruction
        exact Dich.bind h.next rest
      · intro s _ hp
        rw [parseInstruction, SM.bind_def]
        rcases hx : o.next s with ⟨tok | _ | _ | _, s1⟩ <;> rw [hx] at hp <;> simp only at hp ⊢
        · exact (rest tok).2 s1 hp
        all_goals exact hp

theorem parseInstruction_dich (h : OpsDich Past R o p) (lib : Lib) (n m : Nat) (hn : n ≤ m) :
    Dich Past R (parseInstruction o lib n) (parseInstruction p lib m) := (parseInstruction_both h lib n m hn).1

theorem parseGlobal_dich (h : OpsDich Past R o p) (lib : Lib) (n m : Nat) (hn : n ≤ m) :
    Dich Past R (parseGlobal o lib n) (parseGlobal p lib m) := by
  have h1 := parens_dich h (parseInstruction_dich h lib n m hn) n m hn
  have h2 := expectWord_dich h (txt "global")
  have h3 := parseOptionalId_dich h
  have h4 := eat_dich h .openParen
  have h5 := expect_dich h .closeParen
  have h6 := expectWord_dich h (txt "mut")
  have h7 := parseValType_dich h
  unfold parseGlobal parseGlobalType; repeat dich_step

theorem parseFunc_dich (h : OpsDich Past R o p) (lib : Lib) (n m : Nat) (hn : n ≤ m) :
    Dich Past R (parseFunc o lib n) (parseFunc p lib m) := by
  have h1 := parseInstruction_dich h lib n m hn
  have h2 := parseLocal_dich h
  have h3 := parseParameter_dich h n m hn
  have h4 := parseResult_dich h
  have h5 := parseExport_dich h
  have h6 := parseImport_dich h
  have h7 : Dich Past R (parseFuncItem o lib n) (parseFuncItem p lib m) := by unfold parseFuncItem; repeat dich_step
  have h8 := parens_dich h h7 n m hn
  have h9 := while_dich h (fun tok => tok.type != .closeParen) h1 n m hn
  have h10 := parseOptionalId_dich h
  have h11 := expectWord_dich h (txt "func")
  unfold parseFunc; repeat dich_step

theorem parseModule_dich (h : OpsDich Past R o p) (lib : Lib) (n m : Nat) (hn : n ≤ m) :
    Dich Past R (parseModule o lib n) (parseModule p lib m) := by
  have h1 := parseFunc_dich h lib n m hn
  have h2 := parseType_dich h n m hn
  have h3 := parseTable_dich h n m hn
  have h4 := parseGlobal_dich h lib n m hn
  have h5 := parseMemory_dich h
  have h6 : Dich Past R (parseSection o lib n) (parseSection p lib m) := by unfold parseSection; repeat dich_step
  have h7 := parens_dich h h6 n m hn
  have h8 := expect_dich h .module
  unfold parseModule; repeat dich_step

theorem parse_dich (h : OpsDich Past R o p) (lib : Lib) (n m : Nat) (hn : n ≤ m) : Dich Past R (parse o lib n) (parse p lib m) := by
  have h1 := parseModule_dich h lib n m hn
  have h2 := expect_dich h .openParen
  have h3 := expect_dich h .closeParen
  have h4 := expect_dich h .component
  unfold parse parseRoot parseComponent; repeat dich_step

end Verif.Wat
