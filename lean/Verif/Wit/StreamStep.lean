import Verif.Wit.Stream

/-!
# The parser on a stream of tokens, step by step
-/

namespace Verif.Wit

variable {α β : Type}

theorem next_cons (t : Sig) (ts : List Sig) (e : Bool) : streamOps.next ⟨t :: ts, e⟩ = (.ok t, ⟨ts, e⟩) := rfl
theorem peek_cons (t : Sig) (ts : List Sig) (e : Bool) : streamOps.peek ⟨t :: ts, e⟩ = (.ok t, ⟨t :: ts, e⟩) := rfl

theorem next_bind (g : Sig → SM Stream β) (t : Sig) (ts : List Sig) (e : Bool) :
    (streamOps.next >>= g) ⟨t :: ts, e⟩ = g t ⟨ts, e⟩ := rfl
theorem peek_bind (g : Sig → SM Stream β) (t : Sig) (ts : List Sig) (e : Bool) :
    (streamOps.peek >>= g) ⟨t :: ts, e⟩ = g t ⟨t :: ts, e⟩ := rfl
theorem next_end (g : Sig → SM Stream β) : (streamOps.next >>= g) ⟨[], true⟩ = g eos ⟨[], true⟩ := rfl
theorem peek_end (g : Sig → SM Stream β) : (streamOps.peek >>= g) ⟨[], true⟩ = g eos ⟨[], true⟩ := rfl
theorem next_err' (g : Sig → SM Stream β) : (streamOps.next >>= g) ⟨[], false⟩ = (.err, ⟨[], false⟩) := rfl
theorem peek_err' (g : Sig → SM Stream β) : (streamOps.peek >>= g) ⟨[], false⟩ = (.err, ⟨[], false⟩) := rfl

theorem expect_cons (t : Sig) (ts : List Sig) (e : Bool) (ty : TokenType) (h : t.type = ty) :
    expect streamOps ty ⟨t :: ts, e⟩ = (.ok (), ⟨ts, e⟩) := by
  unfold expect
  rw [next_bind, if_pos h]
  rfl

theorem expect_not (t : Sig) (ts : List Sig) (e : Bool) (ty : TokenType) (h : t.type ≠ ty) :
    expect streamOps ty ⟨t :: ts, e⟩ = (.err, ⟨ts, e⟩) := by
  unfold expect
  rw [next_bind, if_neg h]
  rfl

theorem expect_empty (e : Bool) (ty : TokenType) (h : ty ≠ .endOfStream) : expect streamOps ty ⟨[], e⟩ = (.err, ⟨[], e⟩) := by
  cases e
  · rfl
  · unfold expect
    rw [next_end, if_neg (by simpa [eos] using Ne.symm h)]
    rfl

theorem eat_cons (t : Sig) (ts : List Sig) (e : Bool) (ty : TokenType) (h : t.type = ty) :
    eatTok streamOps ty ⟨t :: ts, e⟩ = (.ok true, ⟨ts, e⟩) := by
  unfold eatTok
  rw [peek_bind, if_neg (by simpa using h), SM.bind_ok (expect_cons t ts e ty h)]
  rfl

theorem eat_not (t : Sig) (ts : List Sig) (e : Bool) (ty : TokenType) (h : t.type ≠ ty) :
    eatTok streamOps ty ⟨t :: ts, e⟩ = (.ok false, ⟨t :: ts, e⟩) := by
  unfold eatTok
  rw [peek_bind, if_pos h]
  rfl

theorem eat_end (ty : TokenType) (h : ty ≠ .endOfStream) : eatTok streamOps ty ⟨[], true⟩ = (.ok false, ⟨[], true⟩) := by
  unfold eatTok
  rw [peek_end, if_pos (by simpa [eos] using Ne.symm h)]
  rfl

theorem eat_err (ty : TokenType) : eatTok streamOps ty ⟨[], false⟩ = (.err, ⟨[], false⟩) := rfl

/-- A token that is a name. -/
def Sig.IsId (t : Sig) : Prop := t.type = .id ∨ t.type = .explicitId

instance (t : Sig) : Decidable t.IsId := inferInstanceAs (Decidable (_ ∨ _))

theorem parseId_cons (t : Sig) (ts : List Sig) (e : Bool) (h : t.IsId) :
    parseId streamOps ⟨t :: ts, e⟩ = (.ok t.capture, ⟨ts, e⟩) := by
  unfold parseId
  rw [next_bind]
  rcases h with h | h
  · rw [if_pos h]; rfl
  · rw [if_neg (by simp [h]), if_pos h]; rfl

theorem parseId_not (t : Sig) (ts : List Sig) (e : Bool) (h : ¬ t.IsId) : parseId streamOps ⟨t :: ts, e⟩ = (.err, ⟨ts, e⟩) := by
  unfold parseId
  rw [next_bind, if_neg (fun k => h (.inl k)), if_neg (fun k => h (.inr k))]
  rfl

theorem parseId_empty (e : Bool) : parseId streamOps ⟨[], e⟩ = (.err, ⟨[], e⟩) := by
  cases e <;> rfl

/-- What `parseStaticOrMethod` does, by the first three tokens. -/
theorem static_or_method (n : Nat) (s : Stream) :
    (∃ i c t rest, s.toks = i :: c :: t :: rest ∧ i.IsId ∧ c.type = .colon ∧ t.type = .static ∧
      parseStaticOrMethod streamOps n s = ((do
        let f ← parseFunc streamOps n
        expect streamOps .semicolon
        pure (.static i.capture f)) : SM Stream ResourceMethod) ⟨rest, s.ended⟩) ∨
    (parseStaticOrMethod streamOps n s = ((do
        let f ← parseFuncItem streamOps n
        pure (.method [] f)) : SM Stream ResourceMethod) s) ∨
    (parseStaticOrMethod streamOps n s).1 = .err := by
  rcases s with ⟨ts, e⟩
  unfold parseStaticOrMethod
  simp only [SM.bind_get]
  rcases ts with _ | ⟨i, ts⟩
  · refine .inr (.inr ?_)
    rw [SM.bind_err (parseId_empty e)]
  · by_cases hi : i.IsId
    · rw [SM.bind_ok (parseId_cons i ts e hi)]
      rcases ts with _ | ⟨c, ts⟩
      · refine .inr (.inr ?_)
        rw [SM.bind_err (expect_empty e .colon (by simp))]
      · by_cases hc : c.type = .colon
        · rw [SM.bind_ok (expect_cons c ts e .colon hc)]
          rcases ts with _ | ⟨t, ts⟩
          · cases e
            · exact .inr (.inr rfl)
            · refine .inr (.inl ?_)
              rw [SM.bind_ok (eat_end .static (by simp)), if_neg (by simp)]
              rfl
          · by_cases ht : t.type = .static
            · refine .inl ⟨i, c, t, ts, rfl, hi, hc, ht, ?_⟩
              rw [SM.bind_ok (eat_cons t ts e .static ht), if_pos rfl]
            · refine .inr (.inl ?_)
              rw [SM.bind_ok (eat_not t ts e .static ht), if_neg (by simp)]
              rfl
        · refine .inr (.inr ?_)
          rw [SM.bind_err (expect_not c ts e .colon hc)]
    · refine .inr (.inr ?_)
      rw [SM.bind_err (parseId_not i ts e hi)]

/-- `parseExternType` after a name and a colon. -/
def externRest (n : Nat) (id : List Byte) : SM Stream ExternType := do
  let tok ← streamOps.peek
  if tok.type = .func then do
    let f ← parseFunc streamOps n
    expect streamOps .semicolon
    pure (.func id f)
  else if tok.type = .interface then do
    expect streamOps .interface
    let items ← parseInterfaceItems streamOps n
    pure (.interface id items)
  else SM.fail

/-- `parseExternType` without a colon. -/
def externPath : SM Stream ExternType := do
  let p ← parseUsePath streamOps
  expect streamOps .semicolon
  pure (.usePath p)

/-- What `parseExternType` does, by the first two tokens. -/
theorem extern_cases (n : Nat) (s : Stream) :
    (∃ i c rest, s.toks = i :: c :: rest ∧ i.IsId ∧ c.type = .colon ∧
      parseExternType streamOps n s = externRest n i.capture ⟨rest, s.ended⟩) ∨
    (parseExternType streamOps n s = externPath s) ∨
    (parseExternType streamOps n s).1 = .err := by
  rcases s with ⟨ts, e⟩
  unfold parseExternType
  simp only [SM.bind_get]
  rcases ts with _ | ⟨i, ts⟩
  · refine .inr (.inr ?_)
    rw [SM.bind_err (parseId_empty e)]
  · by_cases hi : i.IsId
    · rw [SM.bind_ok (parseId_cons i ts e hi)]
      rcases ts with _ | ⟨c, ts⟩
      · cases e
        · exact .inr (.inr rfl)
        · refine .inr (.inl ?_)
          rw [SM.bind_ok (eat_end .colon (by simp)), if_neg (by simp)]
          rfl
      · by_cases hc : c.type = .colon
        · refine .inl ⟨i, c, ts, rfl, hi, hc, ?_⟩
          rw [SM.bind_ok (eat_cons c ts e .colon hc), if_pos rfl]
          rfl
        · refine .inr (.inl ?_)
          rw [SM.bind_ok (eat_not c ts e .colon hc), if_neg (by simp)]
          rfl
    · refine .inr (.inr ?_)
      rw [SM.bind_err (parseId_not i ts e hi)]

end Verif.Wit
