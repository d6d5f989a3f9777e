import Verif.Wat.Stream

/-!
# The parser ends

On a stream of fewer than `n` tokens the parser with bound `n` returns a tree or an error.
-/

namespace Verif.Wat

variable {α β : Type}

/-- On fewer than `n` tokens `f` returns, and a success has taken at least `d` tokens. -/
def Safe (n d : Nat) (f : SM Stream α) : Prop :=
  ∀ st : Stream, st.toks.length < n →
    (f st).1.Returns ∧ ∀ a, (f st).1 = .ok a → (f st).2.toks.length + d ≤ st.toks.length

theorem Safe.pure (n : Nat) (a : α) : Safe n 0 (pure a : SM Stream α) :=
  fun _ _ => ⟨.inl ⟨a, rfl⟩, fun _ _ => Nat.le_refl _⟩

theorem Safe.fail (n d : Nat) : Safe n d (SM.fail : SM Stream α) :=
  fun _ _ => ⟨.inr rfl, fun _ h => by simp at h⟩

theorem Safe.lift (n : Nat) {r : Res α} (h : r.Returns) : Safe n 0 (SM.lift r : SM Stream α) :=
  fun _ _ => ⟨h, fun _ _ => Nat.le_refl _⟩

theorem Safe.weaken {n m d e : Nat} {f : SM Stream α} (h : Safe n d f) (hn : m ≤ n) (hd : e ≤ d) : Safe m e f := by
  intro st hs
  obtain ⟨h1, h2⟩ := h st (by omega)
  exact ⟨h1, fun a ha => by have := h2 a ha; omega⟩

theorem Safe.bind {n d e k : Nat} {f : SM Stream α} {g : α → SM Stream β} (h : Safe n d f) (hg : ∀ a, Safe (n - d) e (g a))
    (hk : k ≤ d + e) : Safe n k (f >>= g) := by
  intro st hs
  obtain ⟨h1, h2⟩ := h st hs
  rw [SM.bind_def]
  rcases hf : f st with ⟨r, st'⟩
  rw [hf] at h1 h2
  cases r with
  | ok a =>
    have h3 := h2 a rfl
    simp only at h3
    obtain ⟨k1, k2⟩ := hg a st' (by omega)
    exact ⟨k1, fun b hb => by
      have := k2 b hb
      show (g a st').2.toks.length + k ≤ _
      omega⟩
  | err => exact ⟨.inr rfl, fun a h => by simp at h⟩
  | panic => simp at h1
  | diverge => simp at h1

theorem Safe.ite {n d : Nat} {c : Prop} [Decidable c] {f g : SM Stream α} (h : Safe n d f) (h' : Safe n d g) :
    Safe n d (if c then f else g) := by
  split
  · exact h
  · exact h'

theorem peek_safe (n : Nat) : Safe n 0 streamOps.peek := by
  rintro ⟨_ | ⟨t, ts⟩, e⟩ _
  · cases e <;> simp [streamOps]
  · simp [streamOps]

/-- A call that takes a token and fails at the end. -/
theorem Safe.next {n d : Nat} {g : Sig → SM Stream β} (hg : ∀ t, Safe (n - 1) d (g t)) (he : ∀ st, (g eos st).1 = .err) :
    Safe n (d + 1) (streamOps.next >>= g) := by
  rintro ⟨_ | ⟨t, ts⟩, e⟩ hs
  · cases e
    · exact ⟨.inr rfl, fun a h => by cases (show (Res.err : Res β) = .ok a from h)⟩
    · have : (streamOps.next >>= g) ⟨[], true⟩ = g eos ⟨[], true⟩ := rfl
      rw [this, he]
      exact ⟨.inr rfl, fun a h => by simp at h⟩
  · have : (streamOps.next >>= g) ⟨t :: ts, e⟩ = g t ⟨ts, e⟩ := rfl
    rw [this]
    simp only [List.length_cons] at hs ⊢
    obtain ⟨k1, k2⟩ := hg t ⟨ts, e⟩ (by simp only; omega)
    exact ⟨k1, fun a ha => by have := k2 a ha; simp only at this; omega⟩

theorem expect_safe (n : Nat) (ty : TokenType) (h : ty ≠ .endOfStream) : Safe n 1 (expect streamOps ty) := by
  unfold expect
  refine Safe.next (d := 0) (fun t => Safe.ite (Safe.pure _ _) (Safe.fail _ _)) (fun st => ?_)
  rw [if_neg (by simpa [eos] using Ne.symm h)]; rfl

theorem expectWord_safe (n : Nat) (w : List Byte) : Safe n 1 (expectWord streamOps w) := by
  unfold expectWord
  exact Safe.next (d := 0) (fun t => Safe.ite (Safe.fail _ _) (Safe.ite (Safe.fail _ _) (Safe.pure _ _))) (fun st => rfl)

theorem peek_state (st : Stream) : (streamOps.peek st).2 = st := by
  rcases st with ⟨_ | ⟨t, ts⟩, e⟩
  · cases e <;> rfl
  · rfl

/-- Going on after `eat`. -/
theorem Safe.eat {n d : Nat} {ty : TokenType} (hty : ty ≠ .endOfStream) {g : Bool → SM Stream β} (ht : Safe (n - 1) d (g true))
    (hf : Safe n d (g false)) : Safe n d (Wat.eat streamOps ty >>= g) := by
  intro st hs
  unfold Wat.eat
  rcases hpk : streamOps.peek st with ⟨r, st'⟩
  cases r with
  | ok t =>
    have := peek_state st
    rw [hpk] at this
    simp only at this
    subst this
    rw [SM.bind_def, SM.bind_ok hpk]
    by_cases hc : t.type = ty
    · rw [if_neg (by simpa using hc)]
      rcases st' with ⟨_ | ⟨u, us⟩, e⟩
      · cases e
        · simp [streamOps] at hpk
        · simp only [streamOps, if_true, Prod.mk.injEq, Res.ok.injEq, and_true] at hpk
          subst hpk
          exact absurd hc.symm hty
      · simp only [streamOps, Prod.mk.injEq, Res.ok.injEq, and_true] at hpk
        subst hpk
        have he : expect streamOps ty ⟨u :: us, e⟩ = (.ok (), ⟨us, e⟩) := by
          unfold expect
          rw [SM.bind_def]
          simp [streamOps, hc]
        rw [SM.bind_ok he]
        simp only [SM.pure_def]
        simp only [List.length_cons] at hs ⊢
        obtain ⟨k1, k2⟩ := ht ⟨us, e⟩ (by simp only; omega)
        exact ⟨k1, fun a ha => by have := k2 a ha; simp only at this; omega⟩
    · rw [if_pos hc]
      simp only [SM.pure_def]
      exact hf st' hs
  | err =>
    rw [SM.bind_def, SM.bind_err hpk]
    exact ⟨.inr rfl, fun a h => by simp at h⟩
  | panic =>
    have := (peek_safe n st hs).1
    rw [hpk] at this
    simp at this
  | diverge =>
    have := (peek_safe n st hs).1
    rw [hpk] at this
    simp at this

theorem parens_safe {N : Nat} {f : SM Stream α} (hb : Safe N 0 f) (n : Nat) (hn : n ≤ N + 1) :
    Safe n 0 (parens streamOps f n) := by
  induction n with
  | zero => intro st h; omega
  | succ n ih =>
    unfold parens
    refine Safe.eat (by simp) ?_ ?_
    · rw [if_pos rfl]
      refine Safe.bind (d := 0) (e := 0) (hb.weaken (by omega) (by omega)) (fun x => ?_) (by omega)
      refine Safe.bind (d := 1) (e := 0) (expect_safe _ _ (by simp)) (fun _ => ?_) (by omega)
      refine Safe.bind (d := 0) (e := 0) ((ih (by omega)).weaken (by omega) (by omega)) (fun x => Safe.pure _ _) (by omega)
    · rw [if_neg (by simp)]
      exact Safe.pure _ _

theorem while_safe {N : Nat} {f : SM Stream α} (c : Sig → Bool) (hb : Safe N 1 f) (n : Nat) (hn : n ≤ N) :
    Safe n 0 (while_ streamOps c f n) := by
  induction n with
  | zero => intro st h; omega
  | succ n ih =>
    unfold while_
    refine Safe.bind (d := 0) (e := 0) (peek_safe _) (fun t => Safe.ite ?_ (Safe.pure _ _)) (by omega)
    refine Safe.bind (d := 1) (e := 0) (hb.weaken (by omega) (by omega)) (fun x => ?_) (by omega)
    exact Safe.bind (d := 0) (e := 0) ((ih (by omega)).weaken (by omega) (by omega)) (fun x => Safe.pure _ _) (by omega)

theorem parseId_safe (n : Nat) : Safe n 1 (parseId streamOps) := by
  unfold parseId
  exact Safe.next (d := 0) (fun t => Safe.ite (Safe.fail _ _) (Safe.pure _ _)) (fun st => rfl)

theorem parseOptionalId_safe (n : Nat) : Safe n 0 (parseOptionalId streamOps) := by
  unfold parseOptionalId
  refine Safe.bind (d := 0) (e := 0) (peek_safe _) (fun t => Safe.ite ?_ (Safe.pure _ _)) (by omega)
  exact Safe.bind (d := 1) (e := 0) (parseId_safe _) (fun t => Safe.pure _ _) (by omega)

theorem parseString_safe (n : Nat) : Safe n 1 (parseString streamOps) := by
  unfold parseString
  exact Safe.next (d := 0) (fun t => Safe.ite (Safe.fail _ _) (Safe.pure _ _)) (fun st => rfl)

theorem digitLoop_returns (b m : Nat) (u : Bool) (s : List Byte) (n : Nat) : (Strconv.digitLoop b m u s n).Returns := by
  induction s generalizing n with
  | nil => exact .inl ⟨n, rfl⟩
  | cons c s ih =>
    unfold Strconv.digitLoop
    split
    · exact ih n
    · split
      · simp
      · split
        · simp
        · split
          · simp
          · exact ih _

theorem parseUint_returns (s : List Byte) (bits : Nat) : (Strconv.parseUint s bits).Returns := by
  unfold Strconv.parseUint
  split
  · simp
  · rcases digitLoop_returns (Strconv.prefixBase s).1 (2 ^ bits - 1) true (Strconv.prefixBase s).2 0 with ⟨n, h⟩ | h
    · simp only [h, Res.bind_ok]; split <;> simp
    · simp only [h, Res.bind_err]; simp

theorem parseInt_returns (s : List Byte) (bits : Nat) : (Strconv.parseInt s bits).Returns := by
  unfold Strconv.parseInt
  split
  · simp
  · rename_i b t
    rcases parseUint_returns (if b = ch '+' ∨ b = ch '-' then t else b :: t) bits with ⟨n, h⟩ | h
    · simp only [h, Res.bind_ok]; repeat' split
      all_goals simp
    · simp only [h, Res.bind_err]; simp

theorem atoi_returns (s : List Byte) : (Strconv.atoi s).Returns := by
  unfold Strconv.atoi
  split
  · simp
  · rename_i b t
    simp only
    generalize (if b = ch '+' ∨ b = ch '-' then t else b :: t) = ds
    split
    · simp
    · rcases digitLoop_returns 10 (2 ^ 64 - 1) false ds 0 with ⟨n, h⟩ | h
      · simp only [h, Res.bind_ok]; repeat' split
        all_goals simp
      · simp only [h, Res.bind_err]; simp

theorem integerValue_returns (s : List Byte) : (integerValue s).Returns := by
  unfold integerValue
  split
  · exact parseInt_returns s 32
  · rcases parseUint_returns s 32 with ⟨n, h⟩ | h
    · rw [h]; simp
    · rw [h]; simp

/-- The library calls return a value or an error. -/
structure Lib.Total (lib : Lib) : Prop where
  f32 : ∀ s, (lib.parseFloat32 s).Returns
  f64 : ∀ s, (lib.parseFloat64 s).Returns

theorem parseInt32_safe (n : Nat) : Safe n 1 (parseInt32 streamOps) := by
  unfold parseInt32
  refine Safe.next (d := 0) (fun t => Safe.ite (Safe.fail _ _) ?_) (fun st => rfl)
  exact Safe.bind (d := 0) (e := 0) (Safe.lift _ (integerValue_returns _)) (fun _ => Safe.pure _ _) (by omega)

theorem parseInt64_safe (n : Nat) : Safe n 1 (parseInt64 streamOps) := by
  unfold parseInt64
  refine Safe.next (d := 0) (fun t => Safe.ite (Safe.fail _ _) ?_) (fun st => rfl)
  exact Safe.bind (d := 0) (e := 0) (Safe.lift _ (integerValue_returns _)) (fun _ => Safe.pure _ _) (by omega)

theorem float32Value_returns (lib : Lib) (h : lib.Total) (s : List Byte) : (float32Value lib s).Returns := by
  unfold float32Value
  simp only
  generalize (if (decide (s.head? = some (ch '-'))) = true then s.drop 1 else s) = rest
  split
  · unfold nanBits
    simp only
    split
    · split
      · simp
      · split
        · simp
        · split
          · simp
          · rcases parseUint_returns ((rest.drop 3).drop 1) 32 with ⟨n, h⟩ | h
            · rw [h]; simp
            · rw [h]; simp
    · simp
  · exact h.f32 s

theorem constFloat32_safe (lib : Lib) (h : lib.Total) (n : Nat) : Safe n 1 (constFloat32 streamOps lib) := by
  unfold constFloat32 peekFloat
  refine Safe.bind (d := 0) (e := 1) (Safe.bind (d := 0) (e := 0) (peek_safe _) (fun _ => Safe.pure _ _) (by omega))
    (fun b => Safe.ite ?_ ?_) (by omega)
  · unfold parseFloat32
    exact Safe.next (d := 0) (fun t => Safe.ite (Safe.fail _ _) (Safe.lift _ (float32Value_returns lib h _))) (fun st => rfl)
  · exact Safe.bind (d := 1) (e := 0) (parseInt32_safe _) (fun _ => Safe.pure _ _) (by omega)

theorem constFloat64_safe (lib : Lib) (h : lib.Total) (n : Nat) : Safe n 1 (constFloat64 streamOps lib) := by
  unfold constFloat64 peekFloat
  refine Safe.bind (d := 0) (e := 1) (Safe.bind (d := 0) (e := 0) (peek_safe _) (fun _ => Safe.pure _ _) (by omega))
    (fun b => Safe.ite ?_ ?_) (by omega)
  · unfold parseFloat64
    exact Safe.next (d := 0) (fun t => Safe.ite (Safe.fail _ _) (Safe.lift _ (h.f64 _))) (fun st => rfl)
  · exact Safe.bind (d := 1) (e := 0) (parseInt64_safe _) (fun _ => Safe.pure _ _) (by omega)

theorem parseIndex_safe (n : Nat) : Safe n 1 (parseIndex streamOps) := by
  unfold parseIndex
  refine Safe.next (d := 0) (fun t => Safe.ite ?_ (Safe.ite (Safe.pure _ _) (Safe.fail _ _))) (fun st => rfl)
  exact Safe.bind (d := 0) (e := 0) (Safe.lift _ (atoi_returns _)) (fun _ => Safe.pure _ _) (by omega)

theorem parseValType_safe (n : Nat) : Safe n 1 (parseValType streamOps) := by
  unfold parseValType
  refine Safe.next (d := 0) (fun t => ?_) (fun st => rfl)
  cases valTypes.lookup t.capture with
  | none => exact Safe.fail _ _
  | some _ => exact Safe.pure _ _

/-- `bind` of calls that take at least one token and at least none. -/
theorem Safe.bind1 {n : Nat} {f : SM Stream α} {g : α → SM Stream β} (h : Safe n 1 f) (hg : ∀ a, Safe n 0 (g a)) :
    Safe n 1 (f >>= g) := Safe.bind h (fun a => (hg a).weaken (by omega) (Nat.le_refl _)) (by omega)

/-- `bind` of calls that take at least none. -/
theorem Safe.bind0 {n d : Nat} {f : SM Stream α} {g : α → SM Stream β} (h : Safe n 0 f) (hg : ∀ a, Safe n d (g a)) :
    Safe n d (f >>= g) := Safe.bind h hg (by omega)

theorem Safe.drop {n d : Nat} {f : SM Stream α} (h : Safe n d f) : Safe n 0 f := h.weaken (Nat.le_refl _) (Nat.zero_le _)

theorem parseLocal_safe (n : Nat) : Safe n 1 (parseLocal streamOps) :=
  Safe.bind1 (expectWord_safe _ _) fun _ => (parseValType_safe _).drop

theorem parseParameter_safe (n : Nat) : Safe n 1 (parseParameter streamOps n) := by
  unfold parseParameter parameterTypes
  refine Safe.bind1 (expectWord_safe _ _) fun _ => Safe.bind0 (parseOptionalId_safe _) fun id =>
    Safe.bind0 (Safe.ite ?_ ?_) fun _ => Safe.pure _ _
  · exact (Safe.bind1 (parseValType_safe _) fun _ => Safe.pure _ _).drop
  · exact while_safe _ (parseValType_safe _) n (Nat.le_refl _)

theorem parseResult_safe (n : Nat) : Safe n 1 (parseResult streamOps) :=
  Safe.bind1 (expectWord_safe _ _) fun _ => (Safe.bind1 (parseValType_safe _) fun _ => Safe.pure _ _).drop

theorem parseFuncType_safe (n : Nat) : Safe n 1 (parseFuncType streamOps n) := by
  refine Safe.bind1 (expectWord_safe _ _) fun _ => Safe.bind0 (parens_safe (N := n) ?_ n (by omega)) fun _ => Safe.pure _ _
  unfold parseFuncTypeItem
  refine Safe.bind0 (peek_safe _) fun t => Safe.ite ?_ (Safe.ite ?_ (Safe.pure _ _))
  · exact (Safe.bind1 (parseParameter_safe _) fun _ => Safe.pure _ _).drop
  · exact (Safe.bind1 (parseResult_safe _) fun _ => Safe.pure _ _).drop

theorem parseType_safe (n : Nat) : Safe n 1 (parseType streamOps n) := by
  refine Safe.bind1 (expectWord_safe _ _) fun _ => Safe.bind0 (parseOptionalId_safe _) fun _ =>
    Safe.bind0 ?_ fun _ => Safe.pure _ _
  unfold typeBody
  refine Safe.eat (by simp) ?_ ?_
  · rw [if_pos rfl]
    exact (Safe.bind1 ((parseFuncType_safe n).weaken (by omega) (by omega)) fun _ =>
      (Safe.bind1 (expect_safe _ _ (by simp)) fun _ => Safe.pure _ _).drop).drop
  · rw [if_neg (by simp)]; exact Safe.pure _ _

theorem parseLimits_safe (n : Nat) : Safe n 1 (parseLimits streamOps) := by
  refine Safe.bind1 (parseInt32_safe _) fun _ => Safe.bind0 ?_ fun _ => Safe.pure _ _
  unfold limitsMax
  exact Safe.bind0 (peek_safe _) fun _ => Safe.ite (Safe.bind1 (parseInt32_safe _) fun _ => Safe.pure _ _).drop (Safe.pure _ _)

theorem parseTableType_safe (n : Nat) : Safe n 1 (parseTableType streamOps) := by
  unfold parseTableType tableLimits
  refine Safe.bind0 (Safe.bind0 (peek_safe _) fun _ => Safe.ite (parseLimits_safe _).drop (Safe.pure _ _)) fun _ => ?_
  exact Safe.next (d := 0) (fun t => Safe.ite (Safe.fail _ _) (Safe.pure _ _)) (fun st => rfl)

theorem parseTable_safe (n : Nat) : Safe n 1 (parseTable streamOps n) := by
  refine Safe.bind1 (expectWord_safe _ _) fun _ => Safe.bind0 (parseOptionalId_safe _) fun _ =>
    Safe.bind0 (parseTableType_safe _).drop fun _ => Safe.bind0 (parens_safe (N := n) ?_ n (by omega)) fun _ => Safe.pure _ _
  unfold parseElement
  refine (Safe.next (d := 0) (fun t => Safe.ite (Safe.fail _ _) (Safe.ite ?_ (Safe.fail _ _))) (fun st => rfl)).drop
  exact (parseId_safe _).drop

theorem parseMemory_safe (n : Nat) : Safe n 1 (parseMemory streamOps) :=
  Safe.bind1 (expectWord_safe _ _) fun _ => Safe.bind0 (parseOptionalId_safe _) fun _ =>
    Safe.bind0 (parseLimits_safe _).drop fun _ => Safe.pure _ _

theorem parseExport_safe (n : Nat) : Safe n 1 (parseExport streamOps) :=
  Safe.bind1 (expectWord_safe _ _) fun _ => (parseString_safe _).drop

theorem parseImport_safe (n : Nat) : Safe n 1 (parseImport streamOps) :=
  Safe.bind1 (expectWord_safe _ _) fun _ => Safe.bind0 (parseString_safe _).drop fun _ =>
    Safe.bind0 (parseString_safe _).drop fun _ => Safe.pure _ _

theorem parseTypeUse_safe (n : Nat) : Safe n 1 (parseTypeUse streamOps) :=
  Safe.bind1 (expect_safe _ _ (by simp)) fun _ => Safe.bind0 (expectWord_safe _ _).drop fun _ =>
    Safe.bind0 (parseId_safe _).drop fun _ => Safe.bind0 (expect_safe _ _ (by simp)).drop fun _ => Safe.pure _ _

/-- Going back to an earlier state. -/
theorem Safe.restore {n : Nat} {f : Stream → SM Stream α}
    (h : ∀ s : Stream, s.toks.length < n → (f s s).1.Returns ∧ ∀ a, (f s s).1 = .ok a → (f s s).2.toks.length ≤ s.toks.length) :
    Safe n 0 (SM.get >>= f) := fun st hs => h st hs

/-- Whether fewer than `n` tokens are left. -/
def probe (n : Nat) (b : Bool) : SM Stream Unit := fun st =>
  (if b then if st.toks.length < n then .ok () else .panic else .ok (), st)

theorem parseBlockType_safe (n : Nat) : Safe n 0 (parseBlockType streamOps n) := by
  induction n with
  | zero => intro st h; omega
  | succ n ih =>
    unfold parseBlockType
    refine Safe.restore fun s hs => ?_
    have hback : ∀ st : Stream, ((SM.modify (fun _ => s) >>= fun _ => pure []) : SM Stream (List Result)) st = (.ok [], s) := fun _ => rfl
    have hgo : Safe n 0 (do
        expectWord streamOps (txt "result")
        let ts ← while_ streamOps (fun tok => tok.type != .closeParen) (parseValType streamOps) n
        expect streamOps .closeParen
        let rs ← parseBlockType streamOps n
        pure (⟨ts⟩ :: rs)) :=
      Safe.bind0 (expectWord_safe _ _).drop fun _ => Safe.bind0 (while_safe _ (parseValType_safe _) n (Nat.le_refl _)) fun _ =>
        Safe.bind0 (expect_safe _ _ (by simp)).drop fun _ => Safe.bind0 ih fun _ => Safe.pure _ _
    rcases hb : eat streamOps .openParen s with ⟨r, s'⟩
    have he : Safe (n + 1) 0 (eat streamOps .openParen >>= fun b => if b then (expect streamOps .closeParen >>= fun _ => pure b) else pure b) :=
      Safe.eat (by simp) ((Safe.bind1 (expect_safe _ _ (by simp)) fun _ => Safe.pure _ _).drop) (Safe.pure _ _)
    cases r with
    | ok b =>
      rw [SM.bind_ok hb]
      cases b with
      | false =>
        rw [if_neg (by simp), hback]
        exact ⟨.inl ⟨[], rfl⟩, fun a _ => Nat.le_refl _⟩
      | true =>
        rw [if_pos rfl]
        have hlen : s'.toks.length < n ∧ s'.toks.length ≤ s.toks.length := by
          have h1 := Safe.eat (n := n + 1) (d := 0) (ty := .openParen) (by simp) (g := probe n)
            (by
              intro st h
              have : st.toks.length < n := by omega
              simp only [probe, if_true, if_pos this]
              exact ⟨.inl ⟨_, rfl⟩, fun _ _ => Nat.le_refl _⟩) (fun st h => ⟨.inl ⟨_, rfl⟩, fun _ _ => Nat.le_refl _⟩) s hs
          rw [SM.bind_ok hb] at h1
          simp only [probe, if_true] at h1
          by_cases hc : s'.toks.length < n
          · rw [if_pos hc] at h1
            exact ⟨hc, by have := h1.2 () rfl; simpa using this⟩
          · rw [if_neg hc] at h1
            simp at h1
        rcases hp : streamOps.peek s' with ⟨r, s2⟩
        have hs2 : s2 = s' := by
          have := peek_state s'
          rw [hp] at this
          exact this
        subst hs2
        have hpr := (peek_safe n s2 hlen.1).1
        rw [hp] at hpr
        cases r with
        | ok t =>
          rw [SM.bind_ok hp]
          by_cases hc : t.capture = txt "result"
          · rw [if_neg (by simpa using hc)]
            obtain ⟨k1, k2⟩ := hgo s2 hlen.1
            exact ⟨k1, fun a ha => by have := k2 a ha; omega⟩
          · rw [if_pos hc, hback]
            exact ⟨.inl ⟨[], rfl⟩, fun a _ => Nat.le_refl _⟩
        | err => rw [SM.bind_err hp]; exact ⟨.inr rfl, fun a h => by simp at h⟩
        | panic => simp at hpr
        | diverge => simp at hpr
    | err => rw [SM.bind_err hb]; exact ⟨.inr rfl, fun a h => by simp at h⟩
    | panic =>
      have := (he s hs).1
      rw [SM.bind_panic hb] at this
      simp at this
    | diverge =>
      have := (he s hs).1
      rw [SM.bind_diverge hb] at this
      simp at this

theorem parseHead_safe (lib : Lib) (h : lib.Total) (n : Nat) (f : SM Stream Inst) (hf : Safe n 1 f) (w : List Byte) :
    Safe n 0 (parseHead streamOps lib f n w) := by
  have hp := parens_safe hf.drop n (by omega)
  have hblock : ∀ mk, Safe n 0 (parseBlock streamOps mk f n) := fun mk =>
    Safe.bind0 (parseOptionalId_safe _) fun _ => Safe.bind0 (parseBlockType_safe _) fun _ => Safe.bind0 hp fun _ => Safe.pure _ _
  have hitem : Safe n 0 (parseIfItem streamOps f n) := by
    unfold parseIfItem
    refine Safe.bind0 (peek_safe _) fun _ => Safe.ite ?_ (Safe.ite ?_ (Safe.ite ?_ ?_))
    · exact (Safe.bind1 (parseResult_safe _) fun _ => Safe.pure _ _).drop
    · exact (Safe.bind1 (expectWord_safe _ _) fun _ => Safe.bind0 hp fun _ => Safe.pure _ _).drop
    · exact (Safe.bind1 (expectWord_safe _ _) fun _ => Safe.bind0 hp fun _ => Safe.pure _ _).drop
    · exact (Safe.bind1 hf fun _ => Safe.pure _ _).drop
  have hif : Safe n 0 (parseIf streamOps f n) :=
    Safe.bind0 (parseOptionalId_safe _) fun _ => Safe.bind0 (parens_safe hitem n (by omega)) fun _ => Safe.pure _ _
  unfold parseHead
  cases plainWords.lookup w with
  | some _ => exact Safe.pure _ _
  | none =>
    cases indexedWords.lookup w with
    | some _ => exact (Safe.bind1 (parseIndex_safe _) fun _ => Safe.pure _ _).drop
    | none =>
      simp only
      refine Safe.ite (Safe.pure _ _) (Safe.ite ?_ (Safe.ite ?_ (Safe.ite ?_ (Safe.ite ?_ (Safe.ite (hblock _) (Safe.ite (hblock _)
        (Safe.ite hif (Safe.ite ?_ (Safe.fail _ _)))))))))
      · exact (Safe.bind1 (parseInt32_safe _) fun _ => Safe.pure _ _).drop
      · exact (Safe.bind1 (parseInt64_safe _) fun _ => Safe.pure _ _).drop
      · exact (Safe.bind1 (constFloat32_safe lib h _) fun _ => Safe.pure _ _).drop
      · exact (Safe.bind1 (constFloat64_safe lib h _) fun _ => Safe.pure _ _).drop
      · exact (Safe.bind1 (parseTypeUse_safe _) fun _ => Safe.pure _ _).drop

theorem parseInstruction_safe (lib : Lib) (h : lib.Total) (n : Nat) : Safe n 1 (parseInstruction streamOps lib n) := by
  induction n with
  | zero => intro st h; omega
  | succ n ih =>
    unfold parseInstruction
    refine Safe.next (d := 0) (fun t => Safe.ite (Safe.fail _ _) ?_) (fun st => rfl)
    refine Safe.bind0 (parseHead_safe lib h n _ ih _) fun i => ?_
    unfold parseFolded
    exact Safe.bind0 (peek_safe _) fun _ => Safe.ite (Safe.pure _ _)
      (Safe.bind0 (parens_safe ih.drop n (by omega)) fun _ => Safe.pure _ _)

theorem parseGlobal_safe (lib : Lib) (h : lib.Total) (n : Nat) : Safe n 1 (parseGlobal streamOps lib n) := by
  refine Safe.bind1 (expectWord_safe _ _) fun _ => Safe.bind0 (parseOptionalId_safe _) fun _ => Safe.bind0 ?_ fun _ =>
    Safe.bind0 (parens_safe (parseInstruction_safe lib h n).drop n (by omega)) fun _ => Safe.pure _ _
  unfold parseGlobalType
  refine Safe.eat (by simp) ?_ ?_
  · rw [if_pos rfl]
    exact (Safe.bind1 (expectWord_safe _ _) fun _ => Safe.bind0 (parseValType_safe _).drop fun _ =>
      Safe.bind0 (expect_safe _ _ (by simp)).drop fun _ => Safe.pure _ _).drop
  · rw [if_neg (by simp)]
    exact (Safe.bind1 (parseValType_safe _) fun _ => Safe.pure _ _).drop

theorem parseFunc_safe (lib : Lib) (h : lib.Total) (n : Nat) : Safe n 1 (parseFunc streamOps lib n) := by
  have hi := parseInstruction_safe lib h n
  refine Safe.bind1 (expectWord_safe _ _) fun _ => Safe.bind0 (parseOptionalId_safe _) fun _ =>
    Safe.bind0 (parens_safe (N := n) ?_ n (by omega)) fun _ => Safe.bind0 (while_safe _ hi n (by omega)) fun _ => Safe.pure _ _
  unfold parseFuncItem
  refine Safe.bind0 (peek_safe _) fun _ => Safe.ite ?_ (Safe.ite ?_ (Safe.ite ?_ (Safe.ite ?_ (Safe.ite ?_ ?_))))
  · exact (Safe.bind1 (parseLocal_safe _) fun _ => Safe.pure _ _).drop
  · exact (Safe.bind1 (parseParameter_safe _) fun _ => Safe.pure _ _).drop
  · exact (Safe.bind1 (parseResult_safe _) fun _ => Safe.pure _ _).drop
  · exact (Safe.bind1 (parseExport_safe _) fun _ => Safe.pure _ _).drop
  · exact (Safe.bind1 (parseImport_safe _) fun _ => Safe.pure _ _).drop
  · exact (Safe.bind1 hi fun _ => Safe.pure _ _).drop

theorem parse_safe (lib : Lib) (h : lib.Total) (n : Nat) : Safe n 1 (parse streamOps lib n) := by
  refine Safe.bind1 (expect_safe _ _ (by simp)) fun _ => Safe.bind0 ?_ fun _ =>
    Safe.bind0 (expect_safe _ _ (by simp)).drop fun _ => Safe.pure _ _
  unfold parseRoot
  refine Safe.bind0 (peek_safe _) fun _ => Safe.ite ?_ (Safe.ite ?_ (Safe.fail _ _))
  · refine (Safe.bind1 (Safe.bind1 (expect_safe _ _ (by simp)) fun _ =>
      Safe.bind0 (parens_safe (N := n) ?_ n (by omega)) fun _ => Safe.pure _ _) fun _ => Safe.pure _ _).drop
    unfold parseSection
    refine Safe.bind0 (peek_safe _) fun _ => Safe.ite ?_ (Safe.ite ?_ (Safe.ite ?_ (Safe.ite ?_ (Safe.ite ?_ (Safe.fail _ _)))))
    · exact (Safe.bind1 (parseFunc_safe lib h _) fun _ => Safe.pure _ _).drop
    · exact (Safe.bind1 (parseType_safe _) fun _ => Safe.pure _ _).drop
    · exact (Safe.bind1 (parseTable_safe _) fun _ => Safe.pure _ _).drop
    · exact (Safe.bind1 (parseGlobal_safe lib h _) fun _ => Safe.pure _ _).drop
    · exact (Safe.bind1 (parseMemory_safe _) fun _ => Safe.pure _ _).drop
  · exact (Safe.bind1 (expect_safe _ _ (by simp)) fun _ => Safe.pure _ _).drop

end Verif.Wat
