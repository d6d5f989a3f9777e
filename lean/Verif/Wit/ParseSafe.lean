import Verif.Wit.StreamStep

/-!
# The parser ends

On a stream of fewer than `n` tokens the parser with bound `n` returns a tree or an error.
-/

namespace Verif.Wit

variable {α β : Type}

/-- On fewer than `n` tokens `f` returns, and a success has taken at least `d` tokens. -/
def Safe (n d : Nat) (f : SM Stream α) : Prop :=
  ∀ st : Stream, st.toks.length < n →
    (f st).1.Returns ∧ ∀ a, (f st).1 = .ok a → (f st).2.toks.length + d ≤ st.toks.length

theorem Safe.pure (n : Nat) (a : α) : Safe n 0 (pure a : SM Stream α) :=
  fun _ _ => ⟨.inl ⟨a, rfl⟩, fun _ _ => Nat.le_refl _⟩

theorem Safe.fail (n d : Nat) : Safe n d (SM.fail : SM Stream α) :=
  fun _ _ => ⟨.inr rfl, fun _ h => by simp at h⟩

theorem Safe.lift (n : Nat) {r : Res α} (h : r.Returns) : Safe n 0 (SM.lift r : SM Stream α) :=
  fun _ _ => ⟨h, fun _ _ => Nat.le_refl _⟩

theorem Safe.weaken {n m d e : Nat} {f : SM Stream α} (h : Safe n d f) (hn : m ≤ n) (hd : e ≤ d) : Safe m e f := by
  intro st hs
  obtain ⟨h1, h2⟩ := h st (by omega)
  exact ⟨h1, fun a ha => by have := h2 a ha; omega⟩

theorem Safe.bind {n d e k : Nat} {f : SM Stream α} {g : α → SM Stream β} (h : Safe n d f) (hg : ∀ a, Safe (n - d) e (g a))
    (hk : k ≤ d + e) : Safe n k (f >>= g) := by
  intro st hs
  obtain ⟨h1, h2⟩ := h st hs
  rw [SM.bind_def]
  rcases hf : f st with ⟨r, st'⟩
  rw [hf] at h1 h2
  cases r with
  | ok a =>
    have h3 := h2 a rfl
    simp only at h3
    obtain ⟨k1, k2⟩ := hg a st' (by omega)
    exact ⟨k1, fun b hb => by
      have := k2 b hb
      show (g a st').2.toks.length + k ≤ _
      omega⟩
  | err => exact ⟨.inr rfl, fun a h => by simp at h⟩
  | panic => simp at h1
  | diverge => simp at h1

theorem Safe.ite {n d : Nat} {c : Prop} [Decidable c] {f g : SM Stream α} (h : Safe n d f) (h' : Safe n d g) :
    Safe n d (if c then f else g) := by
  split
  · exact h
  · exact h'

theorem peek_safe (n : Nat) : Safe n 0 streamOps.peek := by
  rintro ⟨_ | ⟨t, ts⟩, e⟩ _
  · cases e <;> simp [streamOps]
  · simp [streamOps]

/-- A call that takes a token and fails at the end. -/
theorem Safe.next {n d : Nat} {g : Sig → SM Stream β} (hg : ∀ t, Safe (n - 1) d (g t)) (he : ∀ st, (g eos st).1 = .err) :
    Safe n (d + 1) (streamOps.next >>= g) := by
  rintro ⟨_ | ⟨t, ts⟩, e⟩ hs
  · cases e
    · exact ⟨.inr rfl, fun a h => by cases (show (Res.err : Res β) = .ok a from h)⟩
    · have : (streamOps.next >>= g) ⟨[], true⟩ = g eos ⟨[], true⟩ := rfl
      rw [this, he]
      exact ⟨.inr rfl, fun a h => by simp at h⟩
  · have : (streamOps.next >>= g) ⟨t :: ts, e⟩ = g t ⟨ts, e⟩ := rfl
    rw [this]
    simp only [List.length_cons] at hs ⊢
    obtain ⟨k1, k2⟩ := hg t ⟨ts, e⟩ (by simp only; omega)
    exact ⟨k1, fun a ha => by have := k2 a ha; simp only at this; omega⟩

theorem expect_safe (n : Nat) (ty : TokenType) (h : ty ≠ .endOfStream) : Safe n 1 (expect streamOps ty) := by
  unfold expect
  refine Safe.next (d := 0) (fun t => Safe.ite (Safe.pure _ _) (Safe.fail _ _)) (fun st => ?_)
  rw [if_neg (by simpa [eos] using Ne.symm h)]; rfl

theorem peek_state (st : Stream) : (streamOps.peek st).2 = st := by
  rcases st with ⟨_ | ⟨t, ts⟩, e⟩
  · cases e <;> rfl
  · rfl

/-- Going on after `eat`. -/
theorem Safe.eat {n d : Nat} {ty : TokenType} (hty : ty ≠ .endOfStream) {g : Bool → SM Stream β} (ht : Safe (n - 1) d (g true))
    (hf : Safe n d (g false)) : Safe n d (Wit.eatTok streamOps ty >>= g) := by
  intro st hs
  unfold Wit.eatTok
  rcases hpk : streamOps.peek st with ⟨r, st'⟩
  cases r with
  | ok t =>
    have := peek_state st
    rw [hpk] at this
    simp only at this
    subst this
    rw [SM.bind_def, SM.bind_ok hpk]
    by_cases hc : t.type = ty
    · rw [if_neg (by simpa using hc)]
      rcases st' with ⟨_ | ⟨u, us⟩, e⟩
      · cases e
        · simp [streamOps] at hpk
        · simp only [streamOps, if_true, Prod.mk.injEq, Res.ok.injEq, and_true] at hpk
          subst hpk
          exact absurd hc.symm hty
      · simp only [streamOps, Prod.mk.injEq, Res.ok.injEq, and_true] at hpk
        subst hpk
        have he : expect streamOps ty ⟨u :: us, e⟩ = (.ok (), ⟨us, e⟩) := by
          unfold expect
          rw [SM.bind_def]
          simp [streamOps, hc]
        rw [SM.bind_ok he]
        simp only [SM.pure_def]
        simp only [List.length_cons] at hs ⊢
        obtain ⟨k1, k2⟩ := ht ⟨us, e⟩ (by simp only; omega)
        exact ⟨k1, fun a ha => by have := k2 a ha; simp only at this; omega⟩
    · rw [if_pos hc]
      simp only [SM.pure_def]
      exact hf st' hs
  | err =>
    rw [SM.bind_def, SM.bind_err hpk]
    exact ⟨.inr rfl, fun a h => by simp at h⟩
  | panic =>
    have := (peek_safe n st hs).1
    rw [hpk] at this
    simp at this
  | diverge =>
    have := (peek_safe n st hs).1
    rw [hpk] at this
    simp at this

theorem digitLoop_returns (b m : Nat) (u : Bool) (s : List Byte) (n : Nat) : (Strconv.digitLoop b m u s n).Returns := by
  induction s generalizing n with
  | nil => exact .inl ⟨n, rfl⟩
  | cons c s ih =>
    unfold Strconv.digitLoop
    split
    · exact ih n
    · split
      · simp
      · split
        · simp
        · split
          · simp
          · exact ih _

theorem parseUint_returns (s : List Byte) (bits : Nat) : (Strconv.parseUint s bits).Returns := by
  unfold Strconv.parseUint
  split
  · simp
  · rcases digitLoop_returns (Strconv.prefixBase s).1 (2 ^ bits - 1) true (Strconv.prefixBase s).2 0 with ⟨n, h⟩ | h
    · simp only [h, Res.bind_ok]; split <;> simp
    · simp only [h, Res.bind_err]; simp

theorem parseInt_returns (s : List Byte) (bits : Nat) : (Strconv.parseInt s bits).Returns := by
  unfold Strconv.parseInt
  split
  · simp
  · rename_i b t
    rcases parseUint_returns (if b = ch '+' ∨ b = ch '-' then t else b :: t) bits with ⟨n, h⟩ | h
    · simp only [h, Res.bind_ok]; repeat' split
      all_goals simp
    · simp only [h, Res.bind_err]; simp

/-- `bind` of calls that take at least one token and at least none. -/
theorem Safe.bind1 {n : Nat} {f : SM Stream α} {g : α → SM Stream β} (h : Safe n 1 f) (hg : ∀ a, Safe n 0 (g a)) :
    Safe n 1 (f >>= g) := Safe.bind h (fun a => (hg a).weaken (by omega) (Nat.le_refl _)) (by omega)

/-- `bind` of calls that take at least none. -/
theorem Safe.bind0 {n d : Nat} {f : SM Stream α} {g : α → SM Stream β} (h : Safe n 0 f) (hg : ∀ a, Safe n d (g a)) :
    Safe n d (f >>= g) := Safe.bind h hg (by omega)

theorem Safe.drop {n d : Nat} {f : SM Stream α} (h : Safe n d f) : Safe n 0 f := h.weaken (Nat.le_refl _) (Nat.zero_le _)

/-- A call that takes a token or meets the end. -/
theorem Safe.next0 {n d : Nat} {g : Sig → SM Stream β} (hg : ∀ t, Safe (n - 1) d (g t))
    (he : ∀ e, (g eos ⟨[], e⟩).1.Returns ∧ (g eos ⟨[], e⟩).2.toks = []) : Safe n 0 (streamOps.next >>= g) := by
  rintro ⟨_ | ⟨t, ts⟩, e⟩ hs
  · cases e
    · exact ⟨.inr rfl, fun a h => by cases (show (Res.err : Res β) = .ok a from h)⟩
    · rw [next_end]
      exact ⟨(he true).1, fun a h => by rw [(he true).2]; simp⟩
  · rw [next_bind]
    simp only [List.length_cons] at hs ⊢
    obtain ⟨k1, k2⟩ := hg t ⟨ts, e⟩ (by simp only; omega)
    exact ⟨k1, fun a ha => by have := k2 a ha; simp only at this; omega⟩

theorem parseId_safe (n : Nat) : Safe n 1 (parseId streamOps) := by
  unfold parseId
  exact Safe.next (d := 0) (fun t => Safe.ite (Safe.pure _ _) (Safe.ite (Safe.pure _ _) (Safe.fail _ _))) (fun st => rfl)

theorem parseInteger_safe (n : Nat) : Safe n 1 (parseInteger streamOps) := by
  unfold parseInteger
  exact Safe.next (d := 0) (fun t => Safe.ite (Safe.lift _ (parseInt_returns _ _)) (Safe.fail _ _)) (fun st => rfl)

/-- Going on after `eat` in either way. -/
theorem Safe.eatIf {n d : Nat} {ty : TokenType} (hty : ty ≠ .endOfStream) {g h : SM Stream β} (ht : Safe n d g)
    (hf : Safe n d h) : Safe n d (Wit.eatTok streamOps ty >>= fun b => if b then g else h) :=
  Safe.eat hty (by rw [if_pos rfl]; exact ht.weaken (by omega) (Nat.le_refl _)) (by rw [if_neg (by simp)]; exact hf)

theorem untilTok_safe {N : Nat} {f : SM Stream α} (c : TokenType) (hc : c ≠ .endOfStream) (hb : Safe N 1 f) (n : Nat) (hn : n ≤ N) :
    Safe n 0 (untilTok streamOps c f n) := by
  induction n with
  | zero => intro st h; omega
  | succ n ih =>
    unfold untilTok
    refine Safe.eatIf hc (Safe.pure _ _) ?_
    refine Safe.bind (d := 1) (e := 0) (hb.weaken (by omega) (by omega)) (fun x => ?_) (by omega)
    exact Safe.bind (d := 0) (e := 0) ((ih (by omega)).weaken (by omega) (by omega)) (fun x => Safe.pure _ _) (by omega)

theorem itemLoop_safe {N : Nat} {f : SM Stream α} (c : TokenType) (hc : c ≠ .endOfStream) (hb : Safe N 0 f) (n : Nat) (hn : n ≤ N) :
    Safe n 0 (itemLoop streamOps c f n) := by
  induction n with
  | zero => intro st h; omega
  | succ n ih =>
    unfold itemLoop
    refine Safe.eatIf hc (Safe.pure _ _) (Safe.bind0 (hb.weaken (by omega) (by omega)) fun x => ?_)
    refine Safe.eat (by simp) ?_ ?_
    · rw [if_pos rfl]
      exact Safe.bind0 (ih (by omega)) fun _ => Safe.pure _ _
    · rw [if_neg (by simp)]
      exact (Safe.bind1 (expect_safe _ _ hc) fun _ => Safe.pure _ _).drop

theorem parseItemList_safe {n : Nat} {f : SM Stream α} (b c : TokenType) (hb : b ≠ .endOfStream) (hc : c ≠ .endOfStream)
    (hf : Safe n 0 f) : Safe n 1 (parseItemList streamOps b c f n) :=
  Safe.bind1 (expect_safe _ _ hb) fun _ => itemLoop_safe c hc hf n (Nat.le_refl _)

theorem expect_bind {n d : Nat} {ty : TokenType} (h : ty ≠ .endOfStream) {g : Unit → SM Stream β} (hg : Safe n d (g ())) :
    Safe n d (expect streamOps ty >>= g) := Safe.bind0 (expect_safe _ _ h).drop fun _ => hg

theorem parsePair_safe {n : Nat} {f : SM Stream Ty} (hf : Safe n 0 f) : Safe n 0 (parsePair streamOps f) := by
  have h1 : Safe n 0 (parseSecond streamOps f) := Safe.eatIf (by simp) (Safe.bind0 hf fun _ => Safe.pure _ _) (Safe.pure _ _)
  have h2 : Safe n 0 (parsePairInner streamOps f) := by
    refine Safe.eatIf (by simp) (expect_bind (by simp) (Safe.bind0 hf fun _ => Safe.pure _ _)) ?_
    exact Safe.bind0 hf fun _ => Safe.bind0 h1 fun _ => Safe.pure _ _
  exact Safe.eatIf (by simp) (Safe.bind0 h2 fun _ => expect_bind (by simp) (Safe.pure _ _)) (Safe.pure _ _)

theorem parseTypeOf_safe {n : Nat} {f : SM Stream Ty} (hf : Safe n 0 f) (t : Sig) : Safe n 0 (parseTypeOf streamOps f n t) := by
  have h1 := parsePair_safe hf
  have h2 : Safe n 0 (parseFuture streamOps f) :=
    Safe.eatIf (by simp) (Safe.bind0 hf fun _ => expect_bind (by simp) (Safe.pure _ _)) (Safe.pure _ _)
  have h3 : Safe n 0 (parseBracketed streamOps f) :=
    expect_bind (by simp) (Safe.bind0 hf fun _ => expect_bind (by simp) (Safe.pure _ _))
  have h4 : Safe n 0 (parseHandle streamOps) :=
    expect_bind (by simp) (Safe.bind0 (parseId_safe _).drop fun _ => expect_bind (by simp) (Safe.pure _ _))
  have h5 := (parseItemList_safe .less .greater (by simp) (by simp) hf).drop
  unfold parseTypeOf
  repeat first
    | exact Safe.pure _ _
    | refine Safe.ite ?_ ?_
    | exact Safe.bind0 h1 fun _ => Safe.pure _ _
    | exact Safe.bind0 h2 fun _ => Safe.pure _ _
    | exact Safe.bind0 h3 fun _ => Safe.pure _ _
    | exact Safe.bind0 h4 fun _ => Safe.pure _ _
    | exact Safe.bind0 h5 fun _ => Safe.pure _ _

theorem parseType_safe (n : Nat) : Safe n 0 (parseType streamOps n) := by
  induction n with
  | zero => intro st h; omega
  | succ n ih =>
    unfold parseType
    exact Safe.next0 (d := 0) (fun t => parseTypeOf_safe ih t) (fun e => ⟨.inl ⟨_, rfl⟩, rfl⟩)

theorem parseParameter_safe (n : Nat) : Safe n 1 (parseParameter streamOps n) :=
  Safe.bind1 (parseId_safe _) fun _ => expect_bind (by simp) (Safe.bind0 (parseType_safe _) fun _ => Safe.pure _ _)

theorem parameterLoop_safe (N n : Nat) (hn : n ≤ N) : Safe n 0 (parameterLoop streamOps N n) := by
  induction n with
  | zero => intro st h; omega
  | succ n ih =>
    unfold parameterLoop
    refine Safe.eatIf (by simp) (Safe.pure _ _) ?_
    refine Safe.bind (d := 1) (e := 0) ((parseParameter_safe N).weaken (by omega) (by omega)) (fun x => ?_) (by omega)
    refine Safe.bind0 (peek_safe _) fun t => Safe.ite ?_ (Safe.ite ?_ (Safe.fail _ _))
    · exact expect_bind (by simp) (Safe.bind0 ((ih (by omega)).weaken (by omega) (by omega)) fun _ => Safe.pure _ _)
    · exact expect_bind (by simp) (Safe.pure _ _)

theorem parseParameters_safe (n : Nat) : Safe n 1 (parseParameters streamOps n) :=
  Safe.bind1 (expect_safe _ _ (by simp)) fun _ => parameterLoop_safe n n (Nat.le_refl _)

theorem parseFunc_safe (n : Nat) : Safe n 1 (parseFunc streamOps n) := by
  refine Safe.bind1 (expect_safe _ _ (by simp)) fun _ => Safe.bind0 (parseParameters_safe _).drop fun _ =>
    Safe.bind0 ?_ fun _ => Safe.pure _ _
  refine Safe.eatIf (by simp) (Safe.bind0 (peek_safe _) fun t => Safe.ite ?_ ?_) (Safe.pure _ _)
  · exact Safe.bind0 (parseParameters_safe _).drop fun _ => Safe.pure _ _
  · exact Safe.bind0 (parseType_safe _) fun _ => Safe.pure _ _

theorem parseFuncItem_safe (n : Nat) : Safe n 1 (parseFuncItem streamOps n) :=
  Safe.bind1 (parseId_safe _) fun _ => expect_bind (by simp) (Safe.bind0 (parseFunc_safe _).drop fun _ =>
    expect_bind (by simp) (Safe.pure _ _))

theorem parseTypeItem_safe (n : Nat) : Safe n 1 (parseTypeItem streamOps n) :=
  Safe.bind1 (expect_safe _ _ (by simp)) fun _ => Safe.bind0 (parseId_safe _).drop fun _ => expect_bind (by simp)
    (Safe.bind0 (parseType_safe _) fun _ => expect_bind (by simp) (Safe.pure _ _))

theorem parseRecord_safe (n : Nat) : Safe n 1 (parseRecord streamOps n) := by
  have h : Safe n 0 (parseRecordField streamOps n) :=
    Safe.bind0 (parseId_safe _).drop fun _ => expect_bind (by simp) (Safe.bind0 (parseType_safe _) fun _ => Safe.pure _ _)
  exact Safe.bind1 (expect_safe _ _ (by simp)) fun _ => Safe.bind0 (parseId_safe _).drop fun _ =>
    Safe.bind0 (parseItemList_safe _ _ (by simp) (by simp) h).drop fun _ => Safe.pure _ _

theorem parseFlags_safe (n : Nat) : Safe n 1 (parseFlags streamOps n) :=
  Safe.bind1 (expect_safe _ _ (by simp)) fun _ => Safe.bind0 (parseId_safe _).drop fun _ =>
    Safe.bind0 (parseItemList_safe _ _ (by simp) (by simp) (parseId_safe _).drop).drop fun _ => Safe.pure _ _

theorem parseEnum_safe (n : Nat) : Safe n 1 (parseEnum streamOps n) :=
  Safe.bind1 (expect_safe _ _ (by simp)) fun _ => Safe.bind0 (parseId_safe _).drop fun _ =>
    Safe.bind0 (parseItemList_safe _ _ (by simp) (by simp) (parseId_safe _).drop).drop fun _ => Safe.pure _ _

theorem parseVariant_safe (n : Nat) : Safe n 1 (parseVariant streamOps n) := by
  have h : Safe n 0 (parseVariantCase streamOps n) :=
    Safe.bind0 (parseId_safe _).drop fun _ => Safe.bind0 (Safe.eatIf (by simp) (Safe.bind0 (parseType_safe _) fun _ =>
      expect_bind (by simp) (Safe.pure _ _)) (Safe.pure _ _)) fun _ => Safe.pure _ _
  exact Safe.bind1 (expect_safe _ _ (by simp)) fun _ => Safe.bind0 (parseId_safe _).drop fun _ =>
    Safe.bind0 (parseItemList_safe _ _ (by simp) (by simp) h).drop fun _ => Safe.pure _ _

theorem parseStaticOrMethod_safe (n : Nat) : Safe n 1 (parseStaticOrMethod streamOps n) := by
  intro st hs
  rcases static_or_method n st with ⟨i, c, t, rest, hst, -, -, -, h⟩ | h | h
  · rw [h]
    have hl : st.toks.length = rest.length + 3 := by rw [hst]; simp
    have hf : Safe n 1 ((do
        let f ← parseFunc streamOps n
        expect streamOps .semicolon
        pure (.static i.capture f)) : SM Stream ResourceMethod) :=
      Safe.bind1 (parseFunc_safe n) fun f => expect_bind (by simp) (Safe.pure _ _)
    obtain ⟨k1, k2⟩ := hf ⟨rest, st.ended⟩ (by simp only; omega)
    exact ⟨k1, fun a ha => by have := k2 a ha; simp only at this ⊢; omega⟩
  · rw [h]
    exact (Safe.bind1 (parseFuncItem_safe n) fun f => Safe.pure _ _) st hs
  · exact ⟨.inr h, fun a ha => by rw [h] at ha; cases ha⟩

theorem parseResourceMethod_safe (n : Nat) : Safe n 1 (parseResourceMethod streamOps n) := by
  refine Safe.eatIf (by simp) ?_ (parseStaticOrMethod_safe n)
  exact Safe.bind1 (parseParameters_safe _) fun _ => expect_bind (by simp) (Safe.pure _ _)

theorem methodLoop_safe (N n : Nat) (hn : n ≤ N) : Safe n 0 (methodLoop streamOps N n) := by
  induction n with
  | zero => intro st h; omega
  | succ n ih =>
    unfold methodLoop
    refine Safe.bind0 (peek_safe _) fun t => Safe.ite ?_ (Safe.pure _ _)
    refine Safe.bind (d := 1) (e := 0) ((parseResourceMethod_safe N).weaken (by omega) (by omega)) (fun x => ?_) (by omega)
    exact Safe.bind0 ((ih (by omega)).weaken (by omega) (by omega)) fun _ => Safe.pure _ _

theorem parseResource_safe (n : Nat) : Safe n 1 (parseResource streamOps n) := by
  refine Safe.bind1 (expect_safe _ _ (by simp)) fun _ => Safe.bind0 (parseId_safe _).drop fun _ => Safe.bind0 ?_ fun _ => Safe.pure _ _
  unfold parseMethods
  refine Safe.bind0 (peek_safe _) fun t => Safe.ite ?_ (Safe.ite ?_ (Safe.pure _ _))
  · exact expect_bind (by simp) (Safe.pure _ _)
  · exact expect_bind (by simp) (Safe.bind0 (methodLoop_safe n n (Nat.le_refl _)) fun _ => expect_bind (by simp) (Safe.pure _ _))

theorem parseTypeDef_safe (n : Nat) : Safe n 1 (parseTypeDef streamOps n) :=
  Safe.bind0 (peek_safe _) fun _ => Safe.ite (parseResource_safe _) (Safe.ite (parseVariant_safe _) (Safe.ite (parseRecord_safe _)
    (Safe.ite (parseFlags_safe _) (Safe.ite (parseEnum_safe _) (Safe.ite (parseTypeItem_safe _) (Safe.fail _ _))))))

theorem parseUsePath_safe (n : Nat) : Safe n 1 (parseUsePath streamOps) := by
  refine Safe.bind1 (parseId_safe _) fun _ => Safe.eatIf (by simp) ?_ (Safe.pure _ _)
  exact Safe.bind0 (parseId_safe _).drop fun _ => expect_bind (by simp) (Safe.bind0 (parseId_safe _).drop fun _ =>
    Safe.bind0 (Safe.fail _ _) fun _ => Safe.pure _ _)

theorem parseAs_safe (n : Nat) : Safe n 0 (parseAs streamOps) :=
  Safe.eatIf (by simp) (Safe.bind0 (parseId_safe _).drop fun _ => Safe.pure _ _) (Safe.pure _ _)

theorem parseUse_safe (n : Nat) : Safe n 1 (parseUse streamOps n) := by
  have h : Safe n 0 (parseUseName streamOps) :=
    Safe.bind0 (parseId_safe _).drop fun _ => Safe.bind0 (parseAs_safe _) fun _ => Safe.pure _ _
  exact Safe.bind1 (expect_safe _ _ (by simp)) fun _ => Safe.bind0 (parseUsePath_safe _).drop fun _ => expect_bind (by simp)
    (Safe.bind0 (parseItemList_safe _ _ (by simp) (by simp) h).drop fun _ => expect_bind (by simp) (Safe.pure _ _))

theorem parseInclude_safe (n : Nat) : Safe n 1 (parseInclude streamOps n) := by
  have h : Safe n 1 (parseIncludeName streamOps) :=
    Safe.bind1 (parseId_safe _) fun _ => expect_bind (by simp) (Safe.bind0 (parseId_safe _).drop fun _ => Safe.pure _ _)
  refine Safe.bind1 (expect_safe _ _ (by simp)) fun _ => Safe.bind0 (parseUsePath_safe _).drop fun _ => Safe.bind0 ?_ fun _ => Safe.pure _ _
  refine Safe.eatIf (by simp) (expect_bind (by simp) (untilTok_safe _ (by simp) h n (Nat.le_refl _))) ?_
  exact expect_bind (by simp) (Safe.pure _ _)

theorem parseInterfaceItem_safe (n : Nat) : Safe n 1 (parseInterfaceItem streamOps n) := by
  refine Safe.bind0 (peek_safe _) fun _ => Safe.ite ?_ (Safe.ite ?_ (Safe.ite ?_ (Safe.ite ?_ (Safe.ite ?_ (Safe.ite ?_
    (Safe.ite ?_ ?_))))))
  · exact Safe.bind1 (parseUse_safe _) fun _ => Safe.pure _ _
  · exact Safe.bind1 (parseResource_safe _) fun _ => Safe.pure _ _
  · exact Safe.bind1 (parseRecord_safe _) fun _ => Safe.pure _ _
  · exact Safe.bind1 (parseFlags_safe _) fun _ => Safe.pure _ _
  · exact Safe.bind1 (parseVariant_safe _) fun _ => Safe.pure _ _
  · exact Safe.bind1 (parseEnum_safe _) fun _ => Safe.pure _ _
  · exact Safe.bind1 (parseTypeDef_safe _) fun _ => Safe.pure _ _
  · exact Safe.bind1 (parseFuncItem_safe _) fun _ => Safe.pure _ _

theorem parseInterfaceItems_safe (n : Nat) : Safe n 1 (parseInterfaceItems streamOps n) :=
  Safe.bind1 (expect_safe _ _ (by simp)) fun _ => untilTok_safe _ (by simp) (parseInterfaceItem_safe _) n (Nat.le_refl _)

theorem parseInterface_safe (n : Nat) : Safe n 1 (parseInterface streamOps n) :=
  Safe.bind1 (parseId_safe _) fun _ => Safe.bind0 (parseInterfaceItems_safe _).drop fun _ => Safe.pure _ _

theorem externRest_safe (n : Nat) (id : List Byte) : Safe n 0 (externRest n id) := by
  refine Safe.bind0 (peek_safe _) fun _ => Safe.ite ?_ (Safe.ite ?_ (Safe.fail _ _))
  · exact Safe.bind0 (parseFunc_safe _).drop fun _ => expect_bind (by simp) (Safe.pure _ _)
  · exact expect_bind (by simp) (Safe.bind0 (parseInterfaceItems_safe _).drop fun _ => Safe.pure _ _)

theorem parseExternType_safe (n : Nat) : Safe n 0 (parseExternType streamOps n) := by
  intro st hs
  rcases extern_cases n st with ⟨i, c, rest, hst, -, -, h⟩ | h | h
  · rw [h]
    have hl : st.toks.length = rest.length + 2 := by rw [hst]; simp
    obtain ⟨k1, k2⟩ := externRest_safe n i.capture ⟨rest, st.ended⟩ (by simp only; omega)
    exact ⟨k1, fun a ha => by have := k2 a ha; simp only at this ⊢; omega⟩
  · rw [h]
    have hf : Safe n 0 externPath := Safe.bind0 (parseUsePath_safe n).drop fun _ => expect_bind (by simp) (Safe.pure _ _)
    exact hf st hs
  · exact ⟨.inr h, fun a ha => by rw [h] at ha; cases ha⟩

theorem parseWorldItem_safe (n : Nat) : Safe n 1 (parseWorldItem streamOps n) := by
  refine Safe.bind0 (peek_safe _) fun _ => Safe.ite ?_ (Safe.ite ?_ (Safe.ite ?_ (Safe.ite ?_ (Safe.ite ?_ (Safe.ite ?_
    (Safe.ite ?_ (Safe.ite ?_ (Safe.fail _ _))))))))
  · exact Safe.bind1 (Safe.bind1 (expect_safe _ _ (by simp)) fun _ => parseExternType_safe _) fun _ => Safe.pure _ _
  · exact Safe.bind1 (Safe.bind1 (expect_safe _ _ (by simp)) fun _ => parseExternType_safe _) fun _ => Safe.pure _ _
  · exact Safe.bind1 (parseUse_safe _) fun _ => Safe.pure _ _
  · exact Safe.bind1 (parseTypeDef_safe _) fun _ => Safe.pure _ _
  · exact Safe.bind1 (parseRecord_safe _) fun _ => Safe.pure _ _
  · exact Safe.bind1 (parseVariant_safe _) fun _ => Safe.pure _ _
  · exact Safe.bind1 (parseResource_safe _) fun _ => Safe.pure _ _
  · exact Safe.bind1 (parseInclude_safe _) fun _ => Safe.pure _ _

theorem parseWorld_safe (n : Nat) : Safe n 1 (parseWorld streamOps n) :=
  Safe.bind1 (parseId_safe _) fun _ => expect_bind (by simp)
    (Safe.bind0 (untilTok_safe _ (by simp) (parseWorldItem_safe n) n (Nat.le_refl _)) fun _ => Safe.pure _ _)

theorem parsePackageDeclaration_safe (n : Nat) : Safe n 0 (parsePackageDeclaration streamOps) := by
  have h : ∀ m, Safe m 0 (parseVersion streamOps) := fun m =>
    Safe.bind0 (parseInteger_safe _).drop fun _ => expect_bind (by simp) (Safe.bind0 (parseInteger_safe _).drop fun _ =>
      expect_bind (by simp) (Safe.bind0 (parseInteger_safe _).drop fun _ => Safe.pure _ _))
  have h2 : ∀ t : Sig, Safe (n - 1) 0 (expect streamOps .colon >>= fun _ => parseId streamOps >>= fun name =>
      parsePackageVersion streamOps >>= fun v => expect streamOps .semicolon >>= fun _ =>
      (pure (⟨t.capture, name, v⟩ : PackageDeclaration))) := fun t =>
    expect_bind (by simp) (Safe.bind0 (parseId_safe _).drop fun _ => Safe.bind0
      (Safe.eatIf (by simp) (Safe.bind0 (h _) fun _ => Safe.pure _ _) (Safe.pure _ _)) fun _ => expect_bind (by simp) (Safe.pure _ _))
  refine Safe.next0 (d := 0) h2 (fun e => ?_)
  rw [SM.bind_err (expect_empty e .colon (by simp))]
  exact ⟨.inr rfl, rfl⟩

theorem parseAstItem_safe (n : Nat) (t : Sig) : Safe n 0 (parseAstItem streamOps n t) := by
  refine Safe.ite ?_ (Safe.ite ?_ (Safe.ite ?_ (Safe.pure _ _)))
  · exact Safe.bind0 (Safe.bind0 (parseUsePath_safe _).drop fun _ => Safe.bind0 (parseAs_safe _) fun _ => Safe.pure _ _) fun _ => Safe.pure _ _
  · exact Safe.bind0 (parseWorld_safe _).drop fun _ => Safe.pure _ _
  · exact Safe.bind0 (parseInterface_safe _).drop fun _ => Safe.pure _ _

/-- The loop of `parseAst` ends, if after the token read last fewer than `k - 1` tokens are left or it is the end. -/
theorem astLoop_safe (N k : Nat) (hk : k ≤ N) (t : Sig) :
    (t.type = .endOfStream → 0 < k → ∀ m, Safe m 0 (astLoop streamOps N k t)) ∧ Safe (k - 1) 0 (astLoop streamOps N k t) := by
  induction k generalizing t with
  | zero => exact ⟨fun _ h => by omega, fun st h => by omega⟩
  | succ k ih =>
    constructor
    · intro h _ m
      unfold astLoop
      rw [if_neg (by simpa using h)]
      exact Safe.pure _ _
    · unfold astLoop
      refine Safe.ite (Safe.bind0 ((parseAstItem_safe N t).weaken (by omega) (Nat.le_refl _)) fun i => ?_) (Safe.pure _ _)
      intro st hs
      rcases st with ⟨_ | ⟨u, us⟩, e⟩
      · cases e
        · exact ⟨.inr rfl, fun a h => by cases (show (Res.err : Res (List AstItem)) = .ok a from h)⟩
        · rw [next_end]
          simp only [List.length_nil] at hs
          exact (Safe.bind0 ((ih (by omega) eos).1 rfl (by omega) (k + 1)) fun _ => Safe.pure _ _) ⟨[], true⟩ (by simp only [List.length_nil]; omega)
      · rw [next_bind]
        simp only [List.length_cons] at hs
        obtain ⟨k1, k2⟩ := (Safe.bind0 ((ih (by omega) u).2) fun is => Safe.pure _ (i :: is)) ⟨us, e⟩ (by simp only; omega)
        exact ⟨k1, fun a ha => by have := k2 a ha; simp only [List.length_cons] at this ⊢; omega⟩

theorem parseAst_safe (n : Nat) : Safe n 0 (parseAst streamOps n) := by
  intro st hs
  have main : ∀ (t : Sig) (st : Stream), (t.type = .endOfStream ∧ st.toks.length < n) ∨ st.toks.length + 1 < n →
      ((parseAstPackage streamOps t >>= fun p => astLoop streamOps n n p.2 >>= fun is => pure (⟨p.1, is⟩ : Ast)) st).1.Returns ∧
      ∀ a, ((parseAstPackage streamOps t >>= fun p => astLoop streamOps n n p.2 >>= fun is => pure (⟨p.1, is⟩ : Ast)) st).1 = .ok a →
        ((parseAstPackage streamOps t >>= fun p => astLoop streamOps n n p.2 >>= fun is => pure (⟨p.1, is⟩ : Ast)) st).2.toks.length ≤ st.toks.length := by
    intro t st h
    have loop : ∀ (p : Option PackageDeclaration) (t : Sig) (st : Stream),
        (t.type = .endOfStream ∧ st.toks.length < n) ∨ st.toks.length + 1 < n →
        ((astLoop streamOps n n t >>= fun is => pure (⟨p, is⟩ : Ast)) st).1.Returns ∧
        ∀ a, ((astLoop streamOps n n t >>= fun is => pure (⟨p, is⟩ : Ast)) st).1 = .ok a →
          ((astLoop streamOps n n t >>= fun is => pure (⟨p, is⟩ : Ast)) st).2.toks.length ≤ st.toks.length := by
      intro p t st h
      rcases h with ⟨h1, h2⟩ | h
      · exact (Safe.bind0 ((astLoop_safe n n (Nat.le_refl _) t).1 h1 (by omega) n) fun _ => Safe.pure _ _) st h2
      · exact (Safe.bind0 ((astLoop_safe n n (Nat.le_refl _) t).2) fun _ => Safe.pure _ _) st (by omega)
    unfold parseAstPackage
    by_cases hp : t.type = .package
    · rw [if_pos hp]
      have hlen : st.toks.length + 1 < n := by
        rcases h with ⟨h1, -⟩ | h
        · rw [hp] at h1; cases h1
        · exact h
      obtain ⟨k1, k2⟩ := parsePackageDeclaration_safe n st (by omega)
      rcases hq : parsePackageDeclaration streamOps st with ⟨r, st'⟩
      rw [hq] at k1 k2
      rw [SM.bind_def, SM.bind_def, hq]
      cases r with
      | ok q =>
        have h3 := k2 q rfl
        simp only at h3
        rcases st' with ⟨_ | ⟨u, us⟩, e⟩
        · cases e
          · exact ⟨.inr rfl, fun a h => by cases (show (Res.err : Res Ast) = .ok a from h)⟩
          · obtain ⟨j1, j2⟩ := loop (some q) eos ⟨[], true⟩ (.inl ⟨rfl, by simp only [List.length_nil]; omega⟩)
            exact ⟨j1, fun a ha => Nat.le_trans (j2 a ha) h3⟩
        · simp only [List.length_cons] at h3
          obtain ⟨j1, j2⟩ := loop (some q) u ⟨us, e⟩ (.inr (by simp only; omega))
          exact ⟨j1, fun a ha => Nat.le_trans (j2 a ha) (by simp only; omega)⟩
      | err => exact ⟨.inr rfl, fun a h => by simp at h⟩
      | panic => simp at k1
      | diverge => simp at k1
    · rw [if_neg hp]
      exact loop none t st h
  unfold parseAst
  rcases st with ⟨_ | ⟨u, us⟩, e⟩
  · cases e
    · exact ⟨.inr rfl, fun a h => by cases (show (Res.err : Res Ast) = .ok a from h)⟩
    · rw [next_end]
      exact main eos ⟨[], true⟩ (.inl ⟨rfl, hs⟩)
  · rw [next_bind]
    simp only [List.length_cons] at hs
    obtain ⟨k1, k2⟩ := main u ⟨us, e⟩ (.inr (by simp only; omega))
    exact ⟨k1, fun a ha => by have := k2 a ha; simp only [List.length_cons] at this ⊢; omega⟩

end Verif.Wit
