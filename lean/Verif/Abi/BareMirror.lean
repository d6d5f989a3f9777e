import Verif.Abi.Bare

/-!
# Loading and lifting a type with handles, beside loading and lifting it with `u32` instead

`Mirror` relates two calls that differ only in that the first looks up the handles whose numbers the second returns.
-/

namespace Verif.Abi
open Spec

/-- How the handle tables are replaced in a state. -/
structure Put (S : Type) where
  put : Handles.World → S → S
  again : ∀ w v s, put w (put v s) = put w s

variable {σ : Type} {E : Env σ} {S : Type} {P : Put S} {α β γ δ : Type}

/-- The call does not depend on the handle tables and leaves them alone. -/
def Blind (P : Put S) (m : SM S α) : Prop := ∀ s w, m (P.put w s) = ((m s).1, P.put w (m s).2)

namespace Blind

theorem pure (a : α) : Blind P (Pure.pure a : SM S α) := fun _ _ => rfl
theorem fail : Blind P (SM.fail : SM S α) := fun _ _ => rfl
theorem crash : Blind P (SM.crash : SM S α) := fun _ _ => rfl
theorem lift (r : Res α) : Blind P (SM.lift r : SM S α) := fun _ _ => rfl
theorem bind {m : SM S α} {f : α → SM S β} (h1 : Blind P m) (h2 : ∀ a, Blind P (f a)) : Blind P (m >>= f) := by
  intro s w
  rw [SM.bind_def, SM.bind_def, h1 s w]
  rcases m s with ⟨r, s1⟩
  cases r with
  | ok a => exact h2 a s1 w
  | _ => rfl
theorem ite {c : Prop} [Decidable c] {m n : SM S α} (h1 : Blind P m) (h2 : Blind P n) : Blind P (if c then m else n) := by
  split
  · exact h1
  · exact h2

theorem ok {m : SM S α} (h : Blind P m) {s s' : S} {w : Handles.World} {r : Res α} (e : m (P.put w s) = (r, s')) :
    (m s).1 = r ∧ s' = P.put w (m s).2 := by
  rw [h s w] at e
  injection e with e1 e2
  exact ⟨e1, e2.symm⟩

end Blind

/-- Whenever the second call succeeds, and the handles with the numbers in what it returns can be lifted, so does the
first, and returns the same with the handles; it succeeds in no other case, and it does not panic if the second does
not. -/
structure Mirror (E : Env σ) (P : Put S) (m : SM S α) (m0 : SM S β)
    (R : α → β → List Held → List U32 → Prop) : Prop where
  even : ∀ a b hs is, R a b hs is → hs.length = is.length
  stay : ∀ s w0 r s1, m0 (P.put w0 s) = (r, s1) → P.put w0 s1 = s1
  ok : ∀ s w w0 a s', m (P.put w s) = (.ok a, s') ↔ ∃ b s1 hs is w', m0 (P.put w0 s) = (.ok b, s1) ∧ R a b hs is ∧
    Lifts E w hs is w' ∧ s' = P.put w' s1
  calm : ∀ s w w0, (m0 (P.put w0 s)).1.Returns → (m (P.put w s)).1.Returns

/-- A result without handles. -/
def Alone (a b : α) (hs : List Held) (is : List U32) : Prop := a = b ∧ hs = [] ∧ is = []

namespace Mirror

theorem congr {m : SM S α} {m0 : SM S β} {R R' : α → β → List Held → List U32 → Prop} (h : Mirror E P m m0 R)
    (hR : ∀ a b hs is, R a b hs is ↔ R' a b hs is) : Mirror E P m m0 R' := by
  have : R = R' := by funext a b hs is; exact propext (hR a b hs is)
  exact this ▸ h

theorem same {m : SM S α} (h : Blind P m) : Mirror E P m m Alone where
  even := by rintro _ _ _ _ ⟨-, rfl, rfl⟩; rfl
  stay s w0 r s1 e := by obtain ⟨-, rfl⟩ := h.ok e; rw [P.again]
  ok s w w0 a s' := by
    constructor
    · intro e
      obtain ⟨e1, rfl⟩ := h.ok e
      exact ⟨a, _, [], [], w, by rw [h s w0, e1], ⟨rfl, rfl, rfl⟩, .nil _, by rw [P.again]⟩
    · rintro ⟨b, s1, _, _, w', e, ⟨rfl, rfl, rfl⟩, hl, rfl⟩
      cases hl
      obtain ⟨e1, rfl⟩ := h.ok e
      rw [h s w, e1, P.again]
  calm s w w0 := by rw [h s w, h s w0]; exact id

theorem pure {R : α → β → List Held → List U32 → Prop} {a : α} {b : β} (hb : ∀ a' hs is, R a' b hs is ↔ a' = a ∧ hs = [] ∧ is = [])
    (he : ∀ a b hs is, R a b hs is → hs.length = is.length) :
    Mirror E P (Pure.pure a) (Pure.pure b) R where
  even := he
  stay s w0 r s1 e := by cases e; rw [P.again]
  ok s w w0 a s' := by
    constructor
    · intro e
      cases e
      exact ⟨b, _, [], [], w, rfl, (hb _ _ _).2 ⟨rfl, rfl, rfl⟩, .nil _, by rw [P.again]⟩
    · rintro ⟨b', s1, _, _, w', e, hR, hl, rfl⟩
      cases e
      obtain ⟨rfl, rfl, rfl⟩ := (hb _ _ _).1 hR
      cases hl
      rw [P.again]; rfl
  calm s w w0 _ := by simp

theorem stop {m : SM S α} {m0 : SM S β} {R : α → β → List Held → List U32 → Prop} (r : Res Unit) (hr : r ≠ .ok ())
    (hm : ∀ s, ∃ q : Res α, m s = (q, s) ∧ (∀ a, q ≠ .ok a) ∧ (q.Returns ↔ r.Returns))
    (hm0 : ∀ s, ∃ q : Res β, m0 s = (q, s) ∧ (∀ a, q ≠ .ok a) ∧ (q.Returns ↔ r.Returns))
    (he : ∀ a b hs is, R a b hs is → hs.length = is.length) :
    Mirror E P m m0 R where
  even := he
  stay s w0 r s1 e := by
    obtain ⟨q, h, -⟩ := hm0 (P.put w0 s)
    rw [h] at e
    cases e
    rw [P.again]
  ok s w w0 a s' := by
    obtain ⟨q, h, h', -⟩ := hm (P.put w s)
    obtain ⟨q0, h0, h0', -⟩ := hm0 (P.put w0 s)
    rw [h, h0]
    constructor
    · intro e
      injection e with e
      exact absurd e (h' a)
    · rintro ⟨b, _, _, _, _, e, -⟩
      injection e with e
      exact absurd e (h0' b)
  calm s w w0 := by
    obtain ⟨q, h, -, h'⟩ := hm (P.put w s)
    obtain ⟨q0, h0, -, h0'⟩ := hm0 (P.put w0 s)
    rw [h, h0]
    simp only [h', h0', imp_self]

theorem fail {R : α → β → List Held → List U32 → Prop} (he : ∀ a b hs is, R a b hs is → hs.length = is.length) :
    Mirror E P (SM.fail : SM S α) (SM.fail : SM S β) R :=
  stop .err (by simp) (fun s => ⟨.err, rfl, by simp, by simp⟩) (fun s => ⟨.err, rfl, by simp, by simp⟩) he

theorem crash {R : α → β → List Held → List U32 → Prop} (he : ∀ a b hs is, R a b hs is → hs.length = is.length) :
    Mirror E P (SM.crash : SM S α) (SM.crash : SM S β) R :=
  stop .panic (by simp) (fun s => ⟨.panic, rfl, by simp, by simp⟩) (fun s => ⟨.panic, rfl, by simp, by simp⟩) he

theorem ite {c : Prop} [Decidable c] {m n : SM S α} {m0 n0 : SM S β} {R : α → β → List Held → List U32 → Prop}
    (h1 : c → Mirror E P m m0 R) (h2 : ¬ c → Mirror E P n n0 R) : Mirror E P (if c then m else n) (if c then m0 else n0) R := by
  split
  · exact h1 ‹_›
  · exact h2 ‹_›

/-- Two calls one after the other. -/
theorem bind {m : SM S α} {m0 : SM S β} {k : α → SM S γ} {k0 : β → SM S δ} {R : α → β → List Held → List U32 → Prop}
    {Q : α → β → γ → δ → List Held → List U32 → Prop} {T : γ → δ → List Held → List U32 → Prop}
    (h : Mirror E P m m0 R) (hk : ∀ a b hs is, R a b hs is → Mirror E P (k a) (k0 b) (Q a b))
    (hk0 : ∀ b s w0 r s1, k0 b (P.put w0 s) = (r, s1) → P.put w0 s1 = s1)
    (he : ∀ a b hs is, T a b hs is → hs.length = is.length)
    (fwd : ∀ a b c d h1 i1 h2 i2, R a b h1 i1 → Q a b c d h2 i2 → T c d (h1 ++ h2) (i1 ++ i2))
    (bwd : ∀ b c d hs is s s1, k0 b s = (.ok d, s1) → T c d hs is →
      ∃ a h1 h2 i1 i2, hs = h1 ++ h2 ∧ is = i1 ++ i2 ∧ R a b h1 i1 ∧ Q a b c d h2 i2) :
    Mirror E P (m >>= k) (m0 >>= k0) T where
  even := he
  stay s w0 r s1 e := by
    rw [SM.bind_def] at e
    rcases e1 : m0 (P.put w0 s) with ⟨q, s2⟩
    have e2 := h.stay _ _ _ _ e1
    rw [e1] at e
    cases q with
    | ok b => simp only at e; rw [← e2] at e; exact hk0 _ _ _ _ _ e
    | _ => cases e; exact e2
  ok s w w0 c s' := by
    rw [SM.bind_eq_ok]
    constructor
    · rintro ⟨a, s1, e1, e2⟩
      obtain ⟨b, s2, h1, i1, w1, f1, r1, l1, rfl⟩ := (h.ok s w w0 a s1).1 e1
      have g1 := h.stay _ _ _ _ f1
      obtain ⟨d, s3, h2, i2, w2, f2, r2, l2, rfl⟩ := ((hk a b h1 i1 r1).ok s2 w1 w0 c s').1 e2
      rw [g1] at f2
      exact ⟨d, s3, _, _, w2, SM.bind_eq_ok.2 ⟨b, s2, f1, f2⟩, fwd _ _ _ _ _ _ _ _ r1 r2, l1.append l2, rfl⟩
    · rintro ⟨d, s3, hs, is, w2, e, t, l, rfl⟩
      obtain ⟨b, s2, f1, f2⟩ := SM.bind_eq_ok.1 e
      obtain ⟨a, h1, h2, i1, i2, rfl, rfl, r1, r2⟩ := bwd _ _ _ _ _ _ _ f2 t
      obtain ⟨w1, l1, l2⟩ := l.split (h.even _ _ _ _ r1)
      have g1 := h.stay _ _ _ _ f1
      refine ⟨a, P.put w1 s2, (h.ok s w w0 a _).2 ⟨b, s2, h1, i1, w1, f1, r1, l1, rfl⟩, ?_⟩
      exact ((hk a b h1 i1 r1).ok s2 w1 w0 c _).2 ⟨d, s3, h2, i2, w2, by rw [g1]; exact f2, r2, l2, rfl⟩
  calm s w w0 hc := by
    rw [SM.bind_def] at hc ⊢
    rcases e1 : m0 (P.put w0 s) with ⟨q, s2⟩
    have c1 := h.calm s w w0
    rw [e1] at hc c1
    rcases e2 : m (P.put w s) with ⟨q', s3⟩
    rw [e2] at c1
    cases q' with
    | ok a =>
      obtain ⟨b, s4, h1, i1, w1, f1, r1, l1, rfl⟩ := (h.ok s w w0 a s3).1 e2
      rw [e1] at f1
      cases f1
      have g1 := h.stay _ _ _ _ e1
      refine (hk a b h1 i1 r1).calm s2 w1 w0 ?_
      rw [g1]; exact hc
    | err => simp
    | panic => cases q <;> simp at hc c1
    | diverge => cases q <;> simp at hc c1

/-- A call that has to do with no handles first. -/
theorem pre {m : SM S α} {k : α → SM S γ} {k0 : α → SM S δ} {T : γ → δ → List Held → List U32 → Prop}
    (h : Blind P m) (he : ∀ a b hs is, T a b hs is → hs.length = is.length)
    (hk : ∀ a, (∃ s s', m s = (.ok a, s')) → Mirror E P (k a) (k0 a) T) :
    Mirror E P (m >>= k) (m >>= k0) T where
  even := he
  stay s w0 r s1 e := by
    rw [SM.bind_def, h s w0] at e
    rcases e1 : m s with ⟨q, s2⟩
    rw [e1] at e
    cases q with
    | ok b => exact (hk b ⟨_, _, e1⟩).stay _ _ _ _ e
    | _ => cases e; exact P.again _ _ _
  ok s w w0 c s' := by
    rw [SM.bind_def, SM.bind_def, h s w0, h s w]
    rcases e1 : m s with ⟨q, s2⟩
    cases q with
    | ok b => exact (hk b ⟨_, _, e1⟩).ok s2 w w0 c s'
    | _ => simp
  calm s w w0 := by
    rw [SM.bind_def, SM.bind_def, h s w0, h s w]
    rcases e1 : m s with ⟨q, s2⟩
    cases q with
    | ok b => exact (hk b ⟨_, _, e1⟩).calm s2 w w0
    | _ => simp

/-- What is returned put into another form. -/
theorem map {m : SM S α} {m0 : SM S β} {f : α → γ} {f0 : β → δ} {R : α → β → List Held → List U32 → Prop}
    {T : γ → δ → List Held → List U32 → Prop} (h : Mirror E P m m0 R)
    (he : ∀ a b hs is, T a b hs is → hs.length = is.length)
    (hT : ∀ c b hs is, T c (f0 b) hs is ↔ ∃ a, c = f a ∧ R a b hs is) :
    Mirror E P (m >>= fun a => Pure.pure (f a)) (m0 >>= fun b => Pure.pure (f0 b)) T := by
  refine bind (Q := fun a b c d hs is => c = f a ∧ d = f0 b ∧ hs = [] ∧ is = []) h ?_ ?_ he ?_ ?_
  · intro a b hs is _
    refine pure ?_ ?_
    · intro a' hs is; simp
    · rintro _ _ _ _ ⟨-, -, rfl, rfl⟩; rfl
  · intro b s w0 r s1 e; cases e; exact P.again _ _ _
  · rintro a b _ _ h1 i1 _ _ hR ⟨rfl, rfl, rfl, rfl⟩
    rw [List.append_nil, List.append_nil]
    exact (hT _ _ _ _).2 ⟨a, rfl, hR⟩
  · intro b c d hs is s s1 e t
    cases e
    obtain ⟨a, rfl, hR⟩ := (hT _ _ _ _).1 t
    exact ⟨a, hs, [], is, [], by simp, by simp, hR, rfl, rfl, rfl, rfl⟩

end Mirror

/-! ## Reading memory and core values -/

/-- In the state of a call. -/
def stPut (σ : Type) : Put (St σ) := ⟨fun w s => { s with world := w }, fun _ _ _ => rfl⟩
/-- In the state of a lifting. -/
def lPut (σ : Type) : Put (LSt σ) := ⟨fun w s => ⟨{ s.st with world := w }, s.it⟩, fun _ _ _ => rfl⟩

theorem loadBytes_blind (p n : U32) : Blind (stPut σ) (loadBytes p n) := by
  intro s w
  simp only [loadBytes, SM.bind_def, SM.get_def, SM.lift_def, stPut]
  cases s.mem.slice p (p + n) <;> rfl

theorem loadInt_blind (p : U32) (t : Ty) : Blind (stPut σ) (loadInt p t) :=
  .bind (.lift _) fun _ => .bind (loadBytes_blind _ _) fun _ => .pure _

theorem loadIntWithSize_blind (p n : U32) (b : Bool) : Blind (stPut σ) (loadIntWithSize p n b) := by
  unfold loadIntWithSize
  exact .ite (.pure _) (.ite (loadInt_blind _ _) (.ite (loadInt_blind _ _) (.ite (loadInt_blind _ _)
    (.ite (loadInt_blind _ _) (loadInt_blind _ _)))))

theorem loadUInt32_blind (p : U32) : Blind (stPut σ) (loadUInt32 p) :=
  .bind (loadInt_blind _ _) fun _ => by split <;> first | exact .pure _ | exact .fail
theorem loadUInt64_blind (p : U32) : Blind (stPut σ) (loadUInt64 p) :=
  .bind (loadInt_blind _ _) fun _ => by split <;> first | exact .pure _ | exact .fail
theorem loadBool_blind (p : U32) : Blind (stPut σ) (loadBool p) :=
  .bind (loadInt_blind _ _) fun _ => by split <;> first | exact .pure _ | exact .fail
theorem loadChar_blind (p : U32) : Blind (stPut σ) (loadChar p) :=
  .bind (loadIntWithSize_blind _ _ _) fun _ => by
    split
    · exact .bind (.lift _) fun _ => .pure _
    · exact .fail
theorem loadFloat32_blind (p : U32) : Blind (stPut σ) (loadFloat32 p) := .bind (loadUInt32_blind _) fun _ => .pure _
theorem loadFloat64_blind (p : U32) : Blind (stPut σ) (loadFloat64 p) := .bind (loadUInt64_blind _) fun _ => .pure _

/-- The memory. -/
def memOf : SM (St σ) Mem := fun s => (.ok s.mem, s)
theorem memOf_blind : Blind (stPut σ) memOf := fun _ _ => rfl

theorem loadStringFromRange_blind (E : Env σ) (p n : U32) : Blind (stPut σ) (loadStringFromRange E p n) := by
  unfold loadStringFromRange
  refine .bind (.lift _) fun c => .ite .fail ?_
  exact .bind (m := memOf) (f := fun m => if (p + (toTagged n).codeUnits * BitVec.ofNat 32 c.runeSize).toNat > m.len32.toNat then SM.fail
    else do
      SM.lift (m.slice p (p + (toTagged n).codeUnits * BitVec.ofNat 32 c.runeSize))
      SM.lift (c.enc.decode (m.read p.toNat ((toTagged n).codeUnits * BitVec.ofNat 32 c.runeSize).toNat)))
    memOf_blind fun _ => .ite .fail (.bind (.lift _) fun _ => .lift _)

theorem loadString_blind (E : Env σ) (p : U32) : Blind (stPut σ) (loadString E p) :=
  .bind (loadUInt32_blind _) fun _ => .bind (loadUInt32_blind _) fun _ => loadStringFromRange_blind E _ _

theorem loadFlags_blind (p : U32) (ls : List String) : Blind (stPut σ) (loadFlags p ls) := by
  refine .bind ?_ fun _ => .pure _
  refine .bind (loadIntWithSize_blind _ _ _) fun _ => ?_
  refine .ite ?_ (.ite ?_ (.ite ?_ (.ite ?_ (.pure _))))
  all_goals split <;> first | exact .pure _ | exact .crash

theorem loadDisc_blind (p : U32) (d : Disc) : Blind (stPut σ) (loadDisc p d) :=
  .bind (loadInt_blind _ _) fun _ => by split <;> first | exact .pure _ | exact .crash

theorem next_blind (k : Kind) : Blind (lPut σ) (next k) := fun _ _ => rfl
theorem nextU32_blind : Blind (lPut σ) nextU32 :=
  .bind (next_blind _) fun _ => by split <;> first | exact .pure _ | exact .fail
theorem nextU64_blind : Blind (lPut σ) nextU64 :=
  .bind (next_blind _) fun _ => by split <;> first | exact .pure _ | exact .fail
theorem nextF32_blind : Blind (lPut σ) nextF32 :=
  .bind (next_blind _) fun _ => by split <;> first | exact .pure _ | exact .fail
theorem nextF64_blind : Blind (lPut σ) nextF64 :=
  .bind (next_blind _) fun _ => by split <;> first | exact .pure _ | exact .fail
theorem liftFlagWords_blind : (n k : Nat) → (x : U64) → Blind (lPut σ) (liftFlagWords n k x)
  | 0, _, _ => .pure _
  | n + 1, _, _ => .bind nextU32_blind fun _ => liftFlagWords_blind n _ _
theorem pushFlat_blind (fts : List Kind) : Blind (lPut σ) (pushFlat fts) := fun _ _ => rfl
theorem popFlat_blind : Blind (lPut σ) popFlat := by
  intro s w
  simp only [popFlat, lPut]
  rcases s.it.stack with _ | ⟨a, b⟩ <;> rfl
theorem skipFlat_blind : (fts : List Kind) → Blind (lPut σ) (skipFlat fts)
  | [] => .pure _
  | _ :: fts => .bind (next_blind _) fun _ => skipFlat_blind fts
theorem onSt_blind {m : SM (St σ) α} (h : Blind (stPut σ) m) : Blind (lPut σ) (onSt m) := by
  intro s w
  have := h s.st w
  simp only [stPut] at this
  simp only [onSt, lPut, this]

theorem onSt_mirror {m : SM (St σ) α} {m0 : SM (St σ) β} {R : α → β → List Held → List U32 → Prop}
    (h : Mirror E (stPut σ) m m0 R) : Mirror E (lPut σ) (onSt m) (onSt m0) R where
  even := h.even
  stay s w0 r s1 e := by
    have e' : (((m0 ((stPut σ).put w0 s.st)).1, ⟨(m0 ((stPut σ).put w0 s.st)).2, s.it⟩) : Res β × LSt σ) = (r, s1) := e
    injection e' with e1 e2
    subst e2
    exact congrArg (fun x => (⟨x, s.it⟩ : LSt σ)) (h.stay s.st w0 _ _ rfl)
  ok s w w0 a s' := by
    have e (w) : (lPut σ).put w s = ⟨(stPut σ).put w s.st, s.it⟩ := rfl
    have k := h.ok s.st w w0 a s'.st
    constructor
    · intro e1
      have e2 := onSt_ok e1
      obtain ⟨b, s1, hs, is, w', f, r, l, g⟩ := k.1 e2
      refine ⟨b, ⟨s1, s.it⟩, hs, is, w', ?_, r, l, ?_⟩
      · show ((m0 ((stPut σ).put w0 s.st)).1, (⟨(m0 ((stPut σ).put w0 s.st)).2, s.it⟩ : LSt σ)) = _
        rw [f]
      · have e3 : ((m ((stPut σ).put w s.st)).1, (⟨(m ((stPut σ).put w s.st)).2, s.it⟩ : LSt σ)) = (.ok a, s') := e1
        injection e3 with _ e3
        rw [← e3] at g ⊢
        simp only at g
        rw [g]; rfl
    · rintro ⟨b, s1, hs, is, w', f, r, l, rfl⟩
      have f' := onSt_ok f
      have f3 : ((m0 ((stPut σ).put w0 s.st)).1, (⟨(m0 ((stPut σ).put w0 s.st)).2, s.it⟩ : LSt σ)) = (.ok b, s1) := f
      injection f3 with _ f3
      have := k.2 ⟨b, s1.st, hs, is, w', f', r, l, rfl⟩
      show ((m ((stPut σ).put w s.st)).1, (⟨(m ((stPut σ).put w s.st)).2, s.it⟩ : LSt σ)) = _
      rw [this, ← f3]
      rfl
  calm s w w0 := h.calm s.st w w0

end Verif.Abi
