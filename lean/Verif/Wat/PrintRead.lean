import Verif.Wat.NumberLemmas
import Verif.Wat.Print

/-!
# The parser reads what the printer writes
-/

namespace Verif.Wat

open Spec

variable {α β : Type}

/-! ## Numbers -/

theorem decimal_small (n : Nat) (h : n < 10) : decimal n = [digitChar n] := by rw [decimal, if_pos h]

theorem decimal_big (n : Nat) (h : ¬ n < 10) : decimal n = decimal (n / 10) ++ [digitChar (n % 10)] := by
  rw [decimal, if_neg h]

theorem digitChar_digit (d : Nat) (h : d < 10) :
    digit (digitChar d) = true ∧ digitVal (digitChar d) = d ∧ (digitChar d = ch '0' → d = 0) ∧ digitChar d ≠ ch '_' := by
  have : ∀ d : Fin 10, digit (digitChar d) = true ∧ digitVal (digitChar d) = d ∧ (digitChar d = ch '0' → d.val = 0) ∧
      digitChar d ≠ ch '_' := by decide
  exact this ⟨d, h⟩

theorem numeral_append (d : Byte → Bool) (s : List Byte) (b : Byte) (h : Numeral d s) (hb : d b = true) : Numeral d (s ++ [b]) := by
  induction h with
  | one c hc => exact .more c [b] hc (.one b hb)
  | more c s hc _ ih => exact .more c _ hc ih
  | under c s hc _ ih => exact .under c _ hc ih

theorem decimal_numeral (n : Nat) : Numeral digit (decimal n) ∧ value 10 (decimal n) = n ∧
    ((decimal n).head? = some (ch '0') → decimal n = txt "0") := by
  induction n using Nat.strongRecOn with
  | ind n ih =>
    by_cases h : n < 10
    · obtain ⟨h1, h2, h3, h4⟩ := digitChar_digit n h
      rw [decimal_small n h]
      refine ⟨.one _ h1, ?_, ?_⟩
      · simp only [value, List.foldl_cons, List.foldl_nil]
        rw [if_neg h4, h2]; omega
      · intro h0
        rw [List.head?_cons, Option.some.injEq] at h0
        rw [h0]; rfl
    · obtain ⟨i1, i2, i3⟩ := ih (n / 10) (by omega)
      obtain ⟨h1, h2, h3, h4⟩ := digitChar_digit (n % 10) (by omega)
      rw [decimal_big n h]
      refine ⟨numeral_append _ _ _ i1 h1, ?_, ?_⟩
      · have e : value 10 (decimal (n / 10) ++ [digitChar (n % 10)]) = value 10 (decimal (n / 10)) * 10 + n % 10 := by
          simp only [value, List.foldl_append, List.foldl_cons, List.foldl_nil]
          rw [if_neg h4, h2]
        rw [e, i2]; omega
      · intro h0
        obtain ⟨b, r, e, -⟩ := numeral_head _ _ i1
        have : (decimal (n / 10)).head? = some (ch '0') := by
          rw [e] at h0 ⊢; exact h0
        have hz := i3 this
        rw [hz] at i2
        have : value 10 (txt "0") = 0 := by decide
        omega

theorem decimal_literal (n : Nat) : Literal (decimal n) n ∧ NoPadding (decimal n) := by
  obtain ⟨h1, h2, h3⟩ := decimal_numeral n
  have k := Literal.none _ _ (.decimal _ h1)
  rw [h2] at k
  refine ⟨k, ?_, ?_⟩
  · obtain ⟨b, r, e, hb⟩ := numeral_head _ _ h1
    rw [e, List.head?_cons]
    intro h0
    exact (digit_sign b hb).1 (Option.some.inj h0)
  · rintro body (rfl | h) hb
    · exact .inl (h3 hb)
    · obtain ⟨b, r, e, hb2⟩ := numeral_head _ _ h1
      rw [e] at h
      exact absurd (List.cons.inj h).1 (digit_sign b hb2).2

theorem signed_literal (v : Int) : Literal (signed v).capture v ∧ NoPadding (signed v).capture := by
  unfold signed
  obtain ⟨h1, h2, h3⟩ := decimal_numeral v.natAbs
  by_cases hv : v < 0
  · simp only [if_pos hv]
    have k := Literal.minus _ _ (.decimal _ h1)
    rw [h2, show -(v.natAbs : Int) = v by omega] at k
    refine ⟨k, by simp [ch], ?_⟩
    rintro body (h | h) hb
    · rw [← h] at hb
      exact absurd hb (by simp [ch])
    · rw [← (List.cons.inj h).2] at hb ⊢
      exact .inl (h3 hb)
  · simp only [if_neg hv]
    have k := decimal_literal v.natAbs
    rw [show (v.natAbs : Int) = v by omega] at k
    exact k

theorem number_int32 (v : U32) : integerValue (decimal v.toNat) = .ok (v.toNat : Int) ∧ BitVec.ofInt 32 (v.toNat : Int) = v := by
  obtain ⟨h1, h2⟩ := decimal_literal v.toNat
  refine ⟨?_, by simp⟩
  rw [integerValue_literal _ _ h1 h2, if_pos]
  have := v.isLt
  omega

theorem signed_int64 (v : U64) (h : -2 ^ 31 ≤ v.toInt ∧ v.toInt < 2 ^ 32) :
    integerValue (signed v.toInt).capture = .ok v.toInt ∧ BitVec.ofInt 64 v.toInt = v := by
  obtain ⟨h1, h2⟩ := signed_literal v.toInt
  exact ⟨by rw [integerValue_literal _ _ h1 h2, if_pos h], by simp⟩

theorem atoi_decimal (v : U32) : Strconv.atoi (decimal v.toNat) = .ok (v.toNat : Int) := by
  obtain ⟨h1, h2, -⟩ := decimal_numeral v.toNat
  obtain ⟨b, r, e, hb⟩ := numeral_head _ _ h1
  obtain ⟨s1, s2⟩ := digit_sign b hb
  have hl : Strconv.digitLoop 10 (2 ^ 64 - 1) false (decimal v.toNat) 0 = .ok v.toNat := by
    have hu : ∀ (s : List Byte) (n : Nat), (∀ c ∈ s, c ≠ ch '_') →
        Strconv.digitLoop 10 (2 ^ 64 - 1) false s n = Strconv.digitLoop 10 (2 ^ 64 - 1) true s n := by
      intro s
      induction s with
      | nil => intro n _; rfl
      | cons c s ih =>
        intro n hc
        rw [Strconv.digitLoop, Strconv.digitLoop, if_neg (by simp), if_neg (by simp [hc c (by simp)])]
        cases Strconv.digitOf c with
        | none => rfl
        | some d =>
          simp only
          rw [ih _ (fun x hx => hc x (by simp [hx]))]
    have hno : ∀ n, ∀ c ∈ decimal n, c ≠ ch '_' := by
      intro n
      induction n using Nat.strongRecOn with
      | ind n ih =>
        intro c hc
        by_cases h : n < 10
        · rw [decimal_small n h, List.mem_singleton] at hc
          rw [hc]; exact (digitChar_digit n h).2.2.2
        · rw [decimal_big n h] at hc
          rcases List.mem_append.1 hc with hc | hc
          · exact ih _ (by omega) c hc
          · rw [List.mem_singleton] at hc
            rw [hc]; exact (digitChar_digit _ (by omega)).2.2.2
    rw [hu _ _ (hno _), digitLoop_value digit 10 (2 ^ 64 - 1) (by omega) digitOf_dec _ (numeral_mem _ _ h1) 0 (by omega)]
    change (if value 10 (decimal v.toNat) ≤ 2 ^ 64 - 1 then Res.ok (value 10 (decimal v.toNat)) else Res.err) = _
    have := v.isLt
    rw [h2, if_pos (by omega)]
  rw [e] at hl ⊢
  unfold Strconv.atoi
  simp only
  rw [if_neg (not_or.2 ⟨s1, s2⟩), if_neg (by simp), hl, Res.bind_ok, if_neg s2, if_neg]
  have := v.isLt
  omega

theorem expect_rp (ts : List Sig) (e : Bool) : expect streamOps .closeParen ⟨rp :: ts, e⟩ = (.ok (), ⟨ts, e⟩) := expect_cons rp ts e
theorem expect_lp (ts : List Sig) (e : Bool) : expect streamOps .openParen ⟨lp :: ts, e⟩ = (.ok (), ⟨ts, e⟩) := expect_cons lp ts e
theorem eat_lp (ts : List Sig) (e : Bool) : eat streamOps .openParen ⟨lp :: ts, e⟩ = (.ok true, ⟨ts, e⟩) := eat_cons lp ts e

/-! ## Reading up to a closing parenthesis -/

/-- Before a closing parenthesis `f` reads exactly these tokens, with every bound from some on. -/
def Reads (f : Nat → SM Stream α) (ts : List Sig) (a : α) : Prop :=
  ∃ N, ∀ n, N ≤ n → ∀ rest e, f n ⟨ts ++ rp :: rest, e⟩ = (.ok a, ⟨rp :: rest, e⟩)

/-- Whatever follows `f` reads exactly these tokens. -/
def Takes (f : SM Stream α) (ts : List Sig) (a : α) : Prop := ∀ rest e, f ⟨ts ++ rest, e⟩ = (.ok a, ⟨rest, e⟩)

theorem Takes.reads {f : SM Stream α} {ts : List Sig} {a : α} (h : Takes f ts a) : Reads (fun _ => f) ts a :=
  ⟨0, fun _ _ rest e => h (rp :: rest) e⟩

theorem Takes.pure (a : α) : Takes (pure a) [] a := fun _ _ => rfl

theorem Takes.bind {f : SM Stream α} {g : α → SM Stream β} {ts us : List Sig} {a : α} {b : β} (h : Takes f ts a)
    (h' : Takes (g a) us b) : Takes (f >>= g) (ts ++ us) b := by
  intro rest e
  rw [List.append_assoc, SM.bind_ok (h _ _)]
  exact h' rest e

theorem Takes.reads_bind {f : Nat → SM Stream α} {g : Nat → α → SM Stream β} {ts us : List Sig} {a : α} {b : β} (h : ∀ n, Takes (f n) ts a)
    (h' : Reads (fun n => g n a) us b) : Reads (fun n => f n >>= g n) (ts ++ us) b := by
  obtain ⟨N, hN⟩ := h'
  refine ⟨N, fun n hn rest e => ?_⟩
  change (f n >>= g n) _ = _
  rw [List.append_assoc, SM.bind_ok (h n _ _)]
  exact hN n hn rest e

theorem Reads.bind {f : Nat → SM Stream α} {g : Nat → α → SM Stream β} {ts : List Sig} {a : α} {b : β} (h : Reads f ts a)
    (h' : Reads (fun n => g n a) [] b) : Reads (fun n => f n >>= g n) ts b := by
  obtain ⟨N, hN⟩ := h
  obtain ⟨M, hM⟩ := h'
  refine ⟨max N M, fun n hn rest e => ?_⟩
  change (f n >>= g n) _ = _
  rw [SM.bind_ok (hN n (by omega) _ _)]
  exact hM n (by omega) rest e

theorem Reads.pure (a : α) : Reads (fun _ => (Pure.pure a : SM Stream α)) [] a := ⟨0, fun _ _ _ _ => rfl⟩

/-- Reading something and a closing parenthesis after it. -/
theorem Reads.close {f : Nat → SM Stream α} {ts : List Sig} {a : α} (h : Reads f ts a) :
    ∃ N, ∀ n, N ≤ n → Takes (do
      let x ← f n
      expect streamOps .closeParen
      Pure.pure x) (ts ++ [rp]) a := by
  obtain ⟨N, hN⟩ := h
  refine ⟨N, fun n hn rest e => ?_⟩
  rw [List.append_assoc, List.singleton_append, SM.bind_ok (hN n hn _ _), SM.bind_ok (expect_rp rest e)]
  rfl

theorem parens_step (f : SM Stream α) (n : Nat) (ts rest : List Sig) (e : Bool) (a : α) (as : List α) (st : Stream)
    (h : f ⟨ts ++ rp :: rest, e⟩ = (.ok a, ⟨rp :: rest, e⟩)) (h' : parens streamOps f n ⟨rest, e⟩ = (.ok as, st)) :
    parens streamOps f (n + 1) ⟨inParens ts ++ rest, e⟩ = (.ok (a :: as), st) := by
  rw [parens, show inParens ts ++ rest = lp :: (ts ++ rp :: rest) by simp [inParens], SM.bind_ok (eat_lp _ e), if_pos rfl,
    SM.bind_ok h, SM.bind_ok (expect_rp rest e), SM.bind_ok h']
  rfl

theorem parens_stop (f : SM Stream α) (n : Nat) (t : Sig) (rest : List Sig) (e : Bool) (h : t.type ≠ .openParen) :
    parens streamOps f (n + 1) ⟨t :: rest, e⟩ = (.ok [], ⟨t :: rest, e⟩) := by
  rw [parens, SM.bind_ok (eat_not t rest e .openParen h), if_neg (by simp)]
  rfl

/-- A list of things, each in parentheses. -/
theorem parens_reads {ι : Type} (f : Nat → SM Stream α) (l : List ι) (toks : ι → List Sig) (val : ι → α)
    (h : ∀ x ∈ l, Reads f (toks x) (val x)) :
    Reads (fun n => parens streamOps (f n) n) (l.flatMap fun x => inParens (toks x)) (l.map val) := by
  have key : ∃ N, ∀ n, N ≤ n → ∀ k, l.length < k → ∀ rest e,
      parens streamOps (f n) k ⟨(l.flatMap fun x => inParens (toks x)) ++ rp :: rest, e⟩ = (.ok (l.map val), ⟨rp :: rest, e⟩) := by
    induction l with
    | nil =>
      refine ⟨0, fun n _ k hk rest e => ?_⟩
      cases k with
      | zero => simp at hk
      | succ k => exact parens_stop _ _ rp rest e (by simp [rp])
    | cons x l ih =>
      obtain ⟨N, hN⟩ := ih (fun y hy => h y (by simp [hy]))
      obtain ⟨M, hM⟩ := h x (by simp)
      refine ⟨max N M, fun n hn k hk rest e => ?_⟩
      cases k with
      | zero => simp at hk
      | succ k =>
        rw [List.flatMap_cons, List.append_assoc, List.map_cons]
        exact parens_step _ _ _ _ _ _ _ _ (hM n (by omega) _ _) (hN n (by omega) k (by simp at hk; omega) rest e)
  obtain ⟨N, hN⟩ := key
  exact ⟨max N (l.length + 1), fun n hn rest e => hN n (by omega) n (by omega) rest e⟩

theorem while_stop (f : SM Stream α) (c : Sig → Bool) (n : Nat) (t : Sig) (rest : List Sig) (e : Bool) (h : c t = false) :
    while_ streamOps c f (n + 1) ⟨t :: rest, e⟩ = (.ok [], ⟨t :: rest, e⟩) := by
  rw [while_, peek_bind, if_neg (by simp [h])]
  rfl

/-- A list of single tokens. -/
theorem while_reads {ι : Type} (f : SM Stream α) (c : Sig → Bool) (l : List ι) (tok : ι → Sig) (val : ι → α)
    (hc : ∀ x, c (tok x) = true) (hr : c rp = false) (h : ∀ x, Takes f [tok x] (val x)) :
    Reads (fun n => while_ streamOps c f n) (l.map tok) (l.map val) := by
  have key : ∀ k, l.length < k → ∀ rest e,
      while_ streamOps c f k ⟨l.map tok ++ rp :: rest, e⟩ = (.ok (l.map val), ⟨rp :: rest, e⟩) := by
    induction l with
    | nil =>
      intro k hk rest e
      cases k with
      | zero => simp at hk
      | succ k => exact while_stop _ _ _ rp rest e hr
    | cons x l ih =>
      intro k hk rest e
      cases k with
      | zero => simp at hk
      | succ k =>
        rw [List.map_cons, List.cons_append, while_, peek_bind, if_pos (hc x), SM.bind_ok (show f ⟨tok x :: (l.map tok ++ rp :: rest), e⟩ = (.ok (val x), ⟨l.map tok ++ rp :: rest, e⟩) from h x _ e),
          SM.bind_ok (ih k (by simp at hk; omega) rest e)]
        rfl
  exact ⟨l.length + 1, fun n hn rest e => key n (by omega) rest e⟩

/-! ## Small things -/

theorem takes_word (w : List Byte) : Takes (expectWord streamOps w) [kw w] () := fun rest e => expectWord_cons w rest e

theorem takes_valType (t : ValType) : Takes (parseValType streamOps) [kw (valWord t)] t := by
  intro rest e
  exact parseValType_cons .reserved (valWord t) t (by cases t <;> decide) rest e

/-- An optional name, before something that is no name. -/
theorem optionalId (o : Option (List Byte)) (rest : List Sig) (e : Bool) (h : ∀ t, rest.head? = some t → t.type ≠ .id)
    (hne : rest ≠ []) : parseOptionalId streamOps ⟨idToks o ++ rest, e⟩ = (.ok o, ⟨rest, e⟩) := by
  cases o with
  | some w => exact parseOptionalId_some w rest e
  | none =>
    cases rest with
    | nil => exact absurd rfl hne
    | cons t ts => exact parseOptionalId_none t ts e (h t rfl)

theorem reads_optionalId {g : Nat → Option (List Byte) → SM Stream β} (o : Option (List Byte)) (us : List Sig) (b : β)
    (h : ∀ t, us.head? = some t → t.type ≠ .id) (h' : Reads (fun n => g n o) us b) :
    Reads (fun n => parseOptionalId streamOps >>= g n) (idToks o ++ us) b := by
  obtain ⟨N, hN⟩ := h'
  refine ⟨N, fun n hn rest e => ?_⟩
  change (parseOptionalId streamOps >>= g n) _ = _
  rw [List.append_assoc, SM.bind_ok (optionalId o (us ++ rp :: rest) e ?_ (by simp))]
  · exact hN n hn rest e
  · intro t ht
    cases us with
    | nil => cases ht; simp [rp]
    | cons u us => exact h t ht

theorem head_flatMap {ι : Type} (l : List ι) (f : ι → List Sig) (t : Sig) (h : (l.flatMap fun x => inParens (f x)).head? = some t) :
    t = lp := by
  cases l with
  | nil => cases h
  | cons x l => cases h; rfl

theorem takes_result (r : Result) (h : r.types.length = 1) : Takes (parseResult streamOps) (resultToks r) r := by
  obtain ⟨ts⟩ := r
  rcases ts with _ | ⟨t, _ | ⟨u, ts⟩⟩
  · simp at h
  · exact (takes_word _).bind ((takes_valType t).bind (Takes.pure _))
  · simp at h

theorem reads_param (p : Parameter) (h : ParamOk p) : Reads (parseParameter streamOps) (paramToks p) p := by
  obtain ⟨id, ts⟩ := p
  change Reads (fun n => parseParameter streamOps n) ([kw (txt "param")] ++ (idToks id ++ ts.map fun t => kw (valWord t))) _
  unfold parseParameter
  refine Takes.reads_bind (fun _ => takes_word (txt "param")) ?_
  refine reads_optionalId id _ _ ?_ ?_
  · intro t ht
    cases ts with
    | nil => cases ht
    | cons x ts => cases ht; simp [kw]
  · refine Reads.bind (a := ts) ?_ (Reads.pure _)
    cases id with
    | none =>
      have k := while_reads (parseValType streamOps) (fun tok => tok.type == .reserved) ts (fun t => kw (valWord t)) id
        (fun x => by simp [kw]) (by simp [rp]) takes_valType
      rw [List.map_id] at k
      exact k
    | some w =>
      have := h.2 rfl
      rcases ts with _ | ⟨t, _ | ⟨u, ts⟩⟩
      · simp at this
      · exact ((takes_valType t).bind (g := fun t => Pure.pure [t]) (Takes.pure [t])).reads
      · simp at this

theorem takes_index (i : Index) : Takes (parseIndex streamOps) [indexToks i] i := by
  intro rest e
  cases i with
  | raw i =>
    unfold parseIndex
    change (streamOps.next >>= _) ⟨⟨.integer, decimal i.toNat⟩ :: rest, e⟩ = _
    rw [next_bind, if_pos rfl, SM.bind_ok (show SM.lift (Strconv.atoi (decimal i.toNat)) _ = (.ok (i.toNat : Int), ⟨rest, e⟩) by
      rw [atoi_decimal]; rfl)]
    simp
  | id w =>
    unfold parseIndex
    change (streamOps.next >>= _) ⟨⟨.id, w⟩ :: rest, e⟩ = _
    rw [next_bind, if_neg (by simp), if_pos rfl]
    rfl


/-! ## Instructions -/

/-- The words that are no instructions but stand where one could. -/
def otherWords : List (List Byte) := [txt "local", txt "param", txt "result", txt "export", txt "import", txt "then", txt "else"]

/-- An instruction without its operands: what its head reads. -/
theorem leaf_head (lib : Lib) (fl : Floats) (i : Inst) (hl : isLeaf i = true) (h : InstOk lib fl i) :
    ∃ w args, instToks fl i = kw w :: args ∧ w ∉ otherWords ∧
      ∀ (f : SM Stream Inst) (n : Nat), Takes (parseHead streamOps lib f n w) args i := by
  cases i with
  | plain p =>
    refine ⟨plainWord p, [], by simp [instToks], by cases p <;> decide, fun f n => ?_⟩
    have e : parseHead streamOps lib f n (plainWord p) = pure (.plain p) := by
      unfold parseHead
      rw [show plainWords.lookup (plainWord p) = some p by cases p <;> decide]
    rw [e]
    exact Takes.pure _
  | indexed k i =>
    refine ⟨indexedWord k, [indexToks i], by simp [instToks], by cases k <;> decide, fun f n => ?_⟩
    have e : parseHead streamOps lib f n (indexedWord k) = (do
        let i ← parseIndex streamOps
        pure (.indexed k i)) := by
      unfold parseHead
      rw [show plainWords.lookup (indexedWord k) = none by cases k <;> decide]
      simp only
      rw [show indexedWords.lookup (indexedWord k) = some k by cases k <;> decide]
    rw [e]
    exact (takes_index i).bind (Takes.pure _)
  | i32Const v =>
    refine ⟨txt "i32.const", [number v.toNat], by simp [instToks], by decide, fun f n => ?_⟩
    have e : parseHead streamOps lib f n (txt "i32.const") = (do
        let v ← parseInt32 streamOps
        pure (.i32Const v)) := by
      unfold parseHead
      rw [show plainWords.lookup (txt "i32.const") = none by decide]
      simp only
      rw [show indexedWords.lookup (txt "i32.const") = none by decide]
      simp only
      rw [if_neg (by decide), if_pos trivial]
    rw [e]
    refine Takes.bind (a := v) (ts := [number v.toNat]) (us := []) (fun rest e => ?_) (Takes.pure _)
    have k := parseInt32_cons _ _ (number_int32 v).1 rest e
    rw [(number_int32 v).2] at k
    exact k
  | i64Const v =>
    rw [InstOk] at h
    refine ⟨txt "i64.const", [signed v.toInt], by simp [instToks], by decide, fun f n => ?_⟩
    have e : parseHead streamOps lib f n (txt "i64.const") = (do
        let v ← parseInt64 streamOps
        pure (.i64Const v)) := by
      unfold parseHead
      rw [show plainWords.lookup (txt "i64.const") = none by decide]
      simp only
      rw [show indexedWords.lookup (txt "i64.const") = none by decide]
      simp only
      rw [if_neg (by decide), if_neg (by decide), if_pos trivial]
    rw [e]
    refine Takes.bind (a := v) (ts := [signed v.toInt]) (us := []) (fun rest e => ?_) (Takes.pure _)
    have k := parseInt64_cons _ _ (signed_int64 v h).1 rest e
    rw [(signed_int64 v h).2] at k
    exact k
  | f32Const v =>
    rw [InstOk] at h
    refine ⟨txt "f32.const", [⟨.float, fl.show32 v⟩], by simp [instToks], by decide, fun f n => ?_⟩
    have e : parseHead streamOps lib f n (txt "f32.const") = (do
        let v ← constFloat32 streamOps lib
        pure (.f32Const v)) := by
      unfold parseHead
      rw [show plainWords.lookup (txt "f32.const") = none by decide]
      simp only
      rw [show indexedWords.lookup (txt "f32.const") = none by decide]
      simp only
      rw [if_neg (by decide), if_neg (by decide), if_neg (by decide), if_pos trivial]
    rw [e]
    refine Takes.bind (a := v) (ts := [⟨.float, fl.show32 v⟩]) (us := []) (fun rest e => ?_) (Takes.pure _)
    have k := constFloat32_cons lib (fl.show32 v) rest e
    rw [(float32Value_iff _ _ _).2 h.2] at k
    exact k
  | f64Const v =>
    rw [InstOk] at h
    refine ⟨txt "f64.const", [⟨.float, fl.show64 v⟩], by simp [instToks], by decide, fun f n => ?_⟩
    have e : parseHead streamOps lib f n (txt "f64.const") = (do
        let v ← constFloat64 streamOps lib
        pure (.f64Const v)) := by
      unfold parseHead
      rw [show plainWords.lookup (txt "f64.const") = none by decide]
      simp only
      rw [show indexedWords.lookup (txt "f64.const") = none by decide]
      simp only
      rw [if_neg (by decide), if_neg (by decide), if_neg (by decide), if_neg (by decide), if_pos trivial]
    rw [e]
    refine Takes.bind (a := v) (ts := [⟨.float, fl.show64 v⟩]) (us := []) (fun rest e => ?_) (Takes.pure _)
    have k := constFloat64_cons lib (fl.show64 v) rest e
    rw [h.2] at k
    exact k
  | callIndirect t =>
    refine ⟨txt "call_indirect", inParens [kw (txt "type"), ⟨.id, t⟩], by simp [instToks], by decide, fun f n => ?_⟩
    have e : parseHead streamOps lib f n (txt "call_indirect") = (do
        let id ← parseTypeUse streamOps
        pure (.callIndirect id)) := by
      unfold parseHead
      rw [show plainWords.lookup (txt "call_indirect") = none by decide]
      simp only
      rw [show indexedWords.lookup (txt "call_indirect") = none by decide]
      simp only
      rw [if_neg (by decide), if_neg (by decide), if_neg (by decide), if_neg (by decide), if_neg (by decide), if_neg (by decide),
        if_neg (by decide), if_neg (by decide), if_pos trivial]
    rw [e]
    refine Takes.bind (a := t) (ts := inParens [kw (txt "type"), ⟨.id, t⟩]) (us := []) (fun rest e => ?_) (Takes.pure _)
    unfold parseTypeUse
    rw [show inParens [kw (txt "type"), (⟨.id, t⟩ : Sig)] ++ rest = lp :: kw (txt "type") :: ⟨.id, t⟩ :: rp :: rest from rfl]
    rw [SM.bind_ok (expect_lp _ e), SM.bind_ok (expectWord_cons _ _ e), SM.bind_ok (parseId_cons t _ e), SM.bind_ok (expect_rp _ e)]
    rfl
  | nil => simp [isLeaf] at hl
  | folded i ps => simp [isLeaf] at hl
  | block a b c => simp [isLeaf] at hl
  | loop a b c => simp [isLeaf] at hl
  | ifThen a b c d e => simp [isLeaf] at hl

theorem instsToks_eq (fl : Floats) (is : List Inst) : instsToks fl is = is.flatMap fun i => inParens (instToks fl i) := by
  induction is with
  | nil => rfl
  | cons i is ih => rw [instsToks, ih]; rfl

/-- The first word of an instruction. -/
theorem inst_first (lib : Lib) (fl : Floats) (i : Inst) (h : InstOk lib fl i) :
    ∃ w r, instToks fl i = kw w :: r ∧ w ∉ otherWords := by
  by_cases hl : isLeaf i = true
  · obtain ⟨w, r, h1, h2, -⟩ := leaf_head lib fl i hl h
    exact ⟨w, r, h1, h2⟩
  · cases i with
    | nil => simp [InstOk] at h
    | folded i ps =>
      rw [InstOk] at h
      obtain ⟨w, r, h1, h2, -⟩ := leaf_head lib fl i h.1 h.2.1
      exact ⟨w, r ++ instsToks fl ps, by rw [instToks, h1]; rfl, h2⟩
    | block a b c => exact ⟨_, _, by rw [instToks], by decide⟩
    | loop a b c => exact ⟨_, _, by rw [instToks], by decide⟩
    | ifThen a b c d e => exact ⟨_, _, by rw [instToks], by decide⟩
    | plain p => simp [isLeaf] at hl
    | indexed p q => simp [isLeaf] at hl
    | i32Const p => simp [isLeaf] at hl
    | i64Const p => simp [isLeaf] at hl
    | f32Const p => simp [isLeaf] at hl
    | f64Const p => simp [isLeaf] at hl
    | callIndirect p => simp [isLeaf] at hl

theorem instruction_reads (lib : Lib) (w : List Byte) (ts : List Sig) (i : Inst)
    (h : Reads (fun n => parseHead streamOps lib (parseInstruction streamOps lib n) n w >>=
      parseFolded streamOps (parseInstruction streamOps lib n) n) ts i) :
    Reads (parseInstruction streamOps lib) (kw w :: ts) i := by
  obtain ⟨N, hN⟩ := h
  refine ⟨N + 1, fun n hn rest e => ?_⟩
  cases n with
  | zero => omega
  | succ n =>
    rw [List.cons_append, parseInstruction_cons]
    exact hN n (by omega) rest e

theorem folded_stop (f : Nat → SM Stream Inst) (i : Inst) : Reads (fun n => parseFolded streamOps (f n) n i) [] i :=
  ⟨0, fun n _ rest e => parseFolded_not (f n) n i rp (by simp [rp]) rest e⟩

/-- A leaf alone. -/
theorem reads_leaf (lib : Lib) (fl : Floats) (i : Inst) (hl : isLeaf i = true) (h : InstOk lib fl i) :
    Reads (parseInstruction streamOps lib) (instToks fl i) i := by
  obtain ⟨w, args, h1, -, h3⟩ := leaf_head lib fl i hl h
  rw [h1]
  refine instruction_reads lib w args i ?_
  have k := Takes.reads_bind (g := fun n => parseFolded streamOps (parseInstruction streamOps lib n) n)
    (fun n => h3 (parseInstruction streamOps lib n) n) (folded_stop (parseInstruction streamOps lib) i)
  rwa [List.append_nil] at k

theorem reads_map {ι : Type} (f : Nat → SM Stream ι) (l : List ι) (toks : ι → List Sig) (h : ∀ x ∈ l, Reads f (toks x) x) :
    Reads (fun n => parens streamOps (f n) n) (l.flatMap fun x => inParens (toks x)) l := by
  have k := parens_reads f l toks id h
  rwa [List.map_id] at k

/-- The results of a block, before something that is no further result. -/
theorem blockType_reads (rs : List Result) (us : List Sig) (hus : us = [] ∨ ∃ w r, us = lp :: kw w :: r ∧ w ≠ txt "result") :
    ∃ N, ∀ n, N ≤ n → ∀ rest e, parseBlockType streamOps n
      ⟨(rs.flatMap fun r => inParens (resultToks r)) ++ (us ++ rp :: rest), e⟩ = (.ok rs, ⟨us ++ rp :: rest, e⟩) := by
  induction rs with
  | nil =>
    refine ⟨1, fun n hn rest e => ?_⟩
    cases n with
    | zero => omega
    | succ n =>
      rw [List.flatMap_nil, List.nil_append, parseBlockType, SM.bind_get]
      rcases hus with rfl | ⟨w, r, rfl, hw⟩
      · rw [List.nil_append, SM.bind_ok (eat_not rp rest e .openParen (by simp [rp])), if_neg (by simp)]
        rfl
      · rw [List.cons_append, List.cons_append, SM.bind_ok (eat_lp _ e), if_pos rfl, peek_bind, if_pos (by simpa [kw] using hw)]
        rfl
  | cons x rs ih =>
    obtain ⟨N, hN⟩ := ih
    obtain ⟨M, hM⟩ := while_reads (parseValType streamOps) (fun tok => tok.type != .closeParen) x.types (fun t => kw (valWord t)) id
        (fun x => by simp [kw]) (by simp [rp]) takes_valType
    refine ⟨N + M + 1, fun n hn rest e => ?_⟩
    cases n with
    | zero => omega
    | succ n =>
      rw [List.flatMap_cons, List.append_assoc, parseBlockType, SM.bind_get]
      rw [show inParens (resultToks x) ++ ((rs.flatMap fun r => inParens (resultToks r)) ++ (us ++ rp :: rest)) =
        lp :: kw (txt "result") :: ((x.types.map fun t => kw (valWord t)) ++ rp :: ((rs.flatMap fun r => inParens (resultToks r)) ++ (us ++ rp :: rest)))
        by simp [inParens, resultToks]]
      rw [SM.bind_ok (eat_lp _ e), if_pos rfl, peek_bind, if_neg (by simp [kw]), SM.bind_ok (expectWord_cons _ _ e),
        SM.bind_ok (hM n (by omega) _ e), SM.bind_ok (expect_rp _ e), SM.bind_ok (hN n (by omega) rest e), List.map_id]
      rfl

theorem insts_first (lib : Lib) (fl : Floats) (is : List Inst) (h : InstsOk lib fl is) :
    instsToks fl is = [] ∨ ∃ w r, instsToks fl is = lp :: kw w :: r ∧ w ≠ txt "result" := by
  cases is with
  | nil => exact .inl rfl
  | cons i is =>
    rw [InstsOk] at h
    obtain ⟨w, r, h1, h2⟩ := inst_first lib fl i h.1
    refine .inr ⟨w, r ++ [rp] ++ instsToks fl is, ?_, fun e => h2 (by rw [e]; decide)⟩
    rw [instsToks, h1]
    simp [inParens]

/-- The head of a block or loop. -/
theorem reads_block (lib : Lib) (fl : Floats) (mk : Option (List Byte) → List Result → List Inst → Inst) (name : Option (List Byte))
    (rs : List Result) (is : List Inst) (h : InstsOk lib fl is)
    (hr : Reads (fun n => parens streamOps (parseInstruction streamOps lib n) n) (instsToks fl is) is) :
    Reads (fun n => parseBlock streamOps mk (parseInstruction streamOps lib n) n)
      (idToks name ++ (rs.flatMap fun r => inParens (resultToks r)) ++ instsToks fl is) (mk name rs is) := by
  rw [List.append_assoc]
  unfold parseBlock
  refine reads_optionalId name _ _ ?_ ?_
  · intro t ht
    have : t = lp := by
      rw [instsToks_eq] at ht
      cases rs with
      | nil => exact head_flatMap is _ t ht
      | cons r rs => cases ht; rfl
    rw [this]; simp [lp]
  · obtain ⟨N, hN⟩ := blockType_reads rs _ (insts_first lib fl is h)
    obtain ⟨M, hM⟩ := hr
    refine ⟨max N M, fun n hn rest e => ?_⟩
    change (parseBlockType streamOps n >>= _) _ = _
    rw [List.append_assoc, SM.bind_ok (hN n (by omega) rest e)]
    change (parens streamOps (parseInstruction streamOps lib n) n >>= _) _ = _
    rw [SM.bind_ok (hM n (by omega) rest e)]
    rfl

/-- The tokens of what stands in an `if`. -/
def ifItemToks (fl : Floats) : IfItem → List Sig
  | .result r => resultToks r
  | .thens is => kw (txt "then") :: instsToks fl is
  | .elses is => kw (txt "else") :: instsToks fl is
  | .inst i => instToks fl i

theorem reads_peek {g : Nat → Sig → SM Stream β} (t : Sig) (ts : List Sig) (b : β) (h : Reads (fun n => g n t) (t :: ts) b) :
    Reads (fun n => streamOps.peek >>= g n) (t :: ts) b := by
  obtain ⟨N, hN⟩ := h
  refine ⟨N, fun n hn rest e => ?_⟩
  change (streamOps.peek >>= g n) _ = _
  rw [List.cons_append, peek_bind]
  exact hN n hn rest e

theorem Reads.map {f : Nat → SM Stream α} {ts : List Sig} {a : α} (h : Reads f ts a) (g : α → β) :
    Reads (fun n => do let x ← f n; Pure.pure (g x)) ts (g a) := Reads.bind h (Reads.pure _)

theorem Reads.ite_pos {f g : Nat → SM Stream α} {ts : List Sig} {a : α} {p : Prop} [Decidable p] (hp : p) (h : Reads f ts a) :
    Reads (fun n => if p then f n else g n) ts a := by
  have : (fun n => if p then f n else g n) = f := funext fun n => if_pos hp
  rwa [this]

theorem Reads.ite_neg {f g : Nat → SM Stream α} {ts : List Sig} {a : α} {p : Prop} [Decidable p] (hp : ¬p) (h : Reads g ts a) :
    Reads (fun n => if p then f n else g n) ts a := by
  have : (fun n => if p then f n else g n) = g := funext fun n => if_neg hp
  rwa [this]

theorem Reads.word {f : Nat → SM Stream α} {ts : List Sig} {a : α} (w : List Byte) (h : Reads f ts a) :
    Reads (fun n => do expectWord streamOps w; f n) (kw w :: ts) a :=
  Takes.reads_bind (f := fun _ => expectWord streamOps w) (ts := [kw w]) (fun _ => takes_word w) h

/-- What stands in an `if`. -/
theorem reads_ifItems (lib : Lib) (fl : Floats) (l : List IfItem)
    (hr : ∀ r, .result r ∈ l → r.types.length = 1)
    (hi : ∀ i, .inst i ∈ l → InstOk lib fl i ∧ Reads (parseInstruction streamOps lib) (instToks fl i) i)
    (ht : ∀ is, .thens is ∈ l → Reads (fun n => parens streamOps (parseInstruction streamOps lib n) n) (instsToks fl is) is)
    (he : ∀ is, .elses is ∈ l → Reads (fun n => parens streamOps (parseInstruction streamOps lib n) n) (instsToks fl is) is) :
    Reads (fun n => parens streamOps (parseIfItem streamOps (parseInstruction streamOps lib n) n) n)
      (l.flatMap fun x => inParens (ifItemToks fl x)) l := by
  refine reads_map _ l (ifItemToks fl) fun x hx => ?_
  unfold parseIfItem
  cases x with
  | result r =>
    refine reads_peek _ _ _ (Reads.ite_pos rfl ?_)
    exact (takes_result r (hr r hx)).reads.map IfItem.result
  | thens is =>
    refine reads_peek _ _ _ (Reads.ite_neg (by decide) (Reads.ite_pos rfl ?_))
    exact ((ht is hx).map IfItem.thens).word _
  | elses is =>
    refine reads_peek _ _ _ (Reads.ite_neg (by decide) (Reads.ite_neg (by decide) (Reads.ite_pos rfl ?_)))
    exact ((he is hx).map IfItem.elses).word _
  | inst i =>
    obtain ⟨h1, h2⟩ := hi i hx
    obtain ⟨w, r, e1, e2⟩ := inst_first lib fl i h1
    have k := h2.map IfItem.inst
    rw [ifItemToks]
    rw [e1] at k ⊢
    exact reads_peek _ _ _ (Reads.ite_neg (fun h => e2 (by rw [show w = _ from h]; decide))
      (Reads.ite_neg (fun h => e2 (by rw [show w = _ from h]; decide)) (Reads.ite_neg (fun h => e2 (by rw [show w = _ from h]; decide)) k)))

/-- The items of a printed `if`. -/
def ifItems (rs : List Result) (clause thens : List Inst) (elses : Option (List Inst)) : List IfItem :=
  rs.map .result ++ (clause.map .inst ++ (.thens thens :: (match elses with | none => [] | some is => [.elses is])))

theorem filterMap_none {α β : Type} (l : List α) : l.filterMap (fun _ => (none : Option β)) = [] := by
  induction l with
  | nil => rfl
  | cons x l ih => rw [List.filterMap_cons_none rfl, ih]

theorem ifOfItems_eq (name : Option (List Byte)) (rs : List Result) (clause thens : List Inst) (elses : Option (List Inst)) :
    ifOfItems name (ifItems rs clause thens elses) = .ifThen name rs clause thens elses := by
  unfold ifOfItems ifItems
  simp only [List.filterMap_append, List.filterMap_map, Function.comp_def]
  cases elses <;> simp [filterMap_none]

theorem ifItems_toks (fl : Floats) (rs : List Result) (clause thens : List Inst) (elses : Option (List Inst)) :
    (ifItems rs clause thens elses).flatMap (fun x => inParens (ifItemToks fl x)) =
      (rs.flatMap fun r => inParens (resultToks r)) ++ instsToks fl clause ++ inParens (kw (txt "then") :: instsToks fl thens) ++
        elseToks fl elses := by
  unfold ifItems
  rw [List.flatMap_append, List.flatMap_append, List.flatMap_map, List.flatMap_map, instsToks_eq fl clause]
  cases elses <;> simp [ifItemToks, elseToks]

theorem instsOk_mem (lib : Lib) (fl : Floats) (is : List Inst) (h : InstsOk lib fl is) : ∀ i ∈ is, InstOk lib fl i := by
  induction is with
  | nil => simp
  | cons i is ih =>
    rw [InstsOk] at h
    intro x hx
    rcases List.mem_cons.mp hx with rfl | hx
    · exact h.1
    · exact ih h.2 x hx

/-- Instructions in parentheses, each of which is read. -/
theorem reads_list (lib : Lib) (fl : Floats) (is : List Inst) (h : ∀ i ∈ is, Reads (parseInstruction streamOps lib) (instToks fl i) i) :
    Reads (fun n => parens streamOps (parseInstruction streamOps lib n) n) (instsToks fl is) is := by
  rw [instsToks_eq]
  exact reads_map _ is _ h

theorem head_block (lib : Lib) (f : SM Stream Inst) (n : Nat) : parseHead streamOps lib f n (txt "block") = parseBlock streamOps .block f n := by
  unfold parseHead
  rw [show plainWords.lookup (txt "block") = none by decide]
  simp only
  rw [show indexedWords.lookup (txt "block") = none by decide]
  simp only
  rw [if_neg (by decide), if_neg (by decide), if_neg (by decide), if_neg (by decide), if_neg (by decide), if_pos trivial]

theorem head_loop (lib : Lib) (f : SM Stream Inst) (n : Nat) : parseHead streamOps lib f n (txt "loop") = parseBlock streamOps .loop f n := by
  unfold parseHead
  rw [show plainWords.lookup (txt "loop") = none by decide]
  simp only
  rw [show indexedWords.lookup (txt "loop") = none by decide]
  simp only
  rw [if_neg (by decide), if_neg (by decide), if_neg (by decide), if_neg (by decide), if_neg (by decide), if_neg (by decide), if_pos trivial]

theorem head_if (lib : Lib) (f : SM Stream Inst) (n : Nat) : parseHead streamOps lib f n (txt "if") = parseIf streamOps f n := by
  unfold parseHead
  rw [show plainWords.lookup (txt "if") = none by decide]
  simp only
  rw [show indexedWords.lookup (txt "if") = none by decide]
  simp only
  rw [if_neg (by decide), if_neg (by decide), if_neg (by decide), if_neg (by decide), if_neg (by decide), if_neg (by decide),
    if_neg (by decide), if_pos trivial]

theorem reads_if (lib : Lib) (fl : Floats) (name : Option (List Byte)) (rs : List Result) (clause thens : List Inst) (elses : Option (List Inst))
    (hr : ∀ r ∈ rs, r.types.length = 1) (hc : InstsOk lib fl clause)
    (kc : ∀ i ∈ clause, Reads (parseInstruction streamOps lib) (instToks fl i) i)
    (kt : ∀ i ∈ thens, Reads (parseInstruction streamOps lib) (instToks fl i) i)
    (ke : ∀ is, elses = some is → ∀ i ∈ is, Reads (parseInstruction streamOps lib) (instToks fl i) i) :
    Reads (fun n => parseIf streamOps (parseInstruction streamOps lib n) n)
      (idToks name ++ (rs.flatMap fun r => inParens (resultToks r)) ++ instsToks fl clause ++ inParens (kw (txt "then") :: instsToks fl thens) ++
        elseToks fl elses) (.ifThen name rs clause thens elses) := by
  rw [show idToks name ++ (rs.flatMap fun r => inParens (resultToks r)) ++ instsToks fl clause ++ inParens (kw (txt "then") :: instsToks fl thens) ++
        elseToks fl elses = idToks name ++ (ifItems rs clause thens elses).flatMap (fun x => inParens (ifItemToks fl x)) by
    rw [ifItems_toks]; simp only [List.append_assoc], ← ifOfItems_eq]
  unfold parseIf
  refine reads_optionalId name _ _ (fun t ht => ?_) ?_
  · rw [head_flatMap _ _ t ht]; simp [lp]
  · refine Reads.map (reads_ifItems lib fl _ ?_ ?_ ?_ ?_) (ifOfItems name)
    · intro r h
      refine hr r ?_
      cases elses <;> simpa [ifItems] using h
    · intro i h
      have h : i ∈ clause := by cases elses <;> simpa [ifItems] using h
      exact ⟨instsOk_mem lib fl clause hc i h, kc i h⟩
    · intro is h
      have h : is = thens := by cases elses <;> simpa [ifItems] using h
      rw [h]
      exact reads_list lib fl thens kt
    · intro is h
      have h : elses = some is := by
        cases elses with
        | none => simp [ifItems] at h
        | some x => simp [ifItems] at h; rw [h]
      exact reads_list lib fl is (ke is h)

mutual
/-- The parser reads every printed instruction. -/
theorem reads_inst (lib : Lib) (fl : Floats) : (i : Inst) → InstOk lib fl i → Reads (parseInstruction streamOps lib) (instToks fl i) i
  | .nil, h => absurd h (by simp [InstOk])
  | .plain p, h => reads_leaf lib fl _ rfl h
  | .indexed k i, h => reads_leaf lib fl _ rfl h
  | .i32Const v, h => reads_leaf lib fl _ rfl h
  | .i64Const v, h => reads_leaf lib fl _ rfl h
  | .f32Const v, h => reads_leaf lib fl _ rfl h
  | .f64Const v, h => reads_leaf lib fl _ rfl h
  | .callIndirect t, h => reads_leaf lib fl _ rfl h
  | .folded i ps, h => by
    rw [InstOk] at h
    obtain ⟨w, args, h1, -, h3⟩ := leaf_head lib fl i h.1 h.2.1
    have kp := reads_list lib fl ps (reads_insts lib fl ps h.2.2.2)
    rw [instToks, h1, List.cons_append]
    refine instruction_reads lib w _ _ (Takes.reads_bind (fun n => h3 (parseInstruction streamOps lib n) n) ?_)
    have hl : ∃ r, instsToks fl ps = lp :: r := by
      cases ps with
      | nil => exact absurd rfl h.2.2.1
      | cons x ps => exact ⟨_, by rw [instsToks]; rfl⟩
    obtain ⟨r, hr⟩ := hl
    rw [hr] at kp ⊢
    unfold parseFolded
    exact reads_peek _ _ _ (Reads.ite_neg (by simp [lp]) (kp.map (Inst.folded i)))
  | .block name rs is, h => by
    rw [InstOk] at h
    have k := reads_block lib fl .block name rs is h.2 (reads_list lib fl is (reads_insts lib fl is h.2))
    rw [instToks]
    refine instruction_reads lib _ _ _ ?_
    simp only [head_block]
    exact Reads.bind k (folded_stop (parseInstruction streamOps lib) _)
  | .loop name rs is, h => by
    rw [InstOk] at h
    have k := reads_block lib fl .loop name rs is h.2 (reads_list lib fl is (reads_insts lib fl is h.2))
    rw [instToks]
    refine instruction_reads lib _ _ _ ?_
    simp only [head_loop]
    exact Reads.bind k (folded_stop (parseInstruction streamOps lib) _)
  | .ifThen name rs clause thens elses, h => by
    rw [InstOk] at h
    have k := reads_if lib fl name rs clause thens elses h.2.1 h.2.2.1 (reads_insts lib fl clause h.2.2.1)
      (reads_insts lib fl thens h.2.2.2.1) (reads_else lib fl elses h.2.2.2.2)
    rw [instToks]
    refine instruction_reads lib _ _ _ ?_
    simp only [head_if]
    exact Reads.bind k (folded_stop (parseInstruction streamOps lib) _)
/-- The parser reads each of these printed instructions. -/
theorem reads_insts (lib : Lib) (fl : Floats) : (is : List Inst) → InstsOk lib fl is → ∀ i ∈ is, Reads (parseInstruction streamOps lib) (instToks fl i) i
  | [], _ => by simp
  | i :: is, h => by
    rw [InstsOk] at h
    have k1 := reads_inst lib fl i h.1
    have k2 := reads_insts lib fl is h.2
    intro x hx
    rcases List.mem_cons.mp hx with rfl | hx
    · exact k1
    · exact k2 x hx
/-- The parser reads each instruction of a printed `else`. -/
theorem reads_else (lib : Lib) (fl : Floats) : (o : Option (List Inst)) → ElseOk lib fl o → ∀ is, o = some is →
    ∀ i ∈ is, Reads (parseInstruction streamOps lib) (instToks fl i) i
  | none, _ => by simp
  | some x, h => by
    rw [ElseOk] at h
    have k := reads_insts lib fl x h
    intro is e
    cases e
    exact k
end

/-- The parser reads the instructions of a printed list. -/
theorem reads_instructions (lib : Lib) (fl : Floats) (is : List Inst) (h : InstsOk lib fl is) :
    Reads (fun n => parens streamOps (parseInstruction streamOps lib n) n) (instsToks fl is) is :=
  reads_list lib fl is (reads_insts lib fl is h)

/-! ## Types, tables, memories, globals -/

theorem reads_results (rs : List Result) (h : ∀ r ∈ rs, r.types.length = 1) : ∀ r ∈ rs, Reads (fun _ => parseResult streamOps) (resultToks r) r :=
  fun r hr => (takes_result r (h r hr)).reads

/-- The tokens of what stands in a function type. -/
def funcTypeItemToks : FuncTypeItem → List Sig
  | .param p => paramToks p
  | .result r => resultToks r
  | .nothing => []

theorem reads_funcType (f : FuncType) (hp : ∀ p ∈ f.parameters, ParamOk p) (hr : ∀ r ∈ f.results, r.types.length = 1) :
    Reads (parseFuncType streamOps) (kw (txt "func") ::
      ((f.parameters.flatMap fun p => inParens (paramToks p)) ++ f.results.flatMap fun r => inParens (resultToks r))) f := by
  have e1 : f = FuncType.ofItems (f.parameters.map .param ++ f.results.map .result) := by
    unfold FuncType.ofItems
    simp only [List.filterMap_append, List.filterMap_map, Function.comp_def]
    simp [filterMap_none]
  have e2 : (f.parameters.flatMap fun p => inParens (paramToks p)) ++ (f.results.flatMap fun r => inParens (resultToks r)) =
      (f.parameters.map FuncTypeItem.param ++ f.results.map FuncTypeItem.result).flatMap fun x => inParens (funcTypeItemToks x) := by
    rw [List.flatMap_append, List.flatMap_map, List.flatMap_map]
    rfl
  have k : Reads (fun n => parens streamOps (parseFuncTypeItem streamOps n) n)
      ((f.parameters.map FuncTypeItem.param ++ f.results.map FuncTypeItem.result).flatMap fun x => inParens (funcTypeItemToks x))
      (f.parameters.map FuncTypeItem.param ++ f.results.map .result) := by
    refine reads_map _ _ _ fun x hx => ?_
    unfold parseFuncTypeItem
    rcases List.mem_append.mp hx with h | h
    · obtain ⟨p, h', rfl⟩ := List.mem_map.mp h
      exact reads_peek _ _ _ (Reads.ite_pos rfl ((reads_param p (hp p h')).map FuncTypeItem.param))
    · obtain ⟨r, h', rfl⟩ := List.mem_map.mp h
      exact reads_peek _ _ _ (Reads.ite_neg (by decide) (Reads.ite_pos rfl ((takes_result r (hr r h')).reads.map FuncTypeItem.result)))
  have k' := (k.map FuncType.ofItems).word (txt "func")
  rw [← e1, ← e2] at k'
  exact k'

theorem reads_type (t : TypeDef) (h : TypeOk t) : Reads (parseType streamOps) (typeToks t) t := by
  obtain ⟨h1, h2, h3⟩ := h
  unfold parseType typeToks
  refine Reads.word _ (reads_optionalId t.id _ _ ?_ ?_)
  · intro x hx; cases hx; simp [lp]
  · obtain ⟨N, hN⟩ := reads_funcType t.funcType h2 h3
    have k : Reads (typeBody streamOps) (inParens (kw (txt "func") ::
      ((t.funcType.parameters.flatMap fun p => inParens (paramToks p)) ++ t.funcType.results.flatMap fun r => inParens (resultToks r)))) t.funcType := by
      refine ⟨N, fun n hn rest e => ?_⟩
      unfold typeBody
      rw [show ∀ l, inParens l ++ rp :: rest = lp :: (l ++ rp :: (rp :: rest)) by intro l; simp [inParens], SM.bind_ok (eat_lp _ e), if_pos rfl,
        SM.bind_ok (hN n hn (rp :: rest) e), SM.bind_ok (expect_rp _ e)]
      rfl
    exact k.map fun f => (⟨t.id, f⟩ : TypeDef)

theorem takes_number (v : U32) : Takes (parseInt32 streamOps) [number v.toNat] v := by
  intro rest e
  have k := parseInt32_cons _ _ (number_int32 v).1 rest e
  rw [(number_int32 v).2] at k
  exact k

/-- Limits before something that is no number. -/
theorem limits_reads (l : Limits) (t : Sig) (ht : t.type ≠ .integer) (rest : List Sig) (e : Bool) :
    parseLimits streamOps ⟨limitsToks l ++ t :: rest, e⟩ = (.ok l, ⟨t :: rest, e⟩) := by
  obtain ⟨min, max⟩ := l
  unfold parseLimits
  cases max with
  | none =>
    change (parseInt32 streamOps >>= _) ⟨[number min.toNat] ++ t :: rest, e⟩ = _
    rw [SM.bind_ok (takes_number min _ e)]
    have : limitsMax streamOps ⟨t :: rest, e⟩ = (.ok none, ⟨t :: rest, e⟩) := by
      unfold limitsMax
      rw [peek_bind, if_neg ht]
      rfl
    rw [SM.bind_ok this]
    rfl
  | some max =>
    change (parseInt32 streamOps >>= _) ⟨[number min.toNat] ++ ([number max.toNat] ++ t :: rest), e⟩ = _
    rw [SM.bind_ok (takes_number min _ e)]
    have : limitsMax streamOps ⟨[number max.toNat] ++ t :: rest, e⟩ = (.ok (some max), ⟨t :: rest, e⟩) := by
      unfold limitsMax
      change (streamOps.peek >>= _) ⟨number max.toNat :: t :: rest, e⟩ = _
      rw [peek_bind, if_pos (show (number max.toNat).type = .integer from rfl)]
      change (parseInt32 streamOps >>= _) ⟨[number max.toNat] ++ t :: rest, e⟩ = _
      rw [SM.bind_ok (takes_number max _ e)]
      rfl
    rw [SM.bind_ok this]
    rfl

theorem reads_memory (m : Memory) : Reads (fun _ => parseMemory streamOps) (memoryToks m) m := by
  unfold parseMemory memoryToks
  refine Reads.word _ (reads_optionalId m.id _ _ ?_ ?_)
  · intro t ht; cases ht; simp [number]
  · exact Reads.map (f := fun _ => parseLimits streamOps) ⟨0, fun _ _ rest e => limits_reads m.limits rp (by simp [rp]) rest e⟩ fun l => (⟨m.id, l⟩ : Memory)

theorem takes_tableType (t : TableType) (h : t.refType ≠ none) :
    Takes (parseTableType streamOps) (limitsToks t.limits ++ (match t.refType with | none => [] | some r => [kw (refWord r)])) t := by
  obtain ⟨l, r⟩ := t
  cases r with
  | none => exact absurd rfl h
  | some r =>
    intro rest e
    unfold parseTableType
    have k : tableLimits streamOps ⟨limitsToks l ++ kw (refWord r) :: rest, e⟩ = (.ok l, ⟨kw (refWord r) :: rest, e⟩) := by
      have := limits_reads l (kw (refWord r)) (by simp [kw]) rest e
      unfold tableLimits
      rw [show limitsToks l ++ kw (refWord r) :: rest = number l.min.toNat :: ((match l.max with | none => [] | some m => [number m.toNat]) ++ kw (refWord r) :: rest) from rfl] at this ⊢
      rw [peek_bind, if_pos (show (number l.min.toNat).type = .integer from rfl), this]
    rw [List.append_assoc]
    change (tableLimits streamOps >>= _) ⟨limitsToks l ++ kw (refWord r) :: rest, e⟩ = _
    rw [SM.bind_ok k, next_bind, if_neg (by simp [kw]), show refTypes.lookup (kw (refWord r)).capture = some r by cases r <;> decide]
    rfl

theorem reads_table (t : Table) (h : TableOk t) : Reads (parseTable streamOps) (tableToks t) t := by
  obtain ⟨h1, h2, h3⟩ := h
  unfold parseTable tableToks
  rw [List.append_assoc, List.append_assoc]
  refine Reads.word _ (reads_optionalId t.id _ _ ?_ ?_)
  · intro x hx; cases hx; simp [number]
  · rw [← List.append_assoc]
    refine Takes.reads_bind (fun _ => takes_tableType t.tableType h2) ?_
    refine Reads.map (a := t.elements) (reads_map _ t.elements (fun e => [kw (txt "elem"), ⟨.id, e⟩]) fun x hx => ?_) fun es => (⟨t.id, t.tableType, es⟩ : Table)
    refine ⟨0, fun n _ rest e => ?_⟩
    change (streamOps.next >>= _) ⟨kw (txt "elem") :: ⟨.id, x⟩ :: rp :: rest, e⟩ = _
    rw [next_bind, if_neg (by simp [kw]), if_pos (show (kw (txt "elem")).capture = txt "elem" from rfl)]
    exact parseId_cons x (rp :: rest) e

theorem reads_global (lib : Lib) (fl : Floats) (g : Global) (h : GlobalOk lib fl g) :
    Reads (parseGlobal streamOps lib) (globalToks fl g) g := by
  obtain ⟨id, mutable, ty, is⟩ := g
  obtain ⟨h1, h2⟩ := h
  unfold parseGlobal globalToks
  rw [List.append_assoc]
  refine Reads.word _ (reads_optionalId id _ _ ?_ ?_)
  · intro x hx
    cases mutable <;> (cases hx; simp [lp, kw])
  · refine Takes.reads_bind (a := (mutable, ty)) (fun _ => ?_) ((reads_instructions lib fl is h2).map fun is => (⟨id, mutable, ty, is⟩ : Global))
    intro rest e
    unfold parseGlobalType
    cases mutable with
    | true =>
      change (eat streamOps .openParen >>= _) ⟨lp :: ([kw (txt "mut")] ++ ([kw (valWord ty)] ++ rp :: rest)), e⟩ = _
      rw [SM.bind_ok (eat_lp _ e), if_pos rfl, SM.bind_ok (takes_word _ _ e), SM.bind_ok (takes_valType ty _ e), SM.bind_ok (expect_rp _ e)]
      rfl
    | false =>
      change (eat streamOps .openParen >>= _) ⟨kw (valWord ty) :: rest, e⟩ = _
      rw [SM.bind_ok (eat_not _ rest e .openParen (by simp [kw])), if_neg (by simp)]
      change (parseValType streamOps >>= _) ⟨[kw (valWord ty)] ++ rest, e⟩ = _
      rw [SM.bind_ok (takes_valType ty _ e)]
      rfl

/-! ## Functions and modules -/

/-- The tokens of what stands in a function. -/
def funcItemToks (fl : Floats) : FuncItem → List Sig
  | .local_ t => [kw (txt "local"), kw (valWord t)]
  | .param p => paramToks p
  | .result r => resultToks r
  | .export_ n => [kw (txt "export"), ⟨.string, ch '"' :: n ++ [ch '"']⟩]
  | .import_ => []
  | .inst i => instToks fl i

/-- The items of a printed function. -/
def funcItems (f : Function) : List FuncItem :=
  f.exports.map .export_ ++ (f.parameters.map .param ++ (f.results.map .result ++ (f.locals.map .local_ ++ f.instructions.map .inst)))

theorem ofItems_eq (f : Function) : Function.ofItems f.id (funcItems f) [] = f := by
  unfold Function.ofItems funcItems
  simp only [List.filterMap_append, List.filterMap_map, Function.comp_def]
  simp [filterMap_none]

theorem funcItems_toks (fl : Floats) (f : Function) : (funcItems f).flatMap (fun x => inParens (funcItemToks fl x)) =
    (f.exports.flatMap fun n => inParens [kw (txt "export"), ⟨.string, ch '"' :: n ++ [ch '"']⟩]) ++
    (f.parameters.flatMap fun p => inParens (paramToks p)) ++
    (f.results.flatMap fun r => inParens (resultToks r)) ++
    (f.locals.flatMap fun t => inParens [kw (txt "local"), kw (valWord t)]) ++
    instsToks fl f.instructions := by
  unfold funcItems
  rw [instsToks_eq]
  simp only [List.flatMap_append, List.flatMap_map, List.append_assoc]
  rfl

theorem trimQuotes_quoted (n : List Byte) (h : ch '"' ∉ n) : trimQuotes (ch '"' :: n ++ [ch '"']) = n := by
  have h1 : ∀ l : List Byte, ch '"' ∉ l → l.dropWhile (· == ch '"') = l := by
    intro l hl
    cases l with
    | nil => rfl
    | cons x l =>
      rw [List.dropWhile_cons, if_neg]
      intro e
      exact hl (by rw [eq_of_beq e]; exact List.mem_cons_self)
  unfold trimQuotes
  cases n with
  | nil => decide
  | cons x n =>
    rw [List.cons_append, List.dropWhile_cons, if_pos (by simp), List.cons_append, List.dropWhile_cons, if_neg, ← List.cons_append, List.reverse_append,
      List.reverse_singleton, List.singleton_append, List.dropWhile_cons, if_pos (by simp), h1 _ (by rwa [List.mem_reverse]), List.reverse_reverse]
    intro e
    exact h (by rw [eq_of_beq e]; exact List.mem_cons_self)

theorem reads_func (lib : Lib) (fl : Floats) (f : Function) (h : FuncOk lib fl f) : Reads (parseFunc streamOps lib) (funcToks fl f) f := by
  obtain ⟨h1, h2, h3, h4, h5⟩ := h
  rw [show funcToks fl f = kw (txt "func") :: (idToks f.id ++ (funcItems f).flatMap (fun x => inParens (funcItemToks fl x))) by
    rw [funcItems_toks]; simp only [funcToks, List.append_assoc]]
  unfold parseFunc
  refine Reads.word _ (reads_optionalId f.id _ _ ?_ ?_)
  · intro t ht; rw [head_flatMap _ _ t ht]; simp [lp]
  · refine Reads.bind (a := funcItems f) ?_ ?_
    · refine reads_map _ _ _ fun x hx => ?_
      unfold parseFuncItem
      unfold funcItems at hx
      simp only [List.mem_append, List.mem_map] at hx
      rcases hx with ⟨x, h, rfl⟩ | ⟨x, h, rfl⟩ | ⟨x, h, rfl⟩ | ⟨x, h, rfl⟩ | ⟨x, h, rfl⟩
      · refine reads_peek _ _ _ (Reads.ite_neg (by decide) (Reads.ite_neg (by decide) (Reads.ite_neg (by decide) (Reads.ite_pos rfl ?_))))
        refine Reads.map (f := fun _ => parseExport streamOps) ?_ FuncItem.export_
        refine Reads.word _ ⟨0, fun n _ rest e => ?_⟩
        have := parseString_cons (ch '"' :: x ++ [ch '"']) (rp :: rest) e
        rw [trimQuotes_quoted x (h2 x h)] at this
        exact this
      · exact reads_peek _ _ _ (Reads.ite_neg (by decide) (Reads.ite_pos rfl ((reads_param x (h3 x h)).map FuncItem.param)))
      · exact reads_peek _ _ _ (Reads.ite_neg (by decide) (Reads.ite_neg (by decide) (Reads.ite_pos rfl
          ((takes_result x (h4 x h)).reads.map FuncItem.result))))
      · exact reads_peek _ _ _ (Reads.ite_pos rfl (Reads.map (f := fun _ => parseLocal streamOps)
          (Reads.word _ (takes_valType x).reads) FuncItem.local_))
      · have k1 := instsOk_mem lib fl _ h5 x h
        have k2 := (reads_inst lib fl x k1).map FuncItem.inst
        obtain ⟨w, r, e1, e2⟩ := inst_first lib fl x k1
        rw [funcItemToks]
        rw [e1] at k2 ⊢
        refine reads_peek _ _ _ (Reads.ite_neg ?_ (Reads.ite_neg ?_ (Reads.ite_neg ?_ (Reads.ite_neg ?_ (Reads.ite_neg ?_ k2))))) <;>
          exact fun h => e2 (by rw [show w = _ from h]; decide)
    · refine ⟨1, fun n hn rest e => ?_⟩
      cases n with
      | zero => omega
      | succ n =>
        change (while_ streamOps _ _ (n + 1) >>= _) ⟨rp :: rest, e⟩ = _
        rw [SM.bind_ok (while_stop _ _ n rp rest e (by simp [rp])), ofItems_eq]
        rfl

/-- The tokens of a section. -/
def sectionToks (fl : Floats) : Section → List Sig
  | .func f => funcToks fl f
  | .type t => typeToks t
  | .table t => tableToks t
  | .global g => globalToks fl g
  | .memory m => memoryToks m

/-- The sections of a printed module. -/
def sections (m : Module) : List Section :=
  m.types.map .type ++ (m.tables.map .table ++ (m.memory.map .memory ++ (m.globals.map .global ++ m.functions.map .func)))

theorem ofSections_eq (m : Module) : Module.ofSections (sections m) = m := by
  unfold Module.ofSections sections
  simp only [List.filterMap_append, List.filterMap_map, Function.comp_def]
  simp [filterMap_none]

theorem reads_module (lib : Lib) (fl : Floats) (m : Module) (h : Supported lib fl (.module m)) :
    Reads (parseModule streamOps lib) (⟨.module, txt "module"⟩ :: (sections m).flatMap fun x => inParens (sectionToks fl x)) m := by
  obtain ⟨h1, h2, h3, h4, h5⟩ := h
  have k : Reads (fun n => parens streamOps (parseSection streamOps lib n) n) ((sections m).flatMap fun x => inParens (sectionToks fl x)) (sections m) := by
    refine reads_map _ _ _ fun x hx => ?_
    unfold parseSection
    unfold sections at hx
    simp only [List.mem_append, List.mem_map] at hx
    rcases hx with ⟨x, h, rfl⟩ | ⟨x, h, rfl⟩ | ⟨x, h, rfl⟩ | ⟨x, h, rfl⟩ | ⟨x, h, rfl⟩
    · exact reads_peek _ _ _ (Reads.ite_neg (by decide) (Reads.ite_pos rfl ((reads_type x (h1 x h)).map Section.type)))
    · exact reads_peek _ _ _ (Reads.ite_neg (by decide) (Reads.ite_neg (by decide) (Reads.ite_pos rfl ((reads_table x (h2 x h)).map Section.table))))
    · exact reads_peek _ _ _ (Reads.ite_neg (by decide) (Reads.ite_neg (by decide) (Reads.ite_neg (by decide) (Reads.ite_neg (by decide)
        (Reads.ite_pos rfl ((reads_memory x).map Section.memory))))))
    · exact reads_peek _ _ _ (Reads.ite_neg (by decide) (Reads.ite_neg (by decide) (Reads.ite_neg (by decide)
        (Reads.ite_pos rfl ((reads_global lib fl x (h4 x h)).map Section.global)))))
    · exact reads_peek _ _ _ (Reads.ite_pos rfl ((reads_func lib fl x (h5 x h)).map Section.func))
  have k' := k.map Module.ofSections
  rw [ofSections_eq] at k'
  unfold parseModule
  refine Takes.reads_bind (ts := [⟨.module, txt "module"⟩]) (a := ()) (fun _ rest e => ?_) k'
  exact expect_cons ⟨.module, txt "module"⟩ rest e

/-- The parser reads the tokens of a supported directive. -/
theorem reads_directive (lib : Lib) (fl : Floats) (d : Directive) (h : Supported lib fl d) :
    ∃ N, ∀ n, N ≤ n → parse streamOps lib n ⟨directiveToks fl d, true⟩ = (.ok d, ⟨[], true⟩) := by
  cases d with
  | component =>
    refine ⟨0, fun n _ => ?_⟩
    unfold parse
    change (expect streamOps .openParen >>= _) ⟨lp :: ⟨.component, txt "component"⟩ :: rp :: [], true⟩ = _
    rw [SM.bind_ok (expect_lp _ true)]
    have : parseRoot streamOps lib n ⟨⟨.component, txt "component"⟩ :: rp :: [], true⟩ = (.ok .component, ⟨rp :: [], true⟩) := by
      unfold parseRoot
      rw [peek_bind, if_neg (by simp), if_pos rfl]
      unfold parseComponent
      rw [SM.bind_ok (show expect streamOps .component ⟨⟨.component, txt "component"⟩ :: rp :: [], true⟩ = _ from expect_cons ⟨.component, txt "component"⟩ _ true)]
      rfl
    rw [SM.bind_ok this, SM.bind_ok (expect_rp _ true)]
    rfl
  | module m =>
    obtain ⟨N, hN⟩ := reads_module lib fl m h
    refine ⟨N, fun n hn => ?_⟩
    have e : directiveToks fl (.module m) = lp :: ((⟨.module, txt "module"⟩ :: (sections m).flatMap fun x => inParens (sectionToks fl x)) ++ rp :: []) := by
      unfold directiveToks sections
      simp only [List.flatMap_append, List.flatMap_map, List.append_assoc, inParens, List.cons_append]
      rfl
    unfold parse
    rw [e, SM.bind_ok (expect_lp _ true)]
    have : parseRoot streamOps lib n ⟨(⟨.module, txt "module"⟩ :: (sections m).flatMap fun x => inParens (sectionToks fl x)) ++ rp :: [], true⟩ =
        (.ok (.module m), ⟨rp :: [], true⟩) := by
      have k := hN n hn [] true
      unfold parseRoot
      rw [List.cons_append] at k ⊢
      rw [peek_bind, if_pos rfl, SM.bind_ok k]
      rfl
    rw [SM.bind_ok this, SM.bind_ok (expect_rp _ true)]
    rfl

end Verif.Wat
