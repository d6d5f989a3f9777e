import Verif.Wat.Items

/-!
# What the readers of single items return
-/

namespace Verif.Wat

open Spec

theorem dropWhile_quotes (w : List Byte) :
    ∃ i, w = List.replicate i (ch '"') ++ w.dropWhile (· == ch '"') ∧ (w.dropWhile (· == ch '"')).head? ≠ some (ch '"') := by
  induction w with
  | nil => exact ⟨0, rfl, by simp⟩
  | cons x w ih =>
    by_cases hx : x = ch '"'
    · obtain ⟨i, h1, h2⟩ := ih
      refine ⟨i + 1, ?_, ?_⟩
      · rw [List.dropWhile_cons, if_pos (by simp [hx]), List.replicate_succ, List.cons_append, ← h1, hx]
      · rwa [List.dropWhile_cons, if_pos (by simp [hx])]
    · refine ⟨0, ?_, ?_⟩
      · rw [List.dropWhile_cons, if_neg (by simpa using hx)]; rfl
      · rw [List.dropWhile_cons, if_neg (by simpa using hx)]
        simpa using hx

theorem dropWhile_replicate (i : Nat) (s : List Byte) (h : s.head? ≠ some (ch '"')) :
    (List.replicate i (ch '"') ++ s).dropWhile (· == ch '"') = s := by
  induction i with
  | zero =>
    cases s with
    | nil => rfl
    | cons x s =>
      rw [List.replicate_zero, List.nil_append, List.dropWhile_cons, if_neg]
      simpa using h
  | succ i ih => rw [List.replicate_succ, List.cons_append, List.dropWhile_cons, if_pos (by simp)]; exact ih

theorem trimQuotes_unquoted (w : List Byte) : Unquoted w (trimQuotes w) := by
  obtain ⟨i, h1, h2⟩ := dropWhile_quotes w
  obtain ⟨j, k1, k2⟩ := dropWhile_quotes (w.dropWhile (· == ch '"')).reverse
  have e : w.dropWhile (· == ch '"') = trimQuotes w ++ List.replicate j (ch '"') := by
    have := congrArg List.reverse k1
    rw [List.reverse_reverse, List.reverse_append, List.reverse_replicate] at this
    exact this
  refine ⟨i, j, by rw [← e]; exact h1, ?_, ?_⟩
  · intro h
    rw [e] at h2
    apply h2
    rw [List.head?_append, h]; rfl
  · unfold trimQuotes
    rwa [List.getLast?_reverse]

theorem unquoted_iff (w s : List Byte) : Unquoted w s ↔ trimQuotes w = s := by
  constructor
  · rintro ⟨i, j, rfl, h1, h2⟩
    unfold trimQuotes
    cases s with
    | nil =>
      rw [List.nil_append, List.replicate_append_replicate]
      have := dropWhile_replicate (i + j) [] (by simp)
      rw [List.append_nil] at this
      rw [this]; rfl
    | cons x s =>
      rw [dropWhile_replicate _ _ (by simpa using h1), List.reverse_append, List.reverse_replicate, dropWhile_replicate, List.reverse_reverse]
      rwa [List.head?_reverse]
  · rintro rfl
    exact trimQuotes_unquoted w

/-- What a reader does on tokens. -/
theorem readItem_token (lib : Lib) (h : lib.Total) (i : Item) (t : Sig) (ts : List Sig) (e : Bool) :
    (∃ g, Value lib i t g ∧ readItem streamOps lib i ⟨t :: ts, e⟩ = (.ok g, ⟨if i = .peek then t :: ts else ts, e⟩)) ∨
    ((∀ g, ¬ Value lib i t g) ∧ (readItem streamOps lib i ⟨t :: ts, e⟩).1 = .err) := by
  obtain ⟨ty, w⟩ := t
  cases i with
  | peek => exact .inl ⟨_, .peek _, rfl⟩
  | string =>
    by_cases hty : ty = .string
    · subst hty
      exact .inl ⟨_, .string _ _ (trimQuotes_unquoted w), rfl⟩
    · right
      refine ⟨fun g hg => by cases hg; exact hty rfl, ?_⟩
      simp [readItem, parseStringItem, unrecovered, streamOps, SM.bind_def, hty]
  | int32 =>
    have hk : readItem streamOps lib .int32 ⟨⟨ty, w⟩ :: ts, e⟩ = ((if ty ≠ .integer then SM.fail else do let i ← SM.lift (integerValue w); pure (BitVec.ofInt 32 i)) >>=
      fun v => pure (Got.int32 v)) (⟨ts, e⟩ : Stream) := rfl
    rw [hk]
    by_cases hty : ty = .integer
    · subst hty
      rcases integerValue_returns w with ⟨v, hv⟩ | hv
      · left
        refine ⟨_, .int32 w v ((integerValue_iff w v).1 hv), ?_⟩
        simp [SM.bind_def, hv]
      · right
        refine ⟨fun g hg => ?_, ?_⟩
        · cases hg with
          | int32 _ i hi => rw [(integerValue_iff w i).2 hi] at hv; cases hv
        · simp [SM.bind_def, hv]
    · right
      refine ⟨fun g hg => by cases hg; exact hty rfl, ?_⟩
      simp [SM.bind_def, hty]
  | int64 =>
    have hk : readItem streamOps lib .int64 ⟨⟨ty, w⟩ :: ts, e⟩ = ((if ty ≠ .integer then SM.fail else do let i ← SM.lift (integerValue w); pure (BitVec.ofInt 64 i)) >>=
      fun v => pure (Got.int64 v)) (⟨ts, e⟩ : Stream) := rfl
    rw [hk]
    by_cases hty : ty = .integer
    · subst hty
      rcases integerValue_returns w with ⟨v, hv⟩ | hv
      · left
        refine ⟨_, .int64 w v ((integerValue_iff w v).1 hv), ?_⟩
        simp [SM.bind_def, hv]
      · right
        refine ⟨fun g hg => ?_, ?_⟩
        · cases hg with
          | int64 _ i hi => rw [(integerValue_iff w i).2 hi] at hv; cases hv
        · simp [SM.bind_def, hv]
    · right
      refine ⟨fun g hg => by cases hg; exact hty rfl, ?_⟩
      simp [SM.bind_def, hty]
  | float32 =>
    have hk : readItem streamOps lib .float32 ⟨⟨ty, w⟩ :: ts, e⟩ = ((if ty ≠ .float then SM.fail else SM.lift (float32Value lib w)) >>=
      fun v => pure (Got.float32 v)) (⟨ts, e⟩ : Stream) := rfl
    rw [hk]
    by_cases hty : ty = .float
    · subst hty
      rcases float32Value_returns lib h w with ⟨v, hv⟩ | hv
      · left
        refine ⟨_, .float32 w v ((float32Value_iff lib w v).1 hv), ?_⟩
        simp [SM.bind_def, hv]
      · right
        refine ⟨fun g hg => ?_, ?_⟩
        · cases hg with
          | float32 _ v hi => rw [(float32Value_iff lib w v).2 hi] at hv; cases hv
        · simp [SM.bind_def, hv]
    · right
      refine ⟨fun g hg => by cases hg; exact hty rfl, ?_⟩
      simp [SM.bind_def, hty]
  | float64 =>
    have hk : readItem streamOps lib .float64 ⟨⟨ty, w⟩ :: ts, e⟩ = ((if ty ≠ .float then SM.fail else SM.lift (lib.parseFloat64 w)) >>=
      fun v => pure (Got.float64 v)) (⟨ts, e⟩ : Stream) := rfl
    rw [hk]
    by_cases hty : ty = .float
    · subst hty
      rcases h.2 w with ⟨v, hv⟩ | hv
      · left
        refine ⟨_, .float64 w v hv, ?_⟩
        simp [SM.bind_def, hv]
      · right
        refine ⟨fun g hg => ?_, ?_⟩
        · cases hg with
          | float64 _ v hi => rw [hi] at hv; cases hv
        · simp [SM.bind_def, hv]
    · right
      refine ⟨fun g hg => by cases hg; exact hty rfl, ?_⟩
      simp [SM.bind_def, hty]

theorem stream_answers (lib : Lib) (h : lib.Total) (is : List Item) (ts : List Sig) (e : Bool) :
    Answers lib e is ts (readItems streamOps lib is ⟨ts, e⟩) := by
  induction is generalizing ts with
  | nil => exact .nil ts
  | cons i is ih =>
    rw [readItems]
    cases ts with
    | cons t ts =>
      rcases readItem_token lib h i t ts e with ⟨g, hg, hr⟩ | ⟨hn, hr⟩
      · rw [hr]
        by_cases hi : i = .peek
        · subst hi
          cases hg
          exact .peek is t ts _ (ih (t :: ts))
        · rw [if_neg hi]
          exact .take i is t ts g _ hi hg (ih ts)
      · rcases hx : readItem streamOps lib i ⟨t :: ts, e⟩ with ⟨r, s⟩
        rw [hx] at hr
        simp only at hr
        subst hr
        exact .refuse i is t ts hn
    | nil =>
      cases e with
      | true =>
        cases i with
        | peek => exact .peekEnd is _ rfl (ih [])
        | _ => exact .takeEnd _ is rfl (by simp)
      | false =>
        cases i with
        | string => exact .noString is rfl
        | _ => exact .noToken _ is rfl (by simp)

theorem Sim.unrecovered {S T α : Type} {R : S → T → Prop} {f : SM S α} {g : SM T α} (h : Sim R f g) :
    Sim R (unrecovered f) (unrecovered g) := by
  intro s t hR hd
  have k := h s t hR
  unfold Verif.Wat.unrecovered at hd ⊢
  rcases hf : f s with ⟨r, s'⟩
  rcases hg : g t with ⟨r', t'⟩
  rw [hf, hg] at k
  rw [hf] at hd
  cases r with
  | diverge => exact absurd rfl hd
  | ok a =>
    obtain ⟨k1, k2⟩ := k (by simp)
    simp only at k1 k2
    subst k1
    exact ⟨rfl, k2⟩
  | err =>
    obtain ⟨k1, -⟩ := k (by simp)
    simp only at k1
    subst k1
    exact ⟨rfl, fun a ha => by simp at ha⟩
  | panic =>
    obtain ⟨k1, -⟩ := k (by simp)
    simp only at k1
    subst k1
    exact ⟨rfl, fun a ha => by simp at ha⟩

theorem readItem_sim {S T : Type} {R : S → T → Prop} {o : Ops S} {p : Ops T} (h : OpsSim R o p) (lib : Lib) (i : Item) :
    Sim R (readItem o lib i) (readItem p lib i) := by
  cases i with
  | peek => exact Sim.bind h.peek fun _ => Sim.pure _
  | string => exact Sim.bind (Sim.bind h.next.unrecovered fun _ => Sim.ite Sim.fail (Sim.pure _)) fun _ => Sim.pure _
  | int32 => exact Sim.bind (parseInt32_sim h) fun _ => Sim.pure _
  | int64 => exact Sim.bind (parseInt64_sim h) fun _ => Sim.pure _
  | float32 => exact Sim.bind (Sim.bind h.next fun _ => Sim.ite Sim.fail (Sim.lift _)) fun _ => Sim.pure _
  | float64 => exact Sim.bind (Sim.bind h.next fun _ => Sim.ite Sim.fail (Sim.lift _)) fun _ => Sim.pure _

theorem readItem_stops (lib : Lib) (h : lib.Total) (i : Item) (st : Stream) : (readItem streamOps lib i st).1 ≠ .diverge := by
  obtain ⟨ts, e⟩ := st
  cases ts with
  | cons t ts =>
    rcases readItem_token lib h i t ts e with ⟨g, -, hr⟩ | ⟨-, hr⟩
    · rw [hr]; simp
    · rw [hr]; simp
  | nil => cases e <;> cases i <;> exact nofun

theorem readItems_same (lib : Lib) (h : lib.Total) (is : List Item) (st : Stream) (l : Lexer) (hg : Gives st l) :
    readItems lexOps lib is l = readItems streamOps lib is st := by
  induction is generalizing st l with
  | nil => rfl
  | cons i is ih =>
    obtain ⟨h1, h2⟩ := readItem_sim lexOps_sim lib i st l hg (readItem_stops lib h i st)
    rw [readItems, readItems]
    rcases hx : readItem streamOps lib i st with ⟨r, s⟩
    rcases hy : readItem lexOps lib i l with ⟨r', s'⟩
    rw [hx, hy] at h1 h2
    simp only at h1 h2
    subst h1
    cases r with
    | ok g => simp only; rw [ih _ _ (h2 g rfl)]
    | err => rfl
    | panic => rfl
    | diverge => rfl

/-- C136, but for strings where there is no token. Calls of the readers on the lexer of a text, in any order, are
answered from the tokens of the text, one after another. Missing: where the text is not over but has no token
`ParseString` panics instead of returning an error, see `string_panics`. (`lib.Total`: `strconv.ParseFloat` returns.) -/
theorem items_answered_partial (lib : Lib) (h : lib.Total) (is : List Item) (text : List Byte) :
    Answers lib (lexed text).2 is (tokens text) (readItems lexOps lib is (Lexer.new text)) := by
  rw [readItems_same lib h is _ _ (gives_new text), ← significant_toks]
  have e : (significant text).ended = (lexed text).2 := (collect_lexed (text.length + 1) (Lexer.new text)).2
  rw [← e]
  exact stream_answers lib h is _ _

/-- The tokens decide the answers. -/
theorem answers_unique (lib : Lib) (e : Bool) (is : List Item) (ts : List Sig) (rs rs' : List (Res Got))
    (h : Answers lib e is ts rs) (h' : Answers lib e is ts rs') : rs = rs' := by
  have val : ∀ {i t g g'}, Value lib i t g → Value lib i t g' → g = g' := by
    intro i t g g' hg hg'
    cases hg with
    | peek => cases hg'; rfl
    | string w s hs => cases hg' with | string _ s' hs' => rw [← (unquoted_iff w s).1 hs, ← (unquoted_iff w s').1 hs']
    | int32 w i hi => cases hg' with
      | int32 _ j hj => rw [Res.ok.inj (((integerValue_iff w i).2 hi).symm.trans ((integerValue_iff w j).2 hj))]
    | int64 w i hi => cases hg' with
      | int64 _ j hj => rw [Res.ok.inj (((integerValue_iff w i).2 hi).symm.trans ((integerValue_iff w j).2 hj))]
    | float32 w i hi => cases hg' with
      | float32 _ j hj => rw [Res.ok.inj (((float32Value_iff lib w i).2 hi).symm.trans ((float32Value_iff lib w j).2 hj))]
    | float64 w i hi => cases hg' with
      | float64 _ j hj => rw [Res.ok.inj (hi.symm.trans hj)]
  induction h generalizing rs' with
  | nil => cases h'; rfl
  | peek is t ts rs _ ih =>
    cases h' with
    | peek _ _ _ rs' h' => rw [ih _ h']
    | take _ _ _ _ _ _ hi => exact absurd rfl hi
    | refuse _ _ _ _ hn => exact absurd (.peek t) (hn _)
  | take i is t ts g rs hi hg _ ih =>
    cases h' with
    | peek => exact absurd rfl hi
    | take _ _ _ _ g' rs' _ hg' h' => rw [ih _ h', val hg hg']
    | refuse _ _ _ _ hn => exact absurd hg (hn _)
  | refuse i is t ts hn =>
    cases h' with
    | peek => exact absurd (.peek t) (hn _)
    | take _ _ _ _ g' rs' _ hg' h' => exact absurd hg' (hn _)
    | refuse => rfl
  | peekEnd is rs he _ ih =>
    cases h' with
    | peekEnd _ rs' _ h' => rw [ih _ h']
    | takeEnd _ _ _ hi => exact absurd rfl hi
    | noToken _ _ hf => rw [he] at hf; cases hf
  | takeEnd i is he hi =>
    cases h' with
    | peekEnd => exact absurd rfl hi
    | takeEnd => rfl
    | noToken => rfl
    | noString _ hf => rw [he] at hf; cases hf
  | noToken i is he hi =>
    cases h' with
    | peekEnd _ _ hf => rw [he] at hf; cases hf
    | takeEnd => rfl
    | noToken => rfl
    | noString => exact absurd rfl hi
  | noString is he =>
    cases h' with
    | takeEnd _ _ hf => rw [he] at hf; cases hf
    | noToken _ _ _ hi => exact absurd rfl hi
    | noString => rfl

/-- None of the readers but `ParseString` ever panics or fails to return. -/
theorem items_return (lib : Lib) (h : lib.Total) (is : List Item) (hs : Item.string ∉ is) (text : List Byte) :
    ∀ r ∈ readItems lexOps lib is (Lexer.new text), r.Returns := by
  have k := items_answered_partial lib h is text
  generalize readItems lexOps lib is (Lexer.new text) = rs at k
  generalize tokens text = ts at k
  induction k with
  | nil => intro r hr; simp at hr
  | peek is t ts rs _ ih =>
    intro r hr
    rcases List.mem_cons.1 hr with rfl | hr
    · exact .inl ⟨_, rfl⟩
    · exact ih (fun hm => hs (List.mem_cons_of_mem _ hm)) r hr
  | take i is t ts g rs _ _ _ ih =>
    intro r hr
    rcases List.mem_cons.1 hr with rfl | hr
    · exact .inl ⟨_, rfl⟩
    · exact ih (fun hm => hs (List.mem_cons_of_mem _ hm)) r hr
  | peekEnd is rs _ _ ih =>
    intro r hr
    rcases List.mem_cons.1 hr with rfl | hr
    · exact .inl ⟨_, rfl⟩
    · exact ih (fun hm => hs (List.mem_cons_of_mem _ hm)) r hr
  | refuse => intro r hr; rw [List.mem_singleton.1 hr]; exact .inr rfl
  | takeEnd => intro r hr; rw [List.mem_singleton.1 hr]; exact .inr rfl
  | noToken => intro r hr; rw [List.mem_singleton.1 hr]; exact .inr rfl
  | noString => exact absurd List.mem_cons_self hs

/-- C136 is false of the code: on a text that begins with something that is no token, `ParseString` panics, and the other
readers return an error. -/
theorem string_panics (lib : Lib) (h : lib.Total) (text : List Byte) (ht : tokens text = []) (he : (lexed text).2 = false) :
    readItems lexOps lib [.string] (Lexer.new text) = [.panic] ∧
    ∀ i, i ≠ .string → readItems lexOps lib [i] (Lexer.new text) = [.err] := by
  constructor
  · have k := items_answered_partial lib h [.string] text
    rw [ht] at k
    exact answers_unique lib _ _ _ _ _ k (.noString [] he)
  · intro i hi
    have k := items_answered_partial lib h [i] text
    rw [ht] at k
    exact answers_unique lib _ _ _ _ _ k (.noToken i [] he hi)

example : tokens (txt " ;a") = [] ∧ (lexed (txt " ;a")).2 = false := by decide +kernel

example : readItems lexOps someLib [.peek, .string, .int32, .peek, .float32, .peek, .int64] (Lexer.new (txt "\"ab\" (;c;) -0x10 -nan:0x400000")) =
    [.ok (.token ⟨.string, txt "\"ab\""⟩), .ok (.string (txt "ab")), .ok (.int32 0xfffffff0),
      .ok (.token ⟨.float, txt "-nan:0x400000"⟩), .ok (.float32 0xffc00000), .ok (.token ⟨.endOfStream, []⟩), .err] := by decide +kernel

end Verif.Wat
