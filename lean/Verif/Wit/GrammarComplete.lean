import Verif.Wit.GrammarSound

/-!
# What is in the grammar is accepted
-/

namespace Verif.Wit

open Spec

variable {α β : Type}

/-- The end of the text, or a token of none of the given types. -/
def Follow (ks : List TokenType) (st : Stream) : Prop := st = ⟨[], true⟩ ∨ ∃ t r, st.toks = t :: r ∧ t.type ∉ ks

/-- Tokens in `A`, if they are less than `n` and what follows is none of `ks`, are taken by `f`. -/
def Takes (n : Nat) (f : SM Stream α) (A : α → Lang) (ks : List TokenType) : Prop :=
  ∀ a ts st, A a ts → Follow ks st → ts.length < n → f (st.push ts) = (.ok a, st)

/-- The first token of every sequence in the language is of one of the given types. -/
def Begins (A : Lang) (ks : List TokenType) : Prop := ∀ ts, A ts → ∃ t r, ts = t :: r ∧ t.type ∈ ks

theorem Begins.T (k : TokenType) : Begins (T k) [k] := by
  rintro ts ⟨w, rfl⟩
  exact ⟨_, [], rfl, by simp⟩

theorem Begins.ident (w : List Byte) : Begins (ident w) [.id, .explicitId] := by
  rintro ts (rfl | rfl)
  · exact ⟨_, [], rfl, by simp⟩
  · exact ⟨_, [], rfl, by simp⟩

theorem Begins.cat {A B : Lang} {ks : List TokenType} (h : Begins A ks) : Begins (A ⬝ B) ks := by
  rintro ts ⟨a, b, rfl, ha, hb⟩
  obtain ⟨t, r, rfl, ht⟩ := h a ha
  exact ⟨t, r ++ b, rfl, ht⟩

theorem Begins.only {p : Prop} {B : Lang} {ks : List TokenType} (h : Begins B ks) : Begins (only p ⬝ B) ks := by
  rintro ts ⟨a, b, rfl, ⟨-, rfl⟩, hb⟩
  exact h b hb

theorem Begins.mono {A : Lang} {ks js : List TokenType} (h : Begins A ks) (hk : ∀ k ∈ ks, k ∈ js) : Begins A js := by
  intro ts ha
  obtain ⟨t, r, rfl, ht⟩ := h ts ha
  exact ⟨t, r, rfl, hk _ ht⟩

theorem Begins.length {A : Lang} {ks : List TokenType} (h : Begins A ks) {ts : List Sig} (ha : A ts) : 0 < ts.length := by
  obtain ⟨t, r, rfl, -⟩ := h ts ha
  simp

theorem Follow.begins {A : Lang} {ks fs : List TokenType} (h : Begins A ks) (hk : ∀ k ∈ ks, k ∉ fs) {ts r : List Sig} (ha : A ts) (st : Stream) :
    Follow fs (st.push (ts ++ r)) := by
  obtain ⟨t, r', rfl, ht⟩ := h ts ha
  exact .inr ⟨t, r' ++ r ++ st.toks, by simp [Stream.push], hk _ ht⟩

theorem Follow.T {k : TokenType} {fs : List TokenType} {ts r : List Sig} (h : T k ts) (hk : k ∉ fs) (st : Stream) : Follow fs (st.push (ts ++ r)) :=
  Follow.begins (Begins.T k) (by simpa using hk) h st

theorem Follow.mono {fs gs : List TokenType} {st : Stream} (h : Follow fs st) (hk : ∀ k ∈ gs, k ∈ fs) : Follow gs st := by
  rcases h with h | ⟨t, r, h, ht⟩
  · exact .inl h
  · exact .inr ⟨t, r, h, fun k => ht (hk _ k)⟩

/-! ## Steps -/

theorem take_expect {k : TokenType} {t r : List Sig} (h : T k t) (g : Unit → SM Stream β) (st : Stream) :
    (expect streamOps k >>= g) (st.push (t ++ r)) = g () (st.push r) := by
  obtain ⟨w, rfl⟩ := h
  exact SM.bind_ok (expect_cons _ _ _ _ rfl)

theorem take_ident {w : List Byte} {t r : List Sig} (h : ident w t) (g : List Byte → SM Stream β) (st : Stream) :
    (parseId streamOps >>= g) (st.push (t ++ r)) = g w (st.push r) := by
  rcases h with rfl | rfl
  · exact SM.bind_ok (parseId_cons _ _ _ (.inl rfl))
  · exact SM.bind_ok (parseId_cons _ _ _ (.inr rfl))

theorem take_eat {k : TokenType} {t r : List Sig} (h : T k t) (f g : SM Stream β) (st : Stream) :
    (eatTok streamOps k >>= fun b => if b then f else g) (st.push (t ++ r)) = f (st.push r) := by
  obtain ⟨w, rfl⟩ := h
  exact (SM.bind_ok (eat_cons _ _ _ _ rfl)).trans (congrFun (if_pos rfl) _)

theorem take_eatNot {k : TokenType} {ks : List TokenType} {st : Stream} (h : Follow ks st) (hk : k ∈ ks) (he : k ≠ .endOfStream) (f g : SM Stream β) :
    (eatTok streamOps k >>= fun b => if b then f else g) st = g st := by
  rcases h with rfl | ⟨t, r, h, ht⟩
  · exact (SM.bind_ok (eat_end k he)).trans (congrFun (if_neg (by simp)) _)
  · rcases st with ⟨ts, e⟩
    simp only at h
    subst h
    exact (SM.bind_ok (eat_not t r e k (fun h => ht (h ▸ hk)))).trans (congrFun (if_neg (by simp)) _)

theorem take_bind {n : Nat} {f : SM Stream α} {A : α → Lang} {ks : List TokenType} (hf : Takes n f A ks) {a : α} {t r : List Sig} (h : A a t)
    (g : α → SM Stream β) (st : Stream) (hr : Follow ks (st.push r)) (hn : t.length < n) :
    (f >>= g) (st.push (t ++ r)) = g a (st.push r) := by
  rw [← push_push]
  exact SM.bind_ok (hf a t _ h hr hn)

theorem take_last {n : Nat} {f : SM Stream α} {A : α → Lang} {ks : List TokenType} (hf : Takes n f A ks) {a : α} {t : List Sig} (h : A a t)
    (g : α → SM Stream β) (st : Stream) (hr : Follow ks st) (hn : t.length < n) : (f >>= g) (st.push t) = g a st :=
  SM.bind_ok (hf a t _ h hr hn)

theorem take_peek {A : Lang} {ks : List TokenType} (hb : Begins A ks) {t r : List Sig} (h : A t) (g : Sig → SM Stream β) (st : Stream) :
    ∃ u, u.type ∈ ks ∧ (streamOps.peek >>= g) (st.push (t ++ r)) = g u (st.push (t ++ r)) := by
  obtain ⟨u, r', rfl, hu⟩ := hb t h
  exact ⟨u, hu, rfl⟩

theorem expect_takes (k : TokenType) (n : Nat) (ks : List TokenType) : Takes n (expect streamOps k) (fun _ => T k) ks := by
  rintro ⟨⟩ ts st ⟨w, rfl⟩ _ _
  exact expect_cons _ _ _ _ rfl

theorem expect_last {k : TokenType} {t : List Sig} (h : T k t) (g : Unit → SM Stream β) (st : Stream) :
    (expect streamOps k >>= g) (st.push t) = g () st := by
  have := take_expect (r := []) h g st
  simpa [push_nil] using this

theorem eat_last {k : TokenType} {t : List Sig} (h : T k t) (f g : SM Stream β) (st : Stream) :
    (eatTok streamOps k >>= fun b => if b then f else g) (st.push t) = f st := by
  have := take_eat (r := []) h f g st
  simpa [push_nil] using this

theorem ident_last {w : List Byte} {t : List Sig} (h : ident w t) (g : List Byte → SM Stream β) (st : Stream) :
    (parseId streamOps >>= g) (st.push t) = g w st := by
  have := take_ident (r := []) h g st
  simpa [push_nil] using this

theorem parseId_takes (n : Nat) (ks : List TokenType) : Takes n (parseId streamOps) ident ks := by
  rintro w ts st (rfl | rfl) _ _
  · exact parseId_cons _ _ _ (.inl rfl)
  · exact parseId_cons _ _ _ (.inr rfl)

/-! ## Lists -/

theorem Follow.not {A : Lang} {js : List TokenType} {k : TokenType} (hb : Begins A js) (hk : k ∉ js) {ts r : List Sig} (ha : A ts) (st : Stream) :
    Follow [k] (st.push (ts ++ r)) := Follow.begins hb (fun j hj h => by simp at h; exact hk (h ▸ hj)) ha st

theorem untilTok_takes {n : Nat} {f : SM Stream α} {A : α → Lang} {ks js : List TokenType} (k : TokenType) (hk : k ≠ .endOfStream)
    (hf : Takes n f A ks) (hb : ∀ a, Begins (A a) js) (hkj : k ∉ js) (hkk : k ∉ ks) (hjk : ∀ j ∈ js, j ∉ ks) (m : Nat) (xs : List α)
    (ts : List Sig) (st : Stream) (h : (many A xs ⬝ T k) ts) (hn : ts.length ≤ n) (hm : ts.length ≤ m) :
    untilTok streamOps k f m (st.push ts) = (.ok xs, st) := by
  induction xs generalizing m ts with
  | nil =>
    obtain ⟨a, b, rfl, rfl, hb⟩ := h
    cases m with
    | zero =>
      obtain ⟨w, rfl⟩ := hb
      simp at hm
    | succ m => exact eat_last hb _ _ st
  | cons x xs ih =>
    obtain ⟨_, b, rfl, ⟨a, c, rfl, hx, hxs⟩, hk'⟩ := h
    have ha := (hb x).length hx
    have hbl := (Begins.T k).length hk'
    simp only [List.length_append] at hn hm
    cases m with
    | zero => omega
    | succ m =>
      unfold untilTok
      rw [List.append_assoc, take_eatNot (Follow.not (hb x) hkj hx st) (by simp) hk]
      rw [take_bind hf hx _ st ?_ (by omega)]
      · rw [SM.bind_ok (ih m (c ++ b) ⟨c, b, rfl, hxs, hk'⟩ (by simp; omega) (by simp; omega))]
        rfl
      · cases xs with
        | nil =>
          obtain rfl : c = [] := hxs
          have := Follow.T (r := []) hk' hkk st
          simpa using this
        | cons y ys =>
          obtain ⟨d, e, rfl, hy, -⟩ := hxs
          rw [List.append_assoc]
          exact Follow.begins (hb y) hjk hy st

theorem itemLoop_takes {n : Nat} {f : SM Stream α} {A : α → Lang} {ks : List TokenType} (k : TokenType) (hk : k ≠ .endOfStream) (hkc : k ≠ .comma)
    (hf : Takes n f A ks) (hb : ∀ a ts, A a ts → ∃ t r, ts = t :: r ∧ t.type ≠ k) (hkk : k ∉ ks) (hck : TokenType.comma ∉ ks) (m : Nat) (xs : List α)
    (ts : List Sig) (st : Stream) (h : (commas A xs ⬝ T k) ts) (hn : ts.length ≤ n) (hm : ts.length ≤ m) :
    itemLoop streamOps k f m (st.push ts) = (.ok xs, st) := by
  induction xs generalizing m ts with
  | nil =>
    obtain ⟨a, b, rfl, rfl, hb⟩ := h
    cases m with
    | zero =>
      obtain ⟨w, rfl⟩ := hb
      simp at hm
    | succ m => exact eat_last hb _ _ st
  | cons x xs ih =>
    obtain ⟨_, b, rfl, ⟨a, c, rfl, hx, hxs⟩, hk'⟩ := h
    have ha : 0 < a.length := by obtain ⟨t, r, rfl, -⟩ := hb x a hx; simp
    have hbl := (Begins.T k).length hk'
    simp only [List.length_append] at hn hm
    cases m with
    | zero => omega
    | succ m =>
      unfold itemLoop
      have hfl : Follow [k] (st.push (a ++ (c ++ b))) := by
        obtain ⟨t, r, rfl, ht⟩ := hb x a hx
        exact .inr ⟨t, r ++ (c ++ b) ++ st.toks, by simp [Stream.push], by simpa using ht⟩
      rw [List.append_assoc, take_eatNot hfl (by simp) hk]
      rcases hxs with ⟨d, e, rfl, hd, he⟩ | ⟨rfl, rfl⟩
      · rw [List.append_assoc, take_bind hf hx _ st (Follow.T hd hck st) (by omega), take_eat hd]
        simp only [List.length_append] at hn hm
        rw [SM.bind_ok (ih m (e ++ b) ⟨e, b, rfl, he, hk'⟩ (by simp; omega) (by simp; omega))]
        rfl
      · rw [List.nil_append, take_bind hf hx _ st ?_ (by omega), take_eatNot (ks := [.comma]) ?_ (by simp) (by simp), expect_last hk']
        · rfl
        · have := Follow.T (r := []) (fs := [.comma]) hk' (by simpa using hkc) st
          simpa using this
        · have := Follow.T (r := []) hk' hkk st
          simpa using this

theorem parseItemList_takes {n : Nat} {f : SM Stream α} {A : α → Lang} {ks : List TokenType} (b k : TokenType) (hk : k ≠ .endOfStream) (hkc : k ≠ .comma)
    (hf : Takes n f A ks) (hb : ∀ a ts, A a ts → ∃ t r, ts = t :: r ∧ t.type ≠ k) (hkk : k ∉ ks) (hck : TokenType.comma ∉ ks) (fs : List TokenType) :
    Takes (n + 2) (parseItemList streamOps b k f n) (fun xs => T b ⬝ commas A xs ⬝ T k) fs := by
  rintro xs ts st ⟨t1, t2, rfl, h1, h2⟩ _ hn
  have := (Begins.T b).length h1
  simp only [List.length_append] at hn
  unfold parseItemList
  rw [take_expect h1]
  exact itemLoop_takes k hk hkc hf hb hkk hck n xs t2 st h2 (by omega) (by omega)

/-! ## Types -/

theorem T_cons {k : TokenType} {A : Lang} {ts : List Sig} (h : (T k ⬝ A) ts) : ∃ w r, ts = ⟨k, w⟩ :: r ∧ A r := by
  obtain ⟨a, b, rfl, ⟨w, rfl⟩, hb⟩ := h
  exact ⟨w, b, rfl, hb⟩

theorem ty_ne (a : Ty) (ts : List Sig) (h : ty a ts) : ∃ t r, ts = t :: r := by
  have h1 : ∀ {k : TokenType} {A : Lang}, (T k ⬝ A) ts → ∃ t r, ts = t :: r := fun h => by
    obtain ⟨w, r, e, -⟩ := T_cons h
    exact ⟨_, r, e⟩
  have h2 : ∀ {k : TokenType}, T k ts → ∃ t r, ts = t :: r := fun h => by
    obtain ⟨w, e⟩ := h
    exact ⟨_, [], e⟩
  cases a with
  | u32 => rw [ty] at h; exact h2 h
  | string => rw [ty] at h; exact h2 h
  | float32 => rw [ty] at h; exact h2 h
  | float64 => rw [ty] at h; exact h2 h
  | tuple => rw [ty] at h; exact h1 h
  | own => rw [ty] at h; exact h1 h
  | borrow => rw [ty] at h; exact h1 h
  | id w => rw [ty] at h; obtain ⟨k, -, e⟩ := h; exact ⟨_, [], e⟩
  | list a b => rcases a with _ | a <;> rcases b with _ | b <;> rw [ty] at h <;> first | exact h1 h | exact h.elim | (intros; contradiction)
  | option a b => rcases a with _ | a <;> rcases b with _ | b <;> rw [ty] at h <;> first | exact h1 h | exact h.elim | (intros; contradiction)
  | stream a b => rcases a with _ | a <;> rcases b with _ | b <;> rw [ty] at h <;> first | exact h1 h | exact h2 h
  | result a b => rcases a with _ | a <;> rcases b with _ | b <;> rw [ty] at h <;> first | exact h1 h | exact h2 h
  | future a => rcases a with _ | a <;> rw [ty] at h <;> first | exact h1 h | exact h2 h
  | u8 | u16 | u64 | s8 | s16 | s32 | s64 | char | bool => rw [ty] at h <;> first | exact h.elim | (intros; contradiction)

theorem Follow.notBegin {k : TokenType} {a : Ty} {t r : List Sig} (h : (ty a).notBegin k t) (st : Stream) : Follow [k] (st.push (t ++ r)) := by
  obtain ⟨u, r', rfl⟩ := ty_ne a t h.1
  exact .inr ⟨u, r' ++ r ++ st.toks, by simp [Stream.push], by simpa using h.2 u rfl⟩

theorem Follow.last {k : TokenType} {fs : List TokenType} {ts : List Sig} (h : Spec.T k ts) (hk : k ∉ fs) (st : Stream) : Follow fs (st.push ts) := by
  have := Follow.T (r := []) h hk st
  simpa using this

theorem parsePair_takes {n : Nat} {f : SM Stream Ty} (hf : Takes n f ty [.less]) (p : Option Ty × Option Ty) (ts : List Sig) (st : Stream)
    (h : p = (none, none) ∧ ts = [] ∨ (T .less ⬝ pairInner p ⬝ T .greater) ts) (hst : Follow [.less] st) (hn : ts.length < n) :
    parsePair streamOps f (st.push ts) = (.ok p, st) := by
  unfold parsePair
  rcases h with ⟨rfl, rfl⟩ | ⟨t1, _, rfl, h1, t2, t3, rfl, h2, h3⟩
  · rw [push_nil, take_eatNot hst (by simp) (by simp)]
    rfl
  · rw [take_eat h1]
    simp only [List.length_append] at hn
    have hinner : parsePairInner streamOps f (st.push (t2 ++ t3)) = (.ok p, st.push t3) := by
      unfold parsePairInner
      rcases p with ⟨_ | a, _ | b⟩
      · exact h2.elim
      · obtain ⟨t4, _, rfl, h4, t5, t6, rfl, h5, h6⟩ := h2
        simp only [List.length_append] at hn
        rw [List.append_assoc, List.append_assoc, take_eat h4, take_expect h5, take_bind hf h6 _ st (Follow.last h3 (by simp) st) (by omega)]
        rfl
      · rw [take_eatNot (Follow.notBegin h2 st) (by simp) (by simp), take_bind hf h2.1 _ st (Follow.last h3 (by simp) st) (by omega)]
        unfold parseSecond
        have := take_eatNot (k := .comma) (Follow.last (fs := [.comma]) h3 (by simp) st) (by simp) (by simp) (do let t ← f; pure (some t)) (pure none)
        rw [SM.bind_ok this]
        rfl
      · obtain ⟨t4, _, rfl, h4, t5, t6, rfl, h5, h6⟩ := h2
        simp only [List.length_append] at hn
        rw [List.append_assoc, List.append_assoc, take_eatNot (Follow.notBegin h4 st) (by simp) (by simp),
          take_bind hf h4.1 _ st (Follow.T h5 (by simp) st) (by omega)]
        unfold parseSecond
        have := take_eat (r := t6 ++ t3) h5 (do let t ← f; pure (some t)) (pure none) st
        rw [take_bind hf h6 _ st (Follow.last h3 (by simp) st) (by omega)] at this
        rw [SM.bind_ok this]
        rfl
    rw [SM.bind_ok hinner, expect_last h3]
    rfl

theorem parseBracketed_takes {n : Nat} {f : SM Stream Ty} (hf : Takes n f ty [.less]) (a : Ty) (ts : List Sig) (st : Stream)
    (h : (T .less ⬝ ty a ⬝ T .greater) ts) (hn : ts.length < n) : parseBracketed streamOps f (st.push ts) = (.ok a, st) := by
  obtain ⟨t1, _, rfl, h1, t2, t3, rfl, h2, h3⟩ := h
  simp only [List.length_append] at hn
  unfold parseBracketed
  rw [take_expect h1, take_bind hf h2 _ st (Follow.last h3 (by simp) st) (by omega), expect_last h3]
  rfl

theorem parseHandle_takes (w : List Byte) (ts : List Sig) (st : Stream) (h : (T .less ⬝ ident w ⬝ T .greater) ts) :
    parseHandle streamOps (st.push ts) = (.ok w, st) := by
  obtain ⟨t1, _, rfl, h1, t2, t3, rfl, h2, h3⟩ := h
  unfold parseHandle
  rw [take_expect h1, take_ident h2, expect_last h3]
  rfl

theorem parseFuture_takes {n : Nat} {f : SM Stream Ty} (hf : Takes n f ty [.less]) (a : Ty) (ts : List Sig) (st : Stream)
    (h : (T .less ⬝ ty a ⬝ T .greater) ts) (hn : ts.length < n) : parseFuture streamOps f (st.push ts) = (.ok (some a), st) := by
  obtain ⟨t1, _, rfl, h1, t2, t3, rfl, h2, h3⟩ := h
  simp only [List.length_append] at hn
  unfold parseFuture
  rw [take_eat h1, take_bind hf h2 _ st (Follow.last h3 (by simp) st) (by omega), expect_last h3]
  rfl

theorem pair_split {k : TokenType} {p : Option Ty × Option Ty} {A : Lang} {ts : List Sig}
    (hA : p = (none, none) ∧ A = T k ∨ A = T k ⬝ T .less ⬝ pairInner p ⬝ T .greater ∨
      (∃ a b, p = (some a, some b) ∧ A = T k ⬝ T .less ⬝ (ty a).notBegin .underscore ⬝ T .comma ⬝ ty b ⬝ T .greater) ∨
      (∃ b, p = (none, some b) ∧ A = T k ⬝ T .less ⬝ T .underscore ⬝ T .comma ⬝ ty b ⬝ T .greater)) (h : A ts) :
    ∃ w r, ts = ⟨k, w⟩ :: r ∧ (p = (none, none) ∧ r = [] ∨ (T .less ⬝ pairInner p ⬝ T .greater) r) := by
  rcases hA with ⟨rfl, rfl⟩ | rfl | ⟨a, b, rfl, rfl⟩ | ⟨b, rfl, rfl⟩
  · obtain ⟨w, rfl⟩ := h
    exact ⟨w, [], rfl, .inl ⟨rfl, rfl⟩⟩
  · obtain ⟨w, r, rfl, h'⟩ := T_cons h
    exact ⟨w, r, rfl, .inr h'⟩
  · obtain ⟨w, _, rfl, t1, _, rfl, h1, t2, _, rfl, h2, t3, _, rfl, h3, t4, t5, rfl, h4, h5⟩ := T_cons h
    exact ⟨w, _, rfl, .inr ⟨t1, _, rfl, h1, t2 ++ (t3 ++ t4), t5, by simp, ⟨t2, _, rfl, h2, t3, t4, rfl, h3, h4⟩, h5⟩⟩
  · obtain ⟨w, _, rfl, t1, _, rfl, h1, t2, _, rfl, h2, t3, _, rfl, h3, t4, t5, rfl, h4, h5⟩ := T_cons h
    exact ⟨w, _, rfl, .inr ⟨t1, _, rfl, h1, t2 ++ (t3 ++ t4), t5, by simp, ⟨t2, _, rfl, h2, t3, t4, rfl, h3, h4⟩, h5⟩⟩

theorem ty_next (n : Nat) (t : Sig) (r : List Sig) (st : Stream) :
    parseType streamOps (n + 1) (st.push (t :: r)) = parseTypeOf streamOps (parseType streamOps n) n t (st.push r) := rfl

theorem type_takes (n : Nat) : Takes n (parseType streamOps n) ty [.less] := by
  induction n with
  | zero => intro a ts st _ _ h; simp at h
  | succ n ih =>
    intro a ts st h hst hn
    have plain : ∀ {k : TokenType}, T k ts → ∃ w, ts = [⟨k, w⟩] := fun h => h
    have pairS : ∀ p : Option Ty × Option Ty, (∃ w r, ts = ⟨.stream, w⟩ :: r ∧ (p = (none, none) ∧ r = [] ∨ (T .less ⬝ pairInner p ⬝ T .greater) r)) →
        parseType streamOps (n + 1) (st.push ts) = (.ok (.stream p.1 p.2), st) := by
      rintro p ⟨w, r, rfl, h'⟩
      rw [ty_next]
      change (parsePair streamOps (parseType streamOps n) >>= fun p => pure (Ty.stream p.1 p.2)) (st.push r) = _
      rw [SM.bind_ok (parsePair_takes ih p r st h' hst (by simpa using hn))]
      rfl
    have pairR : ∀ p : Option Ty × Option Ty, (∃ w r, ts = ⟨.result, w⟩ :: r ∧ (p = (none, none) ∧ r = [] ∨ (T .less ⬝ pairInner p ⬝ T .greater) r)) →
        parseType streamOps (n + 1) (st.push ts) = (.ok (.result p.1 p.2), st) := by
      rintro p ⟨w, r, rfl, h'⟩
      rw [ty_next]
      change (parsePair streamOps (parseType streamOps n) >>= fun p => pure (Ty.result p.1 p.2)) (st.push r) = _
      rw [SM.bind_ok (parsePair_takes ih p r st h' hst (by simpa using hn))]
      rfl
    cases a with
    | u32 => rw [ty] at h; obtain ⟨w, rfl⟩ := h; rfl
    | string => rw [ty] at h; obtain ⟨w, rfl⟩ := h; rfl
    | float32 => rw [ty] at h; obtain ⟨w, rfl⟩ := h; rfl
    | float64 => rw [ty] at h; obtain ⟨w, rfl⟩ := h; rfl
    | stream a b =>
      rcases a with _ | a <;> rcases b with _ | b <;> rw [ty] at h
      · exact pairS (none, none) (pair_split (.inl ⟨rfl, rfl⟩) h)
      · exact pairS (none, some b) (pair_split (.inr (.inr (.inr ⟨b, rfl, rfl⟩))) h)
      · exact pairS (some a, none) (pair_split (.inr (.inl rfl)) h)
      · exact pairS (some a, some b) (pair_split (.inr (.inr (.inl ⟨a, b, rfl, rfl⟩))) h)
    | result a b =>
      rcases a with _ | a <;> rcases b with _ | b <;> rw [ty] at h
      · exact pairR (none, none) (pair_split (.inl ⟨rfl, rfl⟩) h)
      · exact pairR (none, some b) (pair_split (.inr (.inr (.inr ⟨b, rfl, rfl⟩))) h)
      · exact pairR (some a, none) (pair_split (.inr (.inl rfl)) h)
      · exact pairR (some a, some b) (pair_split (.inr (.inr (.inl ⟨a, b, rfl, rfl⟩))) h)
    | future a =>
      rcases a with _ | a <;> rw [ty] at h
      · obtain ⟨w, rfl⟩ := h
        rw [ty_next, push_nil]
        change (parseFuture streamOps (parseType streamOps n) >>= fun t => pure (Ty.future t)) st = _
        have : parseFuture streamOps (parseType streamOps n) st = (.ok none, st) := take_eatNot hst (by simp) (by simp) _ _
        rw [SM.bind_ok this]
        rfl
      · obtain ⟨w, r, rfl, h'⟩ := T_cons h
        rw [ty_next]
        change (parseFuture streamOps (parseType streamOps n) >>= fun t => pure (Ty.future t)) (st.push r) = _
        rw [SM.bind_ok (parseFuture_takes ih a r st h' (by simpa using hn))]
        rfl
    | list a b =>
      rcases a with _ | a <;> rcases b with _ | b <;> rw [ty] at h <;> first | exact h.elim | (intros; contradiction) | skip
      obtain ⟨w, r, rfl, h'⟩ := T_cons h
      rw [ty_next]
      change (parseBracketed streamOps (parseType streamOps n) >>= fun t => pure (Ty.list (some t) none)) (st.push r) = _
      rw [SM.bind_ok (parseBracketed_takes ih a r st h' (by simpa using hn))]
      rfl
    | option a b =>
      rcases a with _ | a <;> rcases b with _ | b <;> rw [ty] at h <;> first | exact h.elim | (intros; contradiction) | skip
      obtain ⟨w, r, rfl, h'⟩ := T_cons h
      rw [ty_next]
      change (parseBracketed streamOps (parseType streamOps n) >>= fun t => pure (Ty.option (some t) none)) (st.push r) = _
      rw [SM.bind_ok (parseBracketed_takes ih a r st h' (by simpa using hn))]
      rfl
    | own id =>
      rw [ty] at h
      obtain ⟨w, r, rfl, h'⟩ := T_cons h
      rw [ty_next]
      change (parseHandle streamOps >>= fun t => pure (Ty.own t)) (st.push r) = _
      rw [SM.bind_ok (parseHandle_takes id r st h')]
      rfl
    | borrow id =>
      rw [ty] at h
      obtain ⟨w, r, rfl, h'⟩ := T_cons h
      rw [ty_next]
      change (parseHandle streamOps >>= fun t => pure (Ty.borrow t)) (st.push r) = _
      rw [SM.bind_ok (parseHandle_takes id r st h')]
      rfl
    | tuple as =>
      rw [ty, tys_commas] at h
      obtain ⟨w, r, rfl, h'⟩ := T_cons h
      rw [ty_next]
      change (parseItemList streamOps .less .greater (parseType streamOps n) n >>= fun t => pure (Ty.tuple t)) (st.push r) = _
      have ht : Takes n (parseType streamOps n) (fun t => (ty t).notBegin .greater) [.less] := fun a ts st h => ih a ts st h.1
      have := parseItemList_takes .less .greater (by simp) (by simp) ht (fun a ts h => by
        obtain ⟨t, r, rfl⟩ := ty_ne a ts h.1
        exact ⟨t, r, rfl, h.2 t rfl⟩) (by simp) (by simp) [.less] as r st h' hst (by simp at hn; omega)
      rw [SM.bind_ok this]
      rfl
    | id w =>
      rw [ty] at h
      obtain ⟨k, hk, rfl⟩ := h
      rw [ty_next]
      simp only [typeWords, List.mem_cons, List.not_mem_nil, or_false, not_or] at hk
      obtain ⟨n1, n2, n3, n4, n5, n6, n7, n8, n9, n10, n11, n12⟩ := hk
      unfold parseTypeOf
      simp only [if_neg n1, if_neg n2, if_neg n3, if_neg n4, if_neg n5, if_neg n6, if_neg n7, if_neg n8, if_neg n9, if_neg n10, if_neg n11, if_neg n12]
      rfl
    | u8 | u16 | u64 | s8 | s16 | s32 | s64 | char | bool => rw [ty] at h <;> first | exact h.elim | (intros; contradiction)

/-! ## Functions -/

theorem parameter_takes (n : Nat) : Takes n (parseParameter streamOps n) parameter [.less] := by
  rintro ⟨id, t⟩ ts st ⟨t1, _, rfl, h1, t2, t3, rfl, h2, h3⟩ hst hn
  simp only [List.length_append] at hn
  unfold parseParameter
  rw [take_ident h1, take_expect h2, take_last (type_takes n) h3 _ st hst (by omega)]
  rfl

theorem parameter_begins (p : Parameter) : Begins (parameter p) [.id, .explicitId] := (Begins.ident p.id).cat

theorem parameterLoop_takes (n m : Nat) (ps : List Parameter) (ts : List Sig) (st : Stream) (h : (commas parameter ps ⬝ T .closeParen) ts)
    (hn : ts.length ≤ n) (hm : ts.length ≤ m) : parameterLoop streamOps n m (st.push ts) = (.ok ps, st) := by
  induction ps generalizing m ts with
  | nil =>
    obtain ⟨a, b, rfl, rfl, hb⟩ := h
    cases m with
    | zero =>
      obtain ⟨w, rfl⟩ := hb
      simp at hm
    | succ m => exact eat_last hb _ _ st
  | cons p ps ih =>
    obtain ⟨_, b, rfl, ⟨a, c, rfl, hx, hxs⟩, hk'⟩ := h
    have ha := (parameter_begins p).length hx
    have hbl := (Begins.T .closeParen).length hk'
    simp only [List.length_append] at hn hm
    cases m with
    | zero => omega
    | succ m =>
      unfold parameterLoop
      rw [List.append_assoc, take_eatNot (Follow.not (k := .closeParen) (parameter_begins p) (by simp) hx st) (by simp) (by simp)]
      rcases hxs with ⟨d, e, rfl, hd, he⟩ | ⟨rfl, rfl⟩
      · rw [List.append_assoc, take_bind (parameter_takes n) hx _ st (Follow.T hd (by simp) st) (by omega)]
        obtain ⟨u, hu, e1⟩ := take_peek (r := e ++ b) (Begins.T .comma) hd (fun tok => if tok.type = .comma then do
            expect streamOps .comma
            let ps ← parameterLoop streamOps n m
            pure (p :: ps)
          else if tok.type = .closeParen then do
            expect streamOps .closeParen
            pure [p]
          else SM.fail) st
        rw [e1, if_pos (by simpa using hu), take_expect hd]
        simp only [List.length_append] at hn hm
        rw [SM.bind_ok (ih m (e ++ b) ⟨e, b, rfl, he, hk'⟩ (by simp; omega) (by simp; omega))]
        rfl
      · rw [List.nil_append, take_bind (parameter_takes n) hx _ st (Follow.last hk' (by simp) st) (by omega)]
        obtain ⟨w, rfl⟩ := hk'
        rfl

theorem parameters_takes (n : Nat) (ks : List TokenType) : Takes n (parseParameters streamOps n) parameters ks := by
  rintro ps ts st ⟨t1, t2, rfl, h1, h2⟩ _ hn
  simp only [List.length_append] at hn
  unfold parseParameters
  rw [take_expect h1]
  exact parameterLoop_takes n n ps t2 st h2 (by omega) (by omega)

theorem results_takes (n : Nat) : Takes n (parseResults streamOps n) results [.rightArrow, .less] := by
  rintro ⟨named, anonymous⟩ ts st h hst hn
  unfold parseResults
  rcases anonymous with _ | t
  · rcases h with ⟨rfl, rfl⟩ | ⟨t1, t2, rfl, h1, h2⟩
    · rw [push_nil, take_eatNot hst (by simp) (by simp)]
      rfl
    · simp only [List.length_append] at hn
      rw [take_eat h1]
      have hb : Begins (parameters named) [.openParen] := (Begins.T .openParen).cat
      obtain ⟨u, r', rfl, hu⟩ := hb t2 h2
      have := take_last (parameters_takes n []) h2 (fun ps => pure (⟨ps, none⟩ : ResultList)) st (hst.mono (by simp)) (by omega)
      rw [show st.push (u :: r') = ⟨u :: (r' ++ st.toks), st.ended⟩ from rfl] at this ⊢
      rw [peek_bind, if_pos (by simpa using hu), this]
      rfl
  · obtain ⟨_, _, rfl, ⟨rfl, rfl⟩, t1, t2, rfl, h1, h2⟩ := h
    rw [List.nil_append] at hn ⊢
    simp only [List.length_append] at hn
    rw [take_eat h1]
    obtain ⟨u, r', rfl⟩ := ty_ne t t2 h2.1
    have := take_last (type_takes n) h2.1 (fun t => pure (⟨[], some t⟩ : ResultList)) st (hst.mono (by simp)) (by omega)
    rw [show st.push (u :: r') = ⟨u :: (r' ++ st.toks), st.ended⟩ from rfl] at this ⊢
    rw [peek_bind, if_neg (h2.2 u rfl), this]
    rfl

theorem results_follow {r : ResultList} {t : List Sig} (h : results r t) {k : TokenType} {u : List Sig} (hk : T k u) {fs : List TokenType} (hf : k ∉ fs)
    (ha : TokenType.rightArrow ∉ fs) (st : Stream) : Follow fs (st.push (t ++ u)) := by
  rcases r with ⟨named, _ | a⟩
  · rcases h with ⟨rfl, rfl⟩ | ⟨t1, t2, rfl, h1, h2⟩
    · exact Follow.last hk hf st
    · rw [List.append_assoc]
      exact Follow.T h1 ha st
  · obtain ⟨_, _, rfl, ⟨rfl, rfl⟩, t1, t2, rfl, h1, h2⟩ := h
    rw [List.nil_append, List.append_assoc]
    exact Follow.T h1 ha st

theorem Follow.any {fs : List TokenType} {st : Stream} (h : Follow fs st) (t : List Sig) : Follow [] (st.push t) := by
  cases t with
  | nil => exact h.mono (by simp)
  | cons a r => exact .inr ⟨a, r ++ st.toks, rfl, by simp⟩

theorem func_takes (n : Nat) : Takes n (parseFunc streamOps n) func [.rightArrow, .less] := by
  rintro ⟨ps, rs⟩ ts st ⟨t1, _, rfl, h1, t2, t3, rfl, h2, h3⟩ hst hn
  simp only [List.length_append] at hn
  unfold parseFunc
  rw [take_expect h1, take_bind (parameters_takes n []) h2 _ st (hst.any t3) (by omega), take_last (results_takes n) h3 _ st hst (by omega)]
  rfl

theorem funcItem_takes (n : Nat) (ks : List TokenType) : Takes n (parseFuncItem streamOps n) funcItem ks := by
  rintro ⟨id, f⟩ ts st ⟨t1, _, rfl, h1, t2, _, rfl, h2, t3, t4, rfl, h3, h4⟩ _ hn
  simp only [List.length_append] at hn
  unfold parseFuncItem
  rw [take_ident h1, take_expect h2, take_bind (func_takes n) h3 _ st (Follow.last h4 (by simp) st) (by omega), expect_last h4]
  rfl

/-! ## Type definitions -/

theorem typeItem_takes (n : Nat) (id : List Byte) (t : Ty) (ts : List Sig) (st : Stream) (h : typeDef (.type id t) ts) (hn : ts.length < n) :
    parseTypeItem streamOps n (st.push ts) = (.ok (.type id t), st) := by
  obtain ⟨t1, _, rfl, h1, t2, _, rfl, h2, t3, _, rfl, h3, t4, t5, rfl, h4, h5⟩ := h
  simp only [List.length_append] at hn
  unfold parseTypeItem
  rw [take_expect h1, take_ident h2, take_expect h3, take_bind (type_takes n) h4 _ st (Follow.last h5 (by simp) st) (by omega), expect_last h5]
  rfl

theorem recordField_takes (n : Nat) : Takes n (parseRecordField streamOps n) field [.less] := by
  rintro ⟨id, t⟩ ts st ⟨t1, _, rfl, h1, t2, t3, rfl, h2, h3⟩ hst hn
  simp only [List.length_append] at hn
  unfold parseRecordField
  rw [take_ident h1, take_expect h2, take_last (type_takes n) h3 _ st hst (by omega)]
  rfl

theorem Begins.not {A : Lang} {ks : List TokenType} (h : Begins A ks) {k : TokenType} (hk : k ∉ ks) (ts : List Sig) (ha : A ts) :
    ∃ t r, ts = t :: r ∧ t.type ≠ k := by
  obtain ⟨t, r, rfl, ht⟩ := h ts ha
  exact ⟨t, r, rfl, fun e => hk (e ▸ ht)⟩

/-- A list in braces, after a keyword and a name. -/
theorem braces_takes {n : Nat} {f : SM Stream α} {A : α → Lang} {ks js : List TokenType} (k : TokenType) (hf : Takes n f A ks)
    (hb : ∀ a, Begins (A a) js) (hj : TokenType.closeBrace ∉ js) (hkk : TokenType.closeBrace ∉ ks) (hck : TokenType.comma ∉ ks)
    (w : List Byte) (xs : List α) (ts : List Sig) (st : Stream) (h : (T k ⬝ ident w ⬝ T .openBrace ⬝ commas A xs ⬝ T .closeBrace) ts) (hn : ts.length < n)
    (c : List Byte → List α → TypeDef) :
    (do
      expect streamOps k
      let id ← parseId streamOps
      let fs ← parseItemList streamOps .openBrace .closeBrace f n
      pure (c id fs) : SM Stream TypeDef) (st.push ts) = (.ok (c w xs), st) := by
  obtain ⟨t1, _, rfl, h1, t2, t3, rfl, h2, h3⟩ := h
  simp only [List.length_append] at hn
  rw [take_expect h1, take_ident h2]
  obtain ⟨t4, t5, rfl, h4, h5⟩ := h3
  have hl := (Begins.T .openBrace).length h4
  simp only [List.length_append] at hn
  have hi : parseItemList streamOps .openBrace .closeBrace f n (st.push (t4 ++ t5)) = (.ok xs, st) := by
    unfold parseItemList
    rw [take_expect h4]
    exact itemLoop_takes .closeBrace (by simp) (by simp) hf (fun a ts h => (hb a).not hj ts h) hkk hck n xs t5 st h5 (by omega) (by omega)
  rw [SM.bind_ok hi]
  rfl

theorem record_takes (n : Nat) (id : List Byte) (fs : List Field) (ts : List Sig) (st : Stream) (h : typeDef (.record id fs) ts) (hn : ts.length < n) :
    parseRecord streamOps n (st.push ts) = (.ok (.record id fs), st) :=
  braces_takes .record (recordField_takes n) (js := [.id, .explicitId]) (fun f => (Begins.ident f.name).cat) (by simp) (by simp) (by simp) id fs ts st h hn
    TypeDef.record

theorem flags_takes (n : Nat) (id : List Byte) (fs : List (List Byte)) (ts : List Sig) (st : Stream) (h : typeDef (.flags id fs) ts) (hn : ts.length < n) :
    parseFlags streamOps n (st.push ts) = (.ok (.flags id fs), st) :=
  braces_takes .flags (parseId_takes n []) (js := [.id, .explicitId]) (fun f => Begins.ident f) (by simp) (by simp) (by simp) id fs ts st h hn
    TypeDef.flags

theorem enum_takes (n : Nat) (id : List Byte) (fs : List (List Byte)) (ts : List Sig) (st : Stream) (h : typeDef (.enum id fs) ts) (hn : ts.length < n) :
    parseEnum streamOps n (st.push ts) = (.ok (.enum id fs), st) :=
  braces_takes .enum (parseId_takes n []) (js := [.id, .explicitId]) (fun f => Begins.ident f) (by simp) (by simp) (by simp) id fs ts st h hn
    TypeDef.enum

theorem variantCase_takes (n : Nat) : Takes n (parseVariantCase streamOps n) case_ [.openParen] := by
  rintro ⟨id, t⟩ ts st h hst hn
  unfold parseVariantCase
  rcases t with _ | t
  · rw [ident_last h]
    have : parseCaseType streamOps n st = (.ok none, st) := take_eatNot hst (by simp) (by simp) _ _
    rw [SM.bind_ok this]
    rfl
  · obtain ⟨t1, _, rfl, h1, t2, _, rfl, h2, t3, t4, rfl, h3, h4⟩ := h
    simp only [List.length_append] at hn
    rw [take_ident h1]
    have : parseCaseType streamOps n (st.push (t2 ++ (t3 ++ t4))) = (.ok (some t), st) := by
      unfold parseCaseType
      rw [take_eat h2, take_bind (type_takes n) h3 _ st (Follow.last h4 (by simp) st) (by omega), expect_last h4]
      rfl
    rw [SM.bind_ok this]
    rfl

theorem case_begins (c : Case) : Begins (case_ c) [.id, .explicitId] := by
  rcases c with ⟨n, _ | t⟩
  · exact Begins.ident n
  · exact (Begins.ident n).cat

theorem variant_takes (n : Nat) (id : List Byte) (fs : List Case) (ts : List Sig) (st : Stream) (h : typeDef (.variant id fs) ts) (hn : ts.length < n) :
    parseVariant streamOps n (st.push ts) = (.ok (.variant id fs), st) :=
  braces_takes .variant (variantCase_takes n) case_begins (by simp) (by simp) (by simp) id fs ts st h hn TypeDef.variant

theorem func_begins (f : FuncType) : Begins (func f) [.func] := (Begins.T .func).cat

theorem method_takes (n : Nat) (ks : List TokenType) : Takes n (parseResourceMethod streamOps n) method ks := by
  rintro m ts st h hst hn
  unfold parseResourceMethod
  cases m with
  | constructor ps =>
    obtain ⟨t1, _, rfl, h1, t2, t3, rfl, h2, h3⟩ := h
    simp only [List.length_append] at hn
    rw [take_eat h1]
    unfold parseConstructor
    rw [take_bind (parameters_takes n []) h2 _ st (Follow.last h3 (by simp) st) (by omega), expect_last h3]
    rfl
  | static id f =>
    obtain ⟨t1, _, rfl, h1, t2, _, rfl, h2, t3, _, rfl, h3, t4, t5, rfl, h4, h5⟩ := h
    simp only [List.length_append] at hn
    rw [take_eatNot (Follow.not (k := .constructor) (Begins.ident id) (by simp) h1 st) (by simp) (by simp)]
    unfold parseStaticOrMethod
    rw [SM.bind_get, take_ident h1, take_expect h2, take_eat h3, take_bind (func_takes n) h4 _ st (Follow.last h5 (by simp) st) (by omega), expect_last h5]
    rfl
  | method id f =>
    obtain ⟨_, _, rfl, ⟨rfl, rfl⟩, h⟩ := h
    rw [List.nil_append] at hn ⊢
    have hitem := funcItem_takes n ks f _ st h hst hn
    obtain ⟨t1, _, rfl, h1, t2, _, rfl, h2, t3, t4, rfl, h3, h4⟩ := h
    rw [take_eatNot (Follow.not (k := .constructor) (Begins.ident f.id) (by simp) h1 st) (by simp) (by simp)]
    unfold parseStaticOrMethod
    rw [SM.bind_get, take_ident h1, take_expect h2, take_eatNot (Follow.not (k := .static) (func_begins f.type) (by simp) h3 st) (by simp) (by simp)]
    change ((do
      let f ← parseFuncItem streamOps n
      pure (.method [] f)) : SM Stream ResourceMethod) (st.push (t1 ++ (t2 ++ (t3 ++ t4)))) = _
    rw [SM.bind_ok hitem]
    rfl

theorem method_begins (m : ResourceMethod) : Begins (method m) [.constructor, .id, .explicitId] := by
  cases m with
  | constructor ps => exact ((Begins.T .constructor).cat).mono (by simp)
  | static id f => exact ((Begins.ident id).cat).mono (by simp)
  | method id f => exact (Begins.only (Begins.ident f.id).cat).mono (by simp)

theorem methodLoop_takes (n m : Nat) (ms : List ResourceMethod) (ts t : List Sig) (st : Stream) (h : many method ms ts) (ht : T .closeBrace t)
    (hn : ts.length < n) (hm : ts.length < m) : methodLoop streamOps n m (st.push (ts ++ t)) = (.ok ms, st.push t) := by
  induction ms generalizing m ts with
  | nil =>
    obtain rfl : ts = [] := h
    obtain ⟨w, rfl⟩ := ht
    cases m with
    | zero => simp at hm
    | succ m => rfl
  | cons x xs ih =>
    obtain ⟨a, b, rfl, hx, hxs⟩ := h
    have ha := (method_begins x).length hx
    simp only [List.length_append] at hn hm
    cases m with
    | zero => omega
    | succ m =>
      obtain ⟨u, r', e, hu⟩ := method_begins x a hx
      have step : methodLoop streamOps n (m + 1) (st.push (a ++ b ++ t)) = (parseResourceMethod streamOps n >>= fun x => do
          let ms ← methodLoop streamOps n m
          pure (x :: ms)) (st.push (a ++ b ++ t)) := by
        subst e
        have hne : u.type ≠ .closeBrace := fun e => by rw [e] at hu; simp at hu
        rw [show st.push (u :: r' ++ b ++ t) = ⟨u :: (r' ++ b ++ t ++ st.toks), st.ended⟩ by simp [Stream.push]]
        rw [methodLoop, peek_bind, if_pos hne]
      rw [step, List.append_assoc, take_bind (method_takes n []) hx _ st ?_ (by omega), SM.bind_ok (ih m b hxs (by omega) (by omega))]
      · rfl
      · rw [← push_push]
        obtain ⟨w, rfl⟩ := ht
        exact Follow.any (fs := []) (.inr ⟨_, _, rfl, by simp⟩) b

theorem resource_takes (n : Nat) (id : List Byte) (ms : List ResourceMethod) (ts : List Sig) (st : Stream) (h : typeDef (.resource id ms) ts)
    (hst : Follow [.semicolon, .openBrace] st) (hn : ts.length < n) :
    parseResource streamOps n (st.push ts) = (.ok (.resource id ms), st) := by
  obtain ⟨t1, _, rfl, h1, t2, t3, rfl, h2, h3⟩ := h
  simp only [List.length_append] at hn
  unfold parseResource
  rw [take_expect h1, take_ident h2]
  have : parseMethods streamOps n (st.push t3) = (.ok ms, st) := by
    rcases h3 with ⟨t4, _, rfl, ⟨w, rfl⟩, t5, t6, rfl, h5, h6⟩ | ⟨_, _, rfl, ⟨rfl, rfl⟩, w, rfl⟩ | ⟨rfl, rfl⟩
    · change (expect streamOps .openBrace >>= fun _ => (do
        let ms ← methodLoop streamOps n n
        expect streamOps .closeBrace
        pure ms : SM Stream (List ResourceMethod))) (st.push ([⟨.openBrace, w⟩] ++ (t5 ++ t6))) = _
      simp only [List.length_append] at hn
      rw [take_expect ⟨w, rfl⟩, SM.bind_ok (methodLoop_takes n n ms t5 t6 st h5 h6 (by omega) (by omega)), expect_last h6]
      rfl
    · rfl
    · rw [push_nil]
      unfold parseMethods
      rcases hst with rfl | ⟨t, r, h, ht⟩
      · rfl
      · rcases st with ⟨ts, e⟩
        simp only at h
        subst h
        simp only [List.mem_cons, List.not_mem_nil, or_false, not_or] at ht
        rw [peek_bind, if_neg ht.1, if_neg ht.2]
        rfl
  rw [SM.bind_ok this]
  rfl

/-- The parser function for a kind of type definition. -/
def defParser (n : Nat) : TypeDef → SM Stream TypeDef
  | .resource _ _ => parseResource streamOps n
  | .record _ _ => parseRecord streamOps n
  | .flags _ _ => parseFlags streamOps n
  | .variant _ _ => parseVariant streamOps n
  | .enum _ _ => parseEnum streamOps n
  | .type _ _ => parseTypeItem streamOps n

/-- Its first token. -/
def defWord : TypeDef → TokenType
  | .resource _ _ => .resource
  | .record _ _ => .record
  | .flags _ _ => .flags
  | .variant _ _ => .variant
  | .enum _ _ => .enum
  | .type _ _ => .type

theorem def_takes (n : Nat) (d : TypeDef) (ts : List Sig) (st : Stream) (h : typeDef d ts) (hst : Follow [.semicolon, .openBrace] st) (hn : ts.length < n) :
    defParser n d (st.push ts) = (.ok d, st) := by
  cases d with
  | resource id ms => exact resource_takes n id ms ts st h hst hn
  | record id ms => exact record_takes n id ms ts st h hn
  | flags id ms => exact flags_takes n id ms ts st h hn
  | variant id ms => exact variant_takes n id ms ts st h hn
  | enum id ms => exact enum_takes n id ms ts st h hn
  | type id ms => exact typeItem_takes n id ms ts st h hn

theorem typeDef_begins (d : TypeDef) : Begins (typeDef d) [defWord d] := by
  cases d <;> exact (Begins.T _).cat

theorem typeDef_word (n : Nat) (t : Sig) (r : List Sig) (e : Bool) (ht : t.type = .type) :
    parseTypeDef streamOps n ⟨t :: r, e⟩ = parseTypeItem streamOps n ⟨t :: r, e⟩ := by
  unfold parseTypeDef
  rw [peek_bind]
  simp only [ht, reduceCtorEq, if_false, if_true]

/-! ## Paths and uses -/

theorem usePath_takes (n : Nat) : Takes n (parseUsePath streamOps) path [.colon] := by
  rintro ⟨id, p, pn⟩ ts st ⟨_, t1, rfl, ⟨⟨rfl, rfl⟩, rfl⟩, h1⟩ hst _
  unfold parseUsePath
  rw [List.nil_append, ident_last h1, take_eatNot hst (by simp) (by simp)]
  rfl

theorem path_begins (p : UsePath) : Begins (path p) [.id, .explicitId] := Begins.only (Begins.ident p.id)

theorem as_takes (n : Nat) : Takes n (parseAs streamOps) as_ [.as] := by
  rintro (_ | w) ts st h hst _
  · obtain rfl : ts = [] := h
    exact take_eatNot hst (by simp) (by simp) _ _
  · obtain ⟨t1, t2, rfl, h1, h2⟩ := h
    unfold parseAs
    rw [take_eat h1, ident_last h2]
    rfl

theorem useName_takes (n : Nat) : Takes n (parseUseName streamOps) useName [.as] := by
  rintro ⟨w, a⟩ ts st ⟨t1, t2, rfl, h1, h2⟩ hst hn
  simp only [List.length_append] at hn
  unfold parseUseName
  rw [take_ident h1, take_last (as_takes n) h2 _ st hst (by omega)]
  rfl

theorem use_takes (n : Nat) (ks : List TokenType) : Takes n (parseUse streamOps n) use ks := by
  rintro ⟨p, ns⟩ ts st ⟨t1, _, rfl, h1, t2, _, rfl, h2, t3, _, rfl, h3, t4, _, rfl, h4, t5, _, rfl, h5, t6, t7, rfl, h6, h7⟩ _ hn
  simp only [List.length_append] at hn
  unfold parseUse
  rw [take_expect h1, take_bind (usePath_takes n) h2 _ st (Follow.T h3 (by simp) st) (by omega), take_expect h3]
  have hl := (Begins.T .openBrace).length h4
  have hi : parseItemList streamOps .openBrace .closeBrace (parseUseName streamOps) n (st.push (t4 ++ (t5 ++ (t6 ++ t7)))) = (.ok ns, st.push t7) := by
    unfold parseItemList
    rw [take_expect h4, ← List.append_assoc, ← push_push]
    exact itemLoop_takes .closeBrace (by simp) (by simp) (useName_takes n) (fun a ts h => (Begins.ident a.name).cat.not (by simp) ts h) (by simp) (by simp)
      n ns (t5 ++ t6) (st.push t7) ⟨t5, t6, rfl, h5, h6⟩ (by simp; omega) (by simp; omega)
  rw [SM.bind_ok hi, expect_last h7]
  rfl

theorem includeName_takes (n : Nat) (ks : List TokenType) : Takes n (parseIncludeName streamOps) includeName ks := by
  rintro ⟨w, a⟩ ts st ⟨t1, _, rfl, h1, t2, t3, rfl, h2, h3⟩ _ _
  unfold parseIncludeName
  rw [take_ident h1, take_expect h2, ident_last h3]
  rfl

theorem include_takes (n : Nat) (ks : List TokenType) : Takes n (parseInclude streamOps n) include_ ks := by
  rintro ⟨p, ns⟩ ts st ⟨t1, _, rfl, h1, t2, t3, rfl, h2, h3⟩ _ hn
  simp only [List.length_append] at hn
  unfold parseInclude
  rw [take_expect h1]
  rcases h3 with ⟨t4, _, rfl, h4, t5, t6, rfl, h5, h6⟩ | ⟨_, t4, rfl, ⟨rfl, rfl⟩, h4⟩
  · simp only [List.length_append] at hn
    rw [take_bind (usePath_takes n) h2 _ st (Follow.T h4 (by simp) st) (by omega)]
    have : parseIncludeNames streamOps n (st.push (t4 ++ (t5 ++ t6))) = (.ok ns, st) := by
      unfold parseIncludeNames
      rw [take_eat h4, take_expect h5]
      exact untilTok_takes (js := [.id, .explicitId]) .closeBrace (by simp) (includeName_takes n []) (fun a => (Begins.ident a.name).cat) (by simp) (by simp) (by simp)
        n ns t6 st h6 (by omega) (by omega)
    rw [SM.bind_ok this]
    rfl
  · rw [List.nil_append, take_bind (usePath_takes n) h2 _ st (Follow.last h4 (by simp) st) (by omega)]
    have : parseIncludeNames streamOps n (st.push t4) = (.ok [], st) := by
      unfold parseIncludeNames
      rw [take_eatNot (Follow.last (fs := [.with]) h4 (by simp) st) (by simp) (by simp), expect_last h4]
      rfl
    rw [SM.bind_ok this]
    rfl

/-! ## Interfaces and worlds -/

theorem interfaceItem_takes (n : Nat) : Takes n (parseInterfaceItem streamOps n) interfaceItem [.semicolon, .openBrace] := by
  intro i ts st h hst hn
  cases i with
  | use u =>
    have := use_takes n _ u ts st h hst hn
    obtain ⟨t, r, rfl, ht⟩ := (Begins.T .use).cat ts h
    rw [show st.push (t :: r) = ⟨t :: (r ++ st.toks), st.ended⟩ from rfl] at this ⊢
    unfold parseInterfaceItem
    simp only [List.mem_singleton] at ht
    rw [peek_bind, if_pos ht, SM.bind_ok this]
    rfl
  | func f =>
    have := funcItem_takes n _ f ts st h hst hn
    obtain ⟨t, r, rfl, ht⟩ := (Begins.ident f.id).cat ts h
    rw [show st.push (t :: r) = ⟨t :: (r ++ st.toks), st.ended⟩ from rfl] at this ⊢
    unfold parseInterfaceItem
    rw [peek_bind]
    have hne : ∀ k, k ≠ .id → k ≠ .explicitId → t.type ≠ k := by
      intro k k1 k2 e
      rw [e] at ht
      simp [k1, k2] at ht
    rw [if_neg (hne _ (by simp) (by simp)), if_neg (hne _ (by simp) (by simp)), if_neg (hne _ (by simp) (by simp)), if_neg (hne _ (by simp) (by simp)),
      if_neg (hne _ (by simp) (by simp)), if_neg (hne _ (by simp) (by simp)), if_neg (hne _ (by simp) (by simp)), SM.bind_ok this]
    rfl
  | typeDef d =>
    have := def_takes n d ts st h hst hn
    obtain ⟨t, r, rfl, ht⟩ := typeDef_begins d ts h
    rw [show st.push (t :: r) = ⟨t :: (r ++ st.toks), st.ended⟩ from rfl] at this ⊢
    unfold parseInterfaceItem
    simp only [List.mem_singleton] at ht
    rw [peek_bind]
    cases d <;> simp only [defWord] at ht <;> simp only [ht, reduceCtorEq, if_false, if_true] <;> simp only [defParser] at this
    · rw [SM.bind_ok this]; rfl
    · rw [SM.bind_ok this]; rfl
    · rw [SM.bind_ok this]; rfl
    · rw [SM.bind_ok this]; rfl
    · rw [SM.bind_ok this]; rfl
    · rw [SM.bind_ok ((typeDef_word n t _ _ ht).trans this)]; rfl

theorem interfaceItem_begins (i : InterfaceItem) :
    Begins (interfaceItem i) [.use, .id, .explicitId, .resource, .record, .flags, .variant, .enum, .type] := by
  cases i with
  | use u => exact (Begins.T .use).cat.mono (by simp)
  | func f => exact (Begins.ident f.id).cat.mono (by simp)
  | typeDef d => exact (typeDef_begins d).mono (by cases d <;> simp [defWord])

theorem interfaceItems_takes (n : Nat) (ks : List TokenType) : Takes n (parseInterfaceItems streamOps n) interfaceItems ks := by
  rintro is ts st ⟨t1, t2, rfl, h1, h2⟩ _ hn
  simp only [List.length_append] at hn
  unfold parseInterfaceItems
  rw [take_expect h1]
  exact untilTok_takes .closeBrace (by simp) (interfaceItem_takes n) interfaceItem_begins (by simp) (by simp) (by simp) n is t2 st h2 (by omega) (by omega)

theorem externType_takes (n : Nat) (ks : List TokenType) : Takes n (parseExternType streamOps n) externType ks := by
  intro x ts st h hst hn
  unfold parseExternType
  rw [SM.bind_get]
  cases x with
  | func id f =>
    obtain ⟨t1, _, rfl, h1, t2, _, rfl, h2, t3, t4, rfl, h3, h4⟩ := h
    simp only [List.length_append] at hn
    rw [take_ident h1, take_eat h2]
    have hf := take_bind (func_takes n) h3 (fun f => do expect streamOps .semicolon; pure (ExternType.func id f)) st (Follow.last h4 (by simp) st) (by omega)
    rw [expect_last h4] at hf
    obtain ⟨u, r, rfl, hu⟩ := func_begins f t3 h3
    simp only [List.mem_singleton] at hu
    rw [show st.push (u :: r ++ t4) = ⟨u :: (r ++ t4 ++ st.toks), st.ended⟩ by simp [Stream.push]] at hf ⊢
    rw [peek_bind, if_pos hu]
    exact hf
  | interface id is =>
    obtain ⟨t1, _, rfl, h1, t2, _, rfl, h2, t3, t4, rfl, h3, h4⟩ := h
    simp only [List.length_append] at hn
    rw [take_ident h1, take_eat h2]
    have hf := take_last (interfaceItems_takes n []) h4 (fun items => pure (ExternType.interface id items)) st (hst.mono (by simp)) (by omega)
    rw [← take_expect (k := .interface) h3 (fun _ => (parseInterfaceItems streamOps n >>= fun items => pure (ExternType.interface id items)))] at hf
    obtain ⟨w, rfl⟩ := h3
    change (streamOps.peek >>= _) ⟨⟨.interface, w⟩ :: (t4 ++ st.toks), st.ended⟩ = _
    rw [peek_bind]
    simp only [reduceCtorEq, if_false, if_true]
    exact hf
  | usePath p =>
    obtain ⟨t1, t2, rfl, h1, h2⟩ := h
    have hu := take_bind (usePath_takes n) h1 (fun p => do expect streamOps .semicolon; pure (ExternType.usePath p)) st (Follow.last h2 (by simp) st)
      (by simp at hn; omega)
    rw [expect_last h2] at hu
    obtain ⟨_, t3, rfl, ⟨-, rfl⟩, h3⟩ := h1
    rw [List.nil_append] at hu ⊢
    rw [take_ident h3, take_eatNot (Follow.last (fs := [.colon]) h2 (by simp) st) (by simp) (by simp)]
    exact hu

theorem worldItem_takes (n : Nat) : Takes n (parseWorldItem streamOps n) worldItem [.semicolon, .openBrace] := by
  intro i ts st h hst hn
  cases i with
  | use u =>
    have := use_takes n _ u ts st h hst hn
    obtain ⟨w, r, rfl, -⟩ := T_cons h
    change ((parseUse streamOps n >>= fun u => pure (WorldItem.use u)) (st.push (⟨.use, w⟩ :: r))) = _
    rw [SM.bind_ok this]
    rfl
  | «include» i =>
    have := include_takes n _ i ts st h hst hn
    obtain ⟨w, r, rfl, -⟩ := T_cons h
    change ((parseInclude streamOps n >>= fun u => pure (WorldItem.include u)) (st.push (⟨.include, w⟩ :: r))) = _
    rw [SM.bind_ok this]
    rfl
  | export_ e =>
    obtain ⟨w, r, rfl, h'⟩ := T_cons h
    have := externType_takes n _ e r st h' hst (by simp at hn; omega)
    change ((parseExport streamOps n >>= fun u => pure (WorldItem.export_ u)) (st.push ([⟨.export, w⟩] ++ r))) = _
    have h2 : parseExport streamOps n (st.push ([⟨.export, w⟩] ++ r)) = _ := take_expect ⟨w, rfl⟩ _ _
    rw [SM.bind_ok (h2.trans this)]
    rfl
  | import_ e =>
    obtain ⟨w, r, rfl, h'⟩ := T_cons h
    have := externType_takes n _ e r st h' hst (by simp at hn; omega)
    change ((parseImport streamOps n >>= fun u => pure (WorldItem.import_ u)) (st.push ([⟨.import, w⟩] ++ r))) = _
    have h2 : parseImport streamOps n (st.push ([⟨.import, w⟩] ++ r)) = _ := take_expect ⟨w, rfl⟩ _ _
    rw [SM.bind_ok (h2.trans this)]
    rfl
  | typeDef d =>
    obtain ⟨_, _, rfl, ⟨hw, rfl⟩, h⟩ := h
    rw [List.nil_append] at hn ⊢
    have := def_takes n d _ st h hst hn
    obtain ⟨t, r, rfl, ht⟩ := typeDef_begins d _ h
    rw [show st.push (t :: r) = ⟨t :: (r ++ st.toks), st.ended⟩ from rfl] at this ⊢
    unfold parseWorldItem
    simp only [List.mem_singleton] at ht
    rw [peek_bind]
    cases d <;> simp only [defWord] at ht <;> simp only [ht, reduceCtorEq, if_false, if_true] <;> simp only [defParser] at this
    · rw [SM.bind_ok this]; rfl
    · rw [SM.bind_ok this]; rfl
    · exact hw.elim
    · rw [SM.bind_ok this]; rfl
    · exact hw.elim
    · rw [SM.bind_ok ((typeDef_word n t _ _ ht).trans this)]; rfl

theorem worldItem_begins (i : WorldItem) :
    Begins (worldItem i) [.export, .import, .use, .include, .resource, .record, .flags, .variant, .enum, .type] := by
  cases i with
  | export_ e => exact (Begins.T .export).cat.mono (by simp)
  | import_ e => exact (Begins.T .import).cat.mono (by simp)
  | use u => exact (Begins.T .use).cat.mono (by simp)
  | «include» i => exact (Begins.T .include).cat.mono (by simp)
  | typeDef d => exact (Begins.only (typeDef_begins d)).mono (by cases d <;> simp [defWord])

/-! ## Documents -/

theorem number_takes {v : U64} {t r : List Sig} (h : number v t) (st : Stream) :
    ∃ i, v = BitVec.ofInt 64 i ∧ parseInteger streamOps (st.push (t ++ r)) = (.ok i, st.push r) := by
  obtain ⟨w, i, hi, rfl, rfl⟩ := h
  refine ⟨i, rfl, ?_⟩
  unfold parseInteger
  change (streamOps.next >>= _) ⟨⟨.integer, w⟩ :: (r ++ st.toks), st.ended⟩ = _
  rw [next_bind, if_pos rfl]
  simp only [hi, SM.lift_def]
  rfl

theorem packageVersion_takes (n : Nat) : Takes n (parsePackageVersion streamOps) version [.at] := by
  rintro (_ | ⟨a, b, c, p, q⟩) ts st h hst _
  · obtain rfl : ts = [] := h
    exact take_eatNot hst (by simp) (by simp) _ _
  · obtain ⟨_, _, rfl, ⟨⟨rfl, rfl⟩, rfl⟩, t1, _, rfl, h1, t2, _, rfl, h2, t3, _, rfl, h3, t4, _, rfl, h4, t5, t6, rfl, h5, h6⟩ := h
    unfold parsePackageVersion
    rw [List.nil_append, take_eat h1]
    obtain ⟨i, rfl, e1⟩ := number_takes (r := t3 ++ (t4 ++ (t5 ++ t6))) h2 st
    obtain ⟨j, rfl, e2⟩ := number_takes (r := t5 ++ t6) h4 st
    obtain ⟨k, rfl, e3⟩ := number_takes (r := []) h6 st
    rw [List.append_nil, push_nil] at e3
    have : parseVersion streamOps (st.push (t2 ++ (t3 ++ (t4 ++ (t5 ++ t6))))) = (.ok ⟨BitVec.ofInt 64 i, BitVec.ofInt 64 j, BitVec.ofInt 64 k, [], []⟩, st) := by
      unfold parseVersion
      rw [SM.bind_ok e1, take_expect h3, SM.bind_ok e2, take_expect h5, SM.bind_ok e3]
      rfl
    rw [SM.bind_ok this]
    rfl

theorem version_follow {v : Option Version} {t u : List Sig} (h : version v t) {k : TokenType} (hk : T k u) (st : Stream) (fs : List TokenType)
    (hf : k ∉ fs) (ha : TokenType.at ∉ fs) : Follow fs (st.push (t ++ u)) := by
  rcases v with _ | v
  · obtain rfl : t = [] := h
    exact Follow.last hk hf st
  · obtain ⟨_, _, rfl, ⟨-, rfl⟩, t1, t2, rfl, h1, h2⟩ := h
    rw [List.nil_append, List.append_assoc]
    exact Follow.T h1 ha st

theorem package_takes (p : PackageDeclaration) (ts : List Sig) (st : Stream) (h : package (some p) ts) :
    ∃ w r, ts = ⟨.package, w⟩ :: r ∧ parsePackageDeclaration streamOps (st.push r) = (.ok p, st) := by
  obtain ⟨_, _, rfl, ⟨w, rfl⟩, _, _, rfl, ⟨k, rfl⟩, t3, _, rfl, h3, t4, _, rfl, h4, t5, t6, rfl, h5, h6⟩ := h
  refine ⟨w, _, rfl, ?_⟩
  unfold parsePackageDeclaration
  change (streamOps.next >>= _) ⟨⟨k, p.namespace_⟩ :: (t3 ++ (t4 ++ (t5 ++ t6)) ++ st.toks), st.ended⟩ = _
  rw [next_bind]
  change (expect streamOps .colon >>= _) (st.push (t3 ++ (t4 ++ (t5 ++ t6)))) = _
  rw [take_expect h3, take_ident h4, take_bind (packageVersion_takes (t5.length + 1)) h5 _ st (Follow.last h6 (by simp) st) (by omega), expect_last h6]
  rfl

theorem astItem_takes (n : Nat) (i : AstItem) (ts : List Sig) (st : Stream) (h : item i ts) (hst : Follow [.colon, .as] st) (hn : ts.length < n) :
    ∃ k w r, ts = ⟨k, w⟩ :: r ∧ k ∈ [.use, .world, .interface] ∧ parseAstItem streamOps n ⟨k, w⟩ (st.push r) = (.ok i, st) := by
  rcases i with ⟨_ | i, _ | wo, _ | u⟩
  · exact h.elim
  · obtain ⟨w, r, rfl, t1, t2, rfl, h1, h2⟩ := T_cons h
    refine ⟨_, w, _, rfl, by simp, ?_⟩
    simp only [List.length_cons, List.length_append] at hn
    change (parseTopLevelUse streamOps >>= fun u => pure (⟨none, none, some u⟩ : AstItem)) (st.push (t1 ++ t2)) = _
    have : parseTopLevelUse streamOps (st.push (t1 ++ t2)) = (.ok u, st) := by
      unfold parseTopLevelUse
      rw [take_bind (usePath_takes n) h1 _ st ?_ (by omega), take_last (as_takes n) h2 _ st (hst.mono (by simp)) (by omega)]
      · rfl
      · rcases u with ⟨p, _ | a⟩
        · obtain rfl : t2 = [] := h2
          exact hst.mono (by simp)
        · obtain ⟨t3, t4, rfl, h3, h4⟩ := h2
          exact Follow.T h3 (by simp) st
    rw [SM.bind_ok this]
    rfl
  · obtain ⟨w, r, rfl, t1, _, rfl, h1, t2, t3, rfl, h2, h3⟩ := T_cons h
    refine ⟨_, w, _, rfl, by simp, ?_⟩
    simp only [List.length_cons, List.length_append] at hn
    change (parseWorld streamOps n >>= fun u => pure (⟨none, some u, none⟩ : AstItem)) (st.push (t1 ++ (t2 ++ t3))) = _
    have : parseWorld streamOps n (st.push (t1 ++ (t2 ++ t3))) = (.ok wo, st) := by
      unfold parseWorld
      rw [take_ident h1, take_expect h2, SM.bind_ok (untilTok_takes .closeBrace (by simp) (worldItem_takes n) worldItem_begins (by simp) (by simp) (by simp)
        n wo.items t3 st h3 (by omega) (by omega))]
      rfl
    rw [SM.bind_ok this]
    rfl
  · exact h.elim
  · obtain ⟨w, r, rfl, t1, t2, rfl, h1, h2⟩ := T_cons h
    refine ⟨_, w, _, rfl, by simp, ?_⟩
    simp only [List.length_cons, List.length_append] at hn
    change (parseInterface streamOps n >>= fun u => pure (⟨some u, none, none⟩ : AstItem)) (st.push (t1 ++ t2)) = _
    have : parseInterface streamOps n (st.push (t1 ++ t2)) = (.ok i, st) := by
      unfold parseInterface
      rw [take_ident h1, take_last (interfaceItems_takes n []) h2 _ st (hst.mono (by simp)) (by omega)]
      rfl
    rw [SM.bind_ok this]
    rfl
  · exact h.elim
  · exact h.elim
  · exact h.elim

theorem item_begins (i : AstItem) : Begins (item i) [.use, .world, .interface] := by
  rcases i with ⟨_ | i, _ | wo, _ | u⟩
  · exact fun _ h => h.elim
  · exact (Begins.T .use).cat.mono (by simp)
  · exact (Begins.T .world).cat.mono (by simp)
  · exact fun _ h => h.elim
  · exact (Begins.T .interface).cat.mono (by simp)
  · exact fun _ h => h.elim
  · exact fun _ h => h.elim
  · exact fun _ h => h.elim

theorem astLoop_takes (n m : Nat) (is : List AstItem) (t : Sig) (ts : List Sig) (h : many item is (t :: ts)) (hn : ts.length + 1 < n) (hm : ts.length + 1 < m) :
    astLoop streamOps n m t ⟨ts, true⟩ = (.ok is, ⟨[], true⟩) := by
  induction is generalizing m t ts with
  | nil => cases h
  | cons i is ih =>
    obtain ⟨a, b, e, hi, his⟩ := h
    have hla : ts.length + 1 = a.length + b.length := by rw [← List.length_append, ← e]; rfl
    have hf : Follow [.colon, .as] ⟨b, true⟩ := by
      cases is with
      | nil =>
        obtain rfl : b = [] := his
        exact .inl rfl
      | cons j js =>
        obtain ⟨c, d, rfl, hj, -⟩ := his
        have := Follow.begins (r := d) (fs := [.colon, .as]) (item_begins j) (by simp) hj ⟨[], true⟩
        simpa [Stream.push] using this
    obtain ⟨k, w, r, rfl, hk, hp⟩ := astItem_takes n i a ⟨b, true⟩ hi hf (by omega)
    rw [List.cons_append] at e
    injection e with e1 e2
    subst e1 e2
    cases m with
    | zero => omega
    | succ m =>
      unfold astLoop
      have hne : k ≠ .endOfStream := by rintro rfl; simp at hk
      rw [if_pos hne]
      have hp' : parseAstItem streamOps n ⟨k, w⟩ ⟨r ++ b, true⟩ = (.ok i, ⟨b, true⟩) := hp
      rw [SM.bind_ok hp']
      cases is with
      | nil =>
        obtain rfl : b = [] := his
        rw [next_end]
        cases m with
        | zero => omega
        | succ m => rfl
      | cons j js =>
        cases b with
        | nil =>
          obtain ⟨c, d, e, hj, -⟩ := his
          have := (item_begins j).length hj
          simp at e
          rw [e.1] at this
          simp at this
        | cons t' b =>
          rw [next_bind]
          simp only [List.length_cons, List.length_append] at hla hn hm
          rw [SM.bind_ok (ih m t' b his (by omega) (by omega))]
          rfl

/-- The tokens of a document are parsed to the document. -/
theorem parseAst_takes (n : Nat) (a : Ast) (ts : List Sig) (h : document a ts) (hn : ts.length + 1 < n) :
    parseAst streamOps n ⟨ts, true⟩ = (.ok a, ⟨[], true⟩) := by
  have loop : ∀ (is : List AstItem) (b : List Sig) (p : Option PackageDeclaration), many item is b → b.length + 1 < n →
      ((streamOps.next >>= fun t => do
        let is ← astLoop streamOps n n t
        pure (⟨p, is⟩ : Ast)) : SM Stream Ast) ⟨b, true⟩ = (.ok ⟨p, is⟩, ⟨[], true⟩) := by
    intro is b p h hb
    cases b with
    | nil =>
      rw [next_end]
      cases n with
      | zero => omega
      | succ n =>
        cases is with
        | nil => rfl
        | cons i is =>
          obtain ⟨c, d, e, hj, -⟩ := h
          have := (item_begins i).length hj
          simp at e
          rw [e.1] at this
          simp at this
    | cons t b =>
      rw [next_bind]
      rw [SM.bind_ok (astLoop_takes n n is t b h (by simp at hb; omega) (by simp at hb; omega))]
      rfl
  rcases a with ⟨_ | p, is⟩
  · obtain ⟨b, c, rfl, hb, his⟩ := h
    obtain rfl : b = [] := hb
    rw [List.nil_append] at hn ⊢
    rw [← loop is c none his hn]
    unfold parseAst
    cases c with
    | nil => rfl
    | cons t c =>
      have ht : t.type ≠ .package := by
        cases is with
        | nil => cases his
        | cons i is =>
          obtain ⟨t', r, e, hu⟩ := ((item_begins i).cat) _ his
          cases e
          intro e
          rw [e] at hu
          simp at hu
      rw [next_bind, next_bind]
      unfold parseAstPackage
      rw [if_neg ht]
      rfl
  · obtain ⟨b, c, rfl, hb, his⟩ := h
    obtain ⟨w, r, rfl, hp⟩ := package_takes p b ⟨c, true⟩ hb
    have hp' : parsePackageDeclaration streamOps ⟨r ++ c, true⟩ = (.ok p, ⟨c, true⟩) := hp
    rw [← loop is c (some p) his (by simp at hn; omega)]
    unfold parseAst
    rw [List.cons_append, next_bind]
    unfold parseAstPackage
    rw [if_pos rfl]
    cases c with
    | nil =>
      have : ((do
        let p ← parsePackageDeclaration streamOps
        let tok' ← streamOps.next
        pure (some p, tok')) : SM Stream (Option PackageDeclaration × Sig)) ⟨r ++ [], true⟩ = (.ok (some p, eos), ⟨[], true⟩) := by
        rw [SM.bind_ok hp']; rfl
      rw [SM.bind_ok this]
      rfl
    | cons t c =>
      have : ((do
        let p ← parsePackageDeclaration streamOps
        let tok' ← streamOps.next
        pure (some p, tok')) : SM Stream (Option PackageDeclaration × Sig)) ⟨r ++ t :: c, true⟩ = (.ok (some p, t), ⟨c, true⟩) := by
        rw [SM.bind_ok hp']; rfl
      rw [SM.bind_ok this]
      rfl

end Verif.Wit
