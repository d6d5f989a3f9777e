import Verif.Binary.Alloc
import Verif.Binary.Props

/-!
# C97: memory asked for while reading a binary
-/

namespace Verif.Binary

variable {α β : Type}

/-! ## The counting reader reads the same -/

/-- `a` does to the bytes what `r` does. -/
def Erases (a : Ra α) (r : Rd α) : Prop := ∀ s : Tally, (a s).1 = (r s.rest).1 ∧ (a s).2.rest = (r s.rest).2

theorem Erases.plain (r : Rd α) : Erases (plain r) r := fun _ => ⟨rfl, rfl⟩
theorem Erases.pure (x : α) : Erases (pure x) (pure x) := fun _ => ⟨rfl, rfl⟩
theorem Erases.fail : Erases (SM.fail : Ra α) SM.fail := fun _ => ⟨rfl, rfl⟩

theorem Erases.bind {a : Ra α} {r : Rd α} {f : α → Ra β} {g : α → Rd β} (h : Erases a r) (h' : ∀ x, Erases (f x) (g x)) :
    Erases (a >>= f) (r >>= g) := by
  intro s
  obtain ⟨h1, h2⟩ := h s
  rw [SM.bind_def, SM.bind_def]
  rcases e : a s with ⟨x, s1⟩
  rcases e' : r s.rest with ⟨y, r1⟩
  rw [e, e'] at h1 h2
  simp only at h1 h2
  subst h1 h2
  cases x with
  | ok v => exact h' v s1
  | _ => exact ⟨rfl, rfl⟩

theorem Erases.ask {n : Nat} {a : Ra α} {r : Rd α} (h : Erases a r) : Erases (ask n >>= fun _ => a) r :=
  fun s => h ⟨s.rest, s.asked + n⟩

theorem Erases.ite {c : Prop} [Decidable c] {a b : Ra α} {r t : Rd α} (h : Erases a r) (h' : Erases b t) :
    Erases (if c then a else b) (if c then r else t) := by
  by_cases hc : c
  · simp only [hc, if_true]; exact h
  · simp only [hc, if_false]; exact h'

theorem Erases.many {a : Ra α} {r : Rd α} (h : Erases a r) : ∀ n, Erases (askMany a n) (readMany r n)
  | 0 => .pure _
  | n + 1 => h.bind fun _ => (Erases.many h n).bind fun _ => .pure _

theorem erases_valueTypes : Erases askValueTypes readValueTypes :=
  (Erases.plain _).bind fun _ => ((Erases.plain _).many _).ask

theorem erases_type : Erases askType readType :=
  (Erases.plain _).bind fun _ => .ite .fail (erases_valueTypes.bind fun _ => erases_valueTypes.bind fun _ => .pure _)

theorem erases_export : Erases askExport readExport := by
  have hs : Erases askString readString :=
    (Erases.plain _).bind fun _ => .ite (.pure _) (Erases.plain _).ask
  exact hs.bind fun _ => (Erases.plain _).bind fun _ => (Erases.plain _).bind fun _ => .ite (.pure _) .fail

theorem erases_expression : Erases askExpression readExpression := by
  have h : ∀ n, Erases (askExpressionLoop n) (readExpressionLoop n) := by
    intro n
    induction n with
    | zero => exact fun _ => ⟨rfl, rfl⟩
    | succ n ih => exact (Erases.plain _).bind fun i => (Erases.ite (.pure _) (ih.bind fun _ => .pure _)).ask
  exact fun s => h _ s

theorem erases_code (fs : List Func) : Erases (askCode fs) (updateFuncs fs) := by
  have h : ∀ n i fs, Erases (askCodeLoop n i fs) (updateFuncsLoop n i fs) := by
    intro n
    induction n with
    | zero => exact fun _ _ => .pure _
    | succ n ih =>
      intro i fs
      unfold askCodeLoop updateFuncsLoop
      cases fs[i]? with
      | none => exact .fail
      | some f =>
        exact (Erases.plain _).bind fun _ => erases_valueTypes.bind fun _ => erases_expression.bind fun _ => ih _ _
  exact (Erases.plain _).bind fun _ => h _ _ _

theorem erases_section (m : Module) (id : Byte) (size : U32) : Erases (askSection m id size) (readSection m id size) :=
  .ite (((Erases.plain _).bind fun _ => (erases_type.many _).ask).bind fun _ => .pure _)
    (.ite (((Erases.plain _).bind fun _ => ((Erases.plain _).many _).ask).bind fun _ => .pure _)
      (.ite ((erases_code _).bind fun _ => .pure _)
        (.ite (((Erases.plain _).bind fun _ => (erases_export.many _).ask).bind fun _ => .pure _)
          ((Erases.plain _).bind fun _ => .pure _).ask)))

theorem erases_module : Erases askModule readModule := by
  have h : ∀ n m, Erases (askModuleLoop n m) (readModuleLoop n m) := by
    intro n
    induction n with
    | zero => exact fun _ _ => ⟨rfl, rfl⟩
    | succ n ih =>
      intro m
      refine (Erases.plain _).bind fun x => ?_
      cases x with
      | none => exact .pure _
      | some p => exact (erases_section _ _ _).bind fun _ => ih _
  exact fun s => h _ _ s

/-- The counting reader gives the same result and leaves the same bytes as the reader of `Verif.Binary.Model`. -/
theorem counting_reads_same (bs : List Byte) (k : Nat) :
    (askRead ⟨bs, k⟩).1 = (read bs).1 ∧ (askRead ⟨bs, k⟩).2.rest = (read bs).2 := by
  have hp : Erases askPreamble readPreamble :=
    (Erases.plain _).ask.bind fun _ => .ite .fail ((Erases.plain _).bind fun _ => (Erases.plain _).bind fun _ => .pure _)
  exact (hp.bind fun _ => Erases.ite (.pure _) (.ite (erases_module.bind fun _ => .pure _) .fail) :
    Erases askRead read) ⟨bs, k⟩

/-! ## What is asked for -/

/-- On success `a` has read at least `c` bytes more than it asked for slots; in any case it asks for at most `k` slots
more than there are bytes. -/
structure Pays (c k : Nat) (a : Ra α) : Prop where
  paid : ∀ s x s', a s = (.ok x, s') → s'.asked + s'.rest.length + c ≤ s.asked + s.rest.length
  most : ∀ s, (a s).2.asked ≤ s.asked + s.rest.length + k

theorem Pays.mono {c d k l : Nat} {a : Ra α} (h : Pays c k a) (hc : d ≤ c) (hk : k ≤ l) : Pays d l a :=
  ⟨fun s x s' e => by have := h.paid s x s' e; omega, fun s => by have := h.most s; omega⟩

theorem Pays.pure (x : α) : Pays 0 0 (pure x : Ra α) :=
  ⟨fun s y s' e => by rw [SM.pure_def] at e; cases e; omega, fun s => by rw [SM.pure_def]; exact Nat.le_add_right _ _⟩
theorem Pays.fail {c : Nat} : Pays c 0 (SM.fail : Ra α) :=
  ⟨fun s y s' e => by rw [SM.fail_def] at e; exact absurd (congrArg Prod.fst e) (by simp), fun s => by rw [SM.fail_def]; exact Nat.le_add_right _ _⟩

theorem Pays.bind {c d k : Nat} {a : Ra α} {f : α → Ra β} (h : Pays c k a) (h' : ∀ x, Pays d k (f x)) :
    Pays (c + d) k (a >>= f) := by
  refine ⟨fun s y s' e => ?_, fun s => ?_⟩
  · obtain ⟨x, s1, e1, e2⟩ := SM.bind_eq_ok.1 e
    have := h.paid _ _ _ e1
    have := (h' x).paid _ _ _ e2
    omega
  · rw [SM.bind_def]
    have hm := h.most s
    rcases e : a s with ⟨x, s1⟩
    rw [e] at hm
    cases x with
    | ok v =>
      have := h.paid _ _ _ e
      have := (h' v).most s1
      simp only; omega
    | _ => exact hm

/-- Asking for `n` slots before a call that pays for them. -/
theorem Pays.ask {c n k : Nat} {a : Ra α} (h : Pays (c + n) k a) : Pays c (n + k) (ask n >>= fun _ => a) :=
  ⟨fun s x s' e => by have := h.paid ⟨s.rest, s.asked + n⟩ x s' e; simp only at this; omega,
   fun s => by have := h.most ⟨s.rest, s.asked + n⟩; simp only at this; show (a ⟨s.rest, s.asked + n⟩).2.asked ≤ _; omega⟩

theorem Pays.ite {c k : Nat} {p : Prop} [Decidable p] {a b : Ra α} (h : p → Pays c k a) (h' : ¬ p → Pays c k b) :
    Pays c k (if p then a else b) := by
  by_cases hc : p
  · simp only [hc, if_true]; exact h hc
  · simp only [hc, if_false]; exact h' hc

theorem Pays.many {k : Nat} {a : Ra α} (h : Pays 1 k a) : ∀ n, Pays n k (askMany a n)
  | 0 => (Pays.pure _).mono (Nat.le_refl _) (Nat.zero_le _)
  | n + 1 => ((h.bind fun x => (Pays.many h n).bind fun xs => (Pays.pure (x :: xs)).mono (Nat.le_refl 0) (Nat.zero_le _)) :
      Pays (1 + (n + 0)) k _).mono (by omega) (Nat.le_refl _)

/-- A call that asks for nothing and reads at least `c` bytes. -/
theorem Pays.plain {c : Nat} {r : Rd α} (h : ∀ bs x rest, r bs = (.ok x, rest) → rest.length + c ≤ bs.length) :
    Pays c 0 (plain r) :=
  ⟨fun s x s' e => by
    simp only [Binary.plain, Prod.mk.injEq] at e
    have := h s.rest x (r s.rest).2 (Prod.ext e.1 rfl)
    rw [← e.2]; simp only; omega, fun s => by simp only [Binary.plain]; omega⟩

theorem shrinks_byte (bs : List Byte) (x : Byte) (rest : List Byte) (h : readByte bs = (.ok x, rest)) :
    rest.length + 1 ≤ bs.length := by
  cases bs with
  | nil => exact absurd h (by simp [readByte])
  | cons b bs => simp only [readByte, Prod.mk.injEq] at h; rw [← h.2]; simp

theorem shrinks_bytes (n : Nat) (bs x rest : List Byte) (h : readBytes n bs = (.ok x, rest)) :
    rest.length + n ≤ bs.length := by
  unfold readBytes at h
  split at h
  · simp at h
  · simp only [Prod.mk.injEq] at h; rw [← h.2]; simp; omega

theorem shrinks_leb (bs : List Byte) (x : U32) (rest : List Byte) (h : readLeb bs = (.ok x, rest)) :
    rest.length + 1 ≤ bs.length := by
  have key : ∀ (bs : List Byte) v s t r, Leb128.decodeReaderLoop v s t bs = .ok r → r.2.2.length + 1 ≤ bs.length := by
    intro bs
    induction bs with
    | nil => intro v s t r h; exact absurd h (by simp [Leb128.decodeReaderLoop])
    | cons b bs ih =>
      intro v s t r h
      simp only [Leb128.decodeReaderLoop] at h
      split at h
      · cases h; simp
      · have := ih _ _ _ _ h; simp; omega
  unfold readLeb at h
  split at h
  · next v n r e => simp only [Prod.mk.injEq] at h; have := key _ _ _ _ _ e; rw [← h.2]; exact this
  all_goals simp at h

theorem pays_leb : Pays 1 0 (plain readLeb) := .plain shrinks_leb
theorem pays_byte : Pays 1 0 (plain readByte) := .plain shrinks_byte

theorem shrinks_bind {c d : Nat} {r : Rd α} {f : α → Rd β}
    (h : ∀ bs x rest, r bs = (.ok x, rest) → rest.length + c ≤ bs.length)
    (h' : ∀ x bs y rest, f x bs = (.ok y, rest) → rest.length + d ≤ bs.length) (bs : List Byte) (y : β) (rest : List Byte)
    (e : (r >>= f) bs = (.ok y, rest)) : rest.length + (c + d) ≤ bs.length := by
  obtain ⟨x, s1, e1, e2⟩ := SM.bind_eq_ok.1 e
  have := h _ _ _ e1
  have := h' _ _ _ _ e2
  omega

theorem shrinks_pure (x : α) (bs : List Byte) (y : α) (rest : List Byte) (e : (pure x : Rd α) bs = (.ok y, rest)) :
    rest.length + 0 ≤ bs.length := by rw [SM.pure_def] at e; cases e; simp

theorem pays_valueType : Pays 1 0 (plain readValueType) := by
  refine .plain fun bs y rest e => ?_
  obtain ⟨x, s1, e1, e2⟩ := SM.bind_eq_ok.1 e
  have h1 := shrinks_byte _ _ _ e1
  simp only [SM.ite_app, SM.pure_def, SM.fail_def] at e2
  repeat' split at e2
  all_goals cases e2
  all_goals exact h1

theorem pays_func : Pays 1 0 (plain readFunc) :=
  .plain fun bs y rest e => shrinks_bind (d := 0) shrinks_leb (fun _ => shrinks_pure _) bs y rest e

theorem pays_instruction : Pays 1 0 (plain readInstruction) := by
  refine .plain fun bs y rest e => ?_
  obtain ⟨x, s1, e1, e2⟩ := SM.bind_eq_ok.1 e
  have h1 := shrinks_byte _ _ _ e1
  simp only [SM.ite_app, SM.pure_def, SM.fail_def] at e2
  split at e2
  · cases e2; exact h1
  split at e2
  · obtain ⟨z, s2, e3, e4⟩ := SM.bind_eq_ok.1 e2
    have := shrinks_leb _ _ _ e3
    rw [SM.pure_def] at e4
    cases e4; omega
  split at e2 <;> cases e2
  exact h1

/-- One count cannot be more than this. -/
def maxCount : Nat := 2 ^ 32 - 1

theorem le_maxCount (n : U32) : n.toNat ≤ maxCount := by
  have := n.isLt; unfold maxCount; omega

/-- A vector: its count, the slots, the elements. -/
theorem pays_vector {k : Nat} {a : Ra α} (h : Pays 1 k a) :
    Pays 1 (maxCount + k) (plain readLeb >>= fun n => ask n.toNat >>= fun _ => askMany a n.toNat) :=
  (pays_leb.mono (Nat.le_refl _) (Nat.zero_le _)).bind fun n =>
    (Pays.ask (c := 0) ((h.many n.toNat).mono (by omega) (Nat.le_refl _))).mono (Nat.le_refl _)
      (by have := le_maxCount n; omega)

theorem pays_valueTypes : Pays 1 maxCount askValueTypes := pays_vector pays_valueType

theorem pays_type : Pays 1 maxCount askType :=
  (((pays_byte.mono (Nat.le_refl _) (Nat.zero_le _)).bind fun b => .ite (fun _ => Pays.fail.mono (Nat.le_refl _) (Nat.zero_le _))
    fun _ => (pays_valueTypes.bind fun ps => pays_valueTypes.bind fun rs =>
      (Pays.pure _).mono (Nat.le_refl _) (Nat.zero_le _) : Pays (1 + (1 + 0)) _ _)) : Pays (1 + 2) maxCount askType).mono
    (by omega) (Nat.le_refl _)

theorem pays_string : Pays 1 maxCount askString :=
  (((pays_leb.mono (Nat.le_refl _) (Nat.zero_le _)).bind fun n =>
    .ite (fun _ => (Pays.pure _).mono (Nat.le_refl _) (Nat.zero_le _)) fun _ =>
      (Pays.ask (c := 0) ((Pays.plain (shrinks_bytes n.toNat)).mono (by omega) (Nat.le_refl _))).mono (Nat.le_refl _)
        (by have := le_maxCount n; omega)) : Pays (1 + 0) maxCount askString)

theorem pays_export : Pays 1 maxCount askExport :=
  ((pays_string.bind fun name => (pays_byte.mono (Nat.le_refl _) (Nat.zero_le _)).bind fun kind =>
    (pays_leb.mono (Nat.le_refl _) (Nat.zero_le _)).bind fun i =>
      .ite (fun _ => (Pays.pure _).mono (Nat.le_refl _) (Nat.zero_le _))
        fun _ => Pays.fail.mono (Nat.le_refl _) (Nat.zero_le _)) :
    Pays (1 + (1 + (1 + 0))) maxCount askExport).mono (by omega) (Nat.le_refl _)

theorem pays_expression : Pays 0 1 askExpression := by
  have h : ∀ n, Pays 0 1 (askExpressionLoop n) := by
    intro n
    induction n with
    | zero => exact ⟨fun s x s' e => by simp [askExpressionLoop] at e, fun s => by simp only [askExpressionLoop]; omega⟩
    | succ n ih =>
      -- the slot is paid for by the byte of the opcode
      refine ⟨fun s y s' e => ?_, fun s => ?_⟩
      · obtain ⟨i, s1, e1, e2⟩ := SM.bind_eq_ok.1 e
        have h1 := pays_instruction.paid _ _ _ e1
        obtain ⟨u, s2, e3, e4⟩ := SM.bind_eq_ok.1 e2
        simp only [ask, Prod.mk.injEq] at e3
        obtain ⟨-, rfl⟩ := e3
        rw [SM.ite_app] at e4
        split at e4
        · rw [SM.pure_def] at e4; cases e4; simp only; omega
        · obtain ⟨v, s3, e5, e6⟩ := SM.bind_eq_ok.1 e4
          rw [SM.pure_def] at e6; cases e6
          have := ih.paid _ _ _ e5
          simp only at this; omega
      · have hm := pays_instruction.most s
        show ((plain readInstruction >>= _) s).2.asked ≤ _
        rw [SM.bind_def]
        rcases e : plain readInstruction s with ⟨x, s1⟩
        rw [e] at hm
        cases x with
        | ok i =>
          have hp := pays_instruction.paid _ _ _ e
          have hf : Pays 0 1 (if i = .end_ then pure [i] else askExpressionLoop n >>= fun is => pure (i :: is)) :=
            .ite (fun _ => (Pays.pure _).mono (Nat.le_refl _) (Nat.zero_le _)) fun _ =>
              (ih.bind fun _ => (Pays.pure _).mono (Nat.le_refl _) (Nat.zero_le _) : Pays (0 + 0) _ _)
          have := hf.most ⟨s1.rest, s1.asked + 1⟩
          simp only at this
          show ((if i = .end_ then pure [i] else askExpressionLoop n >>= fun is => pure (i :: is) : Ra _)
            ⟨s1.rest, s1.asked + 1⟩).2.asked ≤ _
          omega
        | _ => simp only at hm ⊢; omega
  exact ⟨fun s x s' e => (h _).paid s x s' e, fun s => (h _).most s⟩

theorem pays_code (fs : List Func) : Pays 1 maxCount (askCode fs) := by
  have h : ∀ n i fs, Pays 0 maxCount (askCodeLoop n i fs) := by
    intro n
    induction n with
    | zero => exact fun _ _ => (Pays.pure _).mono (Nat.le_refl _) (Nat.zero_le _)
    | succ n ih =>
      intro i fs
      unfold askCodeLoop
      cases fs[i]? with
      | none => exact Pays.fail.mono (Nat.le_refl _) (Nat.zero_le _)
      | some f =>
        exact (((pays_leb.mono (Nat.le_refl _) (Nat.zero_le _)).bind fun _ => pays_valueTypes.bind fun l =>
          (pays_expression.mono (Nat.le_refl _) (by decide)).bind fun b => ih (i + 1) (fs.set i { f with locals := l, body := some b })) :
          Pays (1 + (1 + (0 + 0))) maxCount _).mono (by omega) (Nat.le_refl _)
  exact (pays_leb.mono (Nat.le_refl _) (Nat.zero_le _)).bind fun n => h n.toNat 0 fs

theorem pays_section (m : Module) (id : Byte) (size : U32) : Pays 0 (2 * maxCount) (askSection m id size) := by
  have two : maxCount + maxCount ≤ 2 * maxCount := by omega
  have one : maxCount ≤ 2 * maxCount := by omega
  have done : ∀ x : Module, Pays 0 (2 * maxCount) (pure x : Ra Module) := fun x => (Pays.pure x).mono (Nat.le_refl _) (Nat.zero_le _)
  refine .ite (fun _ => (((pays_vector pays_type).mono (Nat.zero_le _) two).bind (fun _ => done _) : Pays (0 + 0) _ _)) fun _ => ?_
  refine .ite (fun _ => (((pays_vector pays_func).mono (Nat.zero_le _) (by omega)).bind (fun _ => done _) : Pays (0 + 0) _ _)) fun _ => ?_
  refine .ite (fun _ => (((pays_code _).mono (Nat.zero_le _) one).bind (fun _ => done _) : Pays (0 + 0) _ _)) fun _ => ?_
  refine .ite (fun _ => (((pays_vector pays_export).mono (Nat.zero_le _) two).bind (fun _ => done _) : Pays (0 + 0) _ _)) fun _ => ?_
  exact (Pays.ask (c := 0) ((((Pays.plain (shrinks_bytes size.toNat)).mono (Nat.le_refl _) (Nat.zero_le _)).bind fun _ =>
    (Pays.pure m : Pays 0 0 _) : Pays (size.toNat + 0) 0 _).mono (by omega) (Nat.le_refl _))).mono (Nat.le_refl _)
      (by have := le_maxCount size; omega)

theorem pays_module : Pays 0 (2 * maxCount) askModule := by
  have hh : Pays 0 0 (plain readSectionHeader) := by
    refine .plain fun bs x rest e => ?_
    cases bs with
    | nil => simp only [readSectionHeader, Prod.mk.injEq] at e; rw [← e.2]; simp
    | cons b bs =>
      have := shrinks_bind (c := 1) (d := 1 + 0) shrinks_byte (fun id => shrinks_bind shrinks_leb fun size => shrinks_pure (some (id, size)))
        (b :: bs) x rest e
      omega
  have h : ∀ n m, Pays 0 (2 * maxCount) (askModuleLoop n m) := by
    intro n
    induction n with
    | zero => exact fun m => ⟨fun s x s' e => by simp [askModuleLoop] at e, fun s => by simp only [askModuleLoop]; omega⟩
    | succ n ih =>
      intro m
      refine ((hh.mono (Nat.le_refl _) (Nat.zero_le _)).bind fun x => ?_ : Pays (0 + 0) _ _)
      cases x with
      | none => exact (Pays.pure _).mono (Nat.le_refl _) (Nat.zero_le _)
      | some p => exact ((pays_section m p.1 p.2).bind fun m' => ih m' : Pays (0 + 0) _ _)
  exact ⟨fun s x s' e => (h _ _).paid s x s' e, fun s => (h _ _).most s⟩

theorem pays_read : Pays 0 (2 * maxCount) askRead := by
  have hu : Pays 0 (2 * maxCount) (plain readUInt16) :=
    (Pays.plain fun bs x rest e => shrinks_bind (c := 1) (d := 1 + 0) shrinks_byte
      (fun _ => shrinks_bind shrinks_byte fun _ => shrinks_pure _) bs x rest e).mono (by omega) (Nat.zero_le _)
  have hm : Pays 0 (2 * maxCount) (askBytes magic.length) :=
    (Pays.ask (c := 0) ((Pays.plain (shrinks_bytes magic.length)).mono (by omega) (Nat.le_refl _))).mono (Nat.le_refl _) (by decide)
  have hp : Pays 0 (2 * maxCount) askPreamble :=
    (hm.bind fun _ => .ite (fun _ => Pays.fail.mono (Nat.le_refl _) (Nat.zero_le _)) fun _ =>
      (hu.bind fun _ => hu.bind fun _ => (Pays.pure _).mono (Nat.le_refl _) (Nat.zero_le _) : Pays (0 + (0 + 0)) _ _) :
      Pays (0 + 0) _ _)
  refine (hp.bind fun p => ?_ : Pays (0 + 0) _ _)
  refine .ite (fun _ => (Pays.pure _).mono (Nat.le_refl _) (Nat.zero_le _)) fun _ => ?_
  exact .ite (fun _ => (pays_module.bind fun _ => (Pays.pure _).mono (Nat.le_refl _) (Nat.zero_le _) : Pays (0 + 0) _ _))
    fun _ => Pays.fail.mono (Nat.le_refl _) (Nat.zero_le _)

/-- C97, for inputs that are accepted: reading them asks for at most as many slots as they have bytes.
Missing, because it is false: inputs that are refused, see `few_bytes_many_slots`. -/
theorem accepted_slots_partial (bs : List Byte) (d : Document) (h : (read bs).1 = .ok d) : slots bs ≤ bs.length := by
  have e := (counting_reads_same bs 0).1
  rw [h] at e
  have := pays_read.paid ⟨bs, 0⟩ d _ (Prod.ext e rfl)
  simp only [Nat.zero_add, Nat.add_zero] at this
  exact Nat.le_trans (Nat.le_add_right _ _) this

/-- Whatever the input, it asks for at most two full counts more than it has bytes. -/
theorem slots_bounded (bs : List Byte) : slots bs ≤ bs.length + 2 * (2 ^ 32 - 1) := by
  have := pays_read.most ⟨bs, 0⟩
  simp only [maxCount] at this
  unfold slots; omega

theorem encode_length (n : U32) : (Leb128.encode n).length ≤ 5 := by
  have key : ∀ k (n : U32), n.toNat < 128 ^ (k + 1) → (Leb128.encode n).length ≤ k + 1 := by
    intro k
    induction k with
    | zero => intro n h; rw [Leb128.encode_small n (by simpa using h)]; simp
    | succ k ih =>
      intro n h
      by_cases hn : n.toNat < 128
      · rw [Leb128.encode_small n hn]; simp
      · obtain ⟨b, e, -⟩ := Leb128.encode_large n (by omega)
        rw [e]
        have := ih (n >>> 7) (by rw [Leb128.toNat_shiftRight7]; rw [Nat.pow_succ] at h; omega)
        simp only [List.length_cons]; omega
  exact key 4 n (by have := n.isLt; omega)

theorem plain_leb (n : U32) (rest : List Byte) (k : Nat) :
    plain readLeb ⟨Leb128.encode n ++ rest, k⟩ = (.ok n, ⟨rest, k⟩) := by
  simp only [plain, readLeb, (Leb128.roundtrip n rest).1]

/-- A vector of elements that are not there. -/
theorem vector_cut {a : Ra α} (n : U32) (hn : n ≠ 0) (rest : List Byte) (k l : Nat)
    (h : a ⟨rest, k + n.toNat⟩ = (.err, ⟨[], l⟩)) :
    (plain readLeb >>= fun n => ask n.toNat >>= fun _ => askMany a n.toNat) ⟨Leb128.encode n ++ rest, k⟩ =
      (.err, ⟨[], l⟩) := by
  rw [SM.bind_ok (plain_leb n rest k)]
  obtain ⟨m, hm⟩ : ∃ m, n.toNat = m + 1 := by
    refine ⟨n.toNat - 1, ?_⟩
    have : n.toNat ≠ 0 := fun h => hn (BitVec.eq_of_toNat_eq h)
    omega
  rw [SM.bind_ok (show ask n.toNat ⟨rest, k⟩ = (.ok (), ⟨rest, k + n.toNat⟩) from rfl), hm]
  rw [hm] at h
  exact SM.bind_err h

/-- C97 is false of the code: for any two counts there is an input of at most 21 bytes that is refused after
asking for that many slots. With the largest counts this is the bound of `slots_bounded`, but for the bytes. -/
theorem few_bytes_many_slots (n k : U32) (hn : n ≠ 0) (hk : k ≠ 0) :
    ∃ bs, bs.length ≤ 21 ∧ (read bs).1 = .err ∧ slots bs = 4 + n.toNat + k.toNat := by
  have hr : askRead ⟨head ++ ([0x01, 0x00] ++ (Leb128.encode n ++ (0x60 :: (Leb128.encode k ++ [])))), 0⟩ =
      (.err, ⟨[], 4 + n.toNat + k.toNat⟩) := by
    have h1 : askType ⟨0x60 :: (Leb128.encode k ++ []), 4 + n.toNat⟩ = (.err, ⟨[], 4 + n.toNat + k.toNat⟩) := by
      have : askValueTypes ⟨Leb128.encode k ++ [], 4 + n.toNat⟩ = (.err, ⟨[], 4 + n.toNat + k.toNat⟩) :=
        vector_cut k hk [] _ _ rfl
      show (askValueTypes >>= fun ps => askValueTypes >>= fun rs => pure ⟨ps, rs⟩ : Ra FuncType) _ = _
      exact SM.bind_err this
    have h2 : askFuncTypes ⟨Leb128.encode n ++ (0x60 :: (Leb128.encode k ++ [])), 4⟩ = (.err, ⟨[], 4 + n.toNat + k.toNat⟩) :=
      vector_cut n hn _ _ _ h1
    have h3 : askModule ⟨[0x01, 0x00] ++ (Leb128.encode n ++ (0x60 :: (Leb128.encode k ++ []))), 4⟩ =
        (.err, ⟨[], 4 + n.toNat + k.toNat⟩) := by
      show (askSection ⟨[], [], []⟩ 1 0 >>= fun m => askModuleLoop _ m) ⟨Leb128.encode n ++ (0x60 :: (Leb128.encode k ++ [])), 4⟩ = _
      refine SM.bind_err ?_
      show (askFuncTypes >>= fun ts => pure _) _ = _
      exact SM.bind_err h2
    show (askModule >>= fun m => pure _) ⟨[0x01, 0x00] ++ (Leb128.encode n ++ (0x60 :: (Leb128.encode k ++ []))), 4⟩ = _
    exact SM.bind_err h3
  refine ⟨_, ?_, (counting_reads_same _ 0).1.symm.trans (congrArg Prod.fst hr), congrArg (fun x => x.2.asked) hr⟩
  have := encode_length n
  have := encode_length k
  simp [head]; omega

example : ∃ d, (read addBytes).1 = .ok d := ⟨_, rfl⟩
example : slots addBytes = 20 ∧ addBytes.length = 46 := by decide +kernel
/-- Twenty-one bytes, eight thousand million slots. -/
example : ∃ bs, bs.length ≤ 21 ∧ (read bs).1 = .err ∧ slots bs = 4 + (2 ^ 32 - 1) + (2 ^ 32 - 1) :=
  few_bytes_many_slots 0xffffffff 0xffffffff (by decide) (by decide)

end Verif.Binary
