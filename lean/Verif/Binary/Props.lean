import Verif.Binary.Lemmas

/-!
# Properties of `binary.Read` (C04-C08)
-/

namespace Verif.Binary

/-! ## C04: the header -/

/-- What `Read` does after a preamble. -/
theorem read_preamble (v0 v1 l0 l1 : Byte) (tail : List Byte) :
    read ([0x00, 0x61, 0x73, 0x6d, v0, v1, l0, l1] ++ tail) =
      if v1 ++ v0 = (0x0a : BitVec 16) then (.ok ⟨v1 ++ v0, l1 ++ l0, .component⟩, tail)
      else if v1 ++ v0 = (0x01 : BitVec 16) then
        ((readModule >>= fun m => pure ⟨v1 ++ v0, l1 ++ l0, .module m⟩ : Rd Document) tail)
      else (.err, tail) := by
  have h : readPreamble ([0x00, 0x61, 0x73, 0x6d, v0, v1, l0, l1] ++ tail) = (.ok (v1 ++ v0, l1 ++ l0), tail) := by
    unfold readPreamble
    rw [SM.bind_ok (s' := [v0, v1, l0, l1] ++ tail) (a := [0x00, 0x61, 0x73, 0x6d]) (by simp [readBytes, magic])]
    rw [SM.ite_app, if_neg (by simp [magic])]
    rfl
  unfold read
  rw [SM.bind_ok h, SM.ite_app]
  by_cases h1 : v1 ++ v0 = (0x0a : BitVec 16)
  · rw [if_pos h1, if_pos h1]; rfl
  · rw [if_neg h1, if_neg h1, SM.ite_app]
    by_cases h2 : v1 ++ v0 = (0x01 : BitVec 16)
    · rw [if_pos h2, if_pos h2]
    · rw [if_neg h2, if_neg h2]; rfl

theorem takes_preamble : Takes readPreamble
    (fun p u => ∃ v0 v1 l0 l1, u = [0x00, 0x61, 0x73, 0x6d, v0, v1, l0, l1] ∧ p = (v1 ++ v0, l1 ++ l0)) := by
  unfold readPreamble readUInt16
  refine ((takes_bytes _).bind fun m => Takes.ite (fun _ => .fail) fun _ =>
    (takes_byte.bind fun lo => takes_byte.bind fun hi => .pure (hi ++ lo)).bind fun v =>
    (takes_byte.bind fun lo => takes_byte.bind fun hi => .pure (hi ++ lo)).bind fun l =>
      .pure (v, l)).congr fun p u => ?_
  constructor
  · rintro ⟨m, u1, u2, rfl, ⟨rfl, -⟩, h⟩
    by_cases hm : magic = u1
    · rw [if_neg (not_not_intro hm)] at h
      obtain ⟨v, w1, w2, rfl, ⟨v0, _, _, rfl, rfl, v1, _, _, rfl, rfl, rfl, rfl⟩,
        l, x1, x2, rfl, ⟨l0, _, _, rfl, rfl, l1, _, _, rfl, rfl, rfl, rfl⟩, rfl, rfl⟩ := h
      exact ⟨v0, v1, l0, l1, by rw [← hm]; rfl, rfl⟩
    · rw [if_pos hm] at h; exact h.elim
  · rintro ⟨v0, v1, l0, l1, rfl, rfl⟩
    refine ⟨magic, magic, [v0, v1, l0, l1], rfl, ⟨rfl, rfl⟩, ?_⟩
    rw [if_neg (by simp)]
    exact ⟨_, [v0, v1], [l0, l1], rfl, ⟨v0, [v0], [v1], rfl, rfl, v1, [v1], [], rfl, rfl, rfl, rfl⟩, _, [l0, l1], [],
      rfl, ⟨l0, [l0], [l1], rfl, rfl, l1, [l1], [], rfl, rfl, rfl, rfl⟩, rfl, rfl⟩

/-- C04. Whatever the input, `Read` returns a document or an error: no panic, no endless loop. -/
theorem read_returns (bs : List Byte) : (read bs).1.Returns := by
  unfold read
  rw [SM.bind_def]
  have ht := takes_preamble.tame bs
  rcases e : readPreamble bs with ⟨x, s1⟩
  rw [e] at ht
  cases x with
  | ok p =>
    show ((if _ then _ else _ : Rd Document) s1).1.Returns
    rw [SM.ite_app]
    split
    · simp
    rw [SM.ite_app]
    split
    · rw [SM.bind_def]
      have ht' := readModule_tame s1
      rcases e' : readModule s1 with ⟨y, s2⟩
      rw [e'] at ht'
      cases y <;> simp_all
    · simp
  | err => simp
  | panic => simp at ht
  | diverge => simp at ht

/-- C04. A document comes only from an input that begins with the magic number, a version that is 1 or 10, and a
layer; the document reports the two fields, least significant byte first, and is a module or a component
accordingly. -/
theorem header_needed (bs : List Byte) (d : Document) (rest : List Byte) (h : read bs = (.ok d, rest)) :
    ∃ v0 v1 l0 l1 tail, bs = [0x00, 0x61, 0x73, 0x6d, v0, v1, l0, l1] ++ tail ∧
      d.version.toNat = v0.toNat + 256 * v1.toNat ∧ d.layer.toNat = l0.toNat + 256 * l1.toNat ∧
      ((d.version.toNat = 1 ∧ ∃ m, d.directive = .module m) ∨ (d.version.toNat = 10 ∧ d.directive = .component)) := by
  have h0 := h
  unfold read at h
  obtain ⟨p, s1, e1, e2⟩ := SM.bind_eq_ok.1 h
  obtain ⟨u, rfl, v0, v1, l0, l1, rfl, rfl⟩ := (takes_preamble.ok_iff _ _ _).1 e1
  have app (a b : Byte) : (a ++ b).toNat = b.toNat + 256 * a.toNat := by
    rw [BitVec.toNat_append, ← Nat.shiftLeft_add_eq_or_of_lt b.isLt, Nat.shiftLeft_eq]; omega
  refine ⟨v0, v1, l0, l1, s1, rfl, ?_⟩
  rw [read_preamble] at h0
  split at h0
  · rename_i hv
    simp only [Prod.mk.injEq, Res.ok.injEq] at h0
    obtain ⟨rfl, -⟩ := h0
    exact ⟨app _ _, app _ _, .inr ⟨by show (v1 ++ v0).toNat = _; rw [hv]; rfl, rfl⟩⟩
  split at h0
  · rename_i hv
    obtain ⟨m, s2, -, h2⟩ := SM.bind_eq_ok.1 h0
    simp only [SM.pure_def, Prod.mk.injEq, Res.ok.injEq] at h2
    obtain ⟨rfl, -⟩ := h2
    exact ⟨app _ _, app _ _, .inl ⟨by show (v1 ++ v0).toNat = _; rw [hv]; rfl, m, rfl⟩⟩
  · simp at h0

/-- C04. Every other input is an error, in particular every input shorter than eight bytes. -/
theorem header_missing (bs : List Byte)
    (h : ∀ v0 v1 l0 l1 tail, bs = [0x00, 0x61, 0x73, 0x6d, v0, v1, l0, l1] ++ tail →
      v0.toNat + 256 * v1.toNat ≠ 1 ∧ v0.toNat + 256 * v1.toNat ≠ 10) : (read bs).1 = .err := by
  rcases read_returns bs with ⟨d, e⟩ | e
  · exfalso
    obtain ⟨v0, v1, l0, l1, tail, rfl, h1, -, h3⟩ := header_needed bs d (read bs).2 (by rw [← e])
    have := h v0 v1 l0 l1 tail rfl
    omega
  · exact e

theorem short_input (bs : List Byte) (h : bs.length < 8) : (read bs).1 = .err :=
  header_missing bs fun v0 v1 l0 l1 tail e => by
    have := congrArg List.length e
    simp at this; omega

/-- Version 2 is refused; a component header is accepted. -/
example : (read [0x00, 0x61, 0x73, 0x6d, 0x02, 0x00, 0x00, 0x00]).1 = .err ∧
    read [0x00, 0x61, 0x73, 0x6d, 0x0a, 0x00, 0x01, 0x00, 0x55] = (.ok ⟨10, 1, .component⟩, [0x55]) := by decide

/-! ## The whole language of the reader -/

/-- An input is read as a module exactly if after the preamble it is a sequence of sections of the grammar, and then
the module is what the sections say. -/
theorem read_module_iff (v0 v1 l0 l1 : Byte) (tail : List Byte) (hv : v1 ++ v0 = (0x01 : BitVec 16)) (d : Document)
    (rest : List Byte) :
    read ([0x00, 0x61, 0x73, 0x6d, v0, v1, l0, l1] ++ tail) = (.ok d, rest) ↔
      rest = [] ∧ ∃ m secs, Seq TakenSec secs tail ∧ runAll ⟨[], [], []⟩ secs = some m ∧
        d = ⟨1, l1 ++ l0, .module m⟩ := by
  rw [read_preamble, if_neg (by rw [hv]; decide), if_pos hv, SM.bind_eq_ok]
  constructor
  · rintro ⟨m, s2, e1, e2⟩
    obtain ⟨rfl, secs, hs, hr⟩ := (readModule_ok _ _ _).1 e1
    simp only [SM.pure_def, Prod.mk.injEq, Res.ok.injEq] at e2
    obtain ⟨rfl, rfl⟩ := e2
    exact ⟨rfl, m, secs, hs, hr, by rw [hv]⟩
  · rintro ⟨rfl, m, secs, hs, hr, rfl⟩
    exact ⟨m, [], (readModule_ok _ _ _).2 ⟨rfl, secs, hs, hr⟩, by rw [hv]; rfl⟩

/-- A module header. -/
def head : List Byte := [0x00, 0x61, 0x73, 0x6d, 0x01, 0x00, 0x00, 0x00]

theorem read_head (tail : List Byte) (d : Document) (rest : List Byte) :
    read (head ++ tail) = (.ok d, rest) ↔
      rest = [] ∧ ∃ m secs, Seq TakenSec secs tail ∧ runAll ⟨[], [], []⟩ secs = some m ∧ d = ⟨1, 0, .module m⟩ :=
  read_module_iff 1 0 0 0 tail rfl d rest

/-! ## C05: round trip -/

theorem StdNum.any {n : U32} {u : List Byte} (h : StdNum n u) : AnyNum n u :=
  ⟨h.1, by rw [h.2.2]; exact BitVec.ofNat_toNat .. |>.trans (BitVec.setWidth_eq _)⟩

theorem Seq.mono {α : Type} {G H : α → List Byte → Prop} (h : ∀ x u, G x u → H x u) {xs : List α} {u : List Byte}
    (hs : Seq G xs u) : Seq H xs u := by
  induction hs with
  | nil => exact .nil
  | cons g _ ih => exact .cons (h _ _ g) ih

theorem Seq.mono_mem {α : Type} {G H : α → List Byte → Prop} {xs : List α} {u : List Byte}
    (hs : Seq G xs u) : (∀ x ∈ xs, ∀ u, G x u → H x u) → Seq H xs u := by
  induction hs with
  | nil => exact fun _ => .nil
  | cons g _ ih => exact fun h => .cons (h _ (by simp) _ g) (ih fun x hx => h x (by simp [hx]))

theorem Seq.map {α β : Type} {G : β → List Byte → Prop} (f : α → β) {xs : List α} {u : List Byte}
    (hs : Seq (fun x => G (f x)) xs u) : Seq G (xs.map f) u := by
  induction hs with
  | nil => exact .nil
  | cons g _ ih => exact .cons g ih

theorem Seq.append {α : Type} {G : α → List Byte → Prop} {xs ys : List α} {u v : List Byte}
    (h1 : Seq G xs u) (h2 : Seq G ys v) : Seq G (xs ++ ys) (u ++ v) := by
  induction h1 with
  | nil => exact h2
  | cons g _ ih => rw [List.append_assoc]; exact .cons g ih

theorem Vec.any {α : Type} {G H : α → List Byte → Prop} (h : ∀ x u, G x u → H x u) {xs : List α} {u : List Byte}
    (hv : Vec StdNum G xs u) : Vec AnyNum H xs u := by
  obtain ⟨n, c, b, g, hl, hs, rfl⟩ := hv
  exact ⟨n, c, b, g.any, hl, hs.mono h, rfl⟩

theorem IsFuncType.any {t : FuncType} {u : List Byte} (h : IsFuncType StdNum t u) : IsFuncType AnyNum t u := by
  obtain ⟨a, b, h1, h2, rfl⟩ := h
  exact ⟨a, b, h1.any fun _ _ h => h, h2.any fun _ _ h => h, rfl⟩

theorem IsExport.any {e : Export} {u : List Byte} (h : IsExport StdNum e u) : IsExport AnyNum e u := by
  obtain ⟨a, b, ⟨n, c, h1, h2, rfl⟩, h3, rfl⟩ := h
  exact ⟨_, b, ⟨n, c, h1.any, h2, rfl⟩, h3.any, rfl⟩

theorem IsInstr.any {i : Instr} {u : List Byte} (h : IsInstr StdNum i u) : IsInstr AnyNum i u := by
  cases i with
  | end_ => exact h
  | i32Add => exact h
  | localGet i => obtain ⟨a, h, rfl⟩ := h; exact ⟨a, h.any, rfl⟩

theorem IsExpr.any {is : List Instr} {u : List Byte} (h : IsExpr StdNum is u) : IsExpr AnyNum is u :=
  ⟨h.1.mono fun _ _ => IsInstr.any, h.2⟩

theorem customs_taken {bs : List Byte} (h : Customs bs) :
    ∃ secs : List Sec, Seq TakenSec secs bs ∧ ∀ m, runAll m secs = some m := by
  obtain ⟨ps, hs⟩ := h
  induction hs with
  | nil => exact ⟨[], .nil, fun _ => rfl⟩
  | @cons p ps u v g _ ih =>
    obtain ⟨secs, h1, h2⟩ := ih
    obtain ⟨n, s, b, g1, g2, rfl, rfl⟩ := g
    exact ⟨.other 0 b :: secs, .cons ⟨by decide, n, s, g1.any, g2, rfl⟩ h1, fun m => h2 m⟩

theorem runAll_append (m : Module) (a b : List Sec) :
    runAll m (a ++ b) = runAll m a >>= fun m => runAll m b := by
  induction a generalizing m with
  | nil => rfl
  | cons s a ih =>
    simp only [List.cons_append, runAll]
    cases s.run m with
    | none => rfl
    | some m1 => exact ih m1

/-- An optional section of the standard as sections the reader takes. -/
theorem optSec_taken {α : Type} {id : Byte} {G : α → List Byte → Prop} {xs : List α} {u : List Byte} (sec : Sec)
    (h : OptSec id G xs u) (hsec : ∀ n s b, StdNum n s → Vec StdNum G xs b → TakenSec sec (id :: (s ++ b))) :
    ∃ secs, Seq TakenSec secs u ∧ ((xs = [] ∧ secs = []) ∨ secs = [sec]) := by
  rcases h with ⟨rfl, rfl⟩ | ⟨n, s, b, g1, -, g3, rfl⟩
  · exact ⟨[], .nil, .inl ⟨rfl, rfl⟩⟩
  · exact ⟨[sec], by rw [← List.append_nil (id :: (s ++ b))]; exact .cons (hsec n s b g1 g3) .nil, .inr rfl⟩

theorem fill_all (fs : List StdFunc) :
    fill ((fs.map StdFunc.type).map fun i => ⟨i, [], none⟩) (fs.map fun f => ([], f.body ++ [.end_])) =
      fs.map fun f => ⟨f.type, [], some (f.body ++ [.end_])⟩ := by
  induction fs with
  | nil => rfl
  | cons f fs ih => simp only [List.map_cons, fill]; rw [ih]

/-- C05, for functions without locals: the standard encoding of a module is read as that module, whatever custom
sections stand between the sections, whatever encoding the numbers have, and whether or not empty sections are
written. Missing: functions with locals, see `locals_refused` and `locals_misread`. -/
theorem standard_read_partial (m : StdModule) (bs : List Byte) (h : StdBytes m bs) (hl : ∀ f ∈ m.funcs, f.locals = []) :
    read bs = (.ok ⟨1, 0, .module m.shown⟩, []) := by
  obtain ⟨c0, t, c1, f, c2, e, c3, k, c4, hc0, ht, hc1, hf, hc2, he, hc3, hk, hc4, rfl⟩ := h
  obtain ⟨s0, q0, r0⟩ := customs_taken hc0
  obtain ⟨s1, q1, r1⟩ := customs_taken hc1
  obtain ⟨s2, q2, r2⟩ := customs_taken hc2
  obtain ⟨s3, q3, r3⟩ := customs_taken hc3
  obtain ⟨s4, q4, r4⟩ := customs_taken hc4
  obtain ⟨st, qt, rt⟩ := optSec_taken (.types m.types) ht
    fun n s b g1 g2 => ⟨n, s, b, g1.any, g2.any fun _ _ => IsFuncType.any, rfl⟩
  obtain ⟨sf, qf, rf⟩ := optSec_taken (.funcs (m.funcs.map StdFunc.type)) hf
    fun n s b g1 g2 => ⟨n, s, b, g1.any, g2.any fun _ _ => StdNum.any, rfl⟩
  obtain ⟨se, qe, re⟩ := optSec_taken (.exports m.exports) he
    fun n s b g1 g2 => ⟨n, s, b, g1.any, g2.any fun _ _ => IsExport.any, rfl⟩
  obtain ⟨sk, qk, rk⟩ := optSec_taken (.code (m.funcs.map fun f => ([], f.body ++ [.end_]))) hk (by
    rintro n s b g1 ⟨n', c, b', g2, g3, g4, rfl⟩
    refine ⟨n, s, _, g1.any, ⟨n', c, b', g2.any, by simpa using g3, ?_, rfl⟩, rfl⟩
    refine Seq.map _ (g4.mono_mem fun f hf u hu => ?_)
    obtain ⟨n, s, a, b, h1, -, ⟨n2, c2, b2, h2, h3, h4, rfl⟩, h5, rfl⟩ := hu
    rw [hl f hf] at h3 h4
    exact ⟨n, s, _, b, h1.any, ⟨n2, c2, b2, h2.any, h3, by cases h4; exact .nil, rfl⟩, h5.any, rfl⟩)
  refine (read_head _ _ _).2 ⟨rfl, m.shown, s0 ++ (st ++ (s1 ++ (sf ++ (s2 ++ (se ++ (s3 ++ (sk ++ s4))))))),
    q0.append (qt.append (q1.append (qf.append (q2.append (qe.append (q3.append (qk.append q4))))))), ?_, rfl⟩
  have ht' : ∀ m', m'.types = [] → runAll m' st = some { m' with types := m.types } := by
    rintro ⟨_, _, _⟩ h
    rcases rt with ⟨h1, rfl⟩ | rfl
    · simp only at h; subst h; rw [h1]; rfl
    · rfl
  have hf' : ∀ m', m'.funcs = [] → runAll m' sf =
      some { m' with funcs := (m.funcs.map StdFunc.type).map fun i => ⟨i, [], none⟩ } := by
    rintro ⟨_, _, _⟩ h
    rcases rf with ⟨h1, rfl⟩ | rfl
    · simp only at h; subst h; rw [h1]; rfl
    · rfl
  have he' : ∀ m', m'.exports = [] → runAll m' se = some { m' with exports := m.exports } := by
    rintro ⟨_, _, _⟩ h
    rcases re with ⟨h1, rfl⟩ | rfl
    · simp only at h; subst h; rw [h1]; rfl
    · rfl
  have hk' : ∀ m', m'.funcs = (m.funcs.map StdFunc.type).map (fun i => ⟨i, [], none⟩) → runAll m' sk =
      some { m' with funcs := m.shown.funcs } := by
    have hshown : m.shown.funcs = m.funcs.map fun f => ⟨f.type, [], some (f.body ++ [.end_])⟩ := by
      unfold StdModule.shown
      refine List.map_congr_left fun f hf => ?_
      rw [hl f hf]; rfl
    rintro ⟨_, _, _⟩ h
    simp only at h; subst h
    rw [hshown]
    rcases rk with ⟨h1, rfl⟩ | rfl
    · rw [h1]; rfl
    · simp only [runAll, Sec.run, List.length_map, Nat.le_refl, if_true, fill_all]; rfl
  simp only [runAll_append, r0, r1, r2, r3, r4, Option.bind_eq_bind, Option.bind_some]
  rw [ht' _ rfl]
  simp only [Option.bind_some]
  rw [hf' _ rfl]
  simp only [Option.bind_some]
  rw [he' _ rfl]
  simp only [Option.bind_some]
  rw [hk' _ rfl]
  rfl

/-- A number below 128 in one byte. -/
theorem std_small (n : U32) (h : n.toNat < 128) : StdNum n [n.setWidth 8] := by
  have e : (n.setWidth 8).toNat = n.toNat := by simp; omega
  exact ⟨⟨[], n.setWidth 8, rfl, by simp, by omega⟩, by simp, by simp only [Leb128.denotes]; omega⟩

/-- A vector of elements of one byte each, fewer than 128. -/
theorem std_vec {α : Type} {G : α → List Byte → Prop} (n : U32) (xs : List α) (body : List Byte) (h : n.toNat < 128)
    (hl : n.toNat = xs.length) (hs : Seq G xs body) : Vec StdNum G xs (n.setWidth 8 :: body) :=
  ⟨n, _, body, std_small n h, hl, hs, rfl⟩

theorem std_sec (id : Byte) (P : List Byte → Prop) (n : U32) (b : List Byte) (h : n.toNat < 128)
    (hl : n.toNat = b.length) (hb : P b) : StdSec id P (id :: n.setWidth 8 :: b) :=
  ⟨n, _, b, std_small n h, hl, hb, rfl⟩

/-- The module `(func (export "add") (param i32 i32) (result i32) local.get 0 local.get 1 i32.add)`. -/
def addModule : StdModule :=
  ⟨[⟨[.i32, .i32], [.i32]⟩], [⟨0, [], [.localGet 0, .localGet 1, .i32Add]⟩], [⟨[0x61, 0x64, 0x64], 0⟩]⟩

/-- Its encoding, with a custom section in front of the code. -/
def addBytes : List Byte :=
  [0x00, 0x61, 0x73, 0x6d, 0x01, 0x00, 0x00, 0x00,
   0x01, 0x07, 0x01, 0x60, 0x02, 0x7f, 0x7f, 0x01, 0x7f,
   0x03, 0x02, 0x01, 0x00,
   0x07, 0x07, 0x01, 0x03, 0x61, 0x64, 0x64, 0x00, 0x00,
   0x00, 0x03, 0x01, 0x61, 0xff,
   0x0a, 0x09, 0x01, 0x07, 0x00, 0x20, 0x00, 0x20, 0x01, 0x6a, 0x0b]

theorem addBytes_std : StdBytes addModule addBytes := by
  refine ⟨[], [0x01, 0x07, 0x01, 0x60, 0x02, 0x7f, 0x7f, 0x01, 0x7f], [], [0x03, 0x02, 0x01, 0x00], [],
    [0x07, 0x07, 0x01, 0x03, 0x61, 0x64, 0x64, 0x00, 0x00], [0x00, 0x03, 0x01, 0x61, 0xff],
    [0x0a, 0x09, 0x01, 0x07, 0x00, 0x20, 0x00, 0x20, 0x01, 0x6a, 0x0b], [],
    ⟨[], .nil⟩, .inr ?_, ⟨[], .nil⟩, .inr ?_, ⟨[], .nil⟩, .inr ?_, ⟨[[0x01, 0x61, 0xff]], ?_⟩, .inr ?_, ⟨[], .nil⟩, rfl⟩
  · refine std_sec _ _ 7 _ (by decide) rfl (std_vec 1 _ _ (by decide) rfl ?_)
    refine Seq.cons (u := [0x60, 0x02, 0x7f, 0x7f, 0x01, 0x7f]) (v := []) ⟨[0x02, 0x7f, 0x7f], [0x01, 0x7f], ?_, ?_, rfl⟩ .nil
    · exact std_vec 2 _ _ (by decide) rfl (.cons (u := [0x7f]) rfl (.cons (u := [0x7f]) rfl .nil))
    · exact std_vec 1 _ _ (by decide) rfl (.cons (u := [0x7f]) rfl .nil)
  · exact std_sec _ _ 2 _ (by decide) rfl (std_vec 1 _ _ (by decide) rfl
      (.cons (u := [0x00]) (v := []) (std_small 0 (by decide)) .nil))
  · exact std_sec _ _ 7 _ (by decide) rfl (std_vec 1 _ _ (by decide) rfl
      (.cons (u := [0x03, 0x61, 0x64, 0x64, 0x00, 0x00]) (v := [])
        ⟨[0x03, 0x61, 0x64, 0x64], [0x00], ⟨3, [0x03], std_small 3 (by decide), rfl, rfl⟩, std_small 0 (by decide), rfl⟩ .nil))
  · exact .cons (u := [0x00, 0x03, 0x01, 0x61, 0xff]) (v := []) (std_sec _ _ 3 _ (by decide) rfl rfl) .nil
  · refine std_sec _ _ 9 _ (by decide) rfl (std_vec 1 _ _ (by decide) rfl ?_)
    refine .cons (u := [0x07, 0x00, 0x20, 0x00, 0x20, 0x01, 0x6a, 0x0b]) (v := [])
      ⟨7, [0x07], [0x00], [0x20, 0x00, 0x20, 0x01, 0x6a, 0x0b], std_small 7 (by decide), rfl,
        std_vec 0 _ _ (by decide) rfl .nil, ⟨?_, _, rfl, by decide⟩, rfl⟩ .nil
    exact .cons (u := [0x20, 0x00]) ⟨[0x00], std_small 0 (by decide), rfl⟩
      (.cons (u := [0x20, 0x01]) ⟨[0x01], std_small 1 (by decide), rfl⟩
        (.cons (u := [0x6a]) rfl (.cons (u := [0x0b]) (v := []) rfl .nil)))

example : StdBytes addModule addBytes ∧ ∀ f ∈ addModule.funcs, f.locals = [] := ⟨addBytes_std, by decide⟩

example : read addBytes = (.ok ⟨1, 0, .module ⟨[⟨[.i32, .i32], [.i32]⟩],
    [⟨0, [], some [.localGet 0, .localGet 1, .i32Add, .end_]⟩], [⟨[0x61, 0x64, 0x64], 0⟩]⟩⟩, []) := by decide

/-- A module of one function of type 0 with the given locals and an empty body. -/
def localsModule (ls : List (U32 × ValType)) : StdModule := ⟨[⟨[], []⟩], [⟨0, ls, []⟩], []⟩

/-- C05 fails for functions with locals: `(func (local i32))` in its standard encoding is refused. -/
theorem locals_refused : ∃ bs, StdBytes (localsModule [(1, .i32)]) bs ∧ (read bs).1 = .err := by
  refine ⟨_, ⟨[], [0x01, 0x04, 0x01, 0x60, 0x00, 0x00], [], [0x03, 0x02, 0x01, 0x00], [], [], [],
    [0x0a, 0x06, 0x01, 0x04, 0x01, 0x01, 0x7f, 0x0b], [],
    ⟨[], .nil⟩, .inr ?_, ⟨[], .nil⟩, .inr ?_, ⟨[], .nil⟩, .inl ⟨rfl, rfl⟩, ⟨[], .nil⟩, .inr ?_, ⟨[], .nil⟩, rfl⟩, by decide⟩
  · refine std_sec _ _ 4 _ (by decide) rfl (std_vec 1 _ _ (by decide) rfl ?_)
    exact Seq.cons (u := [0x60, 0x00, 0x00]) (v := []) ⟨[0x00], [0x00], std_vec 0 _ _ (by decide) rfl .nil,
      std_vec 0 _ _ (by decide) rfl .nil, rfl⟩ .nil
  · exact std_sec _ _ 2 _ (by decide) rfl (std_vec 1 _ _ (by decide) rfl
      (.cons (u := [0x00]) (v := []) (std_small 0 (by decide)) .nil))
  · refine std_sec _ _ 6 _ (by decide) rfl (std_vec 1 _ _ (by decide) rfl ?_)
    exact .cons (u := [0x04, 0x01, 0x01, 0x7f, 0x0b]) (v := [])
      ⟨4, [0x04], [0x01, 0x01, 0x7f], [0x0b], std_small 4 (by decide), rfl,
        std_vec 1 _ _ (by decide) rfl (.cons (u := [0x01, 0x7f]) (v := []) ⟨[0x01], [0x7f], std_small 1 (by decide), rfl, rfl⟩ .nil),
        ⟨.cons (u := [0x0b]) (v := []) rfl .nil, [], rfl, by decide⟩, rfl⟩ .nil

/-- C05 fails worse: 127 locals and then 32 locals are read as two locals and an extra instruction. -/
theorem locals_misread : ∃ bs, StdBytes (localsModule [(127, .i32), (32, .i32)]) bs ∧
    read bs = (.ok ⟨1, 0, .module ⟨[⟨[], []⟩], [⟨0, [.i32, .i32], some [.localGet 127, .end_]⟩], []⟩⟩, []) := by
  refine ⟨_, ⟨[], [0x01, 0x04, 0x01, 0x60, 0x00, 0x00], [], [0x03, 0x02, 0x01, 0x00], [], [], [],
    [0x0a, 0x08, 0x01, 0x06, 0x02, 0x7f, 0x7f, 0x20, 0x7f, 0x0b], [],
    ⟨[], .nil⟩, .inr ?_, ⟨[], .nil⟩, .inr ?_, ⟨[], .nil⟩, .inl ⟨rfl, rfl⟩, ⟨[], .nil⟩, .inr ?_, ⟨[], .nil⟩, rfl⟩, by decide⟩
  · refine std_sec _ _ 4 _ (by decide) rfl (std_vec 1 _ _ (by decide) rfl ?_)
    exact Seq.cons (u := [0x60, 0x00, 0x00]) (v := []) ⟨[0x00], [0x00], std_vec 0 _ _ (by decide) rfl .nil,
      std_vec 0 _ _ (by decide) rfl .nil, rfl⟩ .nil
  · exact std_sec _ _ 2 _ (by decide) rfl (std_vec 1 _ _ (by decide) rfl
      (.cons (u := [0x00]) (v := []) (std_small 0 (by decide)) .nil))
  · refine std_sec _ _ 8 _ (by decide) rfl (std_vec 1 _ _ (by decide) rfl ?_)
    exact .cons (u := [0x06, 0x02, 0x7f, 0x7f, 0x20, 0x7f, 0x0b]) (v := [])
      ⟨6, [0x06], [0x02, 0x7f, 0x7f, 0x20, 0x7f], [0x0b], std_small 6 (by decide), rfl,
        std_vec 2 _ _ (by decide) rfl (.cons (u := [0x7f, 0x7f]) ⟨[0x7f], [0x7f], std_small 127 (by decide), rfl, rfl⟩
          (.cons (u := [0x20, 0x7f]) (v := []) ⟨[0x20], [0x7f], std_small 32 (by decide), rfl, rfl⟩ .nil)),
        ⟨.cons (u := [0x0b]) (v := []) rfl .nil, [], rfl, by decide⟩, rfl⟩ .nil

/-! ## C06: unknown sections -/

/-- A section the reader does not interpret: another id, the length of the payload, the payload. -/
def Unknown (u : List Byte) : Prop := ∃ id n s p, id ≠ 0x01 ∧ id ≠ 0x03 ∧ id ≠ 0x07 ∧ id ≠ 0x0a ∧
  AnyNum n s ∧ n.toNat = p.length ∧ u = id :: (s ++ p)

theorem read_head_err (tail : List Byte)
    (h : ∀ secs m, Seq TakenSec secs tail → runAll ⟨[], [], []⟩ secs ≠ some m) : (read (head ++ tail)).1 = .err := by
  rcases read_returns (head ++ tail) with ⟨d, e⟩ | e
  · obtain ⟨-, m, secs, hs, hr, -⟩ := (read_head tail d (read (head ++ tail)).2).1 (by rw [← e])
    exact (h secs m hs hr).elim
  · exact e

/-- The outcome of reading as a module depends only on the sections. -/
theorem read_module_congr (v0 v1 l0 l1 : Byte) (hv : v1 ++ v0 = (0x01 : BitVec 16)) (a b : List Byte)
    (h : ∀ m, (∃ secs, Seq TakenSec secs a ∧ runAll ⟨[], [], []⟩ secs = some m) ↔
      ∃ secs, Seq TakenSec secs b ∧ runAll ⟨[], [], []⟩ secs = some m) :
    (read ([0x00, 0x61, 0x73, 0x6d, v0, v1, l0, l1] ++ a)).1 = (read ([0x00, 0x61, 0x73, 0x6d, v0, v1, l0, l1] ++ b)).1 := by
  have key : ∀ a b : List Byte, (∀ m, (∃ secs, Seq TakenSec secs a ∧ runAll ⟨[], [], []⟩ secs = some m) →
      ∃ secs, Seq TakenSec secs b ∧ runAll ⟨[], [], []⟩ secs = some m) → ∀ d,
      (read ([0x00, 0x61, 0x73, 0x6d, v0, v1, l0, l1] ++ a)).1 = .ok d →
      (read ([0x00, 0x61, 0x73, 0x6d, v0, v1, l0, l1] ++ b)).1 = .ok d := by
    intro a b h d e
    obtain ⟨-, m, secs, hs, hr, rfl⟩ := (read_module_iff v0 v1 l0 l1 a hv d _).1 (Prod.ext e rfl)
    obtain ⟨secs', hs', hr'⟩ := h m ⟨secs, hs, hr⟩
    rw [(read_module_iff v0 v1 l0 l1 b hv _ []).2 ⟨rfl, m, secs', hs', hr', rfl⟩]
  rcases read_returns ([0x00, 0x61, 0x73, 0x6d, v0, v1, l0, l1] ++ a) with ⟨d, e⟩ | e
  · rw [e, key a b (fun m => (h m).1) d e]
  · rcases read_returns ([0x00, 0x61, 0x73, 0x6d, v0, v1, l0, l1] ++ b) with ⟨d, e'⟩ | e'
    · rw [key b a (fun m => (h m).2) d e'] at e
      exact absurd e (by simp)
    · rw [e, e']

/-- C06, for boundaries the reader sees: when an input can be read by itself, then between it and anything that
follows a section of unknown id can be put without changing success or the document. Missing: boundaries according to
the size fields when those do not agree with the contents, see `unknown_not_transparent`. -/
theorem unknown_transparent_partial (pre u post : List Byte) (d : Document) (h : (read pre).1 = .ok d) (hu : Unknown u) :
    (read (pre ++ (u ++ post))).1 = (read (pre ++ post)).1 := by
  obtain ⟨v0, v1, l0, l1, tail, rfl, -⟩ := header_needed pre d (read pre).2 (Prod.ext h rfl)
  rw [List.append_assoc, List.append_assoc]
  by_cases h1 : v1 ++ v0 = (0x01 : BitVec 16)
  · obtain ⟨-, m0, secs0, hs0, hr0, -⟩ := (read_module_iff v0 v1 l0 l1 tail h1 d (read _).2).1 (Prod.ext h rfl)
    obtain ⟨id, n, s, p, i1, i3, i7, i10, g, hl, rfl⟩ := hu
    have gu : TakenSec (.other id p) (id :: (s ++ p)) := ⟨⟨i1, i3, i7, i10⟩, n, s, g, hl, rfl⟩
    apply read_module_congr v0 v1 l0 l1 h1
    intro m
    constructor
    · rintro ⟨secs, hs, hr⟩
      obtain ⟨more, rfl, hm⟩ := seq_split hs0 hs
      have gu' : Seq TakenSec [.other id p] (id :: (s ++ p)) := by
        rw [← List.append_nil (id :: (s ++ p))]; exact .cons gu .nil
      obtain ⟨more', rfl, hm'⟩ := seq_split gu' hm
      refine ⟨secs0 ++ more', hs0.append hm', ?_⟩
      rw [runAll_append] at hr ⊢
      rw [hr0] at hr ⊢
      exact hr
    · rintro ⟨secs, hs, hr⟩
      obtain ⟨more, rfl, hm⟩ := seq_split hs0 hs
      refine ⟨secs0 ++ .other id p :: more, hs0.append (.cons gu hm), ?_⟩
      rw [runAll_append] at hr ⊢
      rw [hr0] at hr ⊢
      exact hr
  · rw [read_preamble, read_preamble]
    by_cases h2 : v1 ++ v0 = (0x0a : BitVec 16)
    · rw [if_pos h2, if_pos h2]
    · rw [if_neg h2, if_neg h2, if_neg h1, if_neg h1]

/-- After the exports of the add module and before its code. -/
example : (read (addBytes.take 30)).1 = .ok ⟨1, 0, .module ⟨[⟨[.i32, .i32], [.i32]⟩], [⟨0, [], none⟩], [⟨[0x61, 0x64, 0x64], 0⟩]⟩⟩ ∧
    Unknown [0x00, 0x83, 0x00, 0x01, 0x61, 0xff] :=
  ⟨by decide, 0x00, 3, [0x83, 0x00], [0x01, 0x61, 0xff], by decide, by decide, by decide, by decide,
    ⟨⟨[0x83], 0x00, rfl, by decide, by decide⟩, rfl⟩, rfl, rfl⟩

/-- C06 fails at boundaries given by the size fields: a type section of two bytes of which the reader takes only one is
an error at the end of the input, but not when an unknown section follows. -/
theorem unknown_not_transparent : ∃ pre u : List Byte, pre = head ++ [0x01, 0x02, 0x00, 0x00] ∧ Unknown u ∧
    (read pre).1 = .err ∧ (read (pre ++ u)).1 = .ok ⟨1, 0, .module ⟨[], [], []⟩⟩ :=
  ⟨_, [0x02, 0x01, 0x55], rfl, ⟨0x02, 1, [0x01], [0x55], by decide, by decide, by decide, by decide,
    ⟨⟨[], 0x01, rfl, by decide, by decide⟩, rfl⟩, rfl, rfl⟩, by decide, by decide⟩

/-! ## C07: truncation -/

/-- The byte strings of the sections. -/
theorem Seq.parts {α : Type} {G : α → List Byte → Prop} {xs : List α} {u : List Byte} (h : Seq G xs u) :
    ∃ parts : List (List Byte), u = parts.flatten ∧ parts.length = xs.length ∧
      ∀ before part after, parts = before ++ part :: after →
        ∃ ys x zs, xs = ys ++ x :: zs ∧ Seq G ys before.flatten ∧ G x part := by
  induction h with
  | nil => exact ⟨[], rfl, rfl, fun b p a e => by simp at e⟩
  | @cons x xs u v g hs ih =>
    obtain ⟨parts, rfl, hl, hp⟩ := ih
    refine ⟨u :: parts, rfl, by simp [hl], fun b p a e => ?_⟩
    cases b with
    | nil =>
      simp only [List.nil_append, List.cons.injEq] at e
      obtain ⟨rfl, rfl⟩ := e
      exact ⟨[], x, xs, rfl, .nil, g⟩
    | cons b0 b =>
      simp only [List.cons_append, List.cons.injEq] at e
      obtain ⟨rfl, rfl⟩ := e
      obtain ⟨ys, y, zs, rfl, h1, h2⟩ := hp b p a rfl
      exact ⟨x :: ys, y, zs, rfl, .cons g h1, h2⟩

/-- C07. An input read as a module is a preamble and byte strings each of which is a section of the grammar; cut
strictly inside one of them it is an error. (Cuts inside the preamble: `short_input`.) -/
theorem cut_refused (bs : List Byte) (d : Document) (rest : List Byte) (m : Module) (h : read bs = (.ok d, rest))
    (hd : d.directive = .module m) :
    ∃ parts : List (List Byte), bs = bs.take 8 ++ parts.flatten ∧ (∀ part ∈ parts, ∃ sec, TakenSec sec part) ∧
      ∀ before part after p q, parts = before ++ part :: after → part = p ++ q → p ≠ [] → q ≠ [] →
        (read (bs.take 8 ++ (before.flatten ++ p))).1 = .err := by
  obtain ⟨v0, v1, l0, l1, tail, rfl, -, -, hv⟩ := header_needed bs d rest h
  have h1 : v1 ++ v0 = (0x01 : BitVec 16) := by
    rw [read_preamble] at h
    split at h
    · simp only [Prod.mk.injEq, Res.ok.injEq] at h
      rw [← h.1] at hd; simp at hd
    split at h
    · assumption
    · simp at h
  obtain ⟨-, m0, secs, hs, hr, -⟩ := (read_module_iff v0 v1 l0 l1 tail h1 d rest).1 h
  obtain ⟨parts, rfl, -, hp⟩ := hs.parts
  have e8 : ([0x00, 0x61, 0x73, 0x6d, v0, v1, l0, l1] ++ parts.flatten).take 8 =
    [0x00, 0x61, 0x73, 0x6d, v0, v1, l0, l1] := rfl
  rw [e8]
  refine ⟨parts, rfl, fun part hpart => ?_, ?_⟩
  · obtain ⟨b, a, e⟩ := List.append_of_mem hpart
    obtain ⟨_, sec, _, -, -, g⟩ := hp b part a e
    exact ⟨sec, g⟩
  · rintro before part after p q e rfl hne hq
    obtain ⟨ys, x, zs, rfl, hb, g⟩ := hp before _ after e
    rcases read_returns ([0x00, 0x61, 0x73, 0x6d, v0, v1, l0, l1] ++ (before.flatten ++ p)) with ⟨d', e'⟩ | e'
    · exfalso
      obtain ⟨-, m1, secs1, hs1, -, -⟩ := (read_module_iff v0 v1 l0 l1 _ h1 d' (read _).2).1 (Prod.ext e' rfl)
      obtain ⟨more, -, hm⟩ := seq_split hb hs1
      cases hm with
      | nil => exact hne rfl
      | @cons sec more u w g' _ =>
        rw [List.append_assoc] at g
        have := takes_anySection.det (x := []) (y := w ++ q) g g' (by simp)
        have h3 := congrArg List.length this.2.2
        simp only [List.length_append, List.length_nil] at h3
        exact hq (List.length_eq_zero_iff.1 (by omega))
    · exact e'

example : ∃ d rest m, read addBytes = (.ok d, rest) ∧ d.directive = .module m := ⟨_, _, _, rfl, rfl⟩

/-! ## C08: functions and bodies -/

/-- Sections that neither declare functions nor give code. -/
def Neutral : Sec → Prop
  | .funcs _ => False
  | .code _ => False
  | _ => True

theorem runAll_neutral (secs : List Sec) (h : ∀ s ∈ secs, Neutral s) (m : Module) :
    ∃ m', runAll m secs = some m' ∧ m'.funcs = m.funcs := by
  induction secs generalizing m with
  | nil => exact ⟨m, rfl, rfl⟩
  | cons s secs ih =>
    have hs := h s (by simp)
    have ih := fun m => ih (fun s hs => h s (by simp [hs])) m
    cases s with
    | funcs _ => exact hs.elim
    | code _ => exact hs.elim
    | types ts => exact ih { m with types := ts }
    | exports es => exact ih { m with exports := es }
    | other _ _ => exact ih m

theorem fill_get (fs : List Func) (cs : List (List ValType × List Instr)) (h : cs.length ≤ fs.length) :
    (fill fs cs).length = fs.length ∧ ∀ (i : Nat) (f : Func), fs[i]? = some f → (fill fs cs)[i]? = some
      (match cs[i]? with
       | some c => { f with locals := c.1, body := some c.2 }
       | none => f) := by
  induction cs generalizing fs with
  | nil => rw [fill]; exact ⟨rfl, fun i f hf => hf⟩
  | cons c cs ih =>
    cases fs with
    | nil => simp at h
    | cons f fs =>
      obtain ⟨h1, h2⟩ := ih fs (by simpa using h)
      rw [fill]
      refine ⟨by simp [h1], fun i g hg => ?_⟩
      cases i with
      | zero => simp only [List.getElem?_cons_zero, Option.some.injEq] at hg ⊢; rw [hg]
      | succ i => exact h2 i g hg

/-- C08, except that too few code entries are accepted (`code_missing`): with one function section and one code section
after it, among any other sections, the i-th function gets the i-th type index and the i-th code entry, and an input
with more code entries than functions is refused. -/
theorem paired_partial (A B D : List Sec) (is : List U32) (cs : List (List ValType × List Instr)) (bytes : List Byte)
    (hA : ∀ s ∈ A, Neutral s) (hB : ∀ s ∈ B, Neutral s) (hD : ∀ s ∈ D, Neutral s)
    (h : Seq TakenSec (A ++ .funcs is :: (B ++ .code cs :: D)) bytes) :
    (is.length < cs.length → (read (head ++ bytes)).1 = .err) ∧
    (cs.length ≤ is.length → ∃ m, read (head ++ bytes) = (.ok ⟨1, 0, .module m⟩, []) ∧ m.funcs.length = is.length ∧
      ∀ (i : Nat) (t : U32), is[i]? = some t → ∃ f : Func, m.funcs[i]? = some f ∧ f.type = t ∧
        (∀ c, cs[i]? = some c → f.locals = c.1 ∧ f.body = some c.2) ∧ (cs[i]? = none → f.body = none)) := by
  obtain ⟨mA, rA, fA⟩ := runAll_neutral A hA ⟨[], [], []⟩
  obtain ⟨mB, rB, fB⟩ := runAll_neutral B hB { mA with funcs := is.map fun i => ⟨i, [], none⟩ }
  have hr : runAll ⟨[], [], []⟩ (A ++ .funcs is :: (B ++ .code cs :: D)) =
      (Sec.code cs).run mB >>= fun m => runAll m D := by
    rw [runAll_append, rA]
    show (Sec.run mA (.funcs is) >>= fun m => runAll m (B ++ .code cs :: D)) = _
    simp only [Sec.run, Option.bind_eq_bind, Option.bind_some]
    rw [runAll_append, rB]
    rfl
  have hlen : mB.funcs.length = is.length := by rw [fB]; simp
  constructor
  · intro hlt
    refine read_head_err _ fun secs m hs hm => ?_
    rw [seq_det h hs, hr] at hm
    simp only [Sec.run] at hm
    rw [if_neg (by omega)] at hm
    simp at hm
  · intro hle
    obtain ⟨mD, rD, fD⟩ := runAll_neutral D hD { mB with funcs := fill mB.funcs cs }
    obtain ⟨f1, f2⟩ := fill_get mB.funcs cs (by omega)
    refine ⟨mD, (read_head _ _ _).2 ⟨rfl, mD, _, h, ?_, rfl⟩, ?_, fun i t ht => ?_⟩
    · rw [hr]
      simp only [Sec.run]
      rw [if_pos (by omega)]
      exact rD
    · rw [fD]; exact f1.trans hlen
    · have h0 : mB.funcs[i]? = some ⟨t, [], none⟩ := by rw [fB]; simp [ht]
      have := f2 i _ h0
      rw [fD]
      refine ⟨_, this, ?_⟩
      cases hc : cs[i]? with
      | none => exact ⟨rfl, by simp, fun _ => rfl⟩
      | some c => exact ⟨rfl, by simp, by simp⟩

/-- The add module with its sections. -/
example : ∃ A B D is cs, (∀ s ∈ A, Neutral s) ∧ (∀ s ∈ B, Neutral s) ∧ (∀ s ∈ D, Neutral s) ∧
    Seq TakenSec (A ++ .funcs is :: (B ++ .code cs :: D)) (addBytes.drop 8) ∧ is = [0] ∧
    cs = [([], [.localGet 0, .localGet 1, .i32Add, .end_])] := by
  have key : readMany anySection 5 (addBytes.drop 8) = (.ok [.types [⟨[.i32, .i32], [.i32]⟩], .funcs [0],
    .exports [⟨[0x61, 0x64, 0x64], 0⟩], .other 0 [0x01, 0x61, 0xff], .code [([], [.localGet 0, .localGet 1, .i32Add, .end_])]], []) := by
    rfl
  obtain ⟨u, hu, -, hs⟩ := ((takes_many takes_anySection 5).ok_iff _ _ _).1 key
  rw [List.append_nil] at hu
  rw [hu]
  exact ⟨[.types _], [.exports _, .other _ _], [], [0], _, by simp [Neutral], by simp [Neutral], by simp, hs, rfl, rfl⟩

/-- C08 fails when code is missing: a function without code is accepted and has no body. -/
theorem code_missing : ∃ bs, read bs = (.ok ⟨1, 0, .module ⟨[⟨[], []⟩], [⟨0, [], some [.end_]⟩, ⟨0, [], none⟩], []⟩⟩, []) :=
  ⟨head ++ [0x01, 0x04, 0x01, 0x60, 0x00, 0x00, 0x03, 0x03, 0x02, 0x00, 0x00, 0x0a, 0x04, 0x01, 0x02, 0x00, 0x0b], by decide⟩

end Verif.Binary
