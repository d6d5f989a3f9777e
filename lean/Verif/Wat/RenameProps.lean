import Verif.Wat.Rename
import Verif.Wat.Render

/-!
# C152: the WAT parser does not look at names
-/

namespace Verif.Wat

open Spec

variable {r : List Byte → List Byte} {lib : Lib}

/-- What is in `A` is in `B` after renaming. -/
def Ren (r : List Byte → List Byte) (A B : Lang) : Prop := ∀ ts, KeepsStrings r ts → A ts → B (ts.map (renTok r))

theorem Spec.KeepsStrings.left {a b : List Sig} (h : KeepsStrings r (a ++ b)) : KeepsStrings r a :=
  fun t ht => h t (List.mem_append_left _ ht)

theorem Spec.KeepsStrings.right {a b : List Sig} (h : KeepsStrings r (a ++ b)) : KeepsStrings r b :=
  fun t ht => h t (List.mem_append_right _ ht)

theorem Spec.KeepsStrings.tail {a : Sig} {b : List Sig} (h : KeepsStrings r (a :: b)) : KeepsStrings r b :=
  fun t ht => h t (List.mem_cons_of_mem _ ht)

theorem Spec.KeepsStrings.inner {a : List Sig} (h : KeepsStrings r (inParens a)) : KeepsStrings r a :=
  h.tail.left

theorem map_inParens (ts : List Sig) : (inParens ts).map (renTok r) = inParens (ts.map (renTok r)) := by
  simp only [inParens, List.map_cons, List.map_append, List.map_nil]
  rfl

namespace Ren
variable {A B C D : Lang}

theorem cat (h : Ren r A B) (h' : Ren r C D) : Ren r (A ⬝ C) (B ⬝ D) := by
  rintro ts hn ⟨a, b, rfl, ha, hb⟩
  exact ⟨_, _, List.map_append, h a hn.left ha, h' b hn.right hb⟩

theorem alt (h : Ren r A B) (h' : Ren r C D) : Ren r (A ∣∣ C) (B ∣∣ D) := by
  rintro ts hn (ha | ha)
  · exact .inl (h ts hn ha)
  · exact .inr (h' ts hn ha)

theorem eps : Ren r eps eps := by rintro ts - rfl; rfl

theorem only {p q : Prop} (h : p → q) : Ren r (only p) (only q) := by
  rintro ts - ⟨hp, rfl⟩
  exact ⟨h hp, rfl⟩

theorem never {B : Lang} : Ren r never B := fun _ _ h => h.elim

theorem tok {t : Sig} (h : renTok r t = t) : Ren r (tok t) (tok t) := by
  rintro ts - rfl
  show [renTok r t] = [t]
  rw [h]

theorem word (w : List Byte) : Ren r (word w) (word w) := tok rfl

theorem par (h : Ren r A B) : Ren r (par A) (par B) := (tok rfl).cat (h.cat (tok rfl))

theorem ident {w : List Byte} : Ren r (Spec.ident w) (Spec.ident (r w)) := by
  rintro ts - rfl
  rfl

theorem optIdent : {w : Option (List Byte)} → Ren r (Spec.optIdent w) (Spec.optIdent (w.map r))
  | none => eps
  | some _ => ident

theorem many {α : Type} {item item' : α → Lang} {f : α → α} (h : ∀ x, Ren r (item x) (item' (f x))) :
    (xs : List α) → Ren r (Spec.many item xs) (Spec.many item' (xs.map f))
  | [] => eps
  | x :: xs => cat (h x) (many h xs)

theorem val {t : ValType} : Ren r (Spec.val t) (Spec.val t) := word _

theorem vals {ts : List ValType} : Ren r (Spec.many Spec.val ts) (Spec.many Spec.val ts) := by
  have := many (r := r) (item := Spec.val) (item' := Spec.val) (f := id) (fun _ => val) ts
  rwa [List.map_id] at this

theorem unquoted_quoted (s : List Byte) : unquoted (quoted s) = s := by
  simp [unquoted, quoted]

theorem str {s : List Byte} : Ren r (Spec.str s) (Spec.str (renString r s)) := by
  rintro ts hn ⟨h, rfl⟩
  obtain ⟨s', h1, h2⟩ := (hn _ (List.mem_singleton.2 rfl) rfl).2 ⟨s, h, rfl⟩
  have e : renString r s = s' := by
    show unquoted (r (quoted s)) = s'
    have : r (quoted s) = quoted s' := h2
    rw [this, unquoted_quoted]
  rw [e]
  refine ⟨h1, ?_⟩
  show [Sig.mk .string (r _)] = _
  rw [h2]
  rfl

theorem int32 {v : U32} : Ren r (Spec.int32 v) (Spec.int32 v) := by
  rintro ts - ⟨w, i, h1, h2, rfl⟩
  exact ⟨w, i, h1, h2, rfl⟩

theorem int64 {v : U64} : Ren r (Spec.int64 v) (Spec.int64 v) := by
  rintro ts - ⟨w, i, h1, h2, rfl⟩
  exact ⟨w, i, h1, h2, rfl⟩

theorem float32 {v : U32} : Ren r (Spec.float32 lib v) (Spec.float32 lib v) := by
  rintro ts hn (⟨w, h, rfl⟩ | ⟨i, h, e⟩)
  · exact .inl ⟨w, h, rfl⟩
  · exact .inr ⟨i, int32 ts hn h, e⟩

theorem float64 {v : U64} : Ren r (Spec.float64 lib v) (Spec.float64 lib v) := by
  rintro ts hn (⟨w, h, rfl⟩ | ⟨i, h, e⟩)
  · exact .inl ⟨w, h, rfl⟩
  · exact .inr ⟨i, int64 ts hn h, e⟩

theorem index : {i : Index} → Ren r (Spec.index i) (Spec.index (renIndex r i))
  | .raw v => by
    rintro ts - ⟨w, i, h1, h2, rfl⟩
    exact ⟨w, i, h1, h2, rfl⟩
  | .id w => ident

theorem results {x : Result} : Ren r (Spec.results x) (Spec.results x) := par ((word _).cat vals)

theorem resultss {ts : List Result} : Ren r (Spec.many Spec.results ts) (Spec.many Spec.results ts) := by
  have := many (r := r) (item := Spec.results) (item' := Spec.results) (f := id) (fun _ => results) ts
  rwa [List.map_id] at this

theorem result {x : Result} : Ren r (Spec.result x) (Spec.result x) := by
  rcases x with ⟨_ | ⟨t, _ | ⟨u, us⟩⟩⟩
  · exact never
  · exact par ((word _).cat val)
  · exact never

theorem param {x : Parameter} : Ren r (Spec.param x) (Spec.param (renParameter r x)) := by
  rcases x with ⟨_ | w, ts⟩
  · exact par ((word _).cat vals)
  · rcases ts with _ | ⟨t, _ | ⟨u, us⟩⟩
    · exact never
    · exact par ((word _).cat (ident.cat val))
    · exact never

end Ren

theorem ren_takesOperands : (i : Inst) → TakesOperands i → TakesOperands (renInst r i)
  | .nil, _ | .plain _, _ | .indexed _ _, _ | .i32Const _, _ | .i64Const _, _ | .f32Const _, _ | .f64Const _, _
  | .callIndirect _, _ => trivial

theorem renInsts_map (is : List Inst) : renInsts r is = is.map (renInst r) := by
  induction is with
  | nil => rfl
  | cons i is ih => rw [renInsts, ih]; rfl

theorem renIf (name : Option (List Byte)) (rs : List Result) (clause : List Inst) (thens elses : Option (List Inst)) :
    renInst r (.ifThen name rs clause (thens.getD []) elses) =
      .ifThen (name.map r) rs (renInsts r clause) ((thens.map (renInsts r)).getD []) (elses.map (renInsts r)) := by
  cases thens <;> cases elses <;> rfl

mutual

theorem ren_inst {i : Inst} {ts : List Sig} (hn : KeepsStrings r ts) :
    IsInst lib i ts → IsInst lib (renInst r i) (ts.map (renTok r))
  | .alone h => .alone (ren_head hn h)
  | .folded ho h hp hs => by
    rw [List.map_append]
    exact .folded (ren_takesOperands _ ho) (ren_head hn.left h) (by rw [renInsts_map]; simpa using hp) (ren_insts hn.right hs)

theorem ren_head {i : Inst} {ts : List Sig} (hn : KeepsStrings r ts) :
    IsHead lib i ts → IsHead lib (renInst r i) (ts.map (renTok r))
  | .lost h => .lost h
  | .plain => .plain
  | .indexed h => .indexed (Ren.index _ hn.tail h)
  | .i32Const h => .i32Const (Ren.int32 _ hn.tail h)
  | .i64Const h => .i64Const (Ren.int64 _ hn.tail h)
  | .f32Const h => .f32Const (Ren.float32 _ hn.tail h)
  | .f64Const h => .f64Const (Ren.float64 _ hn.tail h)
  | .callIndirect h => .callIndirect (Ren.par ((Ren.word _).cat Ren.ident) _ hn.tail h)
  | .block ha hb hc => by
    rw [List.map_cons, List.map_append, List.map_append]
    exact .block (Ren.optIdent _ hn.tail.left ha) (Ren.resultss _ hn.tail.right.left hb) (ren_insts hn.tail.right.right hc)
  | .loop ha hb hc => by
    rw [List.map_cons, List.map_append, List.map_append]
    exact .loop (Ren.optIdent _ hn.tail.left ha) (Ren.resultss _ hn.tail.right.left hb) (ren_insts hn.tail.right.right hc)
  | .ifThen ha hb => by
    rw [List.map_cons, List.map_append, renIf]
    exact .ifThen (Ren.optIdent _ hn.tail.left ha) (ren_if hn.tail.right hb)

theorem ren_insts {is : List Inst} {ts : List Sig} (hn : KeepsStrings r ts) :
    IsInsts lib is ts → IsInsts lib (renInsts r is) (ts.map (renTok r))
  | .nil => .nil
  | .cons h hs => by
    rw [List.map_append, map_inParens]
    exact .cons (ren_inst hn.left.inner h) (ren_insts hn.right hs)

theorem ren_if {rs : List Result} {clause : List Inst} {thens elses : Option (List Inst)} {ts : List Sig}
    (hn : KeepsStrings r ts) : IsIf lib rs clause thens elses ts →
    IsIf lib rs (renInsts r clause) (thens.map (renInsts r)) (elses.map (renInsts r)) (ts.map (renTok r))
  | .nil => .nil
  | .result h hs => by
    rw [List.map_append]
    exact .result (Ren.result _ hn.left h) (ren_if hn.right hs)
  | .clause h hs => by
    rw [List.map_append, map_inParens]
    exact .clause (ren_inst hn.left.inner h) (ren_if hn.right hs)
  | .then_ (thens := t) h hs => by
    rw [List.map_append, map_inParens, List.map_cons]
    have := IsIf.then_ (ren_insts hn.left.inner.tail h) (ren_if hn.right hs)
    cases t <;> exact this
  | .else_ (elses := t) h hs => by
    rw [List.map_append, map_inParens, List.map_cons]
    have := IsIf.else_ (ren_insts hn.left.inner.tail h) (ren_if hn.right hs)
    cases t <;> exact this

end

theorem Ren.inst {i : Inst} : Ren r (IsInst lib i) (IsInst lib (renInst r i)) := fun _ hn h => ren_inst hn h

theorem ren_function {f : Function} {ts : List Sig} (hn : KeepsStrings r ts) (h : IsFunc lib f ts) :
    IsFunc lib (renFunction r f) (ts.map (renTok r)) := by
  induction h with
  | rest h =>
    have := Ren.many (r := r) (fun x => Ren.inst (lib := lib) (i := x)) _ _ hn h
    rw [← renInsts_map] at this
    exact .rest this
  | local_ h hs ih => rw [List.map_append]; exact .local_ (Ren.par ((Ren.word _).cat Ren.val) _ hn.left h) (ih hn.right)
  | param h hs ih => rw [List.map_append]; exact .param (Ren.param _ hn.left h) (ih hn.right)
  | result h hs ih => rw [List.map_append]; exact .result (Ren.result _ hn.left h) (ih hn.right)
  | export_ h hs ih => rw [List.map_append]; exact .export_ (Ren.par ((Ren.word _).cat Ren.str) _ hn.left h) (ih hn.right)
  | import_ h hs ih =>
    rw [List.map_append]
    exact .import_ (Ren.par ((Ren.word _).cat (Ren.str.cat Ren.str)) _ hn.left h) (ih hn.right)
  | inst h hs ih => rw [List.map_append]; exact .inst (Ren.par Ren.inst _ hn.left h) (ih hn.right)

theorem ren_func (f : Function) : Ren r (func lib f) (func lib (renFunction r f)) :=
  (Ren.word _).cat (Ren.optIdent.cat fun _ hn h => ren_function hn h)

theorem ren_isFuncType {f : FuncType} {ts : List Sig} (hn : KeepsStrings r ts) (h : IsFuncType f ts) :
    IsFuncType (renFuncType r f) (ts.map (renTok r)) := by
  induction h with
  | nil => exact .nil
  | param h hs ih => rw [List.map_append]; exact .param (Ren.param _ hn.left h) (ih hn.right)
  | result h hs ih => rw [List.map_append]; exact .result (Ren.result _ hn.left h) (ih hn.right)
  | nothing hs ih => exact .nothing (ih hn.tail.tail)

theorem ren_typeDef (t : TypeDef) : Ren r (typeDef t) (typeDef (renTypeDef r t)) :=
  (Ren.word _).cat (Ren.optIdent.cat ((Ren.par ((Ren.word _).cat fun _ hn h => ren_isFuncType hn h)).alt
    (Ren.only fun e => by simp only [renTypeDef]; rw [e]; rfl)))

theorem ren_limits (l : Limits) : Ren r (limits l) (limits l) := by
  rcases l with ⟨a, _ | b⟩
  · exact Ren.int32.cat Ren.eps
  · exact Ren.int32.cat Ren.int32

theorem ren_tableType (t : TableType) : Ren r (tableType t) (tableType t) :=
  ((ren_limits _).alt (Ren.only id)).cat (by
    rintro ts - ⟨w, h, rfl⟩
    exact ⟨w, h, rfl⟩)

theorem ren_table (t : Table) : Ren r (table t) (table (renTable r t)) :=
  (Ren.word _).cat (Ren.optIdent.cat ((ren_tableType _).cat (Ren.many
    (item := fun e => par (word (txt "elem") ⬝ ident e)) (item' := fun e => par (word (txt "elem") ⬝ ident e)) (f := r)
    (fun _ => Ren.par ((Ren.word _).cat Ren.ident)) _)))

theorem ren_memory (m : Memory) : Ren r (memory m) (memory (renMemory r m)) :=
  (Ren.word _).cat (Ren.optIdent.cat (ren_limits _))

theorem ren_globalType (b : Bool) (t : ValType) : Ren r (globalType b t) (globalType b t) := by
  cases b
  · exact Ren.val
  · exact Ren.par ((Ren.word _).cat Ren.val)

theorem ren_global (g : Global) : Ren r (global lib g) (global lib (renGlobal r g)) :=
  (Ren.word _).cat (Ren.optIdent.cat ((ren_globalType _ _).cat fun _ hn h => ren_insts hn h))

theorem ren_module {m : Module} {ts : List Sig} (hn : KeepsStrings r ts) (h : IsModule lib m ts) :
    IsModule lib (renModule r m) (ts.map (renTok r)) := by
  induction h with
  | nil => exact .nil
  | func h hs ih => rw [List.map_append]; exact .func (Ren.par (ren_func _) _ hn.left h) (ih hn.right)
  | type h hs ih => rw [List.map_append]; exact .type (Ren.par (ren_typeDef _) _ hn.left h) (ih hn.right)
  | table h hs ih => rw [List.map_append]; exact .table (Ren.par (ren_table _) _ hn.left h) (ih hn.right)
  | global h hs ih => rw [List.map_append]; exact .global (Ren.par (ren_global _) _ hn.left h) (ih hn.right)
  | memory h hs ih => rw [List.map_append]; exact .memory (Ren.par (ren_memory _) _ hn.left h) (ih hn.right)

theorem ren_directive : (d : Directive) → Ren r (directive lib d) (directive lib (renDirective r d))
  | .component => Ren.par (Ren.tok rfl)
  | .module _ => Ren.par ((Ren.tok rfl).cat fun _ hn h => ren_module hn h)

/-- C152, accepted texts. If two texts have the same tokens but for the identifiers and strings, of which the second has others,
and the first is accepted, then so is the second, and its tree is that of the first with the names renamed. -/
theorem wat_rename_accepted (lib : Lib) (hlib : lib.Total) (r : List Byte → List Byte) (text text' : List Byte) (n m : Nat)
    (hn : text.length < n) (hm : text'.length < m) (ht : tokens text' = (tokens text).map (renTok r))
    (hs : KeepsStrings r (tokens text)) (d : Directive) (h : parseText lib n text = .ok d) :
    parseText lib m text' = .ok (renDirective r d) := by
  obtain ⟨ts, rest, e, hd⟩ := (wat_accepted_iff lib hlib text n hn d).1 h
  rw [e] at hs
  refine (wat_accepted_iff lib hlib text' m hm _).2 ⟨ts.map (renTok r), rest.map (renTok r), ?_, ren_directive d _ hs.left hd⟩
  rw [ht, e, List.map_append]

theorem renTok_not (t : Sig) (h : ¬ isName t) : renTok r t = t := by
  obtain ⟨k, w⟩ := t
  cases k <;> first | rfl | exact absurd (.inl rfl) h | exact absurd (.inr rfl) h

theorem renTok_name (t : Sig) (h : isName t) : renTok r t = ⟨t.type, r t.capture⟩ := by
  obtain ⟨k, w⟩ := t
  rcases h with h | h <;> (simp only at h; subst h; rfl)

theorem renTok_type (t : Sig) : (renTok r t).type = t.type := by
  obtain ⟨k, w⟩ := t
  cases k <;> rfl

/-- C152. If two texts have the same tokens but for the identifiers and strings, which in the second text are renamed so that
different ones stay different, then what comes of the second is what comes of the first, renamed: a tree with the names renamed,
or an error. -/
theorem wat_rename (lib : Lib) (hlib : lib.Total) (r : List Byte → List Byte) (text text' : List Byte) (n m : Nat)
    (hn : text.length < n) (hm : text'.length < m) (ht : tokens text' = (tokens text).map (renTok r))
    (hs : KeepsStrings r (tokens text))
    (hi : ∀ s ∈ tokens text, ∀ t ∈ tokens text, isName s → isName t → r s.capture = r t.capture → s.capture = t.capture) :
    parseText lib m text' = renResult r (parseText lib n text) := by
  rcases (wat_parser_ends lib hlib text n n hn hn).1 with ⟨a, e⟩ | e
  · rw [e]
    exact wat_rename_accepted lib hlib r text text' n m hn hm ht hs a e
  · rw [e]
    rcases (wat_parser_ends lib hlib text' m m hm hm).1 with ⟨b, e'⟩ | e'
    · exfalso
      classical
      let q : List Byte → List Byte := fun w =>
        if h : ∃ t ∈ tokens text, isName t ∧ r t.capture = w then h.choose.capture else w
      have hq : ∀ t ∈ tokens text, isName t → q (r t.capture) = t.capture := fun t h k => by
        have hx : ∃ s ∈ tokens text, isName s ∧ r s.capture = r t.capture := ⟨t, h, k, rfl⟩
        show (if h : ∃ s ∈ tokens text, isName s ∧ r s.capture = r t.capture then h.choose.capture else _) = _
        rw [dif_pos hx]
        exact hi _ hx.choose_spec.1 _ h hx.choose_spec.2.1 k hx.choose_spec.2.2
      have := wat_rename_accepted lib hlib q text' text m n hm hn (by
        rw [ht, List.map_map]
        refine (List.map_id _).symm.trans (List.map_congr_left fun t h => ?_)
        show t = renTok q (renTok r t)
        by_cases k : isName t
        · rw [renTok_name t k, renTok_name ⟨t.type, r t.capture⟩ k]
          show t = ⟨t.type, q (r t.capture)⟩
          rw [hq t h k]
        · rw [renTok_not t k, renTok_not t k]) (by
        rw [ht]
        intro t h h1
        obtain ⟨s, hs', rfl⟩ := List.mem_map.1 h
        rw [renTok_type] at h1
        rw [renTok_name s (.inr h1)]
        show PlainString (q (r s.capture)) ↔ PlainString (r s.capture)
        rw [hq s hs' (.inr h1)]
        exact (hs s hs' h1).symm) b e'
      rw [e] at this
      cases this
    · exact e'

/-- C152, on texts written down: tokens with a space between them, and the same with the names renamed to other words. -/
theorem wat_rename_written (lib : Lib) (hlib : lib.Total) (r : List Byte → List Byte) (us : List Sig) (n m : Nat)
    (hu : ∀ u ∈ us, Written u) (hw : ∀ u ∈ us, Written (renTok r u)) (hs : KeepsStrings r us)
    (hi : ∀ s ∈ us, ∀ t ∈ us, isName s → isName t → r s.capture = r t.capture → s.capture = t.capture)
    (hn : (sep (us.map (·.capture))).length < n) (hm : (sep (us.map fun u => (renTok r u).capture)).length < m) :
    parseText lib m (sep (us.map fun u => (renTok r u).capture)) = renResult r (parseText lib n (sep (us.map (·.capture)))) := by
  have h2 : tokens (sep (us.map (·.capture))) = us := by rw [← significant_toks, significant_sep us hu]
  have e : (us.map (renTok r)).map (·.capture) = us.map fun u => (renTok r u).capture := by rw [List.map_map]; rfl
  have h4 : tokens (sep ((us.map (renTok r)).map (·.capture))) = us.map (renTok r) := by
    rw [← significant_toks, significant_sep _ (fun u h => by
      obtain ⟨v, hv, rfl⟩ := List.mem_map.1 h
      exact hw v hv)]
  rw [e] at h4
  exact wat_rename lib hlib r _ _ n m hn hm (by rw [h4, h2]) (by rw [h2]; exact hs) (by rw [h2]; exact hi)

/-! ## Cases that meet the hypotheses -/

theorem plainString_iff (w : List Byte) : PlainString w ↔ ch '"' ∉ unquoted w ∧ w = quoted (unquoted w) := by
  constructor
  · rintro ⟨s, h, rfl⟩
    rw [Ren.unquoted_quoted]
    exact ⟨h, rfl⟩
  · rintro ⟨h1, h2⟩
    exact ⟨_, h1, h2⟩

instance (w : List Byte) : Decidable (PlainString w) := decidable_of_iff _ (plainString_iff w).symm

instance (t : Sig) : Decidable (isName t) := inferInstanceAs (Decidable (_ ∨ _))

/-- A renaming of identifiers and of an exported name; `$a` and `$b` are exchanged. -/
def someRenaming (w : List Byte) : List Byte :=
  if w = txt "$a" then txt "$b" else if w = txt "$b" then txt "$a" else if w = txt "\"f\"" then txt "\"the sum\"" else w

/-- A text with names used several times. -/
def namedText : List Byte :=
  txt "(module (; c ;) (func $a (export \"f\") (param $b i32) local.get $b (block $x (call $a)) br $x) (table $t 1 funcref (elem $a)))"

/-- The text with other names and other white space. -/
def renamedText : List Byte :=
  txt "(module (func $b(export \"the sum\")(param $a i32) local.get $a (block $x (call $b)) br $x)(table $t 1 funcref(elem $b)))"

example : tokens renamedText = (tokens namedText).map (renTok someRenaming) ∧
    (∀ t ∈ tokens namedText, t.type = .string → (PlainString (someRenaming t.capture) ↔ PlainString t.capture)) ∧
    (∀ s ∈ tokens namedText, ∀ t ∈ tokens namedText, isName s → isName t → someRenaming s.capture = someRenaming t.capture →
      s.capture = t.capture) ∧
    isOk (parseText someLib 200 namedText) = true := by decide +kernel

/-- **What is not a name is looked at**: an instruction renamed to a word that is none, and a string with a quote in it. -/
theorem not_a_name :
    isOk (parseText someLib 100 (txt "(module (func drop))")) = true ∧
    isOk (parseText someLib 100 (txt "(module (func dropped))")) = false ∧
    isOk (parseText someLib 100 (txt "(module (func (export \"a\")))")) = true ∧
    isOk (parseText someLib 100 (txt "(module (func (export \"a\\\"\")))")) = false := by decide +kernel

/-- **Names are not resolved**: names that are declared twice, and names that are not declared, are accepted. -/
theorem names_not_resolved :
    isOk (parseText someLib 100 (txt "(module (func $a) (func $a) (func call $b local.get $c br $d))")) = true := by decide +kernel

end Verif.Wat
