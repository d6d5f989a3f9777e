import Verif.Wit.Rename
import Verif.Wit.Render

/-!
# C151: the WIT parser does not look at names
-/

namespace Verif.Wit

open Spec

variable {r : List Byte → List Byte}

/-- What is in `A` is in `B` after renaming. -/
def Ren (r : List Byte → List Byte) (A B : Lang) : Prop := ∀ ts, NamesOnly r ts → A ts → B (ts.map (renTok r))

namespace Ren
variable {A B C D : Lang}

theorem cat (h : Ren r A B) (h' : Ren r C D) : Ren r (A ⬝ C) (B ⬝ D) := by
  rintro ts hn ⟨a, b, rfl, ha, hb⟩
  exact ⟨_, _, List.map_append, h a (fun t ht => hn t (List.mem_append_left _ ht)) ha,
    h' b (fun t ht => hn t (List.mem_append_right _ ht)) hb⟩

theorem alt (h : Ren r A B) (h' : Ren r C D) : Ren r (A ∣∣ C) (B ∣∣ D) := by
  rintro ts hn (ha | ha)
  · exact .inl (h ts hn ha)
  · exact .inr (h' ts hn ha)

theorem eps : Ren r eps eps := by rintro ts - rfl; rfl

theorem only {p q : Prop} (h : p → q) : Ren r (only p) (only q) := by
  rintro ts - ⟨hp, rfl⟩
  exact ⟨h hp, rfl⟩

theorem never {B : Lang} : Ren r never B := fun _ _ h => h.elim

theorem tok {k : TokenType} : Ren r (T k) (T k) := by
  rintro ts - ⟨w, rfl⟩
  exact ⟨r w, rfl⟩

theorem ident {w : List Byte} : Ren r (Spec.ident w) (Spec.ident (r w)) := by
  rintro ts - (rfl | rfl)
  · exact .inl rfl
  · exact .inr rfl

theorem any {w : List Byte} : Ren r (Spec.any w) (Spec.any (r w)) := by
  rintro ts - ⟨k, rfl⟩
  exact ⟨k, rfl⟩

theorem head {ts : List Sig} {P : TokenType → Prop} (h : ∀ t ∈ ts.head?, P t.type) :
    ∀ t ∈ (ts.map (renTok r)).head?, P t.type := by
  intro t ht
  cases ts with
  | nil => cases ht
  | cons x xs => cases ht; exact h x rfl

theorem notBegin {k : TokenType} (h : Ren r A B) : Ren r (A.notBegin k) (B.notBegin k) := by
  rintro ts hn ⟨ha, hb⟩
  exact ⟨h ts hn ha, head (P := (· ≠ k)) hb⟩

theorem many {α : Type} {item : α → Lang} {f : α → α} (h : ∀ x, Ren r (item x) (item (f x))) :
    (xs : List α) → Ren r (Spec.many item xs) (Spec.many item (xs.map f))
  | [] => eps
  | x :: xs => cat (h x) (many h xs)

theorem commas {α : Type} {item : α → Lang} {f : α → α} (h : ∀ x, Ren r (item x) (item (f x))) :
    (xs : List α) → Ren r (Spec.commas item xs) (Spec.commas item (xs.map f))
  | [] => eps
  | x :: xs => cat (h x) (alt (cat tok (commas h xs)) (only (by rintro rfl; rfl)))

theorem number {v : U64} : Ren r (Spec.number v) (Spec.number v) := by
  rintro ts hn ⟨w, i, h1, h2, rfl⟩
  refine ⟨w, i, h1, h2, ?_⟩
  have : r w = w := hn ⟨.integer, w⟩ (List.mem_singleton.2 rfl) (fun c => by cases c) (fun c => by cases c)
  show [Sig.mk .integer (r w)] = _
  rw [this]

end Ren

open Ren

mutual
theorem ren_ty : (t : Ty) → Ren r (ty t) (ty (renTy r t))
  | .u32 => by simp only [ty, renTy]; exact tok
  | .string => by simp only [ty, renTy]; exact tok
  | .float32 => by simp only [ty, renTy]; exact tok
  | .float64 => by simp only [ty, renTy]; exact tok
  | .stream none none => by simp only [ty, renTy]; exact tok
  | .stream (some a) none => by simp only [ty, renTy]; exact tok.cat (tok.cat ((ren_ty a).notBegin.cat tok))
  | .stream none (some b) => by simp only [ty, renTy]; exact tok.cat (tok.cat (tok.cat (tok.cat ((ren_ty b).cat tok))))
  | .stream (some a) (some b) => by
    simp only [ty, renTy]; exact tok.cat (tok.cat ((ren_ty a).notBegin.cat (tok.cat ((ren_ty b).cat tok))))
  | .future none => by simp only [ty, renTy]; exact tok
  | .future (some a) => by simp only [ty, renTy]; exact tok.cat (tok.cat ((ren_ty a).cat tok))
  | .list (some a) none => by simp only [ty, renTy]; exact tok.cat (tok.cat ((ren_ty a).cat tok))
  | .option (some a) none => by simp only [ty, renTy]; exact tok.cat (tok.cat ((ren_ty a).cat tok))
  | .result none none => by simp only [ty, renTy]; exact tok
  | .result (some a) none => by simp only [ty, renTy]; exact tok.cat (tok.cat ((ren_ty a).notBegin.cat tok))
  | .result none (some b) => by simp only [ty, renTy]; exact tok.cat (tok.cat (tok.cat (tok.cat ((ren_ty b).cat tok))))
  | .result (some a) (some b) => by
    simp only [ty, renTy]; exact tok.cat (tok.cat ((ren_ty a).notBegin.cat (tok.cat ((ren_ty b).cat tok))))
  | .tuple ts => by simp only [ty, renTy]; exact tok.cat (tok.cat ((ren_tys ts).cat tok))
  | .own w => by simp only [ty, renTy]; exact tok.cat (tok.cat (Ren.ident.cat tok))
  | .borrow w => by simp only [ty, renTy]; exact tok.cat (tok.cat (Ren.ident.cat tok))
  | .id w => by
    simp only [ty, renTy]
    rintro ts - ⟨k, hk, rfl⟩
    exact ⟨k, hk, rfl⟩
  | .u8 | .u16 | .u64 | .s8 | .s16 | .s32 | .s64 | .char | .bool => by simp only [ty]; exact Ren.never
  | .list none _ | .list (some _) (some _) | .option none _ | .option (some _) (some _) => by simp only [ty]; exact Ren.never
theorem ren_tys : (ts : List Ty) → Ren r (tys ts) (tys (renTys r ts))
  | [] => by simp only [tys, renTys]; exact Ren.eps
  | t :: ts => by
    simp only [tys, renTys]
    exact (ren_ty t).notBegin.cat ((tok.cat (ren_tys ts)).alt (Ren.only (by rintro rfl; rfl)))
end

theorem ren_parameter (p : Parameter) : Ren r (parameter p) (parameter (renParameter r p)) :=
  Ren.ident.cat (tok.cat (ren_ty _))

theorem ren_parameters (ps : List Parameter) : Ren r (parameters ps) (parameters (ps.map (renParameter r))) :=
  tok.cat ((Ren.commas ren_parameter ps).cat tok)

theorem ren_results (x : ResultList) : Ren r (results x) (results (renResults r x)) := by
  rcases x with ⟨n, _ | t⟩
  · exact (Ren.only (by rintro h; simp only [renResults]; simp only at h; rw [h]; rfl)).alt (tok.cat (ren_parameters n))
  · exact (Ren.only (by rintro h; simp only [renResults]; simp only at h; rw [h]; rfl)).cat (tok.cat (ren_ty t).notBegin)

theorem ren_func (f : FuncType) : Ren r (func f) (func (renFunc r f)) := tok.cat ((ren_parameters _).cat (ren_results _))

theorem ren_funcItem (f : FuncItem) : Ren r (funcItem f) (funcItem (renFuncItem r f)) :=
  Ren.ident.cat (tok.cat ((ren_func _).cat tok))

theorem ren_field (f : Field) : Ren r (field f) (field (renField r f)) := Ren.ident.cat (tok.cat (ren_ty _))

theorem ren_case (c : Case) : Ren r (case_ c) (case_ (renCase r c)) := by
  rcases c with ⟨n, _ | t⟩
  · exact Ren.ident
  · exact Ren.ident.cat (tok.cat ((ren_ty t).cat tok))

theorem ren_method (m : ResourceMethod) : Ren r (method m) (method (renMethod r m)) := by
  cases m with
  | constructor ps => exact tok.cat ((ren_parameters ps).cat tok)
  | static w f => exact Ren.ident.cat (tok.cat (tok.cat ((ren_func f).cat tok)))
  | method w f => exact (Ren.only id).cat (ren_funcItem f)

theorem map_nil_of {α : Type} {f : α → α} {xs : List α} (h : xs = []) : xs.map f = [] := by rw [h]; rfl

theorem ren_typeDef (t : TypeDef) : Ren r (typeDef t) (typeDef (renTypeDef r t)) := by
  cases t with
  | type w t => exact tok.cat (Ren.ident.cat (tok.cat ((ren_ty t).cat tok)))
  | record w fs => exact tok.cat (Ren.ident.cat (tok.cat ((Ren.commas ren_field fs).cat tok)))
  | flags w fs => exact tok.cat (Ren.ident.cat (tok.cat ((Ren.commas (item := Spec.ident) (f := r) (fun _ => Ren.ident) fs).cat tok)))
  | variant w cs => exact tok.cat (Ren.ident.cat (tok.cat ((Ren.commas ren_case cs).cat tok)))
  | enum w cs => exact tok.cat (Ren.ident.cat (tok.cat ((Ren.commas (item := Spec.ident) (f := r) (fun _ => Ren.ident) cs).cat tok)))
  | resource w ms =>
    exact tok.cat (Ren.ident.cat ((tok.cat ((Ren.many ren_method ms).cat tok)).alt
      (((Ren.only map_nil_of).cat tok).alt (Ren.only map_nil_of))))

theorem ren_path (p : UsePath) : Ren r (path p) (path (renPath r p)) := (Ren.only id).cat Ren.ident

theorem ren_as (w : Option (List Byte)) : Ren r (as_ w) (as_ (w.map r)) := by
  cases w with
  | none => exact Ren.eps
  | some w => exact tok.cat Ren.ident

theorem ren_useName (u : UseName) : Ren r (useName u) (useName (renUseName r u)) := Ren.ident.cat (ren_as _)

theorem ren_use (u : Use) : Ren r (use u) (use (renUse r u)) :=
  tok.cat ((ren_path _).cat (tok.cat (tok.cat ((Ren.commas ren_useName _).cat (tok.cat tok)))))

theorem ren_includeName (i : IncludeName) : Ren r (includeName i) (includeName (renIncludeName r i)) :=
  Ren.ident.cat (tok.cat Ren.ident)

theorem ren_include (i : Include) : Ren r (include_ i) (include_ (renInclude r i)) :=
  tok.cat ((ren_path _).cat ((tok.cat (tok.cat ((Ren.many ren_includeName _).cat tok))).alt ((Ren.only map_nil_of).cat tok)))

theorem ren_interfaceItem (i : InterfaceItem) : Ren r (interfaceItem i) (interfaceItem (renInterfaceItem r i)) := by
  cases i with
  | use u => exact ren_use u
  | typeDef t => exact ren_typeDef t
  | func f => exact ren_funcItem f

theorem ren_interfaceItems (is : List InterfaceItem) : Ren r (interfaceItems is) (interfaceItems (is.map (renInterfaceItem r))) :=
  tok.cat ((Ren.many ren_interfaceItem is).cat tok)

theorem ren_extern (e : ExternType) : Ren r (externType e) (externType (renExtern r e)) := by
  cases e with
  | func w f => exact Ren.ident.cat (tok.cat ((ren_func f).cat tok))
  | interface w is => exact Ren.ident.cat (tok.cat (tok.cat (ren_interfaceItems is)))
  | usePath p => exact (ren_path p).cat tok

theorem ren_inWorld (t : TypeDef) (h : InWorld t) : InWorld (renTypeDef r t) := by cases t <;> exact h

theorem ren_worldItem (w : WorldItem) : Ren r (worldItem w) (worldItem (renWorldItem r w)) := by
  cases w with
  | export_ e => exact tok.cat (ren_extern e)
  | import_ e => exact tok.cat (ren_extern e)
  | use u => exact ren_use u
  | typeDef t => exact (Ren.only (ren_inWorld t)).cat (ren_typeDef t)
  | «include» i => exact ren_include i

theorem ren_version (v : Option Version) : Ren r (version v) (version v) := by
  cases v with
  | none => exact Ren.eps
  | some v => exact (Ren.only id).cat (tok.cat (Ren.number.cat (tok.cat (Ren.number.cat (tok.cat Ren.number)))))

theorem ren_package (p : PackageDeclaration) : Ren r (package (some p)) (package (some (renPackage r p))) :=
  tok.cat (Ren.any.cat (tok.cat (Ren.ident.cat ((ren_version _).cat tok))))

theorem ren_item (i : AstItem) : Ren r (itemOrToken i) (itemOrToken (renItem r i)) := by
  rcases i with ⟨_ | a, _ | b, _ | c⟩
  · rintro ts - ⟨t, ht, rfl⟩
    exact ⟨renTok r t, ht, rfl⟩
  · exact tok.cat ((ren_path _).cat (ren_as _))
  · exact tok.cat (Ren.ident.cat (tok.cat ((Ren.many ren_worldItem _).cat tok)))
  · exact Ren.never
  · exact tok.cat (Ren.ident.cat (ren_interfaceItems _))
  · exact Ren.never
  · exact Ren.never
  · exact Ren.never

theorem ren_open (i : AstItem) (h : OpenUse (renItem r i)) : OpenUse i := by
  rcases i with ⟨_ | a, _ | b, _ | ⟨p, _ | w⟩⟩ <;> obtain ⟨q, h⟩ := h <;> first | exact ⟨p, rfl⟩ | (simp [renItem, renTopLevelUse] at h)

theorem ren_loose : (is : List AstItem) → Ren r (loose is) (loose (is.map (renItem r)))
  | [] => Ren.eps
  | i :: is => by
    refine (ren_item i).cat ?_
    rintro ts hn ⟨h1, h2⟩
    exact ⟨ren_loose is ts hn h1, fun ho => Ren.head (P := fun k => k ≠ .as ∧ k ≠ .colon) (h2 (ren_open i ho))⟩

theorem ren_document (a : Ast) : Ren r (looseDocument a) (looseDocument (Ast.rename r a)) := by
  rcases a with ⟨_ | p, is⟩
  · exact (ren_loose is).notBegin
  · exact (ren_package p).cat (ren_loose is)

variable [Unicode]

/-- C151, accepted texts. If two texts have the same tokens but for the names, of which the second has others, and the first
is accepted, then so is the second, and its tree is that of the first with the names renamed. -/
theorem wit_rename_accepted (r : List Byte → List Byte) (text text' : List Byte) (n m : Nat) (hn : text.length < n)
    (hm : text'.length < m) (hl : Lexes text ↔ Lexes text') (ht : tokens text' = (tokens text).map (renTok r))
    (hr : NamesOnly r (tokens text)) (a : Ast) (h : parseText n text = .ok a) : parseText m text' = .ok (Ast.rename r a) := by
  obtain ⟨h1, h2⟩ := (accepted_iff_loose text n hn a).1 h
  refine (accepted_iff_loose text' m hm _).2 ⟨hl.1 h1, ?_⟩
  rw [ht]
  exact ren_document a _ hr h2

/-- C151. If two texts have the same tokens but for the names, which in the second text are renamed so that different
texts of tokens stay different, then what comes of the second is what comes of the first, renamed: a tree with the names
renamed, or an error. -/
theorem wit_rename (r : List Byte → List Byte) (text text' : List Byte) (n m : Nat) (hn : text.length < n)
    (hm : text'.length < m) (hl : Lexes text ↔ Lexes text') (ht : tokens text' = (tokens text).map (renTok r))
    (hr : NamesOnly r (tokens text))
    (hi : ∀ s ∈ tokens text, ∀ t ∈ tokens text, r s.capture = r t.capture → s.capture = t.capture) :
    parseText m text' = renResult r (parseText n text) := by
  rcases (wit_parser_ends text n n hn hn).1 with ⟨a, e⟩ | e
  · rw [e]
    exact wit_rename_accepted r text text' n m hn hm hl ht hr a e
  · rw [e]
    rcases (wit_parser_ends text' m m hm hm).1 with ⟨b, e'⟩ | e'
    · exfalso
      classical
      let q : List Byte → List Byte := fun w =>
        if h : ∃ t ∈ tokens text, r t.capture = w then h.choose.capture else w
      have hq : ∀ t ∈ tokens text, q (r t.capture) = t.capture := fun t h => by
        have hx : ∃ s ∈ tokens text, r s.capture = r t.capture := ⟨t, h, rfl⟩
        show (if h : ∃ s ∈ tokens text, r s.capture = r t.capture then h.choose.capture else _) = _
        rw [dif_pos hx]
        exact hi _ hx.choose_spec.1 _ h hx.choose_spec.2
      have := wit_rename_accepted q text' text m n hm hn hl.symm (by
        rw [ht, List.map_map]
        refine (List.map_id _).symm.trans (List.map_congr_left fun t h => ?_)
        show t = Sig.mk t.type (q (r t.capture))
        rw [hq t h]) (by
        rw [ht]
        intro t h h1 h2
        obtain ⟨s, hs, rfl⟩ := List.mem_map.1 h
        show q (r s.capture) = r s.capture
        rw [hq s hs, hr s hs h1 h2]) b e'
      rw [e] at this
      cases this
    · exact e'

/-- C151, on texts written down: tokens with a space between them, and the same with the names renamed to other words. -/
theorem wit_rename_written (r : List Byte → List Byte) (us : List Sig) (n m : Nat) (hu : ∀ u ∈ us, Written u)
    (hw : ∀ u ∈ us, Written (renTok r u)) (hr : NamesOnly r us)
    (hi : ∀ s ∈ us, ∀ t ∈ us, r s.capture = r t.capture → s.capture = t.capture)
    (hn : (sep (us.map (·.capture))).length < n) (hm : (sep (us.map fun u => r u.capture)).length < m) :
    parseText m (sep (us.map fun u => r u.capture)) = renResult r (parseText n (sep (us.map (·.capture)))) := by
  obtain ⟨h1, h2⟩ := render_tokens us hu
  have e : (us.map (renTok r)).map (·.capture) = us.map fun u => r u.capture := by rw [List.map_map]; rfl
  obtain ⟨h3, h4⟩ := render_tokens (us.map (renTok r)) (fun u h => by
    obtain ⟨v, hv, rfl⟩ := List.mem_map.1 h
    exact hw v hv)
  rw [e] at h3 h4
  exact wit_rename r _ _ n m hn hm ⟨fun _ => h3, fun _ => h1⟩ (by rw [h4, h2]) (by rw [h2]; exact hr) (by rw [h2]; exact hi)

omit [Unicode] in
/-- **What is not a name is looked at.** If a keyword is written in place of a name, the text has another tree or is refused:
the hypothesis that types of tokens stay the same cannot be left out. -/
theorem keyword_is_no_name : letI := someTables
    (parseText 100 (txt "interface a { x: func(); }") matches .ok _) ∧
    (parseText 100 (txt "interface world { x: func(); }") matches .err) ∧
    (parseText 100 (txt "interface a { type x = y; }") matches .ok ⟨_, [⟨some ⟨_, [.typeDef (.type _ (.id _))]⟩, _, _⟩]⟩) ∧
    (parseText 100 (txt "interface a { type x = u32; }") matches .ok ⟨_, [⟨some ⟨_, [.typeDef (.type _ .u32)]⟩, _, _⟩]⟩) := by
  decide +kernel

omit [Unicode] in
/-- The hypotheses are met: a text with names used several times, comments and a version, and one with other names and no
comments. -/
example : letI := someTables
    let r : List Byte → List Byte := fun w => if w = txt "a" then txt "point" else if w = txt "n" then txt "a" else
      if w = txt "f" then txt "n" else w
    let text := txt "package n:p@1.2.3; interface a { /* c */ f: func(a: a) -> list<u8>; record n { f: a } }"
    let text' := txt "package a:p@1.2.3;  interface point { n: func(point: point) -> list<u8>; record a { n: point } }"
    (Lexes text ↔ Lexes text') ∧ tokens text' = (tokens text).map (renTok r) ∧
    (∀ t ∈ tokens text, t.type ≠ .id → t.type ≠ .explicitId → r t.capture = t.capture) ∧
    (∀ s ∈ tokens text, ∀ t ∈ tokens text, r s.capture = r t.capture → s.capture = t.capture) ∧
    (parseText 200 text matches .ok _) := by
  letI := someTables
  refine ⟨?_, by decide +kernel, by decide +kernel, by decide +kernel, by decide +kernel⟩
  unfold Lexes
  decide +kernel

end Verif.Wit
