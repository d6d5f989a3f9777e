import Verif.Wit.Print
import Verif.Wat.PrintRead

/-!
# Printed WIT documents are read back: C55
-/

namespace Verif.Wit

open Spec

variable [Unicode]

/-- Tokens in the language, each of which can be written down. -/
structure Prints (A : Lang) (ts : List Sig) : Prop where
  mem : A ts
  written : ∀ t ∈ ts, Written t

variable {A B : Lang} {a b : List Sig}

theorem Prints.cat (ha : Prints A a) (hb : Prints B b) : Prints (A ⬝ B) (a ++ b) :=
  ⟨⟨a, b, rfl, ha.mem, hb.mem⟩, fun t ht => (List.mem_append.1 ht).elim (ha.written t) (hb.written t)⟩

theorem Prints.inl (ha : Prints A a) : Prints (A ∣∣ B) a := ⟨.inl ha.mem, ha.written⟩

theorem Prints.inr (ha : Prints B a) : Prints (A ∣∣ B) a := ⟨.inr ha.mem, ha.written⟩

theorem Prints.eps : Prints eps [] := ⟨rfl, by simp⟩

theorem Prints.only {p : Prop} (h : p) : Prints (only p) [] := ⟨⟨h, rfl⟩, by simp⟩

theorem Prints.onlyCat {p : Prop} (h : p) (hb : Prints B b) : Prints (Spec.only p ⬝ B) b := (Prints.only h).cat hb

theorem tok_written (k : TokenType) (h : ((keyword k).or (operator k)).isSome) : Written (tok k) := by
  unfold tok
  cases hk : keyword k with
  | some w => exact .keyword k _ (by rw [hk]; rfl)
  | none =>
    cases ho : operator k with
    | some w => exact .operator k _ (by rw [ho]; rfl)
    | none => rw [hk, ho] at h; cases h

theorem Prints.tok (k : TokenType) (h : ((keyword k).or (operator k)).isSome) : Prints (T k) [tok k] :=
  ⟨⟨_, rfl⟩, by simpa using tok_written k h⟩

theorem Prints.cons {k : TokenType} (h : ((keyword k).or (operator k)).isSome) (hb : Prints B b) : Prints (T k ⬝ B) (Spec.tok k :: b) :=
  (Prints.tok k h).cat hb

/-- A token that words of a language do not begin with. -/
theorem word_not_percent (rs : List Nat) (h : Word rs) (rest : List Byte) : (utf8 rs ++ rest).head? ≠ some (ch '%') := by
  obtain ⟨r, tl, rfl, hs, hl, -, -⟩ := h
  intro he
  have hd := decode_encode r (hs r (by simp)) (utf8 tl ++ rest)
  rw [utf8_cons, List.append_assoc] at he
  cases hx : encode r ++ (utf8 tl ++ rest) with
  | nil => rw [hx] at he; simp at he
  | cons x v =>
    rw [hx, List.head?_cons, Option.some.injEq] at he
    rw [hx, he, decode_char '%' (by decide)] at hd
    have h1 : rn '%' = r := congrArg Prod.fst hd
    exact (letter_other r (letter_eq ▸ hl)).2.2.2 h1.symm

theorem name_token (w : List Byte) (h : Name w) : Written (nameTok w) ∧ ((nameTok w).type = .id ∨ (nameTok w).type = .explicitId) := by
  unfold nameTok
  rcases h with ⟨rs, h1, rfl, h2⟩ | ⟨rs, h1, rfl⟩
  · have := word_not_percent rs h1 []
    rw [List.append_nil] at this
    rw [if_neg this]
    exact ⟨.name rs h1 h2, .inl rfl⟩
  · rw [if_pos (show (txt "%" ++ utf8 rs).head? = some (ch '%') from rfl)]
    exact ⟨.explicit rs h1, .inr rfl⟩

theorem Prints.name {w : List Byte} (h : Name w) : Prints (ident w) [nameTok w] := by
  obtain ⟨h1, h2⟩ := name_token w h
  refine ⟨?_, by simpa using h1⟩
  unfold nameTok at h2 ⊢
  simp only at h2
  rcases h2 with h2 | h2
  · rw [h2]; exact .inl rfl
  · rw [h2]; exact .inr rfl

theorem Prints.consName {w : List Byte} (h : Name w) (hb : Prints B b) : Prints (ident w ⬝ B) (nameTok w :: b) := (Prints.name h).cat hb

theorem Prints.commas {α : Type} (item : α → Lang) (p : α → List Sig) (xs : List α) (h : ∀ x ∈ xs, Prints (item x) (p x)) :
    Prints (commas item xs) (commaSep (xs.map p)) := by
  induction xs with
  | nil => exact Prints.eps
  | cons x xs ih =>
    have h1 := h x (by simp)
    cases xs with
    | nil =>
      have := h1.cat (Prints.inr (A := T .comma ⬝ Spec.commas item []) (Prints.only (p := ([] : List α) = []) rfl))
      rw [List.append_nil] at this
      exact this
    | cons y ys =>
      exact h1.cat (Prints.inl (Prints.cons (k := .comma) rfl (ih (fun z hz => h z (by simp [hz])))))

theorem Prints.many {α : Type} (item : α → Lang) (p : α → List Sig) (xs : List α) (h : ∀ x ∈ xs, Prints (item x) (p x)) :
    Prints (many item xs) (xs.flatMap p) := by
  induction xs with
  | nil => exact Prints.eps
  | cons x xs ih =>
    rw [List.flatMap_cons]
    exact (h x (by simp)).cat (ih (fun z hz => h z (by simp [hz])))

/-! ## Types -/

theorem Prints.notBegin {k : TokenType} (h : Prints A a) (hk : ∀ t ∈ a.head?, t.type ≠ k) : Prints (A.notBegin k) a := ⟨⟨h.mem, hk⟩, h.written⟩

/-- The first token of a type. -/
theorem ty_head (t : Ty) (h : OkTy t) : ∀ x ∈ (printTy t).head?, x.type ≠ .underscore ∧ x.type ≠ .greater ∧ x.type ≠ .openParen := by
  have hn : ∀ w, Name w → ∀ x ∈ [nameTok w].head?, x.type ≠ .underscore ∧ x.type ≠ .greater ∧ x.type ≠ .openParen := by
    intro w hw x hx
    simp only [List.head?_cons, Option.mem_def, Option.some.injEq] at hx
    subst hx
    rcases (name_token w hw).2 with e | e <;> rw [e] <;> simp
  cases t with
  | id w =>
    rw [OkTy] at h
    rw [printTy]
    exact hn w h
  | list a b =>
    rcases a with _ | a <;> rcases b with _ | b <;> rw [printTy] <;> simp [tok]
  | option a b =>
    rcases a with _ | a <;> rcases b with _ | b <;> rw [printTy] <;> simp [tok]
  | result a b =>
    rcases a with _ | a <;> rcases b with _ | b <;> rw [printTy] <;> simp [tok]
  | stream a b =>
    rcases a with _ | a <;> rcases b with _ | b <;> rw [printTy] <;> simp [tok]
  | future a =>
    rcases a with _ | a <;> rw [printTy] <;> simp [tok]
  | _ => rw [printTy]; simp [tok]

mutual

theorem ty_prints : (t : Ty) → OkTy t → Prints (ty t) (printTy t)
  | .u32, _ => by rw [ty, printTy]; exact Prints.tok _ rfl
  | .string, _ => by rw [ty, printTy]; exact Prints.tok _ rfl
  | .float32, _ => by rw [ty, printTy]; exact Prints.tok _ rfl
  | .float64, _ => by rw [ty, printTy]; exact Prints.tok _ rfl
  | .tuple ts, h => by
    rw [OkTy] at h
    rw [ty, printTy]
    exact .cons rfl (.cons rfl ((tys_prints ts h).cat (.tok _ rfl)))
  | .list (some a) none, h => by
    rw [OkTy] at h
    rw [ty, printTy]
    exact .cons rfl (.cons rfl ((ty_prints a h).cat (.tok _ rfl)))
  | .option (some a) none, h => by
    rw [OkTy] at h
    rw [ty, printTy]
    exact .cons rfl (.cons rfl ((ty_prints a h).cat (.tok _ rfl)))
  | .result none none, _ => by rw [ty, printTy]; exact Prints.tok _ rfl
  | .result (some a) none, h => by
    rw [OkTy] at h
    rw [ty, printTy]
    exact .cons rfl (.cons rfl (((ty_prints a h).notBegin fun t ht => (ty_head a h t ht).1).cat (.tok _ rfl)))
  | .result none (some b), h => by
    rw [OkTy] at h
    rw [ty, printTy]
    exact .cons rfl (.cons rfl (.cons rfl (.cons rfl ((ty_prints b h).cat (.tok _ rfl)))))
  | .result (some a) (some b), h => by
    rw [OkTy] at h
    rw [ty, printTy]
    exact .cons rfl (.cons rfl (((ty_prints a h.1).notBegin fun t ht => (ty_head a h.1 t ht).1).cat (.cons rfl ((ty_prints b h.2).cat (.tok _ rfl)))))
  | .stream none none, _ => by rw [ty, printTy]; exact Prints.tok _ rfl
  | .stream (some a) none, h => by
    rw [OkTy] at h
    rw [ty, printTy]
    exact .cons rfl (.cons rfl (((ty_prints a h).notBegin fun t ht => (ty_head a h t ht).1).cat (.tok _ rfl)))
  | .stream none (some b), h => by
    rw [OkTy] at h
    rw [ty, printTy]
    exact .cons rfl (.cons rfl (.cons rfl (.cons rfl ((ty_prints b h).cat (.tok _ rfl)))))
  | .stream (some a) (some b), h => by
    rw [OkTy] at h
    rw [ty, printTy]
    exact .cons rfl (.cons rfl (((ty_prints a h.1).notBegin fun t ht => (ty_head a h.1 t ht).1).cat (.cons rfl ((ty_prints b h.2).cat (.tok _ rfl)))))
  | .future none, _ => by rw [ty, printTy]; exact Prints.tok _ rfl
  | .future (some a), h => by
    rw [OkTy] at h
    rw [ty, printTy]
    exact .cons rfl (.cons rfl ((ty_prints a h).cat (.tok _ rfl)))
  | .own w, h => by
    rw [OkTy] at h
    rw [ty, printTy]
    exact .cons rfl (.cons rfl (.consName h (.tok _ rfl)))
  | .borrow w, h => by
    rw [OkTy] at h
    rw [ty, printTy]
    exact .cons rfl (.cons rfl (.consName h (.tok _ rfl)))
  | .id w, h => by
    rw [OkTy] at h
    rw [ty, printTy]
    obtain ⟨h1, h2⟩ := name_token w h
    refine ⟨⟨(nameTok w).type, ?_, rfl⟩, by simpa using h1⟩
    rcases h2 with h2 | h2 <;> rw [h2] <;> decide
  | .list none none, h => by rw [OkTy] at h <;> first | exact h.elim | (intros; contradiction)
  | .list none (some _), h => by rw [OkTy] at h <;> first | exact h.elim | (intros; contradiction)
  | .list (some _) (some _), h => by rw [OkTy] at h <;> first | exact h.elim | (intros; contradiction)
  | .option none none, h => by rw [OkTy] at h <;> first | exact h.elim | (intros; contradiction)
  | .option none (some _), h => by rw [OkTy] at h <;> first | exact h.elim | (intros; contradiction)
  | .option (some _) (some _), h => by rw [OkTy] at h <;> first | exact h.elim | (intros; contradiction)
  | .u8, h | .u16, h | .u64, h | .s8, h | .s16, h | .s32, h | .s64, h | .char, h | .bool, h => by
    rw [OkTy] at h <;> first | exact h.elim | (intros; contradiction)

theorem tys_prints : (ts : List Ty) → OkTys ts → Prints (tys ts) (printTys ts)
  | [], _ => by rw [tys, printTys]; exact .eps
  | [t], h => by
    rw [OkTys] at h
    rw [tys, printTys]
    have := ((ty_prints t h.1).notBegin fun x hx => (ty_head t h.1 x hx).2.1).cat (Prints.inr (A := T .comma ⬝ tys []) (Prints.only (p := ([] : List Ty) = []) rfl))
    simpa using this
  | t :: u :: ts, h => by
    rw [OkTys] at h
    rw [tys, printTys]
    exact ((ty_prints t h.1).notBegin fun x hx => (ty_head t h.1 x hx).2.1).cat (.inl (.cons rfl (tys_prints (u :: ts) h.2)))

end

/-! ## Functions and type definitions -/

theorem parameter_prints (p : Parameter) (h : OkParameter p) : Prints (parameter p) (printParameter p) :=
  .consName h.1 (.cons rfl (ty_prints _ h.2))

theorem parameters_prints (ps : List Parameter) (h : ∀ p ∈ ps, OkParameter p) : Prints (parameters ps) (printParameters ps) :=
  .cons rfl ((Prints.commas _ _ ps fun p hp => parameter_prints p (h p hp)).cat (.tok _ rfl))

theorem results_prints (r : ResultList) (h : OkResults r) : Prints (results r) (printResults r) := by
  rcases r with ⟨named, _ | t⟩
  · simp only [OkResults, results, printResults] at h ⊢
    by_cases hn : named = []
    · subst hn
      exact .inl (.only rfl)
    · rw [if_neg hn]
      exact .inr (.cons rfl (parameters_prints named h))
  · simp only [OkResults, results, printResults] at h ⊢
    exact .onlyCat h.1 (.cons rfl ((ty_prints t h.2).notBegin fun x hx => (ty_head t h.2 x hx).2.2))

theorem func_prints (f : FuncType) (h : OkFunc f) : Prints (func f) (printFunc f) :=
  .cons rfl ((parameters_prints _ h.1).cat (results_prints _ h.2))

theorem funcItem_prints (f : FuncItem) (h : OkFuncItem f) : Prints (funcItem f) (printFuncItem f) :=
  .consName h.1 (.cons rfl ((func_prints _ h.2).cat (.tok _ rfl)))

theorem field_prints (f : Field) (h : Name f.name ∧ OkTy f.type) : Prints (field f) (printField f) :=
  .consName h.1 (.cons rfl (ty_prints _ h.2))

theorem case_prints (c : Case) (h : Name c.name ∧ ∀ t ∈ c.type, OkTy t) : Prints (case_ c) (printCase c) := by
  rcases c with ⟨w, _ | t⟩
  · exact .name h.1
  · exact .consName h.1 (.cons rfl ((ty_prints t (h.2 t rfl)).cat (.tok _ rfl)))

theorem method_prints (m : ResourceMethod) (h : OkMethod m) : Prints (method m) (printMethod m) := by
  cases m with
  | constructor ps => exact .cons rfl ((parameters_prints ps h).cat (.tok _ rfl))
  | static id f => exact .consName h.1 (.cons rfl (.cons rfl ((func_prints f h.2).cat (.tok _ rfl))))
  | method id f => exact .onlyCat h.1 (funcItem_prints f h.2)

theorem typeDef_prints (d : TypeDef) (h : OkTypeDef d) : Prints (typeDef d) (printTypeDef d) := by
  cases d with
  | type id t => exact .cons rfl (.consName h.1 (.cons rfl ((ty_prints t h.2).cat (.tok _ rfl))))
  | record id fs => exact .cons rfl (.consName h.1 (.cons rfl ((Prints.commas _ _ fs fun f hf => field_prints f (h.2 f hf)).cat (.tok _ rfl))))
  | flags id fs => exact .cons rfl (.consName h.1 (.cons rfl ((Prints.commas ident _ fs fun f hf => .name (h.2 f hf)).cat (.tok _ rfl))))
  | variant id cs => exact .cons rfl (.consName h.1 (.cons rfl ((Prints.commas _ _ cs fun c hc => case_prints c (h.2 c hc)).cat (.tok _ rfl))))
  | enum id cs => exact .cons rfl (.consName h.1 (.cons rfl ((Prints.commas ident _ cs fun c hc => .name (h.2 c hc)).cat (.tok _ rfl))))
  | resource id ms =>
    by_cases hm : ms = []
    · subst hm
      exact .cons rfl (.consName h.1 (.inr (.inl (.onlyCat rfl (.tok _ rfl)))))
    · rw [printTypeDef, if_neg hm]
      exact .cons rfl (.consName h.1 (.inl (.cons rfl ((Prints.many _ _ ms fun m hx => method_prints m (h.2 m hx)).cat (.tok _ rfl)))))

/-! ## Uses, interfaces and worlds -/

theorem path_prints (p : UsePath) (h : OkPath p) : Prints (path p) (printPath p) := by
  rcases p with ⟨id, package, pn⟩
  obtain ⟨rfl, rfl, h⟩ := h
  exact .onlyCat ⟨rfl, rfl⟩ (.name h)

theorem as_prints (w : Option (List Byte)) (h : OkAs w) : Prints (as_ w) (printAs w) := by
  rcases w with _ | w
  · exact .eps
  · exact .cons rfl (.name (h w rfl))

theorem use_prints (u : Use) (h : OkUse u) : Prints (use u) (printUse u) :=
  .cons rfl ((path_prints _ h.1).cat (.cons rfl (.cons rfl ((Prints.commas _ _ u.names fun n hn =>
    .consName (h.2 n hn).1 (as_prints _ (h.2 n hn).2)).cat (.cons rfl (.tok _ rfl))))))

theorem include_prints (i : Include) (h : OkInclude i) : Prints (include_ i) (printInclude i) := by
  refine .cons rfl ((path_prints _ h.1).cat ?_)
  rcases i with ⟨p, _ | ⟨n, _ | ⟨m, ns⟩⟩⟩
  · exact .inr (.onlyCat rfl (.tok _ rfl))
  · obtain ⟨h1, h2⟩ := h.2.2 n (by simp)
    exact .inl (.cons rfl (.cons rfl ((Prints.many includeName printIncludeName [n] (by
      simp only [List.mem_singleton, forall_eq]
      exact .consName h1 (.cons rfl (.name h2)))).cat (.tok _ rfl))))
  · have := h.2.1
    simp at this

theorem interfaceItem_prints (i : InterfaceItem) (h : OkInterfaceItem i) : Prints (interfaceItem i) (printInterfaceItem i) := by
  cases i with
  | use u => exact use_prints u h
  | typeDef t => exact typeDef_prints t h
  | func f => exact funcItem_prints f h

theorem interfaceItems_prints (is : List InterfaceItem) (h : ∀ i ∈ is, OkInterfaceItem i) : Prints (interfaceItems is) (printInterfaceItems is) :=
  .cons rfl ((Prints.many _ _ is fun i hi => interfaceItem_prints i (h i hi)).cat (.tok _ rfl))

theorem externType_prints (e : ExternType) (h : OkExternType e) : Prints (externType e) (printExternType e) := by
  cases e with
  | func id f => exact .consName h.1 (.cons rfl ((func_prints f h.2).cat (.tok _ rfl)))
  | interface id is => exact .consName h.1 (.cons rfl (.cons rfl (interfaceItems_prints is h.2)))
  | usePath p => exact (path_prints p h).cat (.tok _ rfl)

theorem worldItem_prints (i : WorldItem) (h : OkWorldItem i) : Prints (worldItem i) (printWorldItem i) := by
  cases i with
  | export_ e => exact .cons rfl (externType_prints e h)
  | import_ e => exact .cons rfl (externType_prints e h)
  | use u => exact use_prints u h
  | typeDef t => exact .onlyCat h.1 (typeDef_prints t h.2)
  | «include» i => exact include_prints i h

/-! ## Documents -/

omit [Unicode] in
/-- Version numbers are read as the number written, or refused. -/
theorem parseInt_decimal (n : Nat) : Strconv.parseInt (Wat.Spec.decimal n) 32 = if n < 2 ^ 31 then .ok (n : Int) else .err := by
  obtain ⟨h1, h2, h3⟩ := Wat.decimal_numeral n
  obtain ⟨b, r, e, hb⟩ := Wat.numeral_head _ _ h1
  have hs := Wat.digit_sign b hb
  have hm := Wat.parseUint_magnitude (Wat.Spec.decimal n) n (by have := Wat.Spec.Magnitude.decimal _ h1; rwa [h2] at this) (fun h0 => .inl (h3 h0)) 32
  rw [e] at hm ⊢
  unfold Strconv.parseInt
  simp only
  rw [if_neg (by simp [hs.1, hs.2]), hm]
  by_cases hn : n < 2 ^ 32
  · rw [if_pos hn, Res.bind_ok, if_neg hs.2]
    by_cases hn2 : n < 2 ^ 31
    · rw [if_pos hn2, if_neg (by omega)]
    · rw [if_neg hn2, if_pos (by omega)]
  · rw [if_neg hn, if_neg (by omega)]
    rfl

theorem number_prints (v : U64) (h : v.toNat < 2 ^ 31) : Prints (number v) [numberTok v] := by
  obtain ⟨h1, h2, h3⟩ := Wat.decimal_numeral v.toNat
  refine ⟨⟨_, (v.toNat : Int), by rw [parseInt_decimal, if_pos h], ?_, rfl⟩, ?_⟩
  · apply BitVec.eq_of_toNat_eq
    rw [BitVec.toNat_ofInt]
    omega
  · simp only [List.mem_singleton, forall_eq]
    refine .digits _ ?_ ?_
    · obtain ⟨b, r, e, -⟩ := Wat.numeral_head _ _ h1
      rw [e]; simp
    · generalize v.toNat = n
      induction n using Nat.strongRecOn with
      | ind n ih =>
        have key : ∀ d : Fin 10, ch '0' ≤ Wat.Spec.digitChar d ∧ Wat.Spec.digitChar d ≤ ch '9' := by decide
        by_cases hn : n < 10
        · rw [Wat.decimal_small n hn]
          simpa using key ⟨n, hn⟩
        · rw [Wat.decimal_big n hn]
          intro b hb
          rcases List.mem_append.1 hb with hb | hb
          · exact ih _ (by omega) b hb
          · rw [List.mem_singleton] at hb
            subst hb
            exact key ⟨n % 10, by omega⟩

theorem version_prints (v : Option Version) (h : OkVersion v) : Prints (version v) (printVersion v) := by
  rcases v with _ | ⟨a, b, c, p, q⟩
  · exact .eps
  · obtain ⟨h1, h2, h3, rfl, rfl⟩ := h _ rfl
    exact .onlyCat ⟨rfl, rfl⟩ (.cons rfl ((number_prints a h1).cat (.cons rfl ((number_prints b h2).cat (.cons rfl (number_prints c h3))))))

theorem package_prints (p : Option PackageDeclaration) (h : OkPackage p) : Prints (package p) (printPackage p) := by
  rcases p with _ | d
  · exact .eps
  · obtain ⟨h1, h2, h3⟩ := h d rfl
    refine .cons rfl (Prints.cat (a := [nameTok d.namespace_]) ⟨⟨_, rfl⟩, ?_⟩ (.cons rfl (.consName h2 ((version_prints _ h3).cat (.tok _ rfl)))))
    simpa using (name_token _ h1).1

theorem Prints.mono (h : Prints A a) (hb : A a → B a) : Prints B a := ⟨hb h.mem, h.written⟩

theorem items_print (is : List AstItem) (h : ∀ i ∈ is, OkItem i) : Prints (loose (seen is)) (is.flatMap printItem) := by
  induction is with
  | nil => exact .eps
  | cons i is ih =>
    have h1 := h i (by simp)
    have h2 := ih (fun j hj => h j (by simp [hj]))
    have other : ∀ {A : Lang} {a : List Sig}, ¬ OpenUse i → (A = itemOrToken i) → Prints A a → Prints (loose (i :: seen is)) (a ++ is.flatMap printItem) := by
      intro A a ho e ha
      subst e
      exact ha.cat (h2.mono fun k => ⟨k, fun hx => absurd hx ho⟩)
    rcases i with ⟨_ | i, _ | w, _ | u⟩
    · exact h1.elim
    · obtain ⟨k1, k2⟩ := h1
      rcases u with ⟨p, u⟩
      have hsemi : Prints (loose (⟨none, none, none⟩ :: seen is)) (tok .semicolon :: is.flatMap printItem) := by
        refine Prints.cat (a := [tok .semicolon]) ⟨⟨_, by decide, rfl⟩, ?_⟩ (h2.mono fun k => ⟨k, fun hx => ?_⟩)
        · simpa using tok_written .semicolon rfl
        · obtain ⟨p, hp⟩ := hx
          cases hp
      have huse : Prints (topLevelUse ⟨p, u⟩) (tok .use :: (printPath p ++ printAs u)) := .cons rfl ((path_prints _ k1).cat (as_prints _ k2))
      have hall : Prints (loose (⟨none, none, some ⟨p, u⟩⟩ :: ⟨none, none, none⟩ :: seen is))
          ((tok .use :: (printPath p ++ printAs u)) ++ tok .semicolon :: is.flatMap printItem) := by
        refine Prints.cat huse (hsemi.mono fun k => ⟨k, fun _ t ht => ?_⟩)
        simp only [List.head?_cons, Option.mem_def, Option.some.injEq] at ht
        subst ht
        exact ⟨by simp [tok], by simp [tok]⟩
      have e : seen (⟨none, none, some ⟨p, u⟩⟩ :: is) = ⟨none, none, some ⟨p, u⟩⟩ :: ⟨none, none, none⟩ :: seen is := rfl
      have e2 : (⟨none, none, some ⟨p, u⟩⟩ :: is : List AstItem).flatMap printItem =
          (tok .use :: (printPath p ++ printAs u)) ++ tok .semicolon :: is.flatMap printItem := by
        simp [printItem, printTopLevelUse]
      rw [e, e2]
      exact hall
    · refine other (by rintro ⟨p, hp⟩; cases hp) rfl (A := world w) ?_
      exact .cons rfl (.consName h1.1 (.cons rfl ((Prints.many _ _ w.items fun x hx => worldItem_prints x (h1.2 x hx)).cat (.tok _ rfl))))
    · exact h1.elim
    · refine other (by rintro ⟨p, hp⟩; cases hp) rfl (A := interface i) ?_
      exact .cons rfl (.consName h1.1 (interfaceItems_prints _ h1.2))
    · exact h1.elim
    · exact h1.elim
    · exact h1.elim

theorem print_loose (a : Ast) (h : OkAst a) : Prints (looseDocument ⟨a.package, seen a.items⟩) (printTokens a) := by
  rcases a with ⟨_ | p, is⟩
  · obtain ⟨-, h⟩ := h
    refine (items_print is h).notBegin ?_
    cases is with
    | nil => simp
    | cons i is =>
      have h1 := h i (by simp)
      rcases i with ⟨_ | i, _ | w, _ | u⟩ <;> first | exact h1.elim | simp [printItem, printInterface, printWorld, printTopLevelUse, tok]
  · exact (package_prints (some p) h.1).cat (items_print is h.2)

theorem print_tokens (a : Ast) (h : OkAst a) : Lexes (print a) ∧ tokens (print a) = printTokens a :=
  render_tokens (printTokens a) (print_loose a h).written

/-- What is printed of such a tree is read back as the tree, but that after a top level use there is an item without
content, for the semicolon. -/
theorem print_read (a : Ast) (h : OkAst a) (n : Nat) (hn : (print a).length < n) : parseText n (print a) = Res.ok (Ast.mk a.package (seen a.items)) := by
  have k := print_tokens a h
  refine (accepted_iff_loose (print a) n hn _).2 (And.intro k.1 ?_)
  rw [k.2]
  exact (print_loose a h).mem

omit [Unicode] in
theorem seen_none (is : List AstItem) (h : ∀ i ∈ is, i.use = none) : seen is = is := by
  induction is with
  | nil => rfl
  | cons i is ih =>
    have e : seen (i :: is) = (if i.use.isSome then [i, ⟨none, none, none⟩] else [i]) ++ seen is := rfl
    rw [e, h i (by simp), ih (fun j hj => h j (by simp [hj]))]
    rfl

/-- C55, for the trees `OkAst` describes that have no use at top level: such a tree, printed, is read back as it was.
What is missing are the trees the parser has no place for, see `OkAst`, and those with a use at top level, see
`top_level_use_changed` and `not_read_back`. -/
theorem print_parse_partial (a : Ast) (h : OkAst a) (hu : ∀ i ∈ a.items, i.use = none) (n : Nat) (hn : (print a).length < n) :
    parseText n (print a) = Res.ok a := by
  rw [print_read a h n hn, seen_none a.items hu]

omit [Unicode] in
theorem seen_length (is : List AstItem) : is.length ≤ (seen is).length ∧ ((∃ i ∈ is, i.use ≠ none) → is.length < (seen is).length) := by
  induction is with
  | nil => exact ⟨Nat.le_refl _, by simp⟩
  | cons i is ih =>
    have e : seen (i :: is) = (if i.use.isSome then [i, ⟨none, none, none⟩] else [i]) ++ seen is := rfl
    rw [e, List.length_append, List.length_cons]
    cases hi : i.use with
    | some u => exact ⟨by simp; omega, fun _ => by simp; omega⟩
    | none =>
      refine ⟨by simp; omega, ?_⟩
      rintro ⟨j, hj, hu⟩
      rcases List.mem_cons.1 hj with rfl | hj
      · exact absurd hi hu
      · have := ih.2 ⟨j, hj, hu⟩
        simp; omega

/-- C55 does not hold for trees with a use at top level: the parser does not take the semicolon after it, and what is read
back has one item more for every use. -/
theorem top_level_use_changed (a : Ast) (h : OkAst a) (hu : ∃ i ∈ a.items, i.use ≠ none) (n : Nat) (hn : (print a).length < n) :
    ∃ b, parseText n (print a) = Res.ok b ∧ a.items.length < b.items.length :=
  ⟨_, print_read a h n hn, (seen_length a.items).2 hu⟩

/-! ## Trees that are not read back -/

/-- A check that a token can be written down, for ASCII. -/
def writtenAscii (s : Sig) : Bool :=
  keyword s.type == some s.capture || operator s.type == some s.capture ||
  (s.type == .id && asciiWord s.capture && keywordMap.all fun k => k.1 != s.capture) ||
  (s.type == .integer && !s.capture.isEmpty && s.capture.all fun b => ch '0' ≤ b && b ≤ ch '9')

theorem writtenAscii_spec (s : Sig) (h : writtenAscii s = true) : Written s := by
  rcases s with ⟨ty, w⟩
  simp only [writtenAscii, Bool.or_eq_true, Bool.and_eq_true, beq_iff_eq, List.all_eq_true, bne_iff_ne, Bool.not_eq_true',
    List.isEmpty_eq_false_iff, decide_eq_true_eq] at h
  rcases h with ((h | h) | ⟨⟨rfl, h1⟩, h2⟩) | ⟨⟨rfl, h1⟩, h2⟩
  · exact .keyword ty w h
  · exact .operator ty w h
  · obtain ⟨k1, k2⟩ := ascii_word w h1
    have := Written.name _ k1 (by
      intro ty hk
      rw [k2] at hk
      exact h2 _ ((keyword_table ty w).1 hk) rfl)
    rwa [k2] at this
  · exact .digits w h1 h2

/-- What is printed is read from its tokens. -/
theorem print_run (a : Ast) (h : (printTokens a).all writtenAscii = true) (n : Nat) (hn : (print a).length < n) :
    parseText n (print a) = (parseAst streamOps ((printTokens a).length + 1) ⟨printTokens a, true⟩).1 := by
  have k : Lexes (print a) ∧ tokens (print a) = printTokens a :=
    render_tokens (printTokens a) fun t ht => writtenAscii_spec t (List.all_eq_true.1 h t ht)
  have hs := significant_tokens (print a)
  have e : (lexed (print a)).2 = true := k.1
  rw [k.2, e] at hs
  have := (parseText_tokens (print a) n ((printTokens a).length + 1) hn (by rw [hs]; simp)).1
  rw [this, hs]

/-- Whether a result is an error. -/
def isError : Res Ast → Bool
  | .err => true
  | _ => false

omit [Unicode] in
theorem isError_eq (r : Res Ast) (h : isError r = true) : r = Res.err := by
  cases r <;> first | rfl | cases h

/-- The document `world w { … }`. -/
def worldOf (i : WorldItem) : Ast := ⟨none, [⟨none, some ⟨txt "w", [i]⟩, none⟩]⟩

/-- C55 does not hold for these trees either: a built-in type becomes a name, an item type changes its place, the name of
a method is dropped; flags in a world, an include with two names, a path with a package and a large version are refused. -/
theorem not_read_back :
    (∀ n, (print (aliasDocument (txt "i") (txt "t") .u8)).length < n →
      parseText n (print (aliasDocument (txt "i") (txt "t") .u8)) = Res.ok (aliasDocument (txt "i") (txt "t") (.id (txt "u8")))) ∧
    (∀ n, (print (aliasDocument (txt "i") (txt "t") (.list none (some .u32)))).length < n →
      parseText n (print (aliasDocument (txt "i") (txt "t") (.list none (some .u32)))) = Res.ok (aliasDocument (txt "i") (txt "t") (.list (some .u32) none))) ∧
    (∀ n, (print (worldOf (.typeDef (.resource (txt "r") [.method (txt "m") ⟨txt "m", ⟨[], ⟨[], none⟩⟩⟩])))).length < n →
      parseText n (print (worldOf (.typeDef (.resource (txt "r") [.method (txt "m") ⟨txt "m", ⟨[], ⟨[], none⟩⟩⟩])))) =
        Res.ok (worldOf (.typeDef (.resource (txt "r") [.method [] ⟨txt "m", ⟨[], ⟨[], none⟩⟩⟩])))) ∧
    (∀ n, (print (worldOf (.typeDef (.flags (txt "f") [txt "a"])))).length < n →
      parseText n (print (worldOf (.typeDef (.flags (txt "f") [txt "a"])))) = Res.err) ∧
    (∀ n, (print (worldOf (.include ⟨⟨txt "x", none, []⟩, [⟨txt "a", txt "b"⟩, ⟨txt "c", txt "d"⟩]⟩))).length < n →
      parseText n (print (worldOf (.include ⟨⟨txt "x", none, []⟩, [⟨txt "a", txt "b"⟩, ⟨txt "c", txt "d"⟩]⟩))) = Res.err) ∧
    (∀ n, (print (worldOf (.import_ (.usePath ⟨[], some ⟨txt "a", txt "b", none⟩, txt "c"⟩)))).length < n →
      parseText n (print (worldOf (.import_ (.usePath ⟨[], some ⟨txt "a", txt "b", none⟩, txt "c"⟩)))) = Res.err) ∧
    (∀ n, (print ⟨some ⟨txt "a", txt "b", some ⟨2147483648, 0, 0, [], []⟩⟩, []⟩).length < n →
      parseText n (print ⟨some ⟨txt "a", txt "b", some ⟨2147483648, 0, 0, [], []⟩⟩, []⟩) = Res.err) := by
  refine ⟨?_, ?_, ?_, ?_, ?_, ?_, ?_⟩ <;> (intro n hn; rw [print_run _ (by decide +kernel) n hn])
  · rfl
  · rfl
  · rfl
  · rfl
  · rfl
  · rfl
  · exact isError_eq _ (by decide +kernel)

/-! ## Examples -/

theorem ascii_name (w : List Byte) (h : writtenAscii ⟨.id, w⟩ = true) : Name w := by
  simp only [writtenAscii, Bool.or_eq_true, Bool.and_eq_true, beq_iff_eq, List.all_eq_true, bne_iff_ne] at h
  rcases h with ((h | h) | ⟨⟨-, h1⟩, h2⟩) | ⟨⟨h, -⟩, -⟩
  · cases h
  · cases h
  · obtain ⟨k1, k2⟩ := ascii_word w h1
    exact .inl ⟨_, k1, k2.symm, fun ty hk => h2 _ ((keyword_table ty w).1 hk) rfl⟩
  · cases h

/-- `package a:b@1.2.0; interface i { resource r { constructor(x: t); } f: func(a: list<own<r>>) -> result<_, string>; } world w { import i; }` -/
def sampleTree : Ast :=
  ⟨some ⟨txt "a", txt "b", some ⟨1, 2, 0, [], []⟩⟩,
   [⟨some ⟨txt "i", [.typeDef (.resource (txt "r") [.constructor [⟨txt "x", .id (txt "t")⟩]]),
      .func ⟨txt "f", ⟨[⟨txt "a", .list (some (.own (txt "r"))) none⟩], ⟨[], some (.result none (some .string))⟩⟩⟩]⟩, none, none⟩,
    ⟨none, some ⟨txt "w", [.import_ (.usePath ⟨txt "i", none, []⟩)]⟩, none⟩]⟩

example : OkAst sampleTree ∧ ∀ i ∈ sampleTree.items, i.use = none := by
  have ha := ascii_name (txt "a") (by decide)
  have hb := ascii_name (txt "b") (by decide)
  have hi := ascii_name (txt "i") (by decide)
  have hr := ascii_name (txt "r") (by decide)
  have hx := ascii_name (txt "x") (by decide)
  have ht := ascii_name (txt "t") (by decide)
  have hf := ascii_name (txt "f") (by decide)
  have hw := ascii_name (txt "w") (by decide)
  simp [OkAst, sampleTree, OkPackage, OkVersion, OkItem, OkInterfaceItem, OkTypeDef, OkMethod, OkParameter, OkFuncItem, OkFunc, OkResults, OkTy,
    OkWorldItem, OkExternType, OkPath, ha, hb, hi, hr, hx, ht, hf, hw]

example : OkAst ⟨none, [⟨none, none, some ⟨⟨txt "a", none, []⟩, none⟩⟩]⟩ := by
  simp [OkAst, OkPackage, OkItem, OkPath, OkAs, ascii_name (txt "a") (by decide)]

end Verif.Wit
