import Verif.Encoding.Lemmas

/-!
# C61: the codec factory
-/

namespace Verif.Encoding

/-- The supported encodings: name, what it writes, alignment and bytes of a code unit. `latin1+utf16` is the narrow
half of that encoding; the wide half is `utf-16-le`. -/
def supported : List (String × TextEnc × Nat × Nat) :=
  [("utf-8", .utf8, 1, 1), ("utf-16", .utf16 false, 2, 2), ("utf-16-be", .utf16 true, 2, 2),
    ("utf-16-le", .utf16 false, 2, 2), ("latin1", .latin1, 2, 1), ("latin1+utf16", .latin1, 2, 1)]

/-- C61. -/
theorem default_factory_exact (n : String) :
    (∀ e a u, (n, e, a, u) ∈ supported → defaultFactory.get n = .ok ⟨n, e, a, u⟩) ∧
    ((∀ e a u, (n, e, a, u) ∉ supported) → defaultFactory.get n = .err) := by
  constructor
  · intro e a u h
    simp only [supported, List.mem_cons, Prod.mk.injEq, List.not_mem_nil, or_false] at h
    rcases h with ⟨rfl, rfl, rfl, rfl⟩ | ⟨rfl, rfl, rfl, rfl⟩ | ⟨rfl, rfl, rfl, rfl⟩ | ⟨rfl, rfl, rfl, rfl⟩ |
      ⟨rfl, rfl, rfl, rfl⟩ | ⟨rfl, rfl, rfl, rfl⟩ <;> rfl
  · intro h
    have e : ∀ m e a u, (m, e, a, u) ∈ supported → n ≠ m := fun m e a u hm c => h e a u (c ▸ hm)
    have h1 := e "utf-8" .utf8 1 1 (by decide)
    have h2 := e "utf-16" (.utf16 false) 2 2 (by decide)
    have h3 := e "utf-16-be" (.utf16 true) 2 2 (by decide)
    have h4 := e "utf-16-le" (.utf16 false) 2 2 (by decide)
    have h5 := e "latin1" .latin1 2 1 (by decide)
    have h6 := e "latin1+utf16" .latin1 2 1 (by decide)
    simp [Factory.get, defaultFactory, newFactory, newUTF8, newUTF16, newUTF16WithEndianess, newLatin1,
      newLatin1Utf16, UTF8, UTF16, UTF16BE, UTF16LE, Latin1, Latin1Utf16, h1, h2, h3, h4, h5, h6]

/-- Both cases happen. -/
example : ("latin1", TextEnc.latin1, 2, 1) ∈ supported ∧ ∀ e a u, ("UTF-8", e, a, u) ∉ supported :=
  ⟨by decide, by simp [supported]⟩

/-- For any factory, not only the default one: a name is answered with the last codec of that name, and with an error
if there is none. -/
theorem factory_last (cs : List Codec) (n : String) :
    (∀ c before after, cs = before ++ c :: after → c.name = n → (∀ d ∈ after, d.name ≠ n) →
      (newFactory cs).get n = .ok c) ∧
    ((∀ c ∈ cs, c.name ≠ n) → (newFactory cs).get n = .err) := by
  have none_of : ∀ (ds : List Codec) (m : Factory), (∀ d ∈ ds, d.name ≠ n) →
      ds.foldl (fun (m : Factory) (c : Codec) => fun n => if n = c.name then some c else m n) m n = m n := by
    intro ds
    induction ds with
    | nil => intros; rfl
    | cons d ds ih =>
      intro m h
      rw [List.foldl_cons, ih _ (fun x hx => h x (List.mem_cons_of_mem _ hx)),
        if_neg (fun e => h d List.mem_cons_self e.symm)]
  constructor
  · rintro c before after rfl rfl h
    unfold Factory.get newFactory
    rw [List.foldl_append, List.foldl_cons, none_of _ _ h, if_pos rfl]
  · intro h
    unfold Factory.get newFactory
    rw [none_of _ _ h]

example : (newFactory [newUTF8, newLatin1]).get "latin1" = .ok newLatin1 ∧
    (newFactory [newUTF8, newLatin1]).get "utf-16" = .err := ⟨rfl, rfl⟩

end Verif.Encoding
