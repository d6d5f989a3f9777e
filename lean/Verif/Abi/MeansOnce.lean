import Verif.Abi.FlatMeansSpec
import Verif.Abi.StringReadLemmas
import Verif.Abi.CaseLemmas

/-!
# Bytes and core values stand for one value only
-/

namespace Verif.Abi
open Spec

/-- Bytes write one string only. -/
theorem writes_once {k : Script} {s t : String} {bs : List Byte} (hs : Writes k s.toList bs) (ht : Writes k t.toList bs) :
    s = t := by
  have h := hs.decode
  rw [ht.decode] at h
  injection h with h
  exact h.symm

/-- The reading takes bytes for one string at most. -/
def Once (R : Reading) : Prop := ∀ k bs s t, R.text k bs s → R.text k bs t → s = t

theorem neatly_once : Once Neatly := fun _ _ _ _ hs ht => writes_once hs ht

variable {R : Reading} {enc : String} {m : Mem}

/-- Lists of the same length that agree place by place. -/
theorem list_once (P : Nat → Val → Prop) (vs ws : List Val) (hl : vs.length = ws.length)
    (hv : ∀ (i : Nat) x, vs[i]? = some x → P i x) (hw : ∀ (i : Nat) x, ws[i]? = some x → P i x)
    (hP : ∀ i x y, P i x → P i y → x = y) : vs = ws := by
  apply List.ext_getElem hl
  intro i h1 h2
  exact hP i _ _ (hv i _ (List.getElem?_eq_getElem h1)) (hw i _ (List.getElem?_eq_getElem h2))

mutual
theorem means_once (hR : Once R) : (t : Ty) → (p : Nat) → (v w : Val) → Means R enc m t p v → Means R enc m t p w → v = w
  | .bool, _, _, _, hv, hw | .f32, _, _, _, hv, hw | .f64, _, _, _, hv, hw | .flags _, _, _, _, hv, hw => by
    rw [Means] at hv hw
    rw [hv.1, hw.1]
  | .u8, _, _, _, hv, hw | .u16, _, _, _, hv, hw | .u32, _, _, _, hv, hw | .u64, _, _, _, hv, hw
  | .s8, _, _, _, hv, hw | .s16, _, _, _, hv, hw | .s32, _, _, _, hv, hw | .s64, _, _, _, hv, hw => by
    rw [Means] at hv hw
    rw [hv, hw]
  | .char, _, _, _, hv, hw => by
    rw [Means] at hv hw
    obtain ⟨c, h1, rfl⟩ := hv
    obtain ⟨d, h2, rfl⟩ := hw
    rw [h1, h2]
  | .string, _, _, _, hv, hw => by
    rw [Means] at hv hw
    obtain ⟨s, rfl, h1⟩ := hv
    obtain ⟨t, rfl, h2⟩ := hw
    rw [hR _ _ s t h1.2.2 h2.2.2]
  | .list t, _, _, _, hv, hw => by
    rw [Means] at hv hw
    obtain ⟨vs, rfl, l1, -, -, h1⟩ := hv
    obtain ⟨ws, rfl, l2, -, -, h2⟩ := hw
    rw [list_once _ vs ws (l1.trans l2.symm) h1 h2 fun i x y => means_once hR t _ x y]
  | .record fs, _, _, _, hv, hw => by
    rw [Means] at hv hw
    obtain ⟨es, rfl, h1⟩ := hv
    obtain ⟨es', rfl, h2⟩ := hw
    rw [meansFields_once hR fs _ es es' h1 h2]
  | .variant cs, _, _, _, hv, hw => by
    rw [Means] at hv hw
    obtain ⟨l, t, r, ls, w, g1, c1, rfl, h1⟩ := hv
    obtain ⟨l', t', r', ls', w', g2, c2, rfl, h2⟩ := hw
    rw [g1] at g2
    simp only [Option.some.injEq, Prod.mk.injEq] at g2
    obtain ⟨rfl, -, rfl⟩ := g2
    rw [c1.unique c2, meansCase_once hR cs _ _ w w' h1 h2]
  | .own _, _, _, _, hv, _ | .borrow _, _, _, _, hv, _ | .nil, _, _, _, hv, _ | .other, _, _, _, hv, _ => by
    rw [Means] at hv
    exact hv.elim
theorem meansFields_once (hR : Once R) : (fs : Fields) → (p : Nat) → (es es' : List (String × Val)) →
    MeansFields R enc m fs p es → MeansFields R enc m fs p es' → es = es'
  | .nil, _, _, _, hv, hw => by
    rw [MeansFields] at hv hw
    rw [hv, hw]
  | .cons l t fs, _, _, _, hv, hw => by
    rw [MeansFields] at hv hw
    obtain ⟨x, a, rfl, h1, h2⟩ := hv
    obtain ⟨y, b, rfl, h3, h4⟩ := hw
    rw [means_once hR t _ x y h1 h3, meansFields_once hR fs _ a b h2 h4]
theorem meansCase_once (hR : Once R) : (cs : Cases) → (i p : Nat) → (v w : Val) →
    MeansCase R enc m cs i p v → MeansCase R enc m cs i p w → v = w
  | .nil, _, _, _, _, hv, _ => by rw [MeansCase] at hv; exact hv.elim
  | .cons l t r cs, 0, p, v, w, hv, hw => by
    rw [MeansCase] at hv hw
    rcases hv with ⟨h, rfl⟩ | ⟨h, hv⟩
    · rcases hw with ⟨-, rfl⟩ | ⟨h', -⟩
      · rfl
      · exact absurd h h'
    · rcases hw with ⟨h', -⟩ | ⟨-, hw⟩
      · exact absurd h' h
      · exact means_once hR t p v w hv hw
  | .cons l t r cs, i + 1, p, v, w, hv, hw => by
    rw [MeansCase] at hv hw
    exact meansCase_once hR cs i p v w hv hw
end

mutual
theorem flatMeans_once (hR : Once R) : (t : Ty) → (bs : List Nat) → (v w : Val) → FlatMeans R enc m t bs v →
    FlatMeans R enc m t bs w → v = w
  | .bool, _, _, _, hv, hw | .f32, _, _, _, hv, hw | .f64, _, _, _, hv, hw | .u8, _, _, _, hv, hw
  | .u16, _, _, _, hv, hw | .u32, _, _, _, hv, hw | .u64, _, _, _, hv, hw | .s8, _, _, _, hv, hw
  | .s16, _, _, _, hv, hw | .s32, _, _, _, hv, hw | .s64, _, _, _, hv, hw => by
    rw [FlatMeans] at hv hw
    obtain ⟨b, rfl, rfl, -⟩ := hv
    obtain ⟨b', e, rfl, -⟩ := hw
    injection e with e _
    rw [e]
  | .flags _, _, _, _, hv, hw => by
    rw [FlatMeans] at hv hw
    rw [hv.1, hw.1]
  | .char, _, _, _, hv, hw => by
    rw [FlatMeans] at hv hw
    obtain ⟨b, rfl, ⟨c, h1, rfl⟩, -⟩ := hv
    obtain ⟨b', e, ⟨d, h2, rfl⟩, -⟩ := hw
    injection e with e _
    rw [h1, h2, e]
  | .string, _, _, _, hv, hw => by
    rw [FlatMeans] at hv hw
    obtain ⟨p, n, rfl, ⟨s, rfl, h1⟩, -⟩ := hv
    obtain ⟨p', n', e, ⟨t, rfl, h2⟩, -⟩ := hw
    injection e with e1 e
    injection e with e2 _
    subst e1 e2
    rw [hR _ _ s t h1.2.2 h2.2.2]
  | .list t, _, _, _, hv, hw => by
    rw [FlatMeans] at hv hw
    obtain ⟨p, n, rfl, ⟨vs, rfl, l1, -, -, h1⟩, -⟩ := hv
    obtain ⟨p', n', e, ⟨ws, rfl, l2, -, -, h2⟩, -⟩ := hw
    injection e with e1 e
    injection e with e2 _
    subst e1 e2
    rw [list_once _ vs ws (l1.trans l2.symm) h1 h2 fun i x y => means_once hR t _ x y]
  | .record fs, _, _, _, hv, hw => by
    rw [FlatMeans] at hv hw
    obtain ⟨es, rfl, h1⟩ := hv
    obtain ⟨es', rfl, h2⟩ := hw
    rw [flatMeansFields_once hR fs _ es es' h1 h2]
  | .variant cs, _, _, _, hv, hw => by
    rw [FlatMeans] at hv hw
    obtain ⟨d, rest, rfl, ⟨l, t, r, ls, w, g1, c1, rfl, h1⟩, -⟩ := hv
    obtain ⟨d', rest', e, ⟨l', t', r', ls', w', g2, c2, rfl, h2⟩, -⟩ := hw
    injection e with e1 e2
    subst e1 e2
    rw [g1] at g2
    simp only [Option.some.injEq, Prod.mk.injEq] at g2
    obtain ⟨rfl, -, rfl⟩ := g2
    rw [c1.unique c2, flatMeansCase_once hR cs _ _ w w' h1 h2]
  | .own _, _, _, _, hv, _ | .borrow _, _, _, _, hv, _ | .nil, _, _, _, hv, _ | .other, _, _, _, hv, _ => by
    rw [FlatMeans] at hv
    exact hv.elim
theorem flatMeansFields_once (hR : Once R) : (fs : Fields) → (bs : List Nat) → (es es' : List (String × Val)) →
    FlatMeansFields R enc m fs bs es → FlatMeansFields R enc m fs bs es' → es = es'
  | .nil, _, _, _, hv, hw => by
    rw [FlatMeansFields] at hv hw
    rw [hv, hw]
  | .cons l t fs, _, _, _, hv, hw => by
    rw [FlatMeansFields] at hv hw
    obtain ⟨x, a, rfl, h1, h2⟩ := hv
    obtain ⟨y, b, rfl, h3, h4⟩ := hw
    rw [flatMeans_once hR t _ x y h1 h3, flatMeansFields_once hR fs _ a b h2 h4]
theorem flatMeansCase_once (hR : Once R) : (cs : Cases) → (i : Nat) → (bs : List Nat) → (v w : Val) →
    FlatMeansCase R enc m cs i bs v → FlatMeansCase R enc m cs i bs w → v = w
  | .nil, _, _, _, _, hv, _ => by rw [FlatMeansCase] at hv; exact hv.elim
  | .cons l t r cs, 0, bs, v, w, hv, hw => by
    rw [FlatMeansCase] at hv hw
    rcases hv.1 with ⟨h, rfl⟩ | ⟨h, hv⟩
    · rcases hw.1 with ⟨-, rfl⟩ | ⟨h', -⟩
      · rfl
      · exact absurd h h'
    · rcases hw.1 with ⟨h', -⟩ | ⟨-, hw⟩
      · exact absurd h' h
      · exact flatMeans_once hR t _ v w hv hw
  | .cons l t r cs, i + 1, bs, v, w, hv, hw => by
    rw [FlatMeansCase] at hv hw
    exact flatMeansCase_once hR cs i bs v w hv hw
end

end Verif.Abi
