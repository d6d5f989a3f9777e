import Verif.Abi.LayoutLemmas

/-!
# Specialised types

The functions of the model work on fully expanded types. Here: the same functions on the types a user builds,
and the proof that they satisfy the equations the Go code is written with, namely expand the outermost level
(`Despecialize`), switch on the result, and recurse into components that are not yet expanded.
-/

namespace Verif.Abi

theorem tupleFields_core : (ts : VTys) → (i : Nat) → (tupleFields i ts).core = VTys.fields i ts
  | .nil, i => by simp [tupleFields, VFields.core, VTys.fields]
  | .cons t ts, i => by simp [tupleFields, VFields.core, VTys.fields, tupleFields_core ts]

theorem unionCases_core : (ts : VTys) → (i : Nat) → (unionCases i ts).core = VTys.cases i ts
  | .nil, i => by simp [unionCases, VCases.core, VTys.cases]
  | .cons t ts, i => by simp [unionCases, VCases.core, VTys.cases, unionCases_core ts]

theorem enumCases_core : (ls : List String) → (enumCases ls).core = coreEnum ls
  | [] => by simp [enumCases, VCases.core, coreEnum]
  | l :: ls => by simp [enumCases, VCases.core, coreEnum, enumCases_core ls, VT.core]

/-- Expanding the outermost level first does not change the full expansion. -/
theorem core_despecialize (t : VT) : (despecialize t).core = t.core := by
  cases t <;> simp [despecialize, VT.core, VCases.core, tupleFields_core, unionCases_core, enumCases_core]

theorem despecialize_idem (t : VT) : despecialize (despecialize t) = despecialize t := by
  cases t <;> rfl

theorem core_nil_iff (t : VT) : t.core = .nil ↔ t = .nil := by
  cases t <;> simp [VT.core]

/-- `len(v.Cases())` before expansion. -/
def VCases.length : VCases → Nat
  | .nil => 0
  | .cons _ _ _ cs => cs.length + 1

theorem VCases.core_length : (cs : VCases) → cs.core.length = cs.length
  | .nil => rfl
  | .cons _ _ _ cs => by simp [VCases.core, Cases.length, VCases.length, core_length cs]

/-- `io.Alignment` on user types. -/
def VT.alignment (t : VT) : Res U32 := Abi.alignment t.core
/-- `io.Size` on user types. -/
def VT.size (t : VT) : Res U32 := Abi.size t.core
/-- `io.FlattenType` on user types. -/
def VT.flatten (t : VT) : Res (List Kind) := Abi.flatten t.core

/-! The code's equations, one level at a time; `f` stands for the recursive call. -/

/-- `AlignmentRecord` with `f` for `Alignment`.
-- models abi/io/alignment.go:59-69 -/
def alignFieldsBody (f : VT → Res U32) : VFields → U32 → Res U32
  | .nil, a => .ok a
  | .cons _ t fs, a => do
    let al ← f t
    alignFieldsBody f fs (umax a al)

/-- `MaxCaseAlignment` with `f` for `Alignment`.
-- models abi/io/alignment.go:98-111 -/
def alignCasesBody (f : VT → Res U32) : VCases → U32 → Res U32
  | .nil, a => .ok a
  | .cons _ .nil _ cs, a => alignCasesBody f cs a
  | .cons _ t _ cs, a => do
    let al ← f t
    alignCasesBody f cs (umax a al)

/-- The type switch of `Alignment` with `f` for the recursive call.
-- models abi/io/alignment.go:16-56 and 71-85 -/
def alignBody (f : VT → Res U32) : VT → Res U32
  | .bool | .u8 | .s8 => .ok 1
  | .u16 | .s16 => .ok 2
  | .u32 | .s32 | .f32 | .char | .string | .list _ | .own _ | .borrow _ => .ok 4
  | .u64 | .s64 | .f64 => .ok 8
  | .record fs => alignFieldsBody f fs 1
  | .variant cs => do
    let dt ← discriminantType cs.length
    match alignCasesBody f cs 1 with
    | .ok m => .ok (umax dt.bytes m)
    | .err => .ok 0
    | .panic => .panic
    | .diverge => .diverge
  | .flags ls => .ok (alignmentFlags ls.length)
  | _ => .err

theorem alignFieldsBody_eq : (fs : VFields) → (a : U32) →
    alignFieldsBody VT.alignment fs a = alignmentRecord fs.core a
  | .nil, a => by simp [alignFieldsBody, VFields.core, alignmentRecord]
  | .cons _ t fs, a => by
    rw [alignFieldsBody, VFields.core, alignmentRecord, VT.alignment]
    congr 1; funext al
    exact alignFieldsBody_eq fs _

theorem alignCasesBody_eq : (cs : VCases) → (a : U32) →
    alignCasesBody VT.alignment cs a = maxCaseAlignment cs.core a
  | .nil, a => by simp [alignCasesBody, VCases.core, maxCaseAlignment]
  | .cons _ t _ cs, a => by
    rw [VCases.core, maxCaseAlignment]
    by_cases h : t = .nil
    · subst h
      rw [if_pos ((core_nil_iff .nil).2 rfl), alignCasesBody, alignCasesBody_eq cs]
    · rw [if_neg (by rwa [core_nil_iff]), alignCasesBody]
      · rw [VT.alignment]
        congr 1; funext al
        exact alignCasesBody_eq cs _
      · exact h

/-- `Alignment` satisfies the code's equation. -/
theorem alignment_code (t : VT) : t.alignment = alignBody VT.alignment (despecialize t) := by
  have h := core_despecialize t
  rw [VT.alignment, ← h]
  generalize hd : despecialize t = d
  have hd2 : despecialize d = d := by rw [← hd]; exact despecialize_idem t
  cases d <;> simp only [despecialize, reduceCtorEq] at hd2 <;>
    simp only [VT.core, Abi.alignment, alignBody, alignFieldsBody_eq, alignCasesBody_eq, VCases.core_length]
  rename_i cs
  cases discriminantType cs.length <;> rfl

/-- `SizeRecord`'s loop with `f` for `Size`.
-- models abi/io/size.go:53-68 -/
def sizeFieldsBody (f : VT → Res U32) : VFields → U32 → Res U32
  | .nil, s => .ok s
  | .cons _ t fs, s => do
    let a ← t.alignment
    let s := alignTo s a
    let sz ← f t
    sizeFieldsBody f fs (s + sz)

/-- `SizeVariant`'s loop with `f` for `Size`.
-- models abi/io/size.go:97-107 -/
def sizeCasesBody (f : VT → Res U32) : VCases → U32 → Res U32
  | .nil, m => .ok m
  | .cons _ .nil _ cs, m => sizeCasesBody f cs m
  | .cons _ t _ cs, m => do
    let sz ← f t
    sizeCasesBody f cs (umax m sz)

/-- The type switch of `Size` with `f` for the recursive call.
-- models abi/io/size.go:25-114 -/
def sizeBody (f : VT → Res U32) : VT → Res U32
  | .u8 | .s8 | .bool => .ok 1
  | .u16 | .s16 => .ok 2
  | .u32 | .s32 | .f32 => .ok 4
  | .u64 | .s64 | .f64 => .ok 8
  | .char => .ok 4
  | .list _ | .string => .ok 8
  | .record fs => do
    let s ← sizeFieldsBody f fs 0
    let a ← alignFieldsBody VT.alignment fs 1
    .ok (alignTo s a)
  | .variant cs => do
    let dt ← discriminantType cs.length
    let a ← alignCasesBody VT.alignment cs 1
    let s := alignTo dt.bytes a
    let m ← sizeCasesBody f cs 0
    let s := s + m
    let a ← VT.alignment (.variant cs)
    .ok (alignTo s a)
  | .flags ls => .ok (sizeFlags ls.length)
  | .own _ | .borrow _ => .ok 4
  | _ => .err

theorem sizeFieldsBody_eq : (fs : VFields) → (s : U32) →
    sizeFieldsBody VT.size fs s = sizeFields fs.core s
  | .nil, s => by simp [sizeFieldsBody, VFields.core, sizeFields]
  | .cons _ t fs, s => by
    rw [sizeFieldsBody, VFields.core, sizeFields, VT.alignment]
    congr 1; funext a
    simp only [VT.size]
    congr 1; funext sz
    exact sizeFieldsBody_eq fs _

theorem sizeCasesBody_eq : (cs : VCases) → (m : U32) →
    sizeCasesBody VT.size cs m = maxCaseSize cs.core m
  | .nil, m => by simp [sizeCasesBody, VCases.core, maxCaseSize]
  | .cons _ t _ cs, m => by
    rw [VCases.core, maxCaseSize]
    by_cases h : t = .nil
    · subst h
      rw [if_pos ((core_nil_iff .nil).2 rfl), sizeCasesBody, sizeCasesBody_eq cs]
    · rw [if_neg (by rwa [core_nil_iff]), sizeCasesBody]
      · rw [VT.size]
        congr 1; funext sz
        exact sizeCasesBody_eq cs _
      · exact h

/-- `Size` satisfies the code's equation. -/
theorem size_code (t : VT) : t.size = sizeBody VT.size (despecialize t) := by
  have h := core_despecialize t
  rw [VT.size, ← h]
  generalize hd : despecialize t = d
  have hd2 : despecialize d = d := by rw [← hd]; exact despecialize_idem t
  cases d <;> simp only [despecialize, reduceCtorEq] at hd2 <;>
    simp only [VT.core, Abi.size, sizeBody, alignFieldsBody_eq, alignCasesBody_eq, sizeFieldsBody_eq,
      sizeCasesBody_eq, VCases.core_length, VT.alignment]

/-- `FlattenRecord` with `f` for `FlattenType`.
-- models abi/io/flatten.go:58-68 -/
def flattenFieldsBody (f : VT → Res (List Kind)) : VFields → Res (List Kind)
  | .nil => .ok []
  | .cons _ t fs => do
    let k ← f t
    let ks ← flattenFieldsBody f fs
    .ok (k ++ ks)

/-- `FlattenVariant`'s loop with `f` for `FlattenType`.
-- models abi/io/flatten.go:71-88 -/
def flattenCasesBody (f : VT → Res (List Kind)) : VCases → List Kind → Res (List Kind)
  | .nil, flat => .ok flat
  | .cons _ .nil _ cs, flat => flattenCasesBody f cs flat
  | .cons _ t _ cs, flat => do
    let fts ← f t
    flattenCasesBody f cs (joinInto flat fts)

/-- The type switch of `FlattenType` with `f` for the recursive call.
-- models abi/io/flatten.go:22-98 -/
def flattenBody (f : VT → Res (List Kind)) : VT → Res (List Kind)
  | .bool | .u8 | .u16 | .u32 | .s8 | .s16 | .s32 | .char => .ok [.u32]
  | .u64 | .s64 => .ok [.u64]
  | .f32 => .ok [.f32]
  | .f64 => .ok [.f64]
  | .string | .list _ => .ok [.u32, .u32]
  | .record fs => flattenFieldsBody f fs
  | .variant cs => do
    let flat ← flattenCasesBody f cs []
    let dt ← discriminantType cs.length
    let d ← Abi.flatten dt.ty
    .ok (d ++ flat)
  | .flags ls => .ok (List.replicate (numI32Flags ls.length).toNat .u32)
  | .own _ | .borrow _ => .ok [.u32]
  | _ => .err

theorem flattenFieldsBody_eq : (fs : VFields) → flattenFieldsBody VT.flatten fs = flattenFields fs.core
  | .nil => by simp [flattenFieldsBody, VFields.core, flattenFields]
  | .cons _ t fs => by
    rw [flattenFieldsBody, VFields.core, flattenFields, VT.flatten, flattenFieldsBody_eq fs]

theorem flattenCasesBody_eq : (cs : VCases) → (flat : List Kind) →
    flattenCasesBody VT.flatten cs flat = flattenCases cs.core flat
  | .nil, flat => by simp [flattenCasesBody, VCases.core, flattenCases]
  | .cons _ t _ cs, flat => by
    rw [VCases.core, flattenCases]
    by_cases h : t = .nil
    · subst h
      rw [if_pos ((core_nil_iff .nil).2 rfl), flattenCasesBody, flattenCasesBody_eq cs]
    · rw [if_neg (by rwa [core_nil_iff]), flattenCasesBody]
      · rw [VT.flatten]
        congr 1; funext fts
        exact flattenCasesBody_eq cs _
      · exact h

/-- `FlattenType` satisfies the code's equation. -/
theorem flatten_code (t : VT) : t.flatten = flattenBody VT.flatten (despecialize t) := by
  have h := core_despecialize t
  rw [VT.flatten, ← h]
  generalize hd : despecialize t = d
  have hd2 : despecialize d = d := by rw [← hd]; exact despecialize_idem t
  cases d <;> simp only [despecialize, reduceCtorEq] at hd2 <;>
    simp only [VT.core, Abi.flatten, flattenBody, flattenFieldsBody_eq, flattenCasesBody_eq, VCases.core_length]
  rename_i cs
  cases flattenCases cs.core [] <;> try rfl
  simp only [Res.bind_ok]
  cases h : discriminantType cs.length <;> try rfl
  rename_i d
  cases d <;> rfl

end Verif.Abi
