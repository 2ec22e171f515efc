import Verif.Proofs.IsSorted
import Verif.Proofs.Term

/-! # From Go types to families -/

namespace Sorty

open Prog

/-- family `SortSlice` uses for an element type -/
def famOf (ws : Nat) : GoType → Option FamId
  | .int32 => some .I4
  | .int64 => some .I8
  | .int => some (if ws = 8 then .I8 else .I4)
  | .uint32 => some .U4
  | .uint64 => some .U8
  | .uint | .uintptr | .pointer | .unsafePointer => some (if ws = 8 then .U8 else .U4)
  | .float32 => some .F4
  | .float64 => some .F8
  | .string => some .S
  | .slice .uint8 => some .B
  | _ => none

/-- family `SortLen` uses for an element type -/
def lfamOf : GoType → Option FamId
  | .string => some .LenS
  | .slice _ => some .LenB
  | _ => none

theorem sliceFam_elemKind {ws : Nat} (hw : ws = 4 ∨ ws = 8) (t : GoType) : sliceFam (elemKind ws t) = famOf ws t := by
  rcases hw with rfl | rfl <;> cases t <;> try rfl
  all_goals rename_i t; cases t <;> rfl

theorem lenFam_elemKind {ws : Nat} (hw : ws = 4 ∨ ws = 8) (t : GoType) : lenFam (elemKind ws t) = lfamOf t := by
  rcases hw with rfl | rfl <;> cases t <;> try rfl
  all_goals rename_i t; cases t <;> rfl

theorem elemKind_ne {ws : Nat} {t : GoType} (h : famOf ws t ≠ none ∨ lfamOf t ≠ none) : elemKind ws t ≠ 0 := by
  cases t <;> simp [famOf, lfamOf] at h <;> simp [elemKind, GoType.kind, sliceBias]

theorem sortSlice_eq {C : Conf} (hC : C.OK) {t : GoType} {id : FamId} (h : famOf C.wordSize t = some id) (s : Slice) :
    SortSlice C (.slice t s) = famCall C id s := by
  have hk := elemKind_ne (ws := C.wordSize) (t := t) (.inl (by simp [h]))
  simp [SortSlice, sortCall, extractSK, hk, sliceFam_elemKind hC.word, h, famCall]

theorem sortLen_eq {C : Conf} (hC : C.OK) {t : GoType} {id : FamId} (h : lfamOf t = some id) (s : Slice) :
    SortLen C (.slice t s) = famCall C id s := by
  have hk := elemKind_ne (ws := C.wordSize) (t := t) (.inr (by simp [h]))
  simp [SortLen, sortCall, extractSK, hk, lenFam_elemKind hC.word, h, famCall]

theorem isSortedSlice_eq {Sp : Type} {C : Conf} (hC : C.OK) {t : GoType} {id : FamId} (h : famOf C.wordSize t = some id) (s : Slice) :
    (IsSortedSlice C (.slice t s) : Prog Cell Sp Int) = isSortedOf C id s := by
  have hk := elemKind_ne (ws := C.wordSize) (t := t) (.inl (by simp [h]))
  simp [IsSortedSlice, isSortedCall, extractSK, hk, sliceFam_elemKind hC.word, h]

theorem isSortedLen_eq {Sp : Type} {C : Conf} (hC : C.OK) {t : GoType} {id : FamId} (h : lfamOf t = some id) (s : Slice) :
    (IsSortedLen C (.slice t s) : Prog Cell Sp Int) = isSortedOf C id s := by
  have hk := elemKind_ne (ws := C.wordSize) (t := t) (.inr (by simp [h]))
  simp [IsSortedLen, isSortedCall, extractSK, hk, lenFam_elemKind hC.word, h]

theorem isNaN_w32 (b : BitVec 32) : (Cell.w32 b).isNaN ↔ fnan b = true := by simp [Cell.isNaN, fnan, finf, fmag]
theorem isNaN_w64 (b : BitVec 64) : (Cell.w64 b).isNaN ↔ fnan b = true := by simp [Cell.isNaN, fnan, finf, fmag]
theorem fval_w32 (b : BitVec 32) : (Cell.w32 b).fval = fkey b := by simp [Cell.fval, fkey, fsign, fmag]
theorem fval_w64 (b : BitVec 64) : (Cell.w64 b).fval = fkey b := by simp [Cell.fval, fkey, fsign, fmag]

theorem cellNaN_iff {c : Cell} : cellNaN c = true ↔ c.isNaN := by
  cases c with
  | w32 b => exact (isNaN_w32 b).symm
  | w64 b => exact (isNaN_w64 b).symm
  | _ => simp [cellNaN, Cell.isNaN]

/-- how elements of a family look like -/
theorem type_shape {ws : Nat} {t : GoType} {id : FamId} (h : famOf ws t = some id) {c : Cell} (hc : HasType ws t c) :
    match id with
    | .I4 | .U4 | .F4 => ∃ b, c = .w32 b
    | .I8 | .U8 | .F8 => ∃ b, c = .w64 b
    | .S => ∃ p bs, c = .str p bs
    | .B => ∃ p n k bs, c = .slc p n k bs ∧ bs.length = n
    | _ => False := by
  by_cases hw : ws = 8
  all_goals
    cases t
    case slice t =>
      cases t <;> simp only [famOf, reduceCtorEq, Option.some.injEq] at h
      subst h; exact hc
    all_goals
      simp only [famOf, hw, if_true, if_false, reduceCtorEq, Option.some.injEq] at h
      try (subst h; simpa only [HasType, hw, if_true, if_false] using hc)

theorem cok_of_type {C : Conf} {t : GoType} {id : FamId} (h : famOf C.wordSize t = some id) {c : Cell}
    (hc : HasType C.wordSize t c) (hn : id.float = true → cellNaN c = false) : cok C id c := by
  have hs := type_shape h hc
  unfold cok
  cases id <;> simp only at hs
  case S => obtain ⟨p, bs, rfl⟩ := hs; simp [fam, bytesKey, okOf]
  case B => obtain ⟨p, n, k, bs, rfl, _⟩ := hs; simp [fam, bytesKey, okOf]
  all_goals
    obtain ⟨b, rfl⟩ := hs
    simp [fam, wordKey, okOf]
  all_goals simpa [cellNaN, FamId.float] using hn

theorem cok_of_len {C : Conf} {t : GoType} {id : FamId} (h : lfamOf t = some id) {c : Cell}
    (hc : HasType C.wordSize t c) : cok C id c := by
  unfold cok
  cases t <;> simp [lfamOf] at h <;> subst h
  · rename_i t
    obtain ⟨p, n, k, bs, rfl⟩ : ∃ p n k bs, c = .slc p n k bs := by
      cases t <;> simp only [HasType] at hc
      case uint8 => obtain ⟨p, n, k, bs, h, _⟩ := hc; exact ⟨p, n, k, bs, h⟩
      all_goals exact hc
    simp [fam, lenKey, okOf]
  · obtain ⟨p, bs, rfl⟩ := hc
    simp [fam, lenKey, okOf]

theorem famOf_float {ws : Nat} {t : GoType} {id : FamId} (h : famOf ws t = some id) : id.float = t.float := by
  cases t <;> simp [famOf] at h <;> (try subst h) <;> (try (split_ifs <;> rfl)) <;> try rfl
  rename_i t
  cases t <;> simp at h
  subst h; rfl

theorem lfamOf_float {t : GoType} {id : FamId} (h : lfamOf t = some id) : id.float = false := by
  cases t <;> simp [lfamOf] at h <;> subst h <;> rfl

/-- ranks of integers -/
theorem crk_num {C : Conf} {t : GoType} {id : FamId} (h : famOf C.wordSize t = some id)
    (ht : t.signed = true ∨ t.unsigned = true) {c : Cell} (hc : HasType C.wordSize t c) :
    crk C id c = rkNum (c.num t.signed) := by
  have hs := type_shape h hc
  have hsg : (t.signed = true → id = .I4 ∨ id = .I8) ∧ (t.unsigned = true → (id = .U4 ∨ id = .U8) ∧ t.signed = false) := by
    cases t <;> simp [GoType.signed, GoType.unsigned] <;> simp [famOf] at h <;> subst h <;> (try split_ifs) <;> simp
  unfold crk
  rcases ht with ht | ht
  · rcases hsg.1 ht with rfl | rfl <;> (obtain ⟨b, rfl⟩ := hs; simp [fam, wordKey, rkOf, Cell.num, ht])
  · obtain ⟨h1, h2⟩ := hsg.2 ht
    rcases h1 with rfl | rfl <;> (obtain ⟨b, rfl⟩ := hs; simp [fam, wordKey, rkOf, Cell.num, h2])

/-- ranks of strings -/
theorem crk_bytes {C : Conf} {t : GoType} {id : FamId} (h : famOf C.wordSize t = some id)
    (ht : t.bytes = true) {c : Cell} (hc : HasType C.wordSize t c) :
    crk C id c = rkStr (c.bytes.map UInt8.toNat) := by
  unfold crk
  cases t <;> simp [GoType.bytes] at ht
  · rename_i t
    cases t <;> simp at ht
    simp [famOf] at h; subst h
    obtain ⟨p, n, k, bs, rfl, _⟩ := hc
    simp [fam, bytesKey, rkOf, Cell.bytes]
  · simp [famOf] at h; subst h
    obtain ⟨p, bs, rfl⟩ := hc
    simp [fam, bytesKey, rkOf, Cell.bytes]

/-- ranks of floats -/
theorem crk_float {C : Conf} {t : GoType} {id : FamId} (h : famOf C.wordSize t = some id)
    (ht : t.float = true) {c : Cell} (hc : HasType C.wordSize t c) :
    crk C id c = rkNum c.fval := by
  unfold crk
  cases t <;> simp [GoType.float] at ht <;> (simp [famOf] at h; subst h; obtain ⟨b, rfl⟩ := hc; simp [fam, wordKey, rkOf, fval_w32, fval_w64])

/-- ranks of lengths -/
theorem crk_len {C : Conf} {t : GoType} {id : FamId} (h : lfamOf t = some id)
    {c : Cell} (hc : HasType C.wordSize t c) : crk C id c = rkNum c.length := by
  unfold crk
  cases t <;> simp [lfamOf] at h <;> subst h
  · rename_i t
    obtain ⟨p, n, k, bs, rfl⟩ : ∃ p n k bs, c = .slc p n k bs := by
      cases t <;> simp only [HasType] at hc
      case uint8 => obtain ⟨p, n, k, bs, h, _⟩ := hc; exact ⟨p, n, k, bs, h⟩
      all_goals exact hc
    simp [fam, lenKey, rkOf, Cell.length]
  · obtain ⟨p, bs, rfl⟩ := hc
    simp [fam, lenKey, rkOf, Cell.length]

end Sorty
