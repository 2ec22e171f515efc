import Verif.Spec
import Verif.Proofs.Sort
import Mathlib.Data.Sum.Order
import Mathlib.Data.List.Lex

/-! # The ten families satisfy the laws -/

namespace Sorty

/-- common range of ranks -/
abbrev Rk := Int ⊕ₗ List Nat

def rkNum (n : Int) : Rk := toLex (.inl n)
def rkStr (l : List Nat) : Rk := toLex (.inr l)

theorem rkNum_lt {a b : Int} : rkNum a < rkNum b ↔ a < b := Sum.Lex.inl_lt_inl_iff
theorem rkNum_le {a b : Int} : rkNum a ≤ rkNum b ↔ a ≤ b := Sum.Lex.inl_le_inl_iff
theorem rkStr_lt {a b : List Nat} : rkStr a < rkStr b ↔ a < b := Sum.Lex.inr_lt_inr_iff
theorem rkStr_le {a b : List Nat} : rkStr a ≤ rkStr b ↔ a ≤ b := Sum.Lex.inr_le_inr_iff

theorem rkNum_min (a b : Int) : min (rkNum a) (rkNum b) = rkNum (min a b) := by
  rcases le_total a b with h | h
  · rw [min_eq_left h, min_eq_left (rkNum_le.2 h)]
  · rw [min_eq_right h, min_eq_right (rkNum_le.2 h)]

theorem rkNum_max (a b : Int) : max (rkNum a) (rkNum b) = rkNum (max a b) := by
  rcases le_total a b with h | h
  · rw [max_eq_right h, max_eq_right (rkNum_le.2 h)]
  · rw [max_eq_left h, max_eq_left (rkNum_le.2 h)]

/-- rank of a key in a family -/
def rkOf : FamId → Key → Rk
  | .I4, .w32 b => rkNum b.toInt
  | .I8, .w64 b => rkNum b.toInt
  | .U4, .w32 b => rkNum b.toNat
  | .U8, .w64 b => rkNum b.toNat
  | .F4, .w32 b => rkNum (fkey b)
  | .F8, .w64 b => rkNum (fkey b)
  | .S, .str l => rkStr (l.map UInt8.toNat)
  | .B, .str l => rkStr (l.map UInt8.toNat)
  | .LenS, .int n => rkNum n
  | .LenB, .int n => rkNum n
  | _, _ => rkNum 0

/-- keys a family works with -/
def okOf : FamId → Key → Prop
  | .I4, .w32 _ => True
  | .I8, .w64 _ => True
  | .U4, .w32 _ => True
  | .U8, .w64 _ => True
  | .F4, .w32 b => fnan b = false
  | .F8, .w64 b => fnan b = false
  | .S, .str _ => True
  | .B, .str _ => True
  | .LenS, .int _ => True
  | .LenB, .int _ => True
  | _, _ => False

theorem bytesLt_iff : ∀ x y : List UInt8, bytesLt x y = true ↔ x < y
  | _, [] => by simp [bytesLt]
  | [], b :: y => by simp [bytesLt]
  | a :: x, b :: y => by
    rw [List.cons_lt_cons_iff, ← bytesLt_iff x y]
    simp [bytesLt]

theorem bytes_lt_map : ∀ x y : List UInt8, x < y ↔ x.map UInt8.toNat < y.map UInt8.toNat
  | _, [] => by simp
  | [], b :: y => by simp
  | a :: x, b :: y => by
    simp only [List.map_cons, List.cons_lt_cons_iff, bytes_lt_map x y, UInt8.lt_iff_toNat_lt, UInt8.toNat_inj]

theorem bytesLt_map (x y : List UInt8) : bytesLt x y = true ↔ x.map UInt8.toNat < y.map UInt8.toNat :=
  (bytesLt_iff x y).trans (bytes_lt_map x y)

theorem flt_iff {w : Nat} {x y : BitVec w} (hx : fnan x = false) (hy : fnan y = false) :
    flt x y = true ↔ fkey x < fkey y := by simp [flt, hx, hy]

theorem fle_iff {w : Nat} {x y : BitVec w} (hx : fnan x = false) (hy : fnan y = false) :
    fle x y = true ↔ fkey x ≤ fkey y := by simp [fle, hx, hy]

theorem conf_ineq {C : Conf} (h : C.OK) : C.maxLenRecFC < C.maxLenRec ∧ 2 * C.maxLenIns < C.maxLenRecFC ∧
    C.maxLenInsFC < C.maxLenIns ∧ 2 * nsShort < C.maxLenInsFC := by
  obtain ⟨g, hg⟩ := h.init
  simp only [initOK, Bool.and_eq_true, decide_eq_true_eq, gt_iff_lt] at hg
  exact ⟨hg.1.1.1.2, hg.1.1.2, hg.1.2, hg.2⟩

theorem famOK {C : Conf} (h : C.OK) (id : FamId) : FamOK (fam C id) (okOf id) (rkOf id) := by
  obtain ⟨c1, c2, c3, c4⟩ := conf_ineq h
  have hs := h.sixb
  refine ⟨?_, ?_, ?_, ?_, ?_⟩
  · cases id <;> rintro (x | x | x | x) (y | y | y | y) hx hy <;> first | exact hx.elim | exact hy.elim | skip
    · simp only [fam, on32, rkOf, rkNum_lt]; exact BitVec.slt_iff_toInt_lt
    · simp only [fam, on64, rkOf, rkNum_lt]; exact BitVec.slt_iff_toInt_lt
    · simp only [fam, on32, rkOf, rkNum_lt, BitVec.ult_iff_lt, BitVec.lt_def]; omega
    · simp only [fam, on64, rkOf, rkNum_lt, BitVec.ult_iff_lt, BitVec.lt_def]; omega
    · simp only [fam, on32, rkOf, rkNum_lt]; exact flt_iff hx hy
    · simp only [fam, on64, rkOf, rkNum_lt]; exact flt_iff hx hy
    · simp only [fam, onStr, rkOf, rkStr_lt]; exact bytesLt_map x y
    · simp only [fam, onStr, rkOf, rkStr_lt]; exact bytesLt_map x y
    · simp only [fam, onInt, rkOf, rkNum_lt]; exact decide_eq_true_iff
    · simp only [fam, onInt, rkOf, rkNum_lt]; exact decide_eq_true_iff
  · cases id <;> rintro (x | x | x | x) (y | y | y | y) hx hy <;> first | exact hx.elim | exact hy.elim | skip
    · simp only [fam, on32, rkOf, rkNum_le]; exact BitVec.sle_iff_toInt_le
    · simp only [fam, on64, rkOf, rkNum_le]; exact BitVec.sle_iff_toInt_le
    · simp only [fam, on32, rkOf, rkNum_le, BitVec.ule_iff_le, BitVec.le_def]; omega
    · simp only [fam, on64, rkOf, rkNum_le, BitVec.ule_iff_le, BitVec.le_def]; omega
    · simp only [fam, on32, rkOf, rkNum_le]; exact fle_iff hx hy
    · simp only [fam, on64, rkOf, rkNum_le]; exact fle_iff hx hy
    · simp only [fam, onStr, rkOf]; rw [rkStr_le, ← not_lt, ← bytesLt_map]; simp
    · simp only [fam, onStr, rkOf]; rw [rkStr_le, ← not_lt, ← bytesLt_map]; simp
    · simp only [fam, onInt, rkOf, rkNum_le]; exact decide_eq_true_iff
    · simp only [fam, onInt, rkOf, rkNum_le]; exact decide_eq_true_iff
  · have hm : ∀ x y : Int, min x y ≤ meanI x y ∧ meanI x y ≤ max x y := by
      intro x y; unfold meanI; omega
    cases id <;> intro f hf <;> simp only [fam, Option.some.injEq, reduceCtorEq] at hf <;> subst hf <;>
      rintro (x | x | x | x) (y | y | y | y) hx hy <;> first | exact hx.elim | exact hy.elim | skip
    · refine ⟨trivial, ?_⟩
      simp only [on32, rkOf, rkNum_min, rkNum_max, rkNum_le]; exact hs.i4 x y
    · refine ⟨trivial, ?_⟩
      simp only [on64, rkOf, rkNum_min, rkNum_max, rkNum_le]; exact hs.i8 x y
    · refine ⟨trivial, ?_⟩
      simp only [on32, rkOf, rkNum_min, rkNum_max, rkNum_le]
      have := hs.u4 x y
      omega
    · refine ⟨trivial, ?_⟩
      simp only [on64, rkOf, rkNum_min, rkNum_max, rkNum_le]
      have := hs.u8 x y
      omega
    · refine ⟨trivial, ?_⟩
      simp only [onInt, rkOf, rkNum_min, rkNum_max, rkNum_le]; exact hm x y
    · refine ⟨trivial, ?_⟩
      simp only [onInt, rkOf, rkNum_min, rkNum_max, rkNum_le]; exact hm x y
  · cases id <;> simp only [fam] <;> omega
  · cases id <;> simp only [fam] <;> omega

end Sorty
