import Verif.Proofs.Float
import Verif.Props.Slice
import Verif.Props.Check

/-! # Floats are ordered by the numbers they denote -/

namespace Sorty

variable {C : Conf} {t : GoType} {s : Slice} {m : Mem Cell} {M : Nat} {stale : Prop} {c : Cfg Cell (VSp Key)}

/-- **C40, float32.** Which patterns are NaNs, and Go's `<` and `<=` as the model has them, are those of IEEE 754
binary32. -/
theorem C40_float32_order (x y : BitVec 32) :
    (fnan x = true ↔ ieeeNaN 8 23 x.toNat) ∧
    (flt x y = true ↔ ¬ ieeeNaN 8 23 x.toNat ∧ ¬ ieeeNaN 8 23 y.toNat ∧ ieeeValue 8 23 x.toNat < ieeeValue 8 23 y.toNat) ∧
    (fle x y = true ↔ ¬ ieeeNaN 8 23 x.toNat ∧ ¬ ieeeNaN 8 23 y.toNat ∧ ieeeValue 8 23 x.toNat ≤ ieeeValue 8 23 y.toNat) :=
  ⟨fmt32.nan x, fmt32.flt_iff x y, fmt32.fle_iff x y⟩

/-- **C40, float64.** The same for binary64. -/
theorem C40_float64_order (x y : BitVec 64) :
    (fnan x = true ↔ ieeeNaN 11 52 x.toNat) ∧
    (flt x y = true ↔ ¬ ieeeNaN 11 52 x.toNat ∧ ¬ ieeeNaN 11 52 y.toNat ∧ ieeeValue 11 52 x.toNat < ieeeValue 11 52 y.toNat) ∧
    (fle x y = true ↔ ¬ ieeeNaN 11 52 x.toNat ∧ ¬ ieeeNaN 11 52 y.toNat ∧ ieeeValue 11 52 x.toNat ≤ ieeeValue 11 52 y.toNat) :=
  ⟨fmt64.nan x, fmt64.flt_iff x y, fmt64.fle_iff x y⟩

/-- -1 is below the largest negative subnormal, which is below -0 = +0 -/
example : flt (0xbf800000#32) 0x80000001#32 = true ∧ flt (0x80000001#32) 0x80000000#32 = true ∧
    flt (0x80000000#32) 0#32 = false ∧ fle 0#32 0x80000000#32 = true := by decide

/-- what the pattern of -1.5 denotes -/
example : Cell.value (.w32 0xbfc00000#32) = (((-3 / 2 : ℚ) : WithTop ℚ) : WithBot (WithTop ℚ)) := by
  have e : ieeeExp 8 23 (0xbfc00000#32).toNat = 127 := by decide
  have f : ieeeFrac 23 (0xbfc00000#32).toNat = 2 ^ 22 := by decide
  have n : ieeeNeg 8 23 (0xbfc00000#32).toNat := by decide
  show ieeeValue 8 23 _ = _
  unfold ieeeValue
  rw [e, f]
  simp only [if_pos n]
  norm_num

/-- what the patterns of the smallest subnormal, +infinity and -0 denote -/
example : Cell.value (.w64 1#64) = (((2 : ℚ) ^ (-1074 : ℤ) : ℚ) : WithTop ℚ) ∧
    Cell.value (.w64 0x7ff0000000000000#64) = ((⊤ : WithTop ℚ) : WithBot (WithTop ℚ)) ∧
    Cell.value (.w64 0x8000000000000000#64) = (((0 : ℚ) : WithTop ℚ) : WithBot (WithTop ℚ)) := by
  refine ⟨?_, ?_, ?_⟩
  · have e : ieeeExp 11 52 (1#64).toNat = 0 := by decide
    have f : ieeeFrac 52 (1#64).toNat = 1 := by decide
    have n : ¬ ieeeNeg 11 52 (1#64).toNat := by decide
    show ieeeValue 11 52 _ = _
    unfold ieeeValue
    rw [e, f]
    simp only [if_neg n]
    norm_num
  · show ieeeValue 11 52 _ = _
    unfold ieeeValue
    rw [if_pos (by decide), if_neg (by decide)]
    rfl
  · have e : ieeeExp 11 52 (0x8000000000000000#64).toNat = 0 := by decide
    have f : ieeeFrac 52 (0x8000000000000000#64).toNat = 0 := by decide
    have n : ieeeNeg 11 52 (0x8000000000000000#64).toNat := by decide
    show ieeeValue 11 52 _ = _
    unfold ieeeValue
    rw [e, f]
    simp only [if_pos n]
    norm_num

/-- **C40, NaNlarge.** SortSlice leaves numbers in ascending order followed by NaNs, by IEEE 754. -/
theorem C40_sortSlice_NaNlarge (hC : C.OK) (ht : t.float = true) (ho : C.nanOption = 1) (hs : SliceOf C.wordSize t s m)
    (hd : DepthFor C.depth s.len) (hr : (SortSlice C (.slice t s)).Reaches M stale m c) (hret : Returned c) :
    ∃ k ≤ s.len, (∀ e ∈ (s.view c.sh.mem).take k, ¬ e.ieeeNaN) ∧
      (((s.view c.sh.mem).take k).map Cell.value).Pairwise (· ≤ ·) ∧ ∀ e ∈ (s.view c.sh.mem).drop k, e.ieeeNaN := by
  obtain ⟨⟨k, hk, h1, h2⟩, hp⟩ := C04_sortSlice_NaNlarge hC ht ho hs hd hr hret
  have hty := (hs.of_perm hp).elems
  have h3 := (ascFloat_value ht fun e he => hty e (List.mem_of_mem_take he)).1 h1
  exact ⟨k, hk, h3.1, h3.2, fun e he => (isNaN_ieee e).1 (h2 e he)⟩

example : ∃ c, (SortSlice { demoC with nanOption := 1 } (.slice .float64 demoS)).Reaches 5 False demoFloats c ∧ Returned c ∧
    ∃ k ≤ 3000, (((demoS.view c.sh.mem).take k).map Cell.value).Pairwise (· ≤ ·) := by
  obtain ⟨c, h1, h2⟩ := sortJob_returns (demoC_ok' 1) (demoFloats_job 1 (.inl rfl)) (demo_depth' 1) 5 False
  obtain ⟨k, hk, -, h, -⟩ := C40_sortSlice_NaNlarge (demoC_ok' 1) rfl rfl (demoFloats_typed 1) (demo_depth' 1) h1 h2
  exact ⟨c, h1, h2, k, hk, h⟩

/-- **C40, NaNsmall.** SortSlice leaves NaNs followed by numbers in ascending order, by IEEE 754. -/
theorem C40_sortSlice_NaNsmall (hC : C.OK) (ht : t.float = true) (ho : C.nanOption = -1) (hs : SliceOf C.wordSize t s m)
    (hd : DepthFor C.depth s.len) (hr : (SortSlice C (.slice t s)).Reaches M stale m c) (hret : Returned c) :
    ∃ k ≤ s.len, (∀ e ∈ (s.view c.sh.mem).take k, e.ieeeNaN) ∧ (∀ e ∈ (s.view c.sh.mem).drop k, ¬ e.ieeeNaN) ∧
      (((s.view c.sh.mem).drop k).map Cell.value).Pairwise (· ≤ ·) := by
  obtain ⟨⟨k, hk, h1, h2⟩, hp⟩ := C05_sortSlice_NaNsmall hC ht ho hs hd hr hret
  have hty := (hs.of_perm hp).elems
  have h3 := (ascFloat_value ht fun e he => hty e (List.mem_of_mem_drop he)).1 h2
  exact ⟨k, hk, fun e he => (isNaN_ieee e).1 (h1 e he), h3.1, h3.2⟩

example : ∃ c, (SortSlice { demoC with nanOption := -1 } (.slice .float64 demoS)).Reaches 5 False demoFloats c ∧ Returned c ∧
    ∃ k ≤ 3000, (((demoS.view c.sh.mem).drop k).map Cell.value).Pairwise (· ≤ ·) := by
  obtain ⟨c, h1, h2⟩ := sortJob_returns (demoC_ok' (-1)) (demoFloats_job (-1) (.inr rfl)) (demo_depth' (-1)) 5 False
  obtain ⟨k, hk, -, -, h⟩ := C40_sortSlice_NaNsmall (demoC_ok' (-1)) rfl rfl (demoFloats_typed (-1)) (demo_depth' (-1)) h1 h2
  exact ⟨c, h1, h2, k, hk, h⟩

/-- **C40, no NaNs.** Whatever `NaNoption` is, SortSlice puts floats without NaNs in ascending order, by IEEE 754. -/
theorem C40_sortSlice_no_NaN (hC : C.OK) (ht : t.float = true) (hn : ∀ e ∈ s.view m, ¬ e.ieeeNaN) (hs : SliceOf C.wordSize t s m)
    (hd : DepthFor C.depth s.len) (hr : (SortSlice C (.slice t s)).Reaches M stale m c) (hret : Returned c) :
    ((s.view c.sh.mem).map Cell.value).Pairwise (· ≤ ·) := by
  obtain ⟨h1, hp⟩ := C35_sortSlice_no_NaN hC ht (fun e he => mt (isNaN_ieee e).1 (hn e he)) hs hd hr hret
  exact ((ascFloat_value ht (hs.of_perm hp).elems).1 h1).2

example : ∃ c, (SortSlice { demoC with nanOption := 0 } (.slice .float64 demoS)).Reaches 5 False demoNums c ∧ Returned c ∧
    ((demoS.view c.sh.mem).map Cell.value).Pairwise (· ≤ ·) := by
  obtain ⟨c, h1, h2⟩ := sortJob_returns (demoC_ok' 0)
    (.slice .float64 rfl (demoNums_typed 0) (fun _ => .inr (.inr demoNums_noNaN))) (demo_depth' 0) 5 False
  exact ⟨c, h1, h2, C40_sortSlice_no_NaN (demoC_ok' 0) rfl (fun e he => mt (isNaN_ieee e).2 (demoNums_noNaN e he))
    (demoNums_typed 0) (demo_depth' 0) h1 h2⟩

/-- **C40, IsSortedSlice.** With NaNlarge it answers 0 exactly if the numbers are ascending with all NaNs behind them,
with NaNsmall exactly if they are ascending with all NaNs in front; if it answers `i ≠ 0`, elements `i-1` and `i` are not
both numbers with the first at most the second. All by IEEE 754. -/
theorem C40_isSortedSlice (hC : C.OK) (ht : t.float = true) (hs : SliceOf C.wordSize t s m) :
    ∃ i, Answers (IsSortedSlice C (.slice t s)) m i ∧
      (C.nanOption = 1 → (i = 0 ↔ ∃ k ≤ s.len, (∀ e ∈ (s.view m).take k, ¬ e.ieeeNaN) ∧
        (((s.view m).take k).map Cell.value).Pairwise (· ≤ ·) ∧ ∀ e ∈ (s.view m).drop k, e.ieeeNaN)) ∧
      (C.nanOption = -1 → (i = 0 ↔ ∃ k ≤ s.len, (∀ e ∈ (s.view m).take k, e.ieeeNaN) ∧
        (∀ e ∈ (s.view m).drop k, ¬ e.ieeeNaN) ∧ (((s.view m).drop k).map Cell.value).Pairwise (· ≤ ·))) ∧
      (i ≠ 0 → PairAt (s.view m) i fun x y => ¬ (¬ x.ieeeNaN ∧ ¬ y.ieeeNaN ∧ y.value ≤ x.value)) := by
  obtain ⟨i, h1, h2, h3, -, h5⟩ := C22_isSortedSlice_floats hC ht hs
  refine ⟨i, h1, fun ho => ?_, fun ho => ?_, fun hi => ?_⟩
  · rw [h2 ho]
    refine exists_congr fun k => and_congr_right fun _ => ?_
    rw [ascFloat_value ht fun e he => hs.elems e (List.mem_of_mem_take he), and_assoc]
    unfold AllNaN
    simp only [isNaN_ieee]
  · rw [h3 ho]
    refine exists_congr fun k => and_congr_right fun _ => ?_
    rw [ascFloat_value ht fun e he => hs.elems e (List.mem_of_mem_drop he)]
    unfold AllNaN
    simp only [isNaN_ieee]
  · obtain ⟨h6, x, y, h7, h8, h9⟩ := h5 hi
    refine ⟨h6, x, y, h7, h8, ?_⟩
    dsimp only
    rwa [← fge_value ht (hs.elems x (List.mem_of_getElem? h7)) (hs.elems y (List.mem_of_getElem? h8))]

example : ∃ i, Answers (IsSortedSlice { demoC with nanOption := 1 } (.slice .float64 demoS)) demoFloats i := by
  obtain ⟨i, h, -⟩ := C40_isSortedSlice (demoC_ok' 1) rfl (demoFloats_typed 1)
  exact ⟨i, h⟩

end Sorty
