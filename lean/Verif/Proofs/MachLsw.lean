import Verif.Proofs.Mach

/-! # Sort on machine words does the same as on unbounded integers -/

namespace Sorty

open Prog Slice

section
variable {V Sp : Type} {G : Sp → Prop} {R : Int → Prop} {ws : Nat} {W : Int}

theorem Twin.lsw {s : Slice} {i k r q : Int} :
    Twin G R (fun _ => (0 ≤ i ∧ i < s.len) ∧ (0 ≤ k ∧ k < s.len) ∧ (0 ≤ r ∧ r < s.len) ∧ (0 ≤ q ∧ q < s.len))
      (lsw s i k r q : Prog V Sp Bool) (lsw s i k r q) := by
  unfold Sorty.lsw
  by_cases h : (0 ≤ i ∧ i < s.len) ∧ (0 ≤ k ∧ k < s.len) ∧ (0 ≤ r ∧ r < s.len) ∧ (0 ≤ q ∧ q < s.len)
  · simp only [if_pos h]
    refine Twin.bind Twin.rd fun x _ => Twin.bind Twin.rd fun y _ => Twin.less _ _ _ _ _ _ fun b => ?_
    cases b with
    | true =>
      show Twin G R _ (if r ≠ q then _ else _) (if r ≠ q then _ else _)
      split
      · exact Twin.bind Twin.swap fun _ _ => .ret _ h
      · exact .ret _ h
    | false => exact .ret _ h
  · simp only [if_neg h]; exact .panic

theorem lsw_invalid {s : Slice} {i k r q : Int} (h : ¬ (0 ≤ i ∧ i < s.len)) : (lsw s i k r q : Prog V Sp Bool) = .panic :=
  if_neg fun h' => h h'.1

variable (w : Word ws W)
include w

theorem same_IsSorted {s : Slice} (hs : s.len < W) (n : Int) :
    Twin G R (fun _ => True) (IsSorted ws n s : Prog V Sp Int) (IsSortedM ws n s) := by
  have hb := w.big
  unfold IsSorted IsSortedM
  refine Twin.loop (I := fun _ : Int => True) (fun i _ => ?_) _ _ trivial
  by_cases hc : i > 0
  · simp only [if_pos hc]
    by_cases hv : i < s.len
    · rw [w.sub (by omega) (by omega)]
      refine Twin.bind Twin.lsw fun b _ => ?_
      split
      · exact .ret _ trivial
      · exact .ret _ trivial
    · rw [call_documented, lsw_invalid (by omega), lsw_invalid (by omega)]
      exact .panic
  · simp only [if_neg hc]; exact .ret _ trivial

theorem same_lswInner {s : Slice} (hs : s.len < W) {bound step : Int} (h0 : 0 ≤ step) (h1 : step < W) (h : Int) :
    Twin G R (fun _ => True) (lswInner s bound step h : Prog V Sp Unit) (lswInnerM ws s bound step h) := by
  have hb := w.big
  unfold lswInner lswInnerM
  refine Twin.loop (I := fun _ : Int => True) (fun l _ => ?_) _ _ trivial
  by_cases hv : 0 ≤ l ∧ l < s.len
  · rw [w.sub (by omega) (by omega)]
    refine Twin.bind Twin.lsw fun b _ => ?_
    split
    · dsimp only
      split
      · exact .ret _ trivial
      · exact .ret _ trivial
    · exact .ret _ trivial
  · rw [call_documented, lsw_invalid hv, lsw_invalid hv]
    exact .panic

theorem same_lswInsertion {s : Slice} (hs : (s.len : Int) + 1 < W) {lo hi : Int} (h0 : 0 ≤ lo) (h1 : lo + 1 < W) (h2 : hi + 2 < W) :
    Twin G R (fun _ => True) (lswInsertion s lo hi : Prog V Sp Unit) (lswInsertionM ws s lo hi) := by
  have hb := w.big
  unfold lswInsertion lswInsertionM
  rw [w.add (by omega) (by omega)]
  refine Twin.loop (I := fun h : Int => 0 ≤ h) (fun h hh => ?_) _ _ (by omega)
  by_cases hc : h ≤ hi
  · simp only [if_pos hc]
    rw [w.add (by omega) (by omega)]
    exact Twin.bind (same_lswInner w (by omega) (by omega) (by omega) h) fun _ _ => .ret _ (show 0 ≤ h + 1 by omega)
  · simp only [if_neg hc]; exact .ret _ trivial

theorem same_lswPivot {s : Slice} (hs : (s.len : Int) + 1 < W) {lo hi : Int} {n : Nat} (h0 : 0 ≤ lo) (h2 : hi + 2 < W) (hn : 2 ≤ n)
    (hl : 2 * n ≤ hi + 1 - lo) :
    Twin G R (fun pv => lo ≤ pv ∧ pv ≤ hi) (lswPivot ws s lo hi n : Prog V Sp Int) (lswPivotM ws s lo hi n) := by
  have hb := w.big
  unfold lswPivot lswPivotM
  rw [w.add (x := hi) (by omega) (by omega), w.sub (by omega) (by omega), w.sample hn hl (by omega)]
  have hm := minMaxSample_bounds (slen := (hi + 1 - lo).toNat) (n := n) (by omega) (by omega)
  rcases hmm : minMaxSample (hi + 1 - lo).toNat n with ⟨f, st, la⟩
  rw [hmm] at hm
  simp only at hm
  have h1 : st ≤ (n - 1) * st := Nat.le_mul_of_pos_left _ (by omega)
  dsimp only
  rw [w.wrap (x := f) (by omega) (by omega), w.wrap (x := st) (by omega) (by omega), w.wrap (x := la) (by omega) (by omega)]
  rw [w.add (x := lo) (y := f) (by omega) (by omega), w.add (x := lo) (y := la) (by omega) (by omega),
    w.add (x := lo + f) (by omega) (by omega)]
  refine Twin.bind (Q := fun _ => True) ?_ fun _ _ => ?_
  · refine Twin.loop (I := fun _ : Int => True) (fun h _ => ?_) _ _ trivial
    by_cases hc : h ≤ lo + la
    · simp only [if_pos hc]
      exact Twin.bind (same_lswInner w (by omega) (by omega) (by omega) h) fun _ _ => .ret _ trivial
    · simp only [if_neg hc]; exact .ret _ trivial
  · refine Twin.bind Twin.lsw fun _ _ => Twin.bind Twin.lsw fun _ _ => ?_
    rw [w.mean (by omega) (by omega) (by omega) (by omega)]
    have e : meanI (lo + f) (lo + la) = ((lo + f) + (lo + la)) / 2 := rfl
    exact .ret _ (by omega)

/-- bounds of the indices of `partOne` -/
def lp1ok (W : Int) : LP1 → Prop
  | .head l h => 0 ≤ l ∧ l + 1 < W ∧ -1 ≤ h ∧ h + 2 < W
  | .scan l h => 0 ≤ l ∧ l < h ∧ h + 2 < W
  | .second l h => 0 ≤ l ∧ l < h ∧ h + 2 < W

theorem same_lswPartOne (s : Slice) {l pv h : Int} (h0 : 0 ≤ l) (h1 : l + 1 < W) (h2 : -1 ≤ h) (h3 : h + 2 < W) :
    Twin G R (fun k => 0 ≤ k ∧ k + 1 < W) (lswPartOne s l pv h : Prog V Sp Int) (lswPartOneM ws s l pv h) := by
  have hb := w.big
  unfold lswPartOne lswPartOneM
  refine Twin.loop (I := lp1ok W) (fun st hst => ?_) _ _ ⟨h0, h1, h2, h3⟩
  clear h0 h1 h2 h3
  clear l h
  cases st with
  | head l h =>
    obtain ⟨h0, h1, h2, h3⟩ := hst
    unfold lswPartOneStep lswPartOneStepM
    dsimp only
    rw [w.add (by omega) (by omega), w.sub (by omega) (by omega)]
    by_cases hc : l < h
    · simp only [if_pos hc]
      refine Twin.bind Twin.lsw fun b _ => ?_
      split
      · exact .ret _ ⟨h0, hc, h3⟩
      · refine Twin.bind Twin.lsw fun b _ => ?_
        split
        · exact .ret _ ⟨h0, hc, h3⟩
        · exact .ret _ (show 0 ≤ l + 1 ∧ l + 1 + 1 < W ∧ -1 ≤ h - 1 ∧ h - 1 + 2 < W by omega)
    · simp only [if_neg hc]
      by_cases he : l = h ∧ h ≠ pv
      · simp only [if_pos he]
        refine Twin.bind Twin.lsw fun b _ => ?_
        split
        · exact .ret _ (show 0 ≤ l + 1 ∧ l + 1 + 1 < W by omega)
        · exact .ret _ (show 0 ≤ l ∧ l + 1 < W by omega)
      · simp only [if_neg he]; exact .ret _ (show 0 ≤ l ∧ l + 1 < W by omega)
  | scan l h =>
    obtain ⟨h0, h1, h2⟩ := hst
    unfold lswPartOneStep lswPartOneStepM
    dsimp only
    rw [w.add (x := l) (by omega) (by omega), w.sub (by omega) (by omega), w.add (by omega) (by omega)]
    refine Twin.bind Twin.lsw fun b _ => ?_
    split
    · exact .ret _ (show 0 ≤ l + 1 ∧ l + 1 + 1 < W ∧ -1 ≤ h - 1 ∧ h - 1 + 2 < W by omega)
    · by_cases hc : l + 1 ≥ h
      · simp only [if_pos hc]; exact .ret _ (show 0 ≤ l + 1 + 1 ∧ l + 1 + 1 + 1 < W by omega)
      · simp only [if_neg hc]; exact .ret _ (show 0 ≤ l + 1 ∧ l + 1 < h ∧ h + 2 < W by omega)
  | second l h =>
    obtain ⟨h0, h1, h2⟩ := hst
    unfold lswPartOneStep lswPartOneStepM
    dsimp only
    rw [w.sub (x := h) (by omega) (by omega), w.add (by omega) (by omega), w.sub (by omega) (by omega)]
    by_cases hc : l ≥ h - 1
    · simp only [if_pos hc]; exact .ret _ (show 0 ≤ l ∧ l + 1 < W by omega)
    · simp only [if_neg hc]
      refine Twin.bind Twin.lsw fun b _ => ?_
      split
      · exact .ret _ (show 0 ≤ l + 1 ∧ l + 1 + 1 < W ∧ -1 ≤ h - 1 - 1 ∧ h - 1 - 1 + 2 < W by omega)
      · exact .ret _ (show 0 ≤ l ∧ l < h - 1 ∧ h - 1 + 2 < W by omega)

/-- bounds of the indices of `partTwo` -/
def lp2ok (W : Int) : LP2 → Prop
  | .head l h => -1 ≤ l ∧ l < W ∧ 0 ≤ h ∧ h < W
  | .scan l h => -1 ≤ l ∧ l < W ∧ 0 ≤ h ∧ h < W
  | .second l h => 0 ≤ l ∧ l < W ∧ 0 ≤ h ∧ h + 1 < W

theorem lswPartTwoNext_same {lo hi l h : Int} (h0 : 0 ≤ l) (h1 : l < W) (h2 : 0 ≤ h) (h3 : h + 1 < W) :
    lswPartTwoNextM ws lo hi l h = lswPartTwoNext lo hi l h := by
  have hb := w.big
  unfold lswPartTwoNextM lswPartTwoNext
  dsimp only
  rw [w.sub (by omega) (by omega), w.add (by omega) (by omega)]

omit w in
theorem lswPartTwoNext_ok {lo hi l h : Int} (h0 : 0 ≤ l) (h1 : l < W) (h2 : 0 ≤ h) (h3 : h + 1 < W) :
    Twin.ctl (lp2ok W) (fun k : Int => -1 ≤ k ∧ k < W) (lswPartTwoNext lo hi l h) := by
  unfold lswPartTwoNext
  dsimp only
  split
  · exact show -1 ≤ h + 1 ∧ h + 1 < W by omega
  · split
    · exact show -1 ≤ l - 1 ∧ l - 1 < W by omega
    · exact show -1 ≤ l - 1 ∧ l - 1 < W ∧ 0 ≤ h + 1 ∧ h + 1 < W by omega

theorem same_lswPartTwo {s : Slice} (hs : (s.len : Int) + 1 < W) {lo l pv h hi : Int} (h0 : -1 ≤ l) (h1 : l < W) (h2 : 0 ≤ h) (h3 : h < W) :
    Twin G R (fun k => -1 ≤ k ∧ k < W) (lswPartTwo s lo l pv h hi : Prog V Sp Int) (lswPartTwoM ws s lo l pv h hi) := by
  have hb := w.big
  unfold lswPartTwo lswPartTwoM
  refine Twin.loop (I := lp2ok W) (fun st hst => ?_) _ _ ⟨h0, h1, h2, h3⟩
  clear h0 h1 h2 h3
  clear l h
  cases st with
  | head l h =>
    obtain ⟨h0, h1, h2, h3⟩ := hst
    unfold lswPartTwoStep lswPartTwoStepM
    dsimp only
    refine Twin.bind Twin.lsw fun b hb1 => ?_
    split
    · exact .ret _ ⟨h0, h1, h2, h3⟩
    · refine Twin.bind Twin.lsw fun b hb2 => ?_
      split
      · exact .ret _ (show 0 ≤ l ∧ l < W ∧ 0 ≤ h ∧ h + 1 < W by omega)
      · rw [lswPartTwoNext_same w (by omega) (by omega) (by omega) (by omega)]
        exact .ret _ (lswPartTwoNext_ok (by omega) (by omega) (by omega) (by omega))
  | scan l h =>
    obtain ⟨h0, h1, h2, h3⟩ := hst
    unfold lswPartTwoStep lswPartTwoStepM
    dsimp only
    refine Twin.bind Twin.lsw fun b hb1 => ?_
    split
    · rw [lswPartTwoNext_same w (by omega) (by omega) (by omega) (by omega)]
      exact .ret _ (lswPartTwoNext_ok (by omega) (by omega) (by omega) (by omega))
    · rw [w.sub (by omega) (by omega)]
      split
      · exact .ret _ (show -1 ≤ h ∧ h < W by omega)
      · exact .ret _ (show -1 ≤ l - 1 ∧ l - 1 < W ∧ 0 ≤ h ∧ h < W by omega)
  | second l h =>
    obtain ⟨h0, h1, h2, h3⟩ := hst
    unfold lswPartTwoStep lswPartTwoStepM
    dsimp only
    rw [w.add (by omega) (by omega)]
    by_cases hc : h + 1 > hi
    · simp only [if_pos hc]; exact .ret _ (show -1 ≤ l ∧ l < W by omega)
    · simp only [if_neg hc]
      refine Twin.bind Twin.lsw fun b hb1 => ?_
      split
      · rw [lswPartTwoNext_same w (by omega) (by omega) (by omega) (by omega)]
        exact .ret _ (lswPartTwoNext_ok (by omega) (by omega) (by omega) (by omega))
      · exact .ret _ (show 0 ≤ l ∧ l < W ∧ 0 ≤ h + 1 ∧ h + 1 + 1 < W by omega)

theorem same_lswGapLow {s : Slice} {lo r k pv : Int} (hlo : 0 ≤ lo) (h0 : -1 ≤ r) (h1 : r < W) (h2 : 0 ≤ k)
    (h3 : k + 1 < W) :
    Twin G R (fun k => 0 ≤ k ∧ k + 1 < W) (lswGapLow s lo r k pv : Prog V Sp Int) (lswGapLowM ws s lo r k pv) := by
  have hb := w.big
  unfold lswGapLow lswGapLowM
  refine Twin.loop (I := fun st : Int × Int × Int => (-1 ≤ st.1 ∧ st.1 < W) ∧ 0 ≤ st.2.1 ∧ st.2.1 + 1 < W) (fun st hst => ?_) _ _
    ⟨⟨h0, h1⟩, h2, h3⟩
  clear h0 h1 h2 h3
  clear r k pv
  obtain ⟨r, k, pv⟩ := st
  obtain ⟨⟨h0, h1⟩, h2, h3⟩ := hst
  dsimp only at h0 h1 h2 h3 ⊢
  by_cases hc : lo ≤ r
  · simp only [if_pos hc]
    rw [w.sub (x := k) (by omega) (by omega), w.sub (x := r) (by omega) (by omega)]
    refine Twin.bind Twin.lsw fun b hv => ?_
    split
    · exact .ret _ (show (-1 ≤ r - 1 ∧ r - 1 < W) ∧ 0 ≤ k - 1 ∧ k - 1 + 1 < W by omega)
    · exact .ret _ (show (-1 ≤ r - 1 ∧ r - 1 < W) ∧ 0 ≤ k ∧ k + 1 < W by omega)
  · simp only [if_neg hc]; exact .ret _ ⟨h2, h3⟩

theorem same_lswGapHigh {s : Slice} (hs : (s.len : Int) + 1 < W) {hi r k pv : Int} (hhi : hi + 1 < W) (h0 : -1 ≤ r) (h1 : r < W) (h2 : 0 ≤ k)
    (h3 : k + 1 < W) :
    Twin G R (fun k => 0 ≤ k ∧ k + 1 < W) (lswGapHigh s hi r k pv : Prog V Sp Int) (lswGapHighM ws s hi r k pv) := by
  have hb := w.big
  unfold lswGapHigh lswGapHighM
  refine Twin.loop (I := fun st : Int × Int × Int => (-1 ≤ st.1 ∧ st.1 < W) ∧ 0 ≤ st.2.1 ∧ st.2.1 + 1 < W) (fun st hst => ?_) _ _
    ⟨⟨h0, h1⟩, h2, h3⟩
  clear h0 h1 h2 h3
  clear r k pv
  obtain ⟨r, k, pv⟩ := st
  obtain ⟨⟨h0, h1⟩, h2, h3⟩ := hst
  dsimp only at h0 h1 h2 h3 ⊢
  by_cases hc : r ≤ hi
  · simp only [if_pos hc]
    rw [w.add (x := k) (by omega) (by omega), w.add (x := r) (by omega) (by omega)]
    refine Twin.bind Twin.lsw fun b hv => ?_
    split
    · exact .ret _ (show (-1 ≤ r + 1 ∧ r + 1 < W) ∧ 0 ≤ k + 1 ∧ k + 1 + 1 < W by omega)
    · exact .ret _ (show (-1 ≤ r + 1 ∧ r + 1 < W) ∧ 0 ≤ k ∧ k + 1 < W by omega)
  · simp only [if_neg hc]; exact .ret _ ⟨h2, h3⟩

/-- a range of indices -/
def Rg (W lo hi : Int) : Prop := 0 ≤ lo ∧ lo + 1 < W ∧ -1 ≤ hi ∧ hi + 2 < W

theorem lswSplit_same {lo hi l : Int} (hr : Rg W lo hi) (h0 : 0 ≤ l) (h1 : l + 1 < W) : lswSplitM ws lo hi l = lswSplit lo hi l := by
  obtain ⟨h2, h3, h4, h5⟩ := hr
  unfold lswSplitM lswSplit
  dsimp only
  rw [w.sub (x := l) (by omega) (by omega), w.sub (x := l - 1) (by omega) (by omega), w.sub (x := hi) (by omega) (by omega)]

omit w in
theorem lswSplit_ok {lo hi k l h lo' hi' n no : Int} (hr : Rg W lo hi) (h0 : 0 ≤ k) (h1 : k + 1 < W)
    (e : lswSplit lo hi k = (l, h, lo', hi', n, no)) :
    Rg W l h ∧ Rg W lo' hi' ∧ n = h - l ∧ no = hi' - lo' ∧ n ≤ no ∧ n + no = hi - lo - 1 := by
  unfold Rg at *
  unfold lswSplit at e
  dsimp only at e
  split at e <;> (simp only [Prod.mk.injEq] at e; omega)

theorem same_lswShortPivot {s : Slice} {lo hi : Int} (hr : Rg W lo hi) (hl : 6 ≤ hi + 1 - lo) :
    Twin G R (fun pv => lo ≤ pv ∧ pv ≤ hi) (lswShortPivot s lo hi : Prog V Sp Int) (lswShortPivotM ws s lo hi) := by
  have hb := w.big
  obtain ⟨h2, h3, h4, h5⟩ := hr
  unfold lswShortPivot lswShortPivotM
  rw [w.add (x := hi) (by omega) (by omega), w.sub (by omega) (by omega), w.sample (by omega) (by omega) (by omega)]
  have hm := minMaxSample_bounds (slen := (hi + 1 - lo).toNat) (n := 3) (by omega) (by omega)
  rcases hmm : minMaxSample (hi + 1 - lo).toNat 3 with ⟨f, st, la⟩
  rw [hmm] at hm
  simp only at hm
  dsimp only
  rw [w.wrap (x := f) (by omega) (by omega), w.wrap (x := st) (by omega) (by omega)]
  rw [w.add (x := lo) (y := f) (by omega) (by omega), w.add (x := lo + f) (by omega) (by omega), w.add (x := lo + f + st) (by omega) (by omega)]
  have fin : Twin G R (fun pv => lo ≤ pv ∧ pv ≤ hi)
      (do
        let _ ← lsw s (lo + f) lo (lo + f) lo
        let _ ← lsw s hi (lo + f + st + st) hi (lo + f + st + st)
        pure (lo + f + st : Int) : Prog V Sp Int)
      (do
        let _ ← lsw s (lo + f) lo (lo + f) lo
        let _ ← lsw s hi (lo + f + st + st) hi (lo + f + st + st)
        pure (lo + f + st : Int)) :=
    Twin.bind Twin.lsw fun _ _ => Twin.bind Twin.lsw fun _ _ => .ret _ (by omega)
  refine Twin.bind Twin.lsw fun _ _ => Twin.bind Twin.lsw fun b _ => ?_
  cases b with
  | true => exact Twin.bind Twin.lsw fun _ _ => fin
  | false => exact fin

end

/-- what the thresholds must satisfy -/
structure LFits (C : Conf) (W : Int) : Prop where
  ins : 8 < C.maxLenInsFC
  rcr : 2 * C.maxLenInsFC < C.maxLenRecFC
  word : 2 * (C.maxLenRecFC : Int) < W

section
variable {V Sp : Type} {G : Sp → Prop} {R : Int → Prop} {C : Conf} {W : Int} (w : Word C.wordSize W) (hF : LFits C W)
include w hF

theorem same_lswShort {s : Slice} (hs : (s.len : Int) + 1 < W) : ∀ (f d : Nat) {lo hi : Int}, Rg W lo hi → C.maxLenInsFC ≤ hi - lo →
    Twin G R (fun _ => True) (lswShort C s f d lo hi : Prog V Sp Unit) (lswShortM C s f d lo hi)
  | 0, _, _, _, _, _ => .diverge
  | f + 1, d, lo, hi, hr, hl => by
    have h8 := hF.ins
    have hb := w.big
    have hr' := hr
    obtain ⟨g0, g1, g2, g3⟩ := hr'
    refine Twin.bind (same_lswShortPivot w hr (by omega)) fun pv _ => ?_
    rw [w.add (by omega) (by omega), w.sub (by omega) (by omega)]
    refine Twin.bind (same_lswPartOne w s (by omega) (by omega) (by omega) (by omega)) fun k hk => ?_
    rw [lswSplit_same w hr hk.1 hk.2]
    rcases he : lswSplit lo hi k with ⟨l, h, lo', hi', n, no⟩
    obtain ⟨r1, r2, e1, e2, e3, e4⟩ := lswSplit_ok hr hk.1 hk.2 he
    dsimp only
    by_cases hc : n ≥ C.maxLenInsFC
    · simp only [if_pos hc]
      cases d with
      | zero => exact Twin.bind (Q := fun _ => True) .overflow fun _ _ => same_lswShort hs f 0 r2 (by omega)
      | succ d => exact Twin.bind (same_lswShort hs f d r1 (by omega)) fun _ _ => same_lswShort hs f (d + 1) r2 (by omega)
    · simp only [if_neg hc]
      refine Twin.bind (Q := fun b => b = true → no ≥ C.maxLenInsFC) ?_ fun again ha => ?_
      · refine Twin.loop (I := fun q : Int × Int => Rg W q.1 q.2) (fun q hq => ?_) _ _ r1
        obtain ⟨a, b⟩ := q
        obtain ⟨q0, q1, q2, q3⟩ := hq
        dsimp only at q0 q1 q2 q3 ⊢
        refine Twin.bind (same_lswInsertion w hs q0 q1 q3) fun _ _ => ?_
        by_cases hi : no ≥ C.maxLenInsFC
        · simp only [if_pos hi]; exact .ret _ (fun _ => hi)
        · simp only [if_neg hi]
          split
          · exact .ret _ r2
          · exact .ret _ (by intro h; cases h)
      · cases again with
        | true => exact same_lswShort hs f d r2 (by have := ha rfl; omega)
        | false => exact .ret _ trivial

/-- goroutines of `Sort` -/
def lspawnOK (C : Conf) (W : Int) : LSp → Prop
  | .part l _ h => 0 ≤ l ∧ l + 1 < W ∧ -1 ≤ h ∧ h + 2 < W
  | .long lo hi _ => Rg W lo hi ∧ C.maxLenRecFC ≤ hi - lo

/-- messages of `Sort` -/
def lmsgOK (W : Int) (v : Int) : Prop := 0 ≤ v ∧ v + 1 < W

omit hF in
theorem same_lswPartCon {s : Slice} (hs : (s.len : Int) + 1 < W) {lo hi : Int} (hr : Rg W lo hi) (hl : 16 ≤ hi - lo) :
    Twin (lspawnOK C W) (lmsgOK W) (fun k => 0 ≤ k ∧ k + 1 < W) (lswPartCon C.wordSize s lo hi : Prog V LSp Int)
      (lswPartConM C.wordSize s lo hi) := by
  have hb := w.big
  obtain ⟨g0, g1, g2, g3⟩ := hr
  unfold lswPartCon lswPartConM
  refine Twin.bind (same_lswPivot w hs g0 g3 (by unfold nsConc; omega) (by unfold nsConc; omega)) fun pv hpv => ?_
  dsimp only
  rw [w.add (x := lo) (by omega) (by omega), w.sub (x := hi) (by omega) (by omega), w.mean (x := lo + 1) (by omega) (by omega) (by omega) (by omega),
    w.mean (x := pv) (by omega) (by omega) (by omega) (by omega)]
  have e1 : meanI (lo + 1) pv = (lo + 1 + pv) / 2 := rfl
  have e2 : meanI pv (hi - 1) = (pv + (hi - 1)) / 2 := rfl
  rw [w.add (x := meanI (lo + 1) pv) (by omega) (by omega), w.sub (x := meanI pv (hi - 1)) (by omega) (by omega)]
  refine .go _ _ _ (show 0 ≤ _ ∧ _ ∧ _ ∧ _ by omega) ?_
  refine Twin.bind (Q := fun _ => True) (.ret _ trivial) fun _ _ => ?_
  refine Twin.bind (same_lswPartTwo w hs (by omega) (by omega) (by omega) (by omega)) fun r hrr => ?_
  refine .recv _ _ fun v hv => ?_
  obtain ⟨v0, v1⟩ := hv
  show Twin _ _ _ (if _ then _ else _) (if _ then _ else _)
  split
  · exact same_lswGapLow w (by omega) (by omega) (by omega) v0 v1
  · exact same_lswGapHigh w hs (by omega) (by omega) (by omega) v0 v1

theorem same_lswLong {s : Slice} (hs : (s.len : Int) + 1 < W) : ∀ (f d : Nat) {lo hi : Int} (sv : Bool), Rg W lo hi → C.maxLenRecFC ≤ hi - lo →
    Twin (lspawnOK C W) (lmsgOK W) (fun _ => True) (lswLong C s f d lo hi sv : Prog V LSp Unit) (lswLongM C s f d lo hi sv)
  | 0, _, _, _, _, _, _ => .diverge
  | f + 1, d, lo, hi, sv, hr, hl => by
    have h8 := hF.ins
    have hrc := hF.rcr
    have hb := w.big
    have hr' := hr
    obtain ⟨g0, g1, g2, g3⟩ := hr'
    refine Twin.bind (same_lswPivot w hs g0 g3 (by unfold nsLong; omega) (by unfold nsLong; omega)) fun pv _ => ?_
    rw [w.add (by omega) (by omega), w.sub (by omega) (by omega)]
    refine Twin.bind (same_lswPartOne w s (by omega) (by omega) (by omega) (by omega)) fun k hk => ?_
    rw [lswSplit_same w hr hk.1 hk.2]
    rcases he : lswSplit lo hi k with ⟨l, h, lo', hi', n, no⟩
    obtain ⟨r1, r2, e1, e2, e3, e4⟩ := lswSplit_ok hr hk.1 hk.2 he
    dsimp only
    have both : (C.maxLenRecFC : Int) ≤ n → Twin (lspawnOK C W) (lmsgOK W) (fun _ => True)
        (match d with
          | 0 => do
            overflow
            lswLong C s f d lo' hi' sv
          | d' + 1 => do
            lswLong C s f d' l h sv
            lswLong C s f d lo' hi' sv : Prog V LSp Unit)
        (match d with
          | 0 => do
            overflow
            lswLongM C s f d lo' hi' sv
          | d' + 1 => do
            lswLongM C s f d' l h sv
            lswLongM C s f d lo' hi' sv) := by
      intro hq
      cases d with
      | zero => exact Twin.bind (Q := fun _ => True) .overflow fun _ _ => same_lswLong hs f 0 sv r2 (by omega)
      | succ d =>
        exact Twin.bind (same_lswLong hs f d sv r1 (by omega)) fun _ _ => same_lswLong hs f (d + 1) sv r2 (by omega)
    have rest : Twin (lspawnOK C W) (lmsgOK W) (fun _ => True)
        (if no ≥ C.maxLenRecFC then lswLong C s f d lo' hi' sv else
          match (generalizing := false) d with
          | 0 => overflow
          | d + 1 => lswShort C s f d lo' hi' : Prog V LSp Unit)
        (if no ≥ C.maxLenRecFC then lswLongM C s f d lo' hi' sv else
          match (generalizing := false) d with
          | 0 => overflow
          | d + 1 => lswShortM C s f d lo' hi') := by
      by_cases hi : no ≥ C.maxLenRecFC
      · simp only [if_pos hi]; exact same_lswLong hs f d sv r2 (by omega)
      · simp only [if_neg hi]
        cases d with
        | zero => exact .overflow
        | succ d => exact same_lswShort w hF hs f d r2 (by omega)
    by_cases hc : n < C.maxLenRecFC
    · simp only [if_pos hc]
      by_cases hi : n ≥ C.maxLenInsFC
      · simp only [if_pos hi]
        cases d with
        | zero => exact Twin.bind (Q := fun _ => True) .overflow fun _ _ => rest
        | succ d => exact Twin.bind (same_lswShort w hF hs f d r1 (by omega)) fun _ _ => rest
      · simp only [if_neg hi]; exact Twin.bind (same_lswInsertion w hs r1.1 r1.2.1 r1.2.2.2) fun _ _ => rest
    · simp only [if_neg hc]
      cases sv with
      | true =>
        refine Twin.bind same_gorFull fun full _ => ?_
        cases full with
        | true => exact both (by omega)
        | false =>
          refine .incGor _ _ fun _ => .go _ _ _ ⟨r2, ?_⟩ ?_
          · omega
          · exact same_lswLong hs f d true r1 (by omega)
      | false => exact both (by omega)

theorem same_lswBody {s : Slice} (hs : (s.len : Int) + 1 < W) (p : LSp) (hp : lspawnOK C W p) :
    Twin (lspawnOK C W) (lmsgOK W) (fun _ => True) (lswBody C s p : Prog V LSp Unit) (lswBodyM C s p) := by
  have hb := w.big
  cases p with
  | part l pv h =>
    obtain ⟨h0, h1, h2, h3⟩ := hp
    exact Twin.bind (same_lswPartOne w s h0 h1 h2 h3) fun k hk => .send _ _ _ hk (.ret _ trivial)
  | long lo hi f =>
    refine Twin.bind (same_lswLong w hF hs f C.depth true hp.1 hp.2) fun _ _ => .decGor _ _ fun n => ?_
    show Twin _ _ _ (if n = 0 then _ else _) (if n = 0 then _ else _)
    split
    · exact .send _ _ _ (show 0 ≤ (0 : Int) ∧ (0 : Int) + 1 < W by omega) (.ret _ trivial)
    · exact .ret _ trivial

theorem same_lswSortLoop {s : Slice} (hs : (s.len : Int) + 1 < W) : ∀ (f : Nat) {lo hi : Int}, Rg W lo hi → 2 * C.maxLenRecFC < hi - lo →
    Twin (lspawnOK C W) (lmsgOK W) (fun _ => True) (lswSortLoop C s f lo hi : Prog V LSp Unit) (lswSortLoopM C s f lo hi)
  | 0, _, _, _, _ => .diverge
  | f + 1, lo, hi, hr, hl => by
    have h8 := hF.ins
    have hrc := hF.rcr
    have hw := hF.word
    have hb := w.big
    have e2r : wrapInt C.wordSize (2 * C.maxLenRecFC) = 2 * C.maxLenRecFC := w.wrap (by omega) hw
    refine Twin.bind (same_lswPartCon w hs hr (by omega)) fun k hk => ?_
    rw [lswSplit_same w hr hk.1 hk.2]
    rcases he : lswSplit lo hi k with ⟨l, h, lo', hi', n, no⟩
    obtain ⟨r1, r2, e1, e2, e3, e4⟩ := lswSplit_ok hr hk.1 hk.2 he
    dsimp only
    rw [e2r]
    have stop : ∀ b : Bool, (b = false → 2 * (C.maxLenRecFC : Int) < no) → Twin (lspawnOK C W) (lmsgOK W) (fun _ => True)
        (if b = true then do
            lswLong C s f C.depth lo' hi' true
            let n ← decGor ret
            if n ≠ 0 then
              let _ ← recv ret
              pure ()
            else pure ()
          else lswSortLoop C s f lo' hi' : Prog V LSp Unit)
        (if b = true then do
            lswLongM C s f C.depth lo' hi' true
            let n ← decGor ret
            if n ≠ 0 then
              let _ ← recv ret
              pure ()
            else pure ()
          else lswSortLoopM C s f lo' hi') := by
      intro b hst
      cases b with
      | true =>
        refine Twin.bind (same_lswLong w hF hs f C.depth true r2 (by omega)) fun _ _ => .decGor _ _ fun n => ?_
        show Twin _ _ _ (if n ≠ 0 then _ else _) (if n ≠ 0 then _ else _)
        split
        · exact .recv _ _ fun _ _ => .ret _ trivial
        · exact .ret _ trivial
      | false => exact same_lswSortLoop hs f r2 (by have := hst rfl; omega)
    by_cases hc : n ≥ C.maxLenRecFC
    · simp only [if_pos hc]
      refine .incGor _ _ fun _ => .go _ _ _ ⟨r1, ?_⟩ ?_
      · omega
      · refine Twin.bind (Q := fun _ => True) (.ret _ trivial) fun _ _ => ?_
        by_cases hc : no ≤ 2 * (C.maxLenRecFC : Int)
        · simp only [if_pos hc]; exact stop true (by intro h; cases h)
        · simp only [if_neg hc]; exact Twin.bind same_gorFull fun b _ => stop b fun _ => by omega
    · simp only [if_neg hc]
      by_cases hi : n ≥ C.maxLenInsFC
      · simp only [if_pos hi]
        refine Twin.bind (same_lswShort w hF hs f C.depth r1 (by omega)) fun _ _ => ?_
        by_cases hc : no ≤ 2 * (C.maxLenRecFC : Int)
        · simp only [if_pos hc]; exact stop true (by intro h; cases h)
        · simp only [if_neg hc]; exact Twin.bind same_gorFull fun b _ => stop b fun _ => by omega
      · simp only [if_neg hi]
        refine Twin.bind (same_lswInsertion w hs r1.1 r1.2.1 r1.2.2.2) fun _ _ => ?_
        by_cases hc : no ≤ 2 * (C.maxLenRecFC : Int)
        · simp only [if_pos hc]; exact stop true (by intro h; cases h)
        · simp only [if_neg hc]; exact Twin.bind same_gorFull fun b _ => stop b fun _ => by omega

theorem same_SortLsw {s : Slice} (hs : (s.len : Int) + 1 < W) :
    Twin (lspawnOK C W) (lmsgOK W) (fun _ => True) (SortLsw C s.len s : Prog V LSp Unit) (SortLswM C s.len s) := by
  have h8 := hF.ins
  have hrc := hF.rcr
  have hw := hF.word
  have hb := w.big
  have e2r : wrapInt C.wordSize (2 * C.maxLenRecFC) = 2 * C.maxLenRecFC := w.wrap (by omega) hw
  have en : wrapInt C.wordSize ((s.len : Int) - 1) = s.len - 1 := w.wrap (by omega) (by omega)
  have en' : subI C.wordSize (s.len : Int) 1 = s.len - 1 := en
  unfold SortLsw SortLswM
  rw [en, en', e2r]
  generalize hn : (s.len : Int) - 1 = n
  have hr : 0 ≤ n → Rg W 0 n := fun h => by unfold Rg; omega
  dsimp only
  have tail : ∀ b : Bool, (b = false → 2 * (C.maxLenRecFC : Int) < n) → Twin (lspawnOK C W) (lmsgOK W) (fun _ => True)
      (if b = true then
          if n ≥ C.maxLenRecFC then lswLong C s (n + 1).toNat C.depth 0 n false
          else if n ≥ C.maxLenInsFC then lswShort C s (n + 1).toNat C.depth 0 n
          else if n > 0 then lswInsertion s 0 n
          else pure ()
        else do
          (ret ()).mkSync
          lswSortLoop C s (n + 1).toNat 0 n : Prog V LSp Unit)
      (if b = true then
          if n ≥ C.maxLenRecFC then lswLongM C s (n + 1).toNat C.depth 0 n false
          else if n ≥ C.maxLenInsFC then lswShortM C s (n + 1).toNat C.depth 0 n
          else if n > 0 then lswInsertionM C.wordSize s 0 n
          else pure ()
        else do
          (ret ()).mkSync
          lswSortLoopM C s (n + 1).toNat 0 n) := by
    intro b hbf
    cases b with
    | true =>
      simp only [if_true]
      by_cases hc : n ≥ C.maxLenRecFC
      · simp only [if_pos hc]; exact same_lswLong w hF hs _ _ false (hr (by omega)) (by omega)
      · simp only [if_neg hc]
        by_cases hi : n ≥ C.maxLenInsFC
        · simp only [if_pos hi]; exact same_lswShort w hF hs _ _ (hr (by omega)) (by omega)
        · simp only [if_neg hi]
          by_cases h0 : n > 0
          · simp only [if_pos h0]; exact same_lswInsertion w hs (by omega) (by omega) (by omega)
          · simp only [if_neg h0]; exact .ret _ trivial
    | false => exact .mkSync _ _ (same_lswSortLoop w hF hs _ (hr (by have := hbf rfl; omega)) (by have := hbf rfl; omega))
  by_cases hc : n ≤ 2 * (C.maxLenRecFC : Int)
  · simp only [if_pos hc]; exact tail true (by intro h; cases h)
  · simp only [if_neg hc]; exact .maxGor _ _ fun mg => tail (decide (mg ≤ 1)) fun _ => by omega

end

end Sorty
