import Verif.Proofs.LswBase

/-! # Ranks of the goroutines of `Sort` -/

namespace Sorty

open Prog

variable {V Sp : Type} {ρ : Sp → Nat} {n : Nat} {s : Slice} {C : Conf} [Lesswap V] [Lesswap.OK V]

theorem spB_lswInner (b st h : Int) : SpB ρ n (lswInner s b st h : Prog V Sp Unit) := by
  unfold lswInner; spb [exact Lesswap.OK.plain _ _ _ _]

theorem spB_lswInsertion (lo hi : Int) : SpB ρ n (lswInsertion s lo hi : Prog V Sp Unit) := by
  unfold lswInsertion; spb [exact spB_lswInner _ _ _]

theorem spB_lswPivot (ws : Nat) (lo hi : Int) (k : Nat) : SpB ρ n (lswPivot ws s lo hi k : Prog V Sp Int) := by
  unfold lswPivot; dsimp only; spb [first | exact spB_lswInner _ _ _ | exact Lesswap.OK.plain _ _ _ _]

theorem spB_lswPartOne (l pv h : Int) : SpB ρ n (lswPartOne s l pv h : Prog V Sp Int) := by
  unfold lswPartOne
  refine SpB.loop (fun st => ?_) _ _
  cases st <;> unfold lswPartOneStep <;> dsimp only <;> spb [exact Lesswap.OK.plain _ _ _ _]

theorem spB_lswPartTwo (lo l pv h hi : Int) : SpB ρ n (lswPartTwo s lo l pv h hi : Prog V Sp Int) := by
  unfold lswPartTwo
  refine SpB.loop (fun st => ?_) _ _
  cases st <;> unfold lswPartTwoStep <;> dsimp only <;> spb [exact Lesswap.OK.plain _ _ _ _]

theorem spB_lswGapLow (lo r k pv : Int) : SpB ρ n (lswGapLow s lo r k pv : Prog V Sp Int) := by
  unfold lswGapLow; spb [exact Lesswap.OK.plain _ _ _ _]

theorem spB_lswGapHigh (hi r k pv : Int) : SpB ρ n (lswGapHigh s hi r k pv : Prog V Sp Int) := by
  unfold lswGapHigh; spb [exact Lesswap.OK.plain _ _ _ _]

theorem spB_lswShortPivot (lo hi : Int) : SpB ρ n (lswShortPivot s lo hi : Prog V Sp Int) := by
  unfold lswShortPivot; dsimp only; spb [exact Lesswap.OK.plain _ _ _ _]

theorem spB_lswShort : ∀ (f d : Nat) (lo hi : Int), SpB ρ n (lswShort C s f d lo hi : Prog V Sp Unit) := by
  intro f
  induction f with
  | zero => intro d lo hi; exact trivial
  | succ f ih =>
    intro d lo hi
    unfold lswShort
    cases d <;> spb [first | exact ih _ _ _ | exact spB_lswShortPivot _ _ | exact spB_lswPartOne _ _ _ |
      exact spB_lswInsertion _ _]

/-- rank of the goroutines of `Sort`: the length budget -/
def lrank : LSp → Nat
  | .part .. => 0
  | .long _ _ f => f + 1

theorem spB_lswLong : ∀ (f d : Nat) (lo hi : Int) (sv : Bool), SpB lrank (f + 1) (lswLong C s f d lo hi sv : Prog V LSp Unit) := by
  intro f
  induction f with
  | zero => intro d lo hi sv; exact trivial
  | succ f ih =>
    intro d lo hi sv
    have ih' : ∀ (d : Nat) (lo hi : Int) (sv : Bool), SpB lrank (f + 1 + 1) (lswLong C s f d lo hi sv : Prog V LSp Unit) :=
      fun d lo hi sv => (ih d lo hi sv).mono (by omega)
    unfold lswLong
    cases d <;> spb [first | exact ih' _ _ _ _ | exact spB_lswPivot _ _ _ _ | exact spB_lswPartOne _ _ _ |
      exact spB_lswInsertion _ _ | exact spB_lswShort _ _ _ _ | exact spB_gorFull |
      (refine SpB.go ?_; simp only [lrank]; omega)]

theorem spB_lswBody (sp : LSp) : SpB lrank (lrank sp) (lswBody C s sp : Prog V LSp Unit) := by
  cases sp with
  | part l pv h => exact SpB.bind (spB_lswPartOne _ _ _) fun _ => SpB.send _
  | long lo hi f =>
    refine SpB.bind (spB_lswLong f C.depth lo hi true) fun _ => SpB.bind SpB.decGor fun _ => ?_
    spb

theorem spB_lswPartCon (ws : Nat) (lo hi : Int) : SpB lrank (n + 1) (lswPartCon ws s lo hi : Prog V LSp Int) := by
  unfold lswPartCon
  refine SpB.bind (spB_lswPivot _ _ _ _) fun _ => SpB.bind (SpB.go (by simp [lrank])) fun _ =>
    SpB.bind (spB_lswPartTwo _ _ _ _ _) fun _ => SpB.bind SpB.recv fun _ => ?_
  split_ifs
  · exact spB_lswGapLow _ _ _ _
  · exact spB_lswGapHigh _ _ _ _

theorem spB_lswSortLoop : ∀ (f : Nat) (lo hi : Int), SpB lrank (f + 1) (lswSortLoop C s f lo hi : Prog V LSp Unit) := by
  intro f
  induction f with
  | zero => intro lo hi; exact trivial
  | succ f ih =>
    intro lo hi
    have ih' : ∀ lo hi : Int, SpB lrank (f + 1 + 1) (lswSortLoop C s f lo hi : Prog V LSp Unit) := fun lo hi => (ih lo hi).mono (by omega)
    have hl : ∀ (d : Nat) (lo hi : Int) (sv : Bool), SpB lrank (f + 1 + 1) (lswLong C s f d lo hi sv : Prog V LSp Unit) :=
      fun d lo hi sv => (spB_lswLong f d lo hi sv).mono (by omega)
    unfold lswSortLoop
    spb [first | exact ih' _ _ | exact hl _ _ _ _ | exact spB_lswPartCon _ _ _ |
      exact spB_lswInsertion _ _ | exact spB_lswShort _ _ _ _ | exact spB_gorFull | (refine SpB.go ?_; simp only [lrank]; omega)]

theorem spB_sortLsw (k : Int) : ∃ n, SpB lrank n (SortLsw C k s : Prog V LSp Unit) := by
  refine ⟨(wrapInt C.wordSize (k - 1) + 1).toNat + 1, ?_⟩
  unfold SortLsw
  spb [first | exact spB_lswLong _ _ _ _ _ | exact spB_lswInsertion _ _ | exact spB_lswShort _ _ _ _ | exact spB_lswSortLoop _ _ _]

end Sorty
