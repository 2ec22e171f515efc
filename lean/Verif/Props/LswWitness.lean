import Verif.Props.Witness
import Verif.Proofs.LswJob

/-! # A replayed execution of Sort in which many goroutines work at the same time

Like Verif.Props.Witness: 1204 equal numbers, default thresholds, `MaxGor` = 3 throughout.
-/

namespace Sorty

/-- all elements equal -/
def lwitM : Mem Nat := fun _ => 7

def lwitS : Slice := ⟨0, 1204⟩

/-- the comparator of ascending numbers -/
abbrev ltCmp : Cmp Nat := byLess (· < ·)

theorem lt_strictWeak : StrictWeak (fun x y : Nat => x < y) where
  irrefl := by simp
  trans := fun x y z => Nat.lt_trans
  incomp := by omega

def lwitSched : List Act :=
  [.run 0 600, .run 0 600, .run 0 633, .run 1 600, .run 1 600, .run 1 600, .comm 1, .run 0 29, .run 2 600, .run 2 600, .run 2 622]

/-- `<`, computed -/
def ltAns : Nat → Nat → Nat → Nat → Option Bool := fun _ _ x y => some (decide (x < y))

theorem lwit_run : (run (lswBody demoC lwitS) 3 ltAns lwitSched (start (SortLsw demoC lwitS.len lwitS) lwitM)).map accessing = some 4 := by
  decide +kernel

theorem lwit_reaches : ∃ c, SortReaches demoC lwitS ltCmp 3 False lwitM c ∧ accessing c = 4 := by
  have h := lwit_run
  simp only [Option.map_eq_some_iff] at h
  obtain ⟨c, h1, h2⟩ := h
  refine ⟨c, run_sound (P := lswPar demoC lwitS ltCmp 3 False) (le_refl 3) ?_ _ h1, h2⟩
  intro i j x y b hb
  simp only [ltAns, Option.some.injEq] at hb
  simp [lswPar, byLess, ← hb]

theorem lwit_fits : FitsInt demoC.wordSize lwitS.len := by
  show 11 * (1204 + 8) ≤ 10 * 2 ^ (8 * 8 - 1)
  norm_num

theorem lwit_depth : DepthFor demoC.depth lwitS.len := by
  show Nat.log2 1204 + 2 ≤ 64
  decide

/-- a comparator that answers anything, just never "less" for one index -/
def wildCmp : Cmp Nat := fun i k _ _ b => i = k → b = false

theorem wild_tame : Tame wildCmp where
  answers := fun _ _ _ _ => ⟨false, fun _ => rfl⟩
  strict := fun _ _ h => by simpa using h rfl

theorem demoS_fits : FitsInt demoC.wordSize demoS.len := by
  show 11 * (3000 + 8) ≤ 10 * 2 ^ (8 * 8 - 1)
  norm_num

/-- descending numbers -/
def demoDesc : Mem Nat := fun a => 5000 - a

end Sorty
