import Verif.Logic.Run
import Verif.Props.Demo

/-! # A replayed execution in which many goroutines work at the same time

2404 equal integers, default thresholds, `MaxGor` = 3 throughout. The schedule: the caller (0) and its partition
goroutine (1) split the slice into halves; the caller starts a sorter (2) for one half and, as only two goroutines are
counted, starts partitioning the other half with another partition goroutine (3); the sorter splits its half, sees a
count of 2 and starts another sorter (4).
-/

namespace Sorty

/-- all elements equal -/
def witM : Mem Cell := fun _ => .w64 7

def witS : Slice := ⟨0, 2404⟩

def witCall : Call := SortSlice demoC (.slice .int64 witS)

def witSched : List Act := [.run 0 11, .run 0 1202, .run 1 1202, .comm 1, .run 0 13, .run 2 1212]

/-- number of goroutines about to access an element -/
def accessing {V Sp : Type} (c : Cfg V Sp) : Nat := (c.ths.filter fun p => p.access.isSome).length

theorem wit_run : (run witCall.body 3 (fun _ _ _ _ => none) witSched (start witCall.main witM)).map accessing = some 4 := by decide +kernel

theorem wit_reaches : ∃ c, witCall.Reaches 3 False witM c ∧ accessing c = 4 := by
  have h := wit_run
  simp only [Option.map_eq_some_iff] at h
  obtain ⟨c, h1, h2⟩ := h
  exact ⟨c, run_sound (P := witCall.par 3 False) (le_refl 3) (by simp) _ h1, h2⟩

theorem accessing_le {V Sp : Type} (c : Cfg V Sp) : accessing c ≤ working c := by
  unfold accessing working
  rw [← List.countP_eq_length_filter, ← List.countP_eq_length_filter]
  refine List.countP_mono_left fun p _ => ?_
  cases p <;> simp [Prog.access, Prog.isRet, Prog.isRecv]

theorem witS_typed : SliceOf demoC.wordSize .int64 witS witM := ⟨demo_view_all fun _ => ⟨_, rfl⟩, by decide⟩

theorem wit_job : SortJob demoC witS witM witCall (SortedFor demoC .int64) :=
  .slice .int64 rfl witS_typed (by simp [NaNSafe, GoType.float])

theorem wit_depth : DepthFor demoC.depth witS.len := by
  show Nat.log2 2404 + 2 ≤ 64
  decide

end Sorty
