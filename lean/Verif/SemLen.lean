import Verif.SemCost

/-! # Executions with their number of steps -/

namespace Sorty

variable {V Sp : Type}

/-- Exactly `n` steps from `c0`, whatever they do, in which steps charged by `w` add up to `k` (see `CSteps`). A rendezvous of two goroutines is one
step, and free. -/
inductive WSteps (P : Par V Sp) (w : Prog V Sp Unit → Nat) (c0 : Cfg V Sp) : Cfg V Sp → Nat → Nat → Prop
  | refl : WSteps P w c0 c0 0 0
  | tau {n k l₁ l₂ sh p sh' p' new} : WSteps P w c0 ⟨sh, l₁ ++ p :: l₂⟩ n k → TStep P sh p sh' p' new →
      WSteps P w c0 ⟨sh', l₁ ++ p' :: l₂ ++ new⟩ (n + 1) (k + w p)
  | commSR {n k l₁ l₂ l₃ sh v q q'} : WSteps P w c0 ⟨sh, l₁ ++ .send v q :: l₂ ++ .recv q' :: l₃⟩ n k → sh.sync = true →
      WSteps P w c0 ⟨sh, l₁ ++ q :: l₂ ++ q' v :: l₃⟩ (n + 1) k
  | commRS {n k l₁ l₂ l₃ sh v q q'} : WSteps P w c0 ⟨sh, l₁ ++ .recv q' :: l₂ ++ .send v q :: l₃⟩ n k → sh.sync = true →
      WSteps P w c0 ⟨sh, l₁ ++ q' v :: l₂ ++ q :: l₃⟩ (n + 1) k

/-- every execution has a number of steps -/
theorem Steps.counted {P : Par V Sp} (w : Prog V Sp Unit → Nat) {c0 c : Cfg V Sp} (h : Steps P c0 c) : ∃ n k, WSteps P w c0 c n k := by
  induction h with
  | refl => exact ⟨0, 0, .refl⟩
  | tail _ hs ih =>
    obtain ⟨n, k, ih⟩ := ih
    cases hs with
    | tau l₁ l₂ sh p sh' p' new ht => exact ⟨_, _, ih.tau ht⟩
    | commSR l₁ l₂ l₃ sh v q q' hs => exact ⟨_, _, ih.commSR hs⟩
    | commRS l₁ l₂ l₃ sh v q q' hs => exact ⟨_, _, ih.commRS hs⟩

/-- forgetting the number of steps -/
theorem WSteps.metered {P : Par V Sp} {w : Prog V Sp Unit → Nat} {c0 c : Cfg V Sp} {n k : Nat} (h : WSteps P w c0 c n k) : CSteps P w c0 c k := by
  induction h with
  | refl => exact .refl
  | tau _ ht ih => exact ih.tau ht
  | commSR _ hs ih => exact ih.commSR hs
  | commRS _ hs ih => exact ih.commRS hs

end Sorty
