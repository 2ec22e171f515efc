import Verif.Sem

/-! # Executions during which MaxGor never drops below a given value -/

namespace Sorty

variable {V Sp : Type}

/-- One step in which a read of `MaxGor`, if it is one, yields at least `L`. -/
inductive HighStep (P : Par V Sp) (L : Nat) : Cfg V Sp → Cfg V Sp → Prop
  | tau (l₁ l₂ sh p sh' p' new) : TStep P sh p sh' p' new →
      (∀ k, p = .maxGor k → ∃ n, L ≤ n ∧ n ≤ P.M ∧ p' = k n) →
      HighStep P L ⟨sh, l₁ ++ p :: l₂⟩ ⟨sh', l₁ ++ p' :: l₂ ++ new⟩
  | commSR (l₁ l₂ l₃ sh v k k') : sh.sync = true →
      HighStep P L ⟨sh, l₁ ++ .send v k :: l₂ ++ .recv k' :: l₃⟩ ⟨sh, l₁ ++ k :: l₂ ++ k' v :: l₃⟩
  | commRS (l₁ l₂ l₃ sh v k k') : sh.sync = true →
      HighStep P L ⟨sh, l₁ ++ .recv k' :: l₂ ++ .send v k :: l₃⟩ ⟨sh, l₁ ++ k' v :: l₂ ++ k :: l₃⟩

/-- Any number of such steps. -/
inductive HighSteps (P : Par V Sp) (L : Nat) : Cfg V Sp → Cfg V Sp → Prop
  | refl (c) : HighSteps P L c c
  | tail {c c' c''} : HighSteps P L c c' → HighStep P L c' c'' → HighSteps P L c c''

/-- these steps are steps -/
theorem HighStep.step {P : Par V Sp} {L : Nat} {c c' : Cfg V Sp} (h : HighStep P L c c') : Step P c c' := by
  cases h with
  | tau l₁ l₂ sh p sh' p' new h _ => exact .tau _ _ _ _ _ _ _ h
  | commSR l₁ l₂ l₃ sh v k k' h => exact .commSR _ _ _ _ _ _ _ h
  | commRS l₁ l₂ l₃ sh v k k' h => exact .commRS _ _ _ _ _ _ _ h

theorem HighSteps.steps {P : Par V Sp} {L : Nat} {c c' : Cfg V Sp} (h : HighSteps P L c c') : Steps P c c' := by
  induction h with
  | refl => exact .refl _
  | tail _ h ih => exact ih.tail h.step

end Sorty
