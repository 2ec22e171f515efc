import Verif.SemHB
import Mathlib.Logic.Relation

/-! # Executions in which goroutines take turns

In Sem.lean the goroutines interleave at every single action. Here a goroutine that has begun runs until it comes to an action that
concerns others: a `go` statement, an action on the counter or the channel, or its end. -/

namespace Sorty

variable {V Sp : Type}

/-- The next action of the goroutine is its own: a load or store of an element, a comparison, or a read of `MaxGor`. -/
def Prog.own : Prog V Sp Unit → Bool
  | .read _ _ => true
  | .write _ _ _ => true
  | .less _ _ _ _ _ => true
  | .maxGor _ => true
  | _ => false

/-- goroutine number `i` does one action of its own -/
def OwnStep (P : Par V Sp) (i : Nat) (c c' : Cfg V Sp) : Prop :=
  ∃ p p' sh', c.ths[i]? = some p ∧ p.own = true ∧ TStep P c.sh p sh' p' [] ∧ c' = ⟨sh', c.ths.set i p'⟩

/-- goroutine number `i` runs, alone, until its next action is not its own -/
def Turn (P : Par V Sp) (i : Nat) (c c' : Cfg V Sp) : Prop :=
  Relation.TransGen (OwnStep P i) c c' ∧ ∀ p, c'.ths[i]? = some p → p.own = false

/-- Any number of turns, and of actions that concern several goroutines. The latter occur only when no turn is left. -/
inductive ByTurns (P : Par V Sp) : Cfg V Sp → Cfg V Sp → Prop
  | refl (c) : ByTurns P c c
  | turn {c c' c''} (i) : ByTurns P c c' → Turn P i c' c'' → ByTurns P c c''
  | sync {c c' c''} : ByTurns P c c' → (∀ p ∈ c'.ths, p.own = false) → Step P c' c'' → ByTurns P c c''

/-- Goroutine `t` takes part in the action, and the action is not an access to an element. -/
def Ev.syncs (t : Nat) (x : Ev) : Prop := .gor t ∈ x.who ∧ ∀ a w, x ≠ .acc t a w

end Sorty
