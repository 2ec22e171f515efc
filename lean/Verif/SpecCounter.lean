import Verif.SemHB

/-! # Vocabulary for the counter and channel of a call -/

namespace Sorty

variable {V Sp : Type}

/-- The goroutine is about to read the counter by a plain load (`gorFull`). -/
def Prog.loadsCounter : Prog V Sp Unit → Prop
  | .loadGor _ => True
  | _ => False

/-- The goroutine is about to update the counter by an atomic addition. -/
def Prog.addsCounter : Prog V Sp Unit → Prop
  | .incGor _ | .decGor _ => True
  | _ => False

/-- The goroutine is about to use the counter or the channel of the call. -/
def Prog.usesSync : Prog V Sp Unit → Prop
  | .loadGor _ | .incGor _ | .decGor _ | .send _ _ | .recv _ => True
  | _ => False

/-- A data race on the counter: one goroutine is about to read it by a plain load, another one to update it. -/
def CounterRace (c : Cfg V Sp) : Prop :=
  ∃ (i j : Nat) (p q : Prog V Sp Unit), i ≠ j ∧ c.ths[i]? = some p ∧ c.ths[j]? = some q ∧ p.loadsCounter ∧ q.addsCounter

end Sorty
