import Verif.SpecLsw

/-! # Vocabulary of stability -/

namespace Sorty

/-- From `l` to `l'`, elements with equal keys keep their order: for every key, the elements that have it form the same list. -/
def Stable {V K : Type} [DecidableEq K] (key : V → K) (l l' : List V) : Prop :=
  ∀ k, l'.filter (fun x => key x = k) = l.filter (fun x => key x = k)

open Classical in
/-- From `l` to `l'`, elements `less` does not distinguish keep their order. -/
def StableFor {V : Type} (less : V → V → Prop) (l l' : List V) : Prop :=
  ∀ x, l'.filter (fun y => ¬ less x y ∧ ¬ less y x) = l.filter (fun y => ¬ less x y ∧ ¬ less y x)

end Sorty
