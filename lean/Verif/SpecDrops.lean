import Verif.Spec

/-! # Vocabulary for collections of two kinds of elements -/

namespace Sorty

/-- How often an element of the greater kind (`b`) is directly followed by one of the lesser kind. -/
def drops {V : Type} (b : V → Bool) : List V → Nat
  | x :: y :: l => (if b x = true ∧ b y = false then 1 else 0) + drops b (y :: l)
  | _ => 0

end Sorty
