import Verif.Spec
import Mathlib.Algebra.Order.Field.Rat
import Mathlib.Order.WithBotTop
import Mathlib.Tactic.NormNum

/-! # IEEE 754 binary formats

What a bit pattern with `eb` exponent bits and `fb` fraction bits denotes.
-/

namespace Sorty

/-- exponent field -/
def ieeeExp (eb fb n : Nat) : Nat := n / 2 ^ fb % 2 ^ eb

/-- fraction field -/
def ieeeFrac (fb n : Nat) : Nat := n % 2 ^ fb

/-- sign field -/
def ieeeNeg (eb fb n : Nat) : Prop := n / 2 ^ (eb + fb) % 2 = 1

instance (eb fb n : Nat) : Decidable (ieeeNeg eb fb n) := inferInstanceAs (Decidable (_ = _))

/-- NaN: all exponent bits set, fraction not 0. -/
def ieeeNaN (eb fb n : Nat) : Prop := ieeeExp eb fb n = 2 ^ eb - 1 ∧ ieeeFrac fb n ≠ 0

/-- The number denoted by a pattern that is not a NaN: a rational number or an infinity. The exponent bias is
2^(eb-1) - 1. -/
def ieeeValue (eb fb n : Nat) : WithBot (WithTop ℚ) :=
  if ieeeExp eb fb n = 2 ^ eb - 1 then if ieeeNeg eb fb n then ⊥ else ⊤
  else
    let q : ℚ := if ieeeExp eb fb n = 0 then ieeeFrac fb n * 2 ^ (1 - (2 ^ (eb - 1) - 1) - fb : ℤ)
      else (2 ^ fb + ieeeFrac fb n) * 2 ^ ((ieeeExp eb fb n : ℤ) - (2 ^ (eb - 1) - 1) - fb)
    ((if ieeeNeg eb fb n then -q else q : ℚ) : WithTop ℚ)

/-- The number a float32 or float64 element denotes. -/
def Cell.value : Cell → WithBot (WithTop ℚ)
  | .w32 b => ieeeValue 8 23 b.toNat
  | .w64 b => ieeeValue 11 52 b.toNat
  | _ => 0

/-- Is the float32 or float64 element a NaN, by IEEE 754? -/
def Cell.ieeeNaN : Cell → Prop
  | .w32 b => Sorty.ieeeNaN 8 23 b.toNat
  | .w64 b => Sorty.ieeeNaN 11 52 b.toNat
  | _ => False

open Classical in
/-- What a float32 or float64 element reads as: a number or infinity, or "NaN" (`none`) whatever its payload. -/
noncomputable def Cell.reading (c : Cell) : Option (WithBot (WithTop ℚ)) := if c.ieeeNaN then none else some c.value

end Sorty
