import Verif.Spec
import Mathlib.Algebra.Order.Group.Int
import Mathlib.Tactic.Linarith

/-! # Means without widening -/

namespace Sorty

/-- `x&y + (x^y)>>1` with a logical shift -/
def meanBitsU {w : Nat} (x y : BitVec w) : BitVec w := (x &&& y) + ((x ^^^ y) >>> 1)

/-- `x&y + (x^y)>>1` with an arithmetic shift -/
def meanBitsS {w : Nat} (x y : BitVec w) : BitVec w := (x &&& y) + (x ^^^ y).sshiftRight 1

theorem and_xor_add : ∀ x y : Nat, x + y = 2 * (x &&& y) + (x ^^^ y) := by
  intro x
  induction x using Nat.strongRecOn with
  | ind x ih =>
    intro y
    by_cases hx : x = 0
    · subst hx; simp
    · have h := ih (x / 2) (by omega) (y / 2)
      have ha : (x &&& y) / 2 = x / 2 &&& y / 2 := Nat.and_div_two
      have hb : (x ^^^ y) / 2 = x / 2 ^^^ y / 2 := Nat.xor_div_two
      have ha' : (x &&& y) % 2 = (x % 2) * (y % 2) := by
        have := Nat.and_mod_two_pow (a := x) (b := y) (n := 1)
        rw [pow_one] at this
        rw [this]
        rcases Nat.mod_two_eq_zero_or_one x with h1 | h1 <;> rcases Nat.mod_two_eq_zero_or_one y with h2 | h2 <;> simp [h1, h2]
      have hb' : (x ^^^ y) % 2 = (x + y) % 2 := by
        have := Nat.xor_mod_two_pow (a := x) (b := y) (n := 1)
        rw [pow_one] at this
        rw [this]
        rcases Nat.mod_two_eq_zero_or_one x with h1 | h1 <;> rcases Nat.mod_two_eq_zero_or_one y with h2 | h2 <;> simp [h1, h2, Nat.add_mod]
      have h3 := Nat.div_add_mod x 2
      have h4 := Nat.div_add_mod y 2
      have h5 := Nat.div_add_mod (x &&& y) 2
      have h6 := Nat.div_add_mod (x ^^^ y) 2
      rw [ha, ha'] at h5
      rw [hb, hb'] at h6
      generalize x &&& y = A at *
      generalize x ^^^ y = B at *
      generalize x / 2 &&& y / 2 = A2 at *
      generalize x / 2 ^^^ y / 2 = B2 at *
      rcases Nat.mod_two_eq_zero_or_one x with h1 | h1 <;> rcases Nat.mod_two_eq_zero_or_one y with h2 | h2 <;> simp [h1, h2] at h3 h4 h5 h6 <;> omega

theorem meanBitsU_toNat {w : Nat} (x y : BitVec w) : (meanBitsU x y).toNat = (x.toNat + y.toNat) / 2 := by
  have h := and_xor_add x.toNat y.toNat
  unfold meanBitsU
  rw [BitVec.toNat_add, BitVec.toNat_and, BitVec.toNat_ushiftRight, BitVec.toNat_xor, Nat.shiftRight_eq_div_pow, pow_one]
  have := x.isLt
  have := y.isLt
  rw [Nat.mod_eq_of_lt (by omega)]
  omega

theorem and_xor_toInt {w : Nat} (x y : BitVec w) : x.toInt + y.toInt = 2 * (x &&& y).toInt + (x ^^^ y).toInt := by
  have h := and_xor_add x.toNat y.toNat
  rw [BitVec.toInt_eq_msb_cond, BitVec.toInt_eq_msb_cond, BitVec.toInt_eq_msb_cond, BitVec.toInt_eq_msb_cond,
    BitVec.msb_and, BitVec.msb_xor, BitVec.toNat_and, BitVec.toNat_xor]
  cases x.msb <;> cases y.msb <;> simp <;> omega

theorem meanBitsS_toInt {w : Nat} (x y : BitVec w) : (meanBitsS x y).toInt = (x.toInt + y.toInt) / 2 := by
  have h := and_xor_toInt x y
  unfold meanBitsS
  rw [BitVec.toInt_add, BitVec.toInt_sshiftRight, Int.shiftRight_eq_div_pow]
  have e : (x &&& y).toInt + (x ^^^ y).toInt / ((2 ^ 1 : Nat) : Int) = (x.toInt + y.toInt) / 2 := by
    have e2 : ((2 ^ 1 : Nat) : Int) = 2 := by norm_num
    rw [e2, h]
    generalize (x &&& y).toInt = A
    generalize (x ^^^ y).toInt = B
    omega
  rw [e]
  rcases Nat.eq_zero_or_pos w with rfl | hw
  · simp [BitVec.eq_nil x, BitVec.eq_nil y]
  have h1 := BitVec.toInt_lt (x := x)
  have h2 := BitVec.toInt_lt (x := y)
  have h3 := BitVec.le_toInt x
  have h4 := BitVec.le_toInt y
  have hp : (2 : Int) ^ w = 2 * 2 ^ (w - 1) := by
    rw [← pow_succ', Nat.sub_add_cancel hw]
  rw [Int.bmod_eq_of_le]
  · push_cast; omega
  · push_cast; omega

/-- package sixb with the bit formulas -/
def Sixb.bits : Sixb :=
  { meanI4 := meanBitsS, meanU4 := meanBitsU, meanI8 := meanBitsS, meanU8 := meanBitsU }

theorem Sixb.bits_ok : Sixb.bits.OK where
  i4 x y := by
    show _ ≤ (meanBitsS x y).toInt ∧ (meanBitsS x y).toInt ≤ _
    rw [meanBitsS_toInt]; omega
  u4 x y := by
    show _ ≤ (meanBitsU x y).toNat ∧ (meanBitsU x y).toNat ≤ _
    rw [meanBitsU_toNat]; omega
  i8 x y := by
    show _ ≤ (meanBitsS x y).toInt ∧ (meanBitsS x y).toInt ≤ _
    rw [meanBitsS_toInt]; omega
  u8 x y := by
    show _ ≤ (meanBitsU x y).toNat ∧ (meanBitsU x y).toNat ≤ _
    rw [meanBitsU_toNat]; omega

end Sorty
