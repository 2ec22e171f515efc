import Mathlib.Analysis.SpecialFunctions.Log.NegMulLog
import Mathlib.Analysis.SpecialFunctions.Log.Base

/-! # The function `n · log₂ n` -/

namespace Sorty

/-- `n · log₂ n` -/
noncomputable def xlog (n : Nat) : ℝ := n * Real.logb 2 n

theorem xlog_split {k l : Nat} (hk : 0 < k) (hl : 0 < l) : xlog k + xlog l + 2 * (min k l : Nat) ≤ xlog (k + l) := by
  wlog h : k ≤ l generalizing k l
  · have := this hl hk (by omega)
    rw [Nat.add_comm k l, Nat.min_comm, add_comm (xlog k)]
    exact this
  rw [Nat.min_eq_left h]
  have h2 : (0 : ℝ) < Real.log 2 := Real.log_pos (by norm_num)
  have hk' : (0 : ℝ) < k := by exact_mod_cast hk
  have hl' : (0 : ℝ) < l := by exact_mod_cast hl
  have hkl : (k : ℝ) ≤ l := by exact_mod_cast h
  have e : ∀ n : Nat, xlog n = n * Real.log n / Real.log 2 := fun n => by rw [xlog, Real.logb, mul_div_assoc]
  rw [e, e, e, ← add_div, ← sub_nonneg]
  have key : (k : ℝ) * Real.log k + l * Real.log l + 2 * k * Real.log 2 ≤ (k + l : ℝ) * Real.log (k + l) := by
    set n : ℝ := k + l with hn
    have hn0 : 0 < n := by positivity
    have hlog : Real.log (n / 2) = Real.log n - Real.log 2 := Real.log_div hn0.ne' (by norm_num)
    have h3 : (k : ℝ) * Real.log k ≤ k * Real.log (n / 2) :=
      mul_le_mul_of_nonneg_left (Real.log_le_log hk' (by rw [hn]; linarith)) hk'.le
    have hconv := Real.convexOn_mul_log
    have h4 := hconv.2 (show n ∈ Set.Ici (0 : ℝ) from hn0.le) (show n / 2 ∈ Set.Ici (0 : ℝ) from (half_pos hn0).le)
      (show (0 : ℝ) ≤ 1 - 2 * k / n by rw [sub_nonneg, div_le_one hn0, hn]; linarith) (show (0 : ℝ) ≤ 2 * k / n by positivity) (by ring)
    simp only [smul_eq_mul] at h4
    have h5 : (1 - 2 * k / n) * n + 2 * k / n * (n / 2) = l := by
      field_simp
      rw [hn]; ring
    rw [h5, hlog] at h4
    have h6 : (1 - 2 * k / n) * (n * Real.log n) + 2 * k / n * (n / 2 * (Real.log n - Real.log 2)) = (n - k) * Real.log n - k * Real.log 2 := by
      field_simp
      ring
    rw [h6] at h4
    rw [hlog] at h3
    nlinarith
  have h7 : ((k + l : Nat) : ℝ) * Real.log ((k + l : Nat) : ℝ) / Real.log 2 - (((k : ℝ) * Real.log k + l * Real.log l) / Real.log 2 + 2 * k) =
      ((k + l : ℝ) * Real.log (k + l) - (k * Real.log k + l * Real.log l + 2 * k * Real.log 2)) / Real.log 2 := by
    push_cast
    field_simp
  rw [h7]
  exact div_nonneg (by linarith) h2.le

theorem xlog_le (n : Nat) : xlog n ≤ n * Nat.clog 2 n := by
  unfold xlog
  refine mul_le_mul_of_nonneg_left ?_ (Nat.cast_nonneg n)
  rcases Nat.eq_zero_or_pos n with rfl | hn
  · simp
  rw [Real.logb_le_iff_le_rpow (by norm_num) (by exact_mod_cast hn), Real.rpow_natCast]
  exact_mod_cast Nat.le_pow_clog one_lt_two n

theorem xlog_nonneg (n : Nat) : 0 ≤ xlog n := by
  unfold xlog
  rcases Nat.eq_zero_or_pos n with rfl | hn
  · simp
  · exact mul_nonneg (Nat.cast_nonneg n) (Real.logb_nonneg (by norm_num) (by exact_mod_cast hn))

end Sorty
