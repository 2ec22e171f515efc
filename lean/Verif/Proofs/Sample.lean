import Verif.Model.Sample
import Mathlib.Tactic.Linarith
import Mathlib.Tactic.Ring
import Mathlib.Algebra.Order.Ring.Nat
import Mathlib.Tactic.NormNum

/-! # Sample selection -/

namespace Sorty

theorem minMaxSample_bounds {slen n : Nat} (hn : 2 ≤ n) (hs : 2 * n ≤ slen) :
    2 ≤ (minMaxSample slen n).2.1 ∧
    (minMaxSample slen n).2.2 = (minMaxSample slen n).1 + (n - 1) * (minMaxSample slen n).2.1 ∧
    (minMaxSample slen n).2.2 < slen := by
  have hq : 2 ≤ slen / n := (Nat.le_div_iff_mul_le (by omega)).2 hs
  have hd : n * (slen / n) + slen % n = slen := Nat.div_add_mod slen n
  have hm : n * (slen / n) = (n - 1) * (slen / n) + slen / n := by
    obtain ⟨k, rfl⟩ : ∃ k, n = k + 1 := ⟨n - 1, by omega⟩
    simp; ring
  unfold minMaxSample
  generalize slen / n = q at *
  generalize slen % n = e at *
  generalize hsp : (n - 1) * q = sp at *
  dsimp only
  split_ifs with hc
  · refine ⟨by omega, ?_, ?_⟩
    · dsimp only; rw [Nat.mul_add, hsp]; omega
    · dsimp only; omega
  · exact ⟨hq, by dsimp only, by dsimp only; omega⟩

/-- `minMaxFour` on lengths below 2^32: the exact values -/
theorem minMaxFour_nat {n : Nat} (h : 8 ≤ n) (h2 : n < 2 ^ 32) :
    (minMaxFour (UInt32.ofNat n)).1.toNat = (if n % 8 = 2 then n / 8 - 1 else if n % 8 = 5 ∨ n % 8 = 6 then n / 8 + 1 else n / 8) ∧
    (minMaxFour (UInt32.ofNat n)).2.toNat = (if n % 8 = 2 ∨ n % 8 = 3 ∨ n % 8 = 7 then n / 4 + 1 else n / 4) := by
  have e0 : (UInt32.ofNat n).toNat = n := by rw [UInt32.toNat_ofNat']; exact Nat.mod_eq_of_lt h2
  have em : (UInt32.ofNat n &&& 7).toNat = n % 8 := by
    rw [UInt32.toNat_and, e0]; exact Nat.and_two_pow_sub_one_eq_mod n 3
  have e3 : (UInt32.ofNat n >>> 3).toNat = n / 8 := by
    rw [UInt32.toNat_shiftRight, e0, Nat.shiftRight_eq_div_pow, show UInt32.toNat 3 % 32 = 3 from rfl]
  have e2 : (UInt32.ofNat n >>> 2).toNat = n / 4 := by
    rw [UInt32.toNat_shiftRight, e0, Nat.shiftRight_eq_div_pow, show UInt32.toNat 2 % 32 = 2 from rfl]
  have hmod : ∀ k : UInt32, (UInt32.ofNat n &&& 7 = k) ↔ n % 8 = k.toNat := by
    intro k; rw [← UInt32.toNat_inj, em]
  unfold minMaxFour firstFour stepFour
  dsimp only
  simp only [hmod]
  have t2 : (2 : UInt32).toNat = 2 := rfl
  have t3 : (3 : UInt32).toNat = 3 := rfl
  have t5 : (5 : UInt32).toNat = 5 := rfl
  have t6 : (6 : UInt32).toNat = 6 := rfl
  have t7 : (7 : UInt32).toNat = 7 := rfl
  have t1 : (1 : UInt32).toNat = 1 := rfl
  have t0 : (0 : UInt32).toNat = 0 := rfl
  have tn : (~~~0 : UInt32).toNat = 4294967295 := rfl
  simp only [t2, t3, t5, t6, t7]
  constructor
  · split_ifs with h1 h3
    · rw [UInt32.toNat_add, e3, tn]; omega
    · rw [UInt32.toNat_add, e3, t1]; omega
    · rw [UInt32.toNat_add, e3, t0]; omega
  · split_ifs with h1
    · rw [UInt32.toNat_add, e2, t1]; omega
    · rw [UInt32.toNat_add, e2, t0]; omega

theorem minMaxFour_bounds {n : Nat} (h : 8 ≤ n) (h2 : n < 2 ^ 32) :
    1 ≤ (minMaxFour (UInt32.ofNat n)).2.toNat ∧
    (minMaxFour (UInt32.ofNat n)).1.toNat + 3 * (minMaxFour (UInt32.ofNat n)).2.toNat < n := by
  obtain ⟨h3, h4⟩ := minMaxFour_nat h h2
  rw [h3, h4]
  split_ifs <;> omega

theorem minMaxFour_idx {n : Nat} (h : 8 ≤ n) (h2 : n < 2 ^ 32) :
    let a := (minMaxFour (UInt32.ofNat n)).1
    let s := (minMaxFour (UInt32.ofNat n)).2
    (a + s).toNat = a.toNat + s.toNat ∧ (a + 2 * s).toNat = a.toNat + 2 * s.toNat ∧
    (a + 3 * s).toNat = a.toNat + 3 * s.toNat := by
  obtain ⟨h3, h4⟩ := minMaxFour_bounds h h2
  dsimp only
  generalize (minMaxFour (UInt32.ofNat n)).1 = a at *
  generalize (minMaxFour (UInt32.ofNat n)).2 = s at *
  have t2 : (2 : UInt32).toNat = 2 := rfl
  have t3 : (3 : UInt32).toNat = 3 := rfl
  refine ⟨?_, ?_, ?_⟩
  · rw [UInt32.toNat_add]; omega
  · rw [UInt32.toNat_add, UInt32.toNat_mul, t2]; omega
  · rw [UInt32.toNat_add, UInt32.toNat_mul, t3]; omega

theorem minMaxFour_zero : minMaxFour 0 = (0, 0) := by decide

/-- with 2^32 elements or more the four indices are below the last one -/
theorem minMaxFour_big {n : Nat} (h : 2 ^ 32 ≤ n) :
    let a := (minMaxFour (UInt32.ofNat n)).1
    let s := (minMaxFour (UInt32.ofNat n)).2
    a.toNat + 1 < n ∧ (a + s).toNat + 1 < n ∧ (a + 2 * s).toNat + 1 < n ∧ (a + 3 * s).toNat + 1 < n := by
  rcases Nat.eq_or_lt_of_le h with rfl | h'
  · decide
  · dsimp only
    refine ⟨?_, ?_, ?_, ?_⟩ <;> exact lt_of_lt_of_le (Nat.succ_lt_succ (UInt32.toNat_lt _)) h'

/-- on machine words nothing wraps -/
theorem minMaxSampleW_toNat {w : Nat} (slen n : BitVec w) (hn : 2 ≤ n.toNat) (hs : 2 * n.toNat ≤ slen.toNat) :
    (minMaxSampleW slen n).1.toNat = (minMaxSample slen.toNat n.toNat).1 ∧
    (minMaxSampleW slen n).2.1.toNat = (minMaxSample slen.toNat n.toNat).2.1 ∧
    (minMaxSampleW slen n).2.2.toNat = (minMaxSample slen.toNat n.toNat).2.2 := by
  have hb := minMaxSample_bounds hn hs
  have hlt := slen.isLt
  have hnlt := n.isLt
  have e1 : (1 : BitVec w).toNat = 1 := by
    rcases Nat.eq_zero_or_pos w with rfl | h
    · simp at hnlt; omega
    · exact BitVec.toNat_one h
  have hq : 2 ≤ slen.toNat / n.toNat := (Nat.le_div_iff_mul_le (by omega)).2 hs
  have hd : n.toNat * (slen.toNat / n.toNat) + slen.toNat % n.toNat = slen.toNat := Nat.div_add_mod _ _
  have hm : n.toNat * (slen.toNat / n.toNat) = (n.toNat - 1) * (slen.toNat / n.toNat) + slen.toNat / n.toNat := by
    obtain ⟨k, hk⟩ : ∃ k, n.toNat = k + 1 := ⟨n.toNat - 1, by omega⟩
    rw [hk]; simp; ring
  have e2 : (n - 1).toNat = n.toNat - 1 := by
    rw [BitVec.toNat_sub_of_le (by rw [BitVec.le_def, e1]; omega), e1]
  have e3 : (slen / n).toNat = slen.toNat / n.toNat := BitVec.toNat_udiv
  have e4 : ((n - 1) * (slen / n)).toNat = (n.toNat - 1) * (slen.toNat / n.toNat) := by
    rw [BitVec.toNat_mul, e2, e3]; exact Nat.mod_eq_of_lt (by omega)
  have e5 : (slen - (n - 1) * (slen / n)).toNat = slen.toNat - (n.toNat - 1) * (slen.toNat / n.toNat) := by
    rw [BitVec.toNat_sub_of_le (by rw [BitVec.le_def, e4]; omega), e4]
  have e6 : (slen / n + 1).toNat = slen.toNat / n.toNat + 1 := by
    have : slen.toNat / n.toNat ≤ slen.toNat / 2 := Nat.div_le_div_left hn (by omega)
    rw [BitVec.toNat_add, e3, e1]; exact Nat.mod_eq_of_lt (by omega)
  have sh : ∀ x : BitVec w, (x >>> 1).toNat = x.toNat / 2 := fun x => by
    rw [BitVec.toNat_ushiftRight, Nat.shiftRight_eq_div_pow, pow_one]
  have hc : (slen - (n - 1) * (slen / n) > n - 1 ∧ (slen - (n - 1) * (slen / n)) >>> 1 > (slen / n + 1) >>> 1) ↔
      (slen.toNat - (n.toNat - 1) * (slen.toNat / n.toNat) > n.toNat - 1 ∧
        (slen.toNat - (n.toNat - 1) * (slen.toNat / n.toNat)) / 2 > (slen.toNat / n.toNat + 1) / 2) := by
    rw [gt_iff_lt, BitVec.lt_def, e2, e5, gt_iff_lt, BitVec.lt_def, sh, sh, e5, e6]
  revert hb
  unfold minMaxSampleW minMaxSample
  dsimp only
  simp only [hc]
  split_ifs with h
  · intro hb
    dsimp only at hb ⊢
    have e8 : (slen - (n - 1) * (slen / n) - (n - 1)).toNat = slen.toNat - (n.toNat - 1) * (slen.toNat / n.toNat) - (n.toNat - 1) := by
      rw [BitVec.toNat_sub_of_le (by rw [BitVec.le_def, e5, e2]; omega), e5, e2]
    refine ⟨by rw [sh, e8], e6, ?_⟩
    rw [BitVec.toNat_add, sh, e8, BitVec.toNat_add, e4, e2]
    have e9 : ((n.toNat - 1) * (slen.toNat / n.toNat) + (n.toNat - 1)) % 2 ^ w =
      (n.toNat - 1) * (slen.toNat / n.toNat) + (n.toNat - 1) := Nat.mod_eq_of_lt (by omega)
    rw [e9, Nat.mod_eq_of_lt (by omega)]
  · intro hb
    dsimp only at hb ⊢
    refine ⟨by rw [sh, e5], e3, ?_⟩
    rw [BitVec.toNat_add, sh, e5, e4, Nat.mod_eq_of_lt (by omega)]

/-- how far positions are from their nearest sample -/
theorem sample_radius {slen n : Nat} (hn : 2 ≤ n) (hs : 2 * n ≤ slen) :
    (minMaxSample slen n).1 - (slen - 1 - (minMaxSample slen n).2.2) ≤ 1 ∧
    slen - 1 - (minMaxSample slen n).2.2 ≤ (minMaxSample slen n).1 ∧
    ∀ t, (n - 1) * t < slen → ∀ D, t ≤ 2 * D + 1 → slen - 1 - (n - 1) * t ≤ 2 * D →
      (minMaxSample slen n).1 ≤ D ∧ (minMaxSample slen n).2.1 ≤ 2 * D + 1 := by
  have hq : 2 ≤ slen / n := (Nat.le_div_iff_mul_le (by omega)).2 hs
  have hd : n * (slen / n) + slen % n = slen := Nat.div_add_mod slen n
  have hr : slen % n < n := Nat.mod_lt _ (by omega)
  have hm : n * (slen / n) = (n - 1) * (slen / n) + slen / n := by
    obtain ⟨k, rfl⟩ : ∃ k, n = k + 1 := ⟨n - 1, by omega⟩
    simp; ring
  -- slen ≤ n * (2D+1)
  have low : ∀ t, (n - 1) * t < slen → ∀ D, t ≤ 2 * D + 1 → slen - 1 - (n - 1) * t ≤ 2 * D → slen ≤ n * (2 * D + 1) := by
    intro t h1 D h2 h3
    have : (n - 1) * t ≤ (n - 1) * (2 * D + 1) := Nat.mul_le_mul_left _ h2
    have e : n * (2 * D + 1) = (n - 1) * (2 * D + 1) + (2 * D + 1) := by
      obtain ⟨k, rfl⟩ : ∃ k, n = k + 1 := ⟨n - 1, by omega⟩
      simp; ring
    omega
  have lowq : ∀ D, slen ≤ n * (2 * D + 1) → slen / n ≤ 2 * D + 1 ∧ (0 < slen % n → slen / n + 1 ≤ 2 * D + 1) := by
    intro D h
    have h1 : slen / n ≤ 2 * D + 1 := Nat.le_of_mul_le_mul_left (by omega : n * (slen / n) ≤ n * (2 * D + 1)) (by omega)
    refine ⟨h1, fun h2 => ?_⟩
    by_contra h3
    have : slen / n = 2 * D + 1 := by omega
    rw [this] at hd
    omega
  have small : ∀ t, (n - 1) * t < slen → ∀ D, t ≤ 2 * D + 1 → slen - 1 - (n - 1) * t ≤ 2 * D → t ≤ slen / n →
      slen - 1 - (n - 1) * (slen / n) ≤ 2 * D := by
    intro t h1 D h2 h3 h4
    have : (n - 1) * t ≤ (n - 1) * (slen / n) := Nat.mul_le_mul_left _ h4
    omega
  have big : ∀ t, (n - 1) * t < slen → slen / n < t → (n - 1) * (slen / n) + (n - 1) < slen := by
    intro t h1 h2
    have : (n - 1) * (slen / n + 1) ≤ (n - 1) * t := Nat.mul_le_mul_left _ h2
    have e : (n - 1) * (slen / n + 1) = (n - 1) * (slen / n) + (n - 1) := by ring
    omega
  unfold minMaxSample
  dsimp only
  generalize hq0 : slen / n = q at *
  generalize hr0 : slen % n = r at *
  generalize hsp : (n - 1) * q = sp at *
  split_ifs with hc
  · refine ⟨by dsimp only; omega, by dsimp only; omega, ?_⟩
    intro t h1 D h2 h3
    obtain ⟨l1, l2⟩ := lowq D (low t h1 D h2 h3)
    have : 0 < r := by omega
    have := l2 this
    dsimp only
    omega
  · refine ⟨by dsimp only; omega, by dsimp only; omega, ?_⟩
    intro t h1 D h2 h3
    obtain ⟨l1, l2⟩ := lowq D (low t h1 D h2 h3)
    dsimp only
    refine ⟨?_, l1⟩
    rcases Nat.eq_zero_or_pos r with h0 | h0
    · omega
    · have := l2 h0
      by_cases hh : (slen - sp) / 2 > (q + 1) / 2
      · have : t ≤ q := by
          by_contra hc2
          have := big t h1 (by omega)
          omega
        have := small t h1 D h2 h3 this
        omega
      · omega

/-- `minMaxFour` is `minMaxSample` with four samples -/
theorem minMaxFour_eq {n : Nat} (h : 8 ≤ n) (h2 : n < 2 ^ 32) :
    (minMaxFour (UInt32.ofNat n)).1.toNat = (minMaxSample n 4).1 ∧
    (minMaxFour (UInt32.ofNat n)).2.toNat = (minMaxSample n 4).2.1 := by
  obtain ⟨h3, h4⟩ := minMaxFour_nat h h2
  rw [h3, h4]
  unfold minMaxSample
  dsimp only
  split_ifs <;> dsimp only <;> omega

end Sorty
