import Verif.Spec
import Verif.Proofs.Sample

/-! # The sample positions are a best choice -/

namespace Sorty

theorem sample_optimal {slen n : Nat} (hn : 2 ≤ n) (hs : 2 * n ≤ slen) : ∀ a t D, a + (n - 1) * t < slen → Covers slen n a t D →
    Covers slen n (minMaxSample slen n).1 (minMaxSample slen n).2.1 D := by
  obtain ⟨b1, b2, b3⟩ := minMaxSample_bounds hn hs
  obtain ⟨r1, r2, r3⟩ := sample_radius hn hs
  intro a t D hr hc
  generalize (minMaxSample slen n).1 = first at *
  generalize (minMaxSample slen n).2.1 = step at *
  generalize (minMaxSample slen n).2.2 = last at *
  -- the other choice has tails and gaps of at most D
  have h1 : a ≤ D := by
    obtain ⟨j, _, _, h⟩ := hc 0 (by omega)
    have : a ≤ a + j * t := Nat.le_add_right _ _
    omega
  have h2 : slen - 1 ≤ a + (n - 1) * t + D := by
    obtain ⟨j, hj, h, _⟩ := hc (slen - 1) (by omega)
    have : j * t ≤ (n - 1) * t := Nat.mul_le_mul_right _ (by omega)
    omega
  have h3 : t ≤ 2 * D + 1 := by
    by_contra hgt
    have ht : t ≤ (n - 1) * t := Nat.le_mul_of_pos_left _ (by omega)
    obtain ⟨j, hj, g1, g2⟩ := hc (a + D + 1) (by omega)
    rcases Nat.eq_zero_or_pos j with rfl | hj0
    · omega
    · have : t ≤ j * t := Nat.le_mul_of_pos_left _ hj0
      omega
  obtain ⟨f1, f2⟩ := r3 t (by omega) D h3 (by omega)
  -- ours too
  intro p hp
  by_cases hpf : p < first
  · exact ⟨0, by omega, by omega, by omega⟩
  by_cases hl : last ≤ p
  · exact ⟨n - 1, by omega, by omega, by omega⟩
  have e := Nat.div_add_mod (p - first) step
  have hm := Nat.mod_lt (p - first) (y := step) (by omega)
  rw [Nat.mul_comm] at e
  have hq : (p - first) / step < n - 1 := Nat.div_lt_of_lt_mul (by rw [Nat.mul_comm]; omega)
  generalize (p - first) / step = q at *
  generalize (p - first) % step = r at *
  have e' : (q + 1) * step = q * step + step := by ring
  by_cases hr : r ≤ D
  · exact ⟨q, by omega, by omega, by omega⟩
  · exact ⟨q + 1, by omega, by omega, by omega⟩

end Sorty
