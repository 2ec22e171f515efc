import Verif.Proofs.Median
import Verif.Proofs.LswPivot
import Verif.Proofs.View

/-! # Pivots of `Sort` are medians of their samples -/

namespace Sorty

open Prog

variable {V Sp α : Type} {ρ : Type} [LinearOrder ρ] {r : V → ρ}

theorem swp_exec {cmp : Nat → Nat → V → V → Bool → Prop} {less : V → V → Bool} {W R : Set Nat}
    (hc : ∀ i j x y, cmp i j x y (less x y)) {p : Prog V Sp α} : ∀ {m} {Q : α → Mem V → Prop},
    swp cmp W R p m Q → ∃ a m', p.exec less m = some (a, m') ∧ Q a m' := by
  induction p with
  | ret a => intro m Q h; exact ⟨a, m, rfl, h⟩
  | read i k ih => intro m Q h; exact ih _ h.2
  | write i v k ih => intro m Q h; exact ih h.2
  | less i j x y k ih => intro m Q h; exact ih _ (h.2 _ (hc i j x y))
  | _ => intro m Q h; exact h.elim

/-- both halves, for the pivots of `Sort` -/
theorem LPivMid.half {s : Slice} {lo hi : Nat} {f st t : Nat} {m m' m1 : Mem V} {pv : Int} (hst : 0 < st)
    (hin : f + 2 * t * st < hi + 1 - lo) (h : LPivMid r s ((lo : Int) + f) st t m pv m' m1) :
    Half (fun c => r c ≤ r (s.E m' pv)) (picks ((⟨s.off + lo, hi + 1 - lo⟩ : Slice).view m) f st (2 * t + 1)) ∧
    Half (fun c => r (s.E m' pv) ≤ r c) (picks ((⟨s.off + lo, hi + 1 - lo⟩ : Slice).view m) f st (2 * t + 1)) := by
  have hin' : ∀ j < 2 * t + 1, f + j * st < (⟨s.off + lo, hi + 1 - lo⟩ : Slice).len := by
    intro j hj
    have : j * st ≤ 2 * t * st := Nat.mul_le_mul_right _ (by omega)
    show f + j * st < hi + 1 - lo
    omega
  rw [picks_view hin']
  dsimp only
  obtain ⟨σ, s1, s2⟩ := h.rp
  have hE : ∀ (m : Mem V) (j : Nat), s.E m ((lo : Int) + f + (j : Int) * st) = m (s.off + lo + (f + j * st)) := by
    intro m j
    unfold Slice.E
    congr 1
    have : ((lo : Int) + f + (j : Int) * st).toNat = lo + (f + j * st) := by
      have : (lo : Int) + f + (j : Int) * st = ((lo + (f + j * st) : Nat) : Int) := by push_cast; ring
      rw [this, Int.toNat_natCast]
    omega
  have had : ∀ a, a ∈ lsamp s ((lo : Int) + f) st (2 * t + 1) ↔ ∃ j < 2 * t + 1, a = s.off + lo + (f + j * st) := by
    intro a
    constructor
    · rintro ⟨j, j0, j1, rfl⟩
      obtain ⟨k, rfl⟩ : ∃ k : Nat, j = k := ⟨j.toNat, by omega⟩
      refine ⟨k, by omega, ?_⟩
      unfold Slice.ad
      have : (lo : Int) + f + (k : Int) * st = ((lo + (f + k * st) : Nat) : Int) := by push_cast; ring
      rw [this, Int.toNat_natCast]; omega
    · rintro ⟨j, hj, rfl⟩
      refine ⟨j, by omega, by omega, ?_⟩
      unfold Slice.ad
      have : (lo : Int) + f + (j : Int) * st = ((lo + (f + j * st) : Nat) : Int) := by push_cast; ring
      rw [this, Int.toNat_natCast]; omega
  have hτ : ∀ j, ∃ k, j < 2 * t + 1 → k < 2 * t + 1 ∧ σ (s.off + lo + (f + j * st)) = s.off + lo + (f + k * st) := by
    intro j
    by_cases hj : j < 2 * t + 1
    · obtain ⟨k, hk, e⟩ := (had _).1 (perm_mem s1 ((had _).2 ⟨j, hj, rfl⟩))
      exact ⟨k, fun _ => ⟨hk, e⟩⟩
    · exact ⟨0, fun h => absurd h hj⟩
  choose τ hτ using hτ
  have hp : ((List.range (2 * t + 1)).map fun j => m1 (s.off + lo + (f + j * st))).Perm
      ((List.range (2 * t + 1)).map fun j => m (s.off + lo + (f + j * st))) := by
    have := (map_range_perm (n := 2 * t + 1) (f := τ) (fun i hi => (hτ i hi).1) (fun i hi j hj e => by
      have e1 := (hτ i hi).2
      rw [e, ← (hτ j hj).2] at e1
      have e2 := σ.injective e1
      have e3 : i * st = j * st := by omega
      exact Nat.eq_of_mul_eq_mul_right hst e3)).map fun j => m (s.off + lo + (f + j * st))
    rw [List.map_map] at this
    refine List.Perm.trans (.of_eq ?_) this
    refine List.map_congr_left fun j hj => ?_
    rw [s2, (hτ j (List.mem_range.1 hj)).2]; rfl
  have hle : ∀ i j, i ≤ j → j < 2 * t + 1 → r (m1 (s.off + lo + (f + i * st))) ≤ r (m1 (s.off + lo + (f + j * st))) := by
    intro i j hij hj
    rcases Nat.eq_or_lt_of_le hij with rfl | hij
    · exact le_rfl
    · have := h.sorted i j (by omega) (by omega) (by omega)
      rwa [hE, hE] at this
  have hpv : s.E m' pv = m1 (s.off + lo + (f + t * st)) := by rw [h.eq, h.pos, hE]
  rw [hpv]
  constructor
  · refine Half.of_perm ?_ hp
    refine ⟨_, List.take_sublist (t + 1) _, ?_, ?_⟩
    · intro x hx
      rw [← List.map_take, List.take_range] at hx
      obtain ⟨i, hi, rfl⟩ := List.mem_map.1 hx
      have hi := List.mem_range.1 hi
      exact hle _ _ (by omega) (by omega)
    · simp; omega
  · refine Half.of_perm ?_ hp
    refine ⟨_, List.drop_sublist t _, ?_, ?_⟩
    · intro x hx
      obtain ⟨i, hi, rfl⟩ := List.mem_iff_getElem.1 hx
      simp only [List.length_drop, List.length_map, List.length_range] at hi
      simp only [List.getElem_drop, List.getElem_map, List.getElem_range]
      exact hle _ _ (by omega) (by omega)
    · simp; omega

end Sorty
