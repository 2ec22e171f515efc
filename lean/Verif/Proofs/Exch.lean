import Verif.Proofs.LayeredRun
import Mathlib.Algebra.Order.BigOperators.Group.Finset
import Mathlib.Data.Finset.Card
import Mathlib.Algebra.BigOperators.Ring.Finset

/-! # Sets of memories in which the order of a range is arbitrary -/

namespace Sorty

variable {V : Type} {ρ : Type} [LinearOrder ρ]

/-- the addresses of a range -/
def Slice.fin (s : Slice) : Finset Nat := Finset.Ico s.off (s.off + s.len)

theorem Slice.mem_fin {s : Slice} {a : Nat} : a ∈ s.fin ↔ a ∈ s.rng := by
  unfold Slice.fin
  rw [Finset.mem_Ico]
  rfl

theorem Slice.card_fin (s : Slice) : s.fin.card = s.len := by
  unfold Slice.fin
  simp

/-- In every memory of `𝓜` the elements of the range are different, those at `X` are the least and those at `Y` the greatest; and the elements at
any two other addresses can be exchanged. -/
structure Exch (r : V → ρ) (s : Slice) (𝓜 : Finset (Mem V)) (X Y : Finset Nat) : Prop where
  inj : ∀ m ∈ 𝓜, ∀ i ∈ s.rng, ∀ j ∈ s.rng, r (m i) = r (m j) → i = j
  bot : ∀ m ∈ 𝓜, ∀ x ∈ X, x ∈ s.rng → ∀ a ∈ s.rng, r (m x) ≤ r (m a)
  top : ∀ m ∈ 𝓜, ∀ y ∈ Y, y ∈ s.rng → ∀ a ∈ s.rng, r (m a) ≤ r (m y)
  swap : ∀ m ∈ 𝓜, ∀ x ∈ s.rng, ∀ y ∈ s.rng, x ∉ X → x ∉ Y → y ∉ X → y ∉ Y → m ∘ Equiv.swap x y ∈ 𝓜

variable {r : V → ρ} {s : Slice} {𝓜 : Finset (Mem V)} {X Y : Finset Nat}

theorem Exch.dual (h : Exch r s 𝓜 X Y) : Exch (fun v => OrderDual.toDual (r v)) s 𝓜 Y X :=
  ⟨fun m hm i hi j hj e => h.inj m hm i hi j hj (OrderDual.toDual.injective e), fun m hm x hx hs a ha => h.top m hm x hx hs a ha,
    fun m hm x hx hs a ha => h.bot m hm x hx hs a ha, fun m hm x hx y hy a b c d => h.swap m hm x hx y hy b a d c⟩

/-- how many elements of the range are less than `p` -/
def lower (r : V → ρ) (s : Slice) (m : Mem V) (p : ρ) : Nat := cnt (fun a => r (m a) < p) s.off (s.off + s.len)

theorem lower_mono {m : Mem V} {p q : ρ} (h : p ≤ q) : lower r s m p ≤ lower r s m q := by
  unfold lower cnt
  refine Finset.card_le_card fun x hx => ?_
  rw [Finset.mem_filter] at hx ⊢
  exact ⟨hx.1, hx.2.trans_le h⟩

theorem lower_lt {m : Mem V} {i : Nat} (hi : i ∈ s.rng) {q : ρ} (h : r (m i) < q) : lower r s m (r (m i)) < lower r s m q := by
  unfold lower cnt
  refine Finset.card_lt_card (Finset.ssubset_iff_subset_ne.2 ⟨fun x hx => ?_, fun e => ?_⟩)
  · rw [Finset.mem_filter] at hx ⊢
    exact ⟨hx.1, hx.2.trans h⟩
  · have : i ∈ (Finset.Ico s.off (s.off + s.len)).filter fun a => r (m a) < q :=
      Finset.mem_filter.2 ⟨Finset.mem_Ico.2 hi, h⟩
    rw [← e, Finset.mem_filter] at this
    exact lt_irrefl _ this.2

theorem lower_swap {m : Mem V} {x y : Nat} (hx : x ∈ s.rng) (hy : y ∈ s.rng) (p : ρ) : lower r s (m ∘ Equiv.swap x y) p = lower r s m p := by
  unfold lower
  refine cnt_perm (r := fun v => r v < p) ⟨Equiv.swap x y, fun i hi => ?_, fun i _ => rfl⟩
  exact Equiv.swap_apply_of_ne_of_ne (by rintro rfl; exact hi hx) (by rintro rfl; exact hi hy)

/-- few addresses have a low rank -/
theorem few_low {m : Mem V} (hinj : ∀ i ∈ s.rng, ∀ j ∈ s.rng, r (m i) = r (m j) → i = j) (j : Nat) :
    (s.fin.filter fun y => lower r s m (r (m y)) < j).card ≤ j := by
  refine (Finset.card_le_card_of_injOn (t := Finset.range j) (fun y => lower r s m (r (m y))) ?_ ?_).trans_eq (Finset.card_range j)
  · intro y hy
    rw [Finset.mem_coe, Finset.mem_filter] at hy
    rw [Finset.mem_coe, Finset.mem_range]
    exact hy.2
  · intro y hy z hz e
    rw [Finset.mem_coe, Finset.mem_filter, Slice.mem_fin] at hy hz
    dsimp only at e
    rcases lt_trichotomy (r (m y)) (r (m z)) with h | h | h
    · have := lower_lt hy.1 h; omega
    · exact hinj y hy.1 z hz.1 h
    · have := lower_lt hz.1 h; omega

open Classical in
/-- every free address is low equally often -/
theorem Exch.low_one (h : Exch r s 𝓜 X Y) (hX : (X ∩ s.fin).card ≤ 1) (hY : (Y ∩ s.fin).card ≤ 1) {x : Nat} (hx : x ∈ s.rng) (hxX : x ∉ X) (hxY : x ∉ Y) (j : Nat) :
    (s.len - 2) * (𝓜.filter fun m => lower r s m (r (m x)) < j).card ≤ j * 𝓜.card := by
  set fr := s.fin.filter fun y => y ∉ X ∧ y ∉ Y with hfr
  have hcard : s.len - 2 ≤ fr.card := by
    have h1 : s.fin ⊆ fr ∪ ((X ∩ s.fin) ∪ (Y ∩ s.fin)) := by
      intro a ha
      simp only [hfr, Finset.mem_union, Finset.mem_filter, Finset.mem_inter]
      by_cases ha1 : a ∈ X
      · exact .inr (.inl ⟨ha1, ha⟩)
      · by_cases ha2 : a ∈ Y
        · exact .inr (.inr ⟨ha2, ha⟩)
        · exact .inl ⟨ha, ha1, ha2⟩
    have h2 := Finset.card_le_card h1
    have h3 := Finset.card_union_le fr ((X ∩ s.fin) ∪ (Y ∩ s.fin))
    have h4 := Finset.card_union_le (X ∩ s.fin) (Y ∩ s.fin)
    have h5 := s.card_fin
    omega
  have hall : ∀ y ∈ fr, (𝓜.filter fun m => lower r s m (r (m x)) < j).card = (𝓜.filter fun m => lower r s m (r (m y)) < j).card := by
    intro y hy
    rw [hfr, Finset.mem_filter, Slice.mem_fin] at hy
    refine Finset.card_bij (fun m _ => m ∘ Equiv.swap x y) ?_ ?_ ?_
    · intro m hm
      rw [Finset.mem_filter] at hm ⊢
      refine ⟨h.swap m hm.1 x hx y hy.1 hxX hxY hy.2.1 hy.2.2, ?_⟩
      rw [lower_swap hx hy.1]
      simp only [Function.comp_apply, Equiv.swap_apply_right]
      exact hm.2
    · intro m1 _ m2 _ e
      exact (Equiv.surjective (Equiv.swap x y)).injective_comp_right e
    · intro m hm
      rw [Finset.mem_filter] at hm
      refine ⟨m ∘ Equiv.swap x y, ?_, ?_⟩
      · rw [Finset.mem_filter]
        refine ⟨h.swap m hm.1 x hx y hy.1 hxX hxY hy.2.1 hy.2.2, ?_⟩
        rw [lower_swap hx hy.1]
        simp only [Function.comp_apply, Equiv.swap_apply_left]
        exact hm.2
      · funext a
        simp
  calc (s.len - 2) * (𝓜.filter fun m => lower r s m (r (m x)) < j).card
      ≤ fr.card * (𝓜.filter fun m => lower r s m (r (m x)) < j).card := Nat.mul_le_mul_right _ hcard
    _ = ∑ y ∈ fr, (𝓜.filter fun m => lower r s m (r (m y)) < j).card := by
        rw [← smul_eq_mul, ← Finset.sum_const]
        exact Finset.sum_congr rfl hall
    _ = ∑ m ∈ 𝓜, (fr.filter fun y => lower r s m (r (m y)) < j).card := by
        simp only [Finset.card_filter]
        exact Finset.sum_comm
    _ ≤ ∑ m ∈ 𝓜, j := by
        refine Finset.sum_le_sum fun m hm => ?_
        refine (Finset.card_le_card fun y hy => ?_).trans (few_low (s := s) (h.inj m hm) j)
        rw [Finset.mem_filter] at hy ⊢
        rw [hfr, Finset.mem_filter] at hy
        exact ⟨hy.1.1, hy.2⟩
    _ = j * 𝓜.card := by rw [Finset.sum_const, smul_eq_mul, Nat.mul_comm]

end Sorty
