import Verif.Logic.Within
import Verif.Proofs.Part

/-! # Partitioning depends only on the side of the pivot each element is on -/

namespace Sorty

open Prog

variable {V κ Sp : Type} {ρ : Type} [LinearOrder ρ]
variable {F : Fam V κ} {ok : κ → Prop} {rk : κ → ρ}

/-- elements are named by their addresses, and `π` says on which side of the pivot 0 they are -/
def nameFam (π : Nat → Int) : Fam Nat Int :=
  { key := π, lt := fun x y => decide (x < y), le := fun x y => decide (x ≤ y), zero := 0, maxIns := 9, maxRec := 19, mean := none }

theorem nameFam_ok (π : Nat → Int) : FamOK (nameFam π) (fun _ => True) id :=
  ⟨fun x y _ _ => decide_eq_true_iff, fun x y _ _ => decide_eq_true_iff, fun f h => by simp [nameFam] at h, by simp [nameFam, nsShort], by simp [nameFam]⟩

/-- the side of the pivot -/
def side (p x : ρ) : Int := if x < p then -1 else if p < x then 1 else 0

theorem side_le {p x : ρ} : side p x ≤ 0 ↔ x ≤ p := by
  unfold side
  split_ifs with h1 h2
  · simp [h1.le]
  · simp [h2]
  · simp [not_lt.1 h2]

theorem le_side {p x : ρ} : 0 ≤ side p x ↔ p ≤ x := by
  unfold side
  split_ifs with h1 h2
  · simp [h1]
  · simp [h2.le]
  · simp [not_lt.1 h1]

/-- partitioning elements and partitioning names -/
theorem partOne_sim (hF : FamOK F ok rk) {s : Slice} {pv : κ} (hpv : ok pv) {m : Mem V} {N : Set Nat} (hok : ∀ a ∈ N, ok (F.key (m a)))
    {π : Nat → Int} (hπ : ∀ a ∈ N, π a = side (rk pv) (rk (F.key (m a)))) :
    NSim m N (partOne (nameFam π) s 0 : Prog Nat Sp Int) (partOne F s pv) := by
  have e1 : ∀ x ∈ N, (nameFam π).le ((nameFam π).key x) 0 = F.le (F.key (m x)) pv := by
    intro x hx
    rw [Bool.eq_iff_iff, hF.le _ _ (hok x hx) hpv, ← side_le, ← hπ x hx]
    exact decide_eq_true_iff
  have e2 : ∀ x ∈ N, (nameFam π).le 0 ((nameFam π).key x) = F.le pv (F.key (m x)) := by
    intro x hx
    rw [Bool.eq_iff_iff, hF.le _ _ hpv (hok x hx), ← le_side, ← hπ x hx]
    exact decide_eq_true_iff
  have e3 : ∀ x ∈ N, (nameFam π).lt ((nameFam π).key x) 0 = F.lt (F.key (m x)) pv := by
    intro x hx
    rw [Bool.eq_iff_iff, hF.lt _ _ (hok x hx) hpv, ← not_le, ← le_side, ← hπ x hx, not_le]
    exact decide_eq_true_iff
  have e4 : ∀ x ∈ N, (nameFam π).lt 0 ((nameFam π).key x) = F.lt pv (F.key (m x)) := by
    intro x hx
    rw [Bool.eq_iff_iff, hF.lt _ _ hpv (hok x hx), ← not_le, ← side_le, ← hπ x hx, not_le]
    exact decide_eq_true_iff
  unfold partOne
  refine NSim.loop ?_ _ _
  rintro (⟨l, h⟩ | ⟨l, h⟩ | ⟨l, h⟩ | ⟨l, h⟩ | ⟨l, h⟩ | ⟨l, h⟩) <;> simp only [partOneStep]
  · split_ifs with hc
    · exact .ret _
    · refine NSim.rd fun x hx => ?_
      rw [e1 x hx]
      split_ifs <;> exact .ret _
  · exact NSim.bind NSim.swap fun _ => .ret _
  · exact .ret _
  · split_ifs with hc
    · exact .ret _
    · refine NSim.rd fun x hx => ?_
      rw [e2 x hx]
      split_ifs
      · refine NSim.rd fun y hy => ?_
        rw [e4 y hy]
        split_ifs <;> exact .ret _
      · exact .ret _
  · refine NSim.rd fun x hx => ?_
    rw [e2 x hx]
    split_ifs <;> exact .ret _
  · split_ifs with hc
    · refine NSim.rd fun x hx => ?_
      rw [e3 x hx]
      split_ifs <;> exact .ret _
    · exact .ret _

/-- what partitioning does, given the sides of the elements -/
theorem partOne_names (Sp : Type) (s : Slice) (π : Nat → Int) : ∃ (c : Nat) (k : Int) (τ : Equiv.Perm Nat), 0 ≤ k ∧ k ≤ s.len ∧ (∀ i, i ∉ s.rng → τ i = i) ∧
    (∀ a, s.off ≤ a → a < s.off + k.toNat → π (τ a) ≤ 0) ∧ (∀ a, s.off + k.toNat ≤ a → a < s.off + s.len → 0 ≤ π (τ a)) ∧
    ∀ {V κ ρ : Type} [LinearOrder ρ] {F : Fam V κ} {ok : κ → Prop} {rk : κ → ρ}, FamOK F ok rk → ∀ {pv : κ}, ok pv → ∀ {m : Mem V},
      (∀ a ∈ s.rng, ok (F.key (m a))) → (∀ a ∈ s.rng, π a = side (rk pv) (rk (F.key (m a)))) →
      TIn s.rng (partOne F s pv : Prog V Sp Int) m c k (m ∘ τ) := by
  obtain ⟨c, k, l, e, h⟩ := tin_of (fun _ _ _ _ _ h => h) (partOne_spec (Sp := Sp) (cmp := fun _ _ _ _ _ => False) (W := s.rng) (R := ∅)
    (nameFam_ok π) subset_rfl (pv := 0) trivial (m0 := id) fun _ _ => trivial)
  obtain ⟨τ, h1, h2⟩ := h.rp
  have hl : l = ⇑τ := funext h2
  subst hl
  have k0 := h.k0; have k1 := h.k1
  refine ⟨c, k, τ, h.k0, h.k1, h1, ?_, ?_, ?_⟩
  · intro a ha ha'
    have := h.low ((a - s.off : Nat) : Int) (by omega) (by omega)
    unfold Slice.E at this
    rwa [Int.toNat_natCast, show s.off + (a - s.off) = a by omega] at this
  · intro a ha ha'
    have := h.high ((a - s.off : Nat) : Int) (by omega) (by omega)
    unfold Slice.E at this
    rwa [Int.toNat_natCast, show s.off + (a - s.off) = a by omega] at this
  · intro V κ ρ _ F ok rk hF pv hpv m hok hπ
    exact NSim.runs e (fun i hi => hi) (partOne_sim hF hpv hok hπ)

end Sorty
