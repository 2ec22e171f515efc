import Verif.Proofs.Fams
import Verif.Proofs.View

/-! # Moving NaNs out of the way -/

namespace Sorty

open Prog

variable {Sp : Type} {cmp : Nat → Nat → Cell → Cell → Bool → Prop} {W R : Set Nat}

/-- result of `nanToEnd` and `nanToStart`: the NaN-free part `s`, the rest is NaNs -/
structure NaNPost (ar : Slice) (atEnd : Bool) (m : Mem Cell) (s : Slice) (m' : Mem Cell) : Prop where
  rp : RP ar.rng m m'
  len : s.len ≤ ar.len
  off : s.off = if atEnd then ar.off else ar.off + (ar.len - s.len)
  free : ∀ a ∈ s.rng, cellNaN (m' a) = false
  nan : ∀ a ∈ ar.rng, a ∉ s.rng → cellNaN (m' a) = true

theorem NaNPost.sub {ar s : Slice} {b m m'} (h : NaNPost ar b m s m') : s.rng ⊆ ar.rng := by
  intro a ha
  have := h.len
  have ho := h.off
  simp only [Slice.rng, Set.mem_ofPred_eq] at *
  split_ifs at ho <;> omega

theorem nanToEnd_spec {ar : Slice} {m : Mem Cell} (hW : ar.rng ⊆ W) :
    swp cmp W R (nanToEnd ar : Prog Cell Sp Slice) m (NaNPost ar true m) := by
  have hWR : ar.rng ⊆ W ∪ R := hW.trans Set.subset_union_left
  unfold nanToEnd
  refine swp_bind (swp_mono (Q := fun (h : Int) m' => -1 ≤ h ∧ h < ar.len ∧ RP ar.rng m m' ∧
    (∀ i : Int, 0 ≤ i → i ≤ h → cellNaN (ar.E m' i) = false) ∧
    (∀ i : Int, h < i → i < ar.len → cellNaN (ar.E m' i) = true)) ?_ ?_)
  · refine swp_loop _ _ (fun (st : Int × Int) m' => 0 ≤ st.1 ∧ st.1 ≤ st.2 + 1 ∧ st.2 < ar.len ∧ RP ar.rng m m' ∧
      (∀ i : Int, 0 ≤ i → i < st.1 → cellNaN (ar.E m' i) = false) ∧
      (∀ i : Int, st.2 < i → i < ar.len → cellNaN (ar.E m' i) = true))
      (fun st => (st.2 + 1 - st.1).toNat) ?_ _ _ _ ?_ (by dsimp only; omega)
    · rintro ⟨l, h⟩ m1 ⟨h1, h2, h3, h4, h5, h6⟩
      dsimp only at h1 h2 h3 h4 h5 h6 ⊢
      by_cases hc : l ≤ h
      · rw [if_pos hc]
        refine swp_bind (Slice.swp_rd (by omega) (by omega) hWR ?_)
        by_cases hx : cellNaN (ar.E m1 h) = true
        · rw [if_pos hx]
          refine ⟨⟨h1, by dsimp only; omega, by dsimp only; omega, h4, h5, fun i i0 i1 => ?_⟩, by dsimp only; omega⟩
          by_cases hi : i = h
          · rw [hi]; exact hx
          · exact h6 i (by dsimp only at i0; omega) i1
        · rw [if_neg hx]
          refine swp_bind (Slice.swp_rd (by omega) (by omega) hWR ?_)
          by_cases hy : cellNaN (ar.E m1 l) = true
          · rw [if_pos hy]
            have hlh : l ≠ h := by rintro rfl; exact hx hy
            refine swp_bind (Slice.swp_wr (by omega) (by omega) hW (swp_bind (Slice.swp_wr (by omega) (by omega) hW ?_)))
            show _ ∧ _
            have e : Function.update (Function.update m1 (ar.off + l.toNat) (ar.E m1 h)) (ar.off + h.toNat) (ar.E m1 l) =
              ar.swapM m1 l h := rfl
            rw [e]
            refine ⟨⟨by dsimp only; omega, by dsimp only; omega, by dsimp only; omega,
              h4.trans (RP.swapM (by omega) (by omega) (by omega) (by omega)), fun i i0 i1 => ?_, fun i i0 i1 => ?_⟩, by dsimp only; omega⟩
            · dsimp only at i1
              rw [Slice.E_swapM h1 (by omega) i0, if_neg (by omega)]
              split_ifs with hi
              · simpa using hx
              · exact h5 i i0 (by omega)
            · dsimp only at i0
              rw [Slice.E_swapM h1 (by omega) (by omega)]
              split_ifs with hi hi2
              · exact hy
              · omega
              · exact h6 i (by omega) i1
          · rw [if_neg hy]
            refine ⟨⟨by dsimp only; omega, by dsimp only; omega, h3, h4, fun i i0 i1 => ?_, h6⟩, by dsimp only; omega⟩
            by_cases hi : i = l
            · rw [hi]; simpa using hy
            · exact h5 i i0 (by dsimp only at i1; omega)
      · rw [if_neg hc]
        exact ⟨by omega, h3, h4, fun i i0 i1 => h5 i i0 (by omega), h6⟩
    · exact ⟨le_rfl, by dsimp only; omega, by dsimp only; omega, RP.refl _ _, fun i i0 i1 => by dsimp only at i1; omega,
        fun i i0 i1 => by dsimp only at i0; omega⟩
  · rintro h m1 ⟨h1, h2, h3, h4, h5⟩
    refine Slice.swp_sub le_rfl (by omega) (by omega) ?_
    refine ⟨h3, by dsimp only; omega, by simp, fun a ha => ?_, fun a ha hn => ?_⟩
    · simp only [Slice.rng, Set.mem_ofPred_eq] at ha
      have := h4 ((a - ar.off : Nat) : Int) (by omega) (by omega)
      unfold Slice.E at this
      rwa [Int.toNat_natCast, show ar.off + (a - ar.off) = a by omega] at this
    · simp only [Slice.rng, Set.mem_ofPred_eq] at ha hn
      have := h5 ((a - ar.off : Nat) : Int) (by omega) (by omega)
      unfold Slice.E at this
      rwa [Int.toNat_natCast, show ar.off + (a - ar.off) = a by omega] at this

theorem nanToStart_spec {ar : Slice} {m : Mem Cell} (hW : ar.rng ⊆ W) :
    swp cmp W R (nanToStart ar : Prog Cell Sp Slice) m (NaNPost ar false m) := by
  have hWR : ar.rng ⊆ W ∪ R := hW.trans Set.subset_union_left
  unfold nanToStart
  refine swp_bind (swp_mono (Q := fun (l : Int) m' => 0 ≤ l ∧ l ≤ ar.len ∧ RP ar.rng m m' ∧
    (∀ i : Int, 0 ≤ i → i < l → cellNaN (ar.E m' i) = true) ∧
    (∀ i : Int, l ≤ i → i < ar.len → cellNaN (ar.E m' i) = false)) ?_ ?_)
  · refine swp_loop _ _ (fun (st : Int × Int) m' => 0 ≤ st.1 ∧ st.1 ≤ st.2 + 1 ∧ st.2 < ar.len ∧ RP ar.rng m m' ∧
      (∀ i : Int, 0 ≤ i → i < st.1 → cellNaN (ar.E m' i) = true) ∧
      (∀ i : Int, st.2 < i → i < ar.len → cellNaN (ar.E m' i) = false))
      (fun st => (st.2 + 1 - st.1).toNat) ?_ _ _ _ ?_ (by dsimp only; omega)
    · rintro ⟨l, h⟩ m1 ⟨h1, h2, h3, h4, h5, h6⟩
      dsimp only at h1 h2 h3 h4 h5 h6 ⊢
      by_cases hc : l ≤ h
      · rw [if_pos hc]
        refine swp_bind (Slice.swp_rd (by omega) (by omega) hWR ?_)
        by_cases hy : cellNaN (ar.E m1 l) = true
        · rw [if_pos hy]
          refine ⟨⟨by dsimp only; omega, by dsimp only; omega, h3, h4, fun i i0 i1 => ?_, h6⟩, by dsimp only; omega⟩
          by_cases hi : i = l
          · rw [hi]; exact hy
          · exact h5 i i0 (by dsimp only at i1; omega)
        · rw [if_neg hy]
          refine swp_bind (Slice.swp_rd (by omega) (by omega) hWR ?_)
          by_cases hx : cellNaN (ar.E m1 h) = true
          · rw [if_pos hx]
            have hlh : l ≠ h := by rintro rfl; exact hy hx
            refine swp_bind (Slice.swp_wr (by omega) (by omega) hW (swp_bind (Slice.swp_wr (by omega) (by omega) hW ?_)))
            show _ ∧ _
            have e : Function.update (Function.update m1 (ar.off + l.toNat) (ar.E m1 h)) (ar.off + h.toNat) (ar.E m1 l) =
              ar.swapM m1 l h := rfl
            rw [e]
            refine ⟨⟨by dsimp only; omega, by dsimp only; omega, by dsimp only; omega,
              h4.trans (RP.swapM (by omega) (by omega) (by omega) (by omega)), fun i i0 i1 => ?_, fun i i0 i1 => ?_⟩, by dsimp only; omega⟩
            · dsimp only at i1
              rw [Slice.E_swapM h1 (by omega) i0, if_neg (by omega)]
              split_ifs with hi
              · exact hx
              · exact h5 i i0 (by omega)
            · dsimp only at i0
              rw [Slice.E_swapM h1 (by omega) (by omega)]
              split_ifs with hi hi2
              · simpa using hy
              · omega
              · exact h6 i (by omega) i1
          · rw [if_neg hx]
            refine ⟨⟨by dsimp only; omega, by dsimp only; omega, by dsimp only; omega, h4, h5, fun i i0 i1 => ?_⟩, by dsimp only; omega⟩
            by_cases hi : i = h
            · rw [hi]; simpa using hx
            · exact h6 i (by dsimp only at i0; omega) i1
      · rw [if_neg hc]
        exact ⟨h1, by omega, h4, fun i i0 i1 => h5 i i0 (by omega), fun i i0 i1 => h6 i (by omega) i1⟩
    · exact ⟨le_rfl, by dsimp only; omega, by dsimp only; omega, RP.refl _ _, fun i i0 i1 => by dsimp only at i1; omega,
        fun i i0 i1 => by dsimp only at i0; omega⟩
  · rintro l m1 ⟨h1, h2, h3, h4, h5⟩
    refine Slice.swp_sub h1 h2 le_rfl ?_
    refine ⟨h3, by dsimp only; omega, by dsimp only; simp; omega, fun a ha => ?_, fun a ha hn => ?_⟩
    · simp only [Slice.rng, Set.mem_ofPred_eq] at ha
      have := h5 ((a - ar.off : Nat) : Int) (by omega) (by omega)
      unfold Slice.E at this
      rwa [Int.toNat_natCast, show ar.off + (a - ar.off) = a by omega] at this
    · simp only [Slice.rng, Set.mem_ofPred_eq] at ha hn
      have := h4 ((a - ar.off : Nat) : Int) (by omega) (by omega)
      unfold Slice.E at this
      rwa [Int.toNat_natCast, show ar.off + (a - ar.off) = a by omega] at this

end Sorty
