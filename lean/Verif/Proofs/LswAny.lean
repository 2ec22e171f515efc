import Verif.Proofs.LswShort

/-! # Partitioning via a lesswap function with an arbitrary comparator -/

namespace Sorty

open Prog

variable {V Sp : Type} {ρ : Type} [LinearOrder ρ]
variable {cmp : Nat → Nat → V → V → Bool → Prop} {W R : Set Nat} {r : V → ρ}
variable [Lesswap V] [Lesswap.OK V]

/-- what holds at the control points of `partOne`, whatever the comparator answers -/
def AP1I (s : Slice) (l0 h0 : Int) (m0 : Mem V) : LP1 → Mem V → Prop
  | .head l h, m => l0 ≤ l ∧ h ≤ h0 ∧ l ≤ h + 1 ∧ RP (s.seg l0 h0).rng m0 m
  | .scan l h, m => l0 ≤ l ∧ h ≤ h0 ∧ l < h ∧ RP (s.seg l0 h0).rng m0 m
  | .second l h, m => l0 ≤ l ∧ h ≤ h0 ∧ l < h ∧ RP (s.seg l0 h0).rng m0 m

theorem lswPartOne_any (hc : CmpW cmp r) {s : Slice} {l0 pv h0 : Int} {m0 : Mem V} (hl : 0 ≤ l0)
    (hh : h0 < s.len) (hp0 : l0 ≤ pv) (hp1 : pv ≤ h0) (hW : (s.seg l0 h0).rng ⊆ W) :
    swp cmp W R (lswPartOne s l0 pv h0 : Prog V Sp Int) m0 fun k m => l0 ≤ k ∧ k ≤ h0 + 1 ∧ RP (s.seg l0 h0).rng m0 m := by
  have ok : ∀ i, l0 ≤ i → i ≤ h0 → s.ok i := fun i a b => ⟨by omega, by omega⟩
  have me : ∀ i, l0 ≤ i → i ≤ h0 → s.ad i ∈ (s.seg l0 h0).rng := fun i a b => ad_mem_seg hl a b
  have mW : ∀ i, l0 ≤ i → i ≤ h0 → s.ad i ∈ W ∪ R := fun i a b => .inl (hW (me i a b))
  have okp := ok pv hp0 hp1
  have mp := mW pv hp0 hp1
  have test : ∀ {i k x : Int} {m : Mem V} {Q : Bool → Mem V → Prop}, s.ok i → s.ok k → s.ok x → s.ad i ∈ W ∪ R → s.ad k ∈ W ∪ R → s.ad x ∈ W →
      (∀ b, Q b m) → swp cmp W R (Lesswap.call s i k x x : Prog V Sp Bool) m Q := by
    intro i k x m Q a1 a2 a3 a4 a5 a6 h
    refine lsw_specW hc a1 a2 a3 a3 a4 a5 (fun _ _ => ⟨⟨a6, a6⟩, ?_⟩) fun _ => h _
    rw [swapM_self]; exact h _
  unfold lswPartOne
  refine swp_loop _ _ (AP1I s l0 h0 m0) LP1mu ?_ _ _ _ ⟨le_rfl, le_rfl, by omega, RP.refl _ _⟩ ?_
  · rintro (⟨l, h⟩ | ⟨l, h⟩ | ⟨l, h⟩) m ⟨g1, g2, g3, g4⟩
    · simp only [lswPartOneStep]
      by_cases hc1 : l < h
      · rw [if_pos hc1]
        refine swp_bind (test (ok h (by omega) (by omega)) okp (ok h (by omega) (by omega)) (mW h (by omega) (by omega)) mp (hW (me h (by omega) (by omega))) fun b => ?_)
        cases b with
        | true =>
          rw [if_pos rfl]
          exact ⟨⟨g1, g2, hc1, g4⟩, by simp only [LP1mu]; omega⟩
        | false =>
          rw [if_neg (by simp)]
          refine swp_bind (test okp (ok l (by omega) (by omega)) (ok l (by omega) (by omega)) mp (mW l (by omega) (by omega)) (hW (me l (by omega) (by omega))) fun b => ?_)
          cases b with
          | true =>
            rw [if_pos rfl]
            exact ⟨⟨g1, g2, hc1, g4⟩, by simp only [LP1mu]; omega⟩
          | false =>
            rw [if_neg (by simp)]
            exact ⟨⟨by omega, by omega, by omega, g4⟩, by simp only [LP1mu]; omega⟩
      · rw [if_neg hc1]
        by_cases hc2 : l = h ∧ h ≠ pv
        · rw [if_pos hc2]
          obtain ⟨rfl, hne⟩ := hc2
          refine swp_bind (test (ok l (by omega) (by omega)) okp (ok l (by omega) (by omega)) (mW l (by omega) (by omega)) mp (hW (me l (by omega) (by omega))) fun b => ?_)
          cases b with
          | true => rw [if_pos rfl]; exact ⟨by omega, by omega, g4⟩
          | false => rw [if_neg (by simp)]; exact ⟨by omega, by omega, g4⟩
        · rw [if_neg hc2]
          exact ⟨by omega, by omega, g4⟩
    · simp only [lswPartOneStep]
      refine swp_bind (lsw_specW hc okp (ok l (by omega) (by omega)) (ok h (by omega) (by omega)) (ok l (by omega) (by omega)) mp
        (mW l (by omega) (by omega)) (fun _ _ => ⟨⟨hW (me h (by omega) (by omega)), hW (me l (by omega) (by omega))⟩, ?_⟩) fun _ => ?_)
      · rw [if_pos rfl]
        exact ⟨⟨by omega, by omega, by omega, g4.trans (RP.swapA fun _ => ⟨me h (by omega) (by omega), me l (by omega) (by omega)⟩)⟩,
          by simp only [LP1mu]; omega⟩
      · rw [if_neg (by simp)]
        by_cases hc1 : l + 1 ≥ h
        · rw [if_pos hc1]; exact ⟨by omega, by omega, g4⟩
        · rw [if_neg hc1]; exact ⟨⟨by omega, by omega, by omega, g4⟩, by simp only [LP1mu]; omega⟩
    · simp only [lswPartOneStep]
      by_cases hc1 : l ≥ h - 1
      · rw [if_pos hc1]; exact ⟨by omega, by omega, g4⟩
      · rw [if_neg hc1]
        refine swp_bind (lsw_specW hc (ok (h - 1) (by omega) (by omega)) okp (ok (h - 1) (by omega) (by omega)) (ok l (by omega) (by omega))
          (mW (h - 1) (by omega) (by omega)) mp
          (fun _ _ => ⟨⟨hW (me (h - 1) (by omega) (by omega)), hW (me l (by omega) (by omega))⟩, ?_⟩) fun _ => ?_)
        · rw [if_pos rfl]
          exact ⟨⟨by omega, by omega, by omega, g4.trans (RP.swapA fun _ => ⟨me (h - 1) (by omega) (by omega), me l (by omega) (by omega)⟩)⟩,
            by simp only [LP1mu]; omega⟩
        · rw [if_neg (by simp)]
          exact ⟨⟨by omega, by omega, by omega, g4⟩, by simp only [LP1mu]; omega⟩
  · simp only [LP1mu]; omega

theorem lswPartOne_anyOk (hc : CmpW cmp r) (ht : ∀ x y, r x ≤ r y) {s : Slice} : LPartOK cmp Sp W R r s := by
  intro lo hi pv m0 m1 h0 h1 hW hp
  have := hp.lt; have := hp.gt
  have hsub : (s.seg (lo + 1) (hi - 1)).rng ⊆ (s.seg lo hi).rng := seg_mono h0 (by omega) (by omega)
  refine swp_mono (lswPartOne_any hc (by omega) (by omega) (by omega) (by omega) (hsub.trans hW)) ?_
  rintro k m2 ⟨k0, k1, hrp⟩
  exact ⟨by omega, by omega, hp.rp.trans (hrp.mono hsub), r (s.E m2 lo), fun _ _ _ => ht _ _, fun _ _ _ => ht _ _⟩

end Sorty
