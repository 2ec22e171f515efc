import Verif.Logic.Swp
import Verif.Model.Val
import Mathlib.Order.Lattice
import Mathlib.Order.Defs.LinearOrder

/-! # Insertion sort -/

namespace Sorty

open Prog

variable {V κ Sp : Type} {ρ : Type} [LinearOrder ρ]

/-- ascending ranks on the addresses `[lo,hi)` -/
def SortedOn (r : V → ρ) (m : Mem V) (lo hi : Nat) : Prop := ∀ a b, lo ≤ a → a < b → b < hi → r (m a) ≤ r (m b)

theorem SortedOn.le {r : V → ρ} {m : Mem V} {lo hi : Nat} (h : SortedOn r m lo hi) {a b : Nat} (h1 : lo ≤ a) (h2 : a ≤ b)
    (h3 : b < hi) : r (m a) ≤ r (m b) := by
  rcases Nat.lt_or_ge a b with h4 | h4
  · exact h a b h1 h4 h3
  · rw [Nat.le_antisymm h2 h4]

/-- `lt` is the order of the ranks on acceptable keys -/
def LtOK (key : V → κ) (lt : κ → κ → Bool) (ok : V → Prop) (r : V → ρ) : Prop :=
  ∀ x y, ok x → ok y → (lt (key x) (key y) = true ↔ r x < r y)

variable {cmp : Nat → Nat → V → V → Bool → Prop} {W R : Set Nat}

theorem insertInner_spec {key : V → κ} {lt : κ → κ → Bool} {ok : V → Prop} {r : V → ρ} (hlt : LtOK key lt ok r)
    {slc : Slice} (hW : slc.rng ⊆ W) {h : Int} {val : V} {m : Mem V} (h1 : 1 ≤ h) (h2 : h < slc.len)
    (hv : slc.E m h = val) (hok : ∀ a ∈ slc.rng, ok (m a))
    (hs : ∀ i j, 0 ≤ i → i < j → j < h → r (slc.E m i) ≤ r (slc.E m j)) :
    swp cmp W R (insertInner key lt slc h val : Prog V Sp Unit) m fun _ m' =>
      RP slc.rng m m' ∧ ∀ i j, 0 ≤ i → i < j → j < h + 1 → r (slc.E m' i) ≤ r (slc.E m' j) := by
  have hokv : ok val := by rw [← hv]; exact hok _ (Slice.mem_rng (by omega) h2)
  have hWR : slc.rng ⊆ W ∪ R := hW.trans Set.subset_union_left
  unfold insertInner
  refine swp_loop _ _ (fun l m1 => 1 ≤ l ∧ l ≤ h ∧ (l = h → m1 = m) ∧
    RP slc.rng m (Function.update m1 (slc.off + l.toNat) val) ∧
    (∀ i j, 0 ≤ i → i < j → j ≤ h → i ≠ l → j ≠ l → r (slc.E m1 i) ≤ r (slc.E m1 j)) ∧
    (∀ j, l < j → j ≤ h → r val < r (slc.E m1 j))) (fun l => l.toNat) ?_ _ _ _ ?_ ?_
  · rintro l m1 ⟨g1, g2, g3, g4, g5, g6⟩
    refine swp_bind (Slice.swp_rd (by omega) (by omega) hWR ?_)
    have hokp : ok (slc.E m1 (l - 1)) := by
      have := g4.all hok _ (Slice.mem_rng (i := l - 1) (by omega) (by omega))
      rwa [Function.update_of_ne (by omega)] at this
    split_ifs with hc hl
    · rw [hlt _ _ hokv hokp] at hc
      -- the new virtual memory
      have hE : ∀ j, 0 ≤ j → slc.E (Function.update m1 (slc.off + l.toNat) (slc.E m1 (l - 1))) j =
          if j = l then slc.E m1 (l - 1) else slc.E m1 j := fun j hj => Slice.E_update (by omega) hj
      have hRP : RP slc.rng m (Function.update (Function.update m1 (slc.off + l.toNat) (slc.E m1 (l - 1)))
          (slc.off + (l - 1).toNat) val) := by
        have ha := Slice.mem_rng (s := slc) (i := l) (by omega) (by omega)
        have hb := Slice.mem_rng (s := slc) (i := l - 1) (by omega) (by omega)
        refine g4.trans ?_
        have := RP.swap (m := Function.update m1 (slc.off + l.toNat) val) ha hb
        rw [Function.update_self, Function.update_of_ne (by omega : slc.off + (l-1).toNat ≠ slc.off + l.toNat),
          Function.update_idem] at this
        exact this
      have hsort : ∀ i j, 0 ≤ i → i < j → j ≤ h → i ≠ l - 1 → j ≠ l - 1 →
          r (slc.E (Function.update m1 (slc.off + l.toNat) (slc.E m1 (l - 1))) i) ≤
          r (slc.E (Function.update m1 (slc.off + l.toNat) (slc.E m1 (l - 1))) j) := by
        intro i j hi hij hj hil hjl
        rw [hE i hi, hE j (by omega)]
        split_ifs with e1 e2 e2
        · exact le_refl _
        · exact g5 _ _ (by omega) (by omega) hj (by omega) (by omega)
        · exact g5 _ _ hi (by omega) (by omega) (by omega) (by omega)
        · exact g5 _ _ hi hij hj e1 e2
      have hgt : ∀ j, l - 1 < j → j ≤ h →
          r val < r (slc.E (Function.update m1 (slc.off + l.toNat) (slc.E m1 (l - 1))) j) := by
        intro j hj hjh
        rw [hE j (by omega)]
        split_ifs with e1
        · exact hc
        · exact g6 j (by omega) hjh
      refine swp_bind (Slice.swp_wr (by omega) (by omega) hW ?_)
      dsimp only
      split_ifs with hl
      · refine swp_bind (Slice.swp_wr (by omega) (by omega) hW ?_)
        refine ⟨hRP, ?_⟩
        intro i j hi hij hj
        rw [Slice.E_update (j := i) (by omega) hi, Slice.E_update (j := j) (by omega) (by omega)]
        rw [if_neg (by omega : ¬ j = l - 1)]
        split_ifs with e1
        · exact (hgt j (by omega) (by omega)).le
        · exact hsort i j hi hij (by omega) (by omega) (by omega)
      · exact ⟨⟨by omega, by omega, by omega, hRP, hsort, hgt⟩, by omega⟩
    · rw [hlt _ _ hokv hokp, not_lt] at hc
      subst hl
      have := g3 rfl
      subst this
      refine ⟨RP.refl _ _, ?_⟩
      intro i j hi hij hj
      rcases (by omega : j < l ∨ j = l) with e | e
      · exact hs i j hi hij e
      · subst e
        rw [hv]
        rcases (by omega : i < j - 1 ∨ i = j - 1) with e | e
        · exact (hs i (j - 1) hi e (by omega)).trans hc
        · rw [e]; exact hc
    · rw [hlt _ _ hokv hokp, not_lt] at hc
      refine swp_bind (Slice.swp_wr (by omega) (by omega) hW ?_)
      refine ⟨g4, ?_⟩
      intro i j hi hij hj
      rw [Slice.E_update (by omega) hi, Slice.E_update (by omega) (by omega)]
      split_ifs with e1 e2 e2
      · exact le_refl _
      · exact (g6 j (by omega) (by omega)).le
      · rcases (by omega : i < l - 1 ∨ i = l - 1) with e | e
        · exact (g5 i (l - 1) hi e (by omega) (by omega) (by omega)).trans hc
        · rw [e]; exact hc
      · exact g5 i j hi hij (by omega) e1 e2
  · refine ⟨h1, le_refl _, fun _ => rfl, ?_, ?_, ?_⟩
    · rw [← hv]
      have : Function.update m (slc.off + h.toNat) (slc.E m h) = m := by
        unfold Slice.E; exact Function.update_eq_self _ _
      rw [this]; exact RP.refl _ _
    · intro i j hi hij hj hil hjl
      exact hs i j hi hij (by omega)
    · intro j hj hj'; omega
  · omega

theorem insertion_spec {key : V → κ} {lt : κ → κ → Bool} {ok : V → Prop} {r : V → ρ} (hlt : LtOK key lt ok r)
    {slc : Slice} (hW : slc.rng ⊆ W) {m : Mem V} (hok : ∀ a ∈ slc.rng, ok (m a)) :
    swp cmp W R (insertion key lt slc : Prog V Sp Unit) m fun _ m' =>
      RP slc.rng m m' ∧ SortedOn r m' slc.off (slc.off + slc.len) := by
  have hWR : slc.rng ⊆ W ∪ R := hW.trans Set.subset_union_left
  unfold insertion
  refine swp_loop _ _ (fun h m1 => 1 ≤ h ∧ RP slc.rng m m1 ∧
    ∀ i j, 0 ≤ i → i < j → j < h → r (slc.E m1 i) ≤ r (slc.E m1 j))
    (fun h => (slc.len - h).toNat) ?_ _ _ _ ?_ ?_
  · rintro h m1 ⟨g1, g2, g3⟩
    split_ifs with hc
    · refine swp_bind (Slice.swp_rd (by omega) hc hWR ?_)
      refine swp_bind (swp_mono (insertInner_spec hlt hW g1 hc rfl (g2.all hok) g3) ?_)
      rintro _ m' ⟨k1, k2⟩
      exact ⟨⟨by omega, g2.trans k1, k2⟩, by omega⟩
    · refine ⟨g2, ?_⟩
      intro a b ha hab hb
      have := g3 ((a - slc.off : Nat) : Int) ((b - slc.off : Nat) : Int) (by omega) (by omega) (by omega)
      unfold Slice.E at this
      simp only [Int.toNat_natCast] at this
      rwa [show slc.off + (a - slc.off) = a by omega, show slc.off + (b - slc.off) = b by omega] at this
  · exact ⟨le_refl _, RP.refl _ _, fun i j _ _ _ => by omega⟩
  · omega

end Sorty
