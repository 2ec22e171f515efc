import Verif.Proofs.Call

/-! # The `isSorted*` functions -/

namespace Sorty

open Prog

variable {V κ Sp ρ : Type} [LinearOrder ρ] {cmp : Nat → Nat → V → V → Bool → Prop} {W R : Set Nat}

theorem SortedOn.of_adj {r : V → ρ} {m : Mem V} {lo hi : Nat}
    (h : ∀ a, lo ≤ a → a + 1 < hi → r (m a) ≤ r (m (a + 1))) : SortedOn r m lo hi := by
  intro a b h1 h2 h3
  induction b with
  | zero => omega
  | succ b ih =>
    rcases Nat.lt_or_ge a b with h4 | h4
    · exact (ih h4 (by omega)).trans (h b (by omega) h3)
    · obtain rfl : a = b := by omega
      exact h a h1 h3

/-- result of a downward scan over `(l, h]` for an adjacent pair out of order -/
def ScanPost (bad : Int → Prop) (l h i : Int) : Prop :=
  (i = 0 ∧ ∀ j, l < j → j ≤ h → ¬ bad j) ∨ (l < i ∧ i ≤ h ∧ bad i ∧ ∀ j, i < j → j ≤ h → ¬ bad j)

/-- the scan loop shared by all `isSorted*` -/
theorem scan_spec {ar : Slice} (hW : ar.rng ⊆ W ∪ R) {l h : Int} (h0 : 0 ≤ l) (h1 : h < ar.len) (m : Mem V)
    (test : V → V → Bool) {N : Nat} (hN : h + 1 < N) (hN0 : 0 < N) :
    swp cmp W R (loop N (fun i : Int =>
      if i > l then do
        let x ← ar.rd i
        let y ← ar.rd (i - 1)
        if test x y then pure (.brk i) else pure (.again (i - 1))
      else pure (.brk 0)) h : Prog V Sp Int) m
      fun i m' => m' = m ∧ ScanPost (fun j => test (ar.E m j) (ar.E m (j - 1)) = true) l h i := by
  refine swp_loop _ _ (fun i m' => m' = m ∧ i ≤ h ∧ ∀ j, i < j → j ≤ h → l < j → ¬ test (ar.E m j) (ar.E m (j - 1)) = true)
    (fun i => i.toNat) ?_ _ _ _ ⟨rfl, le_rfl, fun j _ _ => by omega⟩ (by omega)
  rintro i m' ⟨rfl, hi, hj⟩
  by_cases hc : i > l
  · rw [if_pos hc]
    refine swp_bind (Slice.swp_rd (by omega) (by omega) hW (swp_bind (Slice.swp_rd (by omega) (by omega) hW ?_)))
    by_cases ht : test (ar.E m' i) (ar.E m' (i - 1)) = true
    · rw [if_pos ht]
      exact ⟨rfl, .inr ⟨by omega, hi, ht, fun j h1 h2 => hj j h1 h2 (by omega)⟩⟩
    · rw [if_neg ht]
      refine ⟨⟨rfl, by omega, fun j h1 h2 h3 => ?_⟩, by omega⟩
      by_cases he : j = i
      · rw [he]; exact ht
      · exact hj j (by omega) h2 h3
  · rw [if_neg hc]
    exact ⟨rfl, .inl ⟨rfl, fun j h1 h2 => hj j (by omega) h2 (by omega)⟩⟩

theorem isSortedV_spec (F : Fam V κ) {ar : Slice} (hW : ar.rng ⊆ W ∪ R) (m : Mem V) :
    swp cmp W R (isSortedV F ar : Prog V Sp Int) m fun i m' => m' = m ∧
      ScanPost (fun j => F.lt (F.key (ar.E m j)) (F.key (ar.E m (j - 1))) = true) 0 (ar.len - 1) i := by
  unfold isSortedV
  exact scan_spec hW le_rfl (by omega) m (fun x y => F.lt (F.key x) (F.key y)) (by omega) (by omega)

theorem isSortedF_spec {cmp : Nat → Nat → Cell → Cell → Bool → Prop} (o : Int) {ar : Slice} (hW : ar.rng ⊆ W ∪ R) (m : Mem Cell) :
    swp cmp W R (isSortedF o ar : Prog Cell Sp Int) m fun i m' => m' = m ∧ ∃ l h : Int,
      0 ≤ l ∧ l ≤ h + 1 ∧ h < ar.len ∧ (o ≠ -1 → l = 0) ∧ (o ≠ 1 → h = ar.len - 1) ∧
      (o = 1 → (∀ j : Int, h < j → j < ar.len → cellNaN (ar.E m j) = true) ∧ (0 ≤ h → cellNaN (ar.E m h) = false)) ∧
      (o = -1 → (∀ j : Int, 0 ≤ j → j < l → cellNaN (ar.E m j) = true) ∧ (l < ar.len → cellNaN (ar.E m l) = false)) ∧
      ScanPost (fun j => cellGE (ar.E m j) (ar.E m (j - 1)) = false) l h i := by
  unfold isSortedF
  have tail : ∀ l h : Int, 0 ≤ l → h < ar.len →
    swp cmp W R (loop (ar.len + 1) (fun i : Int =>
      if i > l then do
        let x ← ar.rd i
        let y ← ar.rd (i - 1)
        if !cellGE x y then pure (.brk i) else pure (.again (i - 1))
      else pure (.brk 0)) h : Prog Cell Sp Int) m
      fun i m' => m' = m ∧ ScanPost (fun j => cellGE (ar.E m j) (ar.E m (j - 1)) = false) l h i := by
    intro l h h0 h1
    refine swp_mono (scan_spec hW h0 h1 m (fun x y => !cellGE x y) (by omega) (by omega)) ?_
    rintro i m' ⟨h1, h2⟩
    refine ⟨h1, ?_⟩
    simpa using h2
  by_cases h1 : o = 1
  · subst h1
    rw [if_pos rfl]
    refine swp_bind (swp_mono (Q := fun (st : Int × Int) m' => m' = m ∧ st.1 = 0 ∧ -1 ≤ st.2 ∧ st.2 < ar.len ∧
      (∀ j : Int, st.2 < j → j < ar.len → cellNaN (ar.E m j) = true) ∧ (0 ≤ st.2 → cellNaN (ar.E m st.2) = false)) ?_ ?_)
    · refine swp_loop _ _ (fun (h : Int) m' => m' = m ∧ -1 ≤ h ∧ h < ar.len ∧ ∀ j : Int, h < j → j < ar.len → cellNaN (ar.E m j) = true)
        (fun h : Int => (h + 1).toNat) ?_ _ _ _ ⟨rfl, by omega, by omega, fun j _ _ => by omega⟩ (by omega)
      rintro h m' ⟨rfl, h2, h3, h4⟩
      by_cases hc : 0 ≤ h
      · rw [if_pos hc]
        refine swp_bind (Slice.swp_rd (by omega) (by omega) hW ?_)
        by_cases hx : cellNaN (ar.E m' h) = true
        · rw [if_pos hx]
          refine ⟨⟨rfl, by omega, by omega, fun j h5 h6 => ?_⟩, by omega⟩
          by_cases he : j = h
          · rw [he]; exact hx
          · exact h4 j (by omega) h6
        · rw [if_neg hx]
          exact ⟨rfl, rfl, h2, h3, h4, fun _ => by simpa using hx⟩
      · rw [if_neg hc]
        exact ⟨rfl, rfl, h2, h3, h4, fun h => absurd h hc⟩
    · rintro ⟨l, h⟩ m' ⟨rfl, h2, h3, h4, h5, h6⟩
      dsimp only at h2 h3 h4 h5 h6
      subst h2
      refine swp_mono (tail 0 h le_rfl h4) ?_
      rintro i m'' ⟨rfl, h7⟩
      exact ⟨rfl, 0, h, le_rfl, by omega, h4, fun _ => rfl, fun h => absurd rfl h, fun _ => ⟨h5, h6⟩, fun h => by omega, h7⟩
  · rw [if_neg h1]
    by_cases h2 : o = -1
    · subst h2
      rw [if_pos rfl]
      refine swp_bind (swp_mono (Q := fun (st : Int × Int) m' => m' = m ∧ st.2 = ar.len - 1 ∧ 0 ≤ st.1 ∧ st.1 ≤ ar.len ∧
        (∀ j : Int, 0 ≤ j → j < st.1 → cellNaN (ar.E m j) = true) ∧ (st.1 < ar.len → cellNaN (ar.E m st.1) = false)) ?_ ?_)
      · refine swp_loop _ _ (fun (l : Int) m' => m' = m ∧ 0 ≤ l ∧ l ≤ ar.len ∧ ∀ j : Int, 0 ≤ j → j < l → cellNaN (ar.E m j) = true)
          (fun l : Int => (ar.len - l).toNat) ?_ _ _ _ ⟨rfl, le_rfl, by omega, fun j _ _ => by omega⟩ (by omega)
        rintro l m' ⟨rfl, h2, h3, h4⟩
        by_cases hc : l ≤ (ar.len : Int) - 1
        · rw [if_pos hc]
          refine swp_bind (Slice.swp_rd (by omega) (by omega) hW ?_)
          by_cases hx : cellNaN (ar.E m' l) = true
          · rw [if_pos hx]
            refine ⟨⟨rfl, by omega, by omega, fun j h5 h6 => ?_⟩, by omega⟩
            by_cases he : j = l
            · rw [he]; exact hx
            · exact h4 j h5 (by omega)
          · rw [if_neg hx]
            exact ⟨rfl, rfl, h2, h3, h4, fun _ => by simpa using hx⟩
        · rw [if_neg hc]
          exact ⟨rfl, rfl, h2, h3, h4, fun h => by dsimp only at h; omega⟩
      · rintro ⟨l, h⟩ m' ⟨rfl, h2, h3, h4, h5, h6⟩
        dsimp only at h2 h3 h4 h5 h6
        subst h2
        refine swp_mono (tail l _ h3 (by omega)) ?_
        rintro i m'' ⟨rfl, h7⟩
        exact ⟨rfl, l, _, h3, by omega, by omega, fun h => absurd rfl h, fun _ => rfl, fun h => by omega, fun _ => ⟨h5, h6⟩, h7⟩
    · rw [if_neg h2]
      refine swp_mono (tail 0 (ar.len - 1) le_rfl (by omega)) ?_
      rintro i m'' ⟨rfl, h7⟩
      exact ⟨rfl, 0, _, le_rfl, by omega, by omega, fun _ => rfl, fun _ => rfl, fun h => absurd h h1, fun h => absurd h h2, h7⟩

end Sorty
