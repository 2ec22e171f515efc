import Verif.Proofs.LswBase

/-! # Insertion sort and pivots via lesswap -/

namespace Sorty

open Prog

variable {V Sp : Type} {ρ : Type} [LinearOrder ρ]
variable {cmp : Nat → Nat → V → V → Bool → Prop} {W R : Set Nat} {r : V → ρ}
variable [Lesswap V] [Lesswap.OK V]

omit [Lesswap V] [Lesswap.OK V] in
theorem mul_step_inj {a step i j : Int} (hs : 0 < step) : a + i * step = a + j * step ↔ i = j := by
  constructor
  · intro h
    have h' : i * step = j * step := by omega
    exact mul_right_cancel₀ (ne_of_gt hs) h'
  · rintro rfl; rfl

theorem lswInner_spec (hc : CmpW cmp r) {s : Slice} {bound step jh : Int} {A : Set Nat} {m : Mem V}
    (hs : 0 < step) (hb : 0 ≤ bound) (h1 : 1 ≤ jh) (hlen : bound + jh * step < s.len)
    (hA : ∀ j, 0 ≤ j → j ≤ jh → s.ad (bound + j * step) ∈ A) (hW : A ⊆ W)
    (hsort : ∀ i j, 0 ≤ i → i < j → j < jh → r (s.E m (bound + i * step)) ≤ r (s.E m (bound + j * step))) :
    swp cmp W R (lswInner s bound step (bound + jh * step) : Prog V Sp Unit) m fun _ m' =>
      RP A m m' ∧ ∀ i j, 0 ≤ i → i < j → j < jh + 1 →
        r (s.E m' (bound + i * step)) ≤ r (s.E m' (bound + j * step)) := by
  have hok : ∀ j, 0 ≤ j → j ≤ jh → s.ok (bound + j * step) := fun j h0 hj => by
    have a1 : 0 ≤ j * step := mul_nonneg h0 hs.le
    have a2 : j * step ≤ jh * step := mul_le_mul_of_nonneg_right hj hs.le
    exact ⟨by omega, by omega⟩
  unfold lswInner
  refine swp_loop _ _ (fun l m1 => ∃ jl, l = bound + jl * step ∧ 1 ≤ jl ∧ jl ≤ jh ∧ RP A m m1 ∧
    (∀ i j, 0 ≤ i → i < j → j ≤ jh → i ≠ jl → j ≠ jl →
      r (s.E m1 (bound + i * step)) ≤ r (s.E m1 (bound + j * step))) ∧
    (∀ j, jl < j → j ≤ jh → r (s.E m1 (bound + jl * step)) ≤ r (s.E m1 (bound + j * step)))) (fun l => l.toNat) ?_ _ _ _ ?_ ?_
  · rintro l m1 ⟨jl, rfl, g1, g2, g3, g4, g5⟩
    have e0 : bound + jl * step - step = bound + (jl - 1) * step := by ring
    have k1 := hok jl (by omega) g2
    have k2 := hok (jl - 1) (by omega) (by omega)
    have w1 := hA jl (by omega) g2
    have w2 := hA (jl - 1) (by omega) (by omega)
    refine swp_bind ?_
    rw [e0]
    refine lsw_specW hc k1 k2 k1 k2 (.inl (hW w1)) (.inl (hW w2)) (fun _ hle => ⟨⟨hW w1, hW w2⟩, ?_⟩) (fun hle => ?_)
    · rw [if_pos rfl]
      dsimp only
      have hE : ∀ i, 0 ≤ i → i ≤ jh → s.E (s.swapM m1 (bound + jl * step) (bound + (jl - 1) * step)) (bound + i * step) =
          if i = jl - 1 then s.E m1 (bound + jl * step) else if i = jl then s.E m1 (bound + (jl - 1) * step)
          else s.E m1 (bound + i * step) := by
        intro i i0 i1
        rw [E_swap k1 k2 (hok i i0 i1).1]
        simp only [mul_step_inj hs]
      have rp : RP A m (s.swapM m1 (bound + jl * step) (bound + (jl - 1) * step)) := g3.trans (RP.swapA fun _ => ⟨w1, w2⟩)
      generalize s.swapM m1 (bound + jl * step) (bound + (jl - 1) * step) = m2 at *
      have q1 : ∀ i j, 0 ≤ i → i < j → j ≤ jh → i ≠ jl - 1 → j ≠ jl - 1 →
          r (s.E m2 (bound + i * step)) ≤ r (s.E m2 (bound + j * step)) := by
        intro i j i0 ij j1 n1 n2
        rw [hE i i0 (by omega), hE j (by omega) j1, if_neg n1, if_neg n2]
        split_ifs with c1 c2 c2
        · exact le_rfl
        · exact g4 _ _ (by omega) (by omega) j1 (by omega) (by omega)
        · exact g4 _ _ i0 (by omega) (by omega) (by omega) (by omega)
        · exact g4 i j i0 ij j1 c1 c2
      have q2 : ∀ j, jl - 1 < j → j ≤ jh → r (s.E m2 (bound + (jl - 1) * step)) ≤ r (s.E m2 (bound + j * step)) := by
        intro j j0 j1
        rw [hE (jl - 1) (by omega) (by omega), hE j (by omega) j1, if_pos rfl, if_neg (by omega)]
        split_ifs with c
        · exact hle
        · exact g5 j (by omega) j1
      by_cases hb' : bound + jl * step - step ≤ bound
      · rw [if_pos (by rw [← e0]; exact hb')]
        have hj : jl - 1 = 0 := by
          by_contra hn
          have : 0 < (jl - 1) * step := mul_pos (by omega) hs
          omega
        refine ⟨rp, fun i j i0 ij j1 => ?_⟩
        by_cases hi : i = jl - 1
        · rw [hi]; exact q2 j (by omega) (by omega)
        · exact q1 i j i0 ij (by omega) hi (by omega)
      · rw [if_neg (by rw [← e0]; exact hb')]
        have hj : jl - 1 ≠ 0 := by
          intro hn; rw [e0, hn] at hb'; omega
        refine ⟨⟨jl - 1, rfl, by omega, by omega, rp, q1, q2⟩, ?_⟩
        have := k2.1
        omega
    · rw [if_neg (by simp)]
      refine ⟨g3, fun i j i0 ij j1 => ?_⟩
      by_cases c1 : i = jl
      · subst c1; exact g5 j ij (by omega)
      · by_cases c2 : j = jl
        · subst c2
          by_cases c3 : i = j - 1
          · rw [c3]; exact hle
          · exact (g4 i (j - 1) i0 (by omega) (by omega) c1 (by omega)).trans hle
        · exact g4 i j i0 ij (by omega) c1 c2
  · exact ⟨jh, rfl, h1, le_rfl, RP.refl _ _, fun i j i0 ij j1 n1 n2 => hsort i j i0 ij (by omega), fun j j0 j1 => by omega⟩
  · omega

theorem lswInsertion_spec (hc : CmpW cmp r) {s : Slice} {lo hi : Int} {m : Mem V} (h0 : 0 ≤ lo) (h1 : hi < s.len)
    (hle : lo ≤ hi) (hW : (s.seg lo hi).rng ⊆ W) :
    swp cmp W R (lswInsertion s lo hi : Prog V Sp Unit) m fun _ m' =>
      RP (s.seg lo hi).rng m m' ∧ SortedOn r m' (s.seg lo hi).off ((s.seg lo hi).off + (s.seg lo hi).len) := by
  unfold lswInsertion
  refine swp_loop _ _ (fun h m1 => lo + 1 ≤ h ∧ h ≤ hi + 1 ∧ RP (s.seg lo hi).rng m m1 ∧
    ∀ i j, 0 ≤ i → i < j → j < h - lo → r (s.E m1 (lo + i * 1)) ≤ r (s.E m1 (lo + j * 1)))
    (fun h => (hi + 1 - h).toNat) ?_ _ _ _ ?_ ?_
  · rintro h m1 ⟨g1, g2, g3, g4⟩
    by_cases hc' : h ≤ hi
    · rw [if_pos hc']
      have e : h = lo + (h - lo) * 1 := by ring
      have := lswInner_spec (Sp := Sp) (R := R) hc (s := s) (bound := lo) (step := 1) (jh := h - lo) (A := (s.seg lo hi).rng) (W := W) (m := m1)
        (by omega) h0 (by omega) (by omega) (fun j j0 j1 => ad_mem_seg h0 (by omega) (by omega)) hW g4
      rw [← e] at this
      refine swp_bind (swp_mono this ?_)
      rintro _ m2 ⟨q1, q2⟩
      exact ⟨⟨by omega, by omega, g3.trans q1, fun i j i0 ij j1 => q2 i j i0 ij (by omega)⟩, by omega⟩
    · rw [if_neg hc']
      refine ⟨g3, ?_⟩
      intro a b ha hab hb
      have hb' : b ∈ (s.seg lo hi).rng := ⟨by omega, hb⟩
      have ha' : a ∈ (s.seg lo hi).rng := ⟨ha, by omega⟩
      obtain ⟨i, i0, i1, rfl⟩ := seg_mem h0 ha'
      obtain ⟨j, j0, j1, rfl⟩ := seg_mem h0 hb'
      have := g4 (i - lo) (j - lo) (by omega) (by unfold Slice.ad at hab; omega) (by omega)
      rw [show lo + (i - lo) * 1 = i by ring, show lo + (j - lo) * 1 = j by ring] at this
      exact this
  · exact ⟨by omega, by omega, RP.refl _ _, fun i j i0 ij j1 => by omega⟩
  · omega

/-- what pivot selection achieves: the pivot's position is inside, each end is on its side -/
structure LPivOK (r : V → ρ) (s : Slice) (lo hi : Int) (m0 : Mem V) (pv : Int) (m : Mem V) : Prop where
  lt : lo < pv
  gt : pv < hi
  rp : RP (s.seg lo hi).rng m0 m
  low : r (s.E m lo) ≤ r (s.E m pv)
  high : r (s.E m pv) ≤ r (s.E m hi)

/-- moving one sample to each end -/
theorem lswEnds_spec (hc : CmpW cmp r) {s : Slice} {lo hi first pv last : Int} {m0 m : Mem V} (h0 : 0 ≤ lo) (h1 : hi < s.len)
    (hW : (s.seg lo hi).rng ⊆ W) (f0 : lo ≤ first) (f1 : first < pv) (f2 : pv < last) (f3 : last ≤ hi)
    (hrp : RP (s.seg lo hi).rng m0 m) (hl : r (s.E m first) ≤ r (s.E m pv)) (hh : r (s.E m pv) ≤ r (s.E m last))
    {α : Type} {x : α} {Q : α → Mem V → Prop} (hQ : ∀ m', LPivOK r s lo hi m0 pv m' → s.E m' pv = s.E m pv → (∀ i, 0 ≤ i → i ≠ lo → i ≠ hi → i ≠ first → i ≠ last → s.E m' i = s.E m i) →
      Q x m') :
    swp cmp W R (do
      let _ ← Lesswap.call s first lo first lo
      let _ ← Lesswap.call s hi last hi last
      pure x : Prog V Sp α) m Q := by
  have ok : ∀ i, lo ≤ i → i ≤ hi → s.ok i := fun i a b => ⟨by omega, by omega⟩
  have me : ∀ i, lo ≤ i → i ≤ hi → s.ad i ∈ (s.seg lo hi).rng := fun i a b => ad_mem_seg h0 a b
  have meW : ∀ i, lo ≤ i → i ≤ hi → s.ad i ∈ W := fun i a b => hW (me i a b)
  have key : ∀ m1, RP (s.seg lo hi).rng m0 m1 → r (s.E m1 lo) ≤ r (s.E m1 pv) → r (s.E m1 pv) ≤ r (s.E m1 last) →
      s.E m1 pv = s.E m pv → (∀ i, 0 ≤ i → i ≠ lo → i ≠ hi → i ≠ first → i ≠ last → s.E m1 i = s.E m i) →
      swp cmp W R (do
        let _ ← Lesswap.call s hi last hi last
        pure x : Prog V Sp α) m1 Q := by
    intro m1 q1 q2 q3 q4 q5
    refine swp_bind (lsw_specW hc (ok _ (by omega) (by omega)) (ok _ (by omega) (by omega)) (ok _ (by omega) (by omega))
      (ok _ (by omega) (by omega)) (.inl (meW _ (by omega) (by omega))) (.inl (meW _ (by omega) (by omega)))
      (fun _ _ => ⟨⟨meW _ (by omega) (by omega), meW _ (by omega) (by omega)⟩, ?_⟩) (fun hle => ?_))
    · have hE : ∀ i, 0 ≤ i → s.E (s.swapM m1 hi last) i = _ := fun i i0 =>
        E_swap (ok hi (by omega) (by omega)) (ok last (by omega) (by omega)) i0
      refine hQ _ ⟨by omega, by omega, q1.trans (RP.swapA fun _ => ⟨me _ (by omega) (by omega), me _ (by omega) (by omega)⟩), ?_, ?_⟩ ?_ ?_
      · rw [hE lo h0, hE pv (by omega), if_neg (by omega), if_neg (by omega), if_neg (by omega), if_neg (by omega)]
        exact q2
      · rw [hE hi (by omega), hE pv (by omega), if_neg (by omega), if_neg (by omega), if_pos rfl]
        split_ifs with e
        · rw [e]; exact q3
        · exact q3
      · rw [hE pv (by omega), if_neg (by omega), if_neg (by omega), q4]
      · intro i i0 i1 i2 i3 i4
        rw [hE i i0, if_neg i4, if_neg i2]; exact q5 i i0 i1 i2 i3 i4
    · exact hQ _ ⟨by omega, by omega, q1, q2, q3.trans hle⟩ q4 q5
  refine swp_bind (lsw_specW hc (ok _ (by omega) (by omega)) (ok _ (by omega) (by omega)) (ok _ (by omega) (by omega))
      (ok _ (by omega) (by omega)) (.inl (meW _ (by omega) (by omega))) (.inl (meW _ (by omega) (by omega)))
      (fun _ _ => ⟨⟨meW _ (by omega) (by omega), meW _ (by omega) (by omega)⟩, ?_⟩) (fun hle => ?_))
  · have hE : ∀ i, 0 ≤ i → s.E (s.swapM m first lo) i = _ := fun i i0 =>
      E_swap (ok first (by omega) (by omega)) (ok lo (by omega) (by omega)) i0
    refine key _ (hrp.trans (RP.swapA fun _ => ⟨me _ (by omega) (by omega), me _ (by omega) (by omega)⟩)) ?_ ?_ ?_ ?_
    · rw [hE lo h0, hE pv (by omega), if_pos rfl, if_neg (by omega), if_neg (by omega)]; exact hl
    · rw [hE last (by omega), hE pv (by omega), if_neg (by omega), if_neg (by omega), if_neg (by omega), if_neg (by omega)]
      exact hh
    · rw [hE pv (by omega), if_neg (by omega), if_neg (by omega)]
    · intro i i0 i1 i2 i3 i4
      rw [hE i i0, if_neg i1, if_neg i3]
  · exact key m hrp (hle.trans hl) hh rfl fun _ _ _ _ _ _ => rfl

end Sorty
