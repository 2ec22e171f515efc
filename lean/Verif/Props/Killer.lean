import Verif.Proofs.Killer
import Verif.Props.Cost

/-! # How slow a call of Sort can be -/

namespace Sorty

section
variable {V : Type} {C : Conf} {s : Slice} {m : Mem V}

/-- ranks for which `Sort` takes many calls -/
theorem exists_killer (hC : C.OK) (hf : FitsInt C.wordSize s.len)
    (hdist : ∀ i j, i < s.len → j < s.len → m (s.off + i) = m (s.off + j) → i = j) :
    ∃ rank : V → Nat, (∀ x ∈ s.view m, ∀ y ∈ s.view m, rank x = rank y → x = y) ∧
      ∃ n, (SortLsw C s.len s).atLeast (ltOf rank) m n ∧ s.len ^ 2 ≤ 12 * n + C.maxLenRecFC ^ 2 := by
  obtain ⟨g1, g2, g3, g4⟩ := conf_ineq hC
  have g5 : nsShort = 4 := rfl
  have hE : ∀ i : Nat, s.E m (i : Int) = m (s.off + i) := fun i => rfl
  have hD : Dist s m 0 ((s.len : Int) - 1) := by
    intro i j i0 i1 j0 j1 e
    obtain ⟨i, rfl⟩ : ∃ k : Nat, i = k := ⟨i.toNat, by omega⟩
    obtain ⟨j, rfl⟩ : ∃ k : Nat, j = k := ⟨j.toNat, by omega⟩
    rw [hE, hE] at e
    have := hdist i j (by omega) (by omega) e
    omega
  have hview : ∀ rank : V → Nat, (∀ i j, 0 ≤ i → i ≤ (s.len : Int) - 1 → 0 ≤ j → j ≤ (s.len : Int) - 1 → rank (s.E m i) = rank (s.E m j) →
      s.E m i = s.E m j) → ∀ x ∈ s.view m, ∀ y ∈ s.view m, rank x = rank y → x = y := by
    intro rank h x hx y hy e
    unfold Slice.view at hx hy
    obtain ⟨i, hi, rfl⟩ := List.mem_map.1 hx
    obtain ⟨j, hj, rfl⟩ := List.mem_map.1 hy
    rw [List.mem_range] at hi hj
    exact h i j (by omega) (by omega) (by omega) (by omega) e
  by_cases hc : s.len ≤ C.maxLenRecFC
  · obtain ⟨rank, -, h1⟩ := exists_rank (s := s) (m := m) (lo := 0) (hi := (s.len : Int) - 1) fun _ => 0
    exact ⟨rank, hview rank h1, 0, atLeast_zero, le_trans (Nat.pow_le_pow_left hc 2) (Nat.le_add_left ..)⟩
  · obtain ⟨rank, -, h1, n, h2, h3⟩ := killer (s := s) (by omega) (by omega) hC.word hf s.len C.depth 0 ((s.len : Int) - 1) m (fun _ => 0) 0
      (fun _ => False) [] le_rfl (by omega) (by omega) (by omega) hD
      ⟨fun _ => le_rfl, fun _ _ _ h => absurd h (by simp), fun _ _ _ h => h, fun _ h => absurd h (by simp), fun _ _ _ h => absurd h (by simp), by simp⟩
    have hw : wrapInt C.wordSize ((s.len : Int) - 1) = s.len - 1 := by
      have hpow : (2 : Int) ^ (8 * C.wordSize - 1) = ((2 ^ (8 * C.wordSize - 1) : Nat) : Int) := by push_cast; rfl
      have : 2 ^ 31 ≤ 2 ^ (8 * C.wordSize - 1) := by
        rcases hC.word with h | h
        · rw [h]
        · rw [h]; norm_num
      unfold FitsInt at hf
      exact wrapInt_id hC.word (by rw [hpow]; omega) (by rw [hpow]; omega)
    refine ⟨rank, hview rank h1, n, ?_, ?_⟩
    · have hbr : (if (s.len : Int) - 1 ≥ C.maxLenRecFC then lswLong C s s.len C.depth 0 ((s.len : Int) - 1) false
          else if (s.len : Int) - 1 ≥ C.maxLenInsFC then lswShort C s s.len C.depth 0 ((s.len : Int) - 1)
          else if (s.len : Int) - 1 > 0 then lswInsertion s 0 ((s.len : Int) - 1) else pure () : Prog V LSp Unit).atLeast (ltOf rank) m n := by
        rw [if_pos (by omega)]; exact h2
      have hf' : ((s.len : Int) - 1 + 1).toNat = s.len := by omega
      unfold SortLsw
      dsimp only
      rw [hw, hf']
      by_cases hs : (s.len : Int) - 1 ≤ 2 * C.maxLenRecFC
      · rw [if_pos hs]
        exact hbr
      · rw [if_neg hs]
        cases n with
        | zero => exact atLeast_zero
        | succ n =>
          intro g hg
          show (if decide (g ≤ 1) = true then _ else _ : Prog V LSp Unit).atLeast (ltOf rank) m (n + 1)
          rw [if_pos (decide_eq_true hg)]
          exact hbr
    · have : ((s.len ^ 2 : Nat) : Int) ≤ ((12 * n + C.maxLenRecFC ^ 2 : Nat) : Int) := by
        push_cast
        have e : (s.len : Int) - 1 + 1 - 0 = s.len := by ring
        rw [e] at h3
        exact h3
      exact_mod_cast this

theorem rank_strictWeak (rank : V → Nat) : StrictWeak fun x y => rank x < rank y :=
  ⟨fun x => lt_irrefl _, fun x y z => lt_trans, fun x y z h1 h2 => by omega⟩

/-- **C60** Whatever pairwise different elements a collection holds and in whatever positions, there is a linear order of them (given by
pairwise different `rank`s) for which every call of `Sort` with `MaxGor` at most 1 takes at least (n² - MaxLenRecFC²)/12 calls of the user's
function for n elements. With any `MaxGor`, some execution does (the one in which `MaxGor` is 1 when it is read). -/
theorem C60_sort_can_be_quadratic (hC : C.OK) (hf : FitsInt C.wordSize s.len) (hd : DepthFor C.depth s.len)
    (hdist : ∀ i j, i < s.len → j < s.len → m (s.off + i) = m (s.off + j) → i = j) :
    ∃ rank : V → Nat, (∀ x ∈ s.view m, ∀ y ∈ s.view m, rank x = rank y → x = y) ∧
      (∀ M stale c n, M ≤ 1 → CSteps (lswPar C s (byLess fun x y => rank x < rank y) M stale) Prog.asks (start (SortLsw C s.len s) m) c n →
        Returned c → s.len ^ 2 ≤ 12 * n + C.maxLenRecFC ^ 2) ∧
      ∀ M stale, ∃ c n, CSteps (lswPar C s (byLess fun x y => rank x < rank y) M stale) Prog.asks (start (SortLsw C s.len s) m) c n ∧
        Returned c ∧ s.len ^ 2 ≤ 12 * n + C.maxLenRecFC ^ 2 := by
  obtain ⟨rank, h1, n, h2, h3⟩ := exists_killer hC hf hdist
  refine ⟨rank, h1, ?_, ?_⟩
  · intro M stale c k hM hs hr
    have := atLeast_all (P := lswPar C s (byLess fun x y => rank x < rank y) M stale) hM (less := ltOf rank) (fun i j x y b hb => by
      have hb : b = true ↔ rank x < rank y := hb
      rw [ltOf, Bool.eq_iff_iff, hb, decide_eq_true_iff]) rfl h2 hs
    rcases this with h | ⟨sh, p, j, rfl, -, hp⟩
    · omega
    · obtain ⟨l, hl⟩ := hr
      simp only [List.cons.injEq] at hl
      rw [hl.1] at hp
      exact hp.elim
  · intro M stale
    obtain ⟨c, h4⟩ := atLeast_steps (P := lswPar C s (byLess fun x y => rank x < rank y) M stale) (less := ltOf rank) (fun i j x y => by
      simp [lswPar, byLess, ltOf]) (sh := (start (SortLsw C s.len s) m).sh) h2 .refl
    have hL := lok hC (rank_strictWeak rank).tame.ok hf
    obtain ⟨d, h5, h6⟩ := exists_return (lsw_hyp hL m M stale)
      (acc_of_steps (lsw_acc C s (byLess fun x y => rank x < rank y) m M stale) h4.steps) (lsw_reach hL hd (Steps.toE h4.steps))
    obtain ⟨k, h7⟩ := h4.continue h5
    exact ⟨d, _, h7, h6, by omega⟩

/-- Sorting the numbers from 0 to 9999 by suitable ranks takes at least eight million calls. -/
example : ∃ rank : Nat → Nat, ∃ c n, CSteps (lswPar demoC ⟨0, 10000⟩ (byLess fun x y => rank x < rank y) 1 False) Prog.asks
    (start (SortLsw demoC 10000 ⟨0, 10000⟩) fun a => a) c n ∧ Returned c ∧ 8000000 ≤ n := by
  obtain ⟨rank, -, -, h⟩ := C60_sort_can_be_quadratic (s := ⟨0, 10000⟩) (m := fun a => a) demoC_ok
    (by show 11 * (10000 + 8) ≤ 10 * 2 ^ (8 * 8 - 1); norm_num) (by show Nat.log2 10000 + 2 ≤ 64; decide)
    (fun i j _ _ h => by simpa using h)
  obtain ⟨c, n, h1, h2, h3⟩ := h 1 False
  refine ⟨rank, c, n, h1, h2, ?_⟩
  have : 10000 ^ 2 ≤ 12 * n + demoC.maxLenRecFC ^ 2 := h3
  have : demoC.maxLenRecFC = 300 := rfl
  norm_num [this] at *
  omega

end

end Sorty
