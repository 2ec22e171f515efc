import Verif.Proofs.LswMedian
import Verif.Props.LswCheck

/-! # Pivot selection of Sort -/

namespace Sorty

variable {V : Type} {C : Conf} {s : Slice} {m : Mem V} {less : V → V → Bool} {lo hi : Nat}

theorem movesMedian_of (hw : StrictWeak fun x y => less x y = true) {t : Nat} (ht : 1 ≤ t) (hhi : hi < s.len)
    (hl : 2 * (2 * t + 1) ≤ hi + 1 - lo) {choose : Prog V LSp Int}
    (h : ∀ {ρ : Type} [LinearOrder ρ] {r : V → ρ}, CmpOK (byLess fun x y => less x y = true) r →
      swp (byLess fun x y => less x y = true) (s.seg lo hi).rng ∅ choose m fun pv m' => LPivOK r s lo hi m pv m' ∧
      ∃ m1, LPivMid r s (lo + (minMaxSample (hi + 1 - lo) (2 * t + 1)).1) (minMaxSample (hi + 1 - lo) (2 * t + 1)).2.1 t m pv m' m1) :
    MovesMedian less s lo hi m (2 * t + 1) choose := by
  obtain ⟨ρ, _, r, hr⟩ := hw.rank
  have hr' : ∀ x y, less x y = false ↔ r y ≤ r x := fun x y => by rw [← Bool.not_eq_true, hr x y, not_lt]
  obtain ⟨p, m', e, hp, m1, hm⟩ := swp_exec (less := less) (fun i j x y => Iff.rfl) (h (byLess_ok hr hw))
  obtain ⟨b1, b2, b3⟩ := minMaxSample_bounds (slen := hi + 1 - lo) (n := 2 * t + 1) (by omega) hl
  obtain ⟨g1, g2⟩ := hm.half (hi := hi) (by omega) (by simp at b2; omega)
  have h1 := hp.lt
  have h2 := hp.gt
  have hrng : (s.seg lo hi) = ⟨s.off + lo, hi + 1 - lo⟩ := by
    unfold Slice.seg; congr 1; omega
  have hget : ∀ i : Nat, i < s.len → (s.view m')[i]? = some (s.E m' i) := by
    intro i hi
    simp [Slice.view, Slice.E, hi]
  have hP := hp.rp
  rw [hrng] at hP
  obtain ⟨p, rfl⟩ : ∃ k : Nat, p = k := ⟨p.toNat, by omega⟩
  refine ⟨p, s.E m' p, s.E m' lo, s.E m' hi, m', _, _, e, by omega, by omega, view_perm hP.on, fun i hi' => hP.out ?_, hget p (by omega),
    hget lo (by omega), hget hi hhi, (hr' _ _).2 hp.low, (hr' _ _).2 hp.high, wellSpread (by omega) hl,
    picks_length (slc := ⟨s.off + lo, hi + 1 - lo⟩) (by omega) hl, ?_, ?_⟩
  · simp only [Slice.rng, Set.mem_ofPred_eq]; omega
  · exact g1.mono fun c _ h => (hr' _ _).2 h
  · exact g2.mono fun c _ h => (hr' _ _).2 h

/-- **C49, Sort.** The element Sort partitions the range of indices `lo` to `hi` by is a median of seven (concurrent partitioning), five (long
ranges) or three (short ranges) best spread samples of the range; choosing it only rearranges the range. -/
theorem C49_pivot_sort (hC : C.OK) (hw : StrictWeak fun x y => less x y = true) (hf : FitsInt C.wordSize s.len) (hhi : hi < s.len) :
    (14 ≤ hi + 1 - lo → MovesMedian less s lo hi m 7 (lswPivot C.wordSize s lo hi (nsConc - 1))) ∧
    (10 ≤ hi + 1 - lo → MovesMedian less s lo hi m 5 (lswPivot C.wordSize s lo hi (nsLong - 1))) ∧
    (6 ≤ hi + 1 - lo → MovesMedian less s lo hi m 3 (lswShortPivot s lo hi)) := by
  have e : ((hi : Int) + 1 - lo).toNat = hi + 1 - lo := by omega
  refine ⟨fun hl => movesMedian_of (t := 3) hw (by omega) hhi hl fun hc => ?_, fun hl => movesMedian_of (t := 2) hw (by omega) hhi hl fun hc => ?_,
    fun hl => movesMedian_of (t := 1) hw (by omega) hhi hl fun hc => ?_⟩
  · rw [← e]
    exact swp_mono (lswPivot_mid (n := 7) (t := 3) hc.toCmpW hC.word hf (by omega) (by omega) rfl (by omega) (by omega) (by omega) le_rfl)
      fun _ _ h => ⟨h.1.1, h.2⟩
  · rw [← e]
    exact swp_mono (lswPivot_mid (n := 5) (t := 2) hc.toCmpW hC.word hf (by omega) (by omega) rfl (by omega) (by omega) (by omega) le_rfl)
      fun _ _ h => ⟨h.1.1, h.2⟩
  · rw [← e]
    exact lswShortPivot_mid hc.toCmpW (by omega) (by omega) (by omega) le_rfl

/-- C49 applies to Sort: indices 100 to 2000 of 3000 descending numbers -/
example : MovesMedian (fun x y : Nat => decide (x < y)) demoS 100 2000 (fun a => 5000 - a) 5 (lswPivot 8 demoS 100 2000 (nsLong - 1)) :=
  (C49_pivot_sort (C := demoC) demoC_ok (by simpa using lt_strictWeak) demoS_fits (by decide)).2.1 (by decide)

end Sorty
