import Verif.Proofs.LswIns
import Verif.Proofs.Sample

/-! # Pivots of `Sort` -/

namespace Sorty

open Prog

variable {V Sp : Type} {ρ : Type} [LinearOrder ρ]
variable {cmp : Nat → Nat → V → V → Bool → Prop} {W R : Set Nat} {r : V → ρ}
variable [Lesswap V] [Lesswap.OK V]

omit [Lesswap V] [Lesswap.OK V] in
theorem wrapInt_id {ws : Nat} (hws : ws = 4 ∨ ws = 8) {x : Int} (h0 : -2 ^ (8 * ws - 1) ≤ x) (h1 : x < 2 ^ (8 * ws - 1)) :
    wrapInt ws x = x := by
  unfold wrapInt
  rcases hws with rfl | rfl
  · norm_num at h0 h1 ⊢
    rw [Int.bmod_def]; split_ifs <;> omega
  · norm_num at h0 h1 ⊢
    rw [Int.bmod_def]; split_ifs <;> omega

omit [Lesswap V] [Lesswap.OK V] in
/-- where the sample after the last one would be -/
theorem minMaxSample_over {slen n : Nat} (hn : 2 ≤ n) (hs : 2 * n ≤ slen) :
    (minMaxSample slen n).2.2 + (minMaxSample slen n).2.1 ≤ slen + n + slen / n / 2 := by
  have hq : 2 ≤ slen / n := (Nat.le_div_iff_mul_le (by omega)).2 hs
  have hd : n * (slen / n) + slen % n = slen := Nat.div_add_mod slen n
  have hm : n * (slen / n) = (n - 1) * (slen / n) + slen / n := by
    obtain ⟨k, rfl⟩ : ∃ k, n = k + 1 := ⟨n - 1, by omega⟩
    simp; ring
  have he : slen % n < n := Nat.mod_lt _ (by omega)
  unfold minMaxSample
  generalize slen / n = q at *
  generalize slen % n = e at *
  generalize hsp : (n - 1) * q = sp at *
  dsimp only
  split_ifs with hc
  · dsimp only; omega
  · dsimp only; omega

/-- addresses of samples -/
def lsamp (s : Slice) (first step : Int) (n : Nat) : Set Nat := {a | ∃ j : Int, 0 ≤ j ∧ j < n ∧ a = s.ad (first + j * step)}

/-- the pivot is the middle one of the sorted samples -/
structure LPivMid (r : V → ρ) (s : Slice) (first step : Int) (t : Nat) (m : Mem V) (pv : Int) (m' m1 : Mem V) : Prop where
  pos : pv = first + t * step
  rp : RP (lsamp s first step (2 * t + 1)) m m1
  sorted : ∀ i j : Int, 0 ≤ i → i < j → j < 2 * t + 1 → r (s.E m1 (first + i * step)) ≤ r (s.E m1 (first + j * step))
  eq : s.E m' pv = s.E m1 pv
  out : ∃ x y : Int, ∀ i, 0 ≤ i → i ≠ x → i ≠ y → (∀ j : Int, 0 ≤ j → j < 2 * t + 1 → i ≠ first + j * step) → s.E m' i = s.E m1 i

theorem lswPivot_mid (hc : CmpW cmp r) {ws : Nat} (hws : ws = 4 ∨ ws = 8) {s : Slice} (hfit : FitsInt ws s.len)
    {lo hi : Int} {n t : Nat} {m : Mem V} (h0 : 0 ≤ lo) (h1 : hi < s.len) (hn : n = 2 * t + 1) (ht : 2 ≤ t) (ht' : t ≤ 3)
    (hl : 2 * (n : Int) ≤ hi + 1 - lo) (hW : (s.seg lo hi).rng ⊆ W) :
    swp cmp W R (lswPivot ws s lo hi n : Prog V Sp Int) m fun pv m' => (LPivOK r s lo hi m pv m' ∧ lo + t ≤ pv ∧ pv + t ≤ hi) ∧
      ∃ m1, LPivMid r s (lo + (minMaxSample (hi + 1 - lo).toNat n).1) (minMaxSample (hi + 1 - lo).toNat n).2.1 t m pv m' m1 := by
  have hP : 2 ^ 31 ≤ 2 ^ (8 * ws - 1) := by rcases hws with rfl | rfl <;> norm_num
  have hP' : (2 : Int) ^ (8 * ws - 1) = ((2 ^ (8 * ws - 1) : Nat) : Int) := by push_cast; rfl
  have hwrap : ∀ x : Int, 0 ≤ x → x < 2 ^ (8 * ws - 1) → wrapInt ws x = x := fun x a b =>
    wrapInt_id hws (by rw [hP']; omega) b
  unfold FitsInt at hfit
  unfold lswPivot
  have hb := minMaxSample_bounds (slen := (hi + 1 - lo).toNat) (n := n) (by omega) (by omega)
  have hov := minMaxSample_over (slen := (hi + 1 - lo).toNat) (n := n) (by omega) (by omega)
  have hdiv : (hi + 1 - lo).toNat / n ≤ (hi + 1 - lo).toNat / 5 := Nat.div_le_div_left (by omega) (by norm_num)
  rcases hmm : minMaxSample (hi + 1 - lo).toNat n with ⟨f, st, la⟩
  rw [hmm] at hb hov
  obtain ⟨b1, b2, b3⟩ := hb
  dsimp only at b1 b2 b3 hov ⊢
  have e2 : (la : Int) = f + (2 * t : Int) * st := by
    rw [b2, hn]; push_cast; simp
  have hs : (0 : Int) < st := by omega
  have hlt : ∀ j : Int, 0 ≤ j → j ≤ 2 * t → (0 : Int) ≤ j * st ∧ j * st ≤ 2 * t * st := fun j j0 j1 =>
    ⟨mul_nonneg j0 hs.le, mul_le_mul_of_nonneg_right j1 hs.le⟩
  have hsub : lsamp s (lo + f) st (2 * t + 1) ⊆ (s.seg lo hi).rng := by
    rintro a ⟨j, j0, j1, rfl⟩
    have := hlt j j0 (by omega)
    exact ad_mem_seg h0 (by omega) (by omega)
  have hfirst : lo + (f : Int) + 1 * (st : Int) = lo + f + st := by ring
  rw [← hfirst]
  refine swp_bind (swp_mono (Q := fun _ m' => RP (lsamp s (lo + f) st (2 * t + 1)) m m' ∧
      ∀ i j : Int, 0 ≤ i → i < j → j < n → r (s.E m' (lo + f + i * st)) ≤ r (s.E m' (lo + f + j * st))) ?_ ?_)
  · refine swp_loop _ _ (fun h m1 => ∃ j : Int, h = lo + f + j * st ∧ 1 ≤ j ∧ j ≤ n ∧ RP (lsamp s (lo + f) st (2 * t + 1)) m m1 ∧
      ∀ i i' : Int, 0 ≤ i → i < i' → i' < j → r (s.E m1 (lo + f + i * st)) ≤ r (s.E m1 (lo + f + i' * st)))
      (fun h => (n - (h - (lo + f)) / st).toNat) ?_ _ _ _ ?_ ?_
    · rintro h m1 ⟨j, rfl, g1, g2, g3, g4⟩
      by_cases hcc : lo + (f : Int) + j * st ≤ lo + la
      · rw [if_pos hcc]
        have hj : j ≤ 2 * t := by
          have : j * (st : Int) ≤ 2 * t * st := by omega
          exact le_of_mul_le_mul_right this hs
        have := hlt j (by omega) hj
        refine swp_bind (swp_mono (lswInner_spec hc (A := lsamp s (lo + f) st (2 * t + 1)) hs (by omega) g1 (by omega)
          (fun i i0 i1 => ?_) (hsub.trans hW) g4) ?_)
        · exact ⟨i, i0, by omega, rfl⟩
        · rintro _ m2 ⟨q1, q2⟩
          have e3 : lo + (f : Int) + j * st + st = lo + f + (j + 1) * st := by ring
          have e4 : lo + (f : Int) + j * st + st < 2 ^ (8 * ws - 1) := by
            rw [hP']; omega
          refine ⟨⟨j + 1, ?_, by omega, by omega, g3.trans q1, q2⟩, ?_⟩
          · rw [hwrap _ (by omega) e4, e3]
          · rw [hwrap _ (by omega) e4, e3]
            rw [show lo + (f : Int) + (j + 1) * st - (lo + f) = (j + 1) * st by ring,
              show lo + (f : Int) + j * st - (lo + f) = j * st by ring, Int.mul_ediv_cancel _ (by omega),
              Int.mul_ediv_cancel _ (by omega)]
            omega
      · rw [if_neg hcc]
        refine ⟨g3, fun i i' i0 ii i1 => g4 i i' i0 ii ?_⟩
        by_contra hh
        have := hlt j (by omega) (by omega)
        omega
    · exact ⟨1, rfl, le_rfl, by omega, RP.refl _ _, fun i i' _ _ _ => by omega⟩
    · rw [show lo + (f : Int) + 1 * st - (lo + f) = 1 * st by ring, Int.mul_ediv_cancel _ (by omega)]
      omega
  · rintro _ m1 ⟨q1, q2⟩
    have t1 := hlt t (by omega) (by omega)
    have t2 : (t : Int) * st + t * st = 2 * t * st := by ring
    have t3 : (1 : Int) * st ≤ t * st := mul_le_mul_of_nonneg_right (by omega) hs.le
    have t4 : (t : Int) * 1 ≤ t * st := mul_le_mul_of_nonneg_left (by omega) (by omega)
    have l1 := q2 0 t le_rfl (by omega) (by omega)
    have l2 := q2 t (2 * t) (by omega) (by omega) (by omega)
    rw [show lo + (f : Int) + 0 * st = lo + f by ring] at l1
    rw [show lo + (f : Int) + 2 * t * st = lo + la by omega] at l2
    have hmean : meanI (lo + f) (lo + la) = lo + f + t * st := by unfold meanI; omega
    rw [hmean]
    exact lswEnds_spec hc h0 h1 hW (by omega) (by omega) (by omega) (by omega) (q1.mono hsub) l1 l2 fun m' h h' h'' =>
      ⟨⟨h, by omega, by omega⟩, m1, rfl, q1, fun i j i0 ij j1 => q2 i j i0 ij (by omega), h', lo, hi, fun i i0 i1 i2 i3 => h'' i i0 i1 i2
        (by have := i3 0 le_rfl (by omega); rwa [zero_mul, add_zero] at this) (by have := i3 (2 * t) (by omega) (by omega); omega)⟩

theorem lswPivot_spec (hc : CmpW cmp r) {ws : Nat} (hws : ws = 4 ∨ ws = 8) {s : Slice} (hfit : FitsInt ws s.len)
    {lo hi : Int} {n t : Nat} {m : Mem V} (h0 : 0 ≤ lo) (h1 : hi < s.len) (hn : n = 2 * t + 1) (ht : 2 ≤ t) (ht' : t ≤ 3)
    (hl : 2 * (n : Int) ≤ hi + 1 - lo) (hW : (s.seg lo hi).rng ⊆ W) :
    swp cmp W R (lswPivot ws s lo hi n : Prog V Sp Int) m fun pv m' => LPivOK r s lo hi m pv m' ∧ lo + t ≤ pv ∧ pv + t ≤ hi :=
  swp_mono (lswPivot_mid hc hws hfit h0 h1 hn ht ht' hl hW) fun _ _ h => h.1

theorem lswShortPivot_mid (hc : CmpW cmp r) {s : Slice} {lo hi : Int} {m : Mem V} (h0 : 0 ≤ lo) (h1 : hi < s.len)
    (hl : 6 ≤ hi + 1 - lo) (hW : (s.seg lo hi).rng ⊆ W) :
    swp cmp W R (lswShortPivot s lo hi : Prog V Sp Int) m fun pv m' => LPivOK r s lo hi m pv m' ∧
      ∃ m1, LPivMid r s (lo + (minMaxSample (hi + 1 - lo).toNat 3).1) (minMaxSample (hi + 1 - lo).toNat 3).2.1 1 m pv m' m1 := by
  unfold lswShortPivot
  have hb := minMaxSample_bounds (slen := (hi + 1 - lo).toNat) (n := 3) (by omega) (by omega)
  rcases hmm : minMaxSample (hi + 1 - lo).toNat 3 with ⟨f, st, la⟩
  rw [hmm] at hb
  obtain ⟨b1, b2, b3⟩ := hb
  dsimp only at b1 b2 b3 ⊢
  generalize hfi : lo + (f : Int) = first
  generalize hpv : first + (st : Int) = pv
  generalize hla : pv + (st : Int) = last
  have ok : ∀ i, lo ≤ i → i ≤ hi → s.ok i := fun i a b => ⟨by omega, by omega⟩
  have me : ∀ i, lo ≤ i → i ≤ hi → s.ad i ∈ (s.seg lo hi).rng := fun i a b => ad_mem_seg h0 a b
  have meW : ∀ i, lo ≤ i → i ≤ hi → s.ad i ∈ W := fun i a b => hW (me i a b)
  have okf := ok first (by omega) (by omega)
  have okp := ok pv (by omega) (by omega)
  have okl := ok last (by omega) (by omega)
  have mf : s.ad first ∈ lsamp s first st (2 * 1 + 1) := ⟨0, by omega, by omega, by rw [show first + 0 * (st : Int) = first by ring]⟩
  have mp : s.ad pv ∈ lsamp s first st (2 * 1 + 1) := ⟨1, by omega, by omega, by rw [show first + 1 * (st : Int) = pv by omega]⟩
  have ml : s.ad last ∈ lsamp s first st (2 * 1 + 1) := ⟨2, by omega, by omega, by rw [show first + 2 * (st : Int) = last by omega]⟩
  have hsub : lsamp s first st (2 * 1 + 1) ⊆ (s.seg lo hi).rng := by
    rintro a ⟨j, j0, j1, rfl⟩
    obtain rfl | rfl | rfl : j = 0 ∨ j = 1 ∨ j = 2 := by omega
    all_goals exact ad_mem_seg h0 (by omega) (by omega)
  have hWs := hW
  replace hW := hsub.trans hW
  have E1 : ∀ (m : Mem V) i, 0 ≤ i → s.E (s.swapM m pv first) i = _ := fun m i i0 => E_swap okp okf i0
  have E2 : ∀ (m : Mem V) i, 0 ≤ i → s.E (s.swapM m last pv) i = _ := fun m i i0 => E_swap okl okp i0
  -- the ends
  have fin : ∀ m1, RP (lsamp s first st (2 * 1 + 1)) m m1 → r (s.E m1 first) ≤ r (s.E m1 pv) → r (s.E m1 pv) ≤ r (s.E m1 last) →
      swp cmp W R (do
        let _ ← Lesswap.call s first lo first lo
        let _ ← Lesswap.call s hi last hi last
        pure pv : Prog V Sp Int) m1 fun pv m' => LPivOK r s lo hi m pv m' ∧
          ∃ m1, LPivMid r s first st 1 m pv m' m1 := fun m1 q1 q2 q3 =>
    lswEnds_spec hc h0 h1 hWs (by omega) (by omega) (by omega) (by omega) (q1.mono hsub) q2 q3 fun m' h h' h'' => by
      refine ⟨h, m1, by omega, q1, fun i j i0 ij j1 => ?_, h', lo, hi, fun i i0 i1 i2 i3 => h'' i i0 i1 i2
        (by have := i3 0 le_rfl (by omega); omega) (by have := i3 2 (by omega) (by omega); omega)⟩
      obtain ⟨rfl, rfl⟩ | ⟨rfl, rfl⟩ | ⟨rfl, rfl⟩ : (i = 0 ∧ j = 1) ∨ (i = 0 ∧ j = 2) ∨ (i = 1 ∧ j = 2) := by omega
      · rw [show first + 0 * (st : Int) = first by ring, show first + 1 * (st : Int) = pv by omega]; exact q2
      · rw [show first + 0 * (st : Int) = first by ring, show first + 2 * (st : Int) = last by omega]; exact q2.trans q3
      · rw [show first + 1 * (st : Int) = pv by omega, show first + 2 * (st : Int) = last by omega]; exact q3
  have key : ∀ m1, RP (lsamp s first st (2 * 1 + 1)) m m1 → r (s.E m1 first) ≤ r (s.E m1 pv) →
      swp cmp W R (do
        let b ← Lesswap.call s last pv last pv
        if b then do
          let _ ← Lesswap.call s pv first pv first
          pure ()
        else pure ()
        let _ ← Lesswap.call s first lo first lo
        let _ ← Lesswap.call s hi last hi last
        pure pv : Prog V Sp Int) m1 fun pv m' => LPivOK r s lo hi m pv m' ∧
          ∃ m1, LPivMid r s first st 1 m pv m' m1 := by
    intro m1 q1 q2
    refine swp_bind (lsw_specW hc okl okp okl okp (.inl (hW ml)) (.inl (hW mp)) (fun _ hle => ⟨⟨hW ml, hW mp⟩, ?_⟩)
      (fun hle => fin m1 q1 q2 hle))
    have q1' := q1.trans (RP.swapA (s := s) (m := m1) (x := last) (y := pv) fun _ => ⟨ml, mp⟩)
    have f1 : s.E (s.swapM m1 last pv) first = s.E m1 first := by
      rw [E2 m1 first (by omega), if_neg (by omega), if_neg (by omega)]
    have f2 : s.E (s.swapM m1 last pv) pv = s.E m1 last := by
      rw [E2 m1 pv (by omega), if_pos rfl]
    have f3 : s.E (s.swapM m1 last pv) last = s.E m1 pv := by
      rw [E2 m1 last (by omega), if_neg (by omega), if_pos rfl]
    generalize s.swapM m1 last pv = m2 at *
    show swp cmp W R (Lesswap.call s pv first pv first >>= fun _ => _) m2 _
    refine swp_bind (lsw_specW hc okp okf okp okf (.inl (hW mp)) (.inl (hW mf)) (fun _ hle' => ⟨⟨hW mp, hW mf⟩, ?_⟩)
      (fun hle' => ?_))
    · refine fin _ (q1'.trans (RP.swapA fun _ => ⟨mp, mf⟩)) ?_ ?_
      · rw [E1 m2 first (by omega), E1 m2 pv (by omega), if_pos rfl, if_neg (by omega), if_pos rfl]; exact hle'
      · rw [E1 m2 last (by omega), E1 m2 pv (by omega), if_neg (by omega), if_pos rfl, if_neg (by omega), if_neg (by omega), f1, f3]
        exact q2
    · refine fin m2 q1' hle' ?_
      rw [f2, f3]; exact hle
  refine swp_bind (lsw_specW hc okp okf okp okf (.inl (hW mp)) (.inl (hW mf)) (fun _ hle => ⟨⟨hW mp, hW mf⟩, ?_⟩)
    (fun hle => key m (RP.refl _ _) hle))
  refine key _ (RP.swapA fun _ => ⟨mp, mf⟩) ?_
  rw [E1 m first (by omega), E1 m pv (by omega), if_pos rfl, if_neg (by omega), if_pos rfl]; exact hle

theorem lswShortPivot_spec (hc : CmpW cmp r) {s : Slice} {lo hi : Int} {m : Mem V} (h0 : 0 ≤ lo) (h1 : hi < s.len)
    (hl : 6 ≤ hi + 1 - lo) (hW : (s.seg lo hi).rng ⊆ W) :
    swp cmp W R (lswShortPivot s lo hi : Prog V Sp Int) m (LPivOK r s lo hi m) :=
  swp_mono (lswShortPivot_mid hc h0 h1 hl hW) fun _ _ h => h.1

end Sorty
