import Verif.Proofs.LswPart

/-! # Short ranges via lesswap -/

namespace Sorty

open Prog

variable {V Sp : Type} {ρ : Type} [LinearOrder ρ]
variable {cmp : Nat → Nat → V → V → Bool → Prop} {W R : Set Nat} {r : V → ρ}
variable [Lesswap V] [Lesswap.OK V]

omit [Lesswap V] [Lesswap.OK V] in
/-- what partitioning a range around a pivot with one sample at each end yields -/
theorem LPivOK.part {s : Slice} {lo hi pv k : Int} {m0 m1 m2 : Mem V} (hp : LPivOK r s lo hi m0 pv m1) (h0 : 0 ≤ lo)
    (hk : LP1Post r s (lo + 1) pv (hi - 1) m1 k m2) :
    lo < k ∧ k ≤ hi ∧ RP (s.seg lo hi).rng m0 m2 ∧ (∀ i, lo ≤ i → i < k → r (s.E m2 i) ≤ r (s.E m1 pv)) ∧
      ∀ i, k ≤ i → i ≤ hi → r (s.E m1 pv) ≤ r (s.E m2 i) := by
  have := hk.k0; have := hk.k1; have := hp.lt; have := hp.gt
  have hsub : s.but (lo + 1) pv (hi - 1) ⊆ (s.seg lo hi).rng :=
    (but_sub_seg (by omega)).trans (seg_mono h0 (by omega) (by omega))
  have hn : ∀ j, (j = lo ∨ j = hi) → s.E m2 j = s.E m1 j := by
    intro j hj
    refine hk.rp.E_out ?_
    rintro ⟨i, i0, i1, _, i3⟩
    have := ad_inj (by omega) (by omega) i3
    omega
  refine ⟨by omega, by omega, hp.rp.trans (hk.rp.mono hsub), ?_, ?_⟩
  · intro i i0 i1
    rcases (by omega : i = lo ∨ lo + 1 ≤ i) with e | e
    · rw [e, hn lo (.inl rfl)]; exact hp.low
    · exact hk.low i e i1
  · intro i i0 i1
    rcases (by omega : i = hi ∨ i ≤ hi - 1) with e | e
    · rw [e, hn hi (.inr rfl)]; exact hp.high
    · exact hk.high i i0 e

omit [Lesswap V] [Lesswap.OK V] in
/-- the partitioned range may be written except for its ends -/
theorem but_sub {s : Slice} {lo pv hi : Int} (h0 : 0 ≤ lo) (hW : (s.seg lo hi).rng ⊆ W) : s.but (lo + 1) pv (hi - 1) ⊆ W :=
  ((but_sub_seg (by omega)).trans (seg_mono h0 (by omega) (by omega))).trans hW

omit [Lesswap V] [Lesswap.OK V] in
theorem seg_len {s : Slice} {lo hi : Int} (h : lo ≤ hi + 1) : ((s.seg lo hi).len : Int) = hi + 1 - lo := by
  unfold Slice.seg; dsimp only; omega

variable {C : Conf}

/-- what is needed of partitioning the inside of a range around a pivot -/
def LPartOK (cmp : Nat → Nat → V → V → Bool → Prop) (Sp : Type) (W R : Set Nat) (r : V → ρ) (s : Slice) : Prop :=
  ∀ (lo hi pv : Int) (m0 m1 : Mem V), 0 ≤ lo → hi < s.len → (s.seg lo hi).rng ⊆ W → LPivOK r s lo hi m0 pv m1 →
    swp cmp W R (lswPartOne s (lo + 1) pv (hi - 1) : Prog V Sp Int) m1 fun k m2 => lo < k ∧ k ≤ hi ∧ RP (s.seg lo hi).rng m0 m2 ∧
      ∃ p, (∀ i, lo ≤ i → i < k → r (s.E m2 i) ≤ p) ∧ ∀ i, k ≤ i → i ≤ hi → p ≤ r (s.E m2 i)

theorem lswPartOne_ok (hc : CmpOK cmp r) {s : Slice} : LPartOK cmp Sp W R r s := by
  intro lo hi pv m0 m1 h0 h1 hW hp
  have := hp.lt; have := hp.gt
  refine swp_mono (lswPartOne_spec hc (by omega) (by omega) (by omega) ⟨by omega, by omega⟩ (but_sub h0 hW)
    (.inl (hW (ad_mem_seg h0 hp.lt.le hp.gt.le)))) ?_
  intro k m2 hk
  obtain ⟨k0, k1, hrp, hlow, hhigh⟩ := hp.part h0 hk
  exact ⟨k0, k1, hrp, _, hlow, hhigh⟩

theorem lswShort_gen (hc : CmpW cmp r) {s : Slice} (hpart : LPartOK cmp Sp W R r s) (h8 : 8 < C.maxLenInsFC) :
    ∀ (f d : Nat) (lo hi : Int) (m : Mem V),
    0 ≤ lo → hi < s.len → (s.seg lo hi).rng ⊆ W → hi + 1 - lo ≤ f → C.maxLenInsFC ≤ hi - lo → hi + 1 - lo < ((2 ^ d : Nat) : Int) →
    swp cmp W R (lswShort C s f d lo hi : Prog V Sp Unit) m fun _ m' =>
      RP (s.seg lo hi).rng m m' ∧ SortedOn r m' (s.seg lo hi).off ((s.seg lo hi).off + (s.seg lo hi).len) := by
  intro f
  induction f with
  | zero => intro d lo hi m _ _ _ h1 h2; omega
  | succ f ih =>
    intro d lo hi m h0 h1 hW hf hins hd
    unfold lswShort
    refine swp_bind (swp_mono (lswShortPivot_spec hc h0 h1 (by omega) hW) ?_)
    intro pv m1 hp
    refine swp_bind (swp_mono (hpart lo hi pv m m1 h0 h1 hW hp) ?_)
    rintro k m2 ⟨k0, k1, hrp, p, hlow, hhigh⟩
    obtain ⟨l, h, lo', hi', he, hsp, b1, b2, b3, b4, b5, b6, b7, b8, b9⟩ := lswSplit_spec h0 k0 k1 hrp.on hlow hhigh
    rw [he]
    dsimp only
    obtain ⟨u1, u2, u3, u4⟩ := hsp.sub
    -- from sorting both parts
    have fin : ∀ m3 m4, RP (s.seg l h).rng m2 m3 → SortedOn r m3 (s.seg l h).off ((s.seg l h).off + (s.seg l h).len) →
        RP (s.seg lo' hi').rng m3 m4 → SortedOn r m4 (s.seg lo' hi').off ((s.seg lo' hi').off + (s.seg lo' hi').len) →
        RP (s.seg lo hi).rng m m4 ∧ SortedOn r m4 (s.seg lo hi).off ((s.seg lo hi).off + (s.seg lo hi).len) := by
      intro m3 m4 r1 s1 r2 s2
      refine ⟨hrp.trans ((r1.mono u1).trans (r2.mono u2)), ?_⟩
      have ag : Agree (s.seg l h).rng m3 m4 := r2.agree_of_disjoint u3.symm
      have ag2 : Agree (s.seg lo' hi').rng m2 m3 := r1.agree_of_disjoint u3
      exact (hsp.glue (SP.congr ⟨r1.on, s1⟩ (Agree.refl _ _) ag)
        (SP.congr ⟨r2.on, s2⟩ ag2.symm (Agree.refl _ _))).2
    by_cases hq : h - l ≥ C.maxLenInsFC
    · rw [if_pos hq]
      obtain ⟨d, rfl⟩ : ∃ d', d = d' + 1 := by
        cases d with
        | zero => simp at hd; omega
        | succ d => exact ⟨d, rfl⟩
      rw [pow_succ] at hd
      refine swp_bind (swp_mono (ih d l h m2 (by omega) (by omega) (u1.trans hW) (by omega) (by omega) (by omega)) ?_)
      rintro _ m3 ⟨r1, s1⟩
      refine swp_mono (ih (d + 1) lo' hi' m3 (by omega) (by omega) (u2.trans hW) (by omega) (by omega) (by rw [pow_succ]; omega)) ?_
      rintro _ m4 ⟨r2, s2⟩
      exact fin m3 m4 r1 s1 r2 s2
    · rw [if_neg hq]
      refine swp_bind (swp_mono (Q := fun again m3 =>
        (again = true ∧ hi' - lo' ≥ C.maxLenInsFC ∧ RP (s.seg l h).rng m2 m3 ∧
          SortedOn r m3 (s.seg l h).off ((s.seg l h).off + (s.seg l h).len)) ∨
        (again = false ∧ RP (s.seg lo hi).rng m m3 ∧ SortedOn r m3 (s.seg lo hi).off ((s.seg lo hi).off + (s.seg lo hi).len))) ?_ ?_)
      · refine swp_loop _ _ (fun (st : Int × Int) m3 => (st = (l, h) ∧ m3 = m2) ∨ (st = (lo', hi') ∧ ¬ hi' - lo' ≥ C.maxLenInsFC ∧
          RP (s.seg l h).rng m2 m3 ∧ SortedOn r m3 (s.seg l h).off ((s.seg l h).off + (s.seg l h).len)))
          (fun st => if st = (l, h) then 1 else 0) ?_ _ _ _ (.inl ⟨rfl, rfl⟩) (by simp)
        rintro st m3 (⟨rfl, rfl⟩ | ⟨rfl, g1, g2, g3⟩)
        · refine swp_bind (swp_mono (lswInsertion_spec hc (by omega) (by omega) b2 (u1.trans hW)) ?_)
          rintro _ m4 ⟨r1, s1⟩
          by_cases hc2 : hi' - lo' ≥ C.maxLenInsFC
          · rw [if_pos hc2]
            exact .inl ⟨rfl, hc2, r1, s1⟩
          · rw [if_neg hc2, if_pos b7]
            refine ⟨.inr ⟨rfl, hc2, r1, s1⟩, ?_⟩
            rw [if_neg (by simp [b7]), if_pos rfl]
            omega
        · refine swp_bind (swp_mono (lswInsertion_spec hc (by omega) (by omega) b5 (u2.trans hW)) ?_)
          rintro _ m4 ⟨r1, s1⟩
          rw [if_neg g1, if_neg (by simp)]
          exact .inr ⟨rfl, fin m3 m4 g2 g3 r1 s1⟩
      · rintro again m3 (⟨rfl, g1, r1, s1⟩ | ⟨rfl, g⟩)
        · rw [if_pos rfl]
          refine swp_mono (ih d lo' hi' m3 (by omega) (by omega) (u2.trans hW) (by omega) (by omega) (by omega)) ?_
          rintro _ m4 ⟨r2, s2⟩
          exact fin m3 m4 r1 s1 r2 s2
        · rw [if_neg (by simp)]
          exact g

theorem lswShort_spec (hc : CmpOK cmp r) {s : Slice} (h8 : 8 < C.maxLenInsFC) (f d : Nat) (lo hi : Int) (m : Mem V) :
    0 ≤ lo → hi < s.len → (s.seg lo hi).rng ⊆ W → hi + 1 - lo ≤ f → C.maxLenInsFC ≤ hi - lo → hi + 1 - lo < ((2 ^ d : Nat) : Int) →
    swp cmp W R (lswShort C s f d lo hi : Prog V Sp Unit) m fun _ m' =>
      RP (s.seg lo hi).rng m m' ∧ SortedOn r m' (s.seg lo hi).off ((s.seg lo hi).off + (s.seg lo hi).len) :=
  lswShort_gen hc.toCmpW (lswPartOne_ok hc) h8 f d lo hi m

end Sorty
