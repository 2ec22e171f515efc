import Verif.Proofs.LswLong
import Verif.Proofs.Call

/-! # Concurrent partitioning -/

namespace Sorty

open Prog

variable {V : Type} {ρ : Type} [LinearOrder ρ]
variable {cmp : Nat → Nat → V → V → Bool → Prop} {r : V → ρ} {C : Conf} {s : Slice}
variable [Lesswap V] [Lesswap.OK V]

/-- postcondition of `partCon` -/
structure LConPost (r : V → ρ) (s : Slice) (lo hi : Int) (A : Set Nat) (m0 : Mem V) (k : Int) (m : Mem V) : Prop where
  k0 : lo < k
  k1 : k ≤ hi
  rp : RPon (s.seg lo hi).rng m0 m
  mem : Agree (A \ (s.seg lo hi).rng) m0 m
  part : ∃ p, (∀ i : Int, lo ≤ i → i < k → r (s.E m i) ≤ p) ∧ ∀ i : Int, k ≤ i → i ≤ hi → p ≤ r (s.E m i)

theorem lswPartCon_strict (hL : LOK C s cmp r) {lo hi : Int} {g : Gh V LSp} {m : Mem V} (hi0 : Idle g)
    (hr : g.role = .main) (hC : g.C = true) (hS : g.S = true) (hR : g.R = ∅) (h0 : 0 ≤ lo) (h1 : hi < s.len)
    (hW : (s.seg lo hi).rng ⊆ g.W) (hl : C.maxLenRecFC ≤ hi - lo) :
    wp (lspec C s cmp r) (lswPartCon C.wordSize s lo hi) g m fun k g' m' => g' = g ∧ LConPost r s lo hi g.W m k m' := by
  have h8 := hL.ins
  have hr1 := hL.recOK
  unfold lswPartCon
  refine wp_bind (lseq_wp (R := ∅) hi0.ph hW (by simp) (lswPivot_spec hL.weak hL.word hL.fits (t := 3) h0 h1 rfl (by omega) le_rfl
    (by unfold nsConc; omega) subset_rfl) ?_)
  rintro pv m1 ⟨hp, p3, p4⟩
  push_cast at p3 p4
  have hl1 : meanI (lo + 1) pv = (lo + 1 + pv) / 2 := rfl
  have hh1 : meanI pv (hi - 1) = (pv + (hi - 1)) / 2 := rfl
  dsimp only
  rw [hl1, hh1]
  generalize hll : (lo + 1 + pv) / 2 = l
  generalize hhh : (pv + (hi - 1)) / 2 = h
  have b1 : lo + 1 ≤ l := by omega
  have b2 : l < pv := by omega
  have b3 : pv < h := by omega
  have b4 : h ≤ hi - 1 := by omega
  have hA : s.but (l + 1) pv (h - 1) ⊆ (s.seg lo hi).rng := (but_sub_seg (by omega)).trans (seg_mono h0 (by omega) (by omega))
  have hpA : s.ad pv ∈ (s.seg lo hi).rng := ad_mem_seg h0 (by omega) (by omega)
  have hO : s.outer (lo + 1) l h (hi - 1) ⊆ (s.seg lo hi).rng := by
    rintro a ⟨i, hi1, rfl⟩
    exact ad_mem_seg h0 (by omega) (by omega)
  have hOA : ∀ a, a ∈ s.outer (lo + 1) l h (hi - 1) → a ∉ s.but (l + 1) pv (h - 1) ∪ {s.ad pv} := by
    rintro a ⟨i, hi1, rfl⟩ (⟨j, j0, j1, j2, j3⟩ | j3)
    · have := ad_inj (by omega) (by omega) j3
      omega
    · have := ad_inj (by omega) (by omega) (Set.mem_singleton_iff.1 j3)
      omega
  -- spawn the partitioner of the middle half
  refine wp_bind ?_
  unfold wp
  rw [if_pos (show (lspec C s cmp r).isPart (.part (l + 1) pv (h - 1)) = true from rfl)]
  refine ⟨hr, hC, hi0.ph, hi0.J, hi0.T, hS, hR, hA.trans hW, Set.singleton_subset_iff.2 (hW hpA),
    Set.disjoint_singleton_right.2 (pv_not_but (by omega) (by omega)), ⟨by omega, by omega, by omega, by omega, by omega⟩, ?_⟩
  set g1 : Gh V LSp := { g with
    W := g.W \ ((lspec C s cmp r).W (.part (l + 1) pv (h - 1)) ∪ (lspec C s cmp r).R (.part (l + 1) pv (h - 1)))
    R := (lspec C s cmp r).R (.part (l + 1) pv (h - 1))
    J := some (.part (l + 1) pv (h - 1), (lspec C s cmp r).ppost (.part (l + 1) pv (h - 1)) m1) } with hg1
  have hW1 : g1.W = g.W \ (s.but (l + 1) pv (h - 1) ∪ {s.ad pv}) := rfl
  refine wp_bind (lseq_wp (g := g1) hi0.ph (W := s.outer (lo + 1) l h (hi - 1)) (R := {s.ad pv}) ?_ Set.subset_union_right
    (lswPartTwo_spec hL.ok (by omega) b1 b2 b3 b4 (by omega) subset_rfl (.inr rfl)) ?_)
  · rw [hW1]
    exact fun a ha => ⟨hW (hO ha), hOA a ha⟩
  intro x m2 h2
  refine wp_bind (.inl ⟨hr, hi0.ph, _, _, rfl, ?_⟩)
  rintro v m3 hag ⟨ma, mb, q1, q2, q3⟩
  have hg2 : ({ g1 with
      W := g1.W ∪ ((lspec C s cmp r).W (.part (l + 1) pv (h - 1)) ∪ (lspec C s cmp r).R (.part (l + 1) pv (h - 1)))
      R := ∅
      J := none } : Gh V LSp) = g := by
    have e1 : g1.W ∪ ((lspec C s cmp r).W (.part (l + 1) pv (h - 1)) ∪ (lspec C s cmp r).R (.part (l + 1) pv (h - 1))) = g.W := by
      rw [hW1]
      refine Set.sdiff_union_of_subset (Set.union_subset (hA.trans hW) ?_)
      exact Set.singleton_subset_iff.2 (hW hpA)
    rw [e1, hg1]
    have e2 := hi0.J
    cases g
    dsimp only at *
    rw [hR, e2]
  rw [hg2]
  show wp _ (if x < pv then _ else _) _ _ _
  have hagO : Agree (s.outer (lo + 1) l h (hi - 1)) m2 m3 := hag.mono fun a ha => .inl ⟨hW (hO ha), hOA a ha⟩
  have hpn : s.ad pv ∉ s.outer (lo + 1) l h (hi - 1) := fun hh => hOA _ hh (.inr rfl)
  have ep : s.E m3 pv = s.E m1 pv := by
    have e1 : m2 (s.ad pv) = m3 (s.ad pv) := hag _ (.inr rfl)
    have e2 := h2.rp.E_out hpn
    rw [← e2]; exact e1.symm
  have ea : s.E ma pv = s.E m1 pv := (q1 _ (.inr rfl)).symm
  have hrest : Agree (g.W \ (s.outer (lo + 1) l h (hi - 1) ∪ s.but (l + 1) pv (h - 1))) m1 m3 := by
    rintro a ⟨ha, hn⟩
    by_cases e : a = s.ad pv
    · rw [e]; exact ep.symm
    · have e1 : m2 a = m3 a := hag a (.inl ⟨ha, fun hh => hh.elim (fun h => hn (.inr h)) e⟩)
      rw [← e1]
      exact (h2.rp.out fun hh => hn (.inl hh)).symm
  have hdis : Disjoint (s.outer (lo + 1) l h (hi - 1)) (s.but (l + 1) pv (h - 1)) :=
    Set.disjoint_left.2 fun a ha hb => hOA a ha (.inl hb)
  have hrp : RPon (s.seg lo hi).rng m1 m3 := by
    have r1 : RPon (s.outer (lo + 1) l h (hi - 1)) m1 m3 := h2.rp.on.congr (Agree.refl _ _) hagO
    have r2 : RPon (s.but (l + 1) pv (h - 1)) m1 m3 :=
      q3.rp.on.congr (q1.symm.mono Set.subset_union_left) (q2.mono Set.subset_union_left)
    have r3 : RPon ((s.seg lo hi).rng \ (s.outer (lo + 1) l h (hi - 1) ∪ s.but (l + 1) pv (h - 1))) m1 m3 :=
      (RPon.refl _ m1).congr (Agree.refl _ _) (hrest.mono fun a ha => ⟨hW ha.1, ha.2⟩)
    have := (r1.union hdis r2).union Set.disjoint_sdiff_right r3
    rwa [Set.union_sdiff_cancel (Set.union_subset hO hA)] at this
  have hmem : Agree (g.W \ (s.seg lo hi).rng) m1 m3 := hrest.mono fun a ha => ⟨ha.1, fun hh => ha.2 (Set.union_subset hO hA hh)⟩
  have ends : ∀ j, (j = lo ∨ j = hi) → s.E m3 j = s.E m1 j := by
    intro j hj
    refine (hrest (s.ad j) ⟨hW (ad_mem_seg h0 (by omega) (by omega)), ?_⟩).symm
    rintro (⟨i, i0, i1⟩ | ⟨i, i0, i1, _, i3⟩)
    · have := ad_inj (by omega) (by omega) i1
      omega
    · have := ad_inj (by omega) (by omega) i3
      omega
  have eO : ∀ i : Int, (lo + 1 ≤ i ∧ i ≤ l) ∨ (h ≤ i ∧ i ≤ hi - 1) → s.E m3 i = s.E m2 i := fun i c =>
    (hagO (s.ad i) ⟨i, c, rfl⟩).symm
  have eH : ∀ i : Int, l + 1 ≤ i → i ≤ h - 1 → s.E m3 i = s.E mb i := by
    intro i c0 c1
    refine (q2 (s.ad i) ?_).symm
    by_cases e : i = pv
    · rw [e]; exact .inr rfl
    · exact .inl ⟨i, c0, c1, e, rfl⟩
  have hlowH : ∀ i : Int, l + 1 ≤ i → i < v → r (s.E m3 i) ≤ r (s.E m1 pv) := by
    intro i c0 c1
    have := q3.k1
    rw [eH i c0 (by omega), ← ea]; exact q3.low i c0 c1
  have hhighH : ∀ i : Int, v ≤ i → i ≤ h - 1 → r (s.E m1 pv) ≤ r (s.E m3 i) := by
    intro i c0 c1
    have := q3.k0
    rw [eH i (by omega) c1, ← ea]; exact q3.high i c0 c1
  have v0 := q3.k0
  have v1 := q3.k1
  have hWi : (s.seg (lo + 1) (hi - 1)).rng ⊆ (s.seg lo hi).rng := seg_mono h0 (by omega) (by omega)
  -- closing the gap
  have fin : ∀ k m4, LGapPost r s (lo + 1) (hi - 1) (r (s.E m1 pv)) m3 k m4 → LConPost r s lo hi g.W m k m4 := by
    intro k m4 hg
    have := hg.k0; have := hg.k1
    have ends4 : ∀ j, (j = lo ∨ j = hi) → s.E m4 j = s.E m1 j := by
      intro j hj
      rw [hg.rp.E_out, ends j hj]
      intro hh
      obtain ⟨i, i0, i1, i2⟩ := seg_mem (by omega) hh
      have := ad_inj (by omega) (by omega) i2
      omega
    refine ⟨by omega, by omega, hp.rp.on.trans (hrp.trans (hg.rp.mono hWi).on),
      hp.rp.agree_sdiff.trans (hmem.trans (hg.rp.mono hWi).agree_sdiff), r (s.E m1 pv), ?_, ?_⟩
    · intro i i0 i1
      rcases (by omega : i = lo ∨ lo + 1 ≤ i) with e | e
      · rw [e, ends4 lo (.inl rfl)]; exact hp.low
      · exact hg.low i e i1
    · intro i i0 i1
      rcases (by omega : i = hi ∨ i ≤ hi - 1) with e | e
      · rw [e, ends4 hi (.inr rfl)]; exact hp.high
      · exact hg.high i i0 e
  by_cases hc : x < pv
  · rw [if_pos hc]
    obtain ⟨r0, r1, r2, r3⟩ := h2.cases.resolve_right (by rintro ⟨c, _⟩; omega)
    refine lseq_wp (R := ∅) hi0.ph (hWi.trans hW) (by simp) (lswGapLow_spec hL.weak (hi := hi - 1) (p := r (s.E m1 pv)) (by omega) (by omega) r0 (by omega) (by omega)
      hc (by omega) (by rw [ep]) ?_ ?_ subset_rfl) ?_
    · intro i c0 c1
      by_cases c2 : i ≤ l
      · rw [eO i (.inl ⟨by omega, c2⟩)]; exact r2 i c0 c2
      · exact hlowH i (by omega) c1
    · intro i c0 c1
      by_cases c2 : i ≤ h - 1
      · exact hhighH i c0 c2
      · rw [eO i (.inr ⟨by omega, c1⟩)]; exact r3 i (by omega) c1
    · intro k m4 hg
      exact ⟨rfl, fin k m4 hg⟩
  · rw [if_neg hc]
    obtain ⟨r0, r1, r2, r3⟩ := h2.cases.resolve_left (by rintro ⟨_, c, _⟩; omega)
    refine lseq_wp (R := ∅) hi0.ph (hWi.trans hW) (by simp) (lswGapHigh_spec hL.weak (lo := lo + 1) (p := r (s.E m1 pv)) (by omega) (by omega) r1 (by omega) (by omega)
      (by omega) (by omega) (by rw [ep]) ?_ ?_ subset_rfl) ?_
    · intro i c0 c1
      by_cases c2 : i ≤ l
      · rw [eO i (.inl ⟨by omega, c2⟩)]; exact r2 i c0 c2
      · exact hlowH i (by omega) c1
    · intro i c0 c1
      by_cases c2 : i ≤ h - 1
      · exact hhighH i c0 c2
      · rw [eO i (.inr ⟨by omega, by omega⟩)]; exact r3 i (by omega) c1
    · intro k m4 hg
      exact ⟨rfl, fin k m4 hg⟩

/-! ## With an arbitrary comparator -/

/-- one call of the lesswap function: the compared elements may be racy -/
theorem lsw_wpA {g : Gh V LSp} {m : Mem V} {i k x y : Int} {Q : Bool → Gh V LSp → Mem V → Prop} (hph : g.ph = .run)
    (hi : s.ok i) (hk : s.ok k) (hx : s.ok x) (hy : s.ok y) (wx : s.ad x ∈ g.W) (wy : s.ad y ∈ g.W)
    (hQ : ∀ b, Q b g (if b = true then s.swapM m x y else m)) : wp (lspecG C s cmp r true) (Lesswap.call s i k x y) g m Q :=
  Lesswap.OK.racy subset_rfl hph hi hk hx hy wx wy hQ

/-- what holds at the control points of `partTwo`, whatever the comparator answers -/
def AP2I (s : Slice) (lo l0 h0 hi : Int) (g0 : Gh V LSp) (m0 : Mem V) : LP2 → Gh V LSp → Mem V → Prop
  | .head l h, g, m | .scan l h, g, m | .second l h, g, m => g = g0 ∧ lo ≤ l ∧ l ≤ l0 ∧ h0 ≤ h ∧ h ≤ hi ∧ RP (s.outer lo l0 h0 hi) m0 m

theorem lswPartTwo_any {lo l0 pv h0 hi : Int} {g : Gh V LSp} {m0 : Mem V} (hp : g.ph = .run) (hlo : 0 ≤ lo) (hl : lo ≤ l0)
    (hlp : l0 < pv) (hph : pv < h0) (hh : h0 ≤ hi) (hhi : hi < s.len) (hW : s.outer lo l0 h0 hi ⊆ g.W) :
    wp (lspecG C s cmp r true) (lswPartTwo s lo l0 pv h0 hi) g m0 fun k g' m =>
      g' = g ∧ RP (s.outer lo l0 h0 hi) m0 m ∧ ((lo - 1 ≤ k ∧ k ≤ l0) ∨ (h0 ≤ k ∧ k ≤ hi + 1)) := by
  have okp : s.ok pv := ⟨by omega, by omega⟩
  have okl : ∀ i, lo ≤ i → i ≤ l0 → s.ok i := fun i a b => ⟨by omega, by omega⟩
  have okh : ∀ i, h0 ≤ i → i ≤ hi → s.ok i := fun i a b => ⟨by omega, by omega⟩
  have ml : ∀ i, lo ≤ i → i ≤ l0 → s.ad i ∈ s.outer lo l0 h0 hi := fun i a b => ⟨i, .inl ⟨a, b⟩, rfl⟩
  have mh : ∀ i, h0 ≤ i → i ≤ hi → s.ad i ∈ s.outer lo l0 h0 hi := fun i a b => ⟨i, .inr ⟨a, b⟩, rfl⟩
  -- after both sides are in place
  have next : ∀ {l h m}, lo ≤ l → l ≤ l0 → h0 ≤ h → h ≤ hi → RP (s.outer lo l0 h0 hi) m0 m →
      match lswPartTwoNext lo hi l h with
      | .again s' => AP2I s lo l0 h0 hi g m0 s' g m ∧ LP2mu lo hi s' < ((l - lo) + (hi - h)).toNat * 2
      | .brk k => g = g ∧ RP (s.outer lo l0 h0 hi) m0 m ∧ ((lo - 1 ≤ k ∧ k ≤ l0) ∨ (h0 ≤ k ∧ k ≤ hi + 1)) := by
    intro l h m a1 a2 a3 a4 a5
    unfold lswPartTwoNext
    dsimp only
    by_cases c1 : l - 1 < lo
    · rw [if_pos c1]
      exact ⟨rfl, a5, .inr ⟨by omega, by omega⟩⟩
    · rw [if_neg c1]
      by_cases c2 : h + 1 > hi
      · rw [if_pos c2]
        exact ⟨rfl, a5, .inl ⟨by omega, by omega⟩⟩
      · rw [if_neg c2]
        refine ⟨⟨rfl, by omega, by omega, by omega, by omega, a5⟩, ?_⟩
        simp only [LP2mu]; omega
  have swapped : ∀ {l h m}, lo ≤ l → l ≤ l0 → h0 ≤ h → h ≤ hi → RP (s.outer lo l0 h0 hi) m0 m →
      RP (s.outer lo l0 h0 hi) m0 (s.swapM m h l) := fun c1 c2 c3 c4 h =>
    h.trans (RP.swapA fun _ => ⟨mh _ c3 c4, ml _ c1 c2⟩)
  unfold lswPartTwo
  refine wp_loop _ _ (AP2I s lo l0 h0 hi g m0) (LP2mu lo hi) ?_ _ _ _ _ ⟨rfl, hl, le_rfl, le_rfl, hh, RP.refl _ _⟩ ?_
  · rintro (⟨l, h⟩ | ⟨l, h⟩ | ⟨l, h⟩) g' m ⟨rfl, c1, c2, c3, c4, c5⟩
    · -- head
      simp only [lswPartTwoStep]
      refine wp_bind (lsw_wpA hp (okh h c3 c4) okp (okh h c3 c4) (okh h c3 c4) (hW (mh h c3 c4)) (hW (mh h c3 c4)) fun b => ?_)
      rw [swapM_self, ite_self]
      cases b with
      | true =>
        rw [if_pos rfl]
        exact ⟨⟨rfl, c1, c2, c3, c4, c5⟩, by simp only [LP2mu]; omega⟩
      | false =>
        rw [if_neg (by simp)]
        refine wp_bind (lsw_wpA hp okp (okl l c1 c2) (okl l c1 c2) (okl l c1 c2) (hW (ml l c1 c2)) (hW (ml l c1 c2)) fun b => ?_)
        rw [swapM_self, ite_self]
        cases b with
        | true =>
          rw [if_pos rfl]
          exact ⟨⟨rfl, c1, c2, c3, c4, c5⟩, by simp only [LP2mu]; omega⟩
        | false =>
          rw [if_neg (by simp)]
          have hn := next c1 c2 c3 c4 c5
          generalize lswPartTwoNext lo hi l h = cc at *
          cases cc with
          | again s' => exact ⟨hn.1, by have := hn.2; simp only [LP2mu] at this ⊢; omega⟩
          | brk a => exact hn
    · -- scan
      simp only [lswPartTwoStep]
      refine wp_bind (lsw_wpA hp okp (okl l c1 c2) (okh h c3 c4) (okl l c1 c2) (hW (mh h c3 c4)) (hW (ml l c1 c2)) fun b => ?_)
      cases b with
      | true =>
        rw [if_pos rfl, if_pos rfl]
        have hn := next c1 c2 c3 c4 (swapped c1 c2 c3 c4 c5)
        generalize lswPartTwoNext lo hi l h = cc at *
        cases cc with
        | again s' => exact ⟨hn.1, by have := hn.2; simp only [LP2mu] at this ⊢; omega⟩
        | brk a => exact hn
      | false =>
        rw [if_neg Bool.false_ne_true, if_neg Bool.false_ne_true]
        by_cases d1 : l - 1 < lo
        · rw [if_pos d1]
          exact ⟨rfl, c5, .inr ⟨by omega, by omega⟩⟩
        · rw [if_neg d1]
          exact ⟨⟨rfl, by omega, by omega, by omega, by omega, c5⟩, by simp only [LP2mu]; omega⟩
    · -- second
      simp only [lswPartTwoStep]
      by_cases d1 : h + 1 > hi
      · rw [if_pos d1]
        exact ⟨rfl, c5, .inl ⟨by omega, by omega⟩⟩
      · rw [if_neg d1]
        have c3' : h0 ≤ h + 1 := by omega
        have c4' : h + 1 ≤ hi := by omega
        refine wp_bind (lsw_wpA hp (okh _ c3' c4') okp (okh _ c3' c4') (okl l c1 c2) (hW (mh _ c3' c4')) (hW (ml l c1 c2)) fun b => ?_)
        cases b with
        | true =>
          rw [if_pos rfl, if_pos rfl]
          have hn := next c1 c2 c3' c4' (swapped c1 c2 c3' c4' c5)
          generalize lswPartTwoNext lo hi l (h + 1) = cc at *
          cases cc with
          | again s' => exact ⟨hn.1, by have := hn.2; simp only [LP2mu] at this ⊢; omega⟩
          | brk a => exact hn
        | false =>
          rw [if_neg Bool.false_ne_true, if_neg Bool.false_ne_true]
          exact ⟨⟨rfl, c1, c2, c3', c4', c5⟩, by simp only [LP2mu]; omega⟩
  · simp only [LP2mu]; omega

theorem lswPartCon_any (hL : LOKG C s cmp r true) {lo hi : Int} {g : Gh V LSp} {m : Mem V} (hi0 : Idle g)
    (hr : g.role = .main) (hC : g.C = true) (hS : g.S = true) (hR : g.R = ∅) (h0 : 0 ≤ lo) (h1 : hi < s.len)
    (hW : (s.seg lo hi).rng ⊆ g.W) (hl : C.maxLenRecFC ≤ hi - lo) :
    wp (lspecG C s cmp r true) (lswPartCon C.wordSize s lo hi) g m fun k g' m' => g' = g ∧ LConPost r s lo hi g.W m k m' := by
  have h8 := hL.ins
  have hr1 := hL.recOK
  have ht := hL.triv rfl
  unfold lswPartCon
  refine wp_bind (lseq_wp (R := ∅) hi0.ph hW (by simp) (lswPivot_spec hL.weak hL.word hL.fits (t := 3) h0 h1 rfl (by omega) le_rfl
    (by unfold nsConc; omega) subset_rfl) ?_)
  rintro pv m1 ⟨hp, p3, p4⟩
  push_cast at p3 p4
  have hl1 : meanI (lo + 1) pv = (lo + 1 + pv) / 2 := rfl
  have hh1 : meanI pv (hi - 1) = (pv + (hi - 1)) / 2 := rfl
  dsimp only
  rw [hl1, hh1]
  generalize hll : (lo + 1 + pv) / 2 = l
  generalize hhh : (pv + (hi - 1)) / 2 = h
  have b1 : lo + 1 ≤ l := by omega
  have b2 : l < pv := by omega
  have b3 : pv < h := by omega
  have b4 : h ≤ hi - 1 := by omega
  set A := (s.seg (l + 1) (h - 1)).rng with hAd
  set O := s.outer (lo + 1) l h (hi - 1) with hOd
  have hA : A ⊆ (s.seg lo hi).rng := seg_mono h0 (by omega) (by omega)
  have hO : O ⊆ (s.seg lo hi).rng := by
    rintro a ⟨i, hi1, rfl⟩
    exact ad_mem_seg h0 (by omega) (by omega)
  have hOA : ∀ a, a ∈ O → a ∉ A := by
    rintro a ⟨i, hi1, rfl⟩ hm
    obtain ⟨j, j0, j1, j3⟩ := seg_mem (by omega) hm
    have := ad_inj (by omega) (by omega) j3
    omega
  -- spawn the partitioner of the middle half
  refine wp_bind ?_
  unfold wp
  rw [if_pos (show (lspecG C s cmp r true).isPart (.part (l + 1) pv (h - 1)) = true from rfl)]
  refine ⟨hr, hC, hi0.ph, hi0.J, hi0.T, hS, hR, hA.trans hW, Set.empty_subset _,
    Set.disjoint_empty _, ⟨by omega, by omega, by omega, by omega⟩, ?_⟩
  set g1 : Gh V LSp := { g with
    W := g.W \ ((lspecG C s cmp r true).W (.part (l + 1) pv (h - 1)) ∪ (lspecG C s cmp r true).R (.part (l + 1) pv (h - 1)))
    R := (lspecG C s cmp r true).R (.part (l + 1) pv (h - 1))
    J := some (.part (l + 1) pv (h - 1), (lspecG C s cmp r true).ppost (.part (l + 1) pv (h - 1)) m1) } with hg1
  have hW1 : g1.W = g.W \ (A ∪ ∅) := rfl
  rw [Set.union_empty] at hW1
  refine wp_bind (wp_mono (lswPartTwo_any (g := g1) hi0.ph (by omega) b1 b2 b3 b4 (by omega) ?_) ?_)
  · rw [hW1]
    exact fun a ha => ⟨hW (hO ha), hOA a ha⟩
  rintro x _ m2 ⟨rfl, h2, hx⟩
  refine wp_bind (.inl ⟨hr, hi0.ph, _, _, rfl, ?_⟩)
  rintro v m3 hag ⟨v0, v1, q3⟩
  have hg2 : ({ g1 with
      W := g1.W ∪ ((lspecG C s cmp r true).W (.part (l + 1) pv (h - 1)) ∪ (lspecG C s cmp r true).R (.part (l + 1) pv (h - 1)))
      R := ∅
      J := none } : Gh V LSp) = g := by
    have e1 : g1.W ∪ ((lspecG C s cmp r true).W (.part (l + 1) pv (h - 1)) ∪ (lspecG C s cmp r true).R (.part (l + 1) pv (h - 1))) = g.W := by
      show g1.W ∪ (A ∪ ∅) = g.W
      rw [hW1, Set.union_empty]
      exact Set.sdiff_union_of_subset (hA.trans hW)
    rw [e1, hg1]
    have e2 := hi0.J
    cases g
    dsimp only at *
    rw [hR, e2]
  rw [hg2]
  show wp _ (if x < pv then _ else _) _ _ _
  rw [hW1] at hag
  have hagO : Agree O m2 m3 := hag.mono fun a ha => .inl ⟨hW (hO ha), hOA a ha⟩
  have hrest : Agree (g.W \ (O ∪ A)) m1 m3 := by
    rintro a ⟨ha, hn⟩
    have e1 : m2 a = m3 a := hag a (.inl ⟨ha, fun h => hn (.inr h)⟩)
    rw [← e1]
    exact (h2.out fun hh => hn (.inl hh)).symm
  have hdis : Disjoint O A := Set.disjoint_left.2 hOA
  have hrp : RPon (s.seg lo hi).rng m1 m3 := by
    have r1 : RPon O m1 m3 := h2.on.congr (Agree.refl _ _) hagO
    have r3 : RPon ((s.seg lo hi).rng \ (O ∪ A)) m1 m3 :=
      (RPon.refl _ m1).congr (Agree.refl _ _) (hrest.mono fun a ha => ⟨hW ha.1, ha.2⟩)
    have := (r1.union hdis q3).union Set.disjoint_sdiff_right r3
    rwa [Set.union_sdiff_cancel (Set.union_subset hO hA)] at this
  have hmem : Agree (g.W \ (s.seg lo hi).rng) m1 m3 := hrest.mono fun a ha => ⟨ha.1, fun hh => ha.2 (Set.union_subset hO hA hh)⟩
  have hWi : (s.seg (lo + 1) (hi - 1)).rng ⊆ (s.seg lo hi).rng := seg_mono h0 (by omega) (by omega)
  -- closing the gap
  have fin : ∀ k m4, LGapPost r s (lo + 1) (hi - 1) (r (s.E m3 pv)) m3 k m4 → LConPost r s lo hi g.W m k m4 := by
    intro k m4 hg
    have := hg.k0; have := hg.k1
    exact ⟨by omega, by omega, hp.rp.on.trans (hrp.trans (hg.rp.mono hWi).on),
      hp.rp.agree_sdiff.trans (hmem.trans (hg.rp.mono hWi).agree_sdiff), r (s.E m1 pv), fun _ _ _ => ht _ _, fun _ _ _ => ht _ _⟩
  by_cases hc : x < pv
  · rw [if_pos hc]
    obtain ⟨r0, r1⟩ := hx.resolve_right (by omega)
    refine lseq_wp (R := ∅) hi0.ph (hWi.trans hW) (by simp) (lswGapLow_spec hL.weak (hi := hi - 1) (p := r (s.E m3 pv)) (by omega) (by omega)
      r0 (by omega) (by omega) hc (by omega) rfl (fun _ _ _ => ht _ _) (fun _ _ _ => ht _ _) subset_rfl) fun k m4 hg => ⟨rfl, fin k m4 hg⟩
  · rw [if_neg hc]
    obtain ⟨r0, r1⟩ := hx.resolve_left (by omega)
    refine lseq_wp (R := ∅) hi0.ph (hWi.trans hW) (by simp) (lswGapHigh_spec hL.weak (lo := lo + 1) (p := r (s.E m3 pv)) (by omega) (by omega)
      r1 (by omega) (by omega) (by omega) (by omega) rfl (fun _ _ _ => ht _ _) (fun _ _ _ => ht _ _) subset_rfl) fun k m4 hg => ⟨rfl, fin k m4 hg⟩

theorem lswPartCon_spec {any : Bool} (hL : LOKG C s cmp r any) {lo hi : Int} {g : Gh V LSp} {m : Mem V} (hi0 : Idle g)
    (hr : g.role = .main) (hC : g.C = true) (hS : g.S = true) (hR : g.R = ∅) (h0 : 0 ≤ lo) (h1 : hi < s.len)
    (hW : (s.seg lo hi).rng ⊆ g.W) (hl : C.maxLenRecFC ≤ hi - lo) :
    wp (lspecG C s cmp r any) (lswPartCon C.wordSize s lo hi) g m fun k g' m' => g' = g ∧ LConPost r s lo hi g.W m k m' := by
  cases any with
  | false => exact lswPartCon_strict hL hi0 hr hC hS hR h0 h1 hW hl
  | true => exact lswPartCon_any hL hi0 hr hC hS hR h0 h1 hW hl

end Sorty
