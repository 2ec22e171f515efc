import Verif.Proofs.Long

/-! # Concurrent partitioning and the whole sort -/

namespace Sorty

open Prog

variable {V κ : Type} {ρ : Type} [LinearOrder ρ]
variable {F : Fam V κ} {ok : κ → Prop} {rk : κ → ρ} {dd : Nat}

theorem Agree.E {s : Slice} {m m' : Mem V} (h : Agree s.rng m m') {i : Int} (h0 : 0 ≤ i) (h1 : i < s.len) :
    s.E m i = s.E m' i := h _ (Slice.mem_rng h0 h1)

theorem three_of {slc : Slice} {m0 m : Mem V} {q : V → Prop} (hrp : RPon slc.rng m0 m)
    (h3 : Three fun a => a ∈ slc.rng ∧ q (m0 a)) {x y : Int}
    (hx : ∀ i : Int, 0 ≤ i → i < slc.len → i ≠ x → i ≠ y → ¬ q (slc.E m i)) : False := by
  obtain ⟨σ, s1, s2⟩ := hrp
  obtain ⟨a, b, c, hab, hac, hbc, ⟨ha, ha'⟩, ⟨hb, hb'⟩, hc, hc'⟩ := h3
  have tr : ∀ {a}, a ∈ slc.rng → q (m0 a) → ∃ i : Int, (i = x ∨ i = y) ∧ σ (slc.off + i.toNat) = a := by
    intro a ha hq
    have hm := perm_mem (perm_symm s1) ha
    obtain ⟨i, i0, i1, i2⟩ := idx_of_mem hm
    refine ⟨i, ?_, by rw [← i2]; simp⟩
    by_contra hn
    push Not at hn
    refine hx i i0 i1 hn.1 hn.2 ?_
    unfold Slice.E
    rw [← i2, s2 _ hm, Equiv.apply_symm_apply]; exact hq
  obtain ⟨i, hi, rfl⟩ := tr ha ha'
  obtain ⟨j, hj, rfl⟩ := tr hb hb'
  obtain ⟨l, hl, rfl⟩ := tr hc hc'
  have h1 : i ≠ j := fun e => hab (by rw [e])
  have h2 : i ≠ l := fun e => hac (by rw [e])
  have h3 : j ≠ l := fun e => hbc (by rw [e])
  omega

theorem one_of {slc : Slice} {m0 m : Mem V} {q : V → Prop} (hrp : RPon slc.rng m0 m)
    (h1 : ∃ a ∈ slc.rng, q (m0 a)) : ∃ i : Int, 0 ≤ i ∧ i < slc.len ∧ q (slc.E m i) := by
  obtain ⟨σ, s1, s2⟩ := hrp
  obtain ⟨a, ha, hq⟩ := h1
  have hm := perm_mem (perm_symm s1) ha
  obtain ⟨i, i0, i1, i2⟩ := idx_of_mem hm
  refine ⟨i, i0, i1, ?_⟩
  unfold Slice.E
  rw [← i2, s2 _ hm, Equiv.apply_symm_apply]; exact hq

/-- postcondition of `partCon*` -/
structure ConPost (F : Fam V κ) (rk : κ → ρ) (slc : Slice) (A : Set Nat) (m0 : Mem V) (k : Int) (m : Mem V) : Prop where
  k0 : 0 < k
  k1 : k < slc.len
  rp : RPon slc.rng m0 m
  mem : Agree (A \ slc.rng) m0 m
  part : ∃ p, (∀ i : Int, 0 ≤ i → i < k → rk (F.key (slc.E m i)) ≤ p) ∧
    ∀ i : Int, k ≤ i → i < slc.len → p ≤ rk (F.key (slc.E m i))

theorem partCon_spec (hF : FamOK F ok rk) {slc : Slice} {g : Gh V (VSp κ)} {m : Mem V} (hi : Idle g)
    (hr : g.role = .main) (hC : g.C = true) (hS : g.S = true) (hR : g.R = ∅) (hW : slc.rng ⊆ g.W)
    (hl : 2 * (F.maxRec + 1) ≤ slc.len) (hok : ∀ a ∈ slc.rng, ok (F.key (m a))) :
    wp (vspec F ok rk dd) (partCon F slc) g m fun k g' m' => g' = g ∧ ConPost F rk slc g.W m k m' := by
  have h8 : 8 < F.maxIns := hF.ins
  have hr1 := hF.recOK
  have hn : 5 ≤ F.nConc ∧ (F.mean ≠ none → 6 ≤ F.nConc) ∧ F.nConc ≤ 8 := by
    unfold Fam.nConc nsConc
    cases F.mean <;> simp
  unfold partCon
  refine wp_bind (seq_wp hi.ph hW (pivot_spec hF (by simp) hn.1 hn.2.1 (by omega) hok) ?_)
  rintro pv m1 ⟨rfl, hp⟩
  dsimp only
  generalize hmid : (slc.len : Int) / 2 = mid
  generalize hlo : mid / 2 = l
  have hhi : meanI mid slc.len = (mid + slc.len) / 2 := rfl
  rw [hhi]
  generalize hhi' : (mid + slc.len) / 2 = h
  have b1 : 2 ≤ l := by omega
  have b2 : l + 2 ≤ mid := by omega
  have b3 : mid ≤ h := by omega
  have b4 : h + 2 ≤ slc.len := by omega
  refine wp_bind (seq_wp (W := ∅) hi.ph (Set.empty_subset _) (Q := fun s m' => m' = m1 ∧ s = ⟨slc.off + l.toNat, (h - l).toNat⟩)
    (Slice.swp_sub (by omega) (by omega) (by omega) ⟨rfl, rfl⟩) ?_)
  rintro half m2 ⟨rfl, rfl⟩
  generalize hh : (⟨slc.off + l.toNat, (h - l).toNat⟩ : Slice) = half
  have hoff : half.off = slc.off + l.toNat := by rw [← hh]
  have hlen : (half.len : Int) = h - l := by rw [← hh]; dsimp only; omega
  have hsub : half.rng ⊆ slc.rng := by
    intro a ha
    simp only [Slice.rng, Set.mem_ofPred_eq] at *
    omega
  have hout : outRng slc l h ∪ half.rng = slc.rng := by
    ext a
    simp only [outRng, Slice.rng, Set.mem_ofPred_eq, Set.mem_union]
    omega
  have houtd : Disjoint (outRng slc l h) half.rng := by
    rw [Set.disjoint_left]
    intro a h1 h2
    simp only [outRng, Slice.rng, Set.mem_ofPred_eq] at *
    omega
  have houts : outRng slc l h ⊆ slc.rng := by rw [← hout]; exact Set.subset_union_left
  have hE : ∀ (mm : Mem V) (i : Int), l ≤ i → slc.E mm i = half.E mm (i - l) := by
    intro mm i h0
    unfold Slice.E
    rw [hoff]
    congr 1
    omega
  -- spawn the partitioner of the middle half
  refine wp_bind ?_
  unfold wp
  rw [if_pos (show (vspec F ok rk dd).isPart (.part half pv) = true from rfl)]
  refine ⟨hr, hC, hi.ph, hi.J, hi.T, hS, hR, hsub.trans hW, Set.empty_subset _, Set.disjoint_empty _,
    ⟨hp.okp, fun a ha => hok a (hsub ha)⟩, ?_⟩
  set g1 : Gh V (VSp κ) := { g with
    W := g.W \ ((vspec F ok rk dd).W (.part half pv) ∪ (vspec F ok rk dd).R (.part half pv))
    R := (vspec F ok rk dd).R (.part half pv)
    J := some (.part half pv, (vspec F ok rk dd).ppost (.part half pv) m2) } with hg1
  have hW1 : g1.W = g.W \ half.rng := by
    show g.W \ (half.rng ∪ ∅) = _
    rw [Set.union_empty]
  refine wp_bind (seq_wp (g := g1) hi.ph (W := outRng slc l h) ?_
    (partTwo_spec hF (by omega) (by omega) (by omega) subset_rfl hp.okp fun a ha => hok a (houts ha)) ?_)
  · rw [hW1]
    exact fun a ha => ⟨hW (houts ha), Set.disjoint_left.1 houtd ha⟩
  intro r m3 h2
  refine wp_bind (.inl ⟨hr, hi.ph, _, _, rfl, ?_⟩)
  rintro v m4 hag ⟨ma, mb, q1, q2, q3⟩
  have hg2 : ({ g1 with
      W := g1.W ∪ ((vspec F ok rk dd).W (.part half pv) ∪ (vspec F ok rk dd).R (.part half pv))
      R := ∅
      J := none } : Gh V (VSp κ)) = g := by
    have e1 : g1.W ∪ ((vspec F ok rk dd).W (.part half pv) ∪ (vspec F ok rk dd).R (.part half pv)) = g.W := by
      rw [hW1]
      show g.W \ half.rng ∪ (half.rng ∪ ∅) = g.W
      rw [Set.union_empty]
      exact Set.sdiff_union_of_subset (hsub.trans hW)
    rw [e1, hg1]
    have e2 := hi.J
    cases g
    dsimp only at *
    rw [hR, e2]
  rw [hg2]
  show wp _ (if r < mid then _ else _) _ _ _
  have hag' : Agree (g.W \ half.rng) m3 m4 := by
    rw [← hW1]; exact hag.mono Set.subset_union_left
  have hagO : Agree (outRng slc l h) m3 m4 :=
    hag'.mono fun a ha => ⟨hW (houts ha), Set.disjoint_left.1 houtd ha⟩
  have hrp : RPon slc.rng m2 m4 := by
    rw [← hout]
    exact RPon.union houtd (h2.rp.on.congr (Agree.refl _ _) hagO) (q3.rp.on.congr q1.symm q2)
  have hmem : Agree (g.W \ slc.rng) m2 m4 := by
    intro a ha
    rw [← hag' a ⟨ha.1, fun hh => ha.2 (hsub hh)⟩]
    exact (h2.rp.out fun hh => ha.2 (houts hh)).symm
  have hok4 : ∀ a ∈ slc.rng, ok (F.key (m4 a)) := hrp.all (p := fun v => ok (F.key v)) hok
  have eO : ∀ i : Int, 0 ≤ i → i < slc.len → (i < l ∨ h ≤ i) → slc.E m4 i = slc.E m3 i := fun i c0 c1 c2 =>
    (hagO _ (mem_out c0 c1 c2)).symm
  have eH : ∀ i : Int, l ≤ i → i < h → slc.E m4 i = half.E mb (i - l) := by
    intro i c0 c1
    rw [hE m4 i c0]
    exact (q2.E (by omega) (by omega)).symm
  have v0 := q3.k0
  have v1 := q3.k1
  by_cases hc : r < mid
  · rw [if_pos hc]
    have hP2 := h2.cases.resolve_right (by rintro ⟨c, _⟩; omega)
    obtain ⟨r0, r1, r2, r3, r4⟩ := hP2
    refine seq_wp hi.ph hW (gapLow_spec hF subset_rfl hp.okp hok4 (x := h - 1) (y := h) r0 (by omega) (by omega) ?_ ?_ ?_) ?_
    · intro i c0 c1
      by_cases c2 : i < l
      · rw [eO i (by omega) (by omega) (.inl c2)]; exact r2 i c0 c2
      · rw [eH i (by omega) (by omega)]; exact q3.low _ (by omega) (by omega)
    · intro i c0 c1
      by_cases c2 : i < h
      · rw [eH i (by omega) c2]; exact q3.high _ (by omega) (by omega)
      · rw [eO i (by omega) c1 (.inr (by omega))]; exact r3 i (by omega) c1
    · intro c i c0 c1 c2 c3
      by_cases c4 : i < h
      · rw [eH i (by omega) c4]; exact (q3.zero (by omega) (by omega)).2 _ (by omega) (by omega)
      · rw [eO i (by omega) c1 (.inr (by omega))]; exact r4 (by omega) i (by omega) c1
    · rintro k m5 ⟨k0, k1, k2, k3, k4, k5⟩
      have hrp5 := hrp.trans k2.on
      refine ⟨rfl, ?_, by omega, hrp5, hmem.trans k2.agree_sdiff, rk pv, k3, k4⟩
      by_contra hk
      exact three_of (q := fun v => rk (F.key v) ≤ rk pv) hrp5 hp.le fun i i0 i1 i2 i3 =>
        not_le.2 (k5 (by omega) i i0 i1 i2 i3)
  · rw [if_neg hc]
    have hP2 := h2.cases.resolve_left (by rintro ⟨_, c, _⟩; omega)
    obtain ⟨r0, r1, r2, r3, r4⟩ := hP2
    refine seq_wp hi.ph hW (gapHigh_spec hF subset_rfl hp.okp hok4 (by omega) (by omega) r1 ?_ ?_ ?_) ?_
    · intro i c0 c1
      by_cases c2 : i < l
      · rw [eO i (by omega) (by omega) (.inl c2)]; exact r2 i c0 c2
      · rw [eH i (by omega) (by omega)]; exact q3.low _ (by omega) (by omega)
    · intro i c0 c1
      by_cases c2 : i < h
      · rw [eH i (by omega) c2]; exact q3.high _ (by omega) (by omega)
      · rw [eO i (by omega) (by omega) (.inr (by omega))]; exact r3 i (by omega) c1
    · intro c i c0 c1
      by_cases c4 : i < l
      · rw [eO i (by omega) (by omega) (.inl c4)]; exact r4 (by omega) i (by omega) c4
      · rw [eH i (by omega) (by omega)]; exact q3.full (by omega) (by omega) _ (by omega) (by omega)
    · rintro k m5 ⟨k0, k1, k2, k3, k4, k5⟩
      have hrp5 := hrp.trans k2.on
      refine ⟨rfl, by omega, ?_, hrp5, hmem.trans k2.agree_sdiff, rk pv, k3, k4⟩
      by_contra hk
      obtain ⟨i, i0, i1, i2⟩ := one_of (q := fun v => rk pv ≤ rk (F.key v)) hrp5 hp.ge
      exact absurd i2 (not_le.2 (k5 (by omega) i i0 i1))

/-- the end of `sort*`: the caller's last range, its decrement and its waiting -/
theorem sortEnd_spec (hF : FamOK F ok rk) {f d : Nat} {ar : Slice} {g : Gh V (VSp κ)} {m : Mem V} (hi : Idle g)
    (hr : g.role = .main) (hC : g.C = true) (hW : ar.rng ⊆ g.W) (hl : F.maxRec < ar.len) (hf : ar.len ≤ f)
    (hd : 2 * ar.len < 2 ^ d) (hdd : 2 ^ d ≤ 2 ^ dd) (hsz : ar.len / (F.maxRec + 1) ≤ g.sz) (hok : ∀ a ∈ ar.rng, ok (F.key (m a)))
    (hg : ∀ mf, g.P mf → Agree (g.W \ ar.rng) m mf → SP (fun v => rk (F.key v)) ar m mf → g.goal mf) :
    wp (vspec F ok rk dd) (do
      long F f d ar true
      let n ← .decGor .ret
      if n ≠ 0 then do
        let _ ← .recv .ret
        pure ()
      else pure ()) g m endQ := by
  refine wp_bind (wp_mono (long_spec hF f d ar true g m hi (fun _ => hC) hW hl hf hd hdd hsz hok) ?_)
  intro _ g1 m1 h1
  have hi1 := hi.same h1.same
  refine ⟨h1.same.C.trans hC, hi1.ph, hi1.role, hi1.J, hi1.T, ?_, fun n => ?_⟩
  · intro mf hP hag
    rw [h1.same.goal]
    refine hg mf (h1.P mf hP) (h1.mem.trans (hag.mono h1.Wlo)) (h1.done mf hP (hag.mono Set.inter_subset_left))
  · have hr1 : g1.role = .main := h1.same.role.trans hr
    show wp _ (if n ≠ 0 then _ else _) _ _ _
    split_ifs with hn
    · refine .inr ⟨hr1, ?_, fun v => .inl rfl⟩
      simp [afterDec, hn, hr1]
    · push Not at hn
      subst hn
      left
      simp [afterDec, hr1]

theorem sortLoop_spec (hF : FamOK F ok rk) {d : Nat} (hdd : 2 ^ d ≤ 2 ^ dd) : ∀ (f : Nat) (ar : Slice) (g : Gh V (VSp κ)) (m : Mem V),
    Idle g → g.role = .main → g.C = true → g.S = true → g.R = ∅ → ar.rng ⊆ g.W → 2 * (F.maxRec + 1) ≤ ar.len →
    ar.len ≤ f → 2 * ar.len < 2 ^ d → ar.len / (F.maxRec + 1) ≤ g.sz → (∀ a ∈ ar.rng, ok (F.key (m a))) →
    (∀ mf, g.P mf → Agree (g.W \ ar.rng) m mf → SP (fun v => rk (F.key v)) ar m mf → g.goal mf) →
    wp (vspec F ok rk dd) (sortLoop F d f ar) g m endQ := by
  have h8 : 8 < F.maxIns := hF.ins
  have hrr := hF.recOK
  intro f
  induction f with
  | zero => intro ar g m _ _ _ _ _ _ h1 h2; omega
  | succ f ih =>
    intro ar g m hi hr hC hS hR hW hl hf hd hsz hok hg
    unfold sortLoop
    refine wp_bind (wp_mono (partCon_spec hF hi hr hC hS hR hW hl hok) ?_)
    rintro k g' m1 ⟨rfl, hc⟩
    obtain ⟨p, pl, ph⟩ := hc.part
    refine wp_bind (seq_wp (W := ∅) hi.ph (Set.empty_subset _) (splitAt_spec hc.k0.le hc.k1.le (Q := fun x m' => m' = m1 ∧ Split (fun v => rk (F.key v)) ar x.1 x.2 m m1) ?_) ?_)
    · intro aq ar' hle hcc
      exact ⟨rfl, split_of hc.rp hc.k0 hc.k1 pl ph hle hcc⟩
    rintro ⟨aq, ar'⟩ m1' ⟨rfl, hsp⟩
    dsimp only at hsp ⊢
    obtain ⟨u1, u2, u3, u4⟩ := hsp.sub
    have hle := hsp.le
    have hpos := hsp.pos
    have hsum := hsp.sum
    have hu : aq.len / (F.maxRec + 1) + ar'.len / (F.maxRec + 1) ≤ ar.len / (F.maxRec + 1) := by
      rw [← hsum]; exact div_add_le ..
    have hua : aq.len / (F.maxRec + 1) ≤ ar.len / (F.maxRec + 1) := le_trans (Nat.le_add_right ..) hu
    have hub : ar'.len / (F.maxRec + 1) ≤ ar.len / (F.maxRec + 1) := le_trans (Nat.le_add_left ..) hu
    have hu1 : ∀ {x : Slice}, F.maxRec < x.len → 0 < x.len / (F.maxRec + 1) := fun h => Nat.div_pos h (by omega)
    have okq := ok_sub (F := F) (ok := ok) hsp.rp u1 hok
    have okr := ok_sub (F := F) (ok := ok) hsp.rp u2 hok
    -- the rest, once `aq` is taken care of
    have key : ∀ g1 m2 n, n ≤ aq.len / (F.maxRec + 1) → Reg aq.rng (SP (fun v => rk (F.key v)) aq m1') n g' m1' g1 m2 →
        wp (vspec F ok rk dd) (do
          let stop ← if ar'.len < 2 * (F.maxRec + 1) then pure true else gorFull
          if stop then do
            long F f d ar' true
            let n ← .decGor .ret
            if n ≠ 0 then do
              let _ ← .recv .ret
              pure ()
            else pure ()
          else sortLoop F d f ar') g1 m2 endQ := by
      intro g1 m2 n hn h1
      have hs1 := h1.same
      have hi1 := hi.same hs1
      have hsz1 := h1.sz
      have ag : Agree ar'.rng m1' m2 := h1.mem.mono fun i hi' => ⟨hW (u2 hi'), Set.disjoint_right.1 u3 hi'⟩
      have hW1 : ar'.rng ⊆ g1.W := fun i hi' => h1.Wlo ⟨hW (u2 hi'), Set.disjoint_right.1 u3 hi'⟩
      have hg1 : ∀ mf, g1.P mf → Agree (g1.W \ ar'.rng) m2 mf → SP (fun v => rk (F.key v)) ar' m2 mf → g1.goal mf := by
        intro mf hP hag hS2
        rw [hs1.goal]
        refine hg mf (h1.P mf hP) ?_ (hsp.glue (h1.done mf hP ?_) (hS2.congr ag.symm (Agree.refl _ _)))
        · rintro i ⟨hi', hn'⟩
          have c1 : i ∉ aq.rng := fun hh => hn' (u1 hh)
          have c2 : i ∉ ar'.rng := fun hh => hn' (u2 hh)
          rw [hc.mem i ⟨hi', hn'⟩, h1.mem i ⟨hi', c1⟩]
          exact hag i ⟨h1.Wlo ⟨hi', c1⟩, c2⟩
        · exact hag.mono fun i hi' => ⟨hi'.1, Set.disjoint_left.1 u3 hi'.2⟩
      by_cases hc2 : ar'.len < 2 * (F.maxRec + 1)
      · rw [if_pos hc2]
        exact sortEnd_spec hF hi1 (hs1.role.trans hr) (hs1.C.trans hC) hW1 (by omega) (by omega) (by omega) hdd (by omega)
          (ag.keyOK okr) hg1
      · rw [if_neg hc2]
        refine ⟨hi1.ph, fun mg => ⟨hs1.C.trans hC, hi1.ph, hi1.role, hi1.J, fun n => ?_⟩⟩
        show wp (vspec F ok rk dd) (if decide (n ≥ mg) = true then _ else _) _ _ _
        have hi2 : Idle { g1 with mg := mg, S := decide (n < mg) } := ⟨hi1.ph, hi1.role, hi1.T, hi1.J⟩
        by_cases hn : n < mg
        · rw [if_neg (by simp; omega)]
          exact ih ar' _ m2 hi2 (hs1.role.trans hr) (hs1.C.trans hC) (by simp [hn]) (hs1.R.trans hR) hW1 (by omega) (by omega)
            (by omega) (by dsimp only; omega) (ag.keyOK okr) hg1
        · rw [if_pos (by simp; omega)]
          exact sortEnd_spec hF hi2 (hs1.role.trans hr) (hs1.C.trans hC) hW1 (by omega) (by omega) (by omega) hdd
            (by dsimp only; omega) (ag.keyOK okr) hg1
    by_cases hq : aq.len > F.maxRec
    · rw [if_pos hq]
      refine wp_bind (spawn_wp (S := vspec F ok rk dd) (s := .long aq f) hi hC hS rfl (u1.trans hW) rfl
        ⟨hq, by omega, by omega, okq⟩ ?_ ?_ ?_)
      · exact hu1 hq
      · have := hu1 (x := ar') (by omega)
        show aq.len / (F.maxRec + 1) < g'.sz; omega
      · intro g1 h1 _ _ _
        exact key g1 m1' _ le_rfl h1
    · rw [if_neg hq]
      by_cases hq2 : aq.len > F.maxIns
      · rw [if_pos hq2]
        refine wp_bind (seq_wp hi.ph (u1.trans hW) (short_spec hF f d aq m1' subset_rfl (by omega) hq2 (by omega)
            (by omega) okq) fun _ m2 h2 => key g' m2 0 (Nat.zero_le _) (Reg.sorted (u1.trans hW) h2))
      · rw [if_neg hq2]
        exact wp_bind (seq_wp hi.ph (u1.trans hW) (insertion_spec hF.ltOK subset_rfl okq)
          fun _ m2 h2 => key g' m2 0 (Nat.zero_le _) (Reg.sorted (u1.trans hW) h2))

/-- `sort*` as a whole -/
theorem sortV_spec (hF : FamOK F ok rk) {d : Nat} (hdd : 2 ^ d ≤ 2 ^ dd) {ar : Slice} {g : Gh V (VSp κ)} {m : Mem V}
    (hi : Idle g) (hr : g.role = .main) (hC : g.C = false) (hR : g.R = ∅)
    (hbig : 2 * (F.maxRec + 1) ≤ ar.len → g.big = true) (hW : ar.rng ⊆ g.W)
    (hd : 2 * ar.len < 2 ^ d) (hsz : ar.len / (F.maxRec + 1) ≤ g.sz) (hok : ∀ a ∈ ar.rng, ok (F.key (m a)))
    (hg : ∀ mf, g.P mf → Agree (g.W \ ar.rng) m mf → SP (fun v => rk (F.key v)) ar m mf → g.goal mf) :
    wp (vspec F ok rk dd) (sortV F d ar) g m endQ := by
  have h8 : 8 < F.maxIns := hF.ins
  have hrr := hF.recOK
  unfold sortV
  have seqEnd : ∀ {k : Nat} {m'}, (RP ar.rng m m' ∧ SortedOn (fun v => rk (F.key v)) m' ar.off (ar.off + ar.len)) →
      endQ () ({ g with mg := k }) m' := by
    intro k m' h
    refine .inr ⟨hr, hC, hi.ph, fun mf hP hag => hg mf hP ?_ ?_⟩
    · exact h.1.agree_sdiff.trans (Agree.mono hag Set.sdiff_subset)
    · exact SP.congr ⟨h.1.on, h.2⟩ (Agree.refl _ _) (Agree.mono hag hW)
  have single : ∀ k, wp (vspec F ok rk dd) (if ar.len > F.maxRec then long F ar.len d ar false
    else if ar.len > F.maxIns then short F ar.len d ar
    else insertion F.key F.lt ar) { g with mg := k } m endQ := by
    intro k
    have hi' : Idle { g with mg := k } := ⟨hi.ph, hi.role, hi.T, hi.J⟩
    have hph' : ({ g with mg := k } : Gh V (VSp κ)).ph = .run := hi.ph
    by_cases h1 : ar.len > F.maxRec
    · rw [if_pos h1]
      refine wp_mono (long_spec hF ar.len d ar false _ m hi' (by simp) hW h1 le_rfl hd hdd hsz hok) ?_
      intro _ g1 m1 h2
      refine .inr ⟨h2.same.role.trans hr, h2.same.C.trans hC, h2.same.ph.trans hi.ph, fun mf hP hag => ?_⟩
      rw [h2.same.goal]
      exact hg mf (h2.P mf hP) (h2.mem.trans (Agree.mono hag h2.Wlo)) (h2.done mf hP (hag.mono Set.inter_subset_left))
    · rw [if_neg h1]
      by_cases h2 : ar.len > F.maxIns
      · rw [if_pos h2]
        exact seq_wp hph' hW (short_spec hF ar.len d ar m subset_rfl le_rfl h2 (by omega) (by omega) hok)
          fun _ m' h => seqEnd (k := k) h
      · rw [if_neg h2]
        exact seq_wp hph' hW (insertion_spec hF.ltOK subset_rfl hok) fun _ m' h => seqEnd (k := k) h
  dsimp only
  by_cases hs : ar.len < 2 * (F.maxRec + 1)
  · rw [if_pos hs]
    exact single g.mg
  · rw [if_neg hs]
    refine ⟨hi.ph, fun mg => ?_⟩
    show wp (vspec F ok rk dd) (if decide (mg ≤ 1) = true then _ else _) _ _ _
    by_cases hm : mg ≤ 1
    · rw [if_pos (by simp [hm])]
      exact single mg
    · rw [if_neg (by simp; omega)]
      have hu : 0 < ar.len / (F.maxRec + 1) := Nat.div_pos (by omega) (by omega)
      refine ⟨hr, hi.ph, hC, hbig (by omega), by dsimp only; omega, by dsimp only; omega, hi.T, hi.J, ?_⟩
      exact sortLoop_spec hF hdd ar.len ar _ m ⟨hi.ph, hi.role, hi.T, hi.J⟩ hr rfl rfl hR hW (by omega) le_rfl hd hsz hok hg

/-- the goroutines keep their contracts -/
theorem vbody_ok (hF : FamOK F ok rk) {P : Par V (VSp κ)} {d : Nat} (hP : P.body = vbody F d) :
    BodyOK P (vspec F ok rk d) := by
  rintro (⟨ar, pv⟩ | ⟨ar, f⟩) m hpre
  · rw [hP]
    refine wp_bind (seq_wp rfl subset_rfl (partOne_spec hF subset_rfl hpre.1 hpre.2) ?_)
    intro k m' h
    exact .inl ⟨rfl, rfl, ⟨m, m', Agree.refl _ _, Agree.refl _ _, h⟩, .inl rfl⟩
  · rw [hP]
    refine wp_bind (wp_mono (long_spec hF f d ar true _ m ⟨rfl, by simp [childGh, vspec], rfl, rfl⟩ (fun _ => rfl) subset_rfl hpre.1 hpre.2.1 hpre.2.2.1 le_rfl le_rfl hpre.2.2.2) ?_)
    intro _ g1 m1 h1
    have hs := h1.same
    have hrole : g1.role = .sorter := hs.role
    refine ⟨hs.C, hs.ph, by rw [hrole]; simp, hs.J, hs.T, ?_, fun n => ?_⟩
    · intro mf hP hag
      rw [hs.goal]
      exact h1.done mf hP (hag.mono Set.inter_subset_left)
    · show wp _ (if n = 0 then _ else _) _ _ _
      split_ifs with hn
      · subst hn
        refine .inr ⟨hrole, ?_, rfl, .inl rfl⟩
        simp [afterDec, hrole]
      · left
        simp [afterDec, hrole, hn]

end Sorty
