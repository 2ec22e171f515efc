import Verif.Proofs.FewKeys
import Verif.Proofs.Balance2
import Verif.Proofs.Sort
import Verif.Logic.KCost

/-! # Concurrent sorting of slices with few different keys -/

namespace Sorty

open Prog

variable {V κ : Type} {ρ : Type} [LinearOrder ρ]
variable {F : Fam V κ} {ok : κ → Prop} {rk : κ → ρ} {S : Finset ρ} {dd : Nat} {G : Int → Mem V → Prop}

/-- credit for sorting a range -/
def fewCost (F : Fam V κ) (rk : κ → ρ) (S : Finset ρ) (ar : Slice) (m : Mem V) : Nat :=
  (6 * pot S (fun v => rk (F.key v)) ar m + F.maxIns + 1) * ar.len

/-- what a partitioner hands over -/
structure P1Bal (F : Fam V κ) (rk : κ → ρ) (p : ρ) (ar : Slice) (m0 : Mem V) (k : Int) (m : Mem V) : Prop where
  post : P1Post F rk p ar m0 k m
  le : (∀ a ∈ ar.rng, rk (F.key (m0 a)) ≤ p) → lowC F rk p ar m k ≤ highC F rk p ar m k
  ge : (∀ a ∈ ar.rng, p ≤ rk (F.key (m0 a))) → highC F rk p ar m k ≤ lowC F rk p ar m k + 1

/-- credits and contracts of the goroutines of the value sorters on slices with keys `S` -/
def vkm (F : Fam V κ) (rk : κ → ρ) (S : Finset ρ) : KMeter V (VSp κ) where
  ρ
    | .part ar _, _ => 3 * ar.len
    | .long ar _, m => fewCost F rk S ar m
  sp
    | .part .., _ => True
    | .long ar _, m => ∀ a ∈ ar.rng, rk (F.key (m a)) ∈ S
  post
    | .part ar pv, m => fun v m' => ∃ m0 m1, Agree ar.rng m m0 ∧ Agree ar.rng m1 m' ∧ P1Bal F rk (rk pv) ar m0 v m1
    | .long .., _ => fun _ _ => True

theorem vkm_local (d : Nat) : (vkm F rk S).Local (vspec F ok rk d) where
  ρ := by
    rintro (⟨ar, pv⟩ | ⟨ar, f⟩) m m' ha
    · rfl
    · show fewCost F rk S ar m = fewCost F rk S ar m'
      unfold fewCost
      rw [pot_congr (ha.mono Set.subset_union_left)]
  sp := by
    rintro (⟨ar, pv⟩ | ⟨ar, f⟩) m m' ha h
    · trivial
    · intro a hm
      rw [← ha a (.inl hm)]; exact h a hm
  post := by
    rintro (⟨ar, pv⟩ | ⟨ar, f⟩) m m' ha
    · funext v mf
      have ha' : Agree ar.rng m m' := ha.mono Set.subset_union_left
      refine propext ⟨?_, ?_⟩
      · rintro ⟨m0, m1, h1, h2⟩; exact ⟨m0, m1, ha'.symm.trans h1, h2⟩
      · rintro ⟨m0, m1, h1, h2⟩; exact ⟨m0, m1, ha'.trans h1, h2⟩
    · rfl
  post' := by
    rintro (⟨ar, pv⟩ | ⟨ar, f⟩) m v m' m'' ha h
    · obtain ⟨m0, m1, h1, h2, h3⟩ := h
      exact ⟨m0, m1, h1, h2.trans (ha.mono Set.subset_union_left), h3⟩
    · trivial

/-- one partition -/
theorem runs_partOne (hF : FamOK F ok rk) {ar : Slice} {m : Mem V} (hok : ∀ a ∈ ar.rng, ok (F.key (m a))) {pv : κ} (hpv : ok pv) :
    ∃ c k m', TRuns (partOne F ar pv : Prog V (VSp κ) Int) m c k m' ∧ c ≤ 3 * ar.len ∧ P1Bal F rk (rk pv) ar m k m' := by
  have hsw := partOne_spec (Sp := VSp κ) (cmp := fun _ _ _ _ _ => False) (W := ar.rng) (R := ∅) hF subset_rfl hpv hok
  have hE : ∀ {q : κ → Prop}, (∀ a ∈ ar.rng, q (F.key (m a))) → Side F ok ar q m := fun hq i i0 i1 =>
    ⟨hok _ (Slice.mem_rng i0 i1), hq _ (Slice.mem_rng i0 i1)⟩
  obtain ⟨c, k, m', e, hk, -⟩ := runs_of (fun _ _ _ _ _ h => h) hsw (aw_true (n := 0))
  have hrel : ∀ {K : Int → Mem V → Nat → Prop}, aw (partOne F ar pv : Prog V (VSp κ) Int) m 0 K → ∃ n, K k m' n := by
    intro K h
    obtain ⟨c2, k2, m2, e2, -, h2⟩ := runs_of (fun _ _ _ _ _ h => h) hsw h
    obtain ⟨-, rfl, rfl⟩ := e.det e2
    exact ⟨_, h2⟩
  refine ⟨c, k, m', e, paid e (cost_partOne vmeter_wa), hk, fun h => ?_, fun h => ?_⟩
  · obtain ⟨_, h2⟩ := hrel (balance_le hF hpv (n := 0) (hE (q := fun x => rk x ≤ rk pv) h))
    exact h2
  · obtain ⟨_, h2⟩ := hrel (balance_ge hF hpv (n := 0) (hE (q := fun x => rk pv ≤ rk x) h))
    exact h2

/-- the outer partition -/
theorem runs_partTwo (hF : FamOK F ok rk) {slc : Slice} {m : Mem V} {l h : Int} (hl0 : 0 ≤ l) (hlh : l ≤ h) (hh : h < slc.len)
    (hb : l ≤ slc.len - h) (hb' : slc.len - h ≤ l + 1) (hok : ∀ a ∈ outRng slc l h, ok (F.key (m a))) {pv : κ} (hpv : ok pv) :
    ∃ c r m', TRuns (partTwo F slc l h pv : Prog V (VSp κ) Int) m c r m' ∧ P2Post F rk (rk pv) slc l h m r m' ∧
      ((∀ a ∈ outRng slc l h, rk (F.key (m a)) ≤ rk pv) → midC F rk (rk pv) slc m' 0 l ≤ midC F rk (rk pv) slc m' h slc.len) ∧
      ((∀ a ∈ outRng slc l h, rk pv ≤ rk (F.key (m a))) → midC F rk (rk pv) slc m' h slc.len ≤ midC F rk (rk pv) slc m' 0 l + 1) := by
  have hsw := partTwo_spec (Sp := VSp κ) (cmp := fun _ _ _ _ _ => False) (W := outRng slc l h) (R := ∅) hF hl0 hlh hh subset_rfl hpv hok
  have hE : ∀ {q : κ → Prop}, (∀ a ∈ outRng slc l h, q (F.key (m a))) → SideO F ok slc l h q m := fun hq i i0 i1 i2 =>
    ⟨hok _ (mem_out i0 i1 i2), hq _ (mem_out i0 i1 i2)⟩
  obtain ⟨c, r, m', e, hr, -⟩ := runs_of (fun _ _ _ _ _ h => h) hsw (aw_true (n := 0))
  have hrel : ∀ {K : Int → Mem V → Nat → Prop}, aw (partTwo F slc l h pv : Prog V (VSp κ) Int) m 0 K → ∃ n, K r m' n := by
    intro K h
    obtain ⟨c2, k2, m2, e2, -, h2⟩ := runs_of (fun _ _ _ _ _ h => h) hsw h
    obtain ⟨-, rfl, rfl⟩ := e.det e2
    exact ⟨_, h2⟩
  refine ⟨c, r, m', e, hr, fun g => ?_, fun g => ?_⟩
  · obtain ⟨_, h2⟩ := hrel (balance2_le hF hpv (n := 0) hl0 hlh hh.le hb (hE (q := fun x => rk x ≤ rk pv) g))
    exact h2
  · obtain ⟨_, h2⟩ := hrel (balance2_ge hF hpv (n := 0) hl0 hlh hh.le hb' (hE (q := fun x => rk pv ≤ rk x) g))
    exact h2

/-- what concurrent partitioning leaves -/
structure ConBal (F : Fam V κ) (rk : κ → ρ) (slc : Slice) (m0 : Mem V) (k : Int) (m : Mem V) (p : ρ) : Prop where
  k0 : 0 < k
  k1 : k < slc.len
  rp : RPon slc.rng m0 m
  mem : Agree slc.rngᶜ m0 m
  low : ∀ i : Int, 0 ≤ i → i < k → rk (F.key (slc.E m i)) ≤ p
  high : ∀ i : Int, k ≤ i → i < slc.len → p ≤ rk (F.key (slc.E m i))
  le : (∀ a ∈ slc.rng, rk (F.key (m0 a)) ≤ p) → lowC F rk p slc m k ≤ highC F rk p slc m k
  ge : (∀ a ∈ slc.rng, p ≤ rk (F.key (m0 a))) → highC F rk p slc m k ≤ lowC F rk p slc m k + 2

theorem mid_total {p : ρ} {slc : Slice} {m m' : Mem V} (h : RPon slc.rng m m') :
    midC F rk p slc m' 0 slc.len = midC F rk p slc m 0 slc.len := by
  have := occ_perm (r := fun v => rk (F.key v)) h p
  unfold occ at this
  unfold midC
  simpa using this

theorem kw_partCon (hF : FamOK F ok rk) {slc : Slice} {m : Mem V} (hl : 2 * (F.maxRec + 1) ≤ slc.len) (hok : ∀ a ∈ slc.rng, ok (F.key (m a)))
    {n : Nat} (hn : 6 * slc.len ≤ n) {Q : Int → Owed V (VSp κ) → Mem V → Nat → Prop}
    (hQ : ∀ k m' n' p, n ≤ n' + 6 * slc.len → ConBal F rk slc m k m' p → Q k none m' n') :
    kw (vspec F ok rk dd) (vkm F rk S) G (partCon F slc) none m n Q := by
  have h8 : 8 < F.maxIns := hF.ins
  have hr1 := hF.recOK
  have hnc : 5 ≤ F.nConc ∧ (F.mean ≠ none → 6 ≤ F.nConc) ∧ F.nConc ≤ 8 := by
    unfold Fam.nConc nsConc
    cases F.mean <;> simp
  unfold partCon
  obtain ⟨c0, pv, m0, e0, ⟨em, hp⟩, -⟩ := runs_of (fun _ _ _ _ _ h => h) (pivot_spec (Sp := VSp κ) (cmp := fun _ _ _ _ _ => False)
    (W := slc.rng) (R := ∅) hF (by simp) hnc.1 hnc.2.1 (by omega) hok) (aw_true (n := 0))
  rw [em] at e0
  have b0 := paid e0 (cost_pivot rfl _)
  refine e0.kw (by omega) ?_
  dsimp only
  generalize hmid : (slc.len : Int) / 2 = mid
  generalize hlo : mid / 2 = l
  have hhi : meanI mid slc.len = (mid + slc.len) / 2 := rfl
  rw [hhi]
  generalize hhi' : (mid + slc.len) / 2 = h
  have a1 : 2 ≤ l := by omega
  have a2 : l + 2 ≤ mid := by omega
  have a3 : mid ≤ h := by omega
  have a4 : h + 2 ≤ slc.len := by omega
  have a5 : l ≤ slc.len - h := by omega
  have a6 : slc.len - h ≤ l + 1 := by omega
  refine kw.bind ?_
  unfold Slice.sub
  rw [if_pos (by omega)]
  generalize hh : (⟨slc.off + l.toNat, (h - l).toNat⟩ : Slice) = half
  have hoff : half.off = slc.off + l.toNat := by rw [← hh]
  have hlen : (half.len : Int) = h - l := by rw [← hh]; dsimp only; omega
  have hsub : half.rng ⊆ slc.rng := by
    intro a ha
    simp only [Slice.rng, Set.mem_ofPred_eq] at *
    omega
  have hout : outRng slc l h ∪ half.rng = slc.rng := by
    ext a
    simp only [outRng, Slice.rng, Set.mem_ofPred_eq, Set.mem_union]
    omega
  have houtd : Disjoint (outRng slc l h) half.rng := by
    rw [Set.disjoint_left]
    intro a h1 h2
    simp only [outRng, Slice.rng, Set.mem_ofPred_eq] at *
    omega
  have houts : outRng slc l h ⊆ slc.rng := by rw [← hout]; exact Set.subset_union_left
  have hE : ∀ (mm : Mem V) (i : Int), l ≤ i → slc.E mm i = half.E mm (i - l) := by
    intro mm i h0
    unfold Slice.E
    rw [hoff]
    congr 1
    omega
  show kw _ _ _ (Prog.go _ (.ret ()) >>= _) none m _ _
  refine kw.bind (⟨⟨trivial, ?_⟩, ?_⟩ : kw (vspec F ok rk dd) (vkm F rk S) G (Prog.go (.part half pv) (.ret ())) none m (n - c0) _)
  · show 3 * half.len ≤ n - c0; omega
  intro m1 hm1
  have hm1' : Agree half.rngᶜ m m1 := hm1
  show kw (vspec F ok rk dd) (vkm F rk S) G (partTwo F slc l h pv >>= _) (some (.part half pv, (vkm F rk S).post (.part half pv) m)) m1 (n - c0 - 3 * half.len) Q
  have hO1 : Agree (outRng slc l h) m m1 := hm1'.mono fun a ha => Set.disjoint_left.1 houtd ha
  obtain ⟨c2, r, m3, e2, h2, bal1, bal2⟩ := runs_partTwo (rk := rk) hF (slc := slc) (m := m1) (l := l) (h := h) (by omega) (by omega) (by omega) a5 a6
    (fun a ha => by rw [← hO1 a ha]; exact hok a (houts ha)) hp.okp
  have b2 := paid e2 (cost_partTwo vmeter_wa (by omega) (by omega))
  refine e2.kw (by omega) ?_
  refine kw.bind (p := Prog.recv .ret) ?_
  rintro v m4 hag ⟨ma, mb, q1, q2, q3⟩
  have hag' : Agree half.rngᶜ m3 m4 := hag.mono fun a ha => by
    rintro (h | h)
    · exact ha h
    · exact h
  have hagO : Agree (outRng slc l h) m3 m4 := hag'.mono fun a ha => Set.disjoint_left.1 houtd ha
  have hrp : RPon slc.rng m m4 := by
    rw [← hout]
    exact RPon.union houtd (h2.rp.on.congr hO1.symm hagO) (q3.post.rp.on.congr q1.symm q2)
  have hmem : Agree slc.rngᶜ m m4 := by
    intro a ha
    have c1 : a ∉ half.rng := fun hh => ha (hsub hh)
    rw [← hag' a c1, h2.rp.out fun hh => ha (houts hh)]
    exact hm1' a c1
  have hok4 : ∀ a ∈ slc.rng, ok (F.key (m4 a)) := hrp.all (p := fun v => ok (F.key v)) hok
  have hside : Side F ok slc (fun _ => True) m4 := fun i i0 i1 => ⟨hok4 _ (Slice.mem_rng i0 i1), trivial⟩
  have eO : ∀ i : Int, 0 ≤ i → i < slc.len → (i < l ∨ h ≤ i) → slc.E m4 i = slc.E m3 i := fun i c0 c1 c2 =>
    (hagO _ (mem_out c0 c1 c2)).symm
  have eH : ∀ i : Int, l ≤ i → i < h → slc.E m4 i = half.E mb (i - l) := by
    intro i c0 c1
    rw [hE m4 i c0]
    exact (q2.E (by omega) (by omega)).symm
  have v0 := q3.post.k0
  have v1 := q3.post.k1
  -- how the equals of the pivot are divided before the gap is closed
  have low4 : midC F rk (rk pv) slc m4 0 (l + v) = midC F rk (rk pv) slc m3 0 l + lowC F rk (rk pv) half mb v := by
    rw [← midC_add (b := l) (by omega) (by omega)]
    congr 1
    · exact midC_congr le_rfl fun i i0 i1 => eO i i0 (by omega) (.inl i1)
    · unfold midC lowC
      rw [hoff, show slc.off + (l + v).toNat = slc.off + l.toNat + v.toNat by omega]
      refine cnt_congr fun x x0 x1 => ?_
      rw [q2 x (by simp only [Slice.rng, Set.mem_ofPred_eq]; omega)]
  have high4 : midC F rk (rk pv) slc m4 (l + v) slc.len = highC F rk (rk pv) half mb v + midC F rk (rk pv) slc m3 h slc.len := by
    rw [← midC_add (b := h) (by omega) (by omega)]
    congr 1
    · unfold midC highC
      rw [hoff, show slc.off + (l + v).toNat = slc.off + l.toNat + v.toNat by omega, show slc.off + h.toNat = slc.off + l.toNat + half.len by omega]
      refine cnt_congr fun x x0 x1 => ?_
      rw [q2 x (by simp only [Slice.rng, Set.mem_ofPred_eq]; omega)]
    · exact midC_congr (by omega) fun i i0 i1 => eO i (by omega) i1 (.inr i0)
  have le4 : (∀ a ∈ slc.rng, rk (F.key (m a)) ≤ rk pv) → midC F rk (rk pv) slc m4 0 (l + v) ≤ midC F rk (rk pv) slc m4 (l + v) slc.len := by
    intro hall
    have := bal1 fun a ha => by rw [← hO1 a ha]; exact hall a (houts ha)
    have := q3.le fun a ha => by rw [← q1 a ha]; exact hall a (hsub ha)
    omega
  have ge4 : (∀ a ∈ slc.rng, rk pv ≤ rk (F.key (m a))) → midC F rk (rk pv) slc m4 (l + v) slc.len ≤ midC F rk (rk pv) slc m4 0 (l + v) + 2 := by
    intro hall
    have := bal2 fun a ha => by rw [← hO1 a ha]; exact hall a (houts ha)
    have := q3.ge fun a ha => by rw [← q1 a ha]; exact hall a (hsub ha)
    omega
  clear low4 high4 bal1 bal2
  have tot4 := midC_add (F := F) (rk := rk) (p := rk pv) (slc := slc) (m := m4) (a := 0) (b := l + v) (c := slc.len) (by omega) (by omega)
  show kw _ _ _ (if r < mid then _ else _) none m4 _ _
  by_cases hc : r < mid
  · rw [if_pos hc]
    have hP2 := h2.cases.resolve_right (by rintro ⟨c, _⟩; omega)
    obtain ⟨r0, r1, r2, r3, r4⟩ := hP2
    obtain ⟨c5, k, m5, e5, ⟨k0, k1, k2, k3, k4, k5⟩, hb⟩ := runs_of (fun _ _ _ _ _ h => h) (gapLow_spec (Sp := VSp κ) (cmp := fun _ _ _ _ _ => False) (R := ∅)
      hF (slc := slc) (pv := pv) (r0 := r) (k0 := l + v) subset_rfl hp.okp hok4 (x := h - 1) (y := h) r0 (by omega) (by omega) (by
        intro i c0 c1
        by_cases c2 : i < l
        · rw [eO i (by omega) (by omega) (.inl c2)]; exact r2 i c0 c2
        · rw [eH i (by omega) (by omega)]; exact q3.post.low _ (by omega) (by omega)) (by
        intro i c0 c1
        by_cases c2 : i < h
        · rw [eH i (by omega) c2]; exact q3.post.high _ (by omega) (by omega)
        · rw [eO i (by omega) c1 (.inr (by omega))]; exact r3 i (by omega) c1) (by
        intro c i c0 c1 c2 c3
        by_cases c4 : i < h
        · rw [eH i (by omega) c4]; exact (q3.post.zero (by omega) (by omega)).2 _ (by omega) (by omega)
        · rw [eO i (by omega) c1 (.inr (by omega))]; exact r4 (by omega) i (by omega) c1))
      (gapLow_mid (n := 0) hF hp.okp (r0 := r) (k0 := l + v) (by omega) (by omega) hside)
    have b5 := paid e5 (cost_gapLow vmeter_wa)
    have hrp5 := hrp.trans k2.on
    have tot5 := midC_add (F := F) (rk := rk) (p := rk pv) (slc := slc) (m := m5) (a := 0) (b := k) (c := slc.len) (by omega) (by omega)
    rw [mid_total k2.on] at tot5
    refine e5.kw' (by omega) (hQ _ _ _ (rk pv) (by omega) ⟨?_, by omega, hrp5, ?_, k3, k4, ?_, ?_⟩)
    · by_contra hk
      exact three_of (q := fun v => rk (F.key v) ≤ rk pv) hrp5 hp.le fun i i0 i1 i2 i3 =>
        not_le.2 (k5 (by omega) i i0 i1 i2 i3)
    · exact hmem.trans fun a ha => (k2.out ha).symm
    · intro hall
      rw [lowC_mid, highC_mid]
      have := le4 hall
      omega
    · intro hall
      rw [lowC_mid, highC_mid]
      have := ge4 hall
      omega
  · rw [if_neg hc]
    have hP2 := h2.cases.resolve_left (by rintro ⟨_, c, _⟩; omega)
    obtain ⟨r0, r1, r2, r3, r4⟩ := hP2
    obtain ⟨c5, k, m5, e5, ⟨k0, k1, k2, k3, k4, k5⟩, hb⟩ := runs_of (fun _ _ _ _ _ h => h) (gapHigh_spec (Sp := VSp κ) (cmp := fun _ _ _ _ _ => False) (R := ∅)
      hF (slc := slc) (pv := pv) (r0 := r) (k0 := l + v) subset_rfl hp.okp hok4 (by omega) (by omega) r1 (by
        intro i c0 c1
        by_cases c2 : i < l
        · rw [eO i (by omega) (by omega) (.inl c2)]; exact r2 i c0 c2
        · rw [eH i (by omega) (by omega)]; exact q3.post.low _ (by omega) (by omega)) (by
        intro i c0 c1
        by_cases c2 : i < h
        · rw [eH i (by omega) c2]; exact q3.post.high _ (by omega) (by omega)
        · rw [eO i (by omega) (by omega) (.inr (by omega))]; exact r3 i (by omega) c1) (by
        intro c i c0 c1
        by_cases c4 : i < l
        · rw [eO i (by omega) (by omega) (.inl c4)]; exact r4 (by omega) i (by omega) c4
        · rw [eH i (by omega) (by omega)]; exact q3.post.full (by omega) (by omega) _ (by omega) (by omega)))
      (gapHigh_mid (n := 0) hF hp.okp (r0 := r) (k0 := l + v) (by omega) (by omega) hside)
    have b5 := paid e5 (cost_gapHigh vmeter_wa)
    have hrp5 := hrp.trans k2.on
    have tot5 := midC_add (F := F) (rk := rk) (p := rk pv) (slc := slc) (m := m5) (a := 0) (b := k) (c := slc.len) (by omega) (by omega)
    rw [mid_total k2.on] at tot5
    refine e5.kw' (by omega) (hQ _ _ _ (rk pv) (by omega) ⟨by omega, ?_, hrp5, ?_, k3, k4, ?_, ?_⟩)
    · by_contra hk
      obtain ⟨i, i0, i1, i2⟩ := one_of (q := fun v => rk pv ≤ rk (F.key v)) hrp5 hp.ge
      exact absurd i2 (not_le.2 (k5 (by omega) i i0 i1))
    · exact hmem.trans fun a ha => (k2.out ha).symm
    · intro hall
      rw [lowC_mid, highC_mid]
      have := le4 hall
      omega
    · intro hall
      rw [lowC_mid, highC_mid]
      have := ge4 hall
      omega

/-- what sorting a range does to the memory and costs -/
def KCheap (F : Fam V κ) (ok : κ → Prop) (rk : κ → ρ) (S : Finset ρ) (dd : Nat) (G : Int → Mem V → Prop) (p : Prog V (VSp κ) Unit) (ar : Slice) (m : Mem V) : Prop :=
  ∀ n (Q : Unit → Owed V (VSp κ) → Mem V → Nat → Prop), fewCost F rk S ar m ≤ n →
    (∀ m' n', Agree ar.rngᶜ m m' → n ≤ n' + fewCost F rk S ar m → Q () none m' n') →
    kw (vspec F ok rk dd) (vkm F rk S) G p none m n Q

theorem Cheap.k {p : Prog V (VSp κ) Unit} {ar : Slice} {m : Mem V} (h : Cheap F rk S p ar m) : KCheap F ok rk S dd G p ar m := by
  intro n Q hn hQ
  obtain ⟨c, m', e, r, hc⟩ := h
  have hc' : c ≤ fewCost F rk S ar m := hc
  exact e.kw' (by omega) (hQ _ _ (fun a ha => (r.out ha).symm) (by omega))

/-- the credit for two parts -/
theorem fewCost_sum {s aq ar : Slice} {m m1 : Mem V} (hq : pot S (fun v => rk (F.key v)) aq m1 < pot S (fun v => rk (F.key v)) s m)
    (hr : pot S (fun v => rk (F.key v)) ar m1 < pot S (fun v => rk (F.key v)) s m) (hs : aq.len + ar.len = s.len) :
    6 * s.len + (fewCost F rk S aq m1 + fewCost F rk S ar m1) ≤ fewCost F rk S s m :=
  cheap_sum le_rfl le_rfl le_rfl hq hr hs

theorem fewCost_congr {s : Slice} {m m' : Mem V} (h : Agree s.rng m m') : fewCost F rk S s m = fewCost F rk S s m' := by
  unfold fewCost
  rw [pot_congr h]

/-- sorting two parts one after the other -/
theorem KCheap.both {s aq ar : Slice} {m m1 : Mem V} (hsp : Split (fun v => rk (F.key v)) s aq ar m m1) {p q : Prog V (VSp κ) Unit}
    (hp : KCheap F ok rk S dd G p aq m1) (hq : ∀ m2, Agree ar.rng m1 m2 → KCheap F ok rk S dd G q ar m2) {n : Nat} {Q : Unit → Owed V (VSp κ) → Mem V → Nat → Prop}
    (hn : fewCost F rk S aq m1 + fewCost F rk S ar m1 ≤ n)
    (hQ : ∀ m' n', Agree s.rngᶜ m1 m' → n ≤ n' + (fewCost F rk S aq m1 + fewCost F rk S ar m1) → Q () none m' n') :
    kw (vspec F ok rk dd) (vkm F rk S) G (p >>= fun _ => q) none m1 n Q := by
  obtain ⟨u1, u2, u3, u4⟩ := hsp.sub
  refine kw.bind (hp _ _ (by omega) fun m2 n2 h1 h2 => ?_)
  have ag : Agree ar.rng m1 m2 := h1.mono fun a ha => Set.disjoint_right.1 u3 ha
  have e := fewCost_congr (F := F) (rk := rk) (S := S) ag
  refine hq m2 ag _ _ (by omega) fun m3 n3 h3 h4 => hQ m3 n3 ?_ (by omega)
  exact (h1.mono (Set.compl_subset_compl.2 u1)).trans (h3.mono (Set.compl_subset_compl.2 u2))

theorem k_long (hF : FamOK F ok rk) : ∀ (f d : Nat) (ar : Slice) (sv : Bool) (m : Mem V), ar.len ≤ f →
    F.maxRec < ar.len → 2 * ar.len < 2 ^ d → 2 ^ d ≤ 2 ^ dd → (∀ a ∈ ar.rng, ok (F.key (m a))) → (∀ a ∈ ar.rng, rk (F.key (m a)) ∈ S) →
    KCheap F ok rk S dd G (long F f d ar sv) ar m := by
  have h8 : 8 < F.maxIns := hF.ins
  have hrec := hF.recOK
  have hn : 5 ≤ F.nLong ∧ (F.mean ≠ none → 6 ≤ F.nLong) ∧ F.nLong ≤ 6 := by
    unfold Fam.nLong nsLong
    cases F.mean <;> simp
  intro f
  induction f with
  | zero => intro d ar sv m h1 h2; omega
  | succ f ih =>
    intro d ar sv m hf hl hd hdd hok hS n Q hnn hQ
    obtain ⟨d, rfl⟩ : ∃ d', d = d' + 1 := by
      cases d with
      | zero => simp at hd; omega
      | succ d => exact ⟨d, rfl⟩
    have hd' := hd
    have hdd' := hdd
    rw [pow_succ] at hd' hdd'
    obtain ⟨c0, pv, m0, e0, ⟨em, hp⟩, -⟩ := runs_of (fun _ _ _ _ _ h => h) (pivot_spec (Sp := VSp κ) (cmp := fun _ _ _ _ _ => False)
      (W := ar.rng) (R := ∅) hF (by simp) hn.1 hn.2.1 (by omega) hok) (aw_true (n := 0))
    rw [em] at e0
    have b0 := paid e0 (cost_pivot rfl _)
    obtain ⟨c1, aq, ar', m1, e1, b1, H⟩ := runs_halve hF (by omega) hok hS hp.two
    have hsp := H.split
    have hsum := hsp.sum
    have hle := hsp.le
    have hpos := hsp.pos
    obtain ⟨u1, u2, u3, u4⟩ := hsp.sub
    have okq := ok_sub (F := F) (ok := ok) hsp.rp u1 hok
    have okr := ok_sub (F := F) (ok := ok) hsp.rp u2 hok
    have Sq : ∀ a ∈ aq.rng, rk (F.key (m1 a)) ∈ S := fun a ha => hsp.rp.all (p := fun v => rk (F.key v) ∈ S) hS a (u1 ha)
    have Sr : ∀ a ∈ ar'.rng, rk (F.key (m1 a)) ∈ S := fun a ha => hsp.rp.all (p := fun v => rk (F.key v) ∈ S) hS a (u2 ha)
    have Sr' : ∀ {m2 : Mem V}, Agree ar'.rng m1 m2 → ∀ a ∈ ar'.rng, rk (F.key (m2 a)) ∈ S := fun h a ha => by rw [← h a ha]; exact Sr a ha
    have hcost := fewCost_sum H.q H.r hsum
    have hmem : Agree ar.rngᶜ m m1 := fun a ha => (H.rp.out ha).symm
    have hk : 6 * ar.len ≥ c0 + c1 := by omega
    have glue : ∀ {k : Slice × Slice → Prog V (VSp κ) Unit}, kw (vspec F ok rk dd) (vkm F rk S) G (k (aq, ar')) none m1 (n - (c0 + c1)) Q →
        kw (vspec F ok rk dd) (vkm F rk S) G (do
          let pv ← pivot F ar F.nLong
          let i ← partOne F ar pv
          let x ← splitAt ar i
          k x : Prog V (VSp κ) Unit) none m n Q := by
      intro k h
      refine e0.kw (by omega) ?_
      have := e1.kw (f := k) (S := vspec F ok rk dd) (K := vkm F rk S) (G := G) (J := none) (n := n - c0) (Q := Q) (by omega) (by rwa [Nat.sub_sub])
      simp only [Prog.bind_def] at this ⊢
      rw [Prog.bind_assoc] at this
      exact this
    have fin : ∀ m' n', Agree ar.rngᶜ m1 m' → n - (c0 + c1) ≤ n' + (fewCost F rk S aq m1 + fewCost F rk S ar' m1) → Q () none m' n' :=
      fun m' n' h1 h2 => hQ m' n' (hmem.trans h1) (by omega)
    unfold long
    refine glue ?_
    dsimp only
    by_cases hq : aq.len ≤ F.maxRec
    · rw [if_pos hq]
      have rest : ∀ m2, Agree ar'.rng m1 m2 → KCheap F ok rk S dd G (if ar'.len > F.maxRec then long F f (d + 1) ar' sv else short F f d ar') ar' m2 := by
        intro m2 ag
        split_ifs with hc
        · exact ih (d + 1) ar' sv m2 (by omega) hc (by omega) hdd (ag.keyOK okr) (Sr' ag)
        · exact (cheap_short hF S f d ar' m2 (by omega) (by omega) (by omega) (ag.keyOK okr) (Sr' ag)).k
      by_cases hc : aq.len > F.maxIns
      · rw [if_pos hc]
        exact KCheap.both hsp (cheap_short hF S f d aq m1 (by omega) hc (by omega) okq Sq).k rest (by omega) fin
      · rw [if_neg hc]
        exact KCheap.both hsp (cheap_insertion hF S (by omega) okq).k rest (by omega) fin
    · rw [if_neg hq]
      have both : ∀ full : Bool, kw (vspec F ok rk dd) (vkm F rk S) G (if full = true then do
            long F f d aq sv
            long F f (d + 1) ar' sv
          else do
            let _ ← .incGor .ret
            .go (.long ar' f) (.ret ())
            long F f (d + 1) aq sv) none m1 (n - (c0 + c1)) Q := by
        intro full
        split
        · exact KCheap.both hsp (ih d aq sv m1 (by omega) (by omega) (by omega) (by omega) okq Sq)
            (fun m2 ag => ih (d + 1) ar' sv m2 (by omega) (by omega) (by omega) hdd (ag.keyOK okr) (Sr' ag)) (by omega) fin
        · intro x
          refine ⟨⟨Sr, ?_⟩, ?_⟩
          · show fewCost F rk S ar' m1 ≤ _; omega
          · intro m2 hag
            have hag' : Agree ar'.rngᶜ m1 m2 := hag
            have ag : Agree aq.rng m1 m2 := hag'.mono fun a ha => Set.disjoint_left.1 u3 ha
            have e := fewCost_congr (F := F) (rk := rk) (S := S) ag
            show kw (vspec F ok rk dd) (vkm F rk S) G (long F f (d + 1) aq sv) none m2 (n - (c0 + c1) - fewCost F rk S ar' m1) Q
            refine ih (d + 1) aq sv m2 (by omega) (by omega) (by omega) hdd (ag.keyOK okq) (fun a ha => by rw [← ag a ha]; exact Sq a ha) _ _ (by omega) ?_
            intro m3 n3 h3 h4
            refine fin m3 n3 ?_ (by omega)
            exact (hag'.mono (Set.compl_subset_compl.2 u2)).trans (h3.mono (Set.compl_subset_compl.2 u1))
      cases sv with
      | false => exact both true
      | true => exact fun mg x => both _

theorem k_vbody (hF : FamOK F ok rk) (sp : VSp κ) (m : Mem V) (h1 : (vkm F rk S).sp sp m) (h2 : (vspec F ok rk dd).pre sp m) :
    kw (vspec F ok rk dd) (vkm F rk S) (if (vspec F ok rk dd).isPart sp = true then (vkm F rk S).post sp m else fun _ _ => True) (vbody F dd sp) none m
      ((vkm F rk S).ρ sp m) fun _ _ _ _ => True := by
  cases sp with
  | part ar pv =>
    rw [if_pos (show (vspec F ok rk dd).isPart (.part ar pv) = true from rfl)]
    obtain ⟨c, k, m', e, hc, hb⟩ := runs_partOne (rk := rk) hF h2.2 h2.1
    exact e.kw hc ⟨⟨m, m', Agree.refl _ _, Agree.refl _ _, hb⟩, fun _ => trivial⟩
  | long ar f =>
    rw [if_neg (by simp [vspec])]
    refine kw.bind (k_long hF f dd ar true m h2.2.1 h2.1 h2.2.2.1 le_rfl h2.2.2.2 h1 _ _ le_rfl fun m' n' _ _ x => ?_)
    show kw _ _ _ (if x = 0 then _ else _) _ _ _ _
    split
    · exact ⟨trivial, fun _ => trivial⟩
    · trivial

/-- the split after concurrent partitioning -/
theorem ConBal.split {slc : Slice} {m m1 : Mem V} {k : Int} {p : ρ} (h : ConBal F rk slc m k m1 p) (hS : ∀ a ∈ slc.rng, rk (F.key (m a)) ∈ S) :
    ∃ c aq ar, TRuns (splitAt slc k : Prog V (VSp κ) (Slice × Slice)) m1 c (aq, ar) m1 ∧ c = 0 ∧ Split (fun v => rk (F.key v)) slc aq ar m m1 ∧
      pot S (fun v => rk (F.key v)) aq m1 < pot S (fun v => rk (F.key v)) slc m ∧ pot S (fun v => rk (F.key v)) ar m1 < pot S (fun v => rk (F.key v)) slc m := by
  have k0 := h.k0
  have k1 := h.k1
  have hpot := pot_parts (S := S) (r := fun v => rk (F.key v)) (p := p) (s := slc) (L := ⟨slc.off, k.toNat⟩) (R := ⟨slc.off + k.toNat, slc.len - k.toNat⟩)
    h.rp hS rfl rfl (by dsimp only; omega) (by dsimp only; omega) (by dsimp only; omega) (by
      intro a ha
      simp only [Slice.rng, Set.mem_ofPred_eq] at ha
      have := h.low ((a - slc.off : Nat) : Int) (by omega) (by omega)
      unfold Slice.E at this
      rwa [Int.toNat_natCast, show slc.off + (a - slc.off) = a by omega] at this) (by
      intro a ha
      simp only [Slice.rng, Set.mem_ofPred_eq] at ha
      have := h.high ((a - slc.off : Nat) : Int) (by omega) (by omega)
      unfold Slice.E at this
      rwa [Int.toNat_natCast, show slc.off + (a - slc.off) = a by omega] at this) (by
      intro hall
      have := h.le hall
      unfold lowC highC at this
      unfold occ
      dsimp only
      rwa [show slc.off + k.toNat + (slc.len - k.toNat) = slc.off + slc.len by omega]) (by
      intro hall
      have := h.ge hall
      unfold lowC highC at this
      unfold occ
      dsimp only
      rwa [show slc.off + k.toNat + (slc.len - k.toNat) = slc.off + slc.len by omega])
  obtain ⟨c2, ⟨aq, ar⟩, m2, e2, ⟨rfl, h2⟩, -⟩ := runs_of (fun _ _ _ _ _ h => h) (splitAt_spec (Sp := VSp κ) (cmp := fun _ _ _ _ _ => False)
    (W := slc.rng) (R := ∅) (slc := slc) (m := m1) k0.le k1.le (Q := fun x m2 => m2 = m1 ∧ x.1.len ≤ x.2.len ∧
      ((x.1 = ⟨slc.off, k.toNat⟩ ∧ x.2 = ⟨slc.off + k.toNat, slc.len - k.toNat⟩) ∨
       (x.2 = ⟨slc.off, k.toNat⟩ ∧ x.1 = ⟨slc.off + k.toNat, slc.len - k.toNat⟩))) fun aq ar' hle hc => ⟨rfl, hle, hc⟩) (aw_true (n := 0))
  dsimp only at h2
  have b2 := paid e2 cost_splitAt
  refine ⟨c2, aq, ar, e2, by omega, split_of h.rp k0 k1 h.low h.high h2.1 h2.2, ?_, ?_⟩
  · rcases h2.2 with ⟨rfl, rfl⟩ | ⟨rfl, rfl⟩
    · exact hpot.1
    · exact hpot.2
  · rcases h2.2 with ⟨rfl, rfl⟩ | ⟨rfl, rfl⟩
    · exact hpot.2
    · exact hpot.1

theorem k_sortLoop (hF : FamOK F ok rk) {d : Nat} (hdd : 2 ^ d ≤ 2 ^ dd) : ∀ (f : Nat) (ar : Slice) (m : Mem V) (n : Nat),
    2 * (F.maxRec + 1) ≤ ar.len → ar.len ≤ f → 2 * ar.len < 2 ^ d → (∀ a ∈ ar.rng, ok (F.key (m a))) → (∀ a ∈ ar.rng, rk (F.key (m a)) ∈ S) →
    fewCost F rk S ar m ≤ n → kw (vspec F ok rk dd) (vkm F rk S) (fun _ _ => True) (sortLoop F d f ar) none m n fun _ _ _ _ => True := by
  have h8 : 8 < F.maxIns := hF.ins
  have hrec := hF.recOK
  intro f
  induction f with
  | zero => intro ar m n h1 h2; omega
  | succ f ih =>
    intro ar m n hl hf hd hok hS hn
    have h6 : 6 * ar.len ≤ fewCost F rk S ar m := Nat.mul_le_mul_right _ (by omega)
    unfold sortLoop
    refine kw.bind (kw_partCon hF hl hok (by omega) ?_)
    intro k m1 n1 p hn1 B
    obtain ⟨c, aq, ar', e, rfl, hsp, hq, hr⟩ := B.split hS
    refine e.kw (Nat.zero_le _) ?_
    dsimp only
    rw [Nat.sub_zero]
    have hsum := hsp.sum
    have hle := hsp.le
    have hpos := hsp.pos
    have hcost := fewCost_sum hq hr hsum
    obtain ⟨u1, u2, u3, u4⟩ := hsp.sub
    have okq := ok_sub (F := F) (ok := ok) hsp.rp u1 hok
    have okr := ok_sub (F := F) (ok := ok) hsp.rp u2 hok
    have Sq : ∀ a ∈ aq.rng, rk (F.key (m1 a)) ∈ S := fun a ha => hsp.rp.all (p := fun v => rk (F.key v) ∈ S) hS a (u1 ha)
    have Sr : ∀ a ∈ ar'.rng, rk (F.key (m1 a)) ∈ S := fun a ha => hsp.rp.all (p := fun v => rk (F.key v) ∈ S) hS a (u2 ha)
    have rest : ∀ m2 n2, Agree aq.rngᶜ m1 m2 → n1 ≤ n2 + fewCost F rk S aq m1 → kw (vspec F ok rk dd) (vkm F rk S) (fun _ _ => True) (do
        let stop ← if ar'.len < 2 * (F.maxRec + 1) then pure true else gorFull
        if stop then do
          long F f d ar' true
          let n ← .decGor .ret
          if n ≠ 0 then do
            let _ ← .recv .ret
            pure ()
          else pure ()
        else sortLoop F d f ar') none m2 n2 fun _ _ _ _ => True := by
      intro m2 n2 hag hn2
      have ag : Agree ar'.rng m1 m2 := hag.mono fun a ha => Set.disjoint_right.1 u3 ha
      have e := fewCost_congr (F := F) (rk := rk) (S := S) ag
      have Sr' : ∀ a ∈ ar'.rng, rk (F.key (m2 a)) ∈ S := fun a ha => by rw [← ag a ha]; exact Sr a ha
      have long : kw (vspec F ok rk dd) (vkm F rk S) (fun _ _ => True) (do
          long F f d ar' true
          let n ← .decGor .ret
          if n ≠ 0 then do
            let _ ← .recv .ret
            pure ()
          else pure ()) none m2 n2 fun _ _ _ _ => True := by
        refine kw.bind (k_long hF f d ar' true m2 (by omega) (by omega) (by omega) hdd (ag.keyOK okr) Sr' _ _ (by omega) fun m' n' _ _ x => ?_)
        show kw _ _ _ (if x ≠ 0 then _ else _) _ _ _ _
        split
        · intro v; trivial
        · trivial
      by_cases hc : ar'.len < 2 * (F.maxRec + 1)
      · rw [if_pos hc]; exact long
      · rw [if_neg hc]
        intro mg x
        show kw _ _ _ (if decide (x ≥ mg) = true then _ else _) none m2 n2 _
        split
        · exact long
        · exact ih ar' m2 n2 (by omega) (by omega) (by omega) (ag.keyOK okr) Sr' (by omega)
    by_cases hc1 : aq.len > F.maxRec
    · rw [if_pos hc1]
      intro x
      refine ⟨⟨Sq, ?_⟩, ?_⟩
      · show fewCost F rk S aq m1 ≤ n1; omega
      · intro m2 hag
        exact rest m2 (n1 - fewCost F rk S aq m1) hag (by omega)
    rw [if_neg hc1]
    by_cases hc2 : aq.len > F.maxIns
    · rw [if_pos hc2]
      exact kw.bind ((cheap_short hF S f d aq m1 (by omega) hc2 (by omega) okq Sq).k _ _ (by omega) rest)
    · rw [if_neg hc2]
      exact kw.bind ((cheap_insertion hF S (by omega) okq).k _ _ (by omega) rest)

theorem k_sortV (hF : FamOK F ok rk) {d : Nat} (hdd : 2 ^ d ≤ 2 ^ dd) {ar : Slice} {m : Mem V} {n : Nat} (hd : 2 * ar.len < 2 ^ d)
    (hok : ∀ a ∈ ar.rng, ok (F.key (m a))) (hS : ∀ a ∈ ar.rng, rk (F.key (m a)) ∈ S) (hn : fewCost F rk S ar m ≤ n) :
    kw (vspec F ok rk dd) (vkm F rk S) (fun _ _ => True) (sortV F d ar) none m n fun _ _ _ _ => True := by
  unfold sortV
  dsimp only
  have single : kw (vspec F ok rk dd) (vkm F rk S) (fun _ _ => True) (if ar.len > F.maxRec then long F ar.len d ar false
      else if ar.len > F.maxIns then short F ar.len d ar
      else insertion F.key F.lt ar) none m n fun _ _ _ _ => True := by
    split_ifs with h1 h2
    · exact k_long hF _ _ _ _ _ le_rfl h1 hd hdd hok hS _ _ hn fun _ _ _ _ => trivial
    · exact (cheap_short hF S _ _ _ _ le_rfl h2 (by omega) hok hS).k _ _ hn fun _ _ _ _ => trivial
    · exact (cheap_insertion hF S (by omega) hok).k _ _ hn fun _ _ _ _ => trivial
  by_cases hc : ar.len < 2 * (F.maxRec + 1)
  · rw [if_pos hc]; exact single
  · rw [if_neg hc]
    intro mg
    show kw _ _ _ (if decide (mg ≤ 1) = true then _ else _) none _ _ _
    split
    · exact single
    · exact k_sortLoop hF hdd _ _ _ _ (by omega) le_rfl hd hok hS hn

end Sorty
