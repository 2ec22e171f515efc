import Verif.Proofs.Layered

/-! # Sorting ascending sequences of descending runs -/

namespace Sorty

open Prog

variable {V κ Sp : Type} {ρ : Type} [LinearOrder ρ]
variable {F : Fam V κ} {ok : κ → Prop} {rk : κ → ρ}

/-- what holds of `(l,h)` at every label of `partOne*` -/
structure LC (F : Fam V κ) (ok : κ → Prop) (rk : κ → ρ) (p : ρ) (slc : Slice) (l h : Int) (m : Mem V) : Prop where
  l0 : 0 ≤ l
  h1 : h ≤ slc.len - 1
  okE : ∀ i : Int, 0 ≤ i → i < slc.len → ok (F.key (slc.E m i))
  low : ∀ i : Int, 0 ≤ i → i < l → rk (F.key (slc.E m i)) ≤ p
  high : ∀ i : Int, h < i → i < slc.len → p ≤ rk (F.key (slc.E m i))

/-- partitioning keeps the runs, only more of them -/
theorem lay_partOne (hF : FamOK F ok rk) {slc : Slice} {m : Mem V} {pv : κ} (hpv : ok pv) {n : Nat} (hok : ∀ a ∈ slc.rng, ok (F.key (m a)))
    (hL : Lay (fun v => rk (F.key v)) slc m) :
    aw (partOne F slc pv : Prog V Sp Int) m n fun _ m' _ => Lay (fun v => rk (F.key v)) slc m' := by
  unfold partOne
  refine aw_loop (fun st m' _ => Lay (fun v => rk (F.key v)) slc m' ∧ match st with
    | .second l h => LC F ok rk (rk pv) slc l h m' ∧ l < h ∧ rk pv ≤ rk (F.key (slc.E m' h)) ∧ rk pv ≤ rk (F.key (slc.E m' l))
    | .swap l h => LC F ok rk (rk pv) slc l h m' ∧ l < h ∧ rk (F.key (slc.E m' h)) ≤ rk pv ∧ rk pv ≤ rk (F.key (slc.E m' l))
    | .next l h => LC F ok rk (rk pv) slc l h m' ∧ l < h ∧ rk (F.key (slc.E m' l)) ≤ rk pv ∧ rk pv ≤ rk (F.key (slc.E m' h))
    | .start l h => LC F ok rk (rk pv) slc l h m' ∧ l ≤ h + 1
    | .scan l h => LC F ok rk (rk pv) slc l h m' ∧ l < h ∧ rk (F.key (slc.E m' h)) ≤ rk pv
    | .last l h => LC F ok rk (rk pv) slc l h m') ?_ _ _ _ _ ?_
  · rintro (⟨l, h⟩ | ⟨l, h⟩ | ⟨l, h⟩ | ⟨l, h⟩ | ⟨l, h⟩ | ⟨l, h⟩) m' n ⟨hL, hI⟩ <;> dsimp only at hI
    · -- second
      obtain ⟨c, g1, g2, g3⟩ := hI
      have := c.l0; have := c.h1
      simp only [partOneStep]
      split_ifs with hc
      · exact hL
      · refine aw_bind (aw_rd fun _ => ?_)
        have hk := hF.le _ _ (c.okE (h - 1) (by omega) (by omega)) hpv
        have hhigh : ∀ i : Int, h - 1 < i → i < slc.len → rk pv ≤ rk (F.key (slc.E m' i)) := by
          intro i hi hi'
          rcases (by omega : i = h ∨ h < i) with e | e
          · rw [e]; exact g2
          · exact c.high i e hi'
        split_ifs with hle
        · rw [hk] at hle
          exact ⟨hL, ⟨c.l0, by omega, c.okE, c.low, hhigh⟩, by omega, hle, g3⟩
        · rw [hk, not_le] at hle
          exact ⟨hL, ⟨c.l0, by omega, c.okE, c.low, hhigh⟩, by omega, hle.le, g3⟩
    · -- swap
      obtain ⟨c, g1, g2, g3⟩ := hI
      have := c.l0; have := c.h1
      simp only [partOneStep]
      refine aw_bind (aw_swapM ⟨?_, ⟨c.l0, c.h1, ?_, ?_, ?_⟩, g1, ?_, ?_⟩)
      · refine hL.swap (p := rk pv) (l := slc.off + l.toNat) (h := slc.off + h.toNat) (by omega) (by omega) (by omega) ?_ ?_ g2 g3 ?_
        · intro i hi hi'
          have := c.low ((i - slc.off : Nat) : Int) (by omega) (by omega)
          unfold Slice.E at this
          rwa [Int.toNat_natCast, show slc.off + (i - slc.off) = i by omega] at this
        · intro i hi hi'
          have := c.high ((i - slc.off : Nat) : Int) (by omega) (by omega)
          unfold Slice.E at this
          rwa [Int.toNat_natCast, show slc.off + (i - slc.off) = i by omega] at this
        · intro i
          unfold Slice.swapM Slice.E
          simp only [Function.update_apply]
      · intro i hi hi'
        rw [Slice.E_swapM (by omega) (by omega) hi]
        split_ifs
        · exact c.okE l (by omega) (by omega)
        · exact c.okE h (by omega) (by omega)
        · exact c.okE i hi hi'
      · intro i hi hi'
        rw [Slice.E_swapM (by omega) (by omega) hi, if_neg (by omega), if_neg (by omega)]
        exact c.low i hi hi'
      · intro i hi hi'
        rw [Slice.E_swapM (by omega) (by omega) (by omega), if_neg (by omega), if_neg (by omega)]
        exact c.high i hi hi'
      · rw [Slice.E_swapM (by omega) (by omega) (by omega), if_neg (by omega), if_pos rfl]; exact g2
      · rw [Slice.E_swapM (by omega) (by omega) (by omega), if_pos rfl]; exact g3
    · -- next
      obtain ⟨c, g1, g2, g3⟩ := hI
      have := c.l0; have := c.h1
      simp only [partOneStep]
      refine ⟨hL, ⟨by omega, by omega, c.okE, ?_, ?_⟩, by omega⟩
      · intro i hi hi'
        rcases (by omega : i = l ∨ i < l) with e | e
        · rw [e]; exact g2
        · exact c.low i hi e
      · intro i hi hi'
        rcases (by omega : i = h ∨ h < i) with e | e
        · rw [e]; exact g3
        · exact c.high i e hi'
    · -- start
      obtain ⟨c, g1⟩ := hI
      have := c.l0; have := c.h1
      simp only [partOneStep]
      split_ifs with hc
      · exact ⟨hL, c⟩
      · refine aw_bind (aw_rd fun _ => ?_)
        have hk := hF.le _ _ hpv (c.okE h (by omega) (by omega))
        split_ifs with hle
        · rw [hk] at hle
          refine aw_bind (aw_rd fun _ => ?_)
          have hk2 := hF.lt _ _ hpv (c.okE l (by omega) (by omega))
          split_ifs with hlt
          · rw [hk2] at hlt
            exact ⟨hL, c, by omega, hle, hlt.le⟩
          · rw [hk2, not_lt] at hlt
            exact ⟨hL, c, by omega, hlt, hle⟩
        · rw [hk, not_le] at hle
          exact ⟨hL, c, by omega, hle.le⟩
    · -- scan
      obtain ⟨c, g1, g2⟩ := hI
      have := c.l0; have := c.h1
      simp only [partOneStep]
      refine aw_bind (aw_rd fun _ => ?_)
      have hk := hF.le _ _ hpv (c.okE l (by omega) (by omega))
      split_ifs with hle hhl
      · rw [hk] at hle
        exact ⟨hL, c, by omega, g2, hle⟩
      · exact hL
      · rw [hk, not_le] at hle
        refine ⟨hL, ⟨by omega, c.h1, c.okE, ?_, c.high⟩, by omega, g2⟩
        intro i hi hi'
        rcases (by omega : i = l ∨ i < l) with e | e
        · rw [e]; exact hle.le
        · exact c.low i hi e
    · -- last
      simp only [partOneStep]
      split_ifs with hc
      · refine aw_bind (aw_rd fun _ => ?_)
        split_ifs <;> exact hL
      · exact hL
  · exact ⟨hL, ⟨by omega, by omega, fun i h0 h1 => hok _ (Slice.mem_rng h0 h1), fun i _ _ => by omega, fun i _ _ => by omega⟩, by omega⟩

theorem cnt_perm {r : V → Prop} [DecidablePred r] {s : Slice} {m m' : Mem V} (h : RPon s.rng m m') :
    cnt (fun a => r (m' a)) s.off (s.off + s.len) = cnt (fun a => r (m a)) s.off (s.off + s.len) := by
  obtain ⟨σ, h1, h2⟩ := h
  unfold cnt
  have hm : ∀ {τ : Equiv.Perm Nat}, (∀ i, i ∉ s.rng → τ i = i) → ∀ a, a ∈ Finset.Ico s.off (s.off + s.len) → τ a ∈ Finset.Ico s.off (s.off + s.len) := by
    intro τ hτ a ha
    rw [Finset.mem_Ico] at ha ⊢
    exact perm_mem hτ (i := a) ha
  have hr : ∀ {a}, a ∈ Finset.Ico s.off (s.off + s.len) → a ∈ s.rng := fun ha => Finset.mem_Ico.1 ha
  refine Finset.card_bij (fun a _ => σ a) ?_ (fun a _ b _ h => σ.injective h) ?_
  · intro a ha
    rw [Finset.mem_filter] at ha ⊢
    exact ⟨hm h1 a ha.1, by rw [← h2 a (hr ha.1)]; exact ha.2⟩
  · intro b hb
    rw [Finset.mem_filter] at hb
    refine ⟨σ.symm b, ?_, Equiv.apply_symm_apply _ _⟩
    rw [Finset.mem_filter]
    refine ⟨hm (perm_symm h1) b hb.1, ?_⟩
    rw [h2 _ (hr (hm (perm_symm h1) b hb.1)), Equiv.apply_symm_apply]
    exact hb.2

theorem cnt_le_one {P : Nat → Prop} [DecidablePred P] {a b : Nat} (h : ∀ x y, a ≤ x → x < b → a ≤ y → y < b → P x → P y → x = y) : cnt P a b ≤ 1 := by
  unfold cnt
  rw [Finset.card_le_one]
  intro x hx y hy
  rw [Finset.mem_filter, Finset.mem_Ico] at hx hy
  exact h x y hx.1.1 hx.1.2 hy.1.1 hy.1.2 hx.2 hy.2

/-- what a run of partitioning and splitting leaves -/
structure RunHalved (r : V → ρ) (s aq ar : Slice) (m m' : Mem V) : Prop where
  rp : RP s.rng m m'
  split : Split r s aq ar m m'
  layq : Lay r aq m'
  layr : Lay r ar m'
  q : 12 * aq.len ≤ 11 * s.len
  r : 12 * ar.len ≤ 11 * s.len

/-- a partition and a split -/
theorem runs_lay (hF : FamOK F ok rk) {ar : Slice} {m : Mem V} (hlen : 2 ≤ ar.len) (hok : ∀ a ∈ ar.rng, ok (F.key (m a)))
    (hL : Lay (fun v => rk (F.key v)) ar m) {pv : κ} (hpv : ok pv) {g : Nat} (hg : ar.len ≤ 12 * g)
    (hlo : g + 1 ≤ cnt (fun x => rk (F.key (m x)) ≤ rk pv) ar.off (ar.off + ar.len))
    (hhi : g + 1 ≤ cnt (fun x => rk pv ≤ rk (F.key (m x))) ar.off (ar.off + ar.len)) :
    ∃ c aq ar' m', TRuns (do
      let k ← partOne F ar pv
      splitAt ar k : Prog V (VSp κ) (Slice × Slice)) m c (aq, ar') m' ∧ c ≤ 3 * ar.len ∧ RunHalved (fun v => rk (F.key v)) ar aq ar' m m' := by
  have hsw := partOne_spec (Sp := VSp κ) (cmp := fun _ _ _ _ _ => False) (W := ar.rng) (R := ∅) hF subset_rfl hpv hok
  obtain ⟨c1, k, m', e1, hk, hL'⟩ := runs_of (fun _ _ _ _ _ h => h) hsw (lay_partOne (n := 0) hF hpv hok hL)
  rw [← cnt_perm (r := fun v => rk (F.key v) ≤ rk pv) hk.rp.on] at hlo
  rw [← cnt_perm (r := fun v => rk pv ≤ rk (F.key v)) hk.rp.on] at hhi
  have hlow : ∀ a, ar.off ≤ a → a < ar.off + k.toNat → rk (F.key (m' a)) ≤ rk pv := by
    intro a ha ha'
    have := hk.low ((a - ar.off : Nat) : Int) (by omega) (by omega)
    unfold Slice.E at this
    rwa [Int.toNat_natCast, show ar.off + (a - ar.off) = a by omega] at this
  have hhigh : ∀ a, ar.off + k.toNat ≤ a → a < ar.off + ar.len → rk pv ≤ rk (F.key (m' a)) := by
    intro a ha ha'
    have := hk.k0
    have := hk.high ((a - ar.off : Nat) : Int) (by omega) (by omega)
    unfold Slice.E at this
    rwa [Int.toNat_natCast, show ar.off + (a - ar.off) = a by omega] at this
  have kk0 := hk.k0; have kk1 := hk.k1
  have a1 : g ≤ k.toNat := by
    rw [← cnt_add (b := ar.off + k.toNat) (by omega) (by omega)] at hlo
    have b1 := cnt_le (P := fun x => rk (F.key (m' x)) ≤ rk pv) (a := ar.off) (b := ar.off + k.toNat)
    have b2 := cnt_le_one (P := fun x => rk (F.key (m' x)) ≤ rk pv) (a := ar.off + k.toNat) (b := ar.off + ar.len) (by
      intro x y x0 x1 y0 y1 hx hy
      refine hL'.ne (by simp only [Slice.rng, Set.mem_ofPred_eq]; omega) (by simp only [Slice.rng, Set.mem_ofPred_eq]; omega) ?_
      exact (le_antisymm hx (hhigh x x0 x1)).trans (le_antisymm hy (hhigh y y0 y1)).symm)
    omega
  have a2 : g ≤ ar.len - k.toNat := by
    rw [← cnt_add (b := ar.off + k.toNat) (by omega) (by omega)] at hhi
    have b1 := cnt_le (P := fun x => rk pv ≤ rk (F.key (m' x))) (a := ar.off + k.toNat) (b := ar.off + ar.len)
    have b2 := cnt_le_one (P := fun x => rk pv ≤ rk (F.key (m' x))) (a := ar.off) (b := ar.off + k.toNat) (by
      intro x y x0 x1 y0 y1 hx hy
      refine hL'.ne (by simp only [Slice.rng, Set.mem_ofPred_eq]; omega) (by simp only [Slice.rng, Set.mem_ofPred_eq]; omega) ?_
      exact (le_antisymm (hlow x x0 x1) hx).trans (le_antisymm (hlow y y0 y1) hy).symm)
    omega
  have k0 : 0 < k := by omega
  have k1 : k < ar.len := by omega
  obtain ⟨c2, ⟨aq, ar'⟩, m2, e2, ⟨rfl, h2⟩, -⟩ := runs_of (fun _ _ _ _ _ h => h) (splitAt_spec (Sp := VSp κ) (cmp := fun _ _ _ _ _ => False)
    (W := ar.rng) (R := ∅) (slc := ar) (m := m') k0.le k1.le (Q := fun x m2 => m2 = m' ∧ x.1.len ≤ x.2.len ∧
      ((x.1 = ⟨ar.off, k.toNat⟩ ∧ x.2 = ⟨ar.off + k.toNat, ar.len - k.toNat⟩) ∨
       (x.2 = ⟨ar.off, k.toNat⟩ ∧ x.1 = ⟨ar.off + k.toNat, ar.len - k.toNat⟩))) fun aq ar' hle hc => ⟨rfl, hle, hc⟩) (aw_true (n := 0))
  dsimp only at h2
  have b1 := paid e1 (cost_partOne vmeter_wa)
  have b2 := paid e2 cost_splitAt
  have l1 : Lay (fun v => rk (F.key v)) ⟨ar.off, k.toNat⟩ m2 := hL'.sub le_rfl (by dsimp only; omega)
  have l2 : Lay (fun v => rk (F.key v)) ⟨ar.off + k.toNat, ar.len - k.toNat⟩ m2 := hL'.sub (by dsimp only; omega) (by dsimp only; omega)
  refine ⟨c1 + c2, aq, ar', m2, e1.bind e2, by omega, ?_⟩
  have hsp := split_of (r := fun v => rk (F.key v)) (p := rk pv) hk.rp.on k0 k1 hk.low hk.high h2.1 h2.2
  rcases h2.2 with ⟨rfl, rfl⟩ | ⟨rfl, rfl⟩
  · exact ⟨hk.rp, hsp, l1, l2, by dsimp only; omega, by dsimp only; omega⟩
  · exact ⟨hk.rp, hsp, l2, l1, by dsimp only; omega, by dsimp only; omega⟩

/-- the pivot of a short range -/
theorem runs_shortPivot (hF : FamOK F ok rk) {ar : Slice} {m : Mem V} (hlen : 10 ≤ ar.len) (h32 : ar.len < 2 ^ 32) (hok : ∀ a ∈ ar.rng, ok (F.key (m a)))
    (hL : Lay (fun v => rk (F.key v)) ar m) : ∃ c pv, TRuns (shortPivot F ar : Prog V (VSp κ) κ) m c pv m ∧ c ≤ 4 ∧ ok pv ∧ ∃ g, ar.len ≤ 12 * g ∧
      g + 1 ≤ cnt (fun x => rk (F.key (m x)) ≤ rk pv) ar.off (ar.off + ar.len) ∧ g + 1 ≤ cnt (fun x => rk pv ≤ rk (F.key (m x))) ar.off (ar.off + ar.len) := by
  have key : ∃ N, 3 ≤ N ∧ N ≤ 4 ∧ swp (fun _ _ _ _ _ => False) ar.rng ∅ (shortPivot F ar : Prog V (VSp κ) κ) m fun pv m' => m' = m ∧ ok pv ∧
      Half (fun c => rk (F.key c) ≤ rk pv) (picks (ar.view m) (minMaxSample ar.len N).1 (minMaxSample ar.len N).2.1 N) ∧
      Half (fun c => rk pv ≤ rk (F.key c)) (picks (ar.view m) (minMaxSample ar.len N).1 (minMaxSample ar.len N).2.1 N) := by
    unfold shortPivot
    cases hf : F.mean with
    | none => exact ⟨3, le_rfl, by omega, shortPivot3_half hF (by simp) (by omega) hok⟩
    | some f => exact ⟨4, by omega, le_rfl, shortPivot4_half hF (by simp) hf (by omega) h32 hok⟩
  obtain ⟨N, n3, n4, hs⟩ := key
  obtain ⟨c0, pv, m0, e0, ⟨em, hp, h1, h2⟩, -⟩ := runs_of (fun _ _ _ _ _ h => h) hs (aw_true (n := 0))
  rw [em] at e0
  exact ⟨c0, pv, e0, paid e0 (cost_shortPivot rfl), hp, hL.mids n3 (by omega) hlen (by omega) h1 h2⟩

/-- the pivot of a long range -/
theorem runs_pivot (hF : FamOK F ok rk) {ar : Slice} {m : Mem V} (hlen : 12 ≤ ar.len) (hok : ∀ a ∈ ar.rng, ok (F.key (m a)))
    (hL : Lay (fun v => rk (F.key v)) ar m) : ∃ c pv, TRuns (pivot F ar F.nLong : Prog V (VSp κ) κ) m c pv m ∧ c ≤ 6 ∧ ok pv ∧ ∃ g, ar.len ≤ 12 * g ∧
      g + 1 ≤ cnt (fun x => rk (F.key (m x)) ≤ rk pv) ar.off (ar.off + ar.len) ∧ g + 1 ≤ cnt (fun x => rk pv ≤ rk (F.key (m x))) ar.off (ar.off + ar.len) := by
  have hn : 5 ≤ F.nLong ∧ F.nLong ≤ 6 ∧ (F.mean = none ∨ F.nLong % 2 = 0) := by
    unfold Fam.nLong nsLong
    cases F.mean <;> simp
  obtain ⟨c0, pv, m0, e0, ⟨em, hp, σ, s', h⟩, -⟩ := runs_of (fun _ _ _ _ _ h => h) (pivot_mid (Sp := VSp κ) (cmp := fun _ _ _ _ _ => False)
    (W := ar.rng) (R := ∅) hF (by simp) (by omega : 2 ≤ F.nLong) (by omega) hok) (aw_true (n := 0))
  rw [em] at e0
  obtain ⟨h1, h2⟩ := h.half (by omega) (by omega) hn.2.2
  exact ⟨c0, pv, e0, (paid e0 (cost_pivot rfl _)).trans hn.2.1, hp, hL.mids (by omega) hn.2.1 (by omega) (by omega) h1 h2⟩

/-- how often a range of `n` can be split -/
def splits (n : Nat) : Nat := Nat.clog 2 (n ^ 8)

theorem splits_lt {a b : Nat} (hb : 2 ≤ b) (h : 12 * a ≤ 11 * b) : splits a < splits b := by
  unfold splits
  have h1 : 2 * a ^ 8 ≤ b ^ 8 := by
    have h2 := Nat.pow_le_pow_left h 8
    rw [Nat.mul_pow, Nat.mul_pow] at h2
    norm_num at h2
    omega
  have h4 : 2 ≤ b ^ 8 := le_trans hb (Nat.le_self_pow (by omega) b)
  rw [Nat.clog_of_two_le (b := 2) one_lt_two h4]
  exact Nat.lt_succ_of_le (Nat.clog_mono_right 2 (by omega))

theorem splits_le (n : Nat) : splits n ≤ 8 * Nat.clog 2 n := by
  unfold splits
  refine Nat.clog_le_of_le_pow ?_
  rw [Nat.mul_comm, Nat.pow_mul]
  exact Nat.pow_le_pow_left (Nat.le_pow_clog one_lt_two n) 8

theorem splits_mono {a b : Nat} (h : a ≤ b) : splits a ≤ splits b := Nat.clog_mono_right 2 (Nat.pow_le_pow_left h 8)

/-- what a run of sorting a range does and costs -/
def LCheap (F : Fam V κ) (p : Prog V (VSp κ) Unit) (ar : Slice) (m : Mem V) : Prop :=
  ∃ c m', TRuns p m c () m' ∧ RP ar.rng m m' ∧ c ≤ (4 * splits ar.len + F.maxIns + 1) * ar.len

theorem lcheap_insertion (hF : FamOK F ok rk) {ar : Slice} {m : Mem V} (hlen : ar.len ≤ F.maxIns)
    (hok : ∀ a ∈ ar.rng, ok (F.key (m a))) : LCheap F (insertion F.key F.lt ar) ar m := by
  obtain ⟨c, _, m', e, h, -⟩ := runs_of (fun _ _ _ _ _ h => h) (insertion_spec (Sp := VSp κ) (cmp := fun _ _ _ _ _ => False) (W := ar.rng) (R := ∅)
    hF.ltOK subset_rfl hok) (aw_true (n := 0))
  refine ⟨c, m', e, h.1, (paid e (cost_insertion vmeter_wa)).trans ?_⟩
  rw [Nat.mul_comm]
  exact Nat.mul_le_mul_right _ (by omega)

/-- the cost of two parts -/
theorem lcheap_sum {c c1 c2 P P1 P2 I n n1 n2 : Nat} (hc : c ≤ 4 * n) (h1 : c1 ≤ (4 * P1 + I + 1) * n1) (h2 : c2 ≤ (4 * P2 + I + 1) * n2)
    (hP1 : P1 < P) (hP2 : P2 < P) (hn : n1 + n2 = n) : c + (c1 + c2) ≤ (4 * P + I + 1) * n := by
  obtain ⟨P, rfl⟩ : ∃ Q, P = Q + 1 := ⟨P - 1, by omega⟩
  have e1 := h1.trans (Nat.mul_le_mul_right n1 (show 4 * P1 + I + 1 ≤ 4 * P + I + 1 by omega))
  have e2 := h2.trans (Nat.mul_le_mul_right n2 (show 4 * P2 + I + 1 ≤ 4 * P + I + 1 by omega))
  subst hn
  have : (4 * (P + 1) + I + 1) * (n1 + n2) = 4 * (n1 + n2) + ((4 * P + I + 1) * n1 + (4 * P + I + 1) * n2) := by ring
  omega

/-- sorting the two parts one after the other -/
theorem RunHalved.both {s aq ar : Slice} {m m1 : Mem V} (h : RunHalved (fun v => rk (F.key v)) s aq ar m m1)
    (hok : ∀ a ∈ s.rng, ok (F.key (m a))) {p q : Prog V (VSp κ) Unit}
    (hp : (∀ a ∈ aq.rng, ok (F.key (m1 a))) → Lay (fun v => rk (F.key v)) aq m1 → LCheap F p aq m1)
    (hq : ∀ m2, (∀ a ∈ ar.rng, ok (F.key (m2 a))) → Lay (fun v => rk (F.key v)) ar m2 → LCheap F q ar m2) :
    ∃ c1 c2 m2 m3, TRuns p m1 c1 () m2 ∧ TRuns q m2 c2 () m3 ∧ RP s.rng m m3 ∧
      ∀ c, c ≤ 4 * s.len → c + (c1 + c2) ≤ (4 * splits s.len + F.maxIns + 1) * s.len := by
  obtain ⟨u1, u2, u3, u4⟩ := h.split.sub
  have hall := h.rp.all (p := fun v => ok (F.key v)) hok
  have hsum := h.split.sum; have hpos := h.split.pos; have hle := h.split.le
  obtain ⟨c1, m2, e1, r1, b1⟩ := hp (fun a ha => hall a (u1 ha)) h.layq
  have ag : Agree ar.rng m1 m2 := r1.agree_of_disjoint u3
  obtain ⟨c2, m3, e2, r2, b2⟩ := hq m2 (fun a ha => by rw [← ag a ha]; exact hall a (u2 ha)) (h.layr.congr ag)
  exact ⟨c1, c2, m2, m3, e1, e2, h.rp.trans ((r1.mono u1).trans (r2.mono u2)), fun c hc =>
    lcheap_sum hc b1 b2 (splits_lt (by omega) h.q) (splits_lt (by omega) h.r) h.split.sum⟩

theorem lay_short (hF : FamOK F ok rk) (h32 : F.maxRec < 2 ^ 32) : ∀ (f d : Nat) (ar : Slice) (m : Mem V), ar.len ≤ f →
    F.maxIns < ar.len → ar.len ≤ F.maxRec → ar.len < 2 ^ d → (∀ a ∈ ar.rng, ok (F.key (m a))) → Lay (fun v => rk (F.key v)) ar m →
    LCheap F (short F f d ar) ar m := by
  have h8 : 8 < F.maxIns := hF.ins
  intro f
  induction f with
  | zero => intro d ar m h1 h2; omega
  | succ f ih =>
    intro d ar m hf hins hmr hd hok hL
    obtain ⟨c0, pv, e0, b0, hpv, g, g1, g2, g3⟩ := runs_shortPivot hF (by omega) (by omega) hok hL
    obtain ⟨c1, aq, ar', m1, e1, b1, H⟩ := runs_lay hF (by omega) hok hL hpv g1 g2 g3
    have hsum := H.split.sum
    have hle := H.split.le
    have hpos := H.split.pos
    have hne : ar'.off ≠ aq.off := H.split.off_ne
    have glue : ∀ {c m3} {k : Slice × Slice → Prog V (VSp κ) Unit}, TRuns (k (aq, ar')) m1 c () m3 →
        TRuns (do
          let pv ← shortPivot F ar
          let i ← partOne F ar pv
          let x ← splitAt ar i
          k x : Prog V (VSp κ) Unit) m (c0 + (c1 + c)) () m3 := by
      intro c m3 k h
      refine e0.bind ?_
      have := e1.bind (f := k) h
      simp only [Prog.bind_def] at this ⊢
      rw [Prog.bind_assoc] at this
      exact this
    unfold LCheap short
    by_cases hq : aq.len > F.maxIns
    · obtain ⟨d, rfl⟩ : ∃ d', d = d' + 1 := by
        cases d with
        | zero => simp at hd; omega
        | succ d => exact ⟨d, rfl⟩
      have hd' := hd
      rw [pow_succ] at hd'
      obtain ⟨ca, cb, m2, m3, ea, eb, r, b⟩ := H.both hok (p := short F f d aq) (q := short F f (d + 1) ar')
        (fun h1 h2 => ih d aq m1 (by omega) hq (by omega) (by omega) h1 h2) (fun m2 h1 h2 => ih (d + 1) ar' m2 (by omega) (by omega) (by omega) (by omega) h1 h2)
      refine ⟨_, m3, glue (c := ca + cb) ?_, r, ?_⟩
      · dsimp only
        rw [if_pos hq]
        exact ea.bind eb
      · have := b (c0 + c1) (by omega)
        omega
    · by_cases hr : ar'.len > F.maxIns
      · obtain ⟨ca, cb, m2, m3, ea, eb, r, b⟩ := H.both hok (p := insertion F.key F.lt aq) (q := short F f d ar')
          (fun h1 _ => lcheap_insertion hF (by omega) h1) (fun m2 h1 h2 => ih d ar' m2 (by omega) (by omega) (by omega) (by omega) h1 h2)
        refine ⟨_, m3, glue (c := ca + cb) ?_, r, ?_⟩
        · dsimp only
          rw [if_neg hq]
          refine TRuns.bind (TRuns.brk (a := true) (m1 := m2) (n := ca) ?_) ?_
          · refine TRuns.bind (k := 0) ea ?_
            rw [if_pos hr]
            exact .ret _ _
          rw [if_pos rfl]
          exact eb
        · have := b (c0 + c1) (by omega)
          omega
      · obtain ⟨ca, cb, m2, m3, ea, eb, r, b⟩ := H.both hok (p := insertion F.key F.lt aq) (q := insertion F.key F.lt ar')
          (fun h1 _ => lcheap_insertion hF (by omega) h1) (fun m2 h1 h2 => lcheap_insertion hF (by omega) h1)
        refine ⟨_, m3, glue (c := ca + cb) ?_, r, ?_⟩
        · dsimp only
          rw [if_neg hq]
          refine TRuns.bind (k := 0) (a := false) (m1 := m3) ?_ (by rw [if_neg (by simp)]; exact .ret _ _)
          refine TRuns.again (s' := ar') (m1 := m2) (n := ca) (k := cb) ?_ (TRuns.brk ?_)
          · refine TRuns.bind (k := 0) ea ?_
            rw [if_neg hr]
            unfold Slice.addrNe
            rw [if_pos ⟨by omega, by omega⟩]
            show TRuns (if (ar'.off != aq.off) = true then _ else _) _ _ _ _
            rw [if_pos (by simp [hne])]
            exact .ret _ _
          · refine TRuns.bind (k := 0) eb ?_
            rw [if_neg hr]
            unfold Slice.addrNe
            rw [if_pos ⟨by omega, by omega⟩]
            show TRuns (if (ar'.off != ar'.off) = true then _ else _) _ _ _ _
            rw [if_neg (by simp)]
            exact .ret _ _
        · have := b (c0 + c1) (by omega)
          omega

theorem lay_long (hF : FamOK F ok rk) (h32 : F.maxRec < 2 ^ 32) : ∀ (f d : Nat) (ar : Slice) (m : Mem V), ar.len ≤ f →
    F.maxRec < ar.len → 2 * ar.len < 2 ^ d → (∀ a ∈ ar.rng, ok (F.key (m a))) → Lay (fun v => rk (F.key v)) ar m →
    LCheap F (long F f d ar false) ar m := by
  have h8 : 8 < F.maxIns := hF.ins
  have hrec := hF.recOK
  intro f
  induction f with
  | zero => intro d ar m h1 h2; omega
  | succ f ih =>
    intro d ar m hf hl hd hok hL
    obtain ⟨d, rfl⟩ : ∃ d', d = d' + 1 := by
      cases d with
      | zero => simp at hd; omega
      | succ d => exact ⟨d, rfl⟩
    have hd' := hd
    rw [pow_succ] at hd'
    obtain ⟨c0, pv, e0, b0, hpv, g, g1, g2, g3⟩ := runs_pivot hF (by omega) hok hL
    obtain ⟨c1, aq, ar', m1, e1, b1, H⟩ := runs_lay hF (by omega) hok hL hpv g1 g2 g3
    have hsum := H.split.sum
    have hle := H.split.le
    have hpos := H.split.pos
    have glue : ∀ {c m3} {k : Slice × Slice → Prog V (VSp κ) Unit}, TRuns (k (aq, ar')) m1 c () m3 →
        TRuns (do
          let pv ← pivot F ar F.nLong
          let i ← partOne F ar pv
          let x ← splitAt ar i
          k x : Prog V (VSp κ) Unit) m (c0 + (c1 + c)) () m3 := by
      intro c m3 k h
      refine e0.bind ?_
      have := e1.bind (f := k) h
      simp only [Prog.bind_def] at this ⊢
      rw [Prog.bind_assoc] at this
      exact this
    unfold LCheap long
    by_cases hq : aq.len ≤ F.maxRec
    · obtain ⟨ca, cb, m2, m3, ea, eb, r, b⟩ := H.both hok
        (p := if aq.len > F.maxIns then short F f d aq else insertion F.key F.lt aq)
        (q := if ar'.len > F.maxRec then long F f (d + 1) ar' false else short F f d ar')
        (fun h1 h2 => by
          split_ifs with hc
          · exact lay_short hF h32 f d aq m1 (by omega) hc (by omega) (by omega) h1 h2
          · exact lcheap_insertion hF (by omega) h1)
        (fun m2 h1 h2 => by
          split_ifs with hc
          · exact ih (d + 1) ar' m2 (by omega) hc (by omega) h1 h2
          · exact lay_short hF h32 f d ar' m2 (by omega) (by omega) (by omega) (by omega) h1 h2)
      refine ⟨_, m3, glue (c := ca + cb) ?_, r, ?_⟩
      · dsimp only
        rw [if_pos hq]
        by_cases hc : aq.len > F.maxIns
        · rw [if_pos hc] at ea ⊢
          exact ea.bind eb
        · rw [if_neg hc] at ea ⊢
          exact ea.bind eb
      · have := b (c0 + c1) (by omega)
        omega
    · obtain ⟨ca, cb, m2, m3, ea, eb, r, b⟩ := H.both hok (p := long F f d aq false) (q := long F f (d + 1) ar' false)
        (fun h1 h2 => ih d aq m1 (by omega) (by omega) (by omega) h1 h2)
        (fun m2 h1 h2 => ih (d + 1) ar' m2 (by omega) (by omega) (by omega) h1 h2)
      refine ⟨_, m3, glue (c := ca + cb) ?_, r, ?_⟩
      · dsimp only
        rw [if_neg hq]
        exact ea.bind eb
      · have := b (c0 + c1) (by omega)
        omega

end Sorty
