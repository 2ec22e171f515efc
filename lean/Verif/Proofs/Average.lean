import Verif.Proofs.ExchMid
import Verif.Proofs.Names
import Verif.Proofs.XLogX

/-! # The average cost of partitioning and sorting the parts -/

namespace Sorty

open Prog

variable {V κ : Type} {ρ : Type} [LinearOrder ρ] {r : V → ρ} {s : Slice} {𝓜 : Finset (Mem V)} {X Y : Finset Nat}

open Classical in
/-- on which side of the pivot the elements of the range are -/
noncomputable def sides (r : V → ρ) (s : Slice) (p : ρ) (m : Mem V) : Nat → Int := fun a => if a ∈ s.rng then side p (r (m a)) else 0

theorem sides_eq {p : ρ} {m : Mem V} {a : Nat} (ha : a ∈ s.rng) : sides r s p m a = side p (r (m a)) := by
  unfold sides
  rw [if_pos ha]

theorem side_zero {p x : ρ} : side p x = 0 ↔ x = p := by
  constructor
  · intro h
    exact le_antisymm (side_le.1 h.le) (le_side.1 h.ge)
  · rintro rfl
    simp [side]

theorem side_neg {p x : ρ} : side p x < 0 ↔ x < p := by
  rw [← not_le, le_side, not_le]

theorem side_pos {p x : ρ} : 0 < side p x ↔ p < x := by
  rw [← not_le, side_le, not_le]

/-- exchanging two elements on the same side changes no side -/
theorem Exch.same_side (h : Exch r s 𝓜 X Y) {Q : Finset Nat} {k : Nat} (hQc : Q.card = 2 * k + 1) {P : Mem V → ρ}
    (hP : ∀ m ∈ 𝓜, Middle r Q k m (P m)) {m : Mem V} (hm : m ∈ 𝓜) {x y : Nat} (hx : x ∈ s.rng) (hy : y ∈ s.rng)
    (h1 : x ∉ X) (h2 : x ∉ Y) (h3 : y ∉ X) (h4 : y ∉ Y)
    (hxy : (sides r s (P m) m x < 0 ∧ sides r s (P m) m y < 0) ∨ (0 < sides r s (P m) m x ∧ 0 < sides r s (P m) m y)) :
    m ∘ Equiv.swap x y ∈ 𝓜 ∧ sides r s (P (m ∘ Equiv.swap x y)) (m ∘ Equiv.swap x y) = sides r s (P m) m := by
  have hmem := h.swap m hm x hx y hy h1 h2 h3 h4
  rw [sides_eq hx, sides_eq hy, side_neg, side_neg, side_pos, side_pos] at hxy
  have key : ∀ a, side (P m) (r ((m ∘ Equiv.swap x y) a)) = side (P m) (r (m a)) := by
    intro a
    simp only [Function.comp_apply, Equiv.swap_apply_def]
    split_ifs with e1 e2
    · subst e1
      unfold side
      rcases hxy with ⟨g1, g2⟩ | ⟨g1, g2⟩
      · rw [if_pos g1, if_pos g2]
      · rw [if_neg g1.not_gt, if_neg g2.not_gt, if_pos g1, if_pos g2]
    · subst e2
      unfold side
      rcases hxy with ⟨g1, g2⟩ | ⟨g1, g2⟩
      · rw [if_pos g1, if_pos g2]
      · rw [if_neg g1.not_gt, if_neg g2.not_gt, if_pos g1, if_pos g2]
    · rfl
  have hmid : Middle r Q k (m ∘ Equiv.swap x y) (P m) := by
    constructor
    · rw [Finset.filter_congr (q := fun a => r (m a) ≤ P m) fun a _ => by rw [← side_le, key, side_le]]
      exact (hP m hm).le
    · rw [Finset.filter_congr (q := fun a => P m ≤ r (m a)) fun a _ => by rw [← le_side, key, le_side]]
      exact (hP m hm).ge
  rw [(hP _ hmem).unique hQc.le hmid]
  refine ⟨hmem, funext fun a => ?_⟩
  unfold sides
  split_ifs
  · exact key a
  · rfl

theorem comp_swap (m : Mem V) (τ : Equiv.Perm Nat) (x y : Nat) : (m ∘ τ) ∘ Equiv.swap x y = (m ∘ Equiv.swap (τ x) (τ y)) ∘ τ := by
  funext a
  have := congrArg (fun e : Equiv.Perm Nat => e a) (Equiv.mul_swap_eq_swap_mul τ x y)
  simp only [Equiv.Perm.mul_apply] at this
  simp only [Function.comp_apply, this]

open Classical in
/-- after partitioning, the order of each part is arbitrary among the memories with the same sides -/
theorem Exch.part (h : Exch r s 𝓜 X Y) {Q : Finset Nat} {k : Nat} (hQc : Q.card = 2 * k + 1) {P : Mem V → ρ}
    (hP : ∀ m ∈ 𝓜, Middle r Q k m (P m)) {π : Nat → Int} {τ : Equiv.Perm Nat} (hτ : ∀ i, i ∉ s.rng → τ i = i) {t : Slice} (ht : t.rng ⊆ s.rng)
    (hside : (∀ a ∈ t.rng, π (τ a) ≤ 0) ∨ ∀ a ∈ t.rng, 0 ≤ π (τ a)) :
    ∃ X' Y', Exch r t ((𝓜.filter fun m => sides r s (P m) m = π).image fun m => m ∘ τ) X' Y' := by
  have hin : ∀ {a}, a ∈ t.rng → τ a ∈ s.rng := fun ha => perm_mem hτ (ht ha)
  have hinj : ∀ m' ∈ (𝓜.filter fun m => sides r s (P m) m = π).image (fun m => m ∘ τ), ∀ i ∈ t.rng, ∀ j ∈ t.rng, r (m' i) = r (m' j) → i = j := by
    intro m' hm' i hi j hj e
    obtain ⟨m, hm, rfl⟩ := Finset.mem_image.1 hm'
    rw [Finset.mem_filter] at hm
    exact τ.injective (h.inj m hm.1 _ (hin hi) _ (hin hj) e)
  have hswap : ∀ m' ∈ (𝓜.filter fun m => sides r s (P m) m = π).image (fun m => m ∘ τ), ∀ x ∈ t.rng, ∀ y ∈ t.rng,
      τ x ∉ X → τ x ∉ Y → τ y ∉ X → τ y ∉ Y → ((π (τ x) < 0 ∧ π (τ y) < 0) ∨ (0 < π (τ x) ∧ 0 < π (τ y))) →
      m' ∘ Equiv.swap x y ∈ (𝓜.filter fun m => sides r s (P m) m = π).image (fun m => m ∘ τ) := by
    intro m' hm' x hx y hy h1 h2 h3 h4 h5
    obtain ⟨m, hm, rfl⟩ := Finset.mem_image.1 hm'
    rw [Finset.mem_filter] at hm
    rw [← hm.2] at h5
    obtain ⟨g1, g2⟩ := h.same_side hQc hP hm.1 (hin hx) (hin hy) h1 h2 h3 h4 h5
    rw [comp_swap]
    exact Finset.mem_image.2 ⟨_, Finset.mem_filter.2 ⟨g1, g2.trans hm.2⟩, rfl⟩
  rcases hside with hs | hs
  · refine ⟨t.fin.filter fun a => τ a ∈ X, t.fin.filter fun a => τ a ∈ Y ∨ π (τ a) = 0, hinj, ?_, ?_, ?_⟩
    · intro m' hm' x hx _ a ha
      obtain ⟨m, hm, rfl⟩ := Finset.mem_image.1 hm'
      rw [Finset.mem_filter] at hm hx
      exact h.bot m hm.1 _ hx.2 (hin (Slice.mem_fin.1 hx.1)) _ (hin ha)
    · intro m' hm' x hx _ a ha
      obtain ⟨m, hm, rfl⟩ := Finset.mem_image.1 hm'
      rw [Finset.mem_filter] at hm hx
      have hxs := hin (Slice.mem_fin.1 hx.1)
      rcases hx.2 with hy | h0
      · exact h.top m hm.1 _ hy hxs _ (hin ha)
      · have h1 := hs a ha
        rw [← hm.2, sides_eq (hin ha), side_le] at h1
        rw [← hm.2, sides_eq hxs, side_zero] at h0
        exact h1.trans_eq h0.symm
    · intro m' hm' x hx y hy h1 h2 h3 h4
      simp only [Finset.mem_filter, Slice.mem_fin, hx, hy, true_and, not_or] at h1 h2 h3 h4
      exact hswap m' hm' x hx y hy h1 h2.1 h3 h4.1 (.inl ⟨lt_of_le_of_ne (hs x hx) h2.2, lt_of_le_of_ne (hs y hy) h4.2⟩)
  · refine ⟨t.fin.filter fun a => τ a ∈ X ∨ π (τ a) = 0, t.fin.filter fun a => τ a ∈ Y, hinj, ?_, ?_, ?_⟩
    · intro m' hm' x hx _ a ha
      obtain ⟨m, hm, rfl⟩ := Finset.mem_image.1 hm'
      rw [Finset.mem_filter] at hm hx
      have hxs := hin (Slice.mem_fin.1 hx.1)
      rcases hx.2 with hy | h0
      · exact h.bot m hm.1 _ hy hxs _ (hin ha)
      · have h1 := hs a ha
        rw [← hm.2, sides_eq (hin ha), le_side] at h1
        rw [← hm.2, sides_eq hxs, side_zero] at h0
        exact h0.trans_le h1
    · intro m' hm' x hx _ a ha
      obtain ⟨m, hm, rfl⟩ := Finset.mem_image.1 hm'
      rw [Finset.mem_filter] at hm hx
      exact h.top m hm.1 _ hx.2 (hin (Slice.mem_fin.1 hx.1)) _ (hin ha)
    · intro m' hm' x hx y hy h1 h2 h3 h4
      simp only [Finset.mem_filter, Slice.mem_fin, hx, hy, true_and, not_or] at h1 h2 h3 h4
      exact hswap m' hm' x hx y hy h1.1 h2 h3.1 h4 (.inr ⟨lt_of_le_of_ne (hs x hx) (Ne.symm h1.2), lt_of_le_of_ne (hs y hy) (Ne.symm h3.2)⟩)

/-- the bound for `n` elements, insertion sort being used for up to `I` -/
noncomputable def avgB (I n : Nat) : ℝ := 10 * xlog n + (I + 23) * n - 22

theorem avgB_split {I k l : Nat} (hk : 0 < k) (hl : 0 < l) : avgB I k + avgB I l + 20 * (min k l : Nat) + 22 ≤ avgB I (k + l) := by
  have := xlog_split hk hl
  unfold avgB
  push_cast at this ⊢
  linarith

variable {F : Fam V κ} {ok : κ → Prop} {rk : κ → ρ}

/-- elements that are in order and different -/
structure Fit (F : Fam V κ) (ok : κ → Prop) (rk : κ → ρ) (s : Slice) (m : Mem V) : Prop where
  ok : ∀ a ∈ s.rng, ok (F.key (m a))
  inj : ∀ i ∈ s.rng, ∀ j ∈ s.rng, rk (F.key (m i)) = rk (F.key (m j)) → i = j

/-- `p` ends, having touched and rearranged only the range -/
def Ends (F : Fam V κ) (ok : κ → Prop) (rk : κ → ρ) (p : Prog V (VSp κ) Unit) (s : Slice) : Prop :=
  ∀ m, Fit F ok rk s m → ∃ c m', TIn s.rng p m c () m' ∧ RP s.rng m m'

/-- on average `p` costs at most `b` -/
def AvgLe (F : Fam V κ) (ok : κ → Prop) (rk : κ → ρ) (p : Prog V (VSp κ) Unit) (s : Slice) (b : ℝ) : Prop :=
  ∀ (𝓜 : Finset (Mem V)) (X Y : Finset Nat), Exch (fun v => rk (F.key v)) s 𝓜 X Y → (∀ m ∈ 𝓜, ∀ a ∈ s.rng, ok (F.key (m a))) →
    ∑ m ∈ 𝓜, (tcost p m : ℝ) ≤ 𝓜.card * b

omit [LinearOrder ρ] in
theorem RP.fit {m m' : Mem V} (h : RP s.rng m m') (hf : Fit F ok rk s m) {t : Slice} (ht : t.rng ⊆ s.rng) : Fit F ok rk t m' := by
  obtain ⟨σ, h1, h2⟩ := h
  refine ⟨fun a ha => ?_, fun i hi j hj e => ?_⟩
  · rw [h2]
    exact hf.ok _ (perm_mem h1 (ht ha))
  · rw [h2, h2] at e
    exact σ.injective (hf.inj _ (perm_mem h1 (ht hi)) _ (perm_mem h1 (ht hj)) e)

omit [LinearOrder ρ] in
theorem Agree.fit {t : Slice} {m m' : Mem V} (h : Agree t.rng m m') (hf : Fit F ok rk t m) : Fit F ok rk t m' :=
  ⟨fun a ha => by rw [← h a ha]; exact hf.ok a ha, fun i hi j hj e => by rw [← h i hi, ← h j hj] at e; exact hf.inj i hi j hj e⟩

/-- the two parts of a range split at `k` -/
def parts (s : Slice) (k : Nat) : Slice × Slice :=
  if k < s.len - k then (⟨s.off, k⟩, ⟨s.off + k, s.len - k⟩) else (⟨s.off + k, s.len - k⟩, ⟨s.off, k⟩)

theorem splitAt_eq {Sp : Type} {k : Int} (h0 : 0 ≤ k) (h1 : k ≤ s.len) : (splitAt s k : Prog V Sp (Slice × Slice)) = .ret (parts s k.toNat) := by
  have e1 : (s.sub 0 k : Prog V Sp Slice) = .ret ⟨s.off, k.toNat⟩ := by
    unfold Slice.sub
    rw [if_pos (by omega)]
    simp
  have e2 : (s.sub k s.len : Prog V Sp Slice) = .ret ⟨s.off + k.toNat, s.len - k.toNat⟩ := by
    unfold Slice.sub
    rw [if_pos (by omega)]
    congr 2
    omega
  unfold splitAt parts
  simp only [e1, e2]
  by_cases hc : k < s.len - k
  · rw [if_pos hc, if_pos (by omega)]
    rfl
  · rw [if_neg hc, if_neg (by omega)]
    rfl

theorem parts_cases (s : Slice) (k : Nat) : parts s k = (⟨s.off, k⟩, ⟨s.off + k, s.len - k⟩) ∨ parts s k = (⟨s.off + k, s.len - k⟩, ⟨s.off, k⟩) := by
  unfold parts
  split_ifs
  · exact .inl rfl
  · exact .inr rfl

/-- the median is not extreme -/
theorem mid_lower {Q : Finset Nat} (hQ : Q ⊆ s.fin) {k : Nat} (hk : 1 ≤ k) {m : Mem V} (hinj : ∀ i ∈ s.rng, ∀ j ∈ s.rng, r (m i) = r (m j) → i = j)
    {p : ρ} (h : Middle r Q k m p) : 0 < lower r s m p := by
  have h1 : 1 < (Q.filter fun x => r (m x) ≤ p).card := by have := h.le; omega
  obtain ⟨x, hx, y, hy, hne⟩ := Finset.one_lt_card.1 h1
  rw [Finset.mem_filter] at hx hy
  have hxs := Slice.mem_fin.1 (hQ hx.1)
  have hys := Slice.mem_fin.1 (hQ hy.1)
  have : ∃ z ∈ s.rng, r (m z) < p := by
    rcases hx.2.lt_or_eq with h2 | h2
    · exact ⟨x, hxs, h2⟩
    · rcases hy.2.lt_or_eq with h3 | h3
      · exact ⟨y, hys, h3⟩
      · exact absurd (hinj x hxs y hys (h2.trans h3.symm)) hne
  obtain ⟨z, hz, hzp⟩ := this
  unfold lower cnt
  exact Finset.card_pos.2 ⟨z, Finset.mem_filter.2 ⟨Finset.mem_Ico.2 hz, hzp⟩⟩

/-- elements below the pivot end up in the lower part -/
theorem lower_le {m : Mem V} {τ : Equiv.Perm Nat} (hτ : ∀ i, i ∉ s.rng → τ i = i) {p : ρ} {k : Nat} (hk : k ≤ s.len)
    (h : ∀ a, s.off + k ≤ a → a < s.off + s.len → p ≤ r (m (τ a))) : lower r s m p ≤ k := by
  unfold lower
  rw [← cnt_perm (r := fun v => r v < p) (m' := m ∘ τ) ⟨τ, hτ, fun _ _ => rfl⟩, ← cnt_add (b := s.off + k) (by omega) (by omega)]
  have h1 := cnt_le (P := fun a => r ((m ∘ τ) a) < p) (a := s.off) (b := s.off + k)
  have h2 : cnt (fun a => r ((m ∘ τ) a) < p) (s.off + k) (s.off + s.len) = 0 := by
    unfold cnt
    rw [Finset.card_eq_zero, Finset.filter_eq_empty_iff]
    intro a ha
    rw [Finset.mem_Ico] at ha
    exact not_lt.2 (h a ha.1 ha.2)
  omega

theorem upper_le {m : Mem V} {τ : Equiv.Perm Nat} (hτ : ∀ i, i ∉ s.rng → τ i = i) {p : ρ} {k : Nat} (hk : k ≤ s.len)
    (h : ∀ a, s.off ≤ a → a < s.off + k → r (m (τ a)) ≤ p) : upper r s m p ≤ s.len - k := by
  unfold upper lower
  rw [← cnt_perm (r := fun v => OrderDual.toDual (r v) < OrderDual.toDual p) (m' := m ∘ τ) ⟨τ, hτ, fun _ _ => rfl⟩,
    ← cnt_add (b := s.off + k) (by omega) (by omega)]
  have h1 := cnt_le (P := fun a => OrderDual.toDual (r ((m ∘ τ) a)) < OrderDual.toDual p) (a := s.off + k) (b := s.off + s.len)
  have h2 : cnt (fun a => OrderDual.toDual (r ((m ∘ τ) a)) < OrderDual.toDual p) s.off (s.off + k) = 0 := by
    unfold cnt
    rw [Finset.card_eq_zero, Finset.filter_eq_empty_iff]
    intro a ha
    rw [Finset.mem_Ico] at ha
    exact not_lt.2 (show r ((m ∘ τ) a) ≤ p from h a ha.1 ha.2)
  omega

open Classical in
/-- picking a pivot, partitioning and sorting the parts -/
theorem avg_round (hF : FamOK F ok rk) (h10 : 10 ≤ s.len) {Q : Finset Nat} (hQ : Q ⊆ s.fin) {h : Nat} (hh : h = 1 ∨ h = 2) (hQc : Q.card = 2 * h + 1)
    {Pv : Prog V (VSp κ) κ} (hPv : ∀ m, Fit F ok rk s m → ∃ c0 pv, TIn s.rng Pv m c0 pv m ∧ c0 ≤ 6 ∧ ok pv ∧ Middle (fun v => rk (F.key v)) Q h m (rk pv))
    {I : Nat} {K : Slice × Slice → Prog V (VSp κ) Unit} (p q : Nat → Prog V (VSp κ) Unit)
    (hK : ∀ k, 0 < k → k < s.len → ∀ {c1 c2 m1 m2 m3}, TIn s.rng (p k) m1 c1 () m2 → TIn s.rng (q k) m2 c2 () m3 → TIn s.rng (K (parts s k)) m1 (c1 + c2) () m3)
    (hp : ∀ k, 0 < k → k < s.len → Ends F ok rk (p k) (parts s k).1 ∧ AvgLe F ok rk (p k) (parts s k).1 (avgB I (parts s k).1.len))
    (hq : ∀ k, 0 < k → k < s.len → Ends F ok rk (q k) (parts s k).2 ∧ AvgLe F ok rk (q k) (parts s k).2 (avgB I (parts s k).2.len)) :
    Ends F ok rk (do
      let pv ← Pv
      let k ← partOne F s pv
      let x ← splitAt s k
      K x) s ∧
    AvgLe F ok rk (do
      let pv ← Pv
      let k ← partOne F s pv
      let x ← splitAt s k
      K x) s (avgB I s.len) := by
  have hPv' : ∀ m : Mem V, ∃ c0 pv, Fit F ok rk s m → TIn s.rng Pv m c0 pv m ∧ c0 ≤ 6 ∧ ok pv ∧ Middle (fun v => rk (F.key v)) Q h m (rk pv) := by
    intro m
    by_cases hf : Fit F ok rk s m
    · obtain ⟨c0, pv, h1⟩ := hPv m hf
      exact ⟨c0, pv, fun _ => h1⟩
    · exact ⟨0, F.key (m 0), fun h1 => absurd h1 hf⟩
  choose c0 pv hpv using hPv'
  set r : V → ρ := fun v => rk (F.key v) with hr
  choose c k τ hk0 hk1 hτ hlo hhi hpart using partOne_names (VSp κ) s
  have hps : ∀ k : Nat, k ≤ s.len → (parts s k).1.rng ⊆ s.rng ∧ (parts s k).2.rng ⊆ s.rng ∧ Disjoint (parts s k).1.rng (parts s k).2.rng := by
    intro k hk
    have h1 : (⟨s.off, k⟩ : Slice).rng ⊆ s.rng := by
      intro a ha
      simp only [Slice.rng, Set.mem_ofPred_eq] at ha ⊢
      omega
    have h2 : (⟨s.off + k, s.len - k⟩ : Slice).rng ⊆ s.rng := by
      intro a ha
      simp only [Slice.rng, Set.mem_ofPred_eq] at ha ⊢
      omega
    have h3 : Disjoint (⟨s.off, k⟩ : Slice).rng (⟨s.off + k, s.len - k⟩ : Slice).rng := by
      rw [Set.disjoint_left]
      intro a ha hb
      simp only [Slice.rng, Set.mem_ofPred_eq] at ha hb
      omega
    rcases parts_cases s k with e | e <;> rw [e]
    · exact ⟨h1, h2, h3⟩
    · exact ⟨h2, h1, h3.symm⟩
  -- one run
  have hrun : ∀ m, Fit F ok rk s m → ∀ π, sides r s (rk (pv m)) m = π →
      lower r s m (rk (pv m)) ≤ (k π).toNat ∧ upper r s m (rk (pv m)) ≤ s.len - (k π).toNat ∧ 0 < (k π).toNat ∧ (k π).toNat < s.len ∧
      ∃ m3 c', TIn s.rng (do
        let pv ← Pv
        let k ← partOne F s pv
        let x ← splitAt s k
        K x) m (c' + (tcost (p (k π).toNat) (m ∘ τ π) + tcost (q (k π).toNat) (m ∘ τ π))) () m3 ∧ RP s.rng m m3 ∧ c' ≤ 3 * s.len + 6 := by
    intro m hf π hπ
    obtain ⟨e0, b0, okp, hmid⟩ := hpv m hf
    have hs : ∀ a ∈ s.rng, π a = side (rk (pv m)) (rk (F.key (m a))) := fun a ha => by rw [← hπ, sides_eq ha]
    have e1 := hpart π hF okp hf.ok hs
    have k0 := hk0 π; have k1 := hk1 π
    have hτin : ∀ a, a ∈ s.rng → τ π a ∈ s.rng := fun a ha => perm_mem (hτ π) ha
    have l1 : lower r s m (rk (pv m)) ≤ (k π).toNat := by
      refine lower_le (hτ π) (by omega) fun a ha ha' => ?_
      have h1 := hhi π a ha ha'
      rwa [hs _ (hτin a ⟨by omega, ha'⟩), le_side] at h1
    have l2 : upper r s m (rk (pv m)) ≤ s.len - (k π).toNat := by
      refine upper_le (hτ π) (by omega) fun a ha ha' => ?_
      have h1 := hlo π a ha ha'
      rwa [hs _ (hτin a ⟨ha, by omega⟩), side_le] at h1
    have l3 : 0 < lower r s m (rk (pv m)) := mid_lower (r := r) (k := h) hQ (by omega) hf.inj hmid
    have l4 : 0 < upper r s m (rk (pv m)) :=
      mid_lower (r := fun v => OrderDual.toDual (r v)) (k := h) hQ (by omega) (fun i hi j hj e => hf.inj i hi j hj (OrderDual.toDual.injective e)) hmid.dual
    have g0 : 0 < (k π).toNat := by omega
    have g1 : (k π).toNat < s.len := by omega
    refine ⟨l1, l2, g0, g1, ?_⟩
    obtain ⟨s1, s2, s3⟩ := hps (k π).toNat g1.le
    have hrp : RP s.rng m (m ∘ τ π) := ⟨τ π, hτ π, fun _ => rfl⟩
    obtain ⟨ca, m2, ea, ra⟩ := (hp _ g0 g1).1 _ (hrp.fit hf s1)
    have ag : Agree (parts s (k π).toNat).2.rng (m ∘ τ π) m2 := ra.agree_of_disjoint s3
    have hfit2 := ag.fit (hrp.fit hf s2)
    obtain ⟨cb, m3, eb, rb⟩ := (hq _ g0 g1).1 _ hfit2
    obtain ⟨cb', m3', eb', -⟩ := (hq _ g0 g1).1 _ (hrp.fit hf s2)
    obtain ⟨m3'', eb'', -⟩ := eb'.frame ag
    have hcb := (eb''.runs.det eb.runs).1
    have t1 := tcost_eq ea.runs
    have t2 := tcost_eq eb'.runs
    refine ⟨m3, c0 m + c π, ?_, hrp.trans ((ra.mono s1).trans (rb.mono s2)), ?_⟩
    · rw [t1, t2, hcb, Nat.add_assoc]
      refine e0.bind (e1.bind ?_)
      rw [splitAt_eq k0 k1]
      exact hK _ g0 g1 (ea.mono s1) (eb.mono s2)
    · have := paid e1.runs (cost_partOne vmeter_wa)
      omega
  refine ⟨fun m hf => ?_, fun 𝓜 X Y hX hok => ?_⟩
  · obtain ⟨-, -, -, -, m3, c', e, hrp, -⟩ := hrun m hf _ rfl
    exact ⟨_, m3, e, hrp⟩
  have hfit : ∀ m ∈ 𝓜, Fit F ok rk s m := fun m hm => ⟨hok m hm, hX.inj m hm⟩
  have hP : ∀ m ∈ 𝓜, Middle r Q h m (rk (pv m)) := fun m hm => (hpv m (hfit m hm)).2.2.2
  have hfair := hX.fair h10 hQ hh hQc hP
  set S : Mem V → Nat → Int := fun m => sides r s (rk (pv m)) m with hS
  set G : Mem V → ℝ := fun m => (tcost (p (k (S m)).toNat) (m ∘ τ (S m)) : ℝ) + (tcost (q (k (S m)).toNat) (m ∘ τ (S m)) : ℝ) with hG
  set D : Mem V → ℝ := fun m => (min (lower r s m (rk (pv m))) (upper r s m (rk (pv m))) : Nat) with hD
  -- the parts
  have hclass : ∀ π ∈ 𝓜.image S, ∑ m ∈ 𝓜.filter (fun m => S m = π), G m ≤ ∑ m ∈ 𝓜.filter (fun m => S m = π), (avgB I s.len - 22 - 20 * D m) := by
    intro π hπ
    obtain ⟨m0, hm0, e0⟩ := Finset.mem_image.1 hπ
    obtain ⟨-, -, g0, g1, -⟩ := hrun m0 (hfit m0 hm0) π e0
    obtain ⟨s1, s2, s3⟩ := hps (k π).toNat g1.le
    have hinj : Function.Injective fun m : Mem V => m ∘ τ π := fun m m' e => by
      funext a
      have := congrFun e ((τ π).symm a)
      simpa using this
    have hlowp : ∀ a ∈ (⟨s.off, (k π).toNat⟩ : Slice).rng, π (τ π a) ≤ 0 := fun a ha => hlo π a ha.1 ha.2
    have hhighp : ∀ a ∈ (⟨s.off + (k π).toNat, s.len - (k π).toNat⟩ : Slice).rng, 0 ≤ π (τ π a) := fun a ha =>
      hhi π a ha.1 (by have := ha.2; dsimp only at this; omega)
    have half : ∀ (t : Slice) (z : Prog V (VSp κ) Unit), t.rng ⊆ s.rng → ((∀ a ∈ t.rng, π (τ π a) ≤ 0) ∨ ∀ a ∈ t.rng, 0 ≤ π (τ π a)) →
        AvgLe F ok rk z t (avgB I t.len) →
        ∑ m ∈ 𝓜.filter (fun m => S m = π), (tcost z (m ∘ τ π) : ℝ) ≤ (𝓜.filter fun m => S m = π).card * avgB I t.len := by
      intro t z ht hside hz
      obtain ⟨X', Y', hX'⟩ := hX.part hQc hP (hτ π) ht hside
      have := hz _ X' Y' hX' (by
        intro m' hm' a ha
        obtain ⟨m, hm, rfl⟩ := Finset.mem_image.1 hm'
        exact hok m (Finset.mem_filter.1 hm).1 _ (perm_mem (hτ π) (ht ha)))
      rwa [Finset.sum_image fun _ _ _ _ e => hinj e, Finset.card_image_of_injective _ hinj] at this
    have hsum : ∑ m ∈ 𝓜.filter (fun m => S m = π), G m =
        ∑ m ∈ 𝓜.filter (fun m => S m = π), (tcost (p (k π).toNat) (m ∘ τ π) : ℝ) + ∑ m ∈ 𝓜.filter (fun m => S m = π), (tcost (q (k π).toNat) (m ∘ τ π) : ℝ) := by
      rw [← Finset.sum_add_distrib]
      refine Finset.sum_congr rfl fun m hm => ?_
      simp only [hG, (Finset.mem_filter.1 hm).2]
    have hB : ((𝓜.filter fun m => S m = π).card : ℝ) * avgB I (parts s (k π).toNat).1.len + (𝓜.filter fun m => S m = π).card * avgB I (parts s (k π).toNat).2.len =
        (𝓜.filter fun m => S m = π).card * (avgB I (k π).toNat + avgB I (s.len - (k π).toNat)) := by
      rcases parts_cases s (k π).toNat with e | e <;> rw [e] <;> dsimp only <;> ring
    have h1 : ∑ m ∈ 𝓜.filter (fun m => S m = π), G m ≤ (𝓜.filter fun m => S m = π).card * (avgB I (k π).toNat + avgB I (s.len - (k π).toNat)) := by
      rw [hsum, ← hB]
      refine add_le_add (half _ _ s1 ?_ (hp _ g0 g1).2) (half _ _ s2 ?_ (hq _ g0 g1).2)
      · rcases parts_cases s (k π).toNat with e | e <;> rw [e]
        · exact .inl hlowp
        · exact .inr hhighp
      · rcases parts_cases s (k π).toNat with e | e <;> rw [e]
        · exact .inr hhighp
        · exact .inl hlowp
    refine h1.trans ?_
    rw [← nsmul_eq_mul, ← Finset.sum_const]
    refine Finset.sum_le_sum fun m hm => ?_
    rw [Finset.mem_filter] at hm
    obtain ⟨g2, g3, -⟩ := hrun m (hfit m hm.1) π hm.2
    have h2 := avgB_split (I := I) g0 (show 0 < s.len - (k π).toNat by omega)
    rw [show (k π).toNat + (s.len - (k π).toNat) = s.len by omega] at h2
    have h3 : D m ≤ ((min (k π).toNat (s.len - (k π).toNat) : Nat) : ℝ) := by
      simp only [hD]
      exact_mod_cast min_le_min g2 g3
    linarith
  have hparts : ∑ m ∈ 𝓜, G m ≤ ∑ m ∈ 𝓜, (avgB I s.len - 22 - 20 * D m) := by
    rw [← Finset.sum_fiberwise_of_maps_to (t := 𝓜.image S) (g := S) (fun m hm => Finset.mem_image_of_mem S hm) G,
      ← Finset.sum_fiberwise_of_maps_to (t := 𝓜.image S) (g := S) (fun m hm => Finset.mem_image_of_mem S hm) fun m => avgB I s.len - 22 - 20 * D m]
    exact Finset.sum_le_sum hclass
  have htot : ∀ m ∈ 𝓜, (tcost (do
      let pv ← Pv
      let k ← partOne F s pv
      let x ← splitAt s k
      K x : Prog V (VSp κ) Unit) m : ℝ) ≤ (3 * s.len + 6) + G m := by
    intro m hm
    obtain ⟨-, -, -, -, m3, c', e, -, hc'⟩ := hrun m (hfit m hm) _ rfl
    rw [tcost_eq e.runs]
    have : (c' : ℝ) ≤ 3 * s.len + 6 := by exact_mod_cast hc'
    simp only [hG]
    push_cast
    linarith
  refine (Finset.sum_le_sum htot).trans ?_
  rw [Finset.sum_add_distrib, Finset.sum_const, nsmul_eq_mul]
  rw [Finset.sum_sub_distrib, Finset.sum_const, nsmul_eq_mul, ← Finset.mul_sum] at hparts
  have hfair' : (𝓜.card : ℝ) * (3 * s.len - 16) ≤ 20 * ∑ m ∈ 𝓜, D m := by
    have h1 : ((𝓜.card * (3 * s.len - 16) : Nat) : ℝ) ≤ ((20 * ∑ m ∈ 𝓜, min (lower r s m (rk (pv m))) (upper r s m (rk (pv m))) : Nat) : ℝ) := Nat.cast_le.2 hfair
    rw [Nat.cast_mul, Nat.cast_sub (by omega), Nat.cast_mul 20, Nat.cast_sum] at h1
    push_cast at h1
    simp only [hD]
    push_cast
    linarith
  nlinarith

end Sorty
