import Verif.Proofs.AverageRun
import Verif.Proofs.ConNames

/-! # The cost of sorting a range, as a function of the memory, and its average -/

namespace Sorty

open Prog

variable {V κ : Type} {ρ : Type} [LinearOrder ρ] {r : V → ρ} {s : Slice} {𝓜 : Finset (Mem V)} {X Y : Finset Nat}
variable {F : Fam V κ} {ok : κ → Prop} {rk : κ → ρ}

/-- the median of the samples at `Q` -/
noncomputable def med (r : V → ρ) (Q : Finset Nat) (h : Nat) (m : Mem V) : ρ := @Classical.epsilon ρ ⟨r (m 0)⟩ fun p => Middle r Q h m p

theorem med_eq {Q : Finset Nat} {h : Nat} (hQ : Q.card = 2 * h + 1) {m : Mem V} {p : ρ} (hp : Middle r Q h m p) : med r Q h m = p :=
  Middle.unique hQ.le (@Classical.epsilon_spec ρ (fun p => Middle r Q h m p) ⟨p, hp⟩) hp

theorem med_congr {Q : Finset Nat} {h : Nat} {m m' : Mem V} (hm : ∀ a ∈ Q, m a = m' a) : med r Q h m = med r Q h m' := by
  have e : (fun p => Middle r Q h m p) = fun p => Middle r Q h m' p := by
    funext p
    have e1 : (Q.filter fun x => r (m x) ≤ p) = Q.filter fun x => r (m' x) ≤ p := Finset.filter_congr fun x hx => by rw [hm x hx]
    have e2 : (Q.filter fun x => p ≤ r (m x)) = Q.filter fun x => p ≤ r (m' x) := Finset.filter_congr fun x hx => by rw [hm x hx]
    refine propext ⟨fun h => ⟨?_, ?_⟩, fun h => ⟨?_, ?_⟩⟩
    · rw [← e1]; exact h.le
    · rw [← e2]; exact h.ge
    · rw [e1]; exact h.le
    · rw [e2]; exact h.ge
  unfold med
  rw [e]

theorem sides_congr {p : ρ} {m m' : Mem V} (h : Agree s.rng m m') : sides r s p m = sides r s p m' := by
  funext a
  unfold sides
  split_ifs with ha
  · rw [h a ha]
  · rfl

/-- on average `c` is at most `b` -/
def AvgC (F : Fam V κ) (ok : κ → Prop) (rk : κ → ρ) (c : Mem V → Nat) (s : Slice) (b : ℝ) : Prop :=
  ∀ (𝓜 : Finset (Mem V)) (X Y : Finset Nat), Exch (fun v => rk (F.key v)) s 𝓜 X Y → (∀ m ∈ 𝓜, ∀ a ∈ s.rng, ok (F.key (m a))) →
    ∑ m ∈ 𝓜, (c m : ℝ) ≤ 𝓜.card * b

/-- where a partition cuts -/
theorem cut_point {m : Mem V} (hinj : ∀ i ∈ s.rng, ∀ j ∈ s.rng, r (m i) = r (m j) → i = j) {Q : Finset Nat} (hQ : Q ⊆ s.fin) {h : Nat} (hh : 1 ≤ h)
    {p : ρ} (hmid : Middle r Q h m p) {π : Nat → Int} (hπ : ∀ a ∈ s.rng, π a = side p (r (m a))) {k : Nat} {τ : Equiv.Perm Nat} (hτ : ∀ i, i ∉ s.rng → τ i = i)
    (k1 : k ≤ s.len) (hlo : ∀ a, s.off ≤ a → a < s.off + k → π (τ a) ≤ 0) (hhi : ∀ a, s.off + k ≤ a → a < s.off + s.len → 0 ≤ π (τ a)) :
    lower r s m p ≤ k ∧ upper r s m p ≤ s.len - k ∧ 0 < k ∧ k < s.len := by
  have hτin : ∀ a, a ∈ s.rng → τ a ∈ s.rng := fun a ha => perm_mem hτ ha
  have l1 : lower r s m p ≤ k := by
    refine lower_le hτ k1 fun a ha ha' => ?_
    have h1 := hhi a ha ha'
    rwa [hπ _ (hτin a ⟨by omega, ha'⟩), le_side] at h1
  have l2 : upper r s m p ≤ s.len - k := by
    refine upper_le hτ k1 fun a ha ha' => ?_
    have h1 := hlo a ha ha'
    rwa [hπ _ (hτin a ⟨ha, by omega⟩), side_le] at h1
  have l3 : 0 < lower r s m p := mid_lower (r := r) (k := h) hQ hh hinj hmid
  have l4 : 0 < upper r s m p :=
    mid_lower (r := fun v => OrderDual.toDual (r v)) (k := h) hQ hh (fun i hi j hj e => hinj i hi j hj (OrderDual.toDual.injective e)) hmid.dual
  omega

theorem parts_sub {k : Nat} (hk : k ≤ s.len) : (parts s k).1.rng ⊆ s.rng ∧ (parts s k).2.rng ⊆ s.rng ∧ Disjoint (parts s k).1.rng (parts s k).2.rng := by
  have h1 : (⟨s.off, k⟩ : Slice).rng ⊆ s.rng := by
    intro a ha
    simp only [Slice.rng, Set.mem_ofPred_eq] at ha ⊢
    omega
  have h2 : (⟨s.off + k, s.len - k⟩ : Slice).rng ⊆ s.rng := by
    intro a ha
    simp only [Slice.rng, Set.mem_ofPred_eq] at ha ⊢
    omega
  have h3 : Disjoint (⟨s.off, k⟩ : Slice).rng (⟨s.off + k, s.len - k⟩ : Slice).rng := by
    rw [Set.disjoint_left]
    intro a ha hb
    simp only [Slice.rng, Set.mem_ofPred_eq] at ha hb
    omega
  rcases parts_cases s k with e | e <;> rw [e]
  · exact ⟨h1, h2, h3⟩
  · exact ⟨h2, h1, h3.symm⟩

open Classical in
/-- the average cost of the parts of a partition -/
theorem avg_split {Q : Finset Nat} (hQ : Q ⊆ s.fin) {h : Nat} (hh : 1 ≤ h) (hQc : Q.card = 2 * h + 1)
    (hX : Exch (fun v => rk (F.key v)) s 𝓜 X Y) (hok : ∀ m ∈ 𝓜, ∀ a ∈ s.rng, ok (F.key (m a))) {P : Mem V → ρ}
    (hP : ∀ m ∈ 𝓜, Middle (fun v => rk (F.key v)) Q h m (P m)) {k : (Nat → Int) → Nat} {τ : (Nat → Int) → Equiv.Perm Nat}
    (hτ : ∀ π, ∀ i, i ∉ s.rng → τ π i = i) (hk : ∀ π, k π ≤ s.len) (hlo : ∀ π a, s.off ≤ a → a < s.off + k π → π (τ π a) ≤ 0)
    (hhi : ∀ π a, s.off + k π ≤ a → a < s.off + s.len → 0 ≤ π (τ π a)) {cp cq : Slice → Mem V → Nat} {bp bq : Nat → ℝ}
    (hp : ∀ k, 0 < k → k < s.len → AvgC F ok rk (cp (parts s k).1) (parts s k).1 (bp (parts s k).1.len))
    (hq : ∀ k, 0 < k → k < s.len → AvgC F ok rk (cq (parts s k).2) (parts s k).2 (bq (parts s k).2.len)) {A B : ℝ} (hB : 0 ≤ B)
    (hAB : ∀ k, 0 < k → k < s.len → bp (parts s k).1.len + bq (parts s k).2.len ≤ A - B * (min k (s.len - k) : Nat)) :
    ∑ m ∈ 𝓜, ((cp (parts s (k (sides (fun v => rk (F.key v)) s (P m) m))).1 (m ∘ τ (sides (fun v => rk (F.key v)) s (P m) m)) : ℝ) +
      (cq (parts s (k (sides (fun v => rk (F.key v)) s (P m) m))).2 (m ∘ τ (sides (fun v => rk (F.key v)) s (P m) m)) : ℝ)) ≤
    𝓜.card * A - B * ∑ m ∈ 𝓜, ((min (lower (fun v => rk (F.key v)) s m (P m)) (upper (fun v => rk (F.key v)) s m (P m)) : Nat) : ℝ) := by
  set r : V → ρ := fun v => rk (F.key v) with hr
  set S : Mem V → Nat → Int := fun m => sides r s (P m) m with hS
  set G : Mem V → ℝ := fun m => (cp (parts s (k (S m))).1 (m ∘ τ (S m)) : ℝ) + (cq (parts s (k (S m))).2 (m ∘ τ (S m)) : ℝ) with hG
  set D : Mem V → ℝ := fun m => (min (lower r s m (P m)) (upper r s m (P m)) : Nat) with hD
  have hcut : ∀ m ∈ 𝓜, ∀ π, S m = π → lower r s m (P m) ≤ k π ∧ upper r s m (P m) ≤ s.len - k π ∧ 0 < k π ∧ k π < s.len := fun m hm π e =>
    cut_point (hX.inj m hm) hQ hh (hP m hm) (fun a ha => by rw [← e]; exact sides_eq ha) (hτ π) (hk π) (hlo π) (hhi π)
  have hclass : ∀ π ∈ 𝓜.image S, ∑ m ∈ 𝓜.filter (fun m => S m = π), G m ≤ ∑ m ∈ 𝓜.filter (fun m => S m = π), (A - B * D m) := by
    intro π hπ
    obtain ⟨m0, hm0, e0⟩ := Finset.mem_image.1 hπ
    obtain ⟨-, -, g0, g1⟩ := hcut m0 hm0 π e0
    obtain ⟨s1, s2, s3⟩ := parts_sub (s := s) g1.le
    have hinj : Function.Injective fun m : Mem V => m ∘ τ π := fun m m' e => by
      funext a
      have := congrFun e ((τ π).symm a)
      simpa using this
    have hlowp : ∀ a ∈ (⟨s.off, k π⟩ : Slice).rng, π (τ π a) ≤ 0 := fun a ha => hlo π a ha.1 ha.2
    have hhighp : ∀ a ∈ (⟨s.off + k π, s.len - k π⟩ : Slice).rng, 0 ≤ π (τ π a) := fun a ha =>
      hhi π a ha.1 (by have := ha.2; dsimp only at this; omega)
    have half : ∀ (t : Slice) (z : Mem V → Nat) (b : ℝ), t.rng ⊆ s.rng → ((∀ a ∈ t.rng, π (τ π a) ≤ 0) ∨ ∀ a ∈ t.rng, 0 ≤ π (τ π a)) →
        AvgC F ok rk z t b → ∑ m ∈ 𝓜.filter (fun m => S m = π), (z (m ∘ τ π) : ℝ) ≤ (𝓜.filter fun m => S m = π).card * b := by
      intro t z b ht hside hz
      obtain ⟨X', Y', hX'⟩ := hX.part hQc hP (hτ π) ht hside
      have := hz _ X' Y' hX' (by
        intro m' hm' a ha
        obtain ⟨m, hm, rfl⟩ := Finset.mem_image.1 hm'
        exact hok m (Finset.mem_filter.1 hm).1 _ (perm_mem (hτ π) (ht ha)))
      rwa [Finset.sum_image fun _ _ _ _ e => hinj e, Finset.card_image_of_injective _ hinj] at this
    have hsum : ∑ m ∈ 𝓜.filter (fun m => S m = π), G m =
        ∑ m ∈ 𝓜.filter (fun m => S m = π), (cp (parts s (k π)).1 (m ∘ τ π) : ℝ) + ∑ m ∈ 𝓜.filter (fun m => S m = π), (cq (parts s (k π)).2 (m ∘ τ π) : ℝ) := by
      rw [← Finset.sum_add_distrib]
      refine Finset.sum_congr rfl fun m hm => ?_
      simp only [hG, (Finset.mem_filter.1 hm).2]
    have h1 : ∑ m ∈ 𝓜.filter (fun m => S m = π), G m ≤ (𝓜.filter fun m => S m = π).card * (bp (parts s (k π)).1.len + bq (parts s (k π)).2.len) := by
      rw [hsum, mul_add]
      refine add_le_add (half _ _ _ s1 ?_ (hp _ g0 g1)) (half _ _ _ s2 ?_ (hq _ g0 g1))
      · rcases parts_cases s (k π) with e | e <;> rw [e]
        · exact .inl hlowp
        · exact .inr hhighp
      · rcases parts_cases s (k π) with e | e <;> rw [e]
        · exact .inr hhighp
        · exact .inl hlowp
    refine h1.trans ?_
    rw [← nsmul_eq_mul, ← Finset.sum_const]
    refine Finset.sum_le_sum fun m hm => ?_
    rw [Finset.mem_filter] at hm
    obtain ⟨g2, g3, -⟩ := hcut m hm.1 π hm.2
    have h2 := hAB _ g0 g1
    have h3 : D m ≤ ((min (k π) (s.len - k π) : Nat) : ℝ) := by
      simp only [hD]
      exact_mod_cast min_le_min g2 g3
    have h4 := mul_le_mul_of_nonneg_left h3 hB
    linarith
  have hparts : ∑ m ∈ 𝓜, G m ≤ ∑ m ∈ 𝓜, (A - B * D m) := by
    rw [← Finset.sum_fiberwise_of_maps_to (t := 𝓜.image S) (g := S) (fun m hm => Finset.mem_image_of_mem S hm) G,
      ← Finset.sum_fiberwise_of_maps_to (t := 𝓜.image S) (g := S) (fun m hm => Finset.mem_image_of_mem S hm) fun m => A - B * D m]
    exact Finset.sum_le_sum hclass
  rwa [Finset.sum_sub_distrib, Finset.sum_const, nsmul_eq_mul, ← Finset.mul_sum] at hparts

theorem OneBy.low {Sp : Type} {π : Nat → Int} {x : Nat × Int × Equiv.Perm Nat} (h : OneBy Sp s π x) :
    ∀ a, s.off ≤ a → a < s.off + x.2.1.toNat → π (x.2.2 a) ≤ 0 := by
  intro a ha ha'
  have k0 := h.post.k0
  have := h.post.low ((a - s.off : Nat) : Int) (by omega) (by omega)
  unfold Slice.E at this
  rwa [Int.toNat_natCast, show s.off + (a - s.off) = a by omega] at this

theorem OneBy.high {Sp : Type} {π : Nat → Int} {x : Nat × Int × Equiv.Perm Nat} (h : OneBy Sp s π x) :
    ∀ a, s.off + x.2.1.toNat ≤ a → a < s.off + s.len → 0 ≤ π (x.2.2 a) := by
  intro a ha ha'
  have k0 := h.post.k0
  have := h.post.high ((a - s.off : Nat) : Int) (by omega) (by omega)
  unfold Slice.E at this
  rwa [Int.toNat_natCast, show s.off + (a - s.off) = a by omega] at this

theorem OneBy.le {Sp : Type} {π : Nat → Int} {x : Nat × Int × Equiv.Perm Nat} (h : OneBy Sp s π x) : x.2.1.toNat ≤ s.len := by
  have := h.post.k1
  omega

/-- half the number of samples: five for long ranges, three for short ones -/
def nHalf (F : Fam V κ) (n : Nat) : Nat := if n > F.maxRec then 2 else 1

/-- how partitioning a range in one goroutine goes -/
noncomputable def cutOf (F : Fam V κ) (rk : κ → ρ) (s : Slice) (m : Mem V) : Nat × Int × Equiv.Perm Nat :=
  pOne κ s (sides (fun v => rk (F.key v)) s (med (fun v => rk (F.key v)) (smp s (2 * nHalf F s.len + 1)) (nHalf F s.len) m) m)

/-- the cost of sorting a range in one goroutine -/
noncomputable def lcost (F : Fam V κ) (rk : κ → ρ) (s : Slice) (m : Mem V) : Nat :=
  if s.len ≤ F.maxIns then s.len * (s.len + 1)
  else if h : 0 < (cutOf F rk s m).2.1.toNat ∧ (cutOf F rk s m).2.1.toNat < s.len then
    3 * s.len + 6 + (lcost F rk (parts s (cutOf F rk s m).2.1.toNat).1 (m ∘ (cutOf F rk s m).2.2) +
      lcost F rk (parts s (cutOf F rk s m).2.1.toNat).2 (m ∘ (cutOf F rk s m).2.2))
  else 0
termination_by s.len
decreasing_by
  all_goals have := parts_len h.1 h.2; omega

theorem cutOf_congr {m m' : Mem V} (h7 : 10 ≤ s.len) (h : Agree s.rng m m') : cutOf F rk s m = cutOf F rk s m' := by
  unfold cutOf
  have h1 : 2 ≤ 2 * nHalf F s.len + 1 ∧ 2 * (2 * nHalf F s.len + 1) ≤ s.len := by
    unfold nHalf
    split_ifs <;> omega
  rw [med_congr fun a ha => h a (Slice.mem_fin.1 (smp_sub h1.1 h1.2 ha)), sides_congr h]

theorem agree_perm {t : Slice} (ht : t.rng ⊆ s.rng) {τ : Equiv.Perm Nat} (hτ : ∀ i, i ∉ s.rng → τ i = i) {m m' : Mem V} (h : Agree s.rng m m') :
    Agree t.rng (m ∘ τ) (m' ∘ τ) := fun _ ha => h _ (perm_mem hτ (ht ha))

theorem lcost_congr (h8 : 8 < F.maxIns) {s : Slice} {m m' : Mem V} (h : Agree s.rng m m') : lcost F rk s m = lcost F rk s m' := by
  induction hn : s.len using Nat.strong_induction_on generalizing s m m' with
  | _ n ih =>
    have hb := pOne_by κ s (sides (fun v => rk (F.key v)) s (med (fun v => rk (F.key v)) (smp s (2 * nHalf F s.len + 1)) (nHalf F s.len) m) m)
    have hb' : ∀ i, i ∉ s.rng → (cutOf F rk s m).2.2 i = i := hb.fix
    by_cases h1 : s.len ≤ F.maxIns
    · rw [lcost, if_pos h1, lcost, if_pos h1]
    · have e := cutOf_congr (F := F) (rk := rk) (by omega) h
      by_cases h2 : 0 < (cutOf F rk s m).2.1.toNat ∧ (cutOf F rk s m).2.1.toNat < s.len
      · rw [lcost, if_neg h1, dif_pos h2]
        conv_rhs => rw [lcost, if_neg h1, dif_pos (e ▸ h2), ← e]
        obtain ⟨l1, l2, l3, -⟩ := parts_len h2.1 h2.2
        obtain ⟨s1, s2, -⟩ := parts_sub (s := s) h2.2.le
        rw [ih _ (by omega) (agree_perm s1 hb' h) rfl, ih _ (by omega) (agree_perm s2 hb' h) rfl]
      · rw [lcost, if_neg h1, dif_neg h2]
        conv_rhs => rw [lcost, if_neg h1, dif_neg (e ▸ h2)]

/-- the pivot of the program is the median -/
theorem mid_any (hF : FamOK F ok rk) (hmean : F.mean = none) (hlen : 10 ≤ s.len) {m : Mem V} (hf : Fit F ok rk s m) :
    Middle (fun v => rk (F.key v)) (smp s (2 * nHalf F s.len + 1)) (nHalf F s.len) m
      (med (fun v => rk (F.key v)) (smp s (2 * nHalf F s.len + 1)) (nHalf F s.len) m) := by
  unfold nHalf
  split_ifs
  · obtain ⟨_, pv, -, -, -, h⟩ := mid_long hF hmean hlen m hf
    exact @Classical.epsilon_spec ρ (fun p => Middle (fun v => rk (F.key v)) (smp s 5) 2 m p) ⟨_, h⟩
  · obtain ⟨_, pv, -, -, -, h⟩ := mid_short hF hmean hlen m hf
    exact @Classical.epsilon_spec ρ (fun p => Middle (fun v => rk (F.key v)) (smp s 3) 1 m p) ⟨_, h⟩

theorem smp_ok (h : 10 ≤ s.len) : smp s (2 * nHalf F s.len + 1) ⊆ s.fin ∧ (smp s (2 * nHalf F s.len + 1)).card = 2 * nHalf F s.len + 1 ∧
    1 ≤ nHalf F s.len ∧ (nHalf F s.len = 1 ∨ nHalf F s.len = 2) := by
  have h1 : 2 ≤ 2 * nHalf F s.len + 1 ∧ 2 * (2 * nHalf F s.len + 1) ≤ s.len ∧ 1 ≤ nHalf F s.len ∧ (nHalf F s.len = 1 ∨ nHalf F s.len = 2) := by
    unfold nHalf
    split_ifs <;> omega
  exact ⟨smp_sub h1.1 h1.2.1, smp_card h1.1 h1.2.1, h1.2.2⟩

theorem cutOf_bounds (hF : FamOK F ok rk) (hmean : F.mean = none) (hlen : 10 ≤ s.len) {m : Mem V} (hf : Fit F ok rk s m) :
    0 < (cutOf F rk s m).2.1.toNat ∧ (cutOf F rk s m).2.1.toNat < s.len := by
  obtain ⟨q1, q2, q3, -⟩ := smp_ok (F := F) hlen
  have hb := pOne_by κ s (sides (fun v => rk (F.key v)) s (med (fun v => rk (F.key v)) (smp s (2 * nHalf F s.len + 1)) (nHalf F s.len) m) m)
  exact (cut_point (r := fun v => rk (F.key v)) (m := m) hf.inj q1 q3 (mid_any hF hmean hlen hf) (fun a ha => sides_eq ha) hb.fix hb.le hb.low hb.high).2.2

/-- the cost of a range above the insertion sort limit -/
theorem lcost_eq (hF : FamOK F ok rk) (hmean : F.mean = none) (hlen : F.maxIns < s.len) {m : Mem V} (hf : Fit F ok rk s m) :
    lcost F rk s m = 3 * s.len + 6 + (lcost F rk (parts s (cutOf F rk s m).2.1.toNat).1 (m ∘ (cutOf F rk s m).2.2) +
      lcost F rk (parts s (cutOf F rk s m).2.1.toNat).2 (m ∘ (cutOf F rk s m).2.2)) := by
  have h8 : 8 < F.maxIns := hF.ins
  rw [lcost, if_neg (by omega), dif_pos (cutOf_bounds hF hmean (by omega) hf)]

open Classical in
/-- the average -/
theorem lcost_avg (hF : FamOK F ok rk) (hmean : F.mean = none) {s : Slice} (hs : 1 ≤ s.len) : AvgC F ok rk (lcost F rk s) s (avgB F.maxIns s.len) := by
  have h8 : 8 < F.maxIns := hF.ins
  induction hn : s.len using Nat.strong_induction_on generalizing s with
  | _ n ih =>
    intro 𝓜 X Y hX hok
    rw [← hn]
    have hfit : ∀ m ∈ 𝓜, Fit F ok rk s m := fun m hm => ⟨hok m hm, hX.inj m hm⟩
    by_cases hc : s.len ≤ F.maxIns
    · rw [← nsmul_eq_mul, ← Finset.sum_const]
      refine Finset.sum_le_sum fun m hm => ?_
      rw [lcost, if_pos hc]
      have a2 : (s.len : ℝ) ≤ F.maxIns := by exact_mod_cast hc
      have a3 : (1 : ℝ) ≤ s.len := by exact_mod_cast hs
      have a4 := xlog_nonneg s.len
      unfold avgB
      push_cast
      nlinarith
    · obtain ⟨q1, q2, q3, q4⟩ := smp_ok (s := s) (F := F) (by omega)
      have hP : ∀ m ∈ 𝓜, Middle (fun v => rk (F.key v)) (smp s (2 * nHalf F s.len + 1)) (nHalf F s.len) m
          (med (fun v => rk (F.key v)) (smp s (2 * nHalf F s.len + 1)) (nHalf F s.len) m) := fun m hm => mid_any hF hmean (by omega) (hfit m hm)
      have hfair := hX.fair (by omega) q1 q4 q2 hP
      have hpn : ∀ k, 0 < k → k < s.len → (parts s k).1.len = min k (s.len - k) ∧ (parts s k).2.len = s.len - min k (s.len - k) := by
        intro k k0 k1
        unfold parts
        split_ifs <;> dsimp only <;> omega
      have hsp := avg_split (B := 20) (A := avgB F.maxIns s.len - 22) (bp := fun n => avgB F.maxIns n) (bq := fun n => avgB F.maxIns n) q1 q3 q2 hX hok hP
        (k := fun π => (pOne κ s π).2.1.toNat) (τ := fun π => (pOne κ s π).2.2) (fun π => (pOne_by κ s π).fix) (fun π => (pOne_by κ s π).le)
        (fun π => (pOne_by κ s π).low) (fun π => (pOne_by κ s π).high) (cp := lcost F rk) (cq := lcost F rk) (by
          intro k k0 k1
          obtain ⟨l1, l2, l3, -⟩ := parts_len k0 k1
          exact ih _ (by omega) (by omega) rfl) (by
          intro k k0 k1
          obtain ⟨l1, l2, l3, -⟩ := parts_len k0 k1
          exact ih _ (by omega) (by omega) rfl) (by norm_num) (by
          intro k k0 k1
          obtain ⟨e1, e2⟩ := hpn k k0 k1
          have := avgB_split (I := F.maxIns) (k := min k (s.len - k)) (l := s.len - min k (s.len - k)) (by omega) (by omega)
          rw [show min k (s.len - k) + (s.len - min k (s.len - k)) = s.len by omega,
            show min (min k (s.len - k)) (s.len - min k (s.len - k)) = min k (s.len - k) by omega] at this
          rw [e1, e2]
          linarith)
      have htot : ∀ m ∈ 𝓜, (lcost F rk s m : ℝ) = (3 * s.len + 6) + (((lcost F rk (parts s (cutOf F rk s m).2.1.toNat).1 (m ∘ (cutOf F rk s m).2.2) : Nat) : ℝ) +
          ((lcost F rk (parts s (cutOf F rk s m).2.1.toNat).2 (m ∘ (cutOf F rk s m).2.2) : Nat) : ℝ)) := by
        intro m hm
        rw [lcost_eq hF hmean (by omega) (hfit m hm)]
        push_cast
        ring
      rw [Finset.sum_congr rfl htot, Finset.sum_add_distrib, Finset.sum_const, nsmul_eq_mul]
      have hfair' : (𝓜.card : ℝ) * (3 * s.len - 16) ≤ 20 * ∑ m ∈ 𝓜, ((min (lower (fun v => rk (F.key v)) s m (med (fun v => rk (F.key v)) (smp s (2 * nHalf F s.len + 1)) (nHalf F s.len) m))
          (upper (fun v => rk (F.key v)) s m (med (fun v => rk (F.key v)) (smp s (2 * nHalf F s.len + 1)) (nHalf F s.len) m)) : Nat) : ℝ) := by
        have h1 := (Nat.cast_le (α := ℝ)).2 hfair
        rw [Nat.cast_mul, Nat.cast_sub (by omega), Nat.cast_mul 20, Nat.cast_sum] at h1
        push_cast at h1 ⊢
        linarith
      have hsp' : ∑ m ∈ 𝓜, (((lcost F rk (parts s (cutOf F rk s m).2.1.toNat).1 (m ∘ (cutOf F rk s m).2.2) : Nat) : ℝ) +
          ((lcost F rk (parts s (cutOf F rk s m).2.1.toNat).2 (m ∘ (cutOf F rk s m).2.2) : Nat) : ℝ)) ≤ _ := hsp
      nlinarith

theorem mid_con (hF : FamOK F ok rk) (hmean : F.mean = none) (hlen : 14 ≤ s.len) {m : Mem V} (hf : Fit F ok rk s m) :
    ∃ c0 pv, TIn s.rng (pivot F s F.nConc : Prog V (VSp κ) κ) m c0 pv m ∧ c0 ≤ 7 ∧ ok pv ∧ Middle (fun v => rk (F.key v)) (smp s 7) 3 m (rk pv) := by
  have e : F.nConc = 7 := by
    unfold Fam.nConc nsConc
    rw [hmean]
    rfl
  rw [e]
  obtain ⟨c0, pv, m0, e0, em, hp, σ, s', h⟩ := tin_of (A := s.rng) (fun _ _ _ _ _ h => h)
    (pivot_mid (Sp := VSp κ) (cmp := fun _ _ _ _ _ => False) (W := s.rng) (R := ∅) hF (by simp) (by omega : 2 ≤ 7) (by omega) hf.ok)
  rw [em] at e0
  obtain ⟨h1, h2⟩ := h.half (by omega) (by omega) (.inl hmean)
  have := paid e0.runs (cost_pivot rfl _)
  exact ⟨c0, pv, e0, by omega, hp, half_card (A := fun c => rk (F.key c) ≤ rk pv) (by omega) (by omega) (by omega) h1,
    half_card (A := fun c => rk pv ≤ rk (F.key c)) (by omega) (by omega) (by omega) h2⟩

/-- how concurrent partitioning goes, given the sides -/
structure ConRun where
  c2 : Nat
  r : Int
  τ2 : Equiv.Perm Nat
  c3 : Nat
  k : Int
  τ : Equiv.Perm Nat

/-- how concurrent partitioning goes, given the sides -/
noncomputable def pCon (Sp : Type) (s : Slice) (π : Nat → Int) : ConRun :=
  @Classical.epsilon ConRun ⟨⟨0, 0, 1, 0, 0, 1⟩⟩ fun x => ConBy Sp s π x.c2 x.r x.τ2 x.c3 x.k x.τ

theorem pCon_by (Sp : Type) (hl : 8 ≤ s.len) (π : Nat → Int) :
    ConBy Sp s π (pCon Sp s π).c2 (pCon Sp s π).r (pCon Sp s π).τ2 (pCon Sp s π).c3 (pCon Sp s π).k (pCon Sp s π).τ := by
  obtain ⟨c2, r, τ2, c3, k, τ, h⟩ := con_by Sp hl π
  exact @Classical.epsilon_spec ConRun (fun x => ConBy Sp s π x.c2 x.r x.τ2 x.c3 x.k x.τ) ⟨⟨c2, r, τ2, c3, k, τ⟩, h⟩

theorem pCon_le (Sp : Type) (hl : 8 ≤ s.len) (π : Nat → Int) : (pCon Sp s π).k.toNat ≤ s.len := by
  have := (pCon_by Sp hl π).k1
  omega

/-- how partitioning a range concurrently goes -/
noncomputable def conOf (F : Fam V κ) (rk : κ → ρ) (s : Slice) (m : Mem V) : ConRun :=
  pCon κ s (sides (fun v => rk (F.key v)) s (med (fun v => rk (F.key v)) (smp s 7) 3 m) m)

/-- the cost of sorting a range concurrently, at most, whatever the others do -/
noncomputable def ucost (F : Fam V κ) (rk : κ → ρ) (s : Slice) (m : Mem V) : Nat :=
  if h : 0 < (conOf F rk s m).k.toNat ∧ (conOf F rk s m).k.toNat < s.len then
    3 * s.len + 5 * ((s.len + 3) / 4) + 7 + (lcost F rk (parts s (conOf F rk s m).k.toNat).1 (m ∘ (conOf F rk s m).τ) +
      (lcost F rk (parts s (conOf F rk s m).k.toNat).2 (m ∘ (conOf F rk s m).τ) +
        if 2 * (F.maxRec + 1) ≤ (parts s (conOf F rk s m).k.toNat).2.len then ucost F rk (parts s (conOf F rk s m).k.toNat).2 (m ∘ (conOf F rk s m).τ) else 0))
  else 0
termination_by s.len
decreasing_by
  all_goals have := parts_len h.1 h.2; omega

theorem conOf_congr {m m' : Mem V} (hl : 14 ≤ s.len) (h : Agree s.rng m m') : conOf F rk s m = conOf F rk s m' := by
  unfold conOf
  rw [med_congr fun a ha => h a (Slice.mem_fin.1 (smp_sub (by omega) (by omega) ha)), sides_congr h]

theorem ucost_congr (hF : FamOK F ok rk) {s : Slice} (hs : 2 * (F.maxRec + 1) ≤ s.len) {m m' : Mem V} (h : Agree s.rng m m') :
    ucost F rk s m = ucost F rk s m' := by
  have h8 : 8 < F.maxIns := hF.ins
  have hrec := hF.recOK
  induction hn : s.len using Nat.strong_induction_on generalizing s m m' with
  | _ n ih =>
    have hb := pCon_by κ (s := s) (by omega) (sides (fun v => rk (F.key v)) s (med (fun v => rk (F.key v)) (smp s 7) 3 m) m)
    have hb' : ∀ i, i ∉ s.rng → (conOf F rk s m).τ i = i := hb.fix
    have e := conOf_congr (F := F) (rk := rk) (by omega) h
    by_cases h2 : 0 < (conOf F rk s m).k.toNat ∧ (conOf F rk s m).k.toNat < s.len
    · rw [ucost, dif_pos h2]
      conv_rhs => rw [ucost, dif_pos (e ▸ h2), ← e]
      obtain ⟨l1, l2, l3, -⟩ := parts_len h2.1 h2.2
      obtain ⟨s1, s2, -⟩ := parts_sub (s := s) h2.2.le
      rw [lcost_congr h8 (agree_perm s1 hb' h), lcost_congr h8 (agree_perm s2 hb' h)]
      congr 3
      split_ifs with h3
      · exact ih _ (by omega) h3 (agree_perm s2 hb' h) rfl
      · rfl
    · rw [ucost, dif_neg h2]
      conv_rhs => rw [ucost, dif_neg (e ▸ h2)]

theorem mid_conc (hF : FamOK F ok rk) (hmean : F.mean = none) (hlen : 14 ≤ s.len) {m : Mem V} (hf : Fit F ok rk s m) :
    Middle (fun v => rk (F.key v)) (smp s 7) 3 m (med (fun v => rk (F.key v)) (smp s 7) 3 m) := by
  obtain ⟨_, pv, -, -, -, h⟩ := mid_con hF hmean hlen hf
  exact @Classical.epsilon_spec ρ (fun p => Middle (fun v => rk (F.key v)) (smp s 7) 3 m p) ⟨_, h⟩

theorem conOf_bounds (hF : FamOK F ok rk) (hmean : F.mean = none) (hlen : 14 ≤ s.len) {m : Mem V} (hf : Fit F ok rk s m) :
    0 < (conOf F rk s m).k.toNat ∧ (conOf F rk s m).k.toNat < s.len := by
  have hb := pCon_by κ (s := s) (by omega) (sides (fun v => rk (F.key v)) s (med (fun v => rk (F.key v)) (smp s 7) 3 m) m)
  exact (cut_point (r := fun v => rk (F.key v)) (m := m) (h := 3) hf.inj (smp_sub (N := 7) (by omega) (by omega)) (by omega) (mid_conc hF hmean hlen hf)
    (fun a ha => sides_eq ha) hb.fix (pCon_le κ (by omega) _) hb.low hb.high).2.2

theorem ucost_eq (hF : FamOK F ok rk) (hmean : F.mean = none) (hlen : 14 ≤ s.len) {m : Mem V} (hf : Fit F ok rk s m) :
    ucost F rk s m = 3 * s.len + 5 * ((s.len + 3) / 4) + 7 + (lcost F rk (parts s (conOf F rk s m).k.toNat).1 (m ∘ (conOf F rk s m).τ) +
      (lcost F rk (parts s (conOf F rk s m).k.toNat).2 (m ∘ (conOf F rk s m).τ) +
        if 2 * (F.maxRec + 1) ≤ (parts s (conOf F rk s m).k.toNat).2.len then ucost F rk (parts s (conOf F rk s m).k.toNat).2 (m ∘ (conOf F rk s m).τ) else 0)) := by
  rw [ucost, dif_pos (conOf_bounds hF hmean hlen hf)]

theorem avgB_nonneg {I n : Nat} (hn : 1 ≤ n) : 0 ≤ avgB I n := by
  have h1 := xlog_nonneg n
  have h2 : (1 : ℝ) ≤ n := by exact_mod_cast hn
  have h3 : (0 : ℝ) ≤ (I : ℝ) := Nat.cast_nonneg _
  unfold avgB
  nlinarith

/-- the bound grows faster than the length -/
theorem avgB_ratio {I l n : Nat} (hl : 1 ≤ l) (hn : l ≤ n) : n * avgB I l ≤ l * avgB I n := by
  have h1 : (1 : ℝ) ≤ l := by exact_mod_cast hl
  have h2 : (l : ℝ) ≤ n := by exact_mod_cast hn
  have h3 : (n : ℝ) * xlog l ≤ l * xlog n := by
    unfold xlog
    have := Real.logb_le_logb_of_le (b := 2) (by norm_num) (by linarith) h2
    have h4 : (0 : ℝ) ≤ n * l := by nlinarith
    nlinarith
  unfold avgB
  nlinarith

theorem avgB_cut {I n x : Nat} (h0 : 0 < x) (h1 : x < n) :
    avgB I x + 10 * avgB I (n - x) ≤ 10 * avgB I n - 22 - (20 + 9 * avgB I n / n) * (min x (n - x) : Nat) := by
  have hn : (0 : ℝ) < n := by exact_mod_cast (by omega : 0 < n)
  have a1 := avgB_split (I := I) (k := x) (l := n - x) h0 (by omega)
  rw [show x + (n - x) = n by omega] at a1
  have a2 := avgB_ratio (I := I) (l := n - x) (n := n) (by omega) (by omega)
  have a3 : ((n - x : Nat) : ℝ) = n - x := by rw [Nat.cast_sub (by omega)]
  rw [a3] at a2
  have hB := avgB_nonneg (I := I) (n := n) (by omega)
  set q := avgB I n / n with hq
  have h5 : (n : ℝ) * q = avgB I n := by rw [hq]; field_simp
  have hq0 : 0 ≤ q := div_nonneg hB hn.le
  have h4 : avgB I (n - x) ≤ avgB I n - q * x := by
    have h6 : (n : ℝ) * avgB I (n - x) ≤ n * (avgB I n - q * x) := by
      calc (n : ℝ) * avgB I (n - x) ≤ (n - x) * avgB I n := a2
        _ = n * avgB I n - avgB I n * x := by ring
        _ = n * avgB I n - (n * q) * x := by rw [h5]
        _ = _ := by ring
    exact le_of_mul_le_mul_left h6 hn
  have h7 : 9 * avgB I n / n = 9 * q := by rw [hq]; ring
  have h8 : ((min x (n - x) : Nat) : ℝ) ≤ x := by exact_mod_cast Nat.min_le_left _ _
  have h9 := mul_le_mul_of_nonneg_left h8 hq0
  rw [h7]
  linarith

theorem avgB_round {I n : Nat} (hI : 9 ≤ I) (hn : 40 ≤ n) :
    ((3 * n + 5 * ((n + 3) / 4) + 7 : Nat) : ℝ) + avgB I n - 22 ≤ (20 + 9 * avgB I n / n) * ((2 * n - 11) / 14) := by
  have hL : (40 : ℝ) ≤ n := by exact_mod_cast hn
  have hT : ((3 * n + 5 * ((n + 3) / 4) + 7 : Nat) : ℝ) ≤ 17 / 4 * n + 43 / 4 := by
    have h1 : 4 * ((n + 3) / 4) ≤ n + 3 := by omega
    have h2 : (4 : ℝ) * (((n + 3) / 4 : Nat) : ℝ) ≤ n + 3 := by exact_mod_cast h1
    push_cast at h2 ⊢
    linarith
  have h1 := xlog_nonneg n
  have h2 : (9 : ℝ) ≤ I := by exact_mod_cast hI
  have h3 : 32 * (n : ℝ) - 22 ≤ avgB I n := by
    unfold avgB
    nlinarith
  have h4 : 69 / 560 * (n : ℝ) ≤ (2 * n - 11) / 14 := by linarith
  have hBn : (0 : ℝ) ≤ 20 + 9 * avgB I n / n := by
    have := div_nonneg (mul_nonneg (by norm_num : (0 : ℝ) ≤ 9) (avgB_nonneg (I := I) (n := n) (by omega))) (by linarith : (0 : ℝ) ≤ n)
    linarith
  have h5 := mul_le_mul_of_nonneg_left h4 hBn
  have h6 : (20 + 9 * avgB I n / n) * (69 / 560 * (n : ℝ)) = 69 / 28 * n + 621 / 560 * avgB I n := by
    have : (n : ℝ) ≠ 0 := by linarith
    field_simp
    ring
  linarith

/-- what the loop of the concurrent sorter does with the longer part -/
noncomputable def rcost (F : Fam V κ) (rk : κ → ρ) (t : Slice) (m : Mem V) : Nat :=
  lcost F rk t m + if 2 * (F.maxRec + 1) ≤ t.len then ucost F rk t m else 0

theorem rcost_avg (hF : FamOK F ok rk) (hmean : F.mean = none) {t : Slice} (ht : 1 ≤ t.len)
    (h : 2 * (F.maxRec + 1) ≤ t.len → AvgC F ok rk (ucost F rk t) t (9 * avgB F.maxIns t.len)) :
    AvgC F ok rk (rcost F rk t) t (10 * avgB F.maxIns t.len) := by
  have a1 := lcost_avg hF hmean ht
  have hB' := avgB_nonneg (I := F.maxIns) ht
  intro 𝓝 X Y hX hok
  have b1 := a1 𝓝 X Y hX hok
  unfold rcost
  by_cases h3 : 2 * (F.maxRec + 1) ≤ t.len
  · have b2 := h h3 𝓝 X Y hX hok
    simp only [if_pos h3, Nat.cast_add]
    rw [Finset.sum_add_distrib]
    linarith
  · simp only [if_neg h3, Nat.add_zero]
    have : (0 : ℝ) ≤ 𝓝.card * avgB F.maxIns t.len := mul_nonneg (Nat.cast_nonneg _) hB'
    refine b1.trans ?_
    linarith

open Classical in
/-- the average -/
theorem ucost_avg (hF : FamOK F ok rk) (hmean : F.mean = none) {s : Slice} (hs : 2 * (F.maxRec + 1) ≤ s.len) :
    AvgC F ok rk (ucost F rk s) s (9 * avgB F.maxIns s.len) := by
  have h8 : 8 < F.maxIns := hF.ins
  have hrec := hF.recOK
  induction hn : s.len using Nat.strong_induction_on generalizing s with
  | _ n ih =>
    intro 𝓜 X Y hX hok
    rw [← hn]
    have hfit : ∀ m ∈ 𝓜, Fit F ok rk s m := fun m hm => ⟨hok m hm, hX.inj m hm⟩
    have q1 := smp_sub (s := s) (N := 7) (by omega) (by omega)
    have q2 := smp_card (s := s) (N := 7) (by omega) (by omega)
    have hP : ∀ m ∈ 𝓜, Middle (fun v => rk (F.key v)) (smp s 7) 3 m (med (fun v => rk (F.key v)) (smp s 7) 3 m) := fun m hm =>
      mid_conc hF hmean (by omega) (hfit m hm)
    have hfair := hX.fair7 (by omega) q1 q2 hP
    have hB := avgB_nonneg (I := F.maxIns) (n := s.len) (by omega)
    have hL : (40 : ℝ) ≤ s.len := by exact_mod_cast (by omega : 40 ≤ s.len)
    have hBn : (0 : ℝ) ≤ 20 + 9 * avgB F.maxIns s.len / s.len := by
      have := div_nonneg (mul_nonneg (by norm_num : (0 : ℝ) ≤ 9) hB) (by linarith : (0 : ℝ) ≤ s.len)
      linarith
    have hcp : ∀ k, 0 < k → k < s.len → AvgC F ok rk (lcost F rk (parts s k).1) (parts s k).1 (avgB F.maxIns (parts s k).1.len) := by
      intro k k0 k1
      obtain ⟨l1, l2, l3, -⟩ := parts_len k0 k1
      exact lcost_avg hF hmean (by omega)
    have hcq : ∀ k, 0 < k → k < s.len → AvgC F ok rk (rcost F rk (parts s k).2) (parts s k).2 (10 * avgB F.maxIns (parts s k).2.len) := by
      intro k k0 k1
      obtain ⟨l1, l2, l3, -⟩ := parts_len k0 k1
      exact rcost_avg hF hmean (by omega) fun h => ih _ (by omega) h rfl
    have hAB : ∀ k, 0 < k → k < s.len → avgB F.maxIns (parts s k).1.len + 10 * avgB F.maxIns (parts s k).2.len ≤
        10 * avgB F.maxIns s.len - 22 - (20 + 9 * avgB F.maxIns s.len / s.len) * (min k (s.len - k) : Nat) := by
      intro k k0 k1
      have hpn : (parts s k).1.len = min k (s.len - k) ∧ (parts s k).2.len = s.len - min k (s.len - k) := by
        unfold parts
        split_ifs <;> dsimp only <;> omega
      have := avgB_cut (I := F.maxIns) (n := s.len) (x := min k (s.len - k)) (by omega) (by omega)
      rw [show min (min k (s.len - k)) (s.len - min k (s.len - k)) = min k (s.len - k) by omega] at this
      rw [hpn.1, hpn.2]
      exact this
    have hsp := avg_split (B := 20 + 9 * avgB F.maxIns s.len / s.len) (A := 10 * avgB F.maxIns s.len - 22) (bp := fun n => avgB F.maxIns n)
      (bq := fun n => 10 * avgB F.maxIns n) (h := 3) q1 (by omega) q2 hX hok hP
      (k := fun π => (pCon κ s π).k.toNat) (τ := fun π => (pCon κ s π).τ) (fun π => (pCon_by κ (by omega) π).fix) (fun π => pCon_le κ (by omega) π)
      (fun π => (pCon_by κ (by omega) π).low) (fun π => (pCon_by κ (by omega) π).high) (cp := lcost F rk) (cq := rcost F rk) hcp hcq hBn hAB
    have htot : ∀ m ∈ 𝓜, (ucost F rk s m : ℝ) = ((3 * s.len + 5 * ((s.len + 3) / 4) + 7 : Nat) : ℝ) +
        (((lcost F rk (parts s (conOf F rk s m).k.toNat).1 (m ∘ (conOf F rk s m).τ) : Nat) : ℝ) +
        ((rcost F rk (parts s (conOf F rk s m).k.toNat).2 (m ∘ (conOf F rk s m).τ) : Nat) : ℝ)) := by
      intro m hm
      rw [ucost_eq hF hmean (by omega) (hfit m hm), Nat.cast_add, Nat.cast_add (lcost F rk (parts s (conOf F rk s m).k.toNat).1 (m ∘ (conOf F rk s m).τ))]
      rfl
    have hsp' : ∑ m ∈ 𝓜, (((lcost F rk (parts s (conOf F rk s m).k.toNat).1 (m ∘ (conOf F rk s m).τ) : Nat) : ℝ) +
        ((rcost F rk (parts s (conOf F rk s m).k.toNat).2 (m ∘ (conOf F rk s m).τ) : Nat) : ℝ)) ≤ _ := hsp
    rw [Finset.sum_congr rfl htot, Finset.sum_add_distrib, Finset.sum_const, nsmul_eq_mul]
    have hfair' : (𝓜.card : ℝ) * (2 * s.len - 11) ≤ 14 * ∑ m ∈ 𝓜, ((min (lower (fun v => rk (F.key v)) s m (med (fun v => rk (F.key v)) (smp s 7) 3 m))
        (upper (fun v => rk (F.key v)) s m (med (fun v => rk (F.key v)) (smp s 7) 3 m)) : Nat) : ℝ) := by
      have h1 := (Nat.cast_le (α := ℝ)).2 hfair
      rw [Nat.cast_mul, Nat.cast_sub (by omega), Nat.cast_mul 14, Nat.cast_sum] at h1
      push_cast at h1 ⊢
      linarith
    have hBW := mul_le_mul_of_nonneg_left hfair' hBn
    have hone := mul_le_mul_of_nonneg_left (avgB_round (I := F.maxIns) (n := s.len) (by omega) (by omega)) (Nat.cast_nonneg (α := ℝ) 𝓜.card)
    linarith

end Sorty
