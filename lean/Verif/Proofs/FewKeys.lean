import Verif.Proofs.Balance
import Verif.Proofs.ValKiller
import Verif.Proofs.ValCost
import Verif.Logic.Eval
import Mathlib.Algebra.Order.BigOperators.Group.Finset
import Mathlib.Data.Nat.Log

/-! # Slices with few different keys -/

namespace Sorty

open Prog

variable {V κ : Type} {ρ : Type} [LinearOrder ρ]

/-- how often a key of `c` elements can be halved, with some left over every time -/
def halvings (c : Nat) : Nat := if c ≤ 2 then c else Nat.clog 2 (c - 2) + 3

theorem halvings_mono {a b : Nat} (h : a ≤ b) : halvings a ≤ halvings b := by
  unfold halvings
  split_ifs
  · exact h
  · omega
  · omega
  · exact Nat.add_le_add_right (Nat.clog_mono_right 2 (by omega)) 3

theorem halvings_lt {x c : Nat} (h : x < c) (h2 : 2 * x ≤ c + 2) : halvings x < halvings c := by
  unfold halvings
  split_ifs with hx hc
  · exact h
  · omega
  · omega
  · have h4 := Nat.clog_of_two_le (b := 2) (n := c - 2) one_lt_two (by omega)
    have h3 : Nat.clog 2 (x - 2) ≤ Nat.clog 2 ((c - 2 + 2 - 1) / 2) := Nat.clog_mono_right 2 (by omega)
    omega

theorem halvings_le (c : Nat) : halvings c ≤ Nat.clog 2 c + 3 := by
  unfold halvings
  split_ifs
  · omega
  · exact Nat.add_le_add_right (Nat.clog_mono_right 2 (by omega)) 3

/-- number of elements of rank `v` -/
def occ (r : V → ρ) (s : Slice) (m : Mem V) (v : ρ) : Nat := cnt (fun a => r (m a) = v) s.off (s.off + s.len)

/-- how often the ranges that `s` can be split into can be split further -/
def pot (S : Finset ρ) (r : V → ρ) (s : Slice) (m : Mem V) : Nat := ∑ v ∈ S, halvings (occ r s m v)

theorem pot_le (S : Finset ρ) (r : V → ρ) (s : Slice) (m : Mem V) : pot S r s m ≤ S.card * (Nat.clog 2 s.len + 3) := by
  unfold pot
  have : ∀ v ∈ S, halvings (occ r s m v) ≤ Nat.clog 2 s.len + 3 := by
    intro v _
    have h : occ r s m v ≤ s.len := by
      have := cnt_le (P := fun a => r (m a) = v) (a := s.off) (b := s.off + s.len)
      unfold occ; omega
    exact (halvings_mono h).trans (halvings_le _)
  refine (Finset.sum_le_card_nsmul S _ _ this).trans ?_
  rw [smul_eq_mul]

theorem occ_congr {r : V → ρ} {s : Slice} {m m' : Mem V} (h : Agree s.rng m m') (v : ρ) : occ r s m v = occ r s m' v := by
  refine cnt_congr fun x h0 h1 => ?_
  rw [h x (by simp only [Slice.rng, Set.mem_ofPred_eq]; omega)]

theorem pot_congr {S : Finset ρ} {r : V → ρ} {s : Slice} {m m' : Mem V} (h : Agree s.rng m m') : pot S r s m = pot S r s m' :=
  Finset.sum_congr rfl fun v _ => by rw [occ_congr h]

theorem occ_perm {r : V → ρ} {s : Slice} {m m' : Mem V} (h : RPon s.rng m m') (v : ρ) : occ r s m' v = occ r s m v := by
  obtain ⟨σ, h1, h2⟩ := h
  unfold occ cnt
  have hm : ∀ {τ : Equiv.Perm Nat}, (∀ i, i ∉ s.rng → τ i = i) → ∀ a, a ∈ Finset.Ico s.off (s.off + s.len) → τ a ∈ Finset.Ico s.off (s.off + s.len) := by
    intro τ hτ a ha
    rw [Finset.mem_Ico] at ha ⊢
    exact perm_mem hτ (i := a) ha
  have hr : ∀ {a}, a ∈ Finset.Ico s.off (s.off + s.len) → a ∈ s.rng := fun ha => Finset.mem_Ico.1 ha
  refine Finset.card_bij (fun a _ => σ a) ?_ (fun a _ b _ h => σ.injective h) ?_
  · intro a ha
    rw [Finset.mem_filter] at ha ⊢
    exact ⟨hm h1 a ha.1, by rw [← h2 a (hr ha.1)]; exact ha.2⟩
  · intro b hb
    rw [Finset.mem_filter] at hb
    refine ⟨σ.symm b, ?_, Equiv.apply_symm_apply _ _⟩
    rw [Finset.mem_filter]
    refine ⟨hm (perm_symm h1) b hb.1, ?_⟩
    rw [h2 _ (hr (hm (perm_symm h1) b hb.1)), Equiv.apply_symm_apply]
    exact hb.2

theorem occ_pos {r : V → ρ} {s : Slice} {m : Mem V} {a : Nat} (ha : a ∈ s.rng) : 0 < occ r s m (r (m a)) := by
  simp only [Slice.rng, Set.mem_ofPred_eq] at ha
  exact cnt_pos (P := fun b => r (m b) = r (m a)) ha.1 ha.2 rfl

theorem occ_zero {r : V → ρ} {s : Slice} {m : Mem V} {v : ρ} (h : ∀ a ∈ s.rng, r (m a) ≠ v) : occ r s m v = 0 :=
  cnt_zero fun x h0 h1 => h x ⟨h0, h1⟩

/-- a range that has less of a key -/
theorem pot_lt {S : Finset ρ} {r : V → ρ} {s t : Slice} {m m' : Mem V} (hle : ∀ v, occ r t m' v ≤ occ r s m v) {v : ρ} (hv : v ∈ S)
    (h1 : occ r t m' v < occ r s m v) (h2 : 2 * occ r t m' v ≤ occ r s m v + 2) : pot S r t m' < pot S r s m :=
  Finset.sum_lt_sum (fun w _ => halvings_mono (hle w)) ⟨v, hv, halvings_lt h1 h2⟩

/-- both parts have less -/
theorem pot_parts {S : Finset ρ} {r : V → ρ} {p : ρ} {s L R : Slice} {m m' : Mem V} (hrp : RPon s.rng m m') (hS : ∀ a ∈ s.rng, r (m a) ∈ S)
    (hL : L.off = s.off) (hR : R.off = s.off + L.len) (hsum : L.len + R.len = s.len) (h0 : 0 < L.len) (h1 : 0 < R.len)
    (hlow : ∀ a ∈ L.rng, r (m' a) ≤ p) (hhigh : ∀ a ∈ R.rng, p ≤ r (m' a))
    (hle : (∀ a ∈ s.rng, r (m a) ≤ p) → occ r L m' p ≤ occ r R m' p)
    (hge : (∀ a ∈ s.rng, p ≤ r (m a)) → occ r R m' p ≤ occ r L m' p + 2) :
    pot S r L m' < pot S r s m ∧ pot S r R m' < pot S r s m := by
  have hadd : ∀ v, occ r L m' v + occ r R m' v = occ r s m v := by
    intro v
    rw [← occ_perm hrp]
    unfold occ
    rw [hR, hL, cnt_add (by omega) (by omega)]
    rw [show s.off + L.len + R.len = s.off + s.len by omega]
  have hS' : ∀ a ∈ s.rng, r (m' a) ∈ S := hrp.all (p := fun x => r x ∈ S) hS
  have sL : L.rng ⊆ s.rng := by
    intro a ha; simp only [Slice.rng, Set.mem_ofPred_eq] at *; omega
  have sR : R.rng ⊆ s.rng := by
    intro a ha; simp only [Slice.rng, Set.mem_ofPred_eq] at *; omega
  have eL : ∃ a, a ∈ L.rng := ⟨L.off, by simp only [Slice.rng, Set.mem_ofPred_eq]; omega⟩
  have eR : ∃ a, a ∈ R.rng := ⟨R.off, by simp only [Slice.rng, Set.mem_ofPred_eq]; omega⟩
  have lL : ∀ v, occ r L m' v ≤ occ r s m v := fun v => by have := hadd v; omega
  have lR : ∀ v, occ r R m' v ≤ occ r s m v := fun v => by have := hadd v; omega
  constructor
  · by_cases hex : ∃ a ∈ R.rng, p < r (m' a)
    · obtain ⟨a, ha, hlt⟩ := hex
      have hz : occ r L m' (r (m' a)) = 0 := occ_zero fun b hb he => absurd (hlow b hb) (by rw [he]; exact not_le.2 hlt)
      have hp : 0 < occ r R m' (r (m' a)) := occ_pos ha
      have := hadd (r (m' a))
      exact pot_lt lL (hS' a (sR ha)) (by omega) (by omega)
    · push Not at hex
      have hall' : ∀ a ∈ s.rng, r (m' a) ≤ p := by
        intro a ha
        by_cases hc : a ∈ L.rng
        · exact hlow a hc
        · exact hex a (by simp only [Slice.rng, Set.mem_ofPred_eq] at *; omega)
      have hall : ∀ a ∈ s.rng, r (m a) ≤ p := by
        intro a ha
        obtain ⟨σ, h3, h4⟩ := hrp
        have hm := perm_mem (perm_symm h3) ha
        have := hall' (σ.symm a) hm
        rwa [h4 _ hm, Equiv.apply_symm_apply] at this
      obtain ⟨a, ha⟩ := eR
      have he : r (m' a) = p := le_antisymm (hex a ha) (hhigh a ha)
      have hp : 0 < occ r R m' p := by rw [← he]; exact occ_pos ha
      have := hadd p
      have := hle hall
      exact pot_lt lL (v := p) (by rw [← he]; exact hS' a (sR ha)) (by omega) (by omega)
  · by_cases hex : ∃ a ∈ L.rng, r (m' a) < p
    · obtain ⟨a, ha, hlt⟩ := hex
      have hz : occ r R m' (r (m' a)) = 0 := occ_zero fun b hb he => absurd (hhigh b hb) (by rw [he]; exact not_le.2 hlt)
      have hp : 0 < occ r L m' (r (m' a)) := occ_pos ha
      have := hadd (r (m' a))
      exact pot_lt lR (hS' a (sL ha)) (by omega) (by omega)
    · push Not at hex
      have hall' : ∀ a ∈ s.rng, p ≤ r (m' a) := by
        intro a ha
        by_cases hc : a ∈ L.rng
        · exact hex a hc
        · exact hhigh a (by simp only [Slice.rng, Set.mem_ofPred_eq] at *; omega)
      have hall : ∀ a ∈ s.rng, p ≤ r (m a) := by
        intro a ha
        obtain ⟨σ, h3, h4⟩ := hrp
        have hm := perm_mem (perm_symm h3) ha
        have := hall' (σ.symm a) hm
        rwa [h4 _ hm, Equiv.apply_symm_apply] at this
      obtain ⟨a, ha⟩ := eL
      have he : r (m' a) = p := le_antisymm (hlow a ha) (hex a ha)
      have hp : 0 < occ r L m' p := by rw [← he]; exact occ_pos ha
      have := hadd p
      have := hge hall
      exact pot_lt lR (v := p) (by rw [← he]; exact hS' a (sL ha)) (by omega) (by omega)

variable {F : Fam V κ} {ok : κ → Prop} {rk : κ → ρ}

/-- what a run of partitioning and splitting leaves -/
structure Shrunk (S : Finset ρ) (r : V → ρ) (s aq ar : Slice) (m m' : Mem V) : Prop where
  rp : RP s.rng m m'
  split : Split r s aq ar m m'
  q : pot S r aq m' < pot S r s m
  r : pot S r ar m' < pot S r s m

theorem paid {α : Type} {p : Prog V (VSp κ) α} {m m' : Mem V} {k N : Nat} {a : α} {R : α → Prop} (h : TRuns p m k a m')
    (hc : Costs (vmeter V κ) p N R) : k ≤ N := h.le_cost rfl rfl (fun _ _ => trivial) hc

/-- a partition and a split -/
theorem runs_halve (hF : FamOK F ok rk) {S : Finset ρ} {ar : Slice} {m : Mem V} (hlen : 2 ≤ ar.len) (hok : ∀ a ∈ ar.rng, ok (F.key (m a)))
    (hS : ∀ a ∈ ar.rng, rk (F.key (m a)) ∈ S) {pv : κ} (hp : PivOK2 F ok rk ar m pv) :
    ∃ c aq ar' m', TRuns (do
      let k ← partOne F ar pv
      splitAt ar k : Prog V (VSp κ) (Slice × Slice)) m c (aq, ar') m' ∧ c ≤ 3 * ar.len ∧ Shrunk S (fun v => rk (F.key v)) ar aq ar' m m' := by
  have hsw := partOne_spec (Sp := VSp κ) (cmp := fun _ _ _ _ _ => False) (W := ar.rng) (R := ∅) hF subset_rfl hp.okp hok
  have hE : ∀ {q : κ → Prop}, (∀ a ∈ ar.rng, q (F.key (m a))) → Side F ok ar q m := fun hq i i0 i1 =>
    ⟨hok _ (Slice.mem_rng i0 i1), hq _ (Slice.mem_rng i0 i1)⟩
  obtain ⟨c1, k, m', e1, hk, -⟩ := runs_of (fun _ _ _ _ _ h => h) hsw (aw_true (n := 0))
  obtain ⟨k0, k1⟩ := hk.inner hp hlen
  have hrel : ∀ {K : Int → Mem V → Nat → Prop}, aw (partOne F ar pv : Prog V (VSp κ) Int) m 0 K → ∃ n, K k m' n := by
    intro K h
    obtain ⟨c2, k2, m2, e2, -, h2⟩ := runs_of (fun _ _ _ _ _ h => h) hsw h
    obtain ⟨-, rfl, rfl⟩ := e1.det e2
    exact ⟨_, h2⟩
  have hpot := pot_parts (S := S) (r := fun v => rk (F.key v)) (p := rk pv) (s := ar) (L := ⟨ar.off, k.toNat⟩) (R := ⟨ar.off + k.toNat, ar.len - k.toNat⟩)
    hk.rp.on hS rfl rfl (by dsimp only; omega) (by dsimp only; omega) (by dsimp only; omega) (by
      intro a ha
      simp only [Slice.rng, Set.mem_ofPred_eq] at ha
      have := hk.low ((a - ar.off : Nat) : Int) (by omega) (by omega)
      unfold Slice.E at this
      rwa [Int.toNat_natCast, show ar.off + (a - ar.off) = a by omega] at this) (by
      intro a ha
      simp only [Slice.rng, Set.mem_ofPred_eq] at ha
      have := hk.high ((a - ar.off : Nat) : Int) (by omega) (by omega)
      unfold Slice.E at this
      rwa [Int.toNat_natCast, show ar.off + (a - ar.off) = a by omega] at this) (by
      intro hall
      obtain ⟨_, h⟩ := hrel (balance_le hF hp.okp (n := 0) (hE (q := fun x => rk x ≤ rk pv) hall))
      unfold lowC highC at h
      unfold occ
      dsimp only
      rwa [show ar.off + k.toNat + (ar.len - k.toNat) = ar.off + ar.len by omega]) (by
      intro hall
      obtain ⟨_, h⟩ := hrel (balance_ge hF hp.okp (n := 0) (hE (q := fun x => rk pv ≤ rk x) hall))
      unfold lowC highC at h
      unfold occ
      dsimp only
      rw [show ar.off + k.toNat + (ar.len - k.toNat) = ar.off + ar.len by omega]
      omega)
  obtain ⟨c2, ⟨aq, ar'⟩, m2, e2, ⟨rfl, h2⟩, -⟩ := runs_of (fun _ _ _ _ _ h => h) (splitAt_spec (Sp := VSp κ) (cmp := fun _ _ _ _ _ => False)
    (W := ar.rng) (R := ∅) (slc := ar) (m := m') k0.le k1.le (Q := fun x m2 => m2 = m' ∧ x.1.len ≤ x.2.len ∧
      ((x.1 = ⟨ar.off, k.toNat⟩ ∧ x.2 = ⟨ar.off + k.toNat, ar.len - k.toNat⟩) ∨
       (x.2 = ⟨ar.off, k.toNat⟩ ∧ x.1 = ⟨ar.off + k.toNat, ar.len - k.toNat⟩))) fun aq ar' hle hc => ⟨rfl, hle, hc⟩) (aw_true (n := 0))
  dsimp only at h2
  have b1 := paid e1 (cost_partOne vmeter_wa)
  have b2 := paid e2 cost_splitAt
  refine ⟨c1 + c2, aq, ar', m2, e1.bind e2, by omega, hk.rp, split_of hk.rp.on k0 k1 hk.low hk.high h2.1 h2.2, ?_, ?_⟩
  · rcases h2.2 with ⟨rfl, rfl⟩ | ⟨rfl, rfl⟩
    · exact hpot.1
    · exact hpot.2
  · rcases h2.2 with ⟨rfl, rfl⟩ | ⟨rfl, rfl⟩
    · exact hpot.2
    · exact hpot.1

/-- what a run of sorting a range does and costs -/
def Cheap (F : Fam V κ) (rk : κ → ρ) (S : Finset ρ) (p : Prog V (VSp κ) Unit) (ar : Slice) (m : Mem V) : Prop :=
  ∃ c m', TRuns p m c () m' ∧ RP ar.rng m m' ∧ c ≤ (6 * pot S (fun v => rk (F.key v)) ar m + F.maxIns + 1) * ar.len

theorem cheap_insertion (hF : FamOK F ok rk) (S : Finset ρ) {ar : Slice} {m : Mem V} (hlen : ar.len ≤ F.maxIns)
    (hok : ∀ a ∈ ar.rng, ok (F.key (m a))) : Cheap F rk S (insertion F.key F.lt ar) ar m := by
  obtain ⟨c, _, m', e, h, -⟩ := runs_of (fun _ _ _ _ _ h => h) (insertion_spec (Sp := VSp κ) (cmp := fun _ _ _ _ _ => False) (W := ar.rng) (R := ∅)
    hF.ltOK subset_rfl hok) (aw_true (n := 0))
  refine ⟨c, m', e, h.1, (paid e (cost_insertion vmeter_wa)).trans ?_⟩
  rw [Nat.mul_comm]
  exact Nat.mul_le_mul_right _ (by omega)

/-- the cost of two parts -/
theorem cheap_sum {c c1 c2 P P1 P2 I n n1 n2 : Nat} (hc : c ≤ 6 * n) (h1 : c1 ≤ (6 * P1 + I + 1) * n1) (h2 : c2 ≤ (6 * P2 + I + 1) * n2)
    (hP1 : P1 < P) (hP2 : P2 < P) (hn : n1 + n2 = n) : c + (c1 + c2) ≤ (6 * P + I + 1) * n := by
  obtain ⟨P, rfl⟩ : ∃ Q, P = Q + 1 := ⟨P - 1, by omega⟩
  have e1 := h1.trans (Nat.mul_le_mul_right n1 (show 6 * P1 + I + 1 ≤ 6 * P + I + 1 by omega))
  have e2 := h2.trans (Nat.mul_le_mul_right n2 (show 6 * P2 + I + 1 ≤ 6 * P + I + 1 by omega))
  subst hn
  have : (6 * (P + 1) + I + 1) * (n1 + n2) = 6 * (n1 + n2) + ((6 * P + I + 1) * n1 + (6 * P + I + 1) * n2) := by ring
  omega

/-- sorting the two parts one after the other -/
theorem Shrunk.both {S : Finset ρ} {s aq ar : Slice} {m m1 : Mem V} (h : Shrunk S (fun v => rk (F.key v)) s aq ar m m1)
    (hok : ∀ a ∈ s.rng, ok (F.key (m a))) (hS : ∀ a ∈ s.rng, rk (F.key (m a)) ∈ S) {p q : Prog V (VSp κ) Unit}
    (hp : (∀ a ∈ aq.rng, ok (F.key (m1 a))) → (∀ a ∈ aq.rng, rk (F.key (m1 a)) ∈ S) → Cheap F rk S p aq m1)
    (hq : ∀ m2, (∀ a ∈ ar.rng, ok (F.key (m2 a))) → (∀ a ∈ ar.rng, rk (F.key (m2 a)) ∈ S) → Cheap F rk S q ar m2) :
    ∃ c1 c2 m2 m3, TRuns p m1 c1 () m2 ∧ TRuns q m2 c2 () m3 ∧ RP s.rng m m3 ∧
      ∀ c, c ≤ 6 * s.len → c + (c1 + c2) ≤ (6 * pot S (fun v => rk (F.key v)) s m + F.maxIns + 1) * s.len := by
  obtain ⟨u1, u2, u3, u4⟩ := h.split.sub
  have hall : ∀ {P : V → Prop}, (∀ a ∈ s.rng, P (m a)) → ∀ a ∈ s.rng, P (m1 a) := fun hP => h.rp.all hP
  obtain ⟨c1, m2, e1, r1, b1⟩ := hp (fun a ha => hall (P := fun v => ok (F.key v)) hok a (u1 ha)) (fun a ha => hall (P := fun v => rk (F.key v) ∈ S) hS a (u1 ha))
  have ag : Agree ar.rng m1 m2 := r1.agree_of_disjoint u3
  obtain ⟨c2, m3, e2, r2, b2⟩ := hq m2 (fun a ha => by rw [← ag a ha]; exact hall (P := fun v => ok (F.key v)) hok a (u2 ha))
    (fun a ha => by rw [← ag a ha]; exact hall (P := fun v => rk (F.key v) ∈ S) hS a (u2 ha))
  rw [← pot_congr ag] at b2
  exact ⟨c1, c2, m2, m3, e1, e2, h.rp.trans ((r1.mono u1).trans (r2.mono u2)), fun c hc => cheap_sum hc b1 b2 h.q h.r h.split.sum⟩

theorem cheap_short (hF : FamOK F ok rk) (S : Finset ρ) : ∀ (f d : Nat) (ar : Slice) (m : Mem V), ar.len ≤ f →
    F.maxIns < ar.len → ar.len < 2 ^ d → (∀ a ∈ ar.rng, ok (F.key (m a))) → (∀ a ∈ ar.rng, rk (F.key (m a)) ∈ S) →
    Cheap F rk S (short F f d ar) ar m := by
  have h8 : 8 < F.maxIns := hF.ins
  intro f
  induction f with
  | zero => intro d ar m h1 h2; omega
  | succ f ih =>
    intro d ar m hf hins hd hok hS
    obtain ⟨c0, pv, m0, e0, ⟨em, hp⟩, -⟩ := runs_of (fun _ _ _ _ _ h => h) (shortPivot_spec (Sp := VSp κ) (cmp := fun _ _ _ _ _ => False)
      (W := ar.rng) (R := ∅) hF (by simp) (by omega) hok) (aw_true (n := 0))
    rw [em] at e0
    have b0 := paid e0 (cost_shortPivot rfl)
    obtain ⟨c1, aq, ar', m1, e1, b1, H⟩ := runs_halve hF (by omega) hok hS hp
    have hsum := H.split.sum
    have hle := H.split.le
    have hpos := H.split.pos
    have hne : ar'.off ≠ aq.off := H.split.off_ne
    have glue : ∀ {c m3} {k : Slice × Slice → Prog V (VSp κ) Unit}, TRuns (k (aq, ar')) m1 c () m3 →
        TRuns (do
          let pv ← shortPivot F ar
          let i ← partOne F ar pv
          let x ← splitAt ar i
          k x : Prog V (VSp κ) Unit) m (c0 + (c1 + c)) () m3 := by
      intro c m3 k h
      refine e0.bind ?_
      have := e1.bind (f := k) h
      simp only [Prog.bind_def] at this ⊢
      rw [Prog.bind_assoc] at this
      exact this
    unfold Cheap short
    by_cases hq : aq.len > F.maxIns
    · obtain ⟨d, rfl⟩ : ∃ d', d = d' + 1 := by
        cases d with
        | zero => simp at hd; omega
        | succ d => exact ⟨d, rfl⟩
      have hd' := hd
      rw [pow_succ] at hd'
      obtain ⟨ca, cb, m2, m3, ea, eb, r, b⟩ := H.both hok hS (p := short F f d aq) (q := short F f (d + 1) ar')
        (fun h1 h2 => ih d aq m1 (by omega) hq (by omega) h1 h2) (fun m2 h1 h2 => ih (d + 1) ar' m2 (by omega) (by omega) (by omega) h1 h2)
      refine ⟨_, m3, glue (c := ca + cb) ?_, r, ?_⟩
      · dsimp only
        rw [if_pos hq]
        exact ea.bind eb
      · have := b (c0 + c1) (by omega)
        omega
    · by_cases hr : ar'.len > F.maxIns
      · obtain ⟨ca, cb, m2, m3, ea, eb, r, b⟩ := H.both hok hS (p := insertion F.key F.lt aq) (q := short F f d ar')
          (fun h1 _ => cheap_insertion hF S (by omega) h1) (fun m2 h1 h2 => ih d ar' m2 (by omega) (by omega) (by omega) h1 h2)
        refine ⟨_, m3, glue (c := ca + cb) ?_, r, ?_⟩
        · dsimp only
          rw [if_neg hq]
          refine TRuns.bind (TRuns.brk (a := true) (m1 := m2) (n := ca) ?_) ?_
          · refine TRuns.bind (k := 0) ea ?_
            rw [if_pos hr]
            exact .ret _ _
          rw [if_pos rfl]
          exact eb
        · have := b (c0 + c1) (by omega)
          omega
      · obtain ⟨ca, cb, m2, m3, ea, eb, r, b⟩ := H.both hok hS (p := insertion F.key F.lt aq) (q := insertion F.key F.lt ar')
          (fun h1 _ => cheap_insertion hF S (by omega) h1) (fun m2 h1 h2 => cheap_insertion hF S (by omega) h1)
        refine ⟨_, m3, glue (c := ca + cb) ?_, r, ?_⟩
        · dsimp only
          rw [if_neg hq]
          refine TRuns.bind (k := 0) (a := false) (m1 := m3) ?_ (by rw [if_neg (by simp)]; exact .ret _ _)
          refine TRuns.again (s' := ar') (m1 := m2) (n := ca) (k := cb) ?_ (TRuns.brk ?_)
          · refine TRuns.bind (k := 0) ea ?_
            rw [if_neg hr]
            unfold Slice.addrNe
            rw [if_pos ⟨by omega, by omega⟩]
            show TRuns (if (ar'.off != aq.off) = true then _ else _) _ _ _ _
            rw [if_pos (by simp [hne])]
            exact .ret _ _
          · refine TRuns.bind (k := 0) eb ?_
            rw [if_neg hr]
            unfold Slice.addrNe
            rw [if_pos ⟨by omega, by omega⟩]
            show TRuns (if (ar'.off != ar'.off) = true then _ else _) _ _ _ _
            rw [if_neg (by simp)]
            exact .ret _ _
        · have := b (c0 + c1) (by omega)
          omega

end Sorty
