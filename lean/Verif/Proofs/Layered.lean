import Verif.Proofs.FewKeys
import Verif.Proofs.Median
import Mathlib.Data.List.NodupEquivFin
import Mathlib.Tactic.IntervalCases

/-! # Partitioning ascending sequences of descending runs -/

namespace Sorty

open Prog

variable {V κ Sp : Type} {ρ : Type} [LinearOrder ρ]

/-- the range falls into runs, numbered by `f`; within a run the ranks descend, and every run is below the later ones -/
def Lay (r : V → ρ) (s : Slice) (m : Mem V) : Prop :=
  ∃ f : Nat → Nat, (∀ i j, s.off ≤ i → i ≤ j → j < s.off + s.len → f i ≤ f j) ∧
    ∀ i j, s.off ≤ i → i < j → j < s.off + s.len → if f i = f j then r (m j) < r (m i) else r (m i) < r (m j)

variable {r : V → ρ} {s t : Slice} {m m' : Mem V}

theorem Lay.sub (h : Lay r s m) (h0 : s.off ≤ t.off) (h1 : t.off + t.len ≤ s.off + s.len) : Lay r t m := by
  obtain ⟨f, h2, h3⟩ := h
  exact ⟨f, fun i j a b c => h2 i j (by omega) b (by omega), fun i j a b c => h3 i j (by omega) b (by omega)⟩

theorem Lay.congr (h : Lay r s m) (ha : Agree s.rng m m') : Lay r s m' := by
  obtain ⟨f, h2, h3⟩ := h
  refine ⟨f, h2, fun i j a b c => ?_⟩
  have := h3 i j a b c
  rwa [← ha i (by simp only [Slice.rng, Set.mem_ofPred_eq]; omega), ← ha j (by simp only [Slice.rng, Set.mem_ofPred_eq]; omega)]

theorem Lay.ne (h : Lay r s m) {i j : Nat} (hi : i ∈ s.rng) (hj : j ∈ s.rng) (hr : r (m i) = r (m j)) : i = j := by
  obtain ⟨f, -, h3⟩ := h
  simp only [Slice.rng, Set.mem_ofPred_eq] at hi hj
  rcases lt_trichotomy i j with hl | hl | hl
  · have := h3 i j hi.1 hl hj.2
    rw [hr] at this
    split_ifs at this <;> exact absurd this (lt_irrefl _)
  · exact hl
  · have := h3 j i hj.1 hl hi.2
    rw [hr] at this
    split_ifs at this <;> exact absurd this (lt_irrefl _)

/-- exchanging the ends of a run -/
theorem Lay.swap (hL : Lay r s m) {p : ρ} {l h : Nat} (hl : s.off ≤ l) (hlh : l < h) (hh : h < s.off + s.len)
    (hlow : ∀ i, s.off ≤ i → i < l → r (m i) ≤ p) (hhigh : ∀ i, h < i → i < s.off + s.len → p ≤ r (m i))
    (h1 : r (m h) ≤ p) (h2 : p ≤ r (m l)) (he : ∀ i, m' i = if i = h then m l else if i = l then m h else m i) : Lay r s m' := by
  have hne : r (m h) < r (m l) := lt_of_le_of_ne (h1.trans h2) fun e => by
    have := hL.ne (i := h) (j := l) (by simp only [Slice.rng, Set.mem_ofPred_eq]; omega) (by simp only [Slice.rng, Set.mem_ofPred_eq]; omega) e
    omega
  obtain ⟨f, g1, g2⟩ := hL
  have same : f l = f h := by
    by_contra hc
    have := g2 l h hl hlh hh
    rw [if_neg hc] at this
    exact absurd this (not_lt.2 hne.le)
  have left : ∀ i, s.off ≤ i → i < l → f i ≠ f l := by
    intro i hi hil hc
    have := g2 i l hi hil (by omega)
    rw [if_pos hc] at this
    exact absurd (this.trans_le (hlow i hi hil)) (not_lt.2 h2)
  have right : ∀ i, h < i → i < s.off + s.len → f h ≠ f i := by
    intro i hi hil hc
    have := g2 h i (by omega) hi hil
    rw [if_pos hc] at this
    exact absurd (this.trans_le h1) (not_lt.2 (hhigh i hi hil))
  have mid : ∀ i, l ≤ i → i ≤ h → f i = f l := by
    intro i hi hil
    have := g1 l i hl hi (by omega)
    have := g1 i h (by omega) hil hh
    omega
  refine ⟨fun i => 3 * f i + (if i = l then 0 else if i = h then 2 else 1), ?_, ?_⟩
  · intro i j hi hij hj
    have := g1 i j hi hij hj
    dsimp only
    rcases hij.eq_or_lt with rfl | hlt
    · exact le_rfl
    rcases this.lt_or_eq with h3 | h3
    · split_ifs <;> omega
    · have a1 : i = h → False := fun e => right j (by omega) hj (by rw [← e]; exact h3)
      have a2 : j = l → False := fun e => left i hi (by omega) (by rw [← e]; exact h3)
      rw [if_neg a2, if_neg a1]
      split_ifs <;> omega
  · intro i j hi hij hj
    have gij := g2 i j hi hij hj
    rw [he i, he j]
    by_cases ih : i = h
    · have hr := right j (by omega) hj
      have := g2 l j hl (by omega) hj
      rw [if_neg (by omega)] at this
      rw [if_neg (by simp only [ih]; split_ifs <;> omega), if_pos ih, if_neg (by omega), if_neg (by omega)]
      exact this
    by_cases il : i = l
    · by_cases jh : j = h
      · rw [if_neg (by subst il jh; simp only [if_true]; rw [if_neg (by omega)]; omega), if_neg ih, if_pos il, if_pos jh]
        exact hne
      · rw [if_neg (by subst il; simp only [if_true]; rw [if_neg (by omega), if_neg jh]; omega), if_neg ih, if_pos il, if_neg jh, if_neg (by omega)]
        by_cases hjh : j < h
        · have := g2 j h (by omega) hjh hh
          rwa [if_pos (by rw [mid j (by omega) hjh.le, same])] at this
        · have := g2 h j (by omega) (by omega) hj
          rwa [if_neg (right j (by omega) hj)] at this
    by_cases jl : j = l
    · have hr := left i hi (by omega)
      have := g2 i h hi (by omega) hh
      rw [if_neg (by omega)] at this
      rw [if_neg (by subst jl; simp only [if_true]; rw [if_neg il, if_neg ih]; omega), if_neg ih, if_neg il, if_neg (by omega), if_pos jl]
      exact this
    by_cases jh : j = h
    · rw [if_neg (by subst jh; simp only [if_true]; rw [if_neg il, if_neg ih, if_neg (by omega)]; omega), if_neg ih, if_neg il, if_pos jh]
      by_cases hil : i < l
      · have := g2 i l hi hil (by omega)
        rwa [if_neg (left i hi hil)] at this
      · have := g2 l i hl (by omega) (by omega)
        rwa [if_pos (mid i (by omega) (by omega)).symm] at this
    · simp only [if_neg ih, if_neg il, if_neg jh, if_neg jl]
      by_cases hc : f i = f j
      · rw [if_pos hc] at gij
        rwa [if_pos (by omega)]
      · rw [if_neg hc] at gij
        rwa [if_neg (by omega)]

theorem cnt_ge {P : Nat → Prop} [DecidablePred P] {a b : Nat} (T : Finset Nat) (h : ∀ x ∈ T, (a ≤ x ∧ x < b) ∧ P x) : T.card ≤ cnt P a b := by
  unfold cnt
  refine Finset.card_le_card fun x hx => ?_
  rw [Finset.mem_filter, Finset.mem_Ico]
  exact h x hx

/-- two elements that are not greater than the pivot have company -/
theorem Lay.low (hL : Lay r s m) {p : ρ} {q1 q2 a d : Nat} (ha : s.off + a ≤ q1) (hd : q1 + d ≤ q2) (hlt : q1 < q2) (hq : q2 < s.off + s.len)
    (h1 : r (m q1) ≤ p) (h2 : r (m q2) ≤ p) : min (a + 2) (d + 1) ≤ cnt (fun x => r (m x) ≤ p) s.off (s.off + s.len) := by
  obtain ⟨f, g1, g2⟩ := hL
  by_cases hf : f q1 = f q2
  · refine (min_le_right _ _).trans (le_trans ?_ (cnt_ge (Finset.Ico q1 (q2 + 1)) ?_))
    · simp; omega
    · intro x hx
      rw [Finset.mem_Ico] at hx
      refine ⟨by omega, ?_⟩
      rcases hx.1.eq_or_lt with rfl | hx1
      · exact h1
      · have := g2 q1 x (by omega) hx1 (by omega)
        have e1 := g1 q1 x (by omega) hx.1 (by omega)
        have e2 := g1 x q2 (by omega) (by omega) (by omega)
        rw [if_pos (by omega)] at this
        exact this.le.trans h1
  · refine (min_le_left _ _).trans (le_trans ?_ (cnt_ge (insert q2 (Finset.Ico s.off (q1 + 1))) ?_))
    · rw [Finset.card_insert_of_notMem (by simp; omega)]
      simp; omega
    · intro x hx
      rw [Finset.mem_insert, Finset.mem_Ico] at hx
      rcases hx with rfl | hx
      · exact ⟨by omega, h2⟩
      · refine ⟨by omega, ?_⟩
        have := g2 x q2 (by omega) (by omega) (by omega)
        have e1 := g1 x q1 (by omega) (by omega) (by omega)
        have e2 := g1 q1 q2 (by omega) (by omega) (by omega)
        rw [if_neg (by omega)] at this
        exact this.le.trans h2

theorem Lay.high (hL : Lay r s m) {p : ρ} {q1 q2 b d : Nat} (ha : s.off ≤ q1) (hd : q1 + d ≤ q2) (hlt : q1 < q2) (hq : q2 + b < s.off + s.len)
    (h1 : p ≤ r (m q1)) (h2 : p ≤ r (m q2)) : min (b + 2) (d + 1) ≤ cnt (fun x => p ≤ r (m x)) s.off (s.off + s.len) := by
  obtain ⟨f, g1, g2⟩ := hL
  by_cases hf : f q1 = f q2
  · refine (min_le_right _ _).trans (le_trans ?_ (cnt_ge (Finset.Ico q1 (q2 + 1)) ?_))
    · simp; omega
    · intro x hx
      rw [Finset.mem_Ico] at hx
      refine ⟨by omega, ?_⟩
      rcases (show x ≤ q2 by omega).eq_or_lt with rfl | hx1
      · exact h2
      · have := g2 x q2 (by omega) hx1 (by omega)
        have e1 := g1 q1 x (by omega) hx.1 (by omega)
        have e2 := g1 x q2 (by omega) (by omega) (by omega)
        rw [if_pos (by omega)] at this
        exact h2.trans this.le
  · refine (min_le_left _ _).trans (le_trans ?_ (cnt_ge (insert q1 (Finset.Ico q2 (s.off + s.len))) ?_))
    · rw [Finset.card_insert_of_notMem (by simp; omega)]
      simp; omega
    · intro x hx
      rw [Finset.mem_insert, Finset.mem_Ico] at hx
      rcases hx with rfl | hx
      · exact ⟨by omega, h1⟩
      · refine ⟨by omega, ?_⟩
        have := g2 q1 x (by omega) (by omega) (by omega)
        have e1 := g1 q2 x (by omega) (by omega) (by omega)
        have e2 := g1 q1 q2 (by omega) (by omega) (by omega)
        rw [if_neg (by omega)] at this
        exact h1.trans this.le

/-- the samples of a half, in order -/
theorem half_idx {A : V → Prop} {g : Nat → V} {N c : Nat} (h : Half A ((List.range N).map g)) (hc : 2 * c ≤ N + 1) :
    ∃ i : Nat → Nat, (∀ a b, a < b → b < c → i a < i b) ∧ ∀ a, a < c → i a < N ∧ A (g (i a)) := by
  obtain ⟨k, h1, h2, h3⟩ := h
  obtain ⟨e, he⟩ := List.sublist_iff_exists_fin_orderEmbedding_get_eq.1 h1
  have hl : ((List.range N).map g).length = N := by simp
  rw [hl] at h3
  have hck : c ≤ k.length := by omega
  refine ⟨fun a => if ha : a < k.length then (e ⟨a, ha⟩ : Nat) else 0, ?_, ?_⟩
  · intro a b hab hb
    dsimp only
    rw [dif_pos (by omega), dif_pos (by omega)]
    exact e.strictMono (show (⟨a, by omega⟩ : Fin k.length) < ⟨b, by omega⟩ from hab)
  · intro a ha
    dsimp only
    rw [dif_pos (by omega)]
    have hlt := (e ⟨a, by omega⟩).2
    refine ⟨hlt.trans_eq hl, ?_⟩
    have h4 := he ⟨a, by omega⟩
    have h5 := h2 _ (List.get_mem k ⟨a, by omega⟩)
    rw [h4] at h5
    simpa using h5

/-- how far apart samples are -/
theorem samp_far {n N : Nat} (h3 : 3 ≤ N) (h6 : N ≤ 6) (h10 : 10 ≤ n) (hn : 2 * N ≤ n) :
    n ≤ 12 * (minMaxSample n N).2.1 ∧ (N ≤ 4 → n ≤ 12 * ((minMaxSample n N).1 + 1) ∧ n ≤ 12 * (n - (minMaxSample n N).2.2)) := by
  unfold minMaxSample
  have hN : N = 3 ∨ N = 4 ∨ N = 5 ∨ N = 6 := by omega
  rcases hN with rfl | rfl | rfl | rfl
  · dsimp only; split_ifs <;> dsimp only <;> omega
  · obtain ⟨q, b, hb, rfl⟩ : ∃ q b, b < 8 ∧ n = 8 * q + b := ⟨n / 8, n % 8, by omega, by omega⟩
    interval_cases b <;> dsimp only <;> split_ifs <;> dsimp only <;> omega
  · dsimp only; split_ifs <;> dsimp only <;> omega
  · dsimp only; split_ifs <;> dsimp only <;> omega

/-- a pivot that is a median of well spread samples is not extreme -/
theorem Lay.mids (hL : Lay r s m) {N : Nat} {p : ρ} (h3 : 3 ≤ N) (h6 : N ≤ 6) (h10 : 10 ≤ s.len) (hn : 2 * N ≤ s.len)
    (hlo : Half (fun c => r c ≤ p) (picks (s.view m) (minMaxSample s.len N).1 (minMaxSample s.len N).2.1 N))
    (hhi : Half (fun c => p ≤ r c) (picks (s.view m) (minMaxSample s.len N).1 (minMaxSample s.len N).2.1 N)) :
    ∃ g, s.len ≤ 12 * g ∧ g + 1 ≤ cnt (fun x => r (m x) ≤ p) s.off (s.off + s.len) ∧ g + 1 ≤ cnt (fun x => p ≤ r (m x)) s.off (s.off + s.len) := by
  obtain ⟨b1, b2, b3⟩ := minMaxSample_bounds (by omega : 2 ≤ N) hn
  obtain ⟨f1, f2⟩ := samp_far h3 h6 h10 hn
  generalize (minMaxSample s.len N).1 = first at *
  generalize (minMaxSample s.len N).2.1 = step at *
  generalize (minMaxSample s.len N).2.2 = last at *
  have hin : ∀ j < N, first + j * step ≤ last := by
    intro j hj
    have : j * step ≤ (N - 1) * step := Nat.mul_le_mul_right _ (by omega)
    omega
  have gap : ∀ i j, i < j → i * step + step ≤ j * step := by
    intro i j hij
    rw [← Nat.succ_mul]
    exact Nat.mul_le_mul_right _ hij
  rw [picks_view (fun j hj => by have := hin j hj; omega)] at hlo hhi
  by_cases h4 : N ≤ 4
  · obtain ⟨e1, e2⟩ := f2 h4
    obtain ⟨i, i1, i2⟩ := half_idx (c := 2) hlo (by omega)
    obtain ⟨j, j1, j2⟩ := half_idx (c := 2) hhi (by omega)
    have gi := gap _ _ (i1 0 1 (by omega) (by omega))
    have gj := gap _ _ (j1 0 1 (by omega) (by omega))
    have ni := hin _ (i2 1 (by omega)).1
    have nj := hin _ (j2 1 (by omega)).1
    have c1 := hL.low (q1 := s.off + (first + i 0 * step)) (q2 := s.off + (first + i 1 * step)) (a := first) (d := step)
      (by omega) (by omega) (by omega) (by omega) (i2 0 (by omega)).2 (i2 1 (by omega)).2
    have c2 := hL.high (q1 := s.off + (first + j 0 * step)) (q2 := s.off + (first + j 1 * step)) (b := s.len - 1 - last) (d := step)
      (by omega) (by omega) (by omega) (by omega) (j2 0 (by omega)).2 (j2 1 (by omega)).2
    exact ⟨min step (min (first + 1) (s.len - last)), by omega, by omega, by omega⟩
  · obtain ⟨i, i1, i2⟩ := half_idx (c := 3) hlo (by omega)
    obtain ⟨j, j1, j2⟩ := half_idx (c := 3) hhi (by omega)
    have gi := gap _ _ (i1 0 1 (by omega) (by omega))
    have gi' := gap _ _ (i1 1 2 (by omega) (by omega))
    have gj := gap _ _ (j1 0 1 (by omega) (by omega))
    have gj' := gap _ _ (j1 1 2 (by omega) (by omega))
    have ni := hin _ (i2 2 (by omega)).1
    have nj := hin _ (j2 2 (by omega)).1
    have c1 := hL.low (q1 := s.off + (first + i 1 * step)) (q2 := s.off + (first + i 2 * step)) (a := step) (d := step)
      (by omega) (by omega) (by omega) (by omega) (i2 1 (by omega)).2 (i2 2 (by omega)).2
    have c2 := hL.high (q1 := s.off + (first + j 0 * step)) (q2 := s.off + (first + j 1 * step)) (b := step) (d := step)
      (by omega) (by omega) (by omega) (by omega) (j2 0 (by omega)).2 (j2 1 (by omega)).2
    exact ⟨step, f1, by omega, by omega⟩

end Sorty
