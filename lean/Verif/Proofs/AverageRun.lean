import Verif.Proofs.Average

/-! # The average cost of sorting a range -/

namespace Sorty

open Prog

variable {V κ : Type} {ρ : Type} [LinearOrder ρ] {s : Slice} {F : Fam V κ} {ok : κ → Prop} {rk : κ → ρ}

/-- the addresses of the samples -/
def smp (s : Slice) (N : Nat) : Finset Nat :=
  (Finset.range N).image fun j => s.off + ((minMaxSample s.len N).1 + j * (minMaxSample s.len N).2.1)

theorem smp_inj {N : Nat} (hN : 2 ≤ N) (hs : 2 * N ≤ s.len) :
    Function.Injective fun j => s.off + ((minMaxSample s.len N).1 + j * (minMaxSample s.len N).2.1) := by
  obtain ⟨b1, -, -⟩ := minMaxSample_bounds hN hs
  intro i j e
  dsimp only at e
  exact Nat.eq_of_mul_eq_mul_right (by omega : 0 < (minMaxSample s.len N).2.1) (by omega)

theorem smp_card {N : Nat} (hN : 2 ≤ N) (hs : 2 * N ≤ s.len) : (smp s N).card = N := by
  unfold smp
  rw [Finset.card_image_of_injective _ (smp_inj hN hs), Finset.card_range]

theorem smp_in {N : Nat} (hN : 2 ≤ N) (hs : 2 * N ≤ s.len) {j : Nat} (hj : j < N) : (minMaxSample s.len N).1 + j * (minMaxSample s.len N).2.1 < s.len := by
  obtain ⟨-, b2, b3⟩ := minMaxSample_bounds hN hs
  have : j * (minMaxSample s.len N).2.1 ≤ (N - 1) * (minMaxSample s.len N).2.1 := Nat.mul_le_mul_right _ (by omega)
  omega

theorem smp_sub {N : Nat} (hN : 2 ≤ N) (hs : 2 * N ≤ s.len) : smp s N ⊆ s.fin := by
  intro a ha
  obtain ⟨j, hj, rfl⟩ := Finset.mem_image.1 ha
  have := smp_in hN hs (Finset.mem_range.1 hj)
  exact Slice.mem_fin.2 ⟨by omega, by omega⟩

theorem half_card {N c : Nat} (hN : 2 ≤ N) (hs : 2 * N ≤ s.len) {A : V → Prop} [DecidablePred A] {m : Mem V} (hc : 2 * c ≤ N + 1)
    (h : Half A (picks (s.view m) (minMaxSample s.len N).1 (minMaxSample s.len N).2.1 N)) : c ≤ ((smp s N).filter fun a => A (m a)).card := by
  rw [picks_view fun j hj => smp_in hN hs hj] at h
  obtain ⟨i, i1, i2⟩ := half_idx h hc
  have hinj : Set.InjOn i (Finset.range c : Set Nat) := by
    intro a ha b hb e
    simp only [Finset.coe_range, Set.mem_Iio] at ha hb
    rcases lt_trichotomy a b with h1 | h1 | h1
    · have := i1 a b h1 hb; omega
    · exact h1
    · have := i1 b a h1 ha; omega
  rw [← Finset.card_range c, ← Finset.card_image_of_injOn hinj, ← Finset.card_image_of_injective _ (smp_inj hN hs)]
  refine Finset.card_le_card fun a ha => ?_
  obtain ⟨b, hb, rfl⟩ := Finset.mem_image.1 ha
  obtain ⟨d, hd, rfl⟩ := Finset.mem_image.1 hb
  rw [Finset.mem_range] at hd
  rw [Finset.mem_filter]
  exact ⟨Finset.mem_image.2 ⟨_, Finset.mem_range.2 (i2 d hd).1, rfl⟩, (i2 d hd).2⟩

theorem mid_short (hF : FamOK F ok rk) (hmean : F.mean = none) (hlen : 10 ≤ s.len) (m : Mem V) (hf : Fit F ok rk s m) :
    ∃ c0 pv, TIn s.rng (shortPivot F s : Prog V (VSp κ) κ) m c0 pv m ∧ c0 ≤ 6 ∧ ok pv ∧ Middle (fun v => rk (F.key v)) (smp s 3) 1 m (rk pv) := by
  have e : (shortPivot F s : Prog V (VSp κ) κ) = shortPivot3 F s := by
    unfold shortPivot
    rw [hmean]
  obtain ⟨c0, pv, m0, e0, em, hp, h1, h2⟩ := tin_of (A := s.rng) (fun _ _ _ _ _ h => h)
    (shortPivot3_half (Sp := VSp κ) (cmp := fun _ _ _ _ _ => False) (W := s.rng) (R := ∅) hF (by simp) (by omega) hf.ok)
  rw [em, ← e] at e0
  have := paid e0.runs (cost_shortPivot rfl)
  exact ⟨c0, pv, e0, by omega, hp, half_card (A := fun c => rk (F.key c) ≤ rk pv) (by omega) (by omega) (by omega) h1,
    half_card (A := fun c => rk pv ≤ rk (F.key c)) (by omega) (by omega) (by omega) h2⟩

theorem mid_long (hF : FamOK F ok rk) (hmean : F.mean = none) (hlen : 10 ≤ s.len) (m : Mem V) (hf : Fit F ok rk s m) :
    ∃ c0 pv, TIn s.rng (pivot F s F.nLong : Prog V (VSp κ) κ) m c0 pv m ∧ c0 ≤ 6 ∧ ok pv ∧ Middle (fun v => rk (F.key v)) (smp s 5) 2 m (rk pv) := by
  have e : F.nLong = 5 := by
    unfold Fam.nLong nsLong
    rw [hmean]
    rfl
  rw [e]
  obtain ⟨c0, pv, m0, e0, em, hp, σ, s', h⟩ := tin_of (A := s.rng) (fun _ _ _ _ _ h => h)
    (pivot_mid (Sp := VSp κ) (cmp := fun _ _ _ _ _ => False) (W := s.rng) (R := ∅) hF (by simp) (by omega : 2 ≤ 5) (by omega) hf.ok)
  rw [em] at e0
  obtain ⟨h1, h2⟩ := h.half (by omega) (by omega) (.inl hmean)
  have := paid e0.runs (cost_pivot rfl _)
  exact ⟨c0, pv, e0, by omega, hp, half_card (A := fun c => rk (F.key c) ≤ rk pv) (by omega) (by omega) (by omega) h1,
    half_card (A := fun c => rk pv ≤ rk (F.key c)) (by omega) (by omega) (by omega) h2⟩

/-- sorting within the bound on average -/
def Good (F : Fam V κ) (ok : κ → Prop) (rk : κ → ρ) (p : Prog V (VSp κ) Unit) (s : Slice) : Prop :=
  Ends F ok rk p s ∧ AvgLe F ok rk p s (avgB F.maxIns s.len)

theorem good_insertion (hF : FamOK F ok rk) (h1 : 1 ≤ s.len) (hlen : s.len ≤ F.maxIns) : Good F ok rk (insertion F.key F.lt s) s := by
  have hrun : ∀ m, Fit F ok rk s m → ∃ c m', TIn s.rng (insertion F.key F.lt s : Prog V (VSp κ) Unit) m c () m' ∧ RP s.rng m m' ∧ c ≤ s.len * (s.len + 1) := by
    intro m hf
    obtain ⟨c, _, m', e, h, -⟩ := tin_of (A := s.rng) (fun _ _ _ _ _ h => h)
      (insertion_spec (Sp := VSp κ) (cmp := fun _ _ _ _ _ => False) (W := s.rng) (R := ∅) hF.ltOK subset_rfl hf.ok)
    exact ⟨c, m', e, h, paid e.runs (cost_insertion vmeter_wa)⟩
  refine ⟨fun m hf => ?_, fun 𝓜 X Y hX hok => ?_⟩
  · obtain ⟨c, m', e, h, -⟩ := hrun m hf
    exact ⟨c, m', e, h⟩
  · rw [← nsmul_eq_mul, ← Finset.sum_const]
    refine Finset.sum_le_sum fun m hm => ?_
    obtain ⟨c, m', e, -, hc⟩ := hrun m ⟨hok m hm, hX.inj m hm⟩
    rw [tcost_eq e.runs]
    have a1 : (c : ℝ) ≤ s.len * (s.len + 1) := by exact_mod_cast hc
    have a2 : (s.len : ℝ) ≤ F.maxIns := by exact_mod_cast hlen
    have a3 : (1 : ℝ) ≤ s.len := by exact_mod_cast h1
    have a4 := xlog_nonneg s.len
    unfold avgB
    nlinarith

theorem parts_len {k : Nat} (h0 : 0 < k) (h1 : k < s.len) :
    (parts s k).1.len + (parts s k).2.len = s.len ∧ 0 < (parts s k).1.len ∧ (parts s k).1.len ≤ (parts s k).2.len ∧ (parts s k).2.off ≠ (parts s k).1.off := by
  unfold parts
  split_ifs <;> dsimp only <;> omega

theorem avg_short (hF : FamOK F ok rk) (hmean : F.mean = none) : ∀ (f d : Nat) (s : Slice), s.len ≤ f →
    F.maxIns < s.len → s.len < 2 ^ d → Good F ok rk (short F f d s) s := by
  have h8 : 8 < F.maxIns := hF.ins
  intro f
  induction f with
  | zero => intro d s h1 h2; omega
  | succ f ih =>
    intro d s hf hins hd
    obtain ⟨d, rfl⟩ : ∃ d', d = d' + 1 := by
      cases d with
      | zero => simp at hd; omega
      | succ d => exact ⟨d, rfl⟩
    have hd' := hd
    rw [pow_succ] at hd'
    have h10 : 10 ≤ s.len := by omega
    unfold Good short
    refine avg_round hF h10 (smp_sub (N := 3) (by omega) (by omega)) (.inl rfl) (smp_card (by omega) (by omega)) (mid_short hF hmean h10)
      (fun k => if (parts s k).1.len > F.maxIns then short F f d (parts s k).1 else insertion F.key F.lt (parts s k).1)
      (fun k => if (parts s k).2.len > F.maxIns then short F f (d + 1) (parts s k).2 else insertion F.key F.lt (parts s k).2) ?_ ?_ ?_
    · intro k k0 k1 c1 c2 m1 m2 m3 ea eb
      obtain ⟨l1, l2, l3, l4⟩ := parts_len k0 k1
      generalize parts s k = x at *
      obtain ⟨aq, ar⟩ := x
      dsimp only at *
      by_cases hq : aq.len > F.maxIns
      · rw [if_pos hq] at ea ⊢
        rw [if_pos (by omega)] at eb
        exact ea.bind eb
      · rw [if_neg hq] at ea ⊢
        by_cases hr : ar.len > F.maxIns
        · rw [if_pos hr] at eb
          refine TIn.bind (TIn.brk (a := true) (m1 := m2) (n := c1) ?_) ?_
          · refine TIn.bind (k := 0) ea ?_
            rw [if_pos hr]
            exact .ret _ _
          rw [if_pos rfl]
          exact eb
        · rw [if_neg hr] at eb
          refine TIn.bind (k := 0) (a := false) (m1 := m3) ?_ (by rw [if_neg (by simp)]; exact .ret _ _)
          refine TIn.again (s' := ar) (m1 := m2) (n := c1) (k := c2) ?_ (TIn.brk ?_)
          · refine TIn.bind (k := 0) ea ?_
            rw [if_neg hr]
            unfold Slice.addrNe
            rw [if_pos ⟨by omega, by omega⟩]
            show TIn _ (if (ar.off != aq.off) = true then _ else _) _ _ _ _
            rw [if_pos (by simp [l4])]
            exact .ret _ _
          · refine TIn.bind (k := 0) eb ?_
            rw [if_neg hr]
            unfold Slice.addrNe
            rw [if_pos ⟨by omega, by omega⟩]
            show TIn _ (if (ar.off != ar.off) = true then _ else _) _ _ _ _
            rw [if_neg (by simp)]
            exact .ret _ _
    · intro k k0 k1
      obtain ⟨l1, l2, l3, l4⟩ := parts_len k0 k1
      split_ifs with hq
      · exact ih d _ (by omega) hq (by omega)
      · exact good_insertion hF (by omega) (by omega)
    · intro k k0 k1
      obtain ⟨l1, l2, l3, l4⟩ := parts_len k0 k1
      split_ifs with hq
      · exact ih (d + 1) _ (by omega) hq (by omega)
      · exact good_insertion hF (by omega) (by omega)

theorem avg_long (hF : FamOK F ok rk) (hmean : F.mean = none) : ∀ (f d : Nat) (s : Slice), s.len ≤ f →
    F.maxRec < s.len → 2 * s.len < 2 ^ d → Good F ok rk (long F f d s false) s := by
  have h8 : 8 < F.maxIns := hF.ins
  have hrec := hF.recOK
  intro f
  induction f with
  | zero => intro d s h1 h2; omega
  | succ f ih =>
    intro d s hf hl hd
    obtain ⟨d, rfl⟩ : ∃ d', d = d' + 1 := by
      cases d with
      | zero => simp at hd; omega
      | succ d => exact ⟨d, rfl⟩
    have hd' := hd
    rw [pow_succ] at hd'
    have h10 : 10 ≤ s.len := by omega
    unfold Good long
    refine avg_round hF h10 (smp_sub (N := 5) (by omega) (by omega)) (.inr rfl) (smp_card (by omega) (by omega)) (mid_long hF hmean h10)
      (fun k => if (parts s k).1.len ≤ F.maxRec then
          (if (parts s k).1.len > F.maxIns then short F f d (parts s k).1 else insertion F.key F.lt (parts s k).1)
        else long F f d (parts s k).1 false)
      (fun k => if (parts s k).2.len > F.maxRec then long F f (d + 1) (parts s k).2 false else short F f d (parts s k).2) ?_ ?_ ?_
    · intro k k0 k1 c1 c2 m1 m2 m3 ea eb
      obtain ⟨l1, l2, l3, l4⟩ := parts_len k0 k1
      generalize parts s k = x at *
      obtain ⟨aq, ar⟩ := x
      dsimp only at *
      by_cases hq : aq.len ≤ F.maxRec
      · rw [if_pos hq] at ea ⊢
        by_cases hc : aq.len > F.maxIns
        · rw [if_pos hc] at ea ⊢
          exact ea.bind eb
        · rw [if_neg hc] at ea ⊢
          exact ea.bind eb
      · rw [if_neg hq] at ea ⊢
        rw [if_pos (by omega)] at eb
        exact ea.bind eb
    · intro k k0 k1
      obtain ⟨l1, l2, l3, l4⟩ := parts_len k0 k1
      split_ifs with hq hc
      · exact avg_short hF hmean f d _ (by omega) hc (by omega)
      · exact good_insertion hF (by omega) (by omega)
      · exact ih d _ (by omega) (by omega) (by omega)
    · intro k k0 k1
      obtain ⟨l1, l2, l3, l4⟩ := parts_len k0 k1
      split_ifs with hq
      · exact ih (d + 1) _ (by omega) hq (by omega)
      · exact avg_short hF hmean f d _ (by omega) (by omega) (by omega)

end Sorty
