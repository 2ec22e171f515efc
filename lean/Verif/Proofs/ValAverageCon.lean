import Verif.Proofs.AverageCon
import Verif.Proofs.ValAverage
import Verif.Proofs.ValFew

/-! # The average cost of calls of SortSlice for any number of goroutines -/

namespace Sorty

open Prog

variable {C : Conf} {id : FamId} {s : Slice}

section
variable {V κ : Type} {ρ : Type} [LinearOrder ρ] {F : Fam V κ} {ok : κ → Prop} {rk : κ → ρ}

omit [LinearOrder ρ] in
theorem fit_perm {v : Fin s.len → V} (hok : ∀ i, ok (F.key (v i))) (hinj : ∀ i j, rk (F.key (v i)) = rk (F.key (v j)) → i = j) {m : Mem V}
    {σ : Equiv.Perm (Fin s.len)} (hm : ∀ i : Fin s.len, m (s.off + i) = v (σ i)) : Fit F ok rk s m := by
  have h1 : ∀ a (h : a ∈ s.rng), m a = v (σ ⟨a - s.off, by have := h.1; have := h.2; omega⟩) := by
    intro a h
    have := hm ⟨a - s.off, by have := h.1; have := h.2; omega⟩
    dsimp only at this
    rwa [show s.off + (a - s.off) = a by have := h.1; omega] at this
  refine ⟨fun a ha => by rw [h1 a ha]; exact hok _, fun i hi j hj e => ?_⟩
  rw [h1 i hi, h1 j hj] at e
  have := congrArg Fin.val (σ.injective (hinj _ _ e))
  have := hi.1; have := hj.1
  dsimp only at *
  omega

open Classical in
/-- the average over all orders -/
theorem avgC_sum {c : Mem V → Nat} {b : ℝ} (hc : AvgC F ok rk c s b) (hloc : ∀ m m', Agree s.rng m m' → c m = c m') {v : Fin s.len → V}
    (hok : ∀ i, ok (F.key (v i))) (hinj : ∀ i j, rk (F.key (v i)) = rk (F.key (v j)) → i = j) {m : Equiv.Perm (Fin s.len) → Mem V}
    (hm : ∀ σ (i : Fin s.len), m σ (s.off + i) = v (σ i)) : ∑ σ, (c (m σ) : ℝ) ≤ (s.len.factorial : ℝ) * b := by
  have hpl : ∀ σ (i : Fin s.len), placed s v (m 1) σ (s.off + i) = v (σ i) := by
    intro σ i
    rw [placed_at (by omega) (by have := i.isLt; omega)]
    congr 2
    ext
    simp
  have hfit : ∀ σ, Fit F ok rk s (placed s v (m 1) σ) := fun σ => fit_perm hok hinj (hpl σ)
  have hcost : ∀ σ, c (m σ) = c (placed s v (m 1) σ) := by
    intro σ
    refine hloc _ _ fun a ha => ?_
    rw [placed_at ha.1 ha.2, ← hm]
    have := ha.1
    congr 1
    dsimp only
    omega
  have hpi : Function.Injective (placed s v (m 1)) := by
    intro σ σ' e
    ext i
    have h1 := congrFun e (s.off + i)
    rw [hpl, hpl] at h1
    rw [hinj _ _ (congrArg (fun x => rk (F.key x)) h1)]
  have hX : Exch (fun v => rk (F.key v)) s (Finset.univ.image (placed s v (m 1))) ∅ ∅ := by
    refine ⟨?_, fun _ _ x hx => absurd hx (Finset.notMem_empty x), fun _ _ x hx => absurd hx (Finset.notMem_empty x), ?_⟩
    · intro m' hm'
      obtain ⟨σ, -, rfl⟩ := Finset.mem_image.1 hm'
      exact (hfit σ).inj
    · intro m' hm' x hx y hy _ _ _ _
      obtain ⟨σ, -, rfl⟩ := Finset.mem_image.1 hm'
      rw [placed_swap hx.1 hx.2 hy.1 hy.2]
      exact Finset.mem_image_of_mem _ (Finset.mem_univ _)
  have := hc _ _ _ hX (by
    intro m' hm'
    obtain ⟨σ, -, rfl⟩ := Finset.mem_image.1 hm'
    exact (hfit σ).ok)
  rw [Finset.sum_image fun _ _ _ _ e => hpi e, Finset.card_image_of_injective _ hpi, Finset.card_univ, Fintype.card_perm, Fintype.card_fin] at this
  simp only [hcost]
  exact this

theorem rcost_congr (hF : FamOK F ok rk) {m m' : Mem V} (h : Agree s.rng m m') : rcost F rk s m = rcost F rk s m' := by
  unfold rcost
  rw [lcost_congr hF.ins h]
  split_ifs with h1
  · rw [ucost_congr hF h1 h]
  · rfl

end

theorem kpaid_sortOf (hC : C.OK) (hmean : (fam C id).mean = none) (hd : DepthFor C.depth s.len) {m : Mem Cell}
    (hf : Fit (fam C id) (okOf id) (rkOf id) s m) :
    kw (vspec (fam C id) (okOf id) (rkOf id) C.depth) (lkm (fam C id) (okOf id) (rkOf id)) (fun _ _ => True) (sortOf C id s) none m
      (rcost (fam C id) (rkOf id) s m + 4 * s.len) fun _ _ _ _ => True := by
  have hV : ∀ n, rcost (fam C id) (rkOf id) s m ≤ n → kw (vspec (fam C id) (okOf id) (rkOf id) C.depth) (lkm (fam C id) (okOf id) (rkOf id))
      (fun _ _ => True) (sortV (fam C id) C.depth s) none m n fun _ _ _ _ => True := by
    intro n hn
    unfold rcost at hn
    refine kpaid_sortV (famOK hC id) hmean le_rfl (depth_pow hd) hf (by omega) fun h => ?_
    rw [if_pos h] at hn
    omega
  unfold sortOf
  by_cases hfl : id = .F4 ∨ id = .F8
  · rw [if_pos hfl]
    have hn : ∀ a ∈ s.rng, cellNaN (m a) = false := fun a ha => by
      cases hh : cellNaN (m a) with
      | false => rfl
      | true => exact absurd (hf.ok a ha) (nan_not_ok (by simp [FamId.float, hfl]) hh)
    by_cases o1 : C.nanOption = 1
    · rw [if_pos o1]
      obtain ⟨k, hk⟩ := runs_nanToEnd (Sp := VSp Key) hn
      have hc := paid hk (cost_nanToEnd vmeter_wa)
      exact hk.kw (by omega) (hV _ (by omega))
    · rw [if_neg o1]
      by_cases o2 : C.nanOption = -1
      · rw [if_pos o2]
        obtain ⟨k, hk⟩ := runs_nanToStart (Sp := VSp Key) hn
        have hc := paid hk (cost_nanToStart vmeter_wa)
        exact hk.kw (by omega) (hV _ (by omega))
      · rw [if_neg o2]
        exact hV _ (by omega)
  · rw [if_neg hfl]
    exact hV _ (by omega)

/-- every execution of a call -/
theorem call_paid (hC : C.OK) (hmean : (fam C id).mean = none) (hd : DepthFor C.depth s.len) (hl : s.len < 2 ^ 63) {m : Mem Cell}
    (hf : Fit (fam C id) (okOf id) (rkOf id) s m) {M : Nat} {stale : Prop} {c : Cfg Cell (VSp Key)} {n : Nat}
    (h : CSteps ((famCall C id s).par M stale) Prog.accs (start (famCall C id s).main m) c n) :
    n ≤ rcost (fam C id) (rkOf id) s m + 4 * s.len := by
  refine Inv.kmetered_le (G := fun _ _ => True) (call_hyp hC id m hl M stale) (lkm_local (famOK hC id) C.depth)
    ⟨_, Inv.start_at (n := s.len / ((fam C id).maxRec + 1)) le_rfl (sortOf_wp hC id hd fun a ha => .inl (hf.ok a ha)), rfl, subset_rfl⟩
    (fun sp m h1 h2 => kpaid_body (famOK hC id) hmean sp m h1 h2) (fun m' hag => ?_) h
  have hag' : Agree s.rng m m' := hag
  rw [rcost_congr (famOK hC id) hag']
  exact kpaid_sortOf hC hmean hd (hag'.fit hf)

/-- the average over all orders of the executions of a call, for any number of goroutines -/
theorem call_avg_con (hC : C.OK) (hmean : (fam C id).mean = none) (hd : DepthFor C.depth s.len) (hl : s.len < 2 ^ 63) {v : Fin s.len → Cell}
    (hok : ∀ i, cok C id (v i)) (hinj : ∀ i j, crk C id (v i) = crk C id (v j) → i = j) {m : Equiv.Perm (Fin s.len) → Mem Cell}
    (hm : ∀ σ (i : Fin s.len), m σ (s.off + i) = v (σ i)) {M : Equiv.Perm (Fin s.len) → Nat} {stale : Prop} {N : Equiv.Perm (Fin s.len) → Nat}
    (h : ∀ σ, ∃ c, CSteps ((famCall C id s).par (M σ) stale) Prog.accs (start (famCall C id s).main (m σ)) c (N σ)) :
    ∑ σ, N σ ≤ s.len.factorial * (10 * s.len * (10 * Nat.clog 2 s.len + C.maxLenIns + 24)) := by
  have hF := famOK hC id
  have hI : (fam C id).maxIns ≤ C.maxLenIns := by
    have := conf_ineq hC
    cases id <;> simp only [fam] <;> omega
  have hle : ∀ σ, N σ ≤ rcost (fam C id) (rkOf id) s (m σ) + 4 * s.len := by
    intro σ
    obtain ⟨c, hc⟩ := h σ
    exact call_paid hC hmean hd hl (fit_perm hok hinj (hm σ)) hc
  by_cases hs : 1 ≤ s.len
  · have hsum := avgC_sum (rcost_avg hF hmean hs fun h => ucost_avg hF hmean h) (fun _ _ h => rcost_congr hF h) hok hinj hm
    have h1 : ((∑ σ, N σ : Nat) : ℝ) ≤ ∑ σ, ((rcost (fam C id) (rkOf id) s (m σ) : ℝ) + 4 * s.len) := by
      rw [Nat.cast_sum]
      exact Finset.sum_le_sum fun σ _ => by exact_mod_cast hle σ
    rw [Finset.sum_add_distrib, Finset.sum_const, Finset.card_univ, Fintype.card_perm, Fintype.card_fin, nsmul_eq_mul] at h1
    have h2 := xlog_le s.len
    have h3 : ((fam C id).maxIns : ℝ) ≤ C.maxLenIns := by exact_mod_cast hI
    have h4 : 10 * avgB (fam C id).maxIns s.len + 4 * s.len ≤ ((10 * s.len * (10 * Nat.clog 2 s.len + C.maxLenIns + 24) : Nat) : ℝ) := by
      unfold avgB
      push_cast
      have : (0 : ℝ) ≤ s.len := Nat.cast_nonneg _
      nlinarith
    have h5 : ((∑ σ, N σ : Nat) : ℝ) ≤ ((s.len.factorial * (10 * s.len * (10 * Nat.clog 2 s.len + C.maxLenIns + 24)) : Nat) : ℝ) := by
      rw [Nat.cast_mul]
      refine h1.trans ((add_le_add hsum le_rfl).trans ?_)
      rw [← mul_add]
      exact mul_le_mul_of_nonneg_left h4 (Nat.cast_nonneg _)
    exact_mod_cast h5
  · have hz : ∀ σ, N σ = 0 := by
      intro σ
      have := hle σ
      have h8 : 8 < (fam C id).maxIns := hF.ins
      have hrec := hF.recOK
      unfold rcost at this
      rw [lcost, if_pos (by omega), if_neg (by omega), show s.len = 0 by omega] at this
      omega
    rw [Finset.sum_eq_zero fun σ _ => hz σ]
    exact Nat.zero_le _

end Sorty
