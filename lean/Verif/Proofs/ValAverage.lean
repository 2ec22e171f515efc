import Verif.Proofs.AverageRun
import Verif.Logic.Single
import Verif.Proofs.ValSlow
import Mathlib.Data.Fintype.Perm

/-! # The average cost of calls of SortSlice -/

namespace Sorty

open Prog

variable {C : Conf} {id : FamId} {s : Slice} {G : Nat}

section
variable {V κ : Type} {ρ : Type} [LinearOrder ρ] {F : Fam V κ} {ok : κ → Prop} {rk : κ → ρ}

/-- the elements `v` in the order `σ` -/
def placed (s : Slice) (v : Fin s.len → V) (m0 : Mem V) (σ : Equiv.Perm (Fin s.len)) : Mem V := fun a =>
  if h : s.off ≤ a ∧ a < s.off + s.len then v (σ ⟨a - s.off, by omega⟩) else m0 a

theorem placed_at {v : Fin s.len → V} {m0 : Mem V} {σ : Equiv.Perm (Fin s.len)} {a : Nat} (h1 : s.off ≤ a) (h2 : a < s.off + s.len) :
    placed s v m0 σ a = v (σ ⟨a - s.off, by omega⟩) := by
  unfold placed
  rw [dif_pos ⟨h1, h2⟩]

theorem placed_swap {v : Fin s.len → V} {m0 : Mem V} {σ : Equiv.Perm (Fin s.len)} {x y : Nat} (hx1 : s.off ≤ x) (hx2 : x < s.off + s.len)
    (hy1 : s.off ≤ y) (hy2 : y < s.off + s.len) :
    placed s v m0 σ ∘ Equiv.swap x y = placed s v m0 (σ * Equiv.swap ⟨x - s.off, by omega⟩ ⟨y - s.off, by omega⟩) := by
  funext a
  simp only [Function.comp_apply]
  by_cases ha : s.off ≤ a ∧ a < s.off + s.len
  · obtain ⟨ha1, ha2⟩ := ha
    rw [placed_at (a := a) ha1 ha2, Equiv.Perm.mul_apply, Equiv.swap_apply_def, Equiv.swap_apply_def]
    simp only [Fin.mk.injEq]
    by_cases e1 : a = x
    · rw [if_pos e1, if_pos (by omega), placed_at hy1 hy2]
    · by_cases e2 : a = y
      · rw [if_neg e1, if_neg (show ¬ a - s.off = x - s.off by omega), if_pos e2, if_pos (by omega), placed_at hx1 hx2]
      · rw [if_neg e1, if_neg (show ¬ a - s.off = x - s.off by omega), if_neg e2, if_neg (show ¬ a - s.off = y - s.off by omega), placed_at ha1 ha2]
  · rw [Equiv.swap_apply_of_ne_of_ne (by omega) (by omega)]
    unfold placed
    rw [dif_neg ha, dif_neg ha]

open Classical in
/-- the average over all orders -/
theorem good_sum {p : Prog V (VSp κ) Unit} (hp : Good F ok rk p s) {v : Fin s.len → V} (hok : ∀ i, ok (F.key (v i)))
    (hinj : ∀ i j, rk (F.key (v i)) = rk (F.key (v j)) → i = j) {m : Equiv.Perm (Fin s.len) → Mem V} (hm : ∀ σ (i : Fin s.len), m σ (s.off + i) = v (σ i)) :
    ∑ σ, (tcost p (m σ) : ℝ) ≤ (s.len.factorial : ℝ) * avgB F.maxIns s.len := by
  have hfit : ∀ m0 σ, Fit F ok rk s (placed s v m0 σ) := by
    intro m0 σ
    refine ⟨fun a ha => by rw [placed_at ha.1 ha.2]; exact hok _, fun i hi j hj e => ?_⟩
    rw [placed_at hi.1 hi.2, placed_at hj.1 hj.2] at e
    have := congrArg Fin.val (σ.injective (hinj _ _ e))
    have := hi.1; have := hj.1
    dsimp only at *
    omega
  have hag : ∀ m0 σ, Agree s.rng (placed s v m0 σ) (m σ) := by
    intro m0 σ a ha
    rw [placed_at ha.1 ha.2, ← hm]
    have := ha.1
    congr 1
    dsimp only
    omega
  have hcost : ∀ σ, tcost p (m σ) = tcost p (placed s v (m 1) σ) := by
    intro σ
    obtain ⟨c, m', e, -⟩ := hp.1 _ (hfit (m 1) σ)
    obtain ⟨m1, e1, -⟩ := e.frame (hag (m 1) σ)
    rw [tcost_eq e.runs, tcost_eq e1.runs]
  have hpi : Function.Injective (placed s v (m 1)) := by
    intro σ σ' e
    ext i
    have h1 := congrFun e (s.off + i)
    have hi : s.off + (i : Nat) ∈ s.rng := ⟨by omega, by have := i.isLt; omega⟩
    rw [placed_at hi.1 hi.2, placed_at hi.1 hi.2] at h1
    have h2 := hinj _ _ (congrArg (fun x => rk (F.key x)) h1)
    simp only [Nat.add_sub_cancel_left] at h2
    rw [Fin.eta] at h2
    rw [h2]
  have hX : Exch (fun v => rk (F.key v)) s (Finset.univ.image (placed s v (m 1))) ∅ ∅ := by
    refine ⟨?_, fun _ _ x hx => absurd hx (Finset.notMem_empty x), fun _ _ x hx => absurd hx (Finset.notMem_empty x), ?_⟩
    · intro m' hm'
      obtain ⟨σ, -, rfl⟩ := Finset.mem_image.1 hm'
      exact (hfit _ σ).inj
    · intro m' hm' x hx y hy _ _ _ _
      obtain ⟨σ, -, rfl⟩ := Finset.mem_image.1 hm'
      rw [placed_swap hx.1 hx.2 hy.1 hy.2]
      exact Finset.mem_image_of_mem _ (Finset.mem_univ _)
  have := hp.2 _ _ _ hX (by
    intro m' hm'
    obtain ⟨σ, -, rfl⟩ := Finset.mem_image.1 hm'
    exact (hfit _ σ).ok)
  rw [Finset.sum_image fun _ _ _ _ e => hpi e, Finset.card_image_of_injective _ hpi, Finset.card_univ, Fintype.card_perm, Fintype.card_fin] at this
  simp only [hcost]
  exact this

end

/-- sorting in the calling goroutine -/
def sortBody (C : Conf) (id : FamId) (s : Slice) : Prog Cell (VSp Key) Unit :=
  if s.len > (fam C id).maxRec then long (fam C id) s.len C.depth s false
  else if s.len > (fam C id).maxIns then short (fam C id) s.len C.depth s
  else insertion (fam C id).key (fam C id).lt s

theorem good_body (hC : C.OK) (hmean : (fam C id).mean = none) (hs : 1 ≤ s.len) (hd : 2 * s.len < 2 ^ C.depth) :
    Good (fam C id) (okOf id) (rkOf id) (sortBody C id s) s := by
  have hF := famOK hC id
  unfold sortBody
  split_ifs with h1 h2
  · exact avg_long hF hmean _ _ _ le_rfl h1 hd
  · exact avg_short hF hmean _ _ _ le_rfl h2 (by omega)
  · exact good_insertion hF hs (by omega)

variable {m : Mem Cell}

theorem sortV_body {c : Nat} {m' : Mem Cell} (hG : G ≤ 1 ∨ s.len < 2 * ((fam C id).maxRec + 1)) (e : TRuns (sortBody C id s) m c () m') :
    (sortV (fam C id) C.depth s).most G m c := by
  have hm := e.most (G := G) le_rfl
  unfold sortBody at hm
  unfold sortV
  dsimp only
  by_cases hs : s.len < 2 * ((fam C id).maxRec + 1)
  · rw [if_pos hs]
    exact hm
  · rw [if_neg hs]
    intro g hg
    show (if decide (g ≤ 1) = true then _ else _ : Prog Cell (VSp Key) Unit).most G m _
    rw [if_pos (decide_eq_true (by omega))]
    exact hm

theorem sortOf_body {c : Nat} {m' : Mem Cell} (hG : G ≤ 1 ∨ s.len < 2 * ((fam C id).maxRec + 1)) (hok : ∀ a ∈ s.rng, cok C id (m a))
    (e : TRuns (sortBody C id s) m c () m') : (sortOf C id s).most G m (c + 4 * s.len) := by
  have hV := sortV_body hG e
  unfold sortOf
  by_cases hf : id = .F4 ∨ id = .F8
  · rw [if_pos hf]
    have hn : ∀ a ∈ s.rng, cellNaN (m a) = false := fun a ha => by
      cases hh : cellNaN (m a) with
      | false => rfl
      | true => exact absurd (hok a ha) (nan_not_ok (by simp [FamId.float, hf]) hh)
    by_cases o1 : C.nanOption = 1
    · rw [if_pos o1]
      obtain ⟨k, hk⟩ := runs_nanToEnd (Sp := VSp Key) hn
      have hc := paid hk (cost_nanToEnd vmeter_wa)
      exact hk.most_bind (by omega) (most_le hV (by omega))
    · rw [if_neg o1]
      by_cases o2 : C.nanOption = -1
      · rw [if_pos o2]
        obtain ⟨k, hk⟩ := runs_nanToStart (Sp := VSp Key) hn
        have hc := paid hk (cost_nanToStart vmeter_wa)
        exact hk.most_bind (by omega) (most_le hV (by omega))
      · rw [if_neg o2]
        exact most_le hV (by omega)
  · rw [if_neg hf]
    exact most_le hV (by omega)

/-- the average over all orders of the executions of a call -/
theorem call_avg (hC : C.OK) (hmean : (fam C id).mean = none) {M : Nat} (hM : M ≤ 1 ∨ s.len < 2 * ((fam C id).maxRec + 1))
    (hd : DepthFor C.depth s.len) {v : Fin s.len → Cell} (hok : ∀ i, cok C id (v i)) (hinj : ∀ i j, crk C id (v i) = crk C id (v j) → i = j)
    {m : Equiv.Perm (Fin s.len) → Mem Cell} (hm : ∀ σ (i : Fin s.len), m σ (s.off + i) = v (σ i)) {stale : Prop} {N : Equiv.Perm (Fin s.len) → Nat}
    (h : ∀ σ, ∃ c, CSteps ((famCall C id s).par M stale) Prog.accs (start (famCall C id s).main (m σ)) c (N σ)) :
    ∑ σ, N σ ≤ s.len.factorial * (s.len * (10 * Nat.clog 2 s.len + C.maxLenIns + 27)) := by
  have hI : (fam C id).maxIns ≤ C.maxLenIns := by
    have := conf_ineq hC
    cases id <;> simp only [fam] <;> omega
  have hokm : ∀ σ, ∀ a ∈ s.rng, cok C id (m σ a) := by
    intro σ a ha
    have := hm σ ⟨a - s.off, by have := ha.1; have := ha.2; omega⟩
    dsimp only at this
    rw [show s.off + (a - s.off) = a by have := ha.1; omega] at this
    rw [this]
    exact hok _
  have hle : ∀ σ {c m'}, TRuns (sortBody C id s) (m σ) c () m' → N σ ≤ c + 4 * s.len := by
    intro σ c m' e
    obtain ⟨_, hc⟩ := h σ
    obtain ⟨_, _, j, -, hj, -⟩ := most_all (G := M) (P := (famCall C id s).par M stale) le_rfl rfl (sortOf_body hM (hokm σ) e) hc
    omega
  by_cases hs : 1 ≤ s.len
  · have hgood := good_body (s := s) hC hmean hs (depth_pow hd)
    have hsum := good_sum hgood hok hinj hm
    have hle' : ∀ σ, N σ ≤ tcost (sortBody C id s) (m σ) + 4 * s.len := by
      intro σ
      obtain ⟨c, m', e, -⟩ := hgood.1 (m σ) ⟨hokm σ, fun i hi j hj e => by
        have h1 := hm σ ⟨i - s.off, by have := hi.1; have := hi.2; omega⟩
        have h2 := hm σ ⟨j - s.off, by have := hj.1; have := hj.2; omega⟩
        dsimp only at h1 h2
        rw [show s.off + (i - s.off) = i by have := hi.1; omega] at h1
        rw [show s.off + (j - s.off) = j by have := hj.1; omega] at h2
        rw [h1, h2] at e
        have := congrArg Fin.val (σ.injective (hinj _ _ e))
        have := hi.1; have := hj.1
        dsimp only at *
        omega⟩
      rw [tcost_eq e.runs]
      exact hle σ e.runs
    have h1 : ((∑ σ, N σ : Nat) : ℝ) ≤ ∑ σ, ((tcost (sortBody C id s) (m σ) : ℝ) + 4 * s.len) := by
      rw [Nat.cast_sum]
      exact Finset.sum_le_sum fun σ _ => by exact_mod_cast hle' σ
    rw [Finset.sum_add_distrib, Finset.sum_const, Finset.card_univ, Fintype.card_perm, Fintype.card_fin, nsmul_eq_mul] at h1
    have h2 := xlog_le s.len
    have h3 : ((fam C id).maxIns : ℝ) ≤ C.maxLenIns := by exact_mod_cast hI
    have h4 : avgB (fam C id).maxIns s.len + 4 * s.len ≤ ((s.len * (10 * Nat.clog 2 s.len + C.maxLenIns + 27) : Nat) : ℝ) := by
      unfold avgB
      push_cast
      have : (0 : ℝ) ≤ s.len := Nat.cast_nonneg _
      nlinarith
    have h5 : ((∑ σ, N σ : Nat) : ℝ) ≤ ((s.len.factorial * (s.len * (10 * Nat.clog 2 s.len + C.maxLenIns + 27)) : Nat) : ℝ) := by
      rw [Nat.cast_mul]
      refine h1.trans ((add_le_add hsum le_rfl).trans ?_)
      rw [← mul_add]
      exact mul_le_mul_of_nonneg_left h4 (Nat.cast_nonneg _)
    exact_mod_cast h5
  · have h0 : s.len = 0 := by omega
    have hz : ∀ σ, N σ = 0 := by
      intro σ
      obtain ⟨c, _, m', e, -⟩ := tin_of (A := s.rng) (fun _ _ _ _ _ h => h) (insertion_spec (Sp := VSp Key) (cmp := fun _ _ _ _ _ => False) (W := s.rng)
        (R := ∅) (famOK hC id).ltOK subset_rfl (hokm σ))
      have e1 : TRuns (sortBody C id s) (m σ) c () m' := by
        unfold sortBody
        rw [if_neg (by omega), if_neg (by omega)]
        exact e.runs
      have h1 := hle σ e1
      have h2 := paid e.runs (cost_insertion vmeter_wa)
      rw [h0] at h1 h2
      omega
    rw [Finset.sum_eq_zero fun σ _ => hz σ]
    exact Nat.zero_le _

end Sorty
