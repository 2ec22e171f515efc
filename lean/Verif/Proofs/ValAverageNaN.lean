import Verif.Proofs.ValAverageCon
import Mathlib.Logic.Equiv.Fintype

/-! # The average cost of calls of SortSlice on floats some of which are NaNs

Moving the NaNs away treats all other elements alike. So if all orders of the elements are equally likely, then so are all orders of the
other elements afterwards. -/

namespace Sorty

open Prog

/-- the average over a group that acts through `ι` -/
theorem orbit_sum {n k : Nat} {ι : Equiv.Perm (Fin k) → Equiv.Perm (Fin n)} {τ : Equiv.Perm (Fin n) → Equiv.Perm (Fin k)}
    (h : ∀ g σ, τ (ι g * σ) = g * τ σ) (c : Equiv.Perm (Fin k) → ℝ) : (k.factorial : ℝ) * ∑ σ, c (τ σ) = n.factorial * ∑ g, c g := by
  have h1 : ∀ g, ∑ σ, c (τ σ) = ∑ σ, c (g * τ σ) := by
    intro g
    rw [← Equiv.sum_comp (Equiv.mulLeft (ι g))]
    exact Finset.sum_congr rfl fun σ _ => by rw [Equiv.coe_mulLeft, h]
  have h2 : ∑ _g : Equiv.Perm (Fin k), ∑ σ, c (τ σ) = ∑ σ, ∑ g, c (g * τ σ) := by
    rw [Finset.sum_comm]
    rw [Finset.sum_comm]
    rw [Finset.sum_congr rfl fun g _ => h1 g]
    rw [Finset.sum_comm]
  rw [Finset.sum_const, Finset.card_univ, Fintype.card_perm, Fintype.card_fin, nsmul_eq_mul] at h2
  have h3 : ∀ σ, ∑ g, c (g * τ σ) = ∑ g, c g := fun σ => Equiv.sum_comp (Equiv.mulRight (τ σ)) c
  rw [h2, Finset.sum_congr rfl fun σ _ => h3 σ, Finset.sum_const, Finset.card_univ, Fintype.card_perm, Fintype.card_fin, nsmul_eq_mul]

/-- `nanToEnd` or `nanToStart` -/
def nanMove {Sp : Type} (b : Bool) (s : Slice) : Prog Cell Sp Slice := if b = true then nanToEnd s else nanToStart s

variable {Sp : Type} {s : Slice}

/-- moving NaNs away does not look at the other elements -/
theorem nanMove_sim {φ : Cell → Cell} (hφ : ∀ x, cellNaN (φ x) = cellNaN x) (b : Bool) :
    NSim φ Set.univ (nanMove b s : Prog Cell Sp Slice) (nanMove b s) := by
  have hsub : ∀ l h : Int, NSim φ Set.univ (s.sub l h : Prog Cell Sp Slice) (s.sub l h) := by
    intro l h
    unfold Slice.sub
    split_ifs
    · exact .ret _
    · exact .panic
  unfold nanMove
  split_ifs
  · unfold nanToEnd
    refine NSim.bind (NSim.loop ?_ _ _) fun _ => hsub _ _
    rintro ⟨l, h⟩
    dsimp only
    split_ifs
    · refine NSim.rd fun x _ => ?_
      rw [hφ]
      split_ifs
      · exact .ret _
      · refine NSim.rd fun y _ => ?_
        rw [hφ]
        split_ifs
        · exact NSim.bind (NSim.wr trivial) fun _ => NSim.bind (NSim.wr trivial) fun _ => .ret _
        · exact .ret _
    · exact .ret _
  · unfold nanToStart
    refine NSim.bind (NSim.loop ?_ _ _) fun _ => hsub _ _
    rintro ⟨l, h⟩
    dsimp only
    split_ifs
    · refine NSim.rd fun x _ => ?_
      rw [hφ]
      split_ifs
      · exact .ret _
      · refine NSim.rd fun y _ => ?_
        rw [hφ]
        split_ifs
        · exact NSim.bind (NSim.wr trivial) fun _ => NSim.bind (NSim.wr trivial) fun _ => .ret _
        · exact .ret _
    · exact .ret _

theorem nanMove_run (b : Bool) (s : Slice) (m : Mem Cell) :
    ∃ c t m', TIn s.rng (nanMove b s : Prog Cell Sp Slice) m c t m' ∧ NaNPost s b m t m' := by
  cases b
  · exact tin_of (fun _ _ _ _ _ h => h) (nanToStart_spec (Sp := Sp) (cmp := fun _ _ _ _ _ => False) (W := s.rng) (R := ∅) (m := m) subset_rfl)
  · exact tin_of (fun _ _ _ _ _ h => h) (nanToEnd_spec (Sp := Sp) (cmp := fun _ _ _ _ _ => False) (W := s.rng) (R := ∅) (m := m) subset_rfl)

theorem nanMove_paid {b : Bool} {s t : Slice} {m m' : Mem Cell} {c : Nat} (h : TRuns (nanMove b s : Prog Cell (VSp Key) Slice) m c t m') :
    c ≤ 4 * s.len := by
  cases b
  · exact paid h (cost_nanToStart vmeter_wa)
  · exact paid h (cost_nanToEnd vmeter_wa)

section
variable (s) (v : Fin s.len → Cell)

/-- the elements that are numbers -/
abbrev Nums : Type := {i : Fin s.len // cellNaN (v i) = false}

/-- where the numbers are in the end -/
def numS (b : Bool) : Slice := ⟨if b then s.off else s.off + (s.len - Fintype.card (Nums s v)), Fintype.card (Nums s v)⟩

/-- the numbers, enumerated -/
noncomputable def numE : Fin (Fintype.card (Nums s v)) ≃ Nums s v := (Fintype.equivFin _).symm

/-- permute the numbers only -/
noncomputable def numP (g : Equiv.Perm (Fin (Fintype.card (Nums s v)))) : Equiv.Perm (Fin s.len) := g.extendDomain (numE s v)

open Classical in
/-- the elements permuted -/
noncomputable def numF (g : Equiv.Perm (Fin (Fintype.card (Nums s v)))) (x : Cell) : Cell :=
  if h : ∃ i, cellNaN (v i) = false ∧ v i = x then v (numP s v g h.choose) else x

end

section
variable {v : Fin s.len → Cell}

theorem numP_num (g : Equiv.Perm (Fin (Fintype.card (Nums s v)))) (j : Fin (Fintype.card (Nums s v))) :
    numP s v g (numE s v j) = numE s v (g j) := by
  unfold numP
  exact Equiv.Perm.extendDomain_apply_image _ _ _

theorem numP_nan (g : Equiv.Perm (Fin (Fintype.card (Nums s v)))) {i : Fin s.len} (hi : cellNaN (v i) = true) : numP s v g i = i := by
  unfold numP
  exact Equiv.Perm.extendDomain_apply_not_subtype _ _ (by rw [hi]; simp)

theorem numP_free (g : Equiv.Perm (Fin (Fintype.card (Nums s v)))) (i : Fin s.len) : cellNaN (v (numP s v g i)) = cellNaN (v i) := by
  cases hi : cellNaN (v i) with
  | true => rw [numP_nan g hi, hi]
  | false =>
    obtain ⟨j, hj⟩ := (numE s v).surjective ⟨i, hi⟩
    have e : i = numE s v j := by rw [hj]
    rw [e, numP_num]
    exact (numE s v (g j)).2

theorem numF_at (hinj : ∀ i j, cellNaN (v i) = false → cellNaN (v j) = false → v i = v j → i = j) (g : Equiv.Perm (Fin (Fintype.card (Nums s v))))
    (i : Fin s.len) : numF s v g (v i) = v (numP s v g i) := by
  unfold numF
  split_ifs with h
  · rw [hinj _ i h.choose_spec.1 (by rw [← h.choose_spec.2]; exact h.choose_spec.1) h.choose_spec.2]
  · cases hi : cellNaN (v i) with
    | true => rw [numP_nan g hi]
    | false => exact absurd ⟨i, hi, rfl⟩ h

theorem numF_nan (g : Equiv.Perm (Fin (Fintype.card (Nums s v)))) (x : Cell) : cellNaN (numF s v g x) = cellNaN x := by
  unfold numF
  split_ifs with h
  · rw [numP_free, h.choose_spec.2]
  · rfl

theorem rng_fin {a : Nat} (h : a ∈ s.rng) : a - s.off < s.len ∧ s.off + (a - s.off) = a := by
  have := h.1; have := h.2
  omega

/-- a single order -/
theorem num_run (b : Bool) {m : Mem Cell} {σ : Equiv.Perm (Fin s.len)} (hm : ∀ i : Fin s.len, m (s.off + i) = v (σ i)) :
    ∃ c m' τ, TIn s.rng (nanMove b s : Prog Cell Sp Slice) m c (numS s v b) m' ∧ NaNPost s b m (numS s v b) m' ∧
      ∀ j : Fin (Fintype.card (Nums s v)), m' ((numS s v b).off + j) = v (numE s v ((τ : Equiv.Perm _) j)) := by
  obtain ⟨c, t, m', hrun, hp⟩ := nanMove_run (Sp := Sp) b s m
  obtain ⟨ρ, hρ, hmm⟩ := hp.rp
  have hin : ∀ a ∈ s.rng, ρ a ∈ s.rng := fun a ha => perm_mem hρ ha
  have hin' : ∀ a ∈ s.rng, ρ.symm a ∈ s.rng := by
    intro a ha
    by_contra hn
    have := hρ _ hn
    rw [Equiv.apply_symm_apply] at this
    rw [← this] at hn
    exact hn ha
  have hat : ∀ a (ha : a ∈ s.rng), m a = v (σ ⟨a - s.off, (rng_fin ha).1⟩) := by
    intro a ha
    exact (congrArg m (rng_fin ha).2).symm.trans (hm ⟨a - s.off, (rng_fin ha).1⟩)
  have htr : ∀ j : Fin t.len, t.off + (j : Nat) ∈ t.rng := fun j => ⟨by omega, by have := j.isLt; omega⟩
  have hpos : ∀ j : Fin t.len, ρ (t.off + j) ∈ s.rng := fun j => hin _ (hp.sub (htr j))
  let f : Fin t.len → Nums s v := fun j => ⟨σ ⟨ρ (t.off + j) - s.off, (rng_fin (hpos j)).1⟩, by
    rw [← hat _ (hpos j), ← hmm]
    exact hp.free _ (htr j)⟩
  have hf : ∀ j : Fin t.len, m' (t.off + j) = v (f j) := fun j => by rw [hmm, hat _ (hpos j)]
  have hfi : Function.Injective f := by
    intro i j e
    have e1 := congrArg Fin.val (σ.injective (congrArg Subtype.val e))
    dsimp only at e1
    have h1 := (rng_fin (hpos i)).2
    have h2 := (rng_fin (hpos j)).2
    have h3 := ρ.injective (show ρ (t.off + i) = ρ (t.off + j) by omega)
    ext
    omega
  have hfs : Function.Surjective f := by
    rintro ⟨i, hi⟩
    have ha : s.off + (σ.symm i : Nat) ∈ s.rng := ⟨by omega, by have := (σ.symm i).isLt; omega⟩
    have hb := hin' _ ha
    have hv : m' (ρ.symm (s.off + (σ.symm i : Nat))) = v i := by
      rw [hmm, Equiv.apply_symm_apply, hm, Equiv.apply_symm_apply]
    have hc : ρ.symm (s.off + (σ.symm i : Nat)) ∈ t.rng := by
      by_contra hn
      have := hp.nan _ hb hn
      rw [hv, hi] at this
      cases this
    refine ⟨⟨_, (rng_fin hc).1⟩, Subtype.ext ?_⟩
    show σ _ = i
    rw [← Equiv.eq_symm_apply]
    ext
    dsimp only
    rw [(rng_fin hc).2, Equiv.apply_symm_apply]
    omega
  have hlen : t.len = Fintype.card (Nums s v) := by
    have := Fintype.card_of_bijective ⟨hfi, hfs⟩
    rwa [Fintype.card_fin] at this
  have ht : t = numS s v b := by
    have ho := hp.off
    unfold numS
    rw [← hlen]
    cases t
    simp only [Slice.mk.injEq, and_true]
    exact ho
  subst ht
  let τ : Equiv.Perm (Fin (Fintype.card (Nums s v))) := (Equiv.ofBijective f ⟨hfi, hfs⟩).trans (numE s v).symm
  refine ⟨c, m', τ, hrun, hp, fun j => ?_⟩
  refine (hf j).trans ?_
  have e : numE s v ((numE s v).symm (f j)) = f j := Equiv.apply_symm_apply _ _
  exact congrArg (fun i : Nums s v => v i) e.symm

/-- all orders together -/
theorem num_sum (b : Bool) (hinj : ∀ i j, cellNaN (v i) = false → cellNaN (v j) = false → v i = v j → i = j) {m : Equiv.Perm (Fin s.len) → Mem Cell}
    (hm : ∀ σ (i : Fin s.len), m σ (s.off + i) = v (σ i)) :
    ∃ (c : Equiv.Perm (Fin s.len) → Nat) (m' : Equiv.Perm (Fin s.len) → Mem Cell) (τ : Equiv.Perm (Fin s.len) → Equiv.Perm (Fin (Fintype.card (Nums s v)))),
      (∀ σ, TIn s.rng (nanMove b s : Prog Cell Sp Slice) (m σ) (c σ) (numS s v b) (m' σ)) ∧
      (∀ σ, NaNPost s b (m σ) (numS s v b) (m' σ)) ∧
      (∀ σ (j : Fin (Fintype.card (Nums s v))), m' σ ((numS s v b).off + j) = v (numE s v (τ σ j))) ∧
      ∀ (w : Mem Cell → ℝ) (B : ℝ), (∀ x y (g : Equiv.Perm (Fin (Fintype.card (Nums s v)))),
          (∀ j : Fin (Fintype.card (Nums s v)), x ((numS s v b).off + j) = v (numE s v (g j))) → Agree (numS s v b).rng x y → w x = w y) →
        (∀ x : Equiv.Perm (Fin (Fintype.card (Nums s v))) → Mem Cell, (∀ g (j : Fin (Fintype.card (Nums s v))), x g ((numS s v b).off + j) = v (numE s v (g j))) →
          ∑ g, w (x g) ≤ (Fintype.card (Nums s v)).factorial * B) →
        ∑ σ, w (m' σ) ≤ s.len.factorial * B := by
  choose c m' τ hrun hpost hτ using fun σ => num_run (Sp := Sp) b (hm σ)
  have hequi : ∀ g σ, τ (numP s v g * σ) = g * τ σ := by
    intro g σ
    have h1 := NSim.runs (hrun σ) (fun _ _ => Set.mem_univ _) (nanMove_sim (numF_nan g) b)
    have hag : Agree s.rng (numF s v g ∘ m σ) (m (numP s v g * σ)) := by
      intro a ha
      have e1 := (congrArg (m σ) (rng_fin ha).2).symm.trans (hm σ ⟨a - s.off, (rng_fin ha).1⟩)
      have e2 := (congrArg (m (numP s v g * σ)) (rng_fin ha).2).symm.trans (hm (numP s v g * σ) ⟨a - s.off, (rng_fin ha).1⟩)
      rw [Function.comp_apply, e1, e2, numF_at hinj]
      rfl
    obtain ⟨m1, h2, h3⟩ := h1.frame hag
    have h4 : m1 = m' (numP s v g * σ) := (h2.runs.det (hrun _).runs).2.2
    ext j
    have hj : (numS s v b).off + (j : Nat) ∈ (numS s v b).rng := ⟨by omega, by have := j.isLt; show _ < (numS s v b).off + Fintype.card (Nums s v); omega⟩
    have e := h3 _ ((hpost σ).sub hj)
    rw [h4, hτ, Function.comp_apply, hτ, numF_at hinj, numP_num] at e
    have e' := hinj _ _ (numE s v _).2 (numE s v _).2 e
    have e'' := (numE s v).injective (Subtype.ext e')
    rw [← e'']
    rfl
  refine ⟨c, m', τ, hrun, hpost, hτ, fun w B hw hB => ?_⟩
  let x : Equiv.Perm (Fin (Fintype.card (Nums s v))) → Mem Cell := placed (numS s v b) (fun i => v (numE s v i)) (m 1)
  have hx : ∀ g (j : Fin (Fintype.card (Nums s v))), x g ((numS s v b).off + j) = v (numE s v (g j)) := by
    intro g j
    show placed (numS s v b) _ _ _ _ = _
    have hj : (j : Nat) < (numS s v b).len := j.isLt
    refine (placed_at (by omega) (by omega)).trans ?_
    refine congrArg (fun i => v (numE s v (g i))) (Fin.ext ?_)
    exact Nat.add_sub_cancel_left ..
  have hwx : ∀ σ, w (m' σ) = w (x (τ σ)) := by
    intro σ
    refine hw _ _ (τ σ) (hτ σ) fun a ha => ?_
    obtain ⟨h1, h2⟩ := rng_fin ha
    have e1 := (congrArg (m' σ) h2).symm.trans (hτ σ ⟨a - (numS s v b).off, h1⟩)
    have e2 := (congrArg (x (τ σ)) h2).symm.trans (hx (τ σ) ⟨a - (numS s v b).off, h1⟩)
    rw [e1, e2]
  have h1 := orbit_sum hequi fun g => w (x g)
  have h2 := hB x hx
  rw [Finset.sum_congr rfl fun σ _ => hwx σ]
  have h3 : (0 : ℝ) < (Fintype.card (Nums s v)).factorial := by exact_mod_cast Nat.factorial_pos _
  refine le_of_mul_le_mul_left ?_ h3
  rw [h1]
  calc (s.len.factorial : ℝ) * ∑ g, w (x g) ≤ s.len.factorial * ((Fintype.card (Nums s v)).factorial * B) :=
        mul_le_mul_of_nonneg_left h2 (Nat.cast_nonneg _)
    _ = _ := by ring

end

theorem numS_len (b : Bool) (v : Fin s.len → Cell) : (numS s v b).len ≤ s.len := by
  show Fintype.card (Nums s v) ≤ s.len
  have := Fintype.card_subtype_le fun i : Fin s.len => cellNaN (v i) = false
  rwa [Fintype.card_fin] at this

variable {C : Conf} {id : FamId}

theorem sortOf_nan (hf : id = .F4 ∨ id = .F8) (ho : C.nanOption = 1 ∨ C.nanOption = -1) :
    sortOf C id s = nanMove (decide (C.nanOption = 1)) s >>= fun t => sortV (fam C id) C.depth t := by
  unfold sortOf nanMove
  rw [if_pos hf]
  by_cases o1 : C.nanOption = 1
  · rw [if_pos o1, if_pos (decide_eq_true o1)]
  · rw [if_neg o1, if_pos (by omega), if_neg (by simpa using o1)]

theorem nums_bound {I I' k n : Nat} (hI : I ≤ I') (hk : k ≤ n) : avgB I k + 4 * n ≤ ((n * (10 * Nat.clog 2 n + I' + 27) : Nat) : ℝ) := by
  have h2 := xlog_le k
  have h3 : ((k * Nat.clog 2 k : Nat) : ℝ) ≤ ((n * Nat.clog 2 n : Nat) : ℝ) := by
    exact_mod_cast Nat.mul_le_mul hk (Nat.clog_mono_right 2 hk)
  have h4 : ((I * k : Nat) : ℝ) ≤ ((I' * n : Nat) : ℝ) := by exact_mod_cast Nat.mul_le_mul hI hk
  have h5 : (k : ℝ) ≤ n := by exact_mod_cast hk
  push_cast at h3 h4 ⊢
  unfold avgB
  linarith

theorem nums_bound_con {I I' k n : Nat} (hI : I ≤ I') (hk : k ≤ n) :
    10 * avgB I k + 4 * n ≤ ((10 * n * (10 * Nat.clog 2 n + I' + 24) : Nat) : ℝ) := by
  have h2 := xlog_le k
  have h3 : ((k * Nat.clog 2 k : Nat) : ℝ) ≤ ((n * Nat.clog 2 n : Nat) : ℝ) := by
    exact_mod_cast Nat.mul_le_mul hk (Nat.clog_mono_right 2 hk)
  have h4 : ((I * k : Nat) : ℝ) ≤ ((I' * n : Nat) : ℝ) := by exact_mod_cast Nat.mul_le_mul hI hk
  have h5 : (k : ℝ) ≤ n := by exact_mod_cast hk
  push_cast at h3 h4 ⊢
  unfold avgB
  linarith

/-- the average over all orders of the executions of a call -/
theorem call_avg_nan (hC : C.OK) (hf : id = .F4 ∨ id = .F8) (ho : C.nanOption = 1 ∨ C.nanOption = -1) (hmean : (fam C id).mean = none) {M : Nat}
    (hM : M ≤ 1 ∨ s.len < 2 * ((fam C id).maxRec + 1)) (hd : DepthFor C.depth s.len) {v : Fin s.len → Cell}
    (hok : ∀ i, cellNaN (v i) = false → cok C id (v i))
    (hinj : ∀ i j, cellNaN (v i) = false → cellNaN (v j) = false → crk C id (v i) = crk C id (v j) → i = j)
    {m : Equiv.Perm (Fin s.len) → Mem Cell} (hm : ∀ σ (i : Fin s.len), m σ (s.off + i) = v (σ i)) {stale : Prop} {N : Equiv.Perm (Fin s.len) → Nat}
    (h : ∀ σ, ∃ c, CSteps ((famCall C id s).par M stale) Prog.accs (start (famCall C id s).main (m σ)) c (N σ)) :
    ∑ σ, N σ ≤ s.len.factorial * (s.len * (10 * Nat.clog 2 s.len + C.maxLenIns + 27)) := by
  have hI : (fam C id).maxIns ≤ C.maxLenIns := by
    have := conf_ineq hC
    cases id <;> simp only [fam] <;> omega
  have hF := famOK hC id
  have hp := depth_pow hd
  have hb := sortOf_nan (s := s) hf ho
  obtain ⟨c0, m', τ, hrun, -, hτ, hsum⟩ := num_sum (Sp := VSp Key) (decide (C.nanOption = 1))
    (fun i j hi hj e => hinj i j hi hj (congrArg (crk C id) e)) hm
  generalize decide (C.nanOption = 1) = b at hrun hτ hsum hb
  have hl := numS_len b v
  have hle : ∀ σ {c m1}, TRuns (sortBody C id (numS s v b)) (m' σ) c () m1 → N σ ≤ c + 4 * s.len := by
    intro σ c m1 e
    obtain ⟨_, hc⟩ := h σ
    have h1 : (sortOf C id s).most M (m σ) (c + 4 * s.len) := by
      rw [hb]
      have := nanMove_paid (hrun σ).runs
      exact (hrun σ).runs.most_bind (by omega) (most_le (sortV_body (by omega) e) (by omega))
    obtain ⟨_, _, j, -, hj, -⟩ := most_all (G := M) (P := (famCall C id s).par M stale) le_rfl rfl h1 hc
    omega
  have hok' : ∀ i : Fin (numS s v b).len, okOf id ((fam C id).key (v (numE s v i))) := fun i => hok _ (numE s v i).2
  have hinj' : ∀ i j : Fin (numS s v b).len, rkOf id ((fam C id).key (v (numE s v i))) = rkOf id ((fam C id).key (v (numE s v j))) → i = j :=
    fun i j e => (numE s v).injective (Subtype.ext (hinj _ _ (numE s v i).2 (numE s v j).2 e))
  have hfit : ∀ {x : Mem Cell} {g : Equiv.Perm (Fin (Fintype.card (Nums s v)))},
      (∀ j : Fin (Fintype.card (Nums s v)), x ((numS s v b).off + j) = v (numE s v (g j))) → Fit (fam C id) (okOf id) (rkOf id) (numS s v b) x :=
    fun {x g} hx => fit_perm (s := numS s v b) hok' hinj' (σ := g) hx
  by_cases hs : 1 ≤ (numS s v b).len
  · have hgood := good_body (s := numS s v b) hC hmean hs (by omega)
    have hsum' := hsum (fun x => tcost (sortBody C id (numS s v b)) x) (avgB (fam C id).maxIns (numS s v b).len)
      (fun x y g hx hxy => by
        obtain ⟨c, m1, e, -⟩ := hgood.1 _ (hfit hx)
        obtain ⟨m2, e2, -⟩ := e.frame hxy
        rw [tcost_eq e.runs, tcost_eq e2.runs])
      (fun x hx => good_sum hgood hok' hinj' hx)
    have hle' : ∀ σ, N σ ≤ tcost (sortBody C id (numS s v b)) (m' σ) + 4 * s.len := by
      intro σ
      obtain ⟨c, m1, e, -⟩ := hgood.1 _ (hfit (hτ σ))
      rw [tcost_eq e.runs]
      exact hle σ e.runs
    have h1 : ((∑ σ, N σ : Nat) : ℝ) ≤ ∑ σ, ((tcost (sortBody C id (numS s v b)) (m' σ) : ℝ) + 4 * s.len) := by
      rw [Nat.cast_sum]
      exact Finset.sum_le_sum fun σ _ => by exact_mod_cast hle' σ
    rw [Finset.sum_add_distrib, Finset.sum_const, Finset.card_univ, Fintype.card_perm, Fintype.card_fin, nsmul_eq_mul] at h1
    have h5 : ((∑ σ, N σ : Nat) : ℝ) ≤ ((s.len.factorial * (s.len * (10 * Nat.clog 2 s.len + C.maxLenIns + 27)) : Nat) : ℝ) := by
      rw [Nat.cast_mul]
      refine h1.trans ((add_le_add hsum' le_rfl).trans ?_)
      rw [← mul_add]
      exact mul_le_mul_of_nonneg_left (nums_bound hI hl) (Nat.cast_nonneg _)
    exact_mod_cast h5
  · have h0 : (numS s v b).len = 0 := by omega
    have hz : ∀ σ, N σ ≤ 4 * s.len := by
      intro σ
      obtain ⟨c, _, m1, e, -⟩ := tin_of (A := (numS s v b).rng) (fun _ _ _ _ _ h => h) (insertion_spec (Sp := VSp Key)
        (cmp := fun _ _ _ _ _ => False) (W := (numS s v b).rng) (R := ∅) hF.ltOK subset_rfl (hfit (hτ σ)).ok)
      have e1 : TRuns (sortBody C id (numS s v b)) (m' σ) c () m1 := by
        unfold sortBody
        rw [if_neg (by omega), if_neg (by omega)]
        exact e.runs
      have h1 := hle σ e1
      have h2 := paid e.runs (cost_insertion vmeter_wa)
      rw [h0] at h2
      omega
    refine (Finset.sum_le_sum fun σ _ => hz σ).trans ?_
    rw [Finset.sum_const, Finset.card_univ, Fintype.card_perm, Fintype.card_fin, smul_eq_mul, Nat.mul_comm 4]
    exact Nat.mul_le_mul_left _ (Nat.mul_le_mul_left _ (by omega))

/-- the average over all orders of the executions of a call, for any number of goroutines -/
theorem call_avg_con_nan (hC : C.OK) (hf : id = .F4 ∨ id = .F8) (ho : C.nanOption = 1 ∨ C.nanOption = -1) (hmean : (fam C id).mean = none)
    (hd : DepthFor C.depth s.len) (hlen : s.len < 2 ^ 63) {v : Fin s.len → Cell} (hok : ∀ i, cellNaN (v i) = false → cok C id (v i))
    (hinj : ∀ i j, cellNaN (v i) = false → cellNaN (v j) = false → crk C id (v i) = crk C id (v j) → i = j)
    {m : Equiv.Perm (Fin s.len) → Mem Cell} (hm : ∀ σ (i : Fin s.len), m σ (s.off + i) = v (σ i)) {M : Equiv.Perm (Fin s.len) → Nat} {stale : Prop}
    {N : Equiv.Perm (Fin s.len) → Nat}
    (h : ∀ σ, ∃ c, CSteps ((famCall C id s).par (M σ) stale) Prog.accs (start (famCall C id s).main (m σ)) c (N σ)) :
    ∑ σ, N σ ≤ s.len.factorial * (10 * s.len * (10 * Nat.clog 2 s.len + C.maxLenIns + 24)) := by
  have hI : (fam C id).maxIns ≤ C.maxLenIns := by
    have := conf_ineq hC
    cases id <;> simp only [fam] <;> omega
  have hF := famOK hC id
  have hp := depth_pow hd
  have hb := sortOf_nan (s := s) hf ho
  obtain ⟨c0, m', τ, hrun, hpost, hτ, hsum⟩ := num_sum (Sp := VSp Key) (decide (C.nanOption = 1))
    (fun i j hi hj e => hinj i j hi hj (congrArg (crk C id) e)) hm
  generalize decide (C.nanOption = 1) = b at hrun hτ hsum hb hpost
  have hl := numS_len b v
  have hok' : ∀ i : Fin (numS s v b).len, okOf id ((fam C id).key (v (numE s v i))) := fun i => hok _ (numE s v i).2
  have hinj' : ∀ i j : Fin (numS s v b).len, rkOf id ((fam C id).key (v (numE s v i))) = rkOf id ((fam C id).key (v (numE s v j))) → i = j :=
    fun i j e => (numE s v).injective (Subtype.ext (hinj _ _ (numE s v i).2 (numE s v j).2 e))
  have hfit : ∀ σ, Fit (fam C id) (okOf id) (rkOf id) (numS s v b) (m' σ) :=
    fun σ => fit_perm (s := numS s v b) hok' hinj' (σ := τ σ) (hτ σ)
  have hacc : ∀ σ, ∀ a ∈ s.rng, Accept C id (m σ a) := by
    intro σ a ha
    rw [(congrArg (m σ) (rng_fin ha).2).symm.trans (hm σ ⟨a - s.off, (rng_fin ha).1⟩)]
    cases hn : cellNaN (v (σ ⟨a - s.off, (rng_fin ha).1⟩)) with
    | false => exact .inl (hok _ hn)
    | true => exact .inr ⟨by simp [FamId.float, hf], hn, ho⟩
  have hle : ∀ σ, N σ ≤ rcost (fam C id) (rkOf id) (numS s v b) (m' σ) + 4 * s.len := by
    intro σ
    obtain ⟨c, hc⟩ := h σ
    refine Inv.kmetered_le (G := fun _ _ => True) (call_hyp hC id (m σ) hlen (M σ) stale) (lkm_local (famOK hC id) C.depth)
      ⟨_, Inv.start_at (n := s.len / ((fam C id).maxRec + 1)) le_rfl (sortOf_wp hC id hd (hacc σ)), rfl, subset_rfl⟩
      (fun sp m h1 h2 => kpaid_body (famOK hC id) hmean sp m h1 h2) (fun mm hag => ?_) hc
    have hag' : Agree s.rng (m σ) mm := hag
    obtain ⟨m2, e2, hm2⟩ := (hrun σ).frame hag'
    have hm2' : Agree (numS s v b).rng (m' σ) m2 := fun a ha => hm2 a ((hpost σ).sub ha)
    rw [rcost_congr (famOK hC id) hm2']
    show kw _ _ _ (sortOf C id s) _ _ _ _
    rw [hb]
    have hc := nanMove_paid e2.runs
    refine e2.runs.kw (by omega) (kpaid_sortV hF hmean le_rfl (by omega) (hm2'.fit (hfit σ)) ?_ fun h => ?_)
    · unfold rcost; omega
    · unfold rcost; rw [if_pos h]; omega
  by_cases hs : 1 ≤ (numS s v b).len
  · have hsum' := hsum (fun x => rcost (fam C id) (rkOf id) (numS s v b) x) (10 * avgB (fam C id).maxIns (numS s v b).len)
      (fun x y g hx hxy => by rw [rcost_congr hF hxy])
      (fun x hx => avgC_sum (rcost_avg hF hmean hs fun h => ucost_avg hF hmean h) (fun _ _ h => rcost_congr hF h) hok' hinj' hx)
    have h1 : ((∑ σ, N σ : Nat) : ℝ) ≤ ∑ σ, ((rcost (fam C id) (rkOf id) (numS s v b) (m' σ) : ℝ) + 4 * s.len) := by
      rw [Nat.cast_sum]
      exact Finset.sum_le_sum fun σ _ => by exact_mod_cast hle σ
    rw [Finset.sum_add_distrib, Finset.sum_const, Finset.card_univ, Fintype.card_perm, Fintype.card_fin, nsmul_eq_mul] at h1
    have h5 : ((∑ σ, N σ : Nat) : ℝ) ≤ ((s.len.factorial * (10 * s.len * (10 * Nat.clog 2 s.len + C.maxLenIns + 24)) : Nat) : ℝ) := by
      rw [Nat.cast_mul]
      refine h1.trans ((add_le_add hsum' le_rfl).trans ?_)
      rw [← mul_add]
      exact mul_le_mul_of_nonneg_left (nums_bound_con hI hl) (Nat.cast_nonneg _)
    exact_mod_cast h5
  · have hz : ∀ σ, N σ ≤ 4 * s.len := by
      intro σ
      have := hle σ
      have h8 : 8 < (fam C id).maxIns := hF.ins
      have hrec := hF.recOK
      unfold rcost at this
      rw [lcost, if_pos (by omega), if_neg (by omega), show (numS s v b).len = 0 by omega] at this
      omega
    refine (Finset.sum_le_sum fun σ _ => hz σ).trans ?_
    rw [Finset.sum_const, Finset.card_univ, Fintype.card_perm, Fintype.card_fin, smul_eq_mul]
    refine Nat.mul_le_mul_left _ ?_
    nlinarith [Nat.zero_le (s.len * (10 * Nat.clog 2 s.len + C.maxLenIns))]

end Sorty
