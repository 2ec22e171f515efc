import Verif.Proofs.ValKiller
import Verif.Proofs.Ascending

/-! # Calls of SortSlice and SortLen on unfavourable arrangements -/

namespace Sorty

open Prog

variable {C : Conf} {id : FamId} {s : Slice} {m : Mem Cell}

/-- NaN handling finds nothing to do -/
theorem runs_nanToEnd {Sp : Type} (hn : ∀ a ∈ s.rng, cellNaN (m a) = false) : ∃ c, TRuns (nanToEnd s : Prog Cell Sp Slice) m c s m := by
  have haw : aw (nanToEnd s : Prog Cell Sp Slice) m 0 fun _ m' _ => m' = m := by
    unfold nanToEnd
    refine aw_bind (aw_mono (K := fun _ m' _ => m' = m) (aw_loop (fun _ m' _ => m' = m) ?_ _ _ _ _ rfl) ?_)
    · rintro ⟨l, h⟩ m' n rfl
      dsimp only
      split_ifs
      · refine aw_bind (aw_rd fun hi => ?_)
        rw [if_neg (by have := hn _ (Slice.mem_rng hi.1 hi.2); unfold Slice.E; rw [this]; simp)]
        refine aw_bind (aw_rd fun hi' => ?_)
        rw [if_neg (by have := hn _ (Slice.mem_rng hi'.1 hi'.2); unfold Slice.E; rw [this]; simp)]
        rfl
      · rfl
    · rintro h m' n rfl
      unfold Slice.sub
      split_ifs
      · rfl
      · trivial
  obtain ⟨k, t, m', h1, h2, rfl⟩ := runs_of (fun _ _ _ _ _ h => h) (nanToEnd_spec (Sp := Sp) (cmp := fun _ _ _ _ _ => False) (W := s.rng) (R := ∅) (m := m) subset_rfl) haw
  refine ⟨k, ?_⟩
  suffices t = s by rwa [this] at h1
  have hl := h2.len; have ho := h2.off
  simp only [if_true] at ho
  have : t.len = s.len := by
    by_contra hne
    have := h2.nan (s.off + t.len) (by simp only [Slice.rng, Set.mem_ofPred_eq]; omega) (by simp only [Slice.rng, Set.mem_ofPred_eq]; omega)
    rw [hn _ (by simp only [Slice.rng, Set.mem_ofPred_eq]; omega)] at this
    cases this
  cases t; cases s; simp_all

theorem runs_nanToStart {Sp : Type} (hn : ∀ a ∈ s.rng, cellNaN (m a) = false) : ∃ c, TRuns (nanToStart s : Prog Cell Sp Slice) m c s m := by
  have haw : aw (nanToStart s : Prog Cell Sp Slice) m 0 fun _ m' _ => m' = m := by
    unfold nanToStart
    refine aw_bind (aw_mono (K := fun _ m' _ => m' = m) (aw_loop (fun _ m' _ => m' = m) ?_ _ _ _ _ rfl) ?_)
    · rintro ⟨l, h⟩ m' n rfl
      dsimp only
      split_ifs
      · refine aw_bind (aw_rd fun hi => ?_)
        rw [if_neg (by have := hn _ (Slice.mem_rng hi.1 hi.2); unfold Slice.E; rw [this]; simp)]
        refine aw_bind (aw_rd fun hi' => ?_)
        rw [if_neg (by have := hn _ (Slice.mem_rng hi'.1 hi'.2); unfold Slice.E; rw [this]; simp)]
        rfl
      · rfl
    · rintro h m' n rfl
      unfold Slice.sub
      split_ifs
      · rfl
      · trivial
  obtain ⟨k, t, m', h1, h2, rfl⟩ := runs_of (fun _ _ _ _ _ h => h) (nanToStart_spec (Sp := Sp) (cmp := fun _ _ _ _ _ => False) (W := s.rng) (R := ∅) (m := m) subset_rfl) haw
  refine ⟨k, ?_⟩
  suffices t = s by rwa [this] at h1
  have hl := h2.len; have ho := h2.off
  simp only [Bool.false_eq_true, if_false] at ho
  have : t.len = s.len := by
    by_contra hne
    have := h2.nan s.off (by simp only [Slice.rng, Set.mem_ofPred_eq]; omega) (by simp only [Slice.rng, Set.mem_ofPred_eq]; omega)
    rw [hn _ (by simp only [Slice.rng, Set.mem_ofPred_eq]; omega)] at this
    cases this
  cases t; cases s; simp_all

/-- `n` elements in ascending order -/
theorem exists_ladder {V ρ : Type} [LinearOrder ρ] (key : V → ρ) (f : Nat → V) (n : Nat) (hd : ∀ i < n, ∀ j < n, key (f i) = key (f j) → i = j) :
    ∃ π : Equiv.Perm Nat, Ranks n π ∧ ∀ i j, i < j → j < n → key (f (π i)) < key (f (π j)) := by
  let S := (List.range n).mergeSort fun i j => decide (key (f i) ≤ key (f j))
  have hp : S.Perm (List.range n) := List.mergeSort_perm _ _
  have hsort : S.Pairwise fun i j => decide (key (f i) ≤ key (f j)) = true := List.pairwise_mergeSort (by
    intro a b c h1 h2
    simp only [decide_eq_true_eq] at *
    exact h1.trans h2) (by
    intro a b
    simp only [Bool.or_eq_true, decide_eq_true_eq]
    exact le_total _ _) _
  have hn : S.Nodup := hp.nodup_iff.2 List.nodup_range
  have hlen : S.length = n := by rw [hp.length_eq, List.length_range]
  have hmem : ∀ x ∈ S, x < n := fun x hx => List.mem_range.1 (hp.mem_iff.1 hx)
  obtain ⟨r, h1, -, h2⟩ := exists_assign (n := n) (N0 := 0) (r0 := 1) (fun _ _ => rfl) S hn fun x hx => ⟨hmem x hx, Nat.zero_le _⟩
  have hπ : ∀ i (h : i < S.length), r.symm i = S[i] := fun i h => by rw [Equiv.symm_apply_eq, h2 i h, Nat.zero_add]
  refine ⟨r.symm, fun i hi => by rw [Equiv.symm_apply_eq, h1 i hi], fun i j hij hj => ?_⟩
  rw [hπ i (by omega), hπ j (by omega)]
  have h3 := List.pairwise_iff_getElem.1 hsort i j (by omega) (by omega) hij
  simp only [decide_eq_true_eq] at h3
  refine lt_of_le_of_ne h3 fun he => ?_
  have := hd _ (hmem _ (List.getElem_mem _)) _ (hmem _ (List.getElem_mem _)) he
  have := (List.Nodup.getElem_inj_iff hn).1 this
  omega

/-- a permutation of the positions of a slice -/
def shiftPerm (off : Nat) (ψ : Equiv.Perm Nat) : Equiv.Perm Nat where
  toFun a := if off ≤ a then off + ψ (a - off) else a
  invFun a := if off ≤ a then off + ψ.symm (a - off) else a
  left_inv a := by
    by_cases h : off ≤ a
    · simp only [if_pos h]
      rw [if_pos (by omega), Nat.add_sub_cancel_left, Equiv.symm_apply_apply]
      omega
    · simp [h]
  right_inv a := by
    by_cases h : off ≤ a
    · simp only [if_pos h]
      rw [if_pos (by omega), Nat.add_sub_cancel_left, Equiv.apply_symm_apply]
      omega
    · simp [h]

/-- an arrangement with which the call is slow -/
theorem exists_vkiller (hC : C.OK) (id : FamId) (hok : ∀ a ∈ s.rng, cok C id (m a))
    (hd : ∀ a ∈ s.rng, ∀ b ∈ s.rng, crk C id (m a) = crk C id (m b) → a = b) :
    ∃ m', RP s.rng m m' ∧ ∃ c, (sortOf C id s).touches m' c ∧ s.len ^ 2 ≤ 12 * c + (fam C id).maxRec ^ 2 := by
  have hF := famOK hC id
  by_cases hlen : s.len ≤ (fam C id).maxRec
  · exact ⟨m, RP.refl _ _, 0, touches_zero, le_trans (Nat.pow_le_pow_left hlen 2) (Nat.le_add_left ..)⟩
  have hin : ∀ i, i < s.len → s.off + i ∈ s.rng := fun i hi => by simp only [Slice.rng, Set.mem_ofPred_eq]; omega
  obtain ⟨π, hπ, hasc⟩ := exists_ladder (crk C id) (fun i => m (s.off + i)) s.len (by
    intro i hi j hj h
    have := hd _ (hin i hi) _ (hin j hj) h
    omega)
  have he : Ladder (fam C id) (okOf id) (rkOf id) (fun i => m (s.off + π i)) s.len :=
    ⟨fun i hi => hok _ (hin _ (hπ.lt hi)), fun i j hij hj => hasc i j hij hj⟩
  obtain ⟨r, h1, -, c, h2, h3⟩ := vkiller hF he s.len C.depth s false (fun a => a - s.off) 1 0 [] (by omega) le_rfl (by
      intro a ha b hb h
      simp only [Slice.rng, Set.mem_ofPred_eq] at ha hb
      omega) (by
      intro a ha
      simp only [Slice.rng, Set.mem_ofPred_eq] at ha
      omega) (fun _ _ => rfl) (by simp) (fun _ _ h => absurd h (by simp))
  let m' : Mem Cell := fun a => m (shiftPerm s.off (r.trans π) a)
  have hrp : RP s.rng m m' := by
    refine ⟨shiftPerm s.off (r.trans π), fun a ha => ?_, fun _ => rfl⟩
    show (if s.off ≤ a then s.off + π (r (a - s.off)) else a) = a
    simp only [Slice.rng, Set.mem_ofPred_eq] at ha
    split_ifs with h
    · rw [h1 _ (by omega), hπ _ (by omega)]; omega
    · rfl
  have hag : Agree s.rng ((fun i => m (s.off + π i)) ∘ r ∘ fun a => a - s.off) m' := by
    intro a ha
    show _ = m (if s.off ≤ a then s.off + π (r (a - s.off)) else a)
    rw [if_pos (by simp only [Slice.rng, Set.mem_ofPred_eq] at ha; omega)]
    rfl
  have hlong := h3 m' hag
  have hV : (sortV (fam C id) C.depth s).touches m' c := by
    have hbr : (if s.len > (fam C id).maxRec then long (fam C id) s.len C.depth s false
        else if s.len > (fam C id).maxIns then short (fam C id) s.len C.depth s
        else insertion (fam C id).key (fam C id).lt s : Prog Cell (VSp Key) Unit).touches m' c := by
      rw [if_pos (by omega)]; exact hlong
    unfold sortV
    dsimp only
    by_cases hs : s.len < 2 * ((fam C id).maxRec + 1)
    · rw [if_pos hs]
      exact hbr
    · rw [if_neg hs]
      cases c with
      | zero => exact touches_zero
      | succ c =>
        intro g hg
        show (if decide (g ≤ 1) = true then _ else _ : Prog Cell (VSp Key) Unit).touches m' (c + 1)
        rw [if_pos (decide_eq_true hg)]
        exact hbr
  refine ⟨m', hrp, c, ?_, h2⟩
  unfold sortOf
  by_cases hf : id = .F4 ∨ id = .F8
  · rw [if_pos hf]
    have hn : ∀ a ∈ s.rng, cellNaN (m' a) = false := hrp.all (p := fun x => cellNaN x = false) fun a ha => by
      cases hh : cellNaN (m a) with
      | false => rfl
      | true => exact absurd (hok a ha) (nan_not_ok (by simp [FamId.float, hf]) hh)
    by_cases o1 : C.nanOption = 1
    · rw [if_pos o1]
      obtain ⟨k, hk⟩ := runs_nanToEnd (Sp := VSp Key) hn
      exact touches_le (hk.touches hV) (by omega)
    · rw [if_neg o1]
      by_cases o2 : C.nanOption = -1
      · rw [if_pos o2]
        obtain ⟨k, hk⟩ := runs_nanToStart (Sp := VSp Key) hn
        exact touches_le (hk.touches hV) (by omega)
      · rw [if_neg o2]
        exact hV
  · rw [if_neg hf]
    exact hV

/-- the executions of such a call -/
theorem call_slow (hC : C.OK) (id : FamId) (hl : s.len < 2 ^ 63) (hdep : DepthFor C.depth s.len) (hok : ∀ a ∈ s.rng, cok C id (m a))
    (hd : ∀ a ∈ s.rng, ∀ b ∈ s.rng, crk C id (m a) = crk C id (m b) → a = b) :
    ∃ m', RP s.rng m m' ∧
      (∀ M stale c n, M ≤ 1 → CSteps ((famCall C id s).par M stale) Prog.accs (start (famCall C id s).main m') c n → Returned c →
        s.len ^ 2 ≤ 12 * n + (fam C id).maxRec ^ 2) ∧
      ∀ M stale, ∃ c n, CSteps ((famCall C id s).par M stale) Prog.accs (start (famCall C id s).main m') c n ∧ Returned c ∧
        s.len ^ 2 ≤ 12 * n + (fam C id).maxRec ^ 2 := by
  obtain ⟨m', h1, k, h2, h3⟩ := exists_vkiller hC id hok hd
  refine ⟨m', h1, ?_, ?_⟩
  · intro M stale c n hM hs hr
    rcases touches_all (P := (famCall C id s).par M stale) hM rfl h2 hs with h | ⟨sh, p, j, rfl, -, hp⟩
    · omega
    · obtain ⟨l, hl⟩ := hr
      simp only [List.cons.injEq] at hl
      rw [hl.1] at hp
      exact hp.elim
  · intro M stale
    obtain ⟨c, h4⟩ := touches_steps (P := (famCall C id s).par M stale) (sh := (start (famCall C id s).main m').sh) h2 .refl
    have hacc : ∀ a ∈ s.rng, Accept C id (m' a) := fun a ha => .inl (h1.all hok a ha)
    obtain ⟨d, h5, h6⟩ := exists_return (call_hyp hC id m' hl M stale) (acc_of_steps (call_acc C id s m' M stale) h4.steps)
      (call_reach hC hl hdep hacc (Steps.toE h4.steps))
    obtain ⟨k', h7⟩ := h4.continue h5
    exact ⟨d, _, h7, h6, by omega⟩

end Sorty
