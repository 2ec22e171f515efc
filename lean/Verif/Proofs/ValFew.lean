import Verif.Proofs.FewCon
import Verif.Proofs.Call

/-! # Calls of SortSlice and SortLen on slices with few different keys -/

namespace Sorty

open Prog

variable {C : Conf} {id : FamId} {s : Slice} {m : Mem Cell}

/-- the bound for `n` elements with `d` different keys -/
def fewBound (I d n : Nat) : Nat := (6 * (d * (Nat.clog 2 n + 3)) + I + 1) * n

theorem fewBound_mono {I d n n' : Nat} (h : n ≤ n') : fewBound I d n ≤ fewBound I d n' := by
  unfold fewBound
  have := Nat.mul_le_mul_left d (Nat.add_le_add_right (Nat.clog_mono_right 2 h) 3)
  exact Nat.mul_le_mul (by omega) h

theorem k_sort (hC : C.OK) (id : FamId) {t : Slice} {m : Mem Cell} (hd : 2 * t.len < 2 ^ C.depth) (hok : ∀ a ∈ t.rng, cok C id (m a))
    (S : Finset Rk) (hS : ∀ a ∈ t.rng, crk C id (m a) ∈ S) {n : Nat} (hn : fewBound (fam C id).maxIns S.card t.len ≤ n) :
    kw (vspec (fam C id) (okOf id) (rkOf id) C.depth) (vkm (fam C id) (rkOf id) S) (fun _ _ => True) (sortV (fam C id) C.depth t) none m n
      fun _ _ _ _ => True := by
  refine k_sortV (famOK hC id) le_rfl hd hok hS (le_trans ?_ hn)
  unfold fewBound fewCost
  have := pot_le S (fun v => rkOf id ((fam C id).key v)) t m
  exact Nat.mul_le_mul_right _ (by omega)

theorem k_sortOf (hC : C.OK) (id : FamId) (hd : DepthFor C.depth s.len) (hok : ∀ a ∈ s.rng, Accept C id (m a))
    (S : Finset Rk) (hS : ∀ a ∈ s.rng, cok C id (m a) → crk C id (m a) ∈ S) :
    kw (vspec (fam C id) (okOf id) (rkOf id) C.depth) (vkm (fam C id) (rkOf id) S) (fun _ _ => True) (sortOf C id s) none m
      (fewBound (fam C id).maxIns S.card s.len + 4 * s.len) fun _ _ _ _ => True := by
  have hp := depth_pow hd
  have plain : (∀ a ∈ s.rng, cok C id (m a)) → kw (vspec (fam C id) (okOf id) (rkOf id) C.depth) (vkm (fam C id) (rkOf id) S) (fun _ _ => True)
      (sortV (fam C id) C.depth s) none m (fewBound (fam C id).maxIns S.card s.len + 4 * s.len) fun _ _ _ _ => True :=
    fun h => k_sort hC id hp h S (fun a ha => hS a ha (h a ha)) (Nat.le_add_right _ _)
  unfold sortOf
  by_cases hf : id = .F4 ∨ id = .F8
  · rw [if_pos hf]
    have key : ∀ (b : Bool) (pr : Prog Cell (VSp Key) Slice), swp (fun _ _ _ _ _ => False) s.rng ∅ pr m (NaNPost s b m) →
        Costs (vmeter Cell Key) pr (4 * s.len) (fun r => r.len ≤ s.len) →
        kw (vspec (fam C id) (okOf id) (rkOf id) C.depth) (vkm (fam C id) (rkOf id) S) (fun _ _ => True) (pr >>= fun ar => sortV (fam C id) C.depth ar) none m
          (fewBound (fam C id).maxIns S.card s.len + 4 * s.len) fun _ _ _ _ => True := by
      intro b pr hsp hco
      obtain ⟨c, t, m1, e, ht, -⟩ := runs_of (fun _ _ _ _ _ h => h) hsp (aw_true (n := 0))
      have hc := paid e hco
      have htl := ht.len
      have hok1 : ∀ a ∈ t.rng, cok C id (m1 a) := fun a ha =>
        accept_ok (ht.rp.all hok a (ht.sub ha)) fun _ => ht.free a ha
      have hS1 : ∀ a ∈ t.rng, crk C id (m1 a) ∈ S := fun a ha =>
        ht.rp.all (p := fun x => cok C id x → crk C id x ∈ S) hS a (ht.sub ha) (hok1 a ha)
      have hle := fewBound_mono (I := (fam C id).maxIns) (d := S.card) htl
      exact e.kw (by omega) (k_sort hC id (by omega) hok1 S hS1 (by omega))
    by_cases o1 : C.nanOption = 1
    · rw [if_pos o1]
      exact key true _ (nanToEnd_spec subset_rfl) (cost_nanToEnd vmeter_wa)
    · rw [if_neg o1]
      by_cases o2 : C.nanOption = -1
      · rw [if_pos o2]
        exact key false _ (nanToStart_spec subset_rfl) (cost_nanToStart vmeter_wa)
      · rw [if_neg o2]
        refine plain fun a ha => ?_
        rcases hok a ha with h | ⟨_, _, h | h⟩
        · exact h
        · exact absurd h o1
        · exact absurd h o2
  · rw [if_neg hf]
    have hf' : id.float = false := by simp [FamId.float]; tauto
    refine plain fun a ha => ?_
    rcases hok a ha with h | ⟨h, _⟩
    · exact h
    · simp [hf'] at h

/-- every execution of such a call -/
theorem call_few (hC : C.OK) (id : FamId) (hd : DepthFor C.depth s.len) (hok : ∀ a ∈ s.rng, Accept C id (m a)) (hl : s.len < 2 ^ 63)
    (S : Finset Rk) (hS : ∀ a ∈ s.rng, cok C id (m a) → crk C id (m a) ∈ S) {M : Nat} {stale : Prop} {c : Cfg Cell (VSp Key)} {n : Nat}
    (h : CSteps ((famCall C id s).par M stale) Prog.accs (start (famCall C id s).main m) c n) :
    n ≤ fewBound (fam C id).maxIns S.card s.len + 4 * s.len := by
  refine Inv.kmetered_le (call_hyp hC id m hl M stale) (vkm_local (S := S) C.depth)
    ⟨_, Inv.start_at (n := s.len / ((fam C id).maxRec + 1)) le_rfl (sortOf_wp hC id hd hok), rfl, subset_rfl⟩
    (fun sp m h1 h2 => k_vbody (famOK hC id) sp m h1 h2) (fun m' hag => k_sortOf hC id hd ?_ S ?_) h
  · intro a ha
    rw [← hag a ha]; exact hok a ha
  · intro a ha
    rw [← hag a ha]; exact hS a ha

end Sorty
