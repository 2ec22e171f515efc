import Verif.Proofs.LayeredRun
import Verif.Logic.Single
import Verif.Proofs.ValSlow

/-! # Calls of SortSlice and SortLen on ascending sequences of descending runs -/

namespace Sorty

open Prog

variable {C : Conf} {id : FamId} {s : Slice} {m : Mem Cell} {G : Nat}

/-- the bound for `n` elements -/
def layBound (I n : Nat) : Nat := (4 * splits n + I + 1) * n

theorem sortV_lay (hC : C.OK) (id : FamId) (h32 : (fam C id).maxRec < 2 ^ 32) (hG : G ≤ 1 ∨ s.len < 2 * ((fam C id).maxRec + 1))
    (hd : 2 * s.len < 2 ^ C.depth) (hok : ∀ a ∈ s.rng, cok C id (m a)) (hL : Lay (crk C id) s m) :
    (sortV (fam C id) C.depth s).most G m (layBound (fam C id).maxIns s.len) := by
  have hF := famOK hC id
  have hb : LCheap (fam C id) (if s.len > (fam C id).maxRec then long (fam C id) s.len C.depth s false
      else if s.len > (fam C id).maxIns then short (fam C id) s.len C.depth s
      else insertion (fam C id).key (fam C id).lt s : Prog Cell (VSp Key) Unit) s m := by
    split_ifs with h1 h2
    · exact lay_long hF h32 _ _ _ _ le_rfl h1 hd hok hL
    · exact lay_short hF h32 _ _ _ _ le_rfl h2 (by omega) (by omega) hok hL
    · exact lcheap_insertion hF (by omega) hok
  obtain ⟨c, m', e, -, hc⟩ := hb
  have hm := e.most (G := G) hc
  unfold sortV
  dsimp only
  by_cases hs : s.len < 2 * ((fam C id).maxRec + 1)
  · rw [if_pos hs]
    exact hm
  · rw [if_neg hs]
    intro g hg
    show (if decide (g ≤ 1) = true then _ else _ : Prog Cell (VSp Key) Unit).most G m _
    rw [if_pos (decide_eq_true (by omega))]
    exact hm

theorem sortOf_lay (hC : C.OK) (id : FamId) (h32 : (fam C id).maxRec < 2 ^ 32) (hG : G ≤ 1 ∨ s.len < 2 * ((fam C id).maxRec + 1))
    (hd : DepthFor C.depth s.len) (hok : ∀ a ∈ s.rng, cok C id (m a)) (hL : Lay (crk C id) s m) :
    (sortOf C id s).most G m (layBound (fam C id).maxIns s.len + 4 * s.len) := by
  have hV := sortV_lay hC id h32 hG (depth_pow hd) hok hL
  unfold sortOf
  by_cases hf : id = .F4 ∨ id = .F8
  · rw [if_pos hf]
    have hn : ∀ a ∈ s.rng, cellNaN (m a) = false := fun a ha => by
      cases hh : cellNaN (m a) with
      | false => rfl
      | true => exact absurd (hok a ha) (nan_not_ok (by simp [FamId.float, hf]) hh)
    by_cases o1 : C.nanOption = 1
    · rw [if_pos o1]
      obtain ⟨k, hk⟩ := runs_nanToEnd (Sp := VSp Key) hn
      have hc := paid hk (cost_nanToEnd vmeter_wa)
      exact hk.most_bind (by omega) (most_le hV (by omega))
    · rw [if_neg o1]
      by_cases o2 : C.nanOption = -1
      · rw [if_pos o2]
        obtain ⟨k, hk⟩ := runs_nanToStart (Sp := VSp Key) hn
        have hc := paid hk (cost_nanToStart vmeter_wa)
        exact hk.most_bind (by omega) (most_le hV (by omega))
      · rw [if_neg o2]
        exact most_le hV (by omega)
  · rw [if_neg hf]
    exact most_le hV (by omega)

/-- every execution of such a call -/
theorem call_lay (hC : C.OK) (id : FamId) (h32 : C.maxLenRec < 2 ^ 32) {M : Nat} (hM : M ≤ 1 ∨ s.len < 2 * ((fam C id).maxRec + 1))
    (hd : DepthFor C.depth s.len) (hok : ∀ a ∈ s.rng, cok C id (m a)) (hL : Lay (crk C id) s m) {stale : Prop} {c : Cfg Cell (VSp Key)} {n : Nat}
    (h : CSteps ((famCall C id s).par M stale) Prog.accs (start (famCall C id s).main m) c n) :
    n ≤ s.len * (32 * Nat.clog 2 s.len + C.maxLenIns + 5) := by
  have hI : (fam C id).maxIns ≤ C.maxLenIns ∧ (fam C id).maxRec ≤ C.maxLenRec := by
    have := conf_ineq hC
    cases id <;> simp only [fam] <;> omega
  obtain ⟨_, _, j, -, hj, -⟩ := most_all (G := M) (P := (famCall C id s).par M stale) le_rfl rfl (sortOf_lay hC id (by omega) hM hd hok hL) h
  have h1 : layBound (fam C id).maxIns s.len + 4 * s.len ≤ s.len * (32 * Nat.clog 2 s.len + C.maxLenIns + 5) := by
    unfold layBound
    rw [← Nat.add_mul, Nat.mul_comm]
    refine Nat.mul_le_mul_left _ ?_
    have := splits_le s.len
    omega
  omega

/-- reversing consecutive parts of an ascending list -/
theorem lay_list {V ρ : Type} [LinearOrder ρ] {r : V → ρ} (runs : List (List V)) (h : runs.flatten.Pairwise fun x y => r x < r y) :
    ∃ f : Nat → Nat, (∀ i j, i ≤ j → f i ≤ f j) ∧
      ∀ i j (hij : i < j) (hj : j < (runs.map List.reverse).flatten.length),
        if f i = f j then r (runs.map List.reverse).flatten[j] < r (runs.map List.reverse).flatten[i]
        else r (runs.map List.reverse).flatten[i] < r (runs.map List.reverse).flatten[j] := by
  induction runs with
  | nil => exact ⟨fun _ => 0, fun _ _ _ => le_rfl, fun i j _ hj => by simp at hj⟩
  | cons l runs ih =>
    rw [List.flatten_cons, List.pairwise_append] at h
    obtain ⟨h1, h2, h3⟩ := h
    obtain ⟨f, g1, g2⟩ := ih h2
    refine ⟨fun i => if i < l.length then 0 else f (i - l.length) + 1, ?_, ?_⟩
    · intro i j hij
      dsimp only
      split_ifs
      · exact le_rfl
      · omega
      · omega
      · have := g1 (i - l.length) (j - l.length) (by omega); omega
    · intro i j hij hj
      simp only [List.map_cons, List.flatten_cons] at hj ⊢
      by_cases hjl : j < l.length
      · rw [if_pos (by rw [if_pos (by omega), if_pos hjl])]
        rw [List.getElem_append_left (by simpa using hjl), List.getElem_append_left (by simp; omega), List.getElem_reverse, List.getElem_reverse]
        exact List.pairwise_iff_getElem.1 h1 _ _ _ _ (by omega)
      · rw [List.getElem_append_right (by simp; omega)]
        by_cases hil : i < l.length
        · rw [if_neg (by rw [if_pos hil, if_neg hjl]; omega), List.getElem_append_left (by simpa using hil)]
          refine h3 _ (by rw [← List.mem_reverse]; exact List.getElem_mem _) _ ?_
          have : ∀ x ∈ (runs.map List.reverse).flatten, x ∈ runs.flatten := by
            intro x hx
            simp only [List.mem_flatten, List.mem_map] at hx ⊢
            obtain ⟨_, ⟨a, ha, rfl⟩, hx⟩ := hx
            exact ⟨a, ha, List.mem_reverse.1 hx⟩
          exact this _ (List.getElem_mem _)
        · rw [List.getElem_append_right (by simp; omega), if_neg hil, if_neg hjl]
          have := g2 (i - l.reverse.length) (j - l.reverse.length) (by simp; omega) (by simp only [List.length_append, List.length_reverse] at hj ⊢; omega)
          simp only [List.length_reverse] at this ⊢
          by_cases hc : f (i - l.length) = f (j - l.length)
          · rw [if_pos hc] at this
            rwa [if_pos (by omega)]
          · rw [if_neg hc] at this
            rwa [if_neg (by omega)]

theorem lay_of {ρ : Type} [LinearOrder ρ] {r : Cell → ρ} {runs : List (List Cell)} (hv : s.view m = (runs.map List.reverse).flatten)
    (h : runs.flatten.Pairwise fun x y => r x < r y) : Lay r s m := by
  obtain ⟨f, g1, g2⟩ := lay_list runs h
  refine ⟨fun a => f (a - s.off), fun i j _ hij _ => g1 _ _ (by omega), fun i j hi hij hj => ?_⟩
  have hlen : (runs.map List.reverse).flatten.length = s.len := by rw [← hv, view_length]
  have := g2 (i - s.off) (j - s.off) (by omega) (by omega)
  have e : ∀ k (hk : k < (runs.map List.reverse).flatten.length), (runs.map List.reverse).flatten[k] = m (s.off + k) := by
    intro k hk
    have h1 : (s.view m)[k]'(by rw [view_length]; omega) = m (s.off + k) := by simp [Slice.view]
    rw [← h1]
    simp only [hv]
  rw [e, e, show s.off + (i - s.off) = i by omega, show s.off + (j - s.off) = j by omega] at this
  exact this

end Sorty
