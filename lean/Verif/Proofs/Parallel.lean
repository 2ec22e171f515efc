import Verif.Logic.High
import Verif.Proofs.LswJob

/-! # Long inputs are not sorted by the caller alone -/

namespace Sorty

open Prog

section
variable {V κ Sp : Type} {F : Fam V κ} {Q : Unit → Mem V → Prop}

theorem mgw_partCon {ar : Slice} {m : Mem V} {Q : Int → Mem V → Prop} : mgw 2 (partCon F ar) m Q := by
  unfold partCon
  refine mgw.seq fun pv m => ?_
  refine mgw.seq fun half m => ?_
  trivial

theorem mgw_sortV {d : Nat} {ar : Slice} {m : Mem V} (h : 2 * (F.maxRec + 1) ≤ ar.len) : mgw 2 (sortV F d ar) m Q := by
  unfold sortV
  dsimp only
  rw [if_neg (by omega)]
  intro mg hmg
  show mgw 2 (if decide (mg ≤ 1) = true then _ else _) m Q
  rw [if_neg (by simp; omega)]
  show mgw 2 (sortLoop F d ar.len ar) m Q
  cases ar.len with
  | zero => trivial
  | succ f => exact mgw.bind mgw_partCon

end

theorem fam_maxRec_le {C : Conf} (hC : C.OK) (id : FamId) : (fam C id).maxRec ≤ C.maxLenRec := by
  have := conf_ineq hC
  cases id <;> simp only [fam] <;> omega

theorem NaNPost.count {s t : Slice} {b : Bool} {m m' : Mem Cell} (h : NaNPost s b m t m') :
    t.len = ((s.view m).filter fun c => !cellNaN c).length := by
  rw [← ((view_perm h.rp.on).filter _).length_eq]
  have hl := h.len
  have ho := h.off
  have all : ∀ (q : Slice) (b : Bool), (∀ a ∈ q.rng, cellNaN (m' a) = b) → ((q.view m').filter fun c => !cellNaN c).length = if b then 0 else q.len := by
    intro q b hq
    have hq := (view_all (s := q) (m := m') (p := fun c => cellNaN c = b)).2 hq
    cases b with
    | false =>
      rw [List.filter_eq_self.2 (fun c hc => by rw [hq c hc]; rfl), view_length]; rfl
    | true =>
      rw [List.filter_eq_nil_iff.2 (fun c hc => by rw [hq c hc]; simp)]; rfl
  cases b with
  | true =>
    rw [if_pos rfl] at ho
    rw [view_split s m' t.len hl, List.filter_append, List.length_append, all _ false (fun a ha => h.free a ?_), all _ true (fun a ha => h.nan a ?_ ?_)]
    · simp
    all_goals simp only [Slice.rng, Set.mem_ofPred_eq] at *; omega
  | false =>
    rw [if_neg (by simp)] at ho
    rw [view_split s m' (s.len - t.len) (by omega), List.filter_append, List.length_append, all _ true (fun a ha => h.nan a ?_ ?_), all _ false (fun a ha => h.free a ?_)]
    · simp; omega
    all_goals simp only [Slice.rng, Set.mem_ofPred_eq] at *; omega

theorem mgw_sortOf {C : Conf} (hC : C.OK) {id : FamId} {s : Slice} {m : Mem Cell}
    (h : 2 * (C.maxLenRec + 1) ≤ if id.float = true ∧ (C.nanOption = 1 ∨ C.nanOption = -1) then ((s.view m).filter fun c => !cellNaN c).length else s.len) :
    mgw 2 (sortOf C id s) m fun _ _ => False := by
  have hm := fam_maxRec_le hC id
  unfold sortOf
  by_cases hf : id = .F4 ∨ id = .F8
  · rw [if_pos hf]
    have hf' : id.float = true := by simp [FamId.float, hf]
    by_cases h1 : C.nanOption = 1
    · rw [if_pos ⟨hf', .inl h1⟩] at h
      rw [if_pos h1]
      refine mgw.bind ((swp.mgw (cmp := fun _ _ _ _ _ => True) (fun _ _ _ _ _ => trivial) (nanToEnd_spec (R := ∅) (W := s.rng) (fun _ h => h))).mono fun t m1 hp => mgw_sortV ?_)
      rw [hp.count]; omega
    · rw [if_neg h1]
      by_cases h2 : C.nanOption = -1
      · rw [if_pos ⟨hf', .inr h2⟩] at h
        rw [if_pos h2]
        refine mgw.bind ((swp.mgw (cmp := fun _ _ _ _ _ => True) (fun _ _ _ _ _ => trivial) (nanToStart_spec (R := ∅) (W := s.rng) (fun _ h => h))).mono fun t m1 hp => mgw_sortV ?_)
        rw [hp.count]; omega
      · rw [if_neg (by tauto)] at h
        rw [if_neg h2]
        exact mgw_sortV (by omega)
  · rw [if_neg hf]
    have hf' : ¬ id.float = true := by simpa [FamId.float] using hf
    rw [if_neg (by tauto)] at h
    exact mgw_sortV (by omega)

section
variable {V : Type}

theorem mgw_SortLsw {C : Conf} {s : Slice} {m : Mem V} (hw : C.wordSize = 4 ∨ C.wordSize = 8) (hfit : FitsInt C.wordSize s.len)
    (h : 2 * C.maxLenRecFC + 1 < s.len) : mgw 2 (SortLsw C s.len s : Prog V LSp Unit) m fun _ _ => False := by
  unfold SortLsw
  dsimp only
  have hwr : wrapInt C.wordSize ((s.len : Int) - 1) = (s.len : Int) - 1 := by
    have hp : (0 : Int) < 2 ^ (8 * C.wordSize - 1) := by positivity
    have : (11 * ((s.len : Nat) + 8) : Int) ≤ 10 * 2 ^ (8 * C.wordSize - 1) := by exact_mod_cast hfit
    exact wrapInt_id hw (by omega) (by omega)
  rw [hwr, if_neg (by omega)]
  intro mg hmg
  show mgw 2 (if decide (mg ≤ 1) = true then _ else _) m _
  rw [if_neg (by simp; omega)]
  show mgw 2 (lswSortLoop C s ((s.len : Int) - 1 + 1).toNat 0 ((s.len : Int) - 1)) m _
  cases ((s.len : Int) - 1 + 1).toNat with
  | zero => trivial
  | succ f =>
    refine mgw.bind ?_
    unfold lswPartCon
    exact mgw.seq fun pv m => trivial

end

end Sorty
