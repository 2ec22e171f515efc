import Verif.Proofs.Parallel
import Verif.Props.Lsw

/-! # Long inputs are sorted by several goroutines

`HighSteps P L c₀ c` is an execution from `c₀` to `c` during which every read of `MaxGor` yields at least `L` (SemHigh.lean). Finished goroutines stay in the list of goroutines, the caller is the first one. -/

namespace Sorty

section
variable {C : Conf} {t : GoType} {s : Slice} {m : Mem Cell} {M : Nat} {stale : Prop} {c : Cfg Cell (VSp Key)}

/-- **C52** for SortSlice on integers, pointers, strings and byte slices: if `MaxGor` is at least 2 throughout the call and
the slice has at least 2·MaxLenRec + 2 elements, then in every execution at least one goroutine beside the caller has
worked for the call when it returns. -/
theorem C52_sortSlice_parallel (hC : C.OK) (ht : t.sortable = true) (hf : t.float = false) (hl : 2 * (C.maxLenRec + 1) ≤ s.len)
    (h : HighSteps ((SortSlice C (.slice t s)).par M stale) 2 (start (SortSlice C (.slice t s)).main m) c) (hr : Returned c) :
    2 ≤ c.ths.length := by
  obtain ⟨id, hid⟩ := famOf_of_sortable (ws := C.wordSize) ht
  rw [sortSlice_eq hC hid] at h
  refine mgw_returned (mgw_sortOf hC ?_) h hr
  rw [if_neg (by rw [famOf_float hid, hf]; simp)]
  exact hl

/-- **C52** for SortLen. -/
theorem C52_sortLen_parallel (hC : C.OK) (ht : t.hasLen = true) (hl : 2 * (C.maxLenRec + 1) ≤ s.len)
    (h : HighSteps ((SortLen C (.slice t s)).par M stale) 2 (start (SortLen C (.slice t s)).main m) c) (hr : Returned c) :
    2 ≤ c.ths.length := by
  obtain ⟨id, hid⟩ := lfamOf_of_hasLen ht
  rw [sortLen_eq hC hid] at h
  refine mgw_returned (mgw_sortOf hC ?_) h hr
  rw [if_neg (by rw [lfamOf_float hid]; simp)]
  exact hl

open Classical in
/-- **C52** for floats: with NaNlarge and NaNsmall only numbers count, since NaNs are moved away by the caller. -/
theorem C52_floats_parallel (hC : C.OK) (ht : t.float = true)
    (hl : 2 * (C.maxLenRec + 1) ≤ if C.nanOption = 1 ∨ C.nanOption = -1 then ((s.view m).filter fun c => ¬ c.isNaN).length else s.len)
    (h : HighSteps ((SortSlice C (.slice t s)).par M stale) 2 (start (SortSlice C (.slice t s)).main m) c) (hr : Returned c) :
    2 ≤ c.ths.length := by
  obtain ⟨id, hid⟩ := famOf_of_sortable (ws := C.wordSize) (t := t) (by simp [GoType.sortable, ht])
  rw [sortSlice_eq hC hid] at h
  refine mgw_returned (mgw_sortOf hC ?_) h hr
  have e : (fun c : Cell => !cellNaN c) = fun c => decide ¬ c.isNaN := by
    funext c
    by_cases hc : c.isNaN
    · simp [hc, cellNaN_iff.2 hc]
    · have : cellNaN c = false := by rw [← cellNaN_iff] at hc; simpa using hc
      simp [hc, this]
  rw [e, famOf_float hid, ht]
  by_cases ho : C.nanOption = 1 ∨ C.nanOption = -1
  · rw [if_pos ⟨rfl, ho⟩]; rwa [if_pos ho] at hl
  · rw [if_neg (by tauto)]; rwa [if_neg ho] at hl

/-- documented calls return also with a high `MaxGor` -/
theorem sortJob_returns_high {call : Call} {sorted : List Cell → Prop} (hC : C.OK) (J : SortJob C s m call sorted) (hd : DepthFor C.depth s.len)
    {L M : Nat} (hL : L ≤ M) (stale : Prop) : ∃ c, HighSteps (call.par M stale) L (start call.main m) c ∧ Returned c := by
  obtain ⟨id, rfl, hok, hl⟩ := J.fam hC
  exact exists_high_return (call_hyp hC id m hl M stale) hL (call_acc C id s m M stale) (call_start hC id hd hok M stale)

/-- C52 applies to 3000 integers, strings by length, and floats of which a third are NaNs -/
example : (∃ c, HighSteps ((SortSlice demoC (.slice .int64 demoS)).par 3 False) 2 (start (SortSlice demoC (.slice .int64 demoS)).main demoInts) c ∧ Returned c ∧ 2 ≤ c.ths.length) ∧
    (∃ c, HighSteps ((SortLen demoC (.slice .string demoS)).par 3 False) 2 (start (SortLen demoC (.slice .string demoS)).main demoStrs) c ∧ Returned c ∧ 2 ≤ c.ths.length) := by
  obtain ⟨c, h1, h2⟩ := sortJob_returns_high demoC_ok demoInts_job demo_depth (L := 2) (M := 3) (by omega) False
  obtain ⟨c', h3, h4⟩ := sortJob_returns_high demoC_ok demoLens_job demo_depth (L := 2) (M := 3) (by omega) False
  exact ⟨⟨c, h1, h2, C52_sortSlice_parallel demoC_ok rfl rfl (by decide) h1 h2⟩, ⟨c', h3, h4, C52_sortLen_parallel demoC_ok rfl (by decide) h3 h4⟩⟩

open Classical in
example : ∃ c, HighSteps ((SortSlice { demoC with nanOption := 1 } (.slice .float64 demoS)).par 3 False) 2
      (start (SortSlice { demoC with nanOption := 1 } (.slice .float64 demoS)).main demoFloats) c ∧ Returned c ∧ 2 ≤ c.ths.length := by
  obtain ⟨c, h1, h2⟩ := sortJob_returns_high (demoC_ok' 1) (demoFloats_job 1 (.inl rfl)) (demo_depth' 1) (L := 2) (M := 3) (by omega) False
  refine ⟨c, h1, h2, C52_floats_parallel (demoC_ok' 1) rfl ?_ h1 h2⟩
  have h0 : 1202 ≤ ((demoS.view demoFloats).filter fun c => !cellNaN c).length := by decide +kernel
  rw [if_pos (.inl rfl)]
  refine h0.trans (le_of_eq (congrArg List.length (List.filter_congr fun c _ => ?_)))
  by_cases hc : c.isNaN
  · simp [hc, cellNaN_iff.2 hc]
  · have : cellNaN c = false := by rw [← cellNaN_iff] at hc; simpa using hc
    simp [hc, this]

end

section
variable {V : Type} {C : Conf} {s : Slice} {cmp : Cmp V} {m : Mem V} {M : Nat} {stale : Prop} {c : Cfg V LSp}

/-- **C52** for Sort, whatever the comparator answers. -/
theorem C52_sort_parallel (hC : C.OK) (hf : FitsInt C.wordSize s.len) (hl : 2 * C.maxLenRecFC + 1 < s.len)
    (h : HighSteps (lswPar C s cmp M stale) 2 (start (SortLsw C s.len s) m) c) (hr : Returned c) : 2 ≤ c.ths.length :=
  mgw_returned (mgw_SortLsw hC.word hf hl) h hr

example : ∃ c, HighSteps (lswPar demoC demoS ltCmp 3 False) 2 (start (SortLsw demoC demoS.len demoS) demoDesc) c ∧ Returned c ∧ 2 ≤ c.ths.length := by
  obtain ⟨c, h1, h2⟩ := exists_high_return (L := 2) (lsw_hyp (lok demoC_ok lt_strictWeak.tame.ok demoS_fits) demoDesc 3 False) (by show 2 ≤ 3; omega)
    (lsw_acc demoC demoS ltCmp demoDesc 3 False) (lsw_start (lok demoC_ok lt_strictWeak.tame.ok demoS_fits) demo_depth 3 False)
  exact ⟨c, h1, h2, C52_sort_parallel demoC_ok demoS_fits (by decide) h1 h2⟩

end

end Sorty
