import Verif.Logic.HBTrace
import Verif.Props.Conc
import Verif.Props.Lsw

/-! # Properties of recorded executions

`Trace P c₀ tr c`: `tr` is the recording of an execution from `c₀` to `c`. `GoRace tr`: the execution has a data race as the
Go memory model defines it, by happens-before (SemHB.lean). -/

namespace Sorty

/-! ## SortSlice and SortLen -/

section
variable {C : Conf} {s : Slice} {m : Mem Cell} {M : Nat} {stale : Prop} {c : Cfg Cell (VSp Key)} {call : Call}
  {sorted : List Cell → Prop} {tr : List Ev}

/-- **C09**, by the Go memory model: in every execution, any two accesses to one element, one of them a store, are ordered by
happens-before. -/
theorem C09_no_data_race (hC : C.OK) (J : SortJob C s m call sorted) (hd : DepthFor C.depth s.len)
    (h : Trace (call.par M stale) (start call.main m) tr c) : ¬ GoRace tr := by
  obtain ⟨id, rfl, hok, hl⟩ := J.fam hC
  obtain ⟨ts, _, hI⟩ := Inv.trace (call_hyp hC id m hl M stale) (call_start hC id hd hok M stale) h
  exact hI.norace

/-- C09 applies to a recorded execution in which four goroutines are about to access elements -/
example : ∃ tr c, Trace (witCall.par 3 False) (start witCall.main witM) tr c ∧ accessing c = 4 ∧ ¬ GoRace tr := by
  obtain ⟨c, h1, h2⟩ := wit_reaches
  obtain ⟨tr, h3⟩ := Steps.trace h1
  exact ⟨tr, c, h3, h2, C09_no_data_race demoC_ok wit_job wit_depth h3⟩

/-- **C13**, by the Go memory model: when the call has returned, every access any goroutine made to an element is one of the
caller's own actions or happens before one of them, so the caller sees it. -/
theorem C13_all_visible_at_return (hC : C.OK) (J : SortJob C s m call sorted) (hd : DepthFor C.depth s.len)
    (h : Trace (call.par M stale) (start call.main m) tr c) (hret : Returned c) {i t a w} (hi : tr[i]? = some (.acc t a w)) :
    KnownTo tr (.gor 0) i := by
  obtain ⟨id, rfl, hok, hl⟩ := J.fam hC
  obtain ⟨ts, hInv, hI⟩ := Inv.trace (call_hyp hC id m hl M stale) (call_start hC id hd hok M stale) h
  exact hInv.visible hI hret hi

/-- C13 applies to 3000 strings -/
example : ∃ tr c, Trace ((SortSlice demoC (.slice .string demoS)).par 7 True) (start (SortSlice demoC (.slice .string demoS)).main demoStrs) tr c ∧
    Returned c ∧ ∀ i t a w, tr[i]? = some (.acc t a w) → KnownTo tr (.gor 0) i := by
  obtain ⟨c, h1, h2⟩ := sortJob_returns demoC_ok demoStrs_job demo_depth 7 True
  obtain ⟨tr, h3⟩ := Steps.trace h1
  exact ⟨tr, c, h3, h2, fun i t a w => C13_all_visible_at_return demoC_ok demoStrs_job demo_depth h3 h2⟩

/-- **C43.** An execution creates no counter and channel and no goroutine, or it creates the counter and channel once, in the
caller, before any goroutine is started. -/
theorem C43_one_channel (hC : C.OK) (J : SortJob C s m call sorted) (hd : DepthFor C.depth s.len)
    (h : Trace (call.par M stale) (start call.main m) tr c) :
    (∀ x ∈ tr, ∃ a w, x = .acc 0 a w) ∨
    ∃ tr₁ tr₂, tr = tr₁ ++ .make 0 :: tr₂ ∧ (∀ x ∈ tr₁, ∃ a w, x = .acc 0 a w) ∧ ∀ x ∈ tr₂, ∀ t, x ≠ .make t := by
  obtain ⟨id, rfl, hok, hl⟩ := J.fam hC
  have := Inv.make (call_hyp hC id m hl M stale) (call_start hC id hd hok M stale) h
  cases hs : c.sh.sync with
  | false => exact .inl (this.before hs)
  | true => exact .inr (this.one hs)

/-- C43 applies to a recorded execution with several goroutines, which does create a channel -/
example : ∃ tr c, Trace (witCall.par 3 False) (start witCall.main witM) tr c ∧ 4 ≤ c.ths.length ∧
    ∃ tr₁ tr₂, tr = tr₁ ++ .make 0 :: tr₂ ∧ (∀ x ∈ tr₁, ∃ a w, x = .acc 0 a w) ∧ ∀ x ∈ tr₂, ∀ t, x ≠ .make t := by
  obtain ⟨c, h1, h2⟩ := wit_reaches
  obtain ⟨tr, h3⟩ := Steps.trace h1
  have h4 : 4 ≤ c.ths.length := h2 ▸ List.length_filter_le _ _
  refine ⟨tr, c, h3, h4, (C43_one_channel demoC_ok wit_job wit_depth h3).resolve_left fun h => ?_⟩
  have h5 := h3.count
  rw [List.filter_eq_nil_iff.2] at h5
  · simp at h5; omega
  · intro x hx; obtain ⟨a, w, rfl⟩ := h x hx; simp [Ev.isGo]

end

/-! ## Sort -/

section
variable {V : Type} {C : Conf} {s : Slice} {cmp : Cmp V} {m : Mem V} {M : Nat} {stale : Prop} {c : Cfg V LSp} {tr : List Ev}

/-- **C10**, by the Go memory model: in every execution of Sort, any two accesses to one element by calls of the user's
function, one of them a store, are ordered by happens-before. -/
theorem C10_sort_no_data_race (hC : C.OK) (hcmp : Tame cmp) (hf : FitsInt C.wordSize s.len) (hd : DepthFor C.depth s.len)
    (h : Trace (lswPar C s cmp M stale) (start (SortLsw C s.len s) m) tr c) : ¬ GoRace tr := by
  obtain ⟨ts, _, hI⟩ := Inv.trace (lsw_hyp (lok hC hcmp.ok hf) m M stale) (lsw_start (lok hC hcmp.ok hf) hd M stale) h
  exact hI.norace

/-- C10 applies to a recorded execution in which four goroutines are about to access elements -/
example : ∃ tr c, Trace (lswPar demoC lwitS ltCmp 3 False) (start (SortLsw demoC lwitS.len lwitS) lwitM) tr c ∧ accessing c = 4 ∧
    ¬ GoRace tr := by
  obtain ⟨c, h1, h2⟩ := lwit_reaches
  obtain ⟨tr, h3⟩ := Steps.trace h1
  exact ⟨tr, c, h3, h2, C10_sort_no_data_race demoC_ok lt_strictWeak.tame lwit_fits lwit_depth h3⟩

/-- **C13** for Sort, by the Go memory model. -/
theorem C13_sort_all_visible_at_return (hC : C.OK) (hcmp : Tame cmp) (hf : FitsInt C.wordSize s.len) (hd : DepthFor C.depth s.len)
    (h : Trace (lswPar C s cmp M stale) (start (SortLsw C s.len s) m) tr c) (hret : Returned c) {i t a w}
    (hi : tr[i]? = some (.acc t a w)) : KnownTo tr (.gor 0) i := by
  obtain ⟨ts, hInv, hI⟩ := Inv.trace (lsw_hyp (lok hC hcmp.ok hf) m M stale) (lsw_start (lok hC hcmp.ok hf) hd M stale) h
  exact hInv.visible hI hret hi

example : ∃ tr c, Trace (lswPar demoC demoS ltCmp 7 True) (start (SortLsw demoC demoS.len demoS) demoDesc) tr c ∧ Returned c ∧
    ∀ i t a w, tr[i]? = some (.acc t a w) → KnownTo tr (.gor 0) i := by
  obtain ⟨c, h1, h2⟩ := sort_returns demoC_ok lt_strictWeak.tame demoS_fits demo_depth demoDesc 7 True
  obtain ⟨tr, h3⟩ := Steps.trace h1
  exact ⟨tr, c, h3, h2, fun i t a w => C13_sort_all_visible_at_return demoC_ok lt_strictWeak.tame demoS_fits demo_depth h3 h2⟩

/-- **C43** for Sort. -/
theorem C43_sort_one_channel (hC : C.OK) (hcmp : Tame cmp) (hf : FitsInt C.wordSize s.len) (hd : DepthFor C.depth s.len)
    (h : Trace (lswPar C s cmp M stale) (start (SortLsw C s.len s) m) tr c) :
    (∀ x ∈ tr, ∃ a w, x = .acc 0 a w) ∨
    ∃ tr₁ tr₂, tr = tr₁ ++ .make 0 :: tr₂ ∧ (∀ x ∈ tr₁, ∃ a w, x = .acc 0 a w) ∧ ∀ x ∈ tr₂, ∀ t, x ≠ .make t := by
  have := Inv.make (lsw_hyp (lok hC hcmp.ok hf) m M stale) (lsw_start (lok hC hcmp.ok hf) hd M stale) h
  cases hs : c.sh.sync with
  | false => exact .inl (this.before hs)
  | true => exact .inr (this.one hs)

example : ∃ tr c, Trace (lswPar demoC lwitS ltCmp 3 False) (start (SortLsw demoC lwitS.len lwitS) lwitM) tr c ∧ 4 ≤ c.ths.length ∧
    ∃ tr₁ tr₂, tr = tr₁ ++ .make 0 :: tr₂ ∧ (∀ x ∈ tr₁, ∃ a w, x = .acc 0 a w) ∧ ∀ x ∈ tr₂, ∀ t, x ≠ .make t := by
  obtain ⟨c, h1, h2⟩ := lwit_reaches
  obtain ⟨tr, h3⟩ := Steps.trace h1
  have h4 : 4 ≤ c.ths.length := h2 ▸ List.length_filter_le _ _
  refine ⟨tr, c, h3, h4, (C43_sort_one_channel demoC_ok lt_strictWeak.tame lwit_fits lwit_depth h3).resolve_left fun h => ?_⟩
  have h5 := h3.count
  rw [List.filter_eq_nil_iff.2] at h5
  · simp at h5; omega
  · intro x hx; obtain ⟨a, w, rfl⟩ := h x hx; simp [Ev.isGo]

end

end Sorty
