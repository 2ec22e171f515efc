import Verif.Proofs.Calm
import Verif.Props.Lsw

/-! # Lowering MaxGor takes effect during a call

`c` is a state of an execution during which `MaxGor` was at most `M`; `c'` is a later state, and from `c` to `c'` reads of
`MaxGor` yielded at most `M'`. Finished goroutines stay in the list of goroutines. `live c` is the number of goroutines of
the call that have not finished at `c`. -/

namespace Sorty

section
variable {C : Conf} {s : Slice} {m : Mem Cell} {call : Call} {sorted : List Cell → Prop} {M M' : Nat} {stale : Prop}
  {c c' : Cfg Cell (VSp Key)}

/-- **C57** for SortSlice and SortLen: from when `MaxGor` is at most 1, whatever it was before, the call starts at most one
goroutine more than it has unfinished ones at that time. -/
theorem C57_lowered_MaxGor_takes_effect (hC : C.OK) (J : SortJob C s m call sorted) (hd : DepthFor C.depth s.len) (hst : ¬ stale)
    (hr : call.Reaches M stale m c) (hM : M' ≤ 1) (h : Steps (call.par M' stale) c c') :
    c'.ths.length ≤ c.ths.length + live c + 1 := by
  refine calm_bound (P := call.par M stale) (M := M) (fun d hd' => ?_) hst ?_ ?_ ?_ hr hM h
  · obtain ⟨S, I, _, _, ts, hi⟩ := job_inv hC J hd (Call.Reaches.toE hd')
    exact ⟨S, I, ts, hi⟩
  all_goals obtain ⟨id, rfl, _⟩ := J.fam hC
  · exact calm_body _ _
  · exact alw_body _ _
  · exact alw_sortOf C id s

/-- every reached state can be continued to the end with a lower `MaxGor` -/
theorem sortJob_returns_low (hC : C.OK) (J : SortJob C s m call sorted) (hd : DepthFor C.depth s.len)
    (hr : call.Reaches M stale m c) (hM : M' ≤ M) : ∃ c', Steps (call.par M' stale) c c' ∧ Returned c' := by
  obtain ⟨id, rfl, hok, hl⟩ := J.fam hC
  refine exists_low_return (P := (famCall C id s).par M stale) (call_hyp hC id m hl M stale) hM ?_ (call_reach hC hl hd hok hr.toE)
  have h0 := call_acc C id s m M stale
  clear hok
  induction hr with
  | refl => exact h0
  | tail _ hs ih => exact ih.inv hs

/-- C57 applies to an execution in which four goroutines are at work when `MaxGor` falls from 3 to 1 -/
example : ∃ c c', witCall.Reaches 3 False witM c ∧ 4 ≤ working c ∧ Steps (witCall.par 1 False) c c' ∧ Returned c' ∧
    c'.ths.length ≤ c.ths.length + live c + 1 := by
  obtain ⟨c, h1, h2⟩ := wit_reaches
  obtain ⟨c', h3, h4⟩ := sortJob_returns_low demoC_ok wit_job wit_depth h1 (M' := 1) (by omega)
  exact ⟨c, c', h1, h2 ▸ accessing_le c, h3, h4, C57_lowered_MaxGor_takes_effect demoC_ok wit_job wit_depth id h1 le_rfl h3⟩

theorem low_run : ((run witCall.body 3 (fun _ _ _ _ => none) [.run 0 2] (start witCall.main witM)).bind fun c =>
    (run witCall.body 1 (fun _ _ _ _ => none) [.run 0 9, .run 0 1202, .run 1 1202, .comm 1, .run 0 10] c).map fun c' =>
    (c.ths.length, live c, c'.ths.length)) = some (1, 1, 3) := by decide +kernel

/-- The bound is reached: when `MaxGor` falls to 1 just after the caller has read 3, the caller still starts a partition
goroutine and a sorter. -/
theorem C57_bound_is_tight : ∃ c c', witCall.Reaches 3 False witM c ∧ Steps (witCall.par 1 False) c c' ∧
    c'.ths.length = c.ths.length + live c + 1 := by
  have h := low_run
  simp only [Option.bind_eq_some_iff, Option.map_eq_some_iff, Prod.mk.injEq] at h
  obtain ⟨c, h1, c', h2, h3, h4, h5⟩ := h
  exact ⟨c, c', run_sound (P := witCall.par 3 False) (le_refl 3) (by simp) _ h1,
    run_sound (P := witCall.par 1 False) (le_refl 1) (by simp) _ h2, by omega⟩

end

section
variable {V : Type} {C : Conf} {s : Slice} {cmp : Cmp V} {m : Mem V} {M M' : Nat} {stale : Prop} {c c' : Cfg V LSp}

/-- **C57** for Sort. -/
theorem C57_sort_lowered_MaxGor_takes_effect (hC : C.OK) (hcmp : Tame cmp) (hf : FitsInt C.wordSize s.len)
    (hd : DepthFor C.depth s.len) (hst : ¬ stale) (hr : SortReaches C s cmp M stale m c) (hM : M' ≤ 1)
    (h : Steps (lswPar C s cmp M' stale) c c') : c'.ths.length ≤ c.ths.length + live c + 1 := by
  refine calm_bound (P := lswPar C s cmp M stale) (M := M) (fun d hd' => ?_) hst (fun sp => calm_lswBody sp)
    (fun sp => alw_lswBody sp) (alw_sortLsw _) hr hM h
  obtain ⟨ts, hi⟩ := lsw_reach (lok hC hcmp.ok hf) hd (SortReaches.toE hd')
  exact ⟨_, _, ts, hi⟩

example : ∃ c c', SortReaches demoC lwitS ltCmp 3 False lwitM c ∧ 4 ≤ working c ∧ Steps (lswPar demoC lwitS ltCmp 1 False) c c' ∧
    Returned c' ∧ c'.ths.length ≤ c.ths.length + live c + 1 := by
  obtain ⟨c, h1, h2⟩ := lwit_reaches
  obtain ⟨c', h3, h4⟩ : ∃ c', Steps (lswPar demoC lwitS ltCmp 1 False) c c' ∧ Returned c' := by
    have hL := lok demoC_ok lt_strictWeak.tame.ok lwit_fits
    refine exists_low_return (P := lswPar demoC lwitS ltCmp 3 False) (lsw_hyp hL lwitM 3 False) (by show 1 ≤ 3; omega) ?_ (lsw_reach hL lwit_depth h1.toE)
    have h0 := lsw_acc demoC lwitS ltCmp lwitM 3 False
    clear h2
    induction h1 with
    | refl => exact h0
    | tail _ hs ih => exact ih.inv hs
  exact ⟨c, c', h1, h2 ▸ accessing_le c, h3, h4,
    C57_sort_lowered_MaxGor_takes_effect demoC_ok lt_strictWeak.tame lwit_fits lwit_depth id h1 le_rfl h3⟩

end

end Sorty
