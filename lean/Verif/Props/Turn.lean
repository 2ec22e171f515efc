import Verif.Logic.Turn
import Verif.Props.HB

/-! # Goroutines may be assumed to take turns

`ByTurns P c c'` (SemTurn.lean): an execution from `c` to `c'` in which a goroutine, once it has begun to work on elements, is not
interrupted before it comes to a `go` statement, to an action on the counter or the channel, or to its end. In particular no call of
lsw is interrupted. -/

namespace Sorty

/-! ## SortSlice and SortLen -/

section
variable {C : Conf} {s : Slice} {m : Mem Cell} {M : Nat} {stale : Prop} {c : Cfg Cell (VSp Key)} {call : Call}
  {sorted : List Cell → Prop} {tr : List Ev}

/-- **C71.** Every state that some execution reaches, and in which no goroutine is in the middle of a turn, is also reached by turns. In
particular a state in which the call has returned can be reached if and only if it can be reached by turns. -/
theorem C71_take_turns (hC : C.OK) (J : SortJob C s m call sorted) (hd : DepthFor C.depth s.len) :
    (call.Reaches M stale m c → (∀ p ∈ c.ths, p.own = false) → ByTurns (call.par M stale) (start call.main m) c) ∧
    (Returned c → (call.Reaches M stale m c ↔ ByTurns (call.par M stale) (start call.main m) c)) := by
  have key : call.Reaches M stale m c → (∀ p ∈ c.ths, p.own = false) → ByTurns (call.par M stale) (start call.main m) c :=
    fun hr hf => by_turns hr (fun c' hr' => ((C18_MaxGor_live hC J hd M stale).1 c' hr').2.1) hf
  refine ⟨key, fun hret => ⟨fun hr => key hr fun p hp => ?_, fun h => h.steps⟩⟩
  rw [(C13_return_means_finished hC J hd hr hret).1 p hp]
  rfl

/-- C71 applies to 3000 strings: an execution by turns sorts them -/
example : ∃ c, ByTurns ((SortSlice demoC (.slice .string demoS)).par 7 True) (start (SortSlice demoC (.slice .string demoS)).main demoStrs) c ∧
    Returned c ∧ SortedFor demoC .string (demoS.view c.sh.mem) := by
  obtain ⟨c, h1, h2⟩ := sortJob_returns demoC_ok demoStrs_job demo_depth 7 True
  exact ⟨c, ((C71_take_turns demoC_ok demoStrs_job demo_depth).2 h2).1 h1, h2,
    (((C18_MaxGor_live demoC_ok demoStrs_job demo_depth 7 True).1 c h1).2.2.2 h2).1⟩

/-- **C71**, by the Go memory model: if two goroutines access one element, one of them storing, then both take part in some
synchronising action (a `go` statement, an atomic action on the counter, a message) between the two accesses. So between two
synchronising actions of a goroutine nobody else stores to the elements it accesses, and nobody else accesses the elements it stores to. -/
theorem C71_conflicts_are_synchronised (hC : C.OK) (J : SortJob C s m call sorted) (hd : DepthFor C.depth s.len)
    (h : Trace (call.par M stale) (start call.main m) tr c) {i j t t' a : Nat} {w w' : Bool} (hij : i < j)
    (hi : tr[i]? = some (.acc t a w)) (hj : tr[j]? = some (.acc t' a w')) (ht : t ≠ t') (hw : w = true ∨ w' = true) :
    (∃ p x, i < p ∧ p < j ∧ tr[p]? = some x ∧ x.syncs t) ∧ ∃ p x, i < p ∧ p < j ∧ tr[p]? = some x ∧ x.syncs t' :=
  conflict_sync (C09_no_data_race hC J hd h) hij hi hj ht hw

/-- 2404 integers, two of them on the wrong sides of the pivot -/
def turnM : Mem Cell := fun a => if a = 600 then .w64 9 else if a = 1803 then .w64 5 else .w64 7

/-- the caller up to its store to element 1803 -/
def turnSched : List Act := [.run 0 16]

/-- from there up to the load of this element by the sorter, goroutine 2 -/
def turnSched' : List Act := [.run 0 1200, .run 1 1202, .comm 1, .run 0 13, .run 2 1206]

theorem turn_run : ((run witCall.body 3 (fun _ _ _ _ => none) turnSched (start witCall.main turnM)).bind fun c =>
    (act witCall.body 3 (fun _ _ _ _ => none) (.run 0 1) c).bind fun c' =>
      (run witCall.body 3 (fun _ _ _ _ => none) turnSched' c').map fun c'' =>
        (c.ths[0]?.map fun p => p.access, c''.ths[2]?.map fun p => p.access)) =
    some (some (some (1803, true)), some (some (1803, false))) := by
  decide +kernel

theorem turn_job : SortJob demoC witS turnM witCall (SortedFor demoC .int64) := by
  refine .slice .int64 rfl ⟨?_, by decide⟩ (by simp [NaNSafe, GoType.float])
  refine demo_view_all fun a => ?_
  unfold turnM
  split_ifs <;> exact ⟨_, rfl⟩

/-- C71 applies to an execution in which the caller stores to an element that a sorter, goroutine 2, loads later -/
example : ∃ (tr : List Ev) (c : Cfg Cell (VSp Key)) (i j : Nat), Trace (witCall.par 3 False) (start witCall.main turnM) tr c ∧ i < j ∧ tr[i]? = some (.acc 0 1803 true) ∧
    tr[j]? = some (.acc 2 1803 false) ∧ (∃ p x, i < p ∧ p < j ∧ tr[p]? = some x ∧ x.syncs 0) ∧
    ∃ p x, i < p ∧ p < j ∧ tr[p]? = some x ∧ x.syncs 2 := by
  have h := turn_run
  simp only [Option.bind_eq_some_iff, Option.map_eq_some_iff, Prod.mk.injEq] at h
  obtain ⟨c, h1, c1, h2, c2, h3, ⟨p, hp, hpa⟩, ⟨q, hq, hqa⟩⟩ := h
  obtain ⟨tr, ht⟩ := Steps.trace (run_sound (P := witCall.par 3 False) (le_refl 3) (by simp) _ h1)
  have ht1 := ht.access (mg := 3) (le_refl 3) (by simp) hp hpa h2
  obtain ⟨tr2, ht2⟩ := ht1.extend (run_sound (P := witCall.par 3 False) (le_refl 3) (by simp) _ h3)
  obtain ⟨c3, ht3⟩ := ht2.access_any hq hqa
  have hi : (tr ++ [Ev.acc 0 1803 true] ++ tr2 ++ [Ev.acc 2 1803 false])[tr.length]? = some (.acc 0 1803 true) := by
    simp
  have hj : (tr ++ [Ev.acc 0 1803 true] ++ tr2 ++ [Ev.acc 2 1803 false])[tr.length + (tr2.length + 1)]? = some (.acc 2 1803 false) := by
    rw [List.getElem?_append_right (by simp)]
    simp
  exact ⟨_, c3, _, _, ht3, by omega, hi, hj,
    C71_conflicts_are_synchronised demoC_ok turn_job wit_depth ht3 (by omega) hi hj (by decide) (.inl rfl)⟩

end

/-! ## Sort -/

section
variable {V : Type} {C : Conf} {s : Slice} {cmp : Cmp V} {M : Nat} {stale : Prop} {m : Mem V} {c : Cfg V LSp} {tr : List Ev}

/-- **C71** for Sort: nothing Sort does depends on goroutines being interrupted inside a call of lsw, or between two calls of lsw that no
`go` statement, counter or channel action separates. -/
theorem C71_sort_take_turns (hC : C.OK) (hcmp : Tame cmp) (hf : FitsInt C.wordSize s.len) (hd : DepthFor C.depth s.len) :
    (SortReaches C s cmp M stale m c → (∀ p ∈ c.ths, p.own = false) →
      ByTurns (lswPar C s cmp M stale) (start (SortLsw C s.len s) m) c) ∧
    (Returned c → (SortReaches C s cmp M stale m c ↔ ByTurns (lswPar C s cmp M stale) (start (SortLsw C s.len s) m) c)) := by
  have key : SortReaches C s cmp M stale m c → (∀ p ∈ c.ths, p.own = false) →
      ByTurns (lswPar C s cmp M stale) (start (SortLsw C s.len s) m) c :=
    fun hr hn => by_turns hr (fun c' hr' => C10_sort_no_race hC hcmp hf hd hr') hn
  refine ⟨key, fun hret => ⟨fun hr => key hr fun p hp => ?_, fun h => h.steps⟩⟩
  rw [(C13_sort_return_means_finished hC hcmp hf hd hr hret).1 p hp]
  rfl

example : ∃ c, ByTurns (lswPar demoC demoS wildCmp 7 True) (start (SortLsw demoC demoS.len demoS) demoDesc) c ∧ Returned c := by
  obtain ⟨c, h1, h2⟩ := sort_returns demoC_ok wild_tame demoS_fits demo_depth demoDesc 7 True
  exact ⟨c, ((C71_sort_take_turns demoC_ok wild_tame demoS_fits demo_depth).2 h2).1 h1, h2⟩

/-- **C71** for Sort, by the Go memory model. -/
theorem C71_sort_conflicts_are_synchronised (hC : C.OK) (hcmp : Tame cmp) (hf : FitsInt C.wordSize s.len) (hd : DepthFor C.depth s.len)
    (h : Trace (lswPar C s cmp M stale) (start (SortLsw C s.len s) m) tr c) {i j t t' a : Nat} {w w' : Bool} (hij : i < j)
    (hi : tr[i]? = some (.acc t a w)) (hj : tr[j]? = some (.acc t' a w')) (ht : t ≠ t') (hw : w = true ∨ w' = true) :
    (∃ p x, i < p ∧ p < j ∧ tr[p]? = some x ∧ x.syncs t) ∧ ∃ p x, i < p ∧ p < j ∧ tr[p]? = some x ∧ x.syncs t' :=
  conflict_sync (C10_sort_no_data_race hC hcmp hf hd h) hij hi hj ht hw

/-- 1204 numbers, two of them on the wrong sides of the pivot -/
def lturnM : Mem Nat := fun a => if a = 300 then 9 else if a = 903 then 5 else 7

/-- from the caller's store to element 903 up to the load of this element by the sorter, goroutine 2 -/
def lturnSched : List Act := [.run 0 600, .run 0 600, .run 0 595, .run 1 600, .run 1 600, .run 1 600, .comm 1, .run 0 29, .run 2 3]

theorem lturn_run : ((run (lswBody demoC lwitS) 3 ltAns [.run 0 41] (start (SortLsw demoC lwitS.len lwitS) lturnM)).bind fun c =>
    (act (lswBody demoC lwitS) 3 ltAns (.run 0 1) c).bind fun c' =>
      (run (lswBody demoC lwitS) 3 ltAns lturnSched c').map fun c'' =>
        (c.ths[0]?.map fun p => p.access, c''.ths[2]?.map fun p => p.access)) =
    some (some (some (903, true)), some (some (903, false))) := by
  decide +kernel

/-- C71 applies to an execution of Sort in which the caller stores to an element that a sorter, goroutine 2, loads later -/
example : ∃ (tr : List Ev) (c : Cfg Nat LSp) (i j : Nat),
    Trace (lswPar demoC lwitS ltCmp 3 False) (start (SortLsw demoC lwitS.len lwitS) lturnM) tr c ∧ i < j ∧
    tr[i]? = some (.acc 0 903 true) ∧ tr[j]? = some (.acc 2 903 false) ∧ (∃ p x, i < p ∧ p < j ∧ tr[p]? = some x ∧ x.syncs 0) ∧
    ∃ p x, i < p ∧ p < j ∧ tr[p]? = some x ∧ x.syncs 2 := by
  have h := lturn_run
  simp only [Option.bind_eq_some_iff, Option.map_eq_some_iff, Prod.mk.injEq] at h
  obtain ⟨c, h1, c1, h2, c2, h3, ⟨p, hp, hpa⟩, ⟨q, hq, hqa⟩⟩ := h
  have hans : ∀ i j x y b, ltAns i j x y = some b → (lswPar demoC lwitS ltCmp 3 False).cmp i j x y b := by
    intro i j x y b hb
    simp only [ltAns, Option.some.injEq] at hb
    simp [lswPar, byLess, ← hb]
  obtain ⟨tr, ht⟩ := Steps.trace (run_sound (P := lswPar demoC lwitS ltCmp 3 False) (le_refl 3) hans _ h1)
  have ht1 := ht.access (mg := 3) (le_refl 3) hans hp hpa h2
  obtain ⟨tr2, ht2⟩ := ht1.extend (run_sound (P := lswPar demoC lwitS ltCmp 3 False) (le_refl 3) hans _ h3)
  obtain ⟨c3, ht3⟩ := ht2.access_any hq hqa
  have hi : (tr ++ [Ev.acc 0 903 true] ++ tr2 ++ [Ev.acc 2 903 false])[tr.length]? = some (.acc 0 903 true) := by
    simp
  have hj : (tr ++ [Ev.acc 0 903 true] ++ tr2 ++ [Ev.acc 2 903 false])[tr.length + (tr2.length + 1)]? = some (.acc 2 903 false) := by
    rw [List.getElem?_append_right (by simp)]
    simp
  exact ⟨_, c3, _, _, ht3, by omega, hi, hj,
    C71_sort_conflicts_are_synchronised demoC_ok lt_strictWeak.tame lwit_fits lwit_depth ht3 (by omega) hi hj (by decide) (.inl rfl)⟩

end

end Sorty
