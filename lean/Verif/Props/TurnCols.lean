import Verif.Props.Turn
import Verif.Props.Columns

/-! # Goroutines may be assumed to take turns, also when the collection consists of several slices

An `lsw` that swaps elements of several slices (C70) makes many loads and stores; none of its calls needs to be interrupted. -/

namespace Sorty

variable {T : Type} {C : Conf} {K : Nat} {cs : Fin (K + 1) → Slice} {n M : Nat} {stale : Prop} {m : Mem T} {c : Cfg T LSp} {cmp : Cmp T}

/-- **C71** for Sort of parallel slices. -/
theorem C71_parallel_take_turns (hC : C.OK) (hcmp : Tame cmp) (hn : ∀ j, (cs j).len = n) (ho : NoOverlap cs)
    (hf : FitsInt C.wordSize n) (hd : DepthFor C.depth n) :
    (Reach (colsPar C cs n cmp M stale) (colsSort C cs n) m c → (∀ p ∈ c.ths, p.own = false) →
      ByTurns (colsPar C cs n cmp M stale) (start (colsSort C cs n) m) c) ∧
    (Returned c → (Reach (colsPar C cs n cmp M stale) (colsSort C cs n) m c ↔
      ByTurns (colsPar C cs n cmp M stale) (start (colsSort C cs n) m) c)) := by
  have key : Reach (colsPar C cs n cmp M stale) (colsSort C cs n) m c → (∀ p ∈ c.ths, p.own = false) →
      ByTurns (colsPar C cs n cmp M stale) (start (colsSort C cs n) m) c :=
    fun hr hp => by_turns hr (fun c' hr' => ((C70_any_comparator hC hcmp hn ho hf hd m M stale).2 c' hr').2.2.1) hp
  refine ⟨key, fun hret => ⟨fun hr => key hr fun p hp => ?_, fun h => h.steps⟩⟩
  rw [(((C70_any_comparator hC hcmp hn ho hf hd m M stale).2 c hr).2.2.2.2.2 hret).1 p hp]
  rfl

/-- C71 applies to an execution that sorts three keys and moves their values along -/
example : ∃ c, ByTurns (colsPar demoC colsS 3 ltCmp 5 True) (start (colsSort demoC colsS 3) colsM) c ∧ Returned c ∧
    (colsS 0).view c.sh.mem = [1, 2, 3] ∧ (colsS 1).view c.sh.mem = [10, 20, 30] := by
  have h := colsS_run
  simp only [Option.map_eq_some_iff, Prod.mk.injEq] at h
  obtain ⟨c, h1, h2, h3, h4⟩ := h
  have hc : Reach (colsPar demoC colsS 3 ltCmp 5 True) (colsSort demoC colsS 3) colsM c :=
    @run_sound _ _ (colsPar demoC colsS 3 ltCmp 5 True) 5 ltAns (le_refl 5) (fun i j x y b hb => by
      simp only [ltAns, Option.some.injEq] at hb
      simp [lswPar, byLess, ← hb]) _ _ _ h1
  have hr : Returned c := by
    obtain ⟨sh, ths⟩ := c
    match ths, h2 with
    | [.ret ()], _ => exact ⟨[], rfl⟩
  exact ⟨c, ((C71_parallel_take_turns (cs := colsS) (n := 3) demoC_ok lt_strictWeak.tame (fun _ => rfl) colsS_apart colsS_fits
    colsS_depth).2 hr).1 hc, hr, h3, h4⟩

/-- **C71** for Sort of parallel slices, by the Go memory model. -/
theorem C71_parallel_conflicts_are_synchronised (hC : C.OK) (hcmp : Tame cmp) (hn : ∀ j, (cs j).len = n) (ho : NoOverlap cs)
    (hf : FitsInt C.wordSize n) (hd : DepthFor C.depth n) {tr : List Ev}
    (h : Trace (colsPar C cs n cmp M stale) (start (colsSort C cs n) m) tr c) {i j t t' a : Nat} {w w' : Bool} (hij : i < j)
    (hi : tr[i]? = some (.acc t a w)) (hj : tr[j]? = some (.acc t' a w')) (ht : t ≠ t') (hw : w = true ∨ w' = true) :
    (∃ p x, i < p ∧ p < j ∧ tr[p]? = some x ∧ x.syncs t) ∧ ∃ p x, i < p ∧ p < j ∧ tr[p]? = some x ∧ x.syncs t' :=
  conflict_sync (C70_no_data_race hC hcmp hn ho hf hd m M stale h).1 hij hi hj ht hw

/-- from the caller's store to key 903 up to the load of this key by the sorter, goroutine 2 -/
def cturnSched : List Act := [.run 0 600, .run 0 600, .run 0 599, .run 1 600, .run 1 600, .run 1 600, .comm 1, .run 0 29, .run 2 3]

theorem cturn_run : ((run (@lswBody Nat (columns colsT) demoC ⟨0, 1204⟩) 3 ltAns [.run 0 41] (start (colsSort demoC colsT 1204) lturnM)).bind fun c =>
    (act (@lswBody Nat (columns colsT) demoC ⟨0, 1204⟩) 3 ltAns (.run 0 1) c).bind fun c' =>
      (run (@lswBody Nat (columns colsT) demoC ⟨0, 1204⟩) 3 ltAns cturnSched c').map fun c'' =>
        (c.ths[0]?.map fun p => p.access, c''.ths[2]?.map fun p => p.access)) =
    some (some (some (903, true)), some (some (903, false))) := by
  decide +kernel

/-- C71 applies to an execution of Sort of two slices in which the caller stores to a key that a sorter, goroutine 2, loads later -/
example : ∃ (tr : List Ev) (c : Cfg Nat LSp) (i j : Nat),
    Trace (colsPar demoC colsT 1204 ltCmp 3 False) (start (colsSort demoC colsT 1204) lturnM) tr c ∧ i < j ∧
    tr[i]? = some (.acc 0 903 true) ∧ tr[j]? = some (.acc 2 903 false) ∧ (∃ p x, i < p ∧ p < j ∧ tr[p]? = some x ∧ x.syncs 0) ∧
    ∃ p x, i < p ∧ p < j ∧ tr[p]? = some x ∧ x.syncs 2 := by
  have h := cturn_run
  simp only [Option.bind_eq_some_iff, Option.map_eq_some_iff, Prod.mk.injEq] at h
  obtain ⟨c, h1, c1, h2, c2, h3, ⟨p, hp, hpa⟩, ⟨q, hq, hqa⟩⟩ := h
  have hans : ∀ i j x y b, ltAns i j x y = some b → (colsPar demoC colsT 1204 ltCmp 3 False).cmp i j x y b := by
    intro i j x y b hb
    simp only [ltAns, Option.some.injEq] at hb
    simp [lswPar, byLess, ← hb]
  obtain ⟨tr, ht⟩ := Steps.trace (run_sound (P := colsPar demoC colsT 1204 ltCmp 3 False) (le_refl 3) hans _ h1)
  have ht1 := ht.access (mg := 3) (le_refl 3) hans hp hpa h2
  obtain ⟨tr2, ht2⟩ := ht1.extend (run_sound (P := colsPar demoC colsT 1204 ltCmp 3 False) (le_refl 3) hans _ h3)
  obtain ⟨c3, ht3⟩ := ht2.access_any hq hqa
  have hi : (tr ++ [Ev.acc 0 903 true] ++ tr2 ++ [Ev.acc 2 903 false])[tr.length]? = some (.acc 0 903 true) := by
    simp
  have hj : (tr ++ [Ev.acc 0 903 true] ++ tr2 ++ [Ev.acc 2 903 false])[tr.length + (tr2.length + 1)]? = some (.acc 2 903 false) := by
    rw [List.getElem?_append_right (by simp)]
    simp
  exact ⟨_, c3, _, _, ht3, by omega, hi, hj, C71_parallel_conflicts_are_synchronised (cs := colsT) (n := 1204) demoC_ok lt_strictWeak.tame
    (fun _ => rfl) colsT_apart lwit_fits lwit_depth ht3 (by omega) hi hj (by decide) (.inl rfl)⟩

end Sorty
