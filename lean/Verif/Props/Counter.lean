import Verif.Logic.Counter
import Verif.Props.HB

/-! # The counter and channel of a call -/

namespace Sorty

section
variable {C : Conf} {s : Slice} {m : Mem Cell} {M : Nat} {stale : Prop} {c : Cfg Cell (VSp Key)} {call : Call}
  {sorted : List Cell → Prop} {tr : List Ev}

/-- **C54.** A goroutine that is about to use the counter or the channel of the call (plain load, atomic addition, send or receive)
does so after their creation by the caller, in happens-before. -/
theorem C54_created_before_use (hC : C.OK) (J : SortJob C s m call sorted) (hd : DepthFor C.depth s.len)
    (h : Trace (call.par M stale) (start call.main m) tr c) {t : Nat} {p : Prog Cell (VSp Key) Unit} (ht : c.ths[t]? = some p)
    (hp : p.usesSync) : ∃ i, tr[i]? = some (.make 0) ∧ KnownTo tr (.gor t) i := by
  obtain ⟨id, rfl, hok, hl⟩ := J.fam hC
  exact Inv.counter (call_hyp hC id m hl M stale) (call_start hC id hd hok M stale) h ht hp

def raceSched : List Act := [.run 0 11, .run 0 1202, .run 1 1202, .comm 1, .run 0 3, .run 2 1210]

/-- goroutine 0 is about to load the counter, goroutine 2 to add to it -/
def raceCheck {V Sp : Type} (c : Cfg V Sp) : Bool :=
  match c.ths with
  | .loadGor _ :: _ :: .incGor _ :: _ => true
  | _ => false

theorem raceCheck_sound {V Sp : Type} {c : Cfg V Sp} (h : raceCheck c = true) : CounterRace c := by
  obtain ⟨sh, ths⟩ := c
  unfold raceCheck at h
  split at h
  · rename_i k q k' l he
    simp only at he
    subst he
    exact ⟨0, 2, _, _, by decide, rfl, rfl, trivial, trivial⟩
  · cases h

theorem race_run : (run witCall.body 3 (fun _ _ _ _ => none) raceSched (start witCall.main witM)).map raceCheck = some true := by
  decide +kernel

/-- **C54, the plain loads of the counter race.** With the default thresholds and `MaxGor` 3, SortSlice on 2404 equal integers can
come to a state in which one goroutine is about to load the counter while another is about to add to it. (The theorems with
`stale` true show that it does not matter what the load yields.) -/
theorem C54_counter_race : ∃ c, witCall.Reaches 3 False witM c ∧ CounterRace c := by
  have h := race_run
  simp only [Option.map_eq_some_iff] at h
  obtain ⟨c, h1, h2⟩ := h
  exact ⟨c, run_sound (P := witCall.par 3 False) (le_refl 3) (by simp) _ h1, raceCheck_sound h2⟩

/-- C54 applies to both goroutines in that state: for both, the creation of the counter is in the past -/
example : ∃ tr c i j, Trace (witCall.par 3 False) (start witCall.main witM) tr c ∧ i ≠ j ∧
    (∃ k, tr[k]? = some (.make 0) ∧ KnownTo tr (.gor i) k) ∧ ∃ k, tr[k]? = some (.make 0) ∧ KnownTo tr (.gor j) k := by
  obtain ⟨c, h1, i, j, p, q, hij, hp, hq, h2, h3⟩ := C54_counter_race
  obtain ⟨tr, h4⟩ := Steps.trace h1
  refine ⟨tr, c, i, j, h4, hij, C54_created_before_use demoC_ok wit_job wit_depth h4 hp ?_, C54_created_before_use demoC_ok wit_job wit_depth h4 hq ?_⟩
  · cases p <;> first | exact h2 | exact h2.elim
  · cases q <;> first | exact h3 | exact h3.elim

end

section
variable {V : Type} {C : Conf} {s : Slice} {cmp : Cmp V} {m : Mem V} {M : Nat} {stale : Prop} {c : Cfg V LSp} {tr : List Ev}

/-- **C54** for Sort. -/
theorem C54_sort_created_before_use (hC : C.OK) (hcmp : Tame cmp) (hf : FitsInt C.wordSize s.len) (hd : DepthFor C.depth s.len)
    (h : Trace (lswPar C s cmp M stale) (start (SortLsw C s.len s) m) tr c) {t : Nat} {p : Prog V LSp Unit} (ht : c.ths[t]? = some p)
    (hp : p.usesSync) : ∃ i, tr[i]? = some (.make 0) ∧ KnownTo tr (.gor t) i :=
  Inv.counter (lsw_hyp (lok hC hcmp.ok hf) m M stale) (lsw_start (lok hC hcmp.ok hf) hd M stale) h ht hp

def lraceSched : List Act :=
  [.run 0 600, .run 0 600, .run 0 633, .run 1 600, .run 1 600, .run 1 600, .comm 1, .run 0 3, .run 2 600, .run 2 600, .run 2 620]

theorem lrace_run : (run (lswBody demoC lwitS) 3 ltAns lraceSched (start (SortLsw demoC lwitS.len lwitS) lwitM)).map raceCheck = some true := by
  decide +kernel

/-- **C54** for Sort: the plain loads of the counter race. -/
theorem C54_sort_counter_race : ∃ c, SortReaches demoC lwitS ltCmp 3 False lwitM c ∧ CounterRace c := by
  have h := lrace_run
  simp only [Option.map_eq_some_iff] at h
  obtain ⟨c, h1, h2⟩ := h
  refine ⟨c, run_sound (P := lswPar demoC lwitS ltCmp 3 False) (le_refl 3) ?_ _ h1, raceCheck_sound h2⟩
  intro i j x y b hb
  simp only [ltAns, Option.some.injEq] at hb
  simp [lswPar, byLess, ← hb]

/-- C54 applies to both goroutines in that state -/
example : ∃ tr c i j, Trace (lswPar demoC lwitS ltCmp 3 False) (start (SortLsw demoC lwitS.len lwitS) lwitM) tr c ∧ i ≠ j ∧
    (∃ k, tr[k]? = some (.make 0) ∧ KnownTo tr (.gor i) k) ∧ ∃ k, tr[k]? = some (.make 0) ∧ KnownTo tr (.gor j) k := by
  obtain ⟨c, h1, i, j, p, q, hij, hp, hq, h2, h3⟩ := C54_sort_counter_race
  obtain ⟨tr, h4⟩ := Steps.trace h1
  refine ⟨tr, c, i, j, h4, hij, C54_sort_created_before_use demoC_ok lt_strictWeak.tame lwit_fits lwit_depth h4 hp ?_,
    C54_sort_created_before_use demoC_ok lt_strictWeak.tame lwit_fits lwit_depth h4 hq ?_⟩
  · cases p <;> first | exact h2 | exact h2.elim
  · cases q <;> first | exact h3 | exact h3.elim

end

end Sorty
