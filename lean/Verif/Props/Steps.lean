import Verif.Proofs.Gap
import Verif.Props.Cost

/-! # How many steps a call takes

`WSteps P w c₀ c n k` is an execution of exactly `n` steps from `c₀` to `c`, in which steps charged by `w` add up to `k` (SemLen.lean). A step is a
load or store of an element, a call of the user's comparator, a read of `MaxGor` or of the counter, an atomic addition, a `go` statement or a
rendezvous, by any goroutine. `Prog.accs` charges 1 for loads and stores, `Prog.asks` 1 for calls of the user's comparator. -/

namespace Sorty

section
variable {C : Conf} {s : Slice} {m : Mem Cell} {M : Nat} {stale : Prop} {c : Cfg Cell (VSp Key)} {call : Call}
  {sorted : List Cell → Prop} {n k : Nat}

/-- **C68** for SortSlice and SortLen: an execution with `k` loads and stores has at most 9k + 2 steps. So an execution never has more than
9·len·(7·len + 5) + 2 steps, whatever the schedule and `MaxGor` do. -/
theorem C68_steps (hC : C.OK) (J : SortJob C s m call sorted) (hd : DepthFor C.depth s.len)
    (h : WSteps (call.par M stale) Prog.accs (start call.main m) c n k) : n ≤ 9 * k + 2 ∧ n ≤ 9 * (s.len * (7 * s.len + 5)) + 2 := by
  obtain ⟨id, rfl, hok, hl⟩ := J.fam hC
  obtain ⟨ts, _, _, h1⟩ := gap_steps (acc := true) (K := 8) (g := 1) (b0 := 2)
    ((leaves_sortOf (by omega) C id s 2 le_rfl).mono fun _ _ _ => trivial)
    (fun sp => (leaves_vbody (fam C id) (by omega) le_rfl C.depth sp 1 le_rfl).mono fun _ _ _ => trivial) h
  have h2 := call_metered hC hd hok hl h.metered
  exact ⟨by omega, by omega⟩

/-- C68 applies to a call that sorts 3000 strings and returns -/
example : ∃ c n k, WSteps ((SortSlice demoC (.slice .string demoS)).par 7 True) Prog.accs (start (SortSlice demoC (.slice .string demoS)).main demoStrs) c n k ∧
    Returned c ∧ n ≤ 9 * k + 2 ∧ n ≤ 567135002 := by
  obtain ⟨c, h1, h2⟩ := sortJob_returns demoC_ok demoStrs_job demo_depth 7 True
  obtain ⟨n, k, h3⟩ := Steps.counted Prog.accs h1
  exact ⟨c, n, k, h3, h2, C68_steps demoC_ok demoStrs_job demo_depth h3⟩

end

section
variable {V : Type} {C : Conf} {s : Slice} {cmp : Cmp V} {m : Mem V} {M : Nat} {stale : Prop} {c : Cfg V LSp} {n k : Nat}

/-- **C68** for Sort: an execution with `k` calls of the user's function has at most 17k + 4 steps, so never more than
17(len-1)(len+46)/2 + 4, whatever the comparator answers. -/
theorem C68_sort_steps (hC : C.OK) (hcmp : Tame cmp) (hf : FitsInt C.wordSize s.len) (hd : DepthFor C.depth s.len)
    (h : WSteps (lswPar C s cmp M stale) Prog.asks (start (SortLsw C s.len s) m) c n k) :
    n ≤ 17 * k + 4 ∧ 2 * n ≤ 17 * ((s.len - 1) * (s.len + 46)) + 8 := by
  obtain ⟨ts, _, _, h1⟩ := gap_steps (acc := false) (K := 16) (g := 2) (b0 := 4)
    ((leaves_SortLsw C le_rfl (by omega) s.len s 4 le_rfl).mono fun _ _ _ => trivial)
    (fun sp => (leaves_lswBody C le_rfl (by omega) s sp 2 le_rfl).mono fun _ _ _ => trivial) h
  have h2 := C46_sort_calls hC hcmp hf hd h.metered
  exact ⟨by omega, by omega⟩

/-- C68 applies to an execution in which four goroutines work at the same time -/
example : ∃ c n k, WSteps (lswPar demoC lwitS ltCmp 3 False) Prog.asks (start (SortLsw demoC lwitS.len lwitS) lwitM) c n k ∧ accessing c = 4 ∧
    n ≤ 17 * k + 4 ∧ n ≤ 12781879 := by
  obtain ⟨c, h1, h2⟩ := lwit_reaches
  obtain ⟨n, k, h3⟩ := Steps.counted Prog.asks h1
  have h4 : n ≤ 17 * k + 4 ∧ 2 * n ≤ 17 * (1203 * 1250) + 8 := C68_sort_steps demoC_ok lt_strictWeak.tame lwit_fits lwit_depth h3
  exact ⟨c, n, k, h3, h2, h4.1, by omega⟩

end

end Sorty
