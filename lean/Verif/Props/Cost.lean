import Verif.Proofs.ValCost
import Verif.Props.Conc
import Verif.Props.Lsw
import Verif.Props.Check
import Verif.Props.LswCheck

/-! # How much work a call does

`CSteps P w c₀ c n` is an execution from `c₀` to `c` in which steps charged by `w` add up to `n` (SemCost.lean), over all
goroutines. `Prog.asks` charges 1 for each call of the user's function, `Prog.accs` 1 for each load or store of an element.
-/

namespace Sorty

/-! ## Sort -/

section
variable {V : Type} {C : Conf} {s : Slice} {cmp : Cmp V} {m : Mem V} {M : Nat} {stale : Prop} {c : Cfg V LSp} {n : Nat}

/-- **C46** for Sort: whatever the comparator answers, however the goroutines are scheduled and whatever `MaxGor` does, all
goroutines of a call together call the user's function at most (n-1)(n+46)/2 times for n elements. -/
theorem C46_sort_calls (hC : C.OK) (hcmp : Tame cmp) (hf : FitsInt C.wordSize s.len) (hd : DepthFor C.depth s.len)
    (h : CSteps (lswPar C s cmp M stale) Prog.asks (start (SortLsw C s.len s) m) c n) :
    2 * n ≤ (s.len - 1) * (s.len + 46) := by
  have h1 := sort_metered (lok hC hcmp.ok hf) hd h
  unfold qb at h1
  cases hs : s.len with
  | zero => simpa [hs] using h1
  | succ k => rw [hs] at h1; exact h1

/-- C46 applies to an execution in which four goroutines work at the same time -/
example : ∃ c n, CSteps (lswPar demoC lwitS ltCmp 3 False) Prog.asks (start (SortLsw demoC lwitS.len lwitS) lwitM) c n ∧ accessing c = 4 ∧ n ≤ 751875 := by
  obtain ⟨c, h1, h2⟩ := lwit_reaches
  obtain ⟨n, h3⟩ := Steps.metered Prog.asks h1
  have h4 : 2 * n ≤ 1203 * 1250 := C46_sort_calls demoC_ok lt_strictWeak.tame lwit_fits lwit_depth h3
  exact ⟨c, n, h3, h2, by omega⟩

/-- The meter runs: sorting eight descending numbers takes 28 calls, the bound is 189. -/
example : ∃ c, CSteps (lswPar demoC ⟨10, 8⟩ ltCmp 3 False) Prog.asks (start (SortLsw demoC 8 ⟨10, 8⟩) demoDesc) c 28 ∧ Returned c ∧ 2 * 28 ≤ (8 - 1) * (8 + 46) := by
  have h : (mrun (lswBody demoC ⟨10, 8⟩) 3 ltAns Prog.asks 196 ⟨demoDesc, 0, false⟩ (SortLsw demoC 8 ⟨10, 8⟩) 0).map
      (fun r => (r.2.1.isRet, r.2.2)) = some (true, 28) := by decide +kernel
  simp only [Option.map_eq_some_iff, Prod.mk.injEq] at h
  obtain ⟨⟨sh, p, k⟩, h1, h2, rfl⟩ := h
  have h3 := mrun_sound (P := lswPar demoC ⟨10, 8⟩ ltCmp 3 False) (le_refl 3) (fun i j x y b hb => by
    simp only [ltAns, Option.some.injEq] at hb
    simp [lswPar, byLess, ← hb]) _ .refl h1
  refine ⟨_, h3, ?_, C46_sort_calls (s := ⟨10, 8⟩) demoC_ok lt_strictWeak.tame (by show 11 * (8 + 8) ≤ 10 * 2 ^ (8 * 8 - 1); norm_num) (by show Nat.log2 8 + 2 ≤ 64; decide) h3⟩
  cases p <;> first | exact ⟨[], rfl⟩ | cases h2

/-- **C46** for IsSorted: at most n-1 calls of the user's function, which then compares but does not swap. -/
theorem C46_isSorted_calls {Sp : Type} {ws : Nat} (hws : ws = 4 ∨ ws = 8) (hl : s.len < 2 ^ (8 * ws - 1)) (ans : Nat → Nat → V → V → Bool) (m : Mem V) :
    (IsSorted ws s.len s : Prog V Sp Int).looks 0 1 ans m ≤ s.len - 1 := by
  have h := (cost_isSortedLsw (M := (⟨0, 2, fun _ => 0, fun _ => false, fun _ _ => True, 0, fun _ => True, fun _ _ => True, True, fun _ _ _ _ _ => True⟩ : Meter V Sp)) ⟨rfl, rfl, rfl, trivial⟩ hws hl none _ le_rfl).looks ans m (fun _ => trivial) fun _ _ _ _ => trivial
  rw [looks_scale] at h
  omega

/-- exactly n-1 of them for eight ascending numbers, one for eight descending ones -/
example : (IsSorted 8 8 ⟨10, 8⟩ : Prog Nat LSp Int).looks 0 1 ltBool (fun a => a) = 7 ∧
    (IsSorted 8 8 ⟨10, 8⟩ : Prog Nat LSp Int).looks 0 1 ltBool demoDesc = 1 := by decide +kernel

/-- C46 for any answers: at most 2999 calls for 3000 numbers -/
example (ans : Nat → Nat → Nat → Nat → Bool) : (IsSorted 8 3000 demoS : Prog Nat LSp Int).looks 0 1 ans demoDesc ≤ 2999 :=
  C46_isSorted_calls (s := demoS) (.inr rfl) (by show 3000 < 2 ^ (8 * 8 - 1); norm_num) ans demoDesc

end

/-! ## SortSlice, SortLen -/

section
variable {C : Conf} {t : GoType} {s : Slice} {m : Mem Cell} {M : Nat} {stale : Prop} {c : Cfg Cell (VSp Key)} {call : Call}
  {sorted : List Cell → Prop} {n : Nat}

/-- **C46** for SortSlice and SortLen: all goroutines of a call together load and store elements at most n(7n+5) times for
n elements, NaN handling included. -/
theorem C46_accesses (hC : C.OK) (J : SortJob C s m call sorted) (hd : DepthFor C.depth s.len)
    (h : CSteps (call.par M stale) Prog.accs (start call.main m) c n) : n ≤ s.len * (7 * s.len + 5) := by
  obtain ⟨id, rfl, hok, hl⟩ := J.fam hC
  exact call_metered hC hd hok hl h

/-- C46 applies to a call that sorts 3000 strings and returns -/
example : ∃ c n, CSteps ((SortSlice demoC (.slice .string demoS)).par 7 True) Prog.accs (start (SortSlice demoC (.slice .string demoS)).main demoStrs) c n ∧
    Returned c ∧ n ≤ 3000 * 21005 := by
  obtain ⟨c, h1, h2⟩ := sortJob_returns demoC_ok demoStrs_job demo_depth 7 True
  obtain ⟨n, h3⟩ := Steps.metered Prog.accs h1
  exact ⟨c, n, h3, h2, C46_accesses demoC_ok demoStrs_job demo_depth h3⟩

/-- **C46** for IsSortedSlice: at most 2(n-1) loads, 3n for floats. -/
theorem C46_isSortedSlice_loads {Sp : Type} (hC : C.OK) (ht : t.sortable = true) (less : Nat → Nat → Cell → Cell → Bool) (m : Mem Cell) :
    (IsSortedSlice C (.slice t s) : Prog Cell Sp Int).looks 1 0 less m ≤ if t.float = true then 3 * s.len else 2 * (s.len - 1) := by
  obtain ⟨id, h⟩ := famOf_of_sortable (ws := C.wordSize) ht
  rw [isSortedSlice_eq hC h, isSortedOf]
  have hfl := famOf_float h
  by_cases hf : id = .F4 ∨ id = .F8
  · rw [if_pos hf, if_pos (by rw [← hfl]; rcases hf with rfl | rfl <;> rfl)]
    exact (cost_isSortedF (M := (⟨1, 0, fun _ => 0, fun _ => false, fun _ _ => True, 1, fun _ => True, fun _ _ => True, True, fun _ _ _ _ _ => True⟩ : Meter Cell Sp)) rfl none _ le_rfl).looks less m (fun _ => trivial) fun _ _ _ _ => trivial
  · rw [if_neg hf, if_neg (fun h => hf (by rw [← hfl] at h; cases id <;> first | exact .inl rfl | exact .inr rfl | cases h))]
    exact (cost_isSortedV (M := (⟨1, 0, fun _ => 0, fun _ => false, fun _ _ => True, 1, fun _ => True, fun _ _ => True, True, fun _ _ _ _ _ => True⟩ : Meter Cell Sp)) rfl none _ le_rfl).looks less m (fun _ => trivial) fun _ _ _ _ => trivial

/-- **C46** for IsSortedLen. -/
theorem C46_isSortedLen_loads {Sp : Type} (hC : C.OK) (ht : t.hasLen = true) (less : Nat → Nat → Cell → Cell → Bool) (m : Mem Cell) :
    (IsSortedLen C (.slice t s) : Prog Cell Sp Int).looks 1 0 less m ≤ 2 * (s.len - 1) := by
  obtain ⟨id, h⟩ := lfamOf_of_hasLen ht
  rw [isSortedLen_eq hC h, isSortedOf, if_neg (by have := lfamOf_float h; rintro (rfl | rfl) <;> cases this)]
  exact (cost_isSortedV (M := (⟨1, 0, fun _ => 0, fun _ => false, fun _ _ => True, 1, fun _ => True, fun _ _ => True, True, fun _ _ _ _ _ => True⟩ : Meter Cell Sp)) rfl none _ le_rfl).looks less m (fun _ => trivial) fun _ _ _ _ => trivial

/-- C46 for 3000 floats and for 3000 strings by length -/
example (less : Nat → Nat → Cell → Cell → Bool) : (IsSortedSlice demoC (.slice .float64 demoS) : Prog Cell LSp Int).looks 1 0 less demoFloats ≤ 9000 ∧
    (IsSortedLen demoC (.slice .string demoS) : Prog Cell LSp Int).looks 1 0 less demoStrs ≤ 5998 :=
  ⟨C46_isSortedSlice_loads demoC_ok rfl less demoFloats, C46_isSortedLen_loads demoC_ok rfl less demoStrs⟩

/-- eight ascending integers take 14 loads -/
example : (IsSortedSlice demoC (.slice .int64 ⟨10, 8⟩) : Prog Cell LSp Int).looks 1 0 (fun _ _ _ _ => false) (fun a => .w64 (BitVec.ofNat 64 a)) = 14 := by
  decide +kernel

end

end Sorty
