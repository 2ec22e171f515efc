import Verif.Proofs.Ascending
import Verif.Props.Cost
import Verif.Props.Count

/-! # Collections that are already in order

`CSteps P w c₀ c n` is an execution from `c₀` to `c` in which steps charged by `w` add up to `n` (SemCost.lean), over all
goroutines. `Prog.stores` charges 1 for each store of an element, `Prog.accs` 1 for each load or store, `Prog.asks` 1 for
each call of the user's function. -/

namespace Sorty

/-! ## SortSlice, SortLen -/

section
variable {C : Conf} {s : Slice} {m : Mem Cell} {M : Nat} {stale : Prop} {c : Cfg Cell (VSp Key)} {call : Call}
  {sorted : List Cell → Prop} {n : Nat}

/-- **C50** for SortSlice and SortLen: on a slice that is already in order no goroutine ever stores an element, at any
time of any execution. So every element stays where it is, also among equal ones: strings of the same length, negative
and positive zeros, NaNs. -/
theorem C50_in_order_no_store (hC : C.OK) (J : SortJob C s m call sorted) (hs : sorted (s.view m)) (hd : DepthFor C.depth s.len)
    (h : CSteps (call.par M stale) Prog.stores (start call.main m) c n) : n = 0 ∧ c.sh.mem = m :=
  job_stores hC J hs hd h

/-- 3000 ascending integers, each three times -/
def ascInts : Mem Cell := fun a => .w64 (BitVec.ofNat 64 (a / 3))

theorem ascInts_job : SortJob demoC demoS ascInts (SortSlice demoC (.slice .int64 demoS)) (SortedFor demoC .int64) :=
  .slice .int64 rfl ⟨demo_view_all fun a => ⟨_, rfl⟩, by decide⟩ (by simp [NaNSafe, GoType.float])

theorem ascInts_asc : SortedFor demoC .int64 (demoS.view ascInts) := by
  unfold SortedFor
  rw [if_neg (by simp [GoType.float]), if_neg (by simp [GoType.bytes])]
  unfold AscNum
  rw [List.pairwise_map, List.pairwise_iff_getElem]
  intro i j hi hj hij
  rw [view_length] at hi hj
  have hi : i < 3000 := hi
  have hj : j < 3000 := hj
  simp only [Slice.view, List.getElem_map, List.getElem_range, ascInts, GoType.signed, Cell.num, demoS, if_true]
  have e : ∀ k < 3000, (BitVec.ofNat 64 ((10 + k) / 3)).toInt = ((10 + k) / 3 : Nat) := by
    intro k hk
    rw [BitVec.toInt_ofNat', Int.bmod_eq_of_le] <;> omega
  rw [e i hi, e j hj]
  omega

/-- C50 applies to them, with up to seven goroutines -/
example : ∃ c, CSteps ((SortSlice demoC (.slice .int64 demoS)).par 7 True) Prog.stores (start (SortSlice demoC (.slice .int64 demoS)).main ascInts) c 0 ∧
    Returned c ∧ c.sh.mem = ascInts := by
  obtain ⟨c, h1, h2⟩ := sortJob_returns demoC_ok ascInts_job demo_depth 7 True
  obtain ⟨n, h3⟩ := Steps.metered Prog.stores h1
  obtain ⟨rfl, h4⟩ := C50_in_order_no_store demoC_ok ascInts_job ascInts_asc demo_depth h3
  exact ⟨c, h3, h2, h4⟩

/-- 3000 different strings of two letters -/
def evenStrs : Mem Cell := fun a => .str (1000 * a) [UInt8.ofNat (a % 256), UInt8.ofNat (a / 256)]

theorem evenStrs_job : SortJob demoC demoS evenStrs (SortLen demoC (.slice .string demoS)) AscLen :=
  .len .string rfl ⟨demo_view_all fun a => ⟨_, _, rfl⟩, by decide⟩

/-- SortLen leaves them where they are, although all lengths are equal -/
example : ∃ c, (SortLen demoC (.slice .string demoS)).Reaches 7 True evenStrs c ∧ Returned c ∧ c.sh.mem = evenStrs := by
  obtain ⟨c, h1, h2⟩ := sortJob_returns demoC_ok evenStrs_job demo_depth 7 True
  obtain ⟨n, h3⟩ := Steps.metered Prog.stores h1
  refine ⟨c, h1, h2, (C50_in_order_no_store demoC_ok evenStrs_job ?_ demo_depth h3).2⟩
  unfold AscLen
  rw [List.pairwise_map]
  exact List.pairwise_of_forall_mem_list fun x hx y hy => by
    simp only [Slice.view, List.mem_map] at hx hy
    obtain ⟨i, _, rfl⟩ := hx
    obtain ⟨j, _, rfl⟩ := hy
    exact le_rfl

/-- **C33**, exact form: calling SortSlice (SortLen) again on what it has sorted stores nothing, for all documented types. -/
theorem C33_second_call_stores_nothing (hC : C.OK) (J : SortJob C s m call sorted) (hd : DepthFor C.depth s.len) (hr : call.Reaches M stale m c)
    (hret : Returned c) {M' : Nat} {stale' : Prop} {c' : Cfg Cell (VSp Key)}
    (h : CSteps (call.par M' stale') Prog.stores (start call.main c.sh.mem) c' n) : n = 0 ∧ c'.sh.mem = c.sh.mem := by
  obtain ⟨h1, h2⟩ := job_outcome hC J hd hr.toE hret
  refine job_stores hC ?_ h1 hd h
  cases J with
  | slice t ht hs hn =>
    exact .slice t ht (hs.of_perm h2) fun hf => by
      rcases hn hf with h | h | h
      · exact .inl h
      · exact .inr (.inl h)
      · exact .inr (.inr fun e he => h e (h2.subset he))
  | len t ht hs => exact .len t ht (hs.of_perm h2)

/-- 3000 floats, a third of them NaNs, sorted twice: the NaNs stay as they are the second time -/
example : ∃ c c', (SortSlice { demoC with nanOption := -1 } (.slice .float64 demoS)).Reaches 5 False demoFloats c ∧ Returned c ∧
    (SortSlice { demoC with nanOption := -1 } (.slice .float64 demoS)).Reaches 7 True c.sh.mem c' ∧ Returned c' ∧ c'.sh.mem = c.sh.mem := by
  obtain ⟨c, h1, h2⟩ := sortJob_returns (demoC_ok' (-1)) (demoFloats_job (-1) (.inr rfl)) (demo_depth' (-1)) 5 False
  obtain ⟨_, p⟩ := job_outcome (demoC_ok' (-1)) (demoFloats_job (-1) (.inr rfl)) (demo_depth' (-1)) h1.toE h2
  obtain ⟨c', h3, h4⟩ := sortJob_returns (demoC_ok' (-1)) (.slice .float64 rfl ((demoFloats_typed (-1)).of_perm p) fun _ => .inr (.inl rfl)) (demo_depth' (-1)) 7 True
  obtain ⟨n, h5⟩ := Steps.metered Prog.stores h3
  exact ⟨c, c', h1, h2, h3, h4, (C33_second_call_stores_nothing (demoC_ok' (-1)) (demoFloats_job (-1) (.inr rfl)) (demo_depth' (-1)) h1 h2 h5).2⟩

/-- **C51** for SortSlice and SortLen: on a slice of n elements that is already in order, all goroutines of a call
together load elements at most 2n(3·log2(n)+4) times (and store none, C50). The threshold `MaxLenRec` must be below
2^32, as the default 600 is. -/
theorem C51_in_order_loads (hC : C.OK) (hr : C.maxLenRec < 2 ^ 32) (J : SortJob C s m call sorted) (hs : sorted (s.view m))
    (hd : DepthFor C.depth s.len) (h : CSteps (call.par M stale) Prog.accs (start call.main m) c n) :
    n ≤ 2 * s.len * (3 * Nat.log2 s.len + 4) :=
  job_accs hC hr J hs hd h

/-- C51 applies to 3000 integers: at most 222000 loads, while C46 allows 63 millions -/
example : ∃ c n, CSteps ((SortSlice demoC (.slice .int64 demoS)).par 7 True) Prog.accs (start (SortSlice demoC (.slice .int64 demoS)).main ascInts) c n ∧
    Returned c ∧ n ≤ 222000 := by
  obtain ⟨c, h1, h2⟩ := sortJob_returns demoC_ok ascInts_job demo_depth 7 True
  obtain ⟨n, h3⟩ := Steps.metered Prog.accs h1
  have h4 : n ≤ 2 * 3000 * (3 * Nat.log2 3000 + 4) := C51_in_order_loads demoC_ok (by decide) ascInts_job ascInts_asc demo_depth h3
  have : Nat.log2 3000 = 11 := by decide
  rw [this] at h4
  exact ⟨c, n, h3, h2, h4⟩

end

/-! ## Sort -/

section
variable {V : Type} {less : V → V → Prop} {C : Conf} {s : Slice} {m : Mem V} {M : Nat} {stale : Prop} {c : Cfg V LSp} {n : Nat}

/-- **C50** for Sort: on a collection that is already in order the user's function never swaps anything, in any execution:
no element is stored. -/
theorem C50_in_order_no_swap (hC : C.OK) (hless : StrictWeak less) (hf : FitsInt C.wordSize s.len) (hd : DepthFor C.depth s.len)
    (ha : Ascending less (s.view m))
    (h : CSteps (lswPar C s (byLess less) M stale) Prog.stores (start (SortLsw C s.len s) m) c n) : n = 0 ∧ c.sh.mem = m := by
  obtain ⟨ρ, _, r, hr⟩ := hless.rank
  let B := s.len * (Nat.log2 s.len + 8)
  obtain ⟨n', h1, h2⟩ := h.reweigh (w' := (lqmeter (byLess less) m (B + 1)).w) (B + 1)
    (fun p => by cases p <;> simp [Prog.stores, Meter.w, lqmeter])
  obtain ⟨h3, h4⟩ := sort_quiet (lok hC hless.tame.ok hf) hd (up_of hless ha) h1
  refine ⟨?_, h4⟩
  have h5 : (B + 1) * n ≤ B := h2.trans h3
  rcases Nat.eq_zero_or_pos n with h0 | h0
  · exact h0
  · have := Nat.le_mul_of_pos_right (B + 1) h0
    omega

/-- **C51** for Sort: on n elements in order the user's function is called at most n(log2(n)+8) times. -/
theorem C51_in_order_calls (hC : C.OK) (hless : StrictWeak less) (hf : FitsInt C.wordSize s.len) (hd : DepthFor C.depth s.len)
    (ha : Ascending less (s.view m))
    (h : CSteps (lswPar C s (byLess less) M stale) Prog.asks (start (SortLsw C s.len s) m) c n) : n ≤ s.len * (Nat.log2 s.len + 8) := by
  have hw : Prog.asks = (lqmeter (byLess less) m 0).w := by
    funext p; cases p <;> rfl
  exact (sort_quiet (lok hC hless.tame.ok hf) hd (up_of hless ha) (hw ▸ h)).1

/-- both apply to a state in which four goroutines work on 1204 equal numbers -/
example : ∃ c n, CSteps (lswPar demoC lwitS ltCmp 3 False) Prog.asks (start (SortLsw demoC lwitS.len lwitS) lwitM) c n ∧ accessing c = 4 ∧
    c.sh.mem = lwitM ∧ n ≤ 21672 := by
  obtain ⟨c, h1, h2⟩ := lwit_reaches
  obtain ⟨n, h3⟩ := Steps.metered Prog.asks h1
  obtain ⟨k, h4⟩ := Steps.metered Prog.stores h1
  have ha : Ascending (· < ·) (lwitS.view lwitM) := by
    unfold Ascending
    exact List.pairwise_of_forall_mem_list fun x hx y hy => by
      simp only [Slice.view, List.mem_map] at hx hy
      obtain ⟨i, _, rfl⟩ := hx
      obtain ⟨j, _, rfl⟩ := hy
      exact lt_irrefl 7
  have h5 : n ≤ 1204 * (Nat.log2 1204 + 8) := C51_in_order_calls demoC_ok lt_strictWeak lwit_fits lwit_depth ha h3
  have : Nat.log2 1204 = 10 := by decide
  rw [this] at h5
  exact ⟨c, n, h3, h2, (C50_in_order_no_swap demoC_ok lt_strictWeak lwit_fits lwit_depth ha h4).2, h5⟩

/-- **C33** for Sort: sorting again what Sort has sorted swaps nothing. -/
theorem C33_second_sort_swaps_nothing (hC : C.OK) (hless : StrictWeak less) (hf : FitsInt C.wordSize s.len) (hd : DepthFor C.depth s.len)
    (hr : SortReaches C s (byLess less) M stale m c) (hret : Returned c) {M' : Nat} {stale' : Prop} {c' : Cfg V LSp}
    (h : CSteps (lswPar C s (byLess less) M' stale') Prog.stores (start (SortLsw C s.len s) c.sh.mem) c' n) : n = 0 ∧ c'.sh.mem = c.sh.mem :=
  C50_in_order_no_swap hC hless hf hd (C07_sort_strict_weak_order hC hless hf hd hr hret).1 h

example : ∃ c c', SortReaches demoC demoS ltCmp 5 True demoDesc c ∧ Returned c ∧ SortReaches demoC demoS ltCmp 7 True c.sh.mem c' ∧ Returned c' ∧
    c'.sh.mem = c.sh.mem := by
  obtain ⟨c, h1, h2⟩ := sort_returns demoC_ok lt_strictWeak.tame demoS_fits demo_depth demoDesc 5 True
  obtain ⟨c', h3, h4⟩ := sort_returns demoC_ok lt_strictWeak.tame demoS_fits demo_depth c.sh.mem 7 True
  obtain ⟨n, h5⟩ := Steps.metered Prog.stores h3
  exact ⟨c, c', h1, h2, h3, h4, (C33_second_sort_swaps_nothing demoC_ok lt_strictWeak demoS_fits demo_depth h1 h2 h5).2⟩

end

end Sorty
