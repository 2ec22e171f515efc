import Verif.Props.LswWitness
import Verif.Props.Conc

/-! # Properties of Sort

`SortReaches C s cmp M stale m c`: Sort(n, lsw) on the collection `s` of n elements with comparator `cmp`, started on
memory `m`, can be in state `c`.
-/

namespace Sorty

open Prog

variable {V : Type} {C : Conf} {s : Slice} {m : Mem V} {M : Nat} {stale : Prop} {cmp : Cmp V} {c : Cfg V LSp}
  {less : V → V → Prop}

/-- **C07.** If `less` is a strict weak order, then when Sort returns no later element is less than an earlier one, and
the collection is a permutation of the original. -/
theorem C07_sort_strict_weak_order (hC : C.OK) (hless : StrictWeak less) (hf : FitsInt C.wordSize s.len)
    (hd : DepthFor C.depth s.len) (hr : SortReaches C s (byLess less) M stale m c) (hret : Returned c) :
    Ascending less (s.view c.sh.mem) ∧ (s.view c.sh.mem).Perm (s.view m) :=
  sort_outcome hC hless hf hd hr.toE hret

/-- C07 applies to 3000 descending numbers -/
example : ∃ c, SortReaches demoC demoS ltCmp 5 True demoDesc c ∧ Ascending (· < ·) (demoS.view c.sh.mem) := by
  obtain ⟨c, h1, h2⟩ := sort_returns demoC_ok lt_strictWeak.tame demoS_fits demo_depth demoDesc 5 True
  exact ⟨c, h1, (C07_sort_strict_weak_order demoC_ok lt_strictWeak demoS_fits demo_depth h1 h2).1⟩

/-- C07 applies to an order with ties: pairs ordered by their first component, descending -/
example : ∃ c, SortReaches demoC demoS (byLess fun x y : Nat × Nat => y.1 < x.1) 5 True (fun a => (a % 10, a)) c ∧
    (demoS.view c.sh.mem).Pairwise (fun x y => y.1 ≤ x.1) := by
  have hw : StrictWeak (fun x y : Nat × Nat => y.1 < x.1) := ⟨by simp, fun x y z => by omega, fun x y z => by omega⟩
  obtain ⟨c, h1, h2⟩ := sort_returns demoC_ok hw.tame demoS_fits demo_depth (fun a => (a % 10, a)) 5 True
  refine ⟨c, h1, (C07_sort_strict_weak_order demoC_ok hw demoS_fits demo_depth h1 h2).1.imp ?_⟩
  intro x y h
  omega

/-- **C08.** Whatever the comparator answers, as long as it never says that an index is less than itself: no execution
is infinite, one that cannot go on has returned, no goroutine ever panics (`lsw` panics if one of its four indices is
outside [0,n)) or accesses anything outside the collection, and on return the collection is a permutation of the
original. -/
theorem C08_sort_any_comparator (hC : C.OK) (hcmp : Tame cmp) (hf : FitsInt C.wordSize s.len)
    (hd : DepthFor C.depth s.len) (m : Mem V) (M : Nat) (stale : Prop) :
    (¬ ∃ f : Nat → Cfg V LSp, f 0 = start (SortLsw C s.len s) m ∧ ∀ n, Step (lswPar C s cmp M stale) (f n) (f (n + 1))) ∧
    ∀ c, SortReaches C s cmp M stale m c →
      ((∀ c', ¬ Step (lswPar C s cmp M stale) c c') → Returned c) ∧ ¬ Wrong c ∧
      (∀ p ∈ c.ths, ∀ a w, p.access = some (a, w) → s.off ≤ a ∧ a < s.off + s.len) ∧
      (∀ a, a < s.off ∨ s.off + s.len ≤ a → c.sh.mem a = m a) ∧
      (Returned c → (s.view c.sh.mem).Perm (s.view m)) := by
  have hL := lok (s := s) hC hcmp.ok hf
  refine ⟨?_, fun c hr => ?_⟩
  · rintro ⟨f, h0, hstep⟩
    exact no_rinfinite (lsw_racc C s cmp m M stale) ⟨f, h0, fun n => ⟨(f n).sh.mem, hstep n⟩⟩
  · obtain ⟨ts, h⟩ := lsw_reach hL hd hr.toE
    refine ⟨fun hno => ?_, h.not_wrong, fun p hp a w ha => h.access_sub hp ha, fun a ha => ?_, fun hret => ?_⟩
    · rcases h.progress (lsw_hyp hL m M stale) with ⟨c', h1⟩ | h1
      · exact absurd h1 (hno c')
      · exact returned_of_all h h1
    · refine lsw_frame hL hd hr a ?_
      simp only [Slice.rng, Set.mem_ofPred_eq]; omega
    · have ho : SP _ s m c.sh.mem := (h.returned hret).2
      exact view_perm ho.1

/-- C08 applies to the comparator that answers anything, on 3000 numbers -/
example : ∃ c, SortReaches demoC demoS wildCmp 5 True demoDesc c ∧ Returned c ∧ (demoS.view c.sh.mem).Perm (demoS.view demoDesc) := by
  obtain ⟨c, h1, h2⟩ := sort_returns demoC_ok wild_tame demoS_fits demo_depth demoDesc 5 True
  exact ⟨c, h1, h2, ((C08_sort_any_comparator demoC_ok wild_tame demoS_fits demo_depth demoDesc 5 True).2 c h1).2.2.2.2 h2⟩

/-- **C10.** In no reachable state are two goroutines' `lsw` calls about to access one element with one of them storing
to it. -/
theorem C10_sort_no_race (hC : C.OK) (hcmp : Tame cmp) (hf : FitsInt C.wordSize s.len) (hd : DepthFor C.depth s.len)
    (hr : SortReaches C s cmp M stale m c) : ¬ Race c := by
  obtain ⟨ts, h⟩ := lsw_reach (lok hC hcmp.ok hf) hd hr.toE
  exact h.not_race

/-- C10 holds in a state where four goroutines are about to access elements -/
example : ∃ c, SortReaches demoC lwitS ltCmp 3 False lwitM c ∧ accessing c = 4 ∧ ¬ Race c := by
  obtain ⟨c, h1, h2⟩ := lwit_reaches
  exact ⟨c, h1, h2, C10_sort_no_race demoC_ok lt_strictWeak.tame lwit_fits lwit_depth h1⟩

/-- **C11** for Sort. -/
theorem C11_sort_no_deadlock (hC : C.OK) (hcmp : Tame cmp) (hf : FitsInt C.wordSize s.len) (hd : DepthFor C.depth s.len)
    (hr : SortReaches C s cmp M stale m c) (hn : ¬ Returned c) : ∃ c', Step (lswPar C s cmp M stale) c c' := by
  obtain ⟨ts, h⟩ := lsw_reach (lok hC hcmp.ok hf) hd hr.toE
  rcases h.progress (lsw_hyp (lok hC hcmp.ok hf) m M stale) with h1 | h1
  · exact h1
  · exact absurd (returned_of_all h h1) hn

theorem sort_accessing_not_returned (hC : C.OK) (hcmp : Tame cmp) (hf : FitsInt C.wordSize s.len) (hd : DepthFor C.depth s.len)
    (hr : SortReaches C s cmp M stale m c) (ha : 0 < accessing c) : ¬ Returned c := by
  intro hret
  obtain ⟨ts, h⟩ := lsw_reach (lok hC hcmp.ok hf) hd hr.toE
  obtain ⟨p, hp⟩ := List.exists_mem_of_length_pos ha
  obtain ⟨hp, hp'⟩ := List.mem_filter.1 hp
  rw [(h.returned hret).1 p hp] at hp'
  simp [Prog.access] at hp'

example : ∃ c, SortReaches demoC lwitS ltCmp 3 False lwitM c ∧ ∃ c', Step (lswPar demoC lwitS ltCmp 3 False) c c' := by
  obtain ⟨c, h1, h2⟩ := lwit_reaches
  exact ⟨c, h1, C11_sort_no_deadlock demoC_ok lt_strictWeak.tame lwit_fits lwit_depth h1
    (sort_accessing_not_returned demoC_ok lt_strictWeak.tame lwit_fits lwit_depth h1 (by omega))⟩

/-- **C12** for Sort. -/
theorem C12_sort_terminates (hC : C.OK) (hcmp : Tame cmp) (hf : FitsInt C.wordSize s.len) (hd : DepthFor C.depth s.len)
    (m : Mem V) (M : Nat) (stale : Prop) :
    (¬ ∃ f : Nat → Cfg V LSp, f 0 = start (SortLsw C s.len s) m ∧ ∀ n, Step (lswPar C s cmp M stale) (f n) (f (n + 1))) ∧
    (∀ c, SortReaches C s cmp M stale m c → (∀ c', ¬ Step (lswPar C s cmp M stale) c c') → Returned c) ∧
    ∃ c, SortReaches C s cmp M stale m c ∧ Returned c :=
  ⟨(C08_sort_any_comparator hC hcmp hf hd m M stale).1, fun c hr => ((C08_sort_any_comparator hC hcmp hf hd m M stale).2 c hr).1,
    sort_returns hC hcmp hf hd m M stale⟩

example : ∃ c, SortReaches demoC demoS wildCmp 7 True demoDesc c ∧ Returned c :=
  (C12_sort_terminates demoC_ok wild_tame demoS_fits demo_depth demoDesc 7 True).2.2

/-- **C13** for Sort. -/
theorem C13_sort_return_means_finished (hC : C.OK) (hcmp : Tame cmp) (hf : FitsInt C.wordSize s.len)
    (hd : DepthFor C.depth s.len) (hr : SortReaches C s cmp M stale m c) (hret : Returned c) :
    (∀ p ∈ c.ths, p = .ret ()) ∧ ∀ c', ¬ Step (lswPar C s cmp M stale) c c' := by
  obtain ⟨ts, h⟩ := lsw_reach (lok hC hcmp.ok hf) hd hr.toE
  have := (h.returned hret).1
  exact ⟨this, fun c' => no_step_ret this⟩

example : ∃ c, SortReaches demoC demoS ltCmp 7 True demoDesc c ∧ ∀ p ∈ c.ths, p = .ret () := by
  obtain ⟨c, h1, h2⟩ := sort_returns demoC_ok lt_strictWeak.tame demoS_fits demo_depth demoDesc 7 True
  exact ⟨c, h1, (C13_sort_return_means_finished demoC_ok lt_strictWeak.tame demoS_fits demo_depth h1 h2).1⟩

/-- **C14** for Sort; see `C14_channel_not_mixed`. -/
theorem C14_sort_channel_not_mixed (hC : C.OK) (hcmp : Tame cmp) (hf : FitsInt C.wordSize s.len)
    (hd : DepthFor C.depth s.len) {ds : List LSp} (hr : LSteps (lswPar C s cmp M stale) (start (SortLsw C s.len s) m) c ds) :
    (∀ (i : Nat) k, c.ths[i]? = some (.recv k) → i = 0) ∧
    (∀ (i j : Nat) v v' k k', c.ths[i]? = some (Prog.send v k) → c.ths[j]? = some (Prog.send v' k') → i = j) ∧
    (∀ (i j : Nat) l pv h l' pv' h' p p', ds[i]? = some (.part l pv h) → ds[j]? = some (.part l' pv' h') →
      c.ths[i + 1]? = some p → c.ths[j + 1]? = some p' → p ≠ .ret () → p' ≠ .ret () → i = j) ∧
    (∀ k (i : Nat) v k' d, c.ths[0]? = some (.recv k) → c.ths[i + 1]? = some (.send v k') → ds[i]? = some d →
      ((∃ l pv h, d = .part l pv h) ↔ k v ≠ .ret ())) := by
  have hL := lok (s := s) hC hcmp.ok hf
  obtain ⟨ts, h, hroles⟩ := Inv.label (lsw_hyp hL m M stale) hr (lsw_start hL hd M stale)
  refine ⟨fun i k hi => h.recv_main hi, fun i j v v' k k' hi hj => ?_, ?_, ?_⟩
  · exact filter_two h.one_sender hi hj rfl rfl
  · intro i j l pv hh l' pv' hh' p p' h1 h2 h3 h4 h5 h6
    exact h.one_part hroles h1 h2 rfl rfl h3 h4 h5 h6
  · intro k i v k' d h1 h2 h3
    rw [← h.channel hroles k i d v k' h1 h2 h3]
    cases d <;> simp [lspecG]

example : ∃ c ds, LSteps (lswPar demoC lwitS ltCmp 3 False) (start (SortLsw demoC lwitS.len lwitS) lwitM) c ds ∧ accessing c = 4 ∧
    ∀ (i : Nat) k, c.ths[i]? = some (.recv k) → i = 0 := by
  obtain ⟨c, h1, h2⟩ := lwit_reaches
  obtain ⟨ds, h3⟩ := Steps.label h1
  exact ⟨c, ds, h3, h2, (C14_sort_channel_not_mixed demoC_ok lt_strictWeak.tame lwit_fits lwit_depth h3).1⟩

/-- **C15** for Sort. -/
theorem C15_sort_no_goroutine_if_MaxGor_le_1 (hC : C.OK) (hcmp : Tame cmp) (hf : FitsInt C.wordSize s.len)
    (hd : DepthFor C.depth s.len) (hM : M ≤ 1) (hr : SortReaches C s cmp M stale m c) :
    c.sh.sync = false ∧ c.ths.length = 1 := by
  obtain ⟨ts, h⟩ := lsw_reach (lok hC hcmp.ok hf) hd hr.toE
  exact h.nosync_of (.inl hM)

example : ∃ c, SortReaches demoC demoS ltCmp 1 False demoDesc c ∧ Returned c ∧ c.ths.length = 1 := by
  obtain ⟨c, h1, h2⟩ := sort_returns demoC_ok lt_strictWeak.tame demoS_fits demo_depth demoDesc 1 False
  exact ⟨c, h1, h2, (C15_sort_no_goroutine_if_MaxGor_le_1 demoC_ok lt_strictWeak.tame demoS_fits demo_depth le_rfl h1).2⟩

/-- **C16** for Sort: fewer than 2*(MaxLenRecFC+1) elements. -/
theorem C16_sort_no_goroutine_if_short (hC : C.OK) (hcmp : Tame cmp) (hf : FitsInt C.wordSize s.len)
    (hd : DepthFor C.depth s.len) (hl : s.len < 2 * (C.maxLenRecFC + 1)) (hr : SortReaches C s cmp M stale m c) :
    c.sh.sync = false ∧ c.ths.length = 1 := by
  obtain ⟨ts, h⟩ := lsw_reach (lok hC hcmp.ok hf) hd hr.toE
  refine h.nosync_of (.inr ?_)
  simp only [lswIPar, decide_eq_false_iff_not, not_lt]
  omega

example : ∃ c, SortReaches demoC ⟨0, 601⟩ wildCmp 1000 False demoDesc c ∧ Returned c ∧ c.ths.length = 1 := by
  have hf : FitsInt demoC.wordSize (Slice.mk 0 601).len := by show 11 * (601 + 8) ≤ 10 * 2 ^ (8 * 8 - 1); norm_num
  have hd : DepthFor demoC.depth (Slice.mk 0 601).len := by show Nat.log2 601 + 2 ≤ 64; decide
  obtain ⟨c, h1, h2⟩ := sort_returns demoC_ok wild_tame hf hd demoDesc 1000 False
  exact ⟨c, h1, h2, (C16_sort_no_goroutine_if_short demoC_ok wild_tame hf hd (by decide) h1).2⟩

/-- **C17, refuted as documented**, for Sort too: with `MaxGor` = 3 throughout, four goroutines of one call work at the
same time. -/
theorem C17_sort_MaxGor_bound_violated : ∃ (s : Slice) (m : Mem Nat) (c : Cfg Nat LSp),
    SortReaches demoC s (byLess (· < ·)) 3 False m c ∧ 3 < working c := by
  obtain ⟨c, h1, h2⟩ := lwit_reaches
  exact ⟨lwitS, lwitM, c, h1, by have := accessing_le c; omega⟩

/-- **C17, what does hold**, for Sort. -/
theorem C17_sort_goroutine_bound_partial (hC : C.OK) (hcmp : Tame cmp) (hf : FitsInt C.wordSize s.len)
    (hd : DepthFor C.depth s.len) (hst : ¬ stale) (hr : SortReaches C s cmp M stale m c) :
    working c ≤ max 1 (2 * (M - 1)) ∧ live c ≤ max 1 (2 * M - 1) ∧ (M ≤ 2 → working c ≤ max 1 M) := by
  obtain ⟨ts, h⟩ := lsw_reach (lok hC hcmp.ok hf) hd hr.toE
  have hb := h.bounds (P := lswPar C s cmp M stale) hst
  have e : (lswPar C s cmp M stale).M = M := rfl
  rw [e] at hb
  exact ⟨hb.1, hb.2, fun _ => by omega⟩

/-- the bound is attained for `MaxGor` = 3 -/
example : ∃ c, SortReaches demoC lwitS ltCmp 3 False lwitM c ∧ working c = max 1 (2 * (3 - 1)) := by
  obtain ⟨c, h1, h2⟩ := lwit_reaches
  have h3 := (C17_sort_goroutine_bound_partial demoC_ok lt_strictWeak.tame lwit_fits lwit_depth (by simp) h1).1
  have h4 := accessing_le c
  exact ⟨c, h1, by omega⟩

/-- **C18** for Sort: whatever each read of `MaxGor` yields. -/
theorem C18_sort_MaxGor_live (hC : C.OK) (hless : StrictWeak less) (hf : FitsInt C.wordSize s.len)
    (hd : DepthFor C.depth s.len) (m : Mem V) (M : Nat) (stale : Prop) :
    (∀ c, SortReaches C s (byLess less) M stale m c → ¬ Wrong c ∧ ¬ Race c ∧
      (¬ Returned c → ∃ c', Step (lswPar C s (byLess less) M stale) c c') ∧
      (Returned c → Ascending less (s.view c.sh.mem) ∧ (s.view c.sh.mem).Perm (s.view m))) ∧
    ¬ ∃ f : Nat → Cfg V LSp, f 0 = start (SortLsw C s.len s) m ∧
      ∀ n, Step (lswPar C s (byLess less) M stale) (f n) (f (n + 1)) := by
  refine ⟨fun c hr => ?_, (C12_sort_terminates hC hless.tame hf hd m M stale).1⟩
  obtain ⟨ts, h⟩ := lsw_reach (lok hC hless.tame.ok hf) hd hr.toE
  exact ⟨h.not_wrong, h.not_race, C11_sort_no_deadlock hC hless.tame hf hd hr, sort_outcome hC hless hf hd hr.toE⟩

example : ∃ c, SortReaches demoC demoS ltCmp 100000 True demoDesc c ∧ Ascending (· < ·) (demoS.view c.sh.mem) := by
  obtain ⟨c, h1, h2⟩ := sort_returns demoC_ok lt_strictWeak.tame demoS_fits demo_depth demoDesc 100000 True
  exact ⟨c, h1, (((C18_sort_MaxGor_live demoC_ok lt_strictWeak demoS_fits demo_depth demoDesc 100000 True).1 c h1).2.2.2 h2).1⟩

/-- **C19** for Sort: `lsw` is only called with indices in [0,n) (the model's `lsw` panics otherwise), nil
synchronisation is never used, and every access is inside the collection. -/
theorem C19_sort_no_panic (hC : C.OK) (hcmp : Tame cmp) (hf : FitsInt C.wordSize s.len) (hd : DepthFor C.depth s.len)
    (hr : SortReaches C s cmp M stale m c) :
    .panic ∉ c.ths ∧ ∀ p ∈ c.ths, ∀ a w, p.access = some (a, w) → s.off ≤ a ∧ a < s.off + s.len := by
  obtain ⟨ts, h⟩ := lsw_reach (lok hC hcmp.ok hf) hd hr.toE
  exact ⟨fun hp => h.not_wrong (.inl hp), fun p hp a w ha => h.access_sub hp ha⟩

example : ∃ c, SortReaches demoC lwitS ltCmp 3 False lwitM c ∧ accessing c = 4 ∧ .panic ∉ c.ths := by
  obtain ⟨c, h1, h2⟩ := lwit_reaches
  exact ⟨c, h1, h2, (C19_sort_no_panic demoC_ok lt_strictWeak.tame lwit_fits lwit_depth h1).1⟩

/-- **C20** for Sort, for any comparator. -/
theorem C20_sort_log_depth (hC : C.OK) (hcmp : Tame cmp) (hf : FitsInt C.wordSize s.len)
    (hd : C.depth = Nat.log2 s.len + 2) (hr : SortReaches C s cmp M stale m c) : .overflow ∉ c.ths := by
  obtain ⟨ts, h⟩ := lsw_reach (lok hC hcmp.ok hf) (by unfold DepthFor; omega) hr.toE
  exact fun hp => h.not_wrong (.inr (.inl hp))

example : ∃ c, SortReaches (Conf.default Sixb.bits 13) demoS wildCmp 5 False demoDesc c ∧ Returned c ∧ .overflow ∉ c.ths := by
  have hC : (Conf.default Sixb.bits 13).OK := ⟨Sixb.bits_ok, ⟨3, by decide⟩, .inr rfl⟩
  have hd : (Conf.default Sixb.bits 13).depth = Nat.log2 demoS.len + 2 := by decide
  obtain ⟨c, h1, h2⟩ := sort_returns hC wild_tame demoS_fits (by unfold DepthFor; omega) demoDesc 5 False
  exact ⟨c, h1, h2, C20_sort_log_depth hC wild_tame demoS_fits hd h1⟩

/-- **C34** for Sort: other code may do anything to memory outside the collection at any time. -/
theorem C34_sort_disjoint_calls (hC : C.OK) (hless : StrictWeak less) (hf : FitsInt C.wordSize s.len)
    (hd : DepthFor C.depth s.len) (m : Mem V) (M : Nat) (stale : Prop) :
    (∀ c, SortEReaches C s (byLess less) M stale m c → ¬ Wrong c ∧ ¬ Race c ∧
      (∀ p ∈ c.ths, ∀ a w, p.access = some (a, w) → s.off ≤ a ∧ a < s.off + s.len) ∧
      (∀ c', Step (lswPar C s (byLess less) M stale) c c' → ∀ a, a < s.off ∨ s.off + s.len ≤ a → c'.sh.mem a = c.sh.mem a) ∧
      (¬ Returned c → ∃ c', Step (lswPar C s (byLess less) M stale) c c') ∧
      (Returned c → Ascending less (s.view c.sh.mem) ∧ (s.view c.sh.mem).Perm (s.view m))) ∧
    ¬ ∃ f : Nat → Cfg V LSp, f 0 = start (SortLsw C s.len s) m ∧
      ∀ n, ∃ m', Step (lswPar C s (byLess less) M stale) ⟨{ (f n).sh with mem := m' }, (f n).ths⟩ (f (n + 1)) := by
  have hL := lok (s := s) hC hless.tame.ok hf
  refine ⟨fun c hr => ?_, no_rinfinite (lsw_racc C s _ m M stale)⟩
  obtain ⟨ts, h⟩ := lsw_reach hL hd hr
  refine ⟨h.not_wrong, h.not_race, fun p hp a w ha => h.access_sub hp ha, fun c' hs a ha => ?_, fun hn => ?_, sort_outcome hC hless hf hd hr⟩
  · refine h.frame hs a ?_
    simp only [lswIPar, Slice.rng, Set.mem_ofPred_eq]; omega
  · rcases h.progress (lsw_hyp hL m M stale) with h1 | h1
    · exact h1
    · exact absurd (returned_of_all h h1) hn

example : ∃ c, SortEReaches demoC demoS ltCmp 5 False demoDesc c ∧ c.sh.mem 5 = 0 ∧ ¬ Wrong c := by
  have hr : SortEReaches demoC demoS ltCmp 5 False demoDesc ⟨⟨Function.update demoDesc 5 0, 0, false⟩, [SortLsw demoC demoS.len demoS]⟩ := by
    refine .tail (.refl _) (.env ⟨demoDesc, 0, false⟩ _ _ ?_)
    intro i hi
    have : i ≠ 5 := by have : demoS.off = 10 := rfl; omega
    simp [this]
  exact ⟨_, hr, by simp, ((C34_sort_disjoint_calls demoC_ok lt_strictWeak demoS_fits demo_depth demoDesc 5 False).1 _ hr).1⟩

end Sorty
