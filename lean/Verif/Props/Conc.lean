import Verif.Props.Slice
import Verif.Proofs.JobProps
import Verif.Props.Witness

/-! # Properties of SortSlice and SortLen: concurrency, termination, resources

`SortJob C s m call sorted` says that `call` is a documented call of SortSlice or SortLen on slice `s` in memory `m`.
-/

namespace Sorty

variable {C : Conf} {t : GoType} {s : Slice} {m : Mem Cell} {M : Nat} {stale : Prop} {c : Cfg Cell (VSp Key)} {call : Call}
  {sorted : List Cell → Prop}

/-- **C09.** In no reachable state are two goroutines about to access one element with one of them storing. -/
theorem C09_no_race (hC : C.OK) (J : SortJob C s m call sorted) (hd : DepthFor C.depth s.len)
    (hr : call.Reaches M stale m c) : ¬ Race c := by
  obtain ⟨S, I, _, ⟨_, hS⟩, ts, h⟩ := job_inv hC J hd hr.toE
  exact h.not_race hS

/-- C09 holds in a state where four goroutines are about to access elements -/
example : ∃ c, witCall.Reaches 3 False witM c ∧ accessing c = 4 ∧ ¬ Race c := by
  obtain ⟨c, h1, h2⟩ := wit_reaches
  exact ⟨c, h1, h2, C09_no_race demoC_ok wit_job wit_depth h1⟩

/-- **C11.** In every reachable state in which the call has not returned, some goroutine can take a step. -/
theorem C11_no_deadlock (hC : C.OK) (J : SortJob C s m call sorted) (hd : DepthFor C.depth s.len)
    (hr : call.Reaches M stale m c) (hn : ¬ Returned c) : ∃ c', Step (call.par M stale) c c' := by
  obtain ⟨S, I, H, _, ts, h⟩ := job_inv hC J hd hr.toE
  rcases h.progress H with h1 | h1
  · exact h1
  · exact absurd (returned_of_all h h1) hn

theorem accessing_not_returned (hC : C.OK) (J : SortJob C s m call sorted) (hd : DepthFor C.depth s.len)
    (hr : call.Reaches M stale m c) (ha : 0 < accessing c) : ¬ Returned c := by
  intro hret
  obtain ⟨S, I, _, _, ts, h⟩ := job_inv hC J hd hr.toE
  obtain ⟨p, hp⟩ := List.exists_mem_of_length_pos ha
  obtain ⟨hp, hp'⟩ := List.mem_filter.1 hp
  rw [(h.returned hret).1 p hp] at hp'
  simp [Prog.access] at hp'

/-- C11 applies in a state where four goroutines work -/
example : ∃ c, witCall.Reaches 3 False witM c ∧ ∃ c', Step (witCall.par 3 False) c c' := by
  obtain ⟨c, h1, h2⟩ := wit_reaches
  exact ⟨c, h1, C11_no_deadlock demoC_ok wit_job wit_depth h1
    (accessing_not_returned demoC_ok wit_job wit_depth h1 (by omega))⟩

/-- **C12.** No execution is infinite; and an execution that cannot be continued has returned. So every execution
reaches the return of the call after finitely many steps. -/
theorem C12_terminates (hC : C.OK) (J : SortJob C s m call sorted) (hd : DepthFor C.depth s.len) (M : Nat) (stale : Prop) :
    (¬ ∃ f : Nat → Cfg Cell (VSp Key), f 0 = start call.main m ∧ ∀ n, Step (call.par M stale) (f n) (f (n + 1))) ∧
    (∀ c, call.Reaches M stale m c → (∀ c', ¬ Step (call.par M stale) c c') → Returned c) ∧
    ∃ c, call.Reaches M stale m c ∧ Returned c := by
  refine ⟨?_, ?_, sortJob_returns hC J hd M stale⟩
  · rintro ⟨f, h0, hf⟩
    exact no_rinfinite (job_acc hC J M stale) ⟨f, h0, fun n => ⟨(f n).sh.mem, hf n⟩⟩
  · intro c hr hno
    by_contra hn
    obtain ⟨c', hs⟩ := C11_no_deadlock hC J hd hr hn
    exact hno c' hs

/-- C12 applies to 3000 strings -/
example : ∃ c, (SortSlice demoC (.slice .string demoS)).Reaches 7 True demoStrs c ∧ Returned c :=
  (C12_terminates demoC_ok demoStrs_job demo_depth 7 True).2.2

/-- **C13.** When the call has returned, every goroutine it created has finished, so nothing more can happen. -/
theorem C13_return_means_finished (hC : C.OK) (J : SortJob C s m call sorted) (hd : DepthFor C.depth s.len)
    (hr : call.Reaches M stale m c) (hret : Returned c) :
    (∀ p ∈ c.ths, p = .ret ()) ∧ ∀ c', ¬ Step (call.par M stale) c c' := by
  obtain ⟨S, I, _, _, ts, h⟩ := job_inv hC J hd hr.toE
  have := (h.returned hret).1
  exact ⟨this, fun c' => no_step_ret this⟩

/-- C13 applies to SortLen on 3000 strings -/
example : ∃ c, (SortLen demoC (.slice .string demoS)).Reaches 7 True demoStrs c ∧ ∀ p ∈ c.ths, p = .ret () := by
  obtain ⟨c, h1, h2⟩ := sortJob_returns demoC_ok demoLens_job demo_depth 7 True
  exact ⟨c, h1, (C13_return_means_finished demoC_ok demoLens_job demo_depth h1 h2).1⟩

/-- **C14.** The channel: only the caller receives; at most one goroutine is about to send; at most one partition
goroutine is unfinished; and whenever the caller waits with continuation `k` and a goroutine offers `v`, then the
sender is a partition goroutine exactly if the caller goes on working with the value (`k v` is not the end). In
other words partition results never end the call and the end signal is never taken for a partition result.
`ds` lists what the goroutines were started as. -/
theorem C14_channel_not_mixed (hC : C.OK) (J : SortJob C s m call sorted) (hd : DepthFor C.depth s.len) {ds : List (VSp Key)}
    (hr : LSteps (call.par M stale) (start call.main m) c ds) :
    (∀ (i : Nat) k, c.ths[i]? = some (.recv k) → i = 0) ∧
    (∀ (i j : Nat) v v' k k', c.ths[i]? = some (Prog.send v k) → c.ths[j]? = some (Prog.send v' k') → i = j) ∧
    (∀ (i j : Nat) ar pv ar' pv' p p', ds[i]? = some (.part ar pv) → ds[j]? = some (.part ar' pv') →
      c.ths[i + 1]? = some p → c.ths[j + 1]? = some p' → p ≠ .ret () → p' ≠ .ret () → i = j) ∧
    (∀ k (i : Nat) v k' d, c.ths[0]? = some (.recv k) → c.ths[i + 1]? = some (.send v k') → ds[i]? = some d →
      ((∃ ar pv, d = .part ar pv) ↔ k v ≠ .ret ())) := by
  obtain ⟨id, rfl, hok, hl⟩ := J.fam hC
  obtain ⟨ts, h, hroles⟩ := Inv.label (call_hyp hC id m hl M stale) hr (call_start hC id hd hok M stale)
  refine ⟨fun i k hi => h.recv_main hi, fun i j v v' k k' hi hj => ?_, ?_, ?_⟩
  · exact filter_two h.one_sender hi hj rfl rfl
  · intro i j ar pv ar' pv' p p' h1 h2 h3 h4 h5 h6
    exact h.one_part hroles h1 h2 rfl rfl h3 h4 h5 h6
  · intro k i v k' d h1 h2 h3
    rw [← h.channel hroles k i d v k' h1 h2 h3]
    cases d <;> simp [vspec]

/-- C14 applies to a state with the caller and four started goroutines, three of them unfinished -/
example : ∃ c ds, LSteps (witCall.par 3 False) (start witCall.main witM) c ds ∧ accessing c = 4 ∧
    ∀ (i : Nat) k, c.ths[i]? = some (.recv k) → i = 0 := by
  obtain ⟨c, h1, h2⟩ := wit_reaches
  obtain ⟨ds, h3⟩ := Steps.label h1
  exact ⟨c, ds, h3, h2, (C14_channel_not_mixed demoC_ok wit_job wit_depth h3).1⟩

/-- **C15.** If `MaxGor` never exceeds 1, the call creates no goroutine and no channel. -/
theorem C15_no_goroutine_if_MaxGor_le_1 (hC : C.OK) (J : SortJob C s m call sorted) (hd : DepthFor C.depth s.len)
    (hM : M ≤ 1) (hr : call.Reaches M stale m c) : c.sh.sync = false ∧ c.ths.length = 1 := by
  obtain ⟨S, I, _, _, ts, h⟩ := job_inv hC J hd hr.toE
  exact h.nosync_of (.inl hM)

/-- C15 applies to a slice that is long enough for concurrency -/
example : ∃ c, witCall.Reaches 1 False witM c ∧ Returned c ∧ c.ths.length = 1 := by
  obtain ⟨c, h1, h2⟩ := sortJob_returns demoC_ok wit_job wit_depth 1 False
  exact ⟨c, h1, h2, (C15_no_goroutine_if_MaxGor_le_1 demoC_ok wit_job wit_depth le_rfl h1).2⟩

/-- **C16.** SortSlice creates no goroutine and no channel for fewer than 2*(MaxLenRec+1) elements (MaxLenRecFC for
strings and byte slices), whatever `MaxGor` is. -/
theorem C16_no_goroutine_if_short (hC : C.OK) (ht : t.sortable = true) (hs : SliceOf C.wordSize t s m)
    (hn : NaNSafe C t (s.view m)) (hd : DepthFor C.depth s.len)
    (hl : s.len < 2 * ((if t.bytes then C.maxLenRecFC else C.maxLenRec) + 1))
    (hr : (SortSlice C (.slice t s)).Reaches M stale m c) : c.sh.sync = false ∧ c.ths.length = 1 := by
  obtain ⟨id, h⟩ := famOf_of_sortable (ws := C.wordSize) ht
  rw [sortSlice_eq hC h] at hr
  obtain ⟨ts, hi⟩ := call_reach hC hs.len hd (accept_slice h hs hn) hr.toE
  refine hi.nosync_of (.inr ?_)
  have hm := fam_maxRec (C := C) h
  simp only [callPar, decide_eq_false_iff_not, not_le, hm]
  exact hl

/-- **C16.** SortLen creates no goroutine and no channel for fewer than 2*(MaxLenRec+1) elements. -/
theorem C16_sortLen_no_goroutine_if_short (hC : C.OK) (ht : t.hasLen = true) (hs : SliceOf C.wordSize t s m)
    (hd : DepthFor C.depth s.len) (hl : s.len < 2 * (C.maxLenRec + 1))
    (hr : (SortLen C (.slice t s)).Reaches M stale m c) : c.sh.sync = false ∧ c.ths.length = 1 := by
  obtain ⟨id, h⟩ := lfamOf_of_hasLen ht
  rw [sortLen_eq hC h] at hr
  obtain ⟨ts, hi⟩ := call_reach hC hs.len hd (fun a ha => .inl (cok_of_len h (view_all.1 hs.elems a ha))) hr.toE
  refine hi.nosync_of (.inr ?_)
  have hm := lfam_maxRec (C := C) h
  simp only [callPar, decide_eq_false_iff_not, not_le, hm]
  exact hl

/-- C16 applies to 1201 integers with `MaxGor` up to 1000 -/
example : ∃ c, (SortSlice demoC (.slice .int64 ⟨0, 1201⟩)).Reaches 1000 False demoInts c ∧ Returned c ∧ c.ths.length = 1 := by
  have hs : SliceOf demoC.wordSize .int64 ⟨0, 1201⟩ demoInts := ⟨demo_view_all fun a => ⟨_, rfl⟩, by decide⟩
  have hd : DepthFor demoC.depth (Slice.mk 0 1201).len := by show Nat.log2 1201 + 2 ≤ 64; decide
  have hn : NaNSafe demoC .int64 ((Slice.mk 0 1201).view demoInts) := by simp [NaNSafe, GoType.float]
  obtain ⟨c, h1, h2⟩ := sortJob_returns demoC_ok (.slice .int64 rfl hs hn) hd 1000 False
  exact ⟨c, h1, h2, (C16_no_goroutine_if_short demoC_ok rfl hs hn hd (by decide) h1).2⟩

/-- C16 applies to 1201 strings sorted by length -/
example : ∃ c, (SortLen demoC (.slice .string ⟨0, 1201⟩)).Reaches 1000 False demoStrs c ∧ Returned c ∧ c.ths.length = 1 := by
  have hs : SliceOf demoC.wordSize .string ⟨0, 1201⟩ demoStrs := ⟨demo_view_all fun a => ⟨_, _, rfl⟩, by decide⟩
  have hd : DepthFor demoC.depth (Slice.mk 0 1201).len := by show Nat.log2 1201 + 2 ≤ 64; decide
  obtain ⟨c, h1, h2⟩ := sortJob_returns demoC_ok (.len .string rfl hs) hd 1000 False
  exact ⟨c, h1, h2, (C16_sortLen_no_goroutine_if_short demoC_ok rfl hs hd (by decide) h1).2⟩

/-- **C17, refuted as documented.** A default build, `MaxGor` = 3 throughout: four goroutines of one SortSlice call
work at the same time. -/
theorem C17_MaxGor_bound_violated : ∃ (s : Slice) (m : Mem Cell) (c : Cfg Cell (VSp Key)),
    SliceOf demoC.wordSize .int64 s m ∧ (SortSlice demoC (.slice .int64 s)).Reaches 3 False m c ∧ 3 < working c := by
  obtain ⟨c, h1, h2⟩ := wit_reaches
  exact ⟨witS, witM, c, witS_typed, h1, by have := accessing_le c; omega⟩

/-- **C17, what does hold.** If `MaxGor` never exceeds `M` (and reads of the counter are not stale), at most
max 1 (2*(M-1)) goroutines of the call work at the same time and at most max 1 (2*M-1) are unfinished. For `M` ≤ 2 this
is the documented bound. -/
theorem C17_goroutine_bound_partial (hC : C.OK) (J : SortJob C s m call sorted) (hd : DepthFor C.depth s.len)
    (hst : ¬ stale) (hr : call.Reaches M stale m c) :
    working c ≤ max 1 (2 * (M - 1)) ∧ live c ≤ max 1 (2 * M - 1) ∧ (M ≤ 2 → working c ≤ max 1 M) := by
  obtain ⟨S, I, _, _, ts, h⟩ := job_inv hC J hd hr.toE
  have hb := h.bounds (P := call.par M stale) hst
  have e : (call.par M stale).M = M := rfl
  rw [e] at hb
  exact ⟨hb.1, hb.2, fun _ => by omega⟩

/-- the bound is attained for `MaxGor` = 3 -/
example : ∃ c, witCall.Reaches 3 False witM c ∧ working c = max 1 (2 * (3 - 1)) := by
  obtain ⟨c, h1, h2⟩ := wit_reaches
  have h3 := (C17_goroutine_bound_partial demoC_ok wit_job wit_depth (by simp) h1).1
  have h4 := accessing_le c
  exact ⟨c, h1, by omega⟩

/-- **C18.** `MaxGor` may change arbitrarily during the call: each read may yield any number up to the arbitrary `M`
(and the counter may be read stale). No goroutine panics, no race, no deadlock, no infinite execution, and the result is
sorted. -/
theorem C18_MaxGor_live (hC : C.OK) (J : SortJob C s m call sorted) (hd : DepthFor C.depth s.len) (M : Nat) (stale : Prop) :
    (∀ c, call.Reaches M stale m c → ¬ Wrong c ∧ ¬ Race c ∧ (¬ Returned c → ∃ c', Step (call.par M stale) c c') ∧
      (Returned c → sorted (s.view c.sh.mem) ∧ (s.view c.sh.mem).Perm (s.view m))) ∧
    ¬ ∃ f : Nat → Cfg Cell (VSp Key), f 0 = start call.main m ∧ ∀ n, Step (call.par M stale) (f n) (f (n + 1)) := by
  refine ⟨fun c hr => ?_, (C12_terminates hC J hd M stale).1⟩
  obtain ⟨S, I, _, ⟨_, hS⟩, ts, h⟩ := job_inv hC J hd hr.toE
  exact ⟨h.not_wrong, h.not_race hS, C11_no_deadlock hC J hd hr, job_outcome hC J hd hr.toE⟩

example : ∃ c, (SortSlice demoC (.slice .string demoS)).Reaches 100000 True demoStrs c ∧ SortedFor demoC .string (demoS.view c.sh.mem) := by
  obtain ⟨c, h1, h2⟩ := sortJob_returns demoC_ok demoStrs_job demo_depth 100000 True
  exact ⟨c, h1, (((C18_MaxGor_live demoC_ok demoStrs_job demo_depth 100000 True).1 c h1).2.2.2 h2).1⟩

/-- **C19.** No goroutine of the call ever panics (index or slice bounds out of range, nil dereference), and every
element access is inside the slice. -/
theorem C19_no_panic (hC : C.OK) (J : SortJob C s m call sorted) (hd : DepthFor C.depth s.len)
    (hr : call.Reaches M stale m c) :
    .panic ∉ c.ths ∧ ∀ p ∈ c.ths, ∀ a w, p.access = some (a, w) → s.off ≤ a ∧ a < s.off + s.len := by
  obtain ⟨S, I, _, ⟨hW, hS⟩, ts, h⟩ := job_inv hC J hd hr.toE
  refine ⟨fun hp => h.not_wrong (.inl hp), fun p hp a w ha => ?_⟩
  have := h.access_sub hp ha (by rw [hS]; exact Set.empty_subset _)
  rwa [hW] at this

example : ∃ c, witCall.Reaches 3 False witM c ∧ accessing c = 4 ∧ .panic ∉ c.ths := by
  obtain ⟨c, h1, h2⟩ := wit_reaches
  exact ⟨c, h1, h2, (C19_no_panic demoC_ok wit_job wit_depth h1).1⟩

/-- **C20.** With room for only log2(length) + 2 nested sorting calls in each goroutine, no goroutine ever runs out of
it. -/
theorem C20_log_depth (hC : C.OK) (J : SortJob C s m call sorted) (hd : C.depth = Nat.log2 s.len + 2)
    (hr : call.Reaches M stale m c) : .overflow ∉ c.ths := by
  obtain ⟨S, I, _, _, ts, h⟩ := job_inv hC J (by unfold DepthFor; omega) hr.toE
  exact fun hp => h.not_wrong (.inr (.inl hp))

/-- C20 applies to 3000 integers and a budget of 13 -/
example : ∃ c, (SortSlice (Conf.default Sixb.bits 13) (.slice .int64 demoS)).Reaches 5 False demoInts c ∧ Returned c ∧
    .overflow ∉ c.ths := by
  have hC : (Conf.default Sixb.bits 13).OK := ⟨Sixb.bits_ok, ⟨3, by decide⟩, .inr rfl⟩
  have hs : SliceOf (Conf.default Sixb.bits 13).wordSize .int64 demoS demoInts := ⟨demo_view_all fun a => ⟨_, rfl⟩, by decide⟩
  have J : SortJob (Conf.default Sixb.bits 13) demoS demoInts _ _ := .slice .int64 rfl hs (by simp [NaNSafe, GoType.float])
  have hd : (Conf.default Sixb.bits 13).depth = Nat.log2 demoS.len + 2 := by decide
  obtain ⟨c, h1, h2⟩ := sortJob_returns hC J (by unfold DepthFor; omega) 5 False
  exact ⟨c, h1, h2, C20_log_depth hC J hd h1⟩

/-- **C34.** While other code does anything to memory outside the slice, at any time, the call keeps all its
guarantees: no panic, no race, no deadlock, it accesses and changes only its slice, it does not take infinitely many
steps, and returns with the slice sorted. -/
theorem C34_disjoint_calls (hC : C.OK) (J : SortJob C s m call sorted) (hd : DepthFor C.depth s.len) (M : Nat) (stale : Prop) :
    (∀ c, call.EReaches M stale s m c → ¬ Wrong c ∧ ¬ Race c ∧
      (∀ p ∈ c.ths, ∀ a w, p.access = some (a, w) → s.off ≤ a ∧ a < s.off + s.len) ∧
      (∀ c', Step (call.par M stale) c c' → ∀ a, a < s.off ∨ s.off + s.len ≤ a → c'.sh.mem a = c.sh.mem a) ∧
      (¬ Returned c → ∃ c', Step (call.par M stale) c c') ∧
      (Returned c → sorted (s.view c.sh.mem) ∧ (s.view c.sh.mem).Perm (s.view m))) ∧
    ¬ ∃ f : Nat → Cfg Cell (VSp Key), f 0 = start call.main m ∧
      ∀ n, ∃ m', Step (call.par M stale) ⟨{ (f n).sh with mem := m' }, (f n).ths⟩ (f (n + 1)) := by
  refine ⟨fun c hr => ?_, no_rinfinite (job_acc hC J M stale)⟩
  obtain ⟨S, I, H, ⟨hW, hS⟩, ts, h⟩ := job_inv hC J hd hr
  refine ⟨h.not_wrong, h.not_race hS, fun p hp a w ha => ?_, fun c' hs a ha => ?_, fun hn => ?_, job_outcome hC J hd hr⟩
  · have := h.access_sub hp ha (by rw [hS]; exact Set.empty_subset _)
    rwa [hW] at this
  · refine h.frame hs a ?_
    rw [hW]; simp only [Slice.rng, Set.mem_ofPred_eq]; omega
  · rcases h.progress H with h1 | h1
    · exact h1
    · exact absurd (returned_of_all h h1) hn

/-- C34 applies: after the start, other code changes address 5 -/
example : ∃ c, (SortSlice demoC (.slice .int64 demoS)).EReaches 5 False demoS demoInts c ∧ c.sh.mem 5 = .w64 0 ∧ ¬ Wrong c := by
  refine ⟨⟨⟨Function.update demoInts 5 (.w64 0), 0, false⟩, [(SortSlice demoC (.slice .int64 demoS)).main]⟩, ?_, by simp, ?_⟩
  · refine .tail (.refl _) (.env ⟨demoInts, 0, false⟩ _ _ ?_)
    intro i hi
    have : i ≠ 5 := by have : demoS.off = 10 := rfl; omega
    simp [this]
  · refine ((C34_disjoint_calls demoC_ok demoInts_job demo_depth 5 False).1 _ ?_).1
    refine .tail (.refl _) (.env ⟨demoInts, 0, false⟩ _ _ ?_)
    intro i hi
    have : i ≠ 5 := by have : demoS.off = 10 := rfl; omega
    simp [this]

end Sorty
