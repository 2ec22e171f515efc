import Verif.Logic.Weak
import Verif.Props.HB
import Verif.Props.Slice

/-! # Weakly ordered memory

`Weak P p m r c`: an execution of call `p`, started on memory `m`, in which loads of elements return whatever the Go memory
model allows, recorded in `r`, that leads to `c`. `Sees m r t a v`: goroutine `t` may load `v` from address `a` next
(SemWeak.lean). -/

namespace Sorty

section
variable {V Sp : Type} {P : Par V Sp} {p : Prog V Sp Unit} {m : Mem V} {r : List (WEv V)} {c : Cfg V Sp}

/-- a goroutine about to load sees what was stored last -/
theorem sees_running (hnr : ∀ tr c, Trace P (start p m) tr c → ¬ GoRace tr) (h : Weak P p m r c) {t a : Nat} {k : V → Prog V Sp Unit}
    (hk : c.ths[t]? = some (.read a k)) {v : V} (hs : Sees m r t a v) : v = memOf m r a := by
  obtain ⟨hv, hT⟩ := h.strong hnr
  obtain ⟨ht, e⟩ := List.getElem?_eq_some_iff.1 hk
  have e2 : c.ths = c.ths.take t ++ .read a k :: c.ths.drop (t + 1) := by
    conv_lhs => rw [← List.take_append_drop t c.ths, List.drop_eq_getElem_cons ht, e]
  have hT' : Trace P (start p m) (evs r) ⟨{ c.sh with mem := memOf m r }, c.ths.take t ++ .read a k :: c.ths.drop (t + 1)⟩ := by
    rw [← e2]; exact hT
  have h1 := hnr _ _ (Trace.tau hT' (.read _ a k))
  simp only [Prog.act, Option.toList_some, List.length_take, Nat.min_eq_left ht.le] at h1
  exact hs.eq hv h1

/-- who knows of all accesses sees what was stored last -/
theorem sees_known (hv : Valued r) (hn : ¬ GoRace (evs r)) (hk : ∀ i t a w, (evs r)[i]? = some (.acc t a w) → KnownTo (evs r) (.gor 0) i)
    {a : Nat} {v : V} (hs : Sees m r 0 a v) : v = memOf m r a := by
  refine hs.eq hv ?_
  rintro ⟨i, j, t, t', b, w, w', hij, hi, hj, hw, hh⟩
  rcases getElem?_snoc hj with hj | ⟨rfl, hj⟩
  · rcases getElem?_snoc hi with hi | ⟨rfl, _⟩
    · exact hn ⟨i, j, t, t', b, w, w', hij, hi, hj, hw, fun h => hh h.grow⟩
    · have := (List.getElem?_eq_some_iff.1 hj).1
      omega
  · rcases getElem?_snoc hi with hi | ⟨rfl, _⟩
    · exact hh ((hk i t b w hi).before (by simp [Ev.who]))
    · omega

end

section
variable {C : Conf} {s : Slice} {m : Mem Cell} {M : Nat} {stale : Prop} {c : Cfg Cell (VSp Key)} {call : Call}
  {sorted : List Cell → Prop} {r : List (WEv Cell)}

/-- **C58** for SortSlice and SortLen: for every state of an execution on weakly ordered memory there is an execution on
ordinary memory with the same actions that leads to a state with the same goroutines, counter and channel, and a goroutine
that is about to load an element can load nothing but what is there in ordinary memory. -/
theorem C58_weak_memory (hC : C.OK) (J : SortJob C s m call sorted) (hd : DepthFor C.depth s.len)
    (h : Weak (call.par M stale) call.main m r c) :
    ∃ c', Trace (call.par M stale) (start call.main m) (r.map Prod.fst) c' ∧ c'.ths = c.ths ∧ c'.sh.nGor = c.sh.nGor ∧
      c'.sh.sync = c.sh.sync ∧ ∀ t a k, c.ths[t]? = some (.read a k) → ∀ v, Sees m r t a v ↔ v = c'.sh.mem a := by
  obtain ⟨hv, hT⟩ := h.strong fun tr c hT => C09_no_data_race hC J hd hT
  refine ⟨_, hT, rfl, rfl, rfl, fun t a k hk v => ⟨sees_running (fun tr c hT => C09_no_data_race hC J hd hT) h hk, ?_⟩⟩
  rintro rfl
  exact sees_memOf hv t a

/-- **C58**: when the call has returned, whatever the caller can load, the slice is sorted and a permutation of the original. -/
theorem C58_weak_memory_sorts (hC : C.OK) (J : SortJob C s m call sorted) (hd : DepthFor C.depth s.len)
    (h : Weak (call.par M stale) call.main m r c) (hret : Returned c) (seen : Mem Cell) (hs : ∀ a, Sees m r 0 a (seen a)) :
    sorted (s.view seen) ∧ (s.view seen).Perm (s.view m) := by
  obtain ⟨hv, hT⟩ := h.strong fun tr c hT => C09_no_data_race hC J hd hT
  have e : seen = memOf m r := by
    funext a
    exact sees_known hv (C09_no_data_race hC J hd hT) (fun i t a w => C13_all_visible_at_return hC J hd hT hret) (hs a)
  rw [e]
  exact job_outcome hC J hd (Call.Reaches.toE hT.steps) hret

/-- every execution on ordinary memory is one on weakly ordered memory -/
theorem sortJob_weak {c : Cfg Cell (VSp Key)} (h : call.Reaches M stale m c) :
    ∃ r c', Weak (call.par M stale) call.main m r c' ∧ c'.ths = c.ths ∧ ∀ t a, Sees m r t a (c.sh.mem a) := by
  obtain ⟨r, hv, hm, hw⟩ := Steps.weak h
  exact ⟨r, _, hw, rfl, fun t a => hm ▸ sees_memOf hv t a⟩

/-- C58 applies to an execution in which four goroutines are about to access elements ... -/
example : ∃ r c, Weak (witCall.par 3 False) witCall.main witM r c ∧ accessing c = 4 ∧
    ∀ t a k, c.ths[t]? = some (.read a k) → ∃ v, Sees witM r t a v ∧ ∀ v', Sees witM r t a v' → v' = v := by
  obtain ⟨c, h1, h2⟩ := wit_reaches
  obtain ⟨r, c', h3, h4, h5⟩ := sortJob_weak h1
  refine ⟨r, c', h3, by unfold accessing; rw [h4]; exact h2, fun t a k hk => ?_⟩
  obtain ⟨d, _, _, _, _, hd⟩ := C58_weak_memory demoC_ok wit_job wit_depth h3
  exact ⟨d.sh.mem a, (hd t a k hk _).2 rfl, fun v' hv' => (hd t a k hk v').1 hv'⟩

/-- ... and to one that sorts 3000 strings and returns. -/
example : ∃ r c, ∃ seen : Mem Cell, Weak ((SortSlice demoC (.slice .string demoS)).par 7 True) (SortSlice demoC (.slice .string demoS)).main demoStrs r c ∧
    Returned c ∧ (∀ a, Sees demoStrs r 0 a (seen a)) ∧ SortedFor demoC .string (demoS.view seen) := by
  obtain ⟨c, h1, h2⟩ := sortJob_returns demoC_ok demoStrs_job demo_depth 7 True
  obtain ⟨r, c', h3, h4, h5⟩ := sortJob_weak h1
  have hret : Returned c' := by unfold Returned; rw [h4]; exact h2
  exact ⟨r, c', c.sh.mem, h3, hret, h5 0, (C58_weak_memory_sorts demoC_ok demoStrs_job demo_depth h3 hret _ (h5 0)).1⟩

end

section
variable {V : Type} {C : Conf} {s : Slice} {cmp : Cmp V} {less : V → V → Prop} {m : Mem V} {M : Nat} {stale : Prop} {c : Cfg V LSp}
  {r : List (WEv V)}

/-- **C58** for Sort, whose loads and stores are those of the user's function. -/
theorem C58_sort_weak_memory (hC : C.OK) (hcmp : Tame cmp) (hf : FitsInt C.wordSize s.len) (hd : DepthFor C.depth s.len)
    (h : Weak (lswPar C s cmp M stale) (SortLsw C s.len s) m r c) :
    ∃ c', Trace (lswPar C s cmp M stale) (start (SortLsw C s.len s) m) (r.map Prod.fst) c' ∧ c'.ths = c.ths ∧
      c'.sh.nGor = c.sh.nGor ∧ c'.sh.sync = c.sh.sync ∧
      ∀ t a k, c.ths[t]? = some (.read a k) → ∀ v, Sees m r t a v ↔ v = c'.sh.mem a := by
  obtain ⟨hv, hT⟩ := h.strong fun tr c hT => C10_sort_no_data_race hC hcmp hf hd hT
  refine ⟨_, hT, rfl, rfl, rfl, fun t a k hk v => ⟨sees_running (fun tr c hT => C10_sort_no_data_race hC hcmp hf hd hT) h hk, ?_⟩⟩
  rintro rfl
  exact sees_memOf hv t a

/-- **C58** for Sort: the outcome. -/
theorem C58_sort_weak_memory_sorts (hC : C.OK) (hless : StrictWeak less) (hf : FitsInt C.wordSize s.len) (hd : DepthFor C.depth s.len)
    (h : Weak (lswPar C s (byLess less) M stale) (SortLsw C s.len s) m r c) (hret : Returned c) (seen : Mem V)
    (hs : ∀ a, Sees m r 0 a (seen a)) : Ascending less (s.view seen) ∧ (s.view seen).Perm (s.view m) := by
  obtain ⟨hv, hT⟩ := h.strong fun tr c hT => C10_sort_no_data_race hC hless.tame hf hd hT
  have e : seen = memOf m r := by
    funext a
    exact sees_known hv (C10_sort_no_data_race hC hless.tame hf hd hT)
      (fun i t a w => C13_sort_all_visible_at_return hC hless.tame hf hd hT hret) (hs a)
  rw [e]
  exact C07_sort_strict_weak_order hC hless hf hd hT.steps hret

example : ∃ r c, ∃ seen : Mem Nat, Weak (lswPar demoC demoS ltCmp 7 True) (SortLsw demoC demoS.len demoS) demoDesc r c ∧ Returned c ∧
    (∀ a, Sees demoDesc r 0 a (seen a)) ∧ Ascending (· < ·) (demoS.view seen) := by
  obtain ⟨c, h1, h2⟩ := sort_returns demoC_ok lt_strictWeak.tame demoS_fits demo_depth demoDesc 7 True
  obtain ⟨r, hv, hm, hw⟩ := Steps.weak h1
  have h5 : ∀ a, Sees demoDesc r 0 a (c.sh.mem a) := fun a => hm ▸ sees_memOf hv 0 a
  exact ⟨r, _, c.sh.mem, hw, h2, h5, (C58_sort_weak_memory_sorts demoC_ok lt_strictWeak demoS_fits demo_depth hw h2 _ h5).1⟩

example : ∃ r c, Weak (lswPar demoC lwitS ltCmp 3 False) (SortLsw demoC lwitS.len lwitS) lwitM r c ∧ accessing c = 4 ∧
    ∀ t a k, c.ths[t]? = some (.read a k) → ∃ v, Sees lwitM r t a v ∧ ∀ v', Sees lwitM r t a v' → v' = v := by
  obtain ⟨c, h1, h2⟩ := lwit_reaches
  obtain ⟨r, hv, hm, hw⟩ := Steps.weak h1
  refine ⟨r, _, hw, h2, fun t a k hk => ?_⟩
  obtain ⟨d, _, _, _, _, hd⟩ := C58_sort_weak_memory demoC_ok lt_strictWeak.tame lwit_fits lwit_depth hw
  exact ⟨d.sh.mem a, (hd t a k hk _).2 rfl, fun v' hv' => (hd t a k hk v').1 hv'⟩

end

end Sorty
