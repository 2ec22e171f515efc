import Verif.Props.Lsw
import Verif.Props.LswStrict
import Verif.Props.Mach

/-! # Sort with a comparator of which nothing is known

C08 asks of the comparator that it never says an index is less than itself. Without that C42 exhibits data races and wrong
orders. What survives is C66. -/

namespace Sorty

open Prog

variable {V : Type} {C : Conf} {s : Slice} {m : Mem V} {M : Nat} {stale : Prop} {cmp : Cmp V} {c : Cfg V LSp}

/-- **C66.** Whatever the comparator answers, even that an index is less than itself: no execution of Sort is infinite, one
that cannot go on has returned, no goroutine ever panics (`lsw` panics if one of its four indices is outside [0,n)) or
accesses anything outside the collection, nothing outside it changes, no two goroutines are ever about to store to one
element, and on return every goroutine has finished and the collection is a permutation of the original. -/
theorem C66_sort_unrestricted_comparator (hC : C.OK) (hcmp : ∀ i k x y, ∃ b, cmp i k x y b) (hf : FitsInt C.wordSize s.len)
    (hd : DepthFor C.depth s.len) (m : Mem V) (M : Nat) (stale : Prop) :
    (¬ ∃ f : Nat → Cfg V LSp, f 0 = start (SortLsw C s.len s) m ∧ ∀ n, Step (lswPar C s cmp M stale) (f n) (f (n + 1))) ∧
    ∀ c, SortReaches C s cmp M stale m c →
      ((∀ c', ¬ Step (lswPar C s cmp M stale) c c') → Returned c) ∧ ¬ Wrong c ∧
      (∀ p ∈ c.ths, ∀ a w, p.access = some (a, w) → s.off ≤ a ∧ a < s.off + s.len) ∧
      (∀ a, a < s.off ∨ s.off + s.len ≤ a → c.sh.mem a = m a) ∧
      (∀ (i j : Nat) p q a, i ≠ j → c.ths[i]? = some p → c.ths[j]? = some q → p.access = some (a, true) → q.access ≠ some (a, true)) ∧
      (Returned c → (∀ p ∈ c.ths, p = .ret ()) ∧ (s.view c.sh.mem).Perm (s.view m)) := by
  have hL := lokAny (s := s) hC hcmp hf
  refine ⟨?_, fun c hr => ?_⟩
  · rintro ⟨f, h0, hstep⟩
    exact no_rinfinite (lsw_racc C s cmp m M stale) ⟨f, h0, fun n => ⟨(f n).sh.mem, hstep n⟩⟩
  · obtain ⟨ts, h⟩ := lsw_reach hL hd hr.toE
    refine ⟨fun hno => ?_, h.not_wrong, fun p hp a w ha => h.access_sub hp ha subset_rfl, fun a ha => ?_,
      fun i j p q a hij hp hq ha hb => h.not_wrace hij hp hq ha hb, fun hret => ?_⟩
    · rcases h.progress (lsw_hyp hL m M stale) with ⟨c', h1⟩ | h1
      · exact absurd h1 (hno c')
      · exact returned_of_all h h1
    · refine lsw_frame hL hd hr a ?_
      simp only [Slice.rng, Set.mem_ofPred_eq]; omega
    · obtain ⟨h1, h2⟩ := h.returned hret
      have ho : SP _ s m c.sh.mem := h2
      exact ⟨h1, view_perm ho.1⟩

/-- some execution returns -/
theorem any_returns (hC : C.OK) (hcmp : ∀ i k x y, ∃ b, cmp i k x y b) (hf : FitsInt C.wordSize s.len)
    (hd : DepthFor C.depth s.len) (m : Mem V) (M : Nat) (stale : Prop) : ∃ c, SortReaches C s cmp M stale m c ∧ Returned c :=
  exists_return (lsw_hyp (lokAny hC hcmp hf) m M stale) (lsw_acc C s cmp m M stale) (lsw_start (lokAny hC hcmp hf) hd M stale)

/-- **C66 on machine words.** The same of Sort as the program computes it, with index arithmetic on Go's `int`. -/
theorem C66_sort_unrestricted_machine (hC : C.OK) (hr : 2 * ((C.maxLenRec : Int) + 1) < intLimit C.wordSize)
    (hcmp : ∀ i k x y, ∃ b, cmp i k x y b) (hf : FitsInt C.wordSize s.len) (hd : DepthFor C.depth s.len) (m : Mem V) (M : Nat) (stale : Prop) :
    (¬ ∃ f : Nat → Cfg V LSp, f 0 = start (SortLswM C s.len s) m ∧ ∀ n, Step (lswParM C s cmp M stale) (f n) (f (n + 1))) ∧
    ∀ c, SortReachesM C s cmp M stale m c →
      ((∀ c', ¬ Step (lswParM C s cmp M stale) c c') → Returned c) ∧ ¬ Wrong c ∧
      (∀ a, a < s.off ∨ s.off + s.len ≤ a → c.sh.mem a = m a) ∧ (Returned c → (s.view c.sh.mem).Perm (s.view m)) := by
  have hs := fits_lt hC.word hf
  have hP := lswPar_same hC hr hs cmp M stale
  have h0 := lswStart_same (V := V) hC hr hs m
  refine ⟨?_, fun c hc => ?_⟩
  · rintro ⟨f, e0, hst⟩
    have ha := Twin.acc hP.symm (lsw_acc C s cmp m M stale) h0.symm
    rw [← e0] at ha
    have key : ∀ x, Acc (fun c' c => Step (lswParM C s cmp M stale) c c') x → ∀ n, f n ≠ x := by
      intro x hx
      induction hx with
      | intro x _ ih => intro n hn; exact ih (f (n + 1)) (hn ▸ hst n) (n + 1) rfl
    exact key _ ha 0 rfl
  · obtain ⟨d, h1, h2⟩ := Twin.steps hP.symm hc h0.symm
    have hal := h2.alike
    have hany := (C66_sort_unrestricted_comparator hC hcmp hf hd m M stale).2 d h1
    refine ⟨fun hno => ?_, fun h => hany.2.1 (hal.wrong h), fun a ha => ?_, fun hret => ?_⟩
    · refine hal.symm.returned (hany.1 fun d' hs => ?_)
      obtain ⟨c', h3, _⟩ := Twin.step hP hs h2.symm
      exact hno c' h3
    · rw [hal.1]; exact hany.2.2.2.1 a ha
    · rw [hal.1]; exact (hany.2.2.2.2.2 (hal.returned hret)).2

theorem le_answers : ∀ i k x y, ∃ b, leCmp i k x y b := fun _ _ x y => ⟨decide (x ≤ y), by simp [byLess]⟩

/-- C66 applies to `<=` on 3000 numbers with `MaxGor` = 5 -/
example : ∃ c, SortReaches demoC demoS leCmp 5 True demoDesc c ∧ Returned c ∧ (demoS.view c.sh.mem).Perm (demoS.view demoDesc) := by
  obtain ⟨c, h1, h2⟩ := any_returns demoC_ok le_answers demoS_fits demo_depth demoDesc 5 True
  exact ⟨c, h1, h2, (((C66_sort_unrestricted_comparator demoC_ok le_answers demoS_fits demo_depth demoDesc 5 True).2 c h1).2.2.2.2.2 h2).2⟩

/-- C66 applies to `<=` on machine words -/
example : ∃ c, SortReachesM demoC demoS leCmp 5 True demoDesc c ∧ Returned c ∧ (demoS.view c.sh.mem).Perm (demoS.view demoDesc) := by
  obtain ⟨d, h1, h2⟩ := any_returns demoC_ok le_answers demoS_fits demo_depth demoDesc 5 True
  have hs := fits_lt demoC_ok.word demoS_fits
  obtain ⟨c, h3, h4⟩ := Twin.steps (lswPar_same demoC_ok demoC_rec hs leCmp 5 True) h1 (lswStart_same demoC_ok demoC_rec hs demoDesc)
  have h5 := h4.alike.returned h2
  exact ⟨c, h3, h5, ((C66_sort_unrestricted_machine demoC_ok demoC_rec le_answers demoS_fits demo_depth demoDesc 5 True).2 c h3).2.2.2 h5⟩

/-- C66 applies to the comparator that always says yes -/
example : ∃ c, SortReaches demoC demoS (fun _ _ _ _ b => b = true) 5 True demoDesc c ∧ Returned c ∧
    (demoS.view c.sh.mem).Perm (demoS.view demoDesc) := by
  obtain ⟨c, h1, h2⟩ := any_returns (cmp := fun _ _ _ _ b => b = true) demoC_ok (fun _ _ _ _ => ⟨true, rfl⟩) demoS_fits demo_depth demoDesc 5 True
  exact ⟨c, h1, h2, (((C66_sort_unrestricted_comparator (cmp := fun _ _ _ _ b => b = true) demoC_ok (fun _ _ _ _ => ⟨true, rfl⟩) demoS_fits
    demo_depth demoDesc 5 True).2 c h1).2.2.2.2.2 h2).2⟩

/-- C66 holds in the very state in which C42 exhibits a race: it cannot be between two stores -/
example : ∃ c, SortReaches demoC lwitS leCmp 3 False lwitM c ∧ Race c ∧
    ∀ (i j : Nat) p q a, i ≠ j → c.ths[i]? = some p → c.ths[j]? = some q → p.access = some (a, true) → q.access ≠ some (a, true) := by
  obtain ⟨c, h1, h2⟩ := C42_nonstrict_race
  exact ⟨c, h1, h2, ((C66_sort_unrestricted_comparator demoC_ok le_answers lwit_fits lwit_depth lwitM 3 False).2 c h1).2.2.2.2.1⟩

end Sorty
