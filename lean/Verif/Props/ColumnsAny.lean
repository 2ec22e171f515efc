import Verif.Props.Columns
import Verif.Props.LswAny

/-! # Parallel slices and a comparator of which nothing is known -/

namespace Sorty

variable {T : Type} {C : Conf} {K : Nat} {cs : Fin (K + 1) → Slice} {n M : Nat} {stale : Prop} {m : Mem T} {c : Cfg T LSp} {cmp : Cmp T}

/-- **C70, whatever the comparator answers**, even that an index is less than itself. Then there may be data races (C42), but no
execution of Sort is infinite, one that cannot go on has returned, no goroutine ever panics, only elements of the slices are accessed, and
nothing else changes. On return every goroutine has finished, and all slices have been rearranged in the same way. -/
theorem C70_unrestricted_comparator (hC : C.OK) (hcmp : ∀ i k x y, ∃ b, cmp i k x y b) (hn : ∀ j, (cs j).len = n) (ho : NoOverlap cs)
    (hf : FitsInt C.wordSize n) (hd : DepthFor C.depth n) (m : Mem T) (M : Nat) (stale : Prop) :
    (¬ ∃ f : Nat → Cfg T LSp, f 0 = start (colsSort C cs n) m ∧ ∀ k, Step (colsPar C cs n cmp M stale) (f k) (f (k + 1))) ∧
    ∀ c, Reach (colsPar C cs n cmp M stale) (colsSort C cs n) m c →
      ((∀ c', ¬ Step (colsPar C cs n cmp M stale) c c') → Returned c) ∧ ¬ Wrong c ∧
      (∀ p ∈ c.ths, ∀ a w, p.access = some (a, w) → ∃ j, (cs j).off ≤ a ∧ a < (cs j).off + n) ∧
      (∀ a, (∀ j, ¬ ((cs j).off ≤ a ∧ a < (cs j).off + n)) → c.sh.mem a = m a) ∧
      (Returned c → (∀ p ∈ c.ths, p = .ret ()) ∧
        ∃ σ : Equiv.Perm Nat, (∀ i, n ≤ i → σ i = i) ∧ ∀ j, ∀ i < n, c.sh.mem ((cs j).off + i) = m ((cs j).off + σ i)) := by
  let : Lesswap (Fin (K + 1) → T) := rowwise
  have : Lesswap.OK (Fin (K + 1) → T) := rowwise_ok
  have ha := ho.apart hn
  have hP := colsPar_rows (C := C) (cmp := cmp) (M := M) (stale := stale) hn
  have hL := lokAny (s := ⟨0, n⟩) (cmp := keyCmp (K := K) cmp) hC (fun _ _ _ _ => hcmp _ _ _ _) hf
  let M0 : Mem (Fin (K + 1) → T) := fun i j => m ((cs j).off + i)
  have h0 := cols_start (C := C) hn m
  constructor
  · have hacc := Rows.acc hP ha (lsw_acc C ⟨0, n⟩ (keyCmp cmp) M0 M stale) h0
    rintro ⟨f, e, hstep⟩
    rw [← e] at hacc
    have key : ∀ c, Acc (fun c' c => Step (colsPar C cs n cmp M stale) c c') c → ∀ k, f k ≠ c := by
      intro c hc
      induction hc with
      | intro c _ ih => rintro k rfl; exact ih _ (hstep k) (k + 1) rfl
    exact key _ hacc 0 rfl
  · intro c hc
    obtain ⟨d, hd1, hd2⟩ := Rows.steps hP ha hc h0
    have hr : SortReaches C ⟨0, n⟩ (keyCmp cmp) M stale M0 d := hd1
    obtain ⟨ts, h⟩ := lsw_reach hL hd hr.toE
    refine ⟨fun hno => ?_, fun hwr => h.not_wrong (hd2.wrong hwr), fun p hp a w hacc => ?_, fun a hna => ?_, fun hret => ?_⟩
    · rcases h.progress (lsw_hyp hL M0 M stale) with ⟨d', h1⟩ | h1
      · obtain ⟨c', h2⟩ := hd2.progress hP h1
        exact absurd h2 (hno c')
      · exact hd2.returned.2 (returned_of_all h h1)
    · obtain ⟨q, _, hq⟩ := hd2.mem_ths hp
      obtain ⟨i, j, hi, rfl, _⟩ := hq.access hacc
      exact ⟨j, by simp, by simpa using hi⟩
    · refine hd2.mem.frame a fun i hi j e => hna j ?_
      omega
    · have hret' := hd2.returned.1 hret
      have hall := (h.returned hret').1
      have hsp : SP _ ⟨0, n⟩ M0 d.sh.mem := (h.returned hret').2
      obtain ⟨σ, hσ1, hσ2⟩ := hsp.1
      refine ⟨fun p hp => ?_, σ, fun i hi => hσ1 i ?_, fun j i hi => ?_⟩
      · obtain ⟨q, hq, hrel⟩ := hd2.mem_ths hp
        have := hall q hq
        subst this
        cases hrel; rfl
      · simp only [Slice.rng, Set.mem_ofPred_eq]; omega
      · have hmem : i ∈ (Slice.mk 0 n).rng := by simp only [Slice.rng, Set.mem_ofPred_eq]; omega
        rw [← hd2.mem.eq i hi j, hσ2 i hmem]

theorem cle_answers (cs : Fin (K + 1) → Slice) (stale : Prop) :
    ∀ i k x y b, leAns i k x y = some b → (colsPar C cs n leCmp M stale).cmp i k x y b := by
  intro i k x y b hb
  simp only [leAns, Option.some.injEq] at hb
  simp [lswPar, byLess, ← hb]

/-- the caller compares with the pivot while goroutine 1 is about to store to it -/
def cleSched : List Act := [.run 0 257, .run 1 600, .run 1 600, .run 1 600, .run 1 600, .run 1 600, .run 1 600, .run 1 594]

theorem cle_run : (run (@lswBody Nat (columns colsT) demoC ⟨0, 1204⟩) 3 leAns cleSched (start (colsSort demoC colsT 1204) lwitM)).map nextTwo =
    some (some (602, false), some (602, true)) := by
  decide +kernel

/-- C70 applies to `<=` in a state in which two goroutines race: nothing outside the slices has changed -/
example : ∃ c, Reach (colsPar demoC colsT 1204 leCmp 3 False) (colsSort demoC colsT 1204) lwitM c ∧ Race c ∧ ¬ Wrong c ∧
    (∀ a, (∀ j, ¬ ((colsT j).off ≤ a ∧ a < (colsT j).off + 1204)) → c.sh.mem a = lwitM a) := by
  have h := cle_run
  simp only [Option.map_eq_some_iff] at h
  obtain ⟨c, h1, h2⟩ := h
  have hc : Reach (colsPar demoC colsT 1204 leCmp 3 False) (colsSort demoC colsT 1204) lwitM c :=
    run_sound (P := colsPar demoC colsT 1204 leCmp 3 False) (le_refl 3) (cle_answers _ _) _ h1
  have hany := (C70_unrestricted_comparator (cs := colsT) (n := 1204) demoC_ok le_answers (fun _ => rfl) colsT_apart lwit_fits lwit_depth
    lwitM 3 False).2 c hc
  unfold nextTwo at h2
  simp only [Prod.mk.injEq, Option.bind_eq_some_iff] at h2
  obtain ⟨⟨p, hp, hpa⟩, q, hq, hqa⟩ := h2
  exact ⟨c, hc, ⟨0, 1, p, q, 602, false, true, by decide, hp, hq, hpa, hqa, .inr rfl⟩, hany.2.1, hany.2.2.2.1⟩

/-- C70 applies to an execution with `<=` that moves three keys and their values -/
example : ∃ c, Reach (colsPar demoC colsS 3 leCmp 5 True) (colsSort demoC colsS 3) colsM c ∧ Returned c ∧
    (colsS 0).view c.sh.mem ≠ (colsS 0).view colsM ∧
    ∃ σ : Equiv.Perm Nat, (∀ i, 3 ≤ i → σ i = i) ∧ ∀ j, ∀ i < 3, c.sh.mem ((colsS j).off + i) = colsM ((colsS j).off + σ i) := by
  have h : (run (@lswBody Nat (columns colsS) demoC ⟨0, 3⟩) 5 leAns [.run 0 25] (start (colsSort demoC colsS 3) colsM)).map
      (fun c => (c.ths.map fun p => match p with | .ret _ => true | _ => false, (colsS 0).view c.sh.mem)) = some ([true], [1, 2, 3]) := by
    decide +kernel
  simp only [Option.map_eq_some_iff, Prod.mk.injEq] at h
  obtain ⟨c, h1, h2, h3⟩ := h
  have hc : Reach (colsPar demoC colsS 3 leCmp 5 True) (colsSort demoC colsS 3) colsM c :=
    run_sound (P := colsPar demoC colsS 3 leCmp 5 True) (le_refl 5) (cle_answers _ _) _ h1
  have hr : Returned c := by
    obtain ⟨sh, ths⟩ := c
    match ths, h2 with
    | [.ret ()], _ => exact ⟨[], rfl⟩
  exact ⟨c, hc, hr, by rw [h3]; decide, (((C70_unrestricted_comparator (cs := colsS) (n := 3) demoC_ok le_answers (fun _ => rfl) colsS_apart
    colsS_fits colsS_depth colsM 5 True).2 c hc).2.2.2.2 hr).2⟩

end Sorty
