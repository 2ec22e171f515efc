import Verif.Proofs.LswCols
import Verif.Logic.RowsHB
import Verif.Props.HB
import Verif.Props.LswWitness

/-! # Sort keeps parallel slices in step -/

namespace Sorty

open Prog

variable {T : Type} {K n M : Nat} {C : Conf} {cs : Fin (K + 1) → Slice} {m : Mem T} {stale : Prop} {less : T → T → Prop} {c : Cfg T LSp}

/-- environment of a call of Sort on the parallel slices `cs` of `n` elements -/
abbrev colsPar (C : Conf) (cs : Fin (K + 1) → Slice) (n : Nat) (cmp : Cmp T) (M : Nat) (stale : Prop) : Par T LSp :=
  @lswPar T (columns cs) C ⟨0, n⟩ cmp M stale

/-- a call of Sort on the parallel slices `cs` of `n` elements (`columns cs` is its `lsw`; the `Slice` in this term is only a length) -/
abbrev colsSort (C : Conf) (cs : Fin (K + 1) → Slice) (n : Nat) : Prog T LSp Unit := @SortLsw T (columns cs) C n ⟨0, n⟩

/-- the slices do not overlap -/
def NoOverlap (cs : Fin (K + 1) → Slice) : Prop :=
  ∀ j j', j ≠ j' → (cs j).off + (cs j).len ≤ (cs j').off ∨ (cs j').off + (cs j').len ≤ (cs j).off

theorem NoOverlap.apart (h : NoOverlap cs) (hn : ∀ j, (cs j).len = n) : Apart (fun j => (cs j).off) n := by
  intro i hi i' hi' j j' e
  by_cases hj : j = j'
  · subst hj; exact ⟨by simpa using e, rfl⟩
  · have h1 := h j j' hj
    rw [hn, hn] at h1
    dsimp only at e
    omega

/-- the comparator of the rows: it looks at the keys -/
def keyLess (less : T → T → Prop) (x y : Fin (K + 1) → T) : Prop := less (x 0) (y 0)

theorem keyLess_weak (h : StrictWeak less) : StrictWeak (keyLess (K := K) less) :=
  ⟨fun _ => h.irrefl _, fun _ _ _ => h.trans _ _ _, fun _ _ _ => h.incomp _ _ _⟩

/-- the comparator of the rows: it asks about the keys -/
def keyCmp (cmp : Cmp T) : Cmp (Fin (K + 1) → T) := fun i k x y b => cmp i k (x 0) (y 0) b

theorem keyCmp_tame {cmp : Cmp T} (h : Tame cmp) : Tame (keyCmp (K := K) cmp) := ⟨fun _ _ _ _ => h.answers _ _ _ _, fun _ _ => h.strict _ _⟩

theorem colsPar_rows {cmp : Cmp T} (hn : ∀ j, (cs j).len = n) : RowPar (fun j => (cs j).off) n (colsPar C cs n cmp M stale)
    (@lswPar (Fin (K + 1) → T) rowwise C ⟨0, n⟩ (keyCmp cmp) M stale) :=
  ⟨rfl, Iff.rfl, fun _ _ _ _ _ => Iff.rfl, fun s => rows_body hn C s⟩

theorem cols_start (hn : ∀ j, (cs j).len = n) (m : Mem T) : RowCfg (fun j => (cs j).off) n m (start (colsSort C cs n) m)
    (start (@SortLsw (Fin (K + 1) → T) rowwise C n ⟨0, n⟩) fun i j => m ((cs j).off + i)) :=
  ⟨⟨fun _ _ _ => rfl, fun _ _ => rfl⟩, rfl, rfl, .cons (rows_sort hn C n) .nil⟩

/-- **C70 for any comparator.** Let a collection consist of several slices of `n` elements each that do not overlap, and let `lsw` ask a
comparator about elements of the first one and swap elements of all slices, one slice after the other. The comparator may answer
anything, but never that an index is less than itself. Then no execution of Sort is infinite, one that cannot go on has returned, no
goroutine ever panics, there is never a data race, only elements of the slices are accessed, and nothing else changes. On return every
goroutine has finished and all slices have been rearranged in the same way: some permutation `σ` of the indices says for every slice
which element is where. -/
theorem C70_any_comparator {cmp : Cmp T} (hC : C.OK) (hcmp : Tame cmp) (hn : ∀ j, (cs j).len = n) (ho : NoOverlap cs)
    (hf : FitsInt C.wordSize n) (hd : DepthFor C.depth n) (m : Mem T) (M : Nat) (stale : Prop) :
    (¬ ∃ f : Nat → Cfg T LSp, f 0 = start (colsSort C cs n) m ∧ ∀ k, Step (colsPar C cs n cmp M stale) (f k) (f (k + 1))) ∧
    ∀ c, Reach (colsPar C cs n cmp M stale) (colsSort C cs n) m c →
      ((∀ c', ¬ Step (colsPar C cs n cmp M stale) c c') → Returned c) ∧ ¬ Wrong c ∧ ¬ Race c ∧
      (∀ p ∈ c.ths, ∀ a w, p.access = some (a, w) → ∃ j, (cs j).off ≤ a ∧ a < (cs j).off + n) ∧
      (∀ a, (∀ j, ¬ ((cs j).off ≤ a ∧ a < (cs j).off + n)) → c.sh.mem a = m a) ∧
      (Returned c → (∀ p ∈ c.ths, p = .ret ()) ∧ 
        ∃ σ : Equiv.Perm Nat, (∀ i, n ≤ i → σ i = i) ∧ ∀ j, ∀ i < n, c.sh.mem ((cs j).off + i) = m ((cs j).off + σ i)) := by
  let : Lesswap (Fin (K + 1) → T) := rowwise
  have : Lesswap.OK (Fin (K + 1) → T) := rowwise_ok
  have ha := ho.apart hn
  have hP := colsPar_rows (C := C) (cmp := cmp) (M := M) (stale := stale) hn
  have hw := keyCmp_tame (K := K) hcmp
  have hL := lok (s := ⟨0, n⟩) hC hw.ok hf
  let M0 : Mem (Fin (K + 1) → T) := fun i j => m ((cs j).off + i)
  have h0 := cols_start (C := C) hn m
  constructor
  · have hacc := Rows.acc hP ha (lsw_acc C ⟨0, n⟩ (keyCmp cmp) M0 M stale) h0
    rintro ⟨f, e, hstep⟩
    rw [← e] at hacc
    have key : ∀ c, Acc (fun c' c => Step (colsPar C cs n cmp M stale) c c') c → ∀ k, f k ≠ c := by
      intro c hc
      induction hc with
      | intro c _ ih => rintro k rfl; exact ih _ (hstep k) (k + 1) rfl
    exact key _ hacc 0 rfl
  · intro c hc
    obtain ⟨d, hd1, hd2⟩ := Rows.steps hP ha hc h0
    have hr : SortReaches C ⟨0, n⟩ (keyCmp cmp) M stale M0 d := hd1
    obtain ⟨ts, h⟩ := lsw_reach hL hd hr.toE
    refine ⟨fun hno => ?_, fun hwr => h.not_wrong (hd2.wrong hwr), fun hrace => ?_, fun p hp a w hacc => ?_, fun a hna => ?_, fun hret => ?_⟩
    · rcases h.progress (lsw_hyp hL M0 M stale) with ⟨d', h1⟩ | h1
      · obtain ⟨c', h2⟩ := hd2.progress hP h1
        exact absurd h2 (hno c')
      · exact hd2.returned.2 (returned_of_all h h1)
    · obtain ⟨d', h1, h2⟩ := hd2.race (P' := @lswPar (Fin (K + 1) → T) rowwise C ⟨0, n⟩ (keyCmp cmp) M stale) ha hrace
      have hr' : SortReaches C ⟨0, n⟩ (keyCmp cmp) M stale M0 d' := hd1.tail h1
      obtain ⟨ts', h'⟩ := lsw_reach hL hd hr'.toE
      exact h'.not_race rfl h2
    · obtain ⟨q, _, hq⟩ := hd2.mem_ths hp
      obtain ⟨i, j, hi, rfl, _⟩ := hq.access hacc
      exact ⟨j, by simp, by simpa using hi⟩
    · refine hd2.mem.frame a fun i hi j e => hna j ?_
      omega
    · have hret' := hd2.returned.1 hret
      have hall := (h.returned hret').1
      have hsp : SP _ ⟨0, n⟩ M0 d.sh.mem := (h.returned hret').2
      obtain ⟨σ, hσ1, hσ2⟩ := hsp.1
      refine ⟨fun p hp => ?_, σ, fun i hi => hσ1 i ?_, fun j i hi => ?_⟩
      · obtain ⟨q, hq, hrel⟩ := hd2.mem_ths hp
        have := hall q hq
        subst this
        cases hrel; rfl
      · simp only [Slice.rng, Set.mem_ofPred_eq]; omega
      · have hmem : i ∈ (Slice.mk 0 n).rng := by simp only [Slice.rng, Set.mem_ofPred_eq]; omega
        rw [← hd2.mem.eq i hi j, hσ2 i hmem]

/-- **C70, Sort keeps parallel slices in step.** Let a collection consist of several slices of `n` elements each that do not
overlap, and let `lsw` compare elements of the first one by a strict weak order `less` and swap elements of all slices, one slice
after the other. Then no execution of Sort is infinite, one that cannot go on has returned, no goroutine ever panics, there is never
a data race, only elements of the slices are accessed, and nothing else changes. On return every goroutine has finished, no later
element of the first slice is less than an earlier one, and all slices have been rearranged in the same way: some permutation `σ` of
the indices says for every slice which element is where. -/
theorem C70_parallel_slices (hC : C.OK) (hless : StrictWeak less) (hn : ∀ j, (cs j).len = n) (ho : NoOverlap cs)
    (hf : FitsInt C.wordSize n) (hd : DepthFor C.depth n) (m : Mem T) (M : Nat) (stale : Prop) :
    (¬ ∃ f : Nat → Cfg T LSp, f 0 = start (colsSort C cs n) m ∧ ∀ k, Step (colsPar C cs n (byLess less) M stale) (f k) (f (k + 1))) ∧
    ∀ c, Reach (colsPar C cs n (byLess less) M stale) (colsSort C cs n) m c →
      ((∀ c', ¬ Step (colsPar C cs n (byLess less) M stale) c c') → Returned c) ∧ ¬ Wrong c ∧ ¬ Race c ∧
      (∀ p ∈ c.ths, ∀ a w, p.access = some (a, w) → ∃ j, (cs j).off ≤ a ∧ a < (cs j).off + n) ∧
      (∀ a, (∀ j, ¬ ((cs j).off ≤ a ∧ a < (cs j).off + n)) → c.sh.mem a = m a) ∧
      (Returned c → (∀ p ∈ c.ths, p = .ret ()) ∧ Ascending less ((cs 0).view c.sh.mem) ∧
        ∃ σ : Equiv.Perm Nat, (∀ i, n ≤ i → σ i = i) ∧ ∀ j, ∀ i < n, c.sh.mem ((cs j).off + i) = m ((cs j).off + σ i)) := by
  have hany := C70_any_comparator (cs := cs) (n := n) hC hless.tame hn ho hf hd m M stale
  refine ⟨hany.1, fun c hc => ?_⟩
  obtain ⟨h1, h2, h3, h4, h5, h6⟩ := hany.2 c hc
  refine ⟨h1, h2, h3, h4, h5, fun hret => ⟨(h6 hret).1, ?_, (h6 hret).2⟩⟩
  let : Lesswap (Fin (K + 1) → T) := rowwise
  have : Lesswap.OK (Fin (K + 1) → T) := rowwise_ok
  have hw := keyLess_weak (K := K) hless
  obtain ⟨d, hd1, hd2⟩ := Rows.steps (colsPar_rows (cmp := byLess less) hn) (ho.apart hn) hc (cols_start (C := C) hn m)
  have hr : SortReaches C ⟨0, n⟩ (byLess (keyLess less)) M stale _ d := hd1
  have h1 := (sort_outcome hC hw hf hd hr.toE (hd2.returned.1 hret)).1
  have e : (cs 0).view c.sh.mem = ((Slice.mk 0 n).view d.sh.mem).map fun z => z 0 := by
    unfold Slice.view
    rw [hn 0, List.map_map]
    refine List.map_congr_left fun i hi => ?_
    have := hd2.mem.eq i (by simpa using hi) 0
    simp only [Function.comp, Nat.zero_add]
    exact this.symm
  rw [e]
  unfold Ascending at h1 ⊢
  exact List.pairwise_map.2 h1

/-- **C70**, by the Go memory model: in every execution, any two accesses to one element of one of the slices, one of them a store, are
ordered by happens-before, and when Sort has returned, every access any goroutine made to an element is one of the caller's own
actions or happens before one of them. -/
theorem C70_no_data_race {cmp : Cmp T} (hC : C.OK) (hcmp : Tame cmp) (hn : ∀ j, (cs j).len = n) (ho : NoOverlap cs)
    (hf : FitsInt C.wordSize n) (hd : DepthFor C.depth n) (m : Mem T) (M : Nat) (stale : Prop) {tr : List Ev}
    (h : Trace (colsPar C cs n cmp M stale) (start (colsSort C cs n) m) tr c) :
    ¬ GoRace tr ∧ (Returned c → ∀ i t a w, tr[i]? = some (.acc t a w) → KnownTo tr (.gor 0) i) := by
  let : Lesswap (Fin (K + 1) → T) := rowwise
  have : Lesswap.OK (Fin (K + 1) → T) := rowwise_ok
  have hw := keyCmp_tame (K := K) hcmp
  have hL := lok (s := ⟨0, n⟩) hC hw.ok hf
  let M0 : Mem (Fin (K + 1) → T) := fun i j => m ((cs j).off + i)
  have h0 := cols_start (C := C) hn m
  obtain ⟨tr', d, h1, h2, h3⟩ := Rows.trace (colsPar_rows (cmp := cmp) hn) (ho.apart hn) h h0
  obtain ⟨ts, hInv, hI⟩ := Inv.trace (lsw_hyp hL M0 M stale) (lsw_start hL hd M stale) h1
  exact ⟨h2.norace (ho.apart hn) hI.norace, fun hret i t a w hi =>
    h2.known (fun i t a w hi => hInv.visible hI (h3.returned.1 hret) hi) hi⟩

/-- keys 3, 1, 2 from index 0 on and values 30, 10, 20 from index 5 on -/
def colsM : Mem Nat := fun a => [3, 1, 2, 0, 0, 30, 10, 20].getD a 0

/-- a slice of three keys and one of the three values that belong to them -/
def colsS : Fin 2 → Slice := fun j => ⟨5 * j.val, 3⟩

theorem colsS_apart : NoOverlap colsS := by
  unfold NoOverlap
  decide +kernel

theorem colsS_fits : FitsInt demoC.wordSize 3 := by
  show 11 * (3 + 8) ≤ 10 * 2 ^ (8 * 8 - 1)
  norm_num

theorem colsS_depth : DepthFor demoC.depth 3 := by
  show Nat.log2 3 + 2 ≤ 64
  decide

theorem colsS_run : (run (@lswBody Nat (columns colsS) demoC ⟨0, 3⟩) 5 ltAns [.run 0 25] (start (colsSort demoC colsS 3) colsM)).map
    (fun c => (c.ths.map fun p => match p with | .ret _ => true | _ => false, (colsS 0).view c.sh.mem, (colsS 1).view c.sh.mem)) =
    some ([true], [1, 2, 3], [10, 20, 30]) := by
  decide +kernel

/-- C70 holds of an execution that sorts three keys and moves their values along -/
example : ∃ c, Reach (colsPar demoC colsS 3 ltCmp 5 True) (colsSort demoC colsS 3) colsM c ∧ Returned c ∧
    (colsS 0).view c.sh.mem = [1, 2, 3] ∧ (colsS 1).view c.sh.mem = [10, 20, 30] ∧
    ∃ σ : Equiv.Perm Nat, (∀ i, 3 ≤ i → σ i = i) ∧ ∀ j, ∀ i < 3, c.sh.mem ((colsS j).off + i) = colsM ((colsS j).off + σ i) := by
  have h := colsS_run
  simp only [Option.map_eq_some_iff, Prod.mk.injEq] at h
  obtain ⟨c, h1, h2, h3, h4⟩ := h
  have hc : Reach (colsPar demoC colsS 3 ltCmp 5 True) (colsSort demoC colsS 3) colsM c :=
    @run_sound _ _ (colsPar demoC colsS 3 ltCmp 5 True) 5 ltAns (le_refl 5) (fun i j x y b hb => by
      simp only [ltAns, Option.some.injEq] at hb
      simp [lswPar, byLess, ← hb]) _ _ _ h1
  have hr : Returned c := by
    obtain ⟨sh, ths⟩ := c
    match ths, h2 with
    | [.ret ()], _ => exact ⟨[], rfl⟩
  exact ⟨c, hc, hr, h3, h4, (((C70_parallel_slices (cs := colsS) (n := 3) demoC_ok lt_strictWeak (fun _ => rfl) colsS_apart colsS_fits colsS_depth
    colsM 5 True).2 c hc).2.2.2.2.2 hr).2.2⟩

/-- C70 holds of a comparator that always says yes, except for an index and itself: the execution swaps the keys and their values -/
example : ∃ c, Reach (colsPar demoC colsS 3 wildCmp 5 True) (colsSort demoC colsS 3) colsM c ∧ Returned c ∧
    (colsS 0).view c.sh.mem ≠ (colsS 0).view colsM ∧
    ∃ σ : Equiv.Perm Nat, (∀ i, 3 ≤ i → σ i = i) ∧ ∀ j, ∀ i < 3, c.sh.mem ((colsS j).off + i) = colsM ((colsS j).off + σ i) := by
  have h : (run (@lswBody Nat (columns colsS) demoC ⟨0, 3⟩) 5 (fun i k _ _ => some (decide (i ≠ k))) [.run 0 33] (start (colsSort demoC colsS 3) colsM)).map
      (fun c => (c.ths.map fun p => match p with | .ret _ => true | _ => false, (colsS 0).view c.sh.mem)) = some ([true], [2, 1, 3]) := by
    decide +kernel
  simp only [Option.map_eq_some_iff, Prod.mk.injEq] at h
  obtain ⟨c, h1, h2, h3⟩ := h
  have hc : Reach (colsPar demoC colsS 3 wildCmp 5 True) (colsSort demoC colsS 3) colsM c :=
    @run_sound _ _ (colsPar demoC colsS 3 wildCmp 5 True) 5 (fun i k _ _ => some (decide (i ≠ k))) (le_refl 5) (fun i j x y b hb => by
      simp only [Option.some.injEq] at hb
      simp only [lswPar, wildCmp, ← hb]
      intro e
      simp [e]) _ _ _ h1
  have hr : Returned c := by
    obtain ⟨sh, ths⟩ := c
    match ths, h2 with
    | [.ret ()], _ => exact ⟨[], rfl⟩
  exact ⟨c, hc, hr, by rw [h3]; decide, (((C70_any_comparator (cs := colsS) (n := 3) demoC_ok wild_tame (fun _ => rfl) colsS_apart colsS_fits colsS_depth
    colsM 5 True).2 c hc).2.2.2.2.2 hr).2⟩

/-- two slices of 1204 elements -/
def colsT : Fin 2 → Slice := fun j => ⟨2000 * j.val, 1204⟩

theorem colsT_apart : NoOverlap colsT := by
  unfold NoOverlap
  decide +kernel

theorem colsT_run : (run (@lswBody Nat (columns colsT) demoC ⟨0, 1204⟩) 3 ltAns lwitSched (start (colsSort demoC colsT 1204) lwitM)).map accessing = some 4 := by
  decide +kernel

/-- C70 holds in a state where four goroutines are about to access elements -/
example : ∃ c, Reach (colsPar demoC colsT 1204 ltCmp 3 False) (colsSort demoC colsT 1204) lwitM c ∧ accessing c = 4 ∧ ¬ Race c ∧
    ∃ tr, Trace (colsPar demoC colsT 1204 ltCmp 3 False) (start (colsSort demoC colsT 1204) lwitM) tr c ∧ ¬ GoRace tr := by
  have h := colsT_run
  simp only [Option.map_eq_some_iff] at h
  obtain ⟨c, h1, h2⟩ := h
  have hc : Reach (colsPar demoC colsT 1204 ltCmp 3 False) (colsSort demoC colsT 1204) lwitM c :=
    @run_sound _ _ (colsPar demoC colsT 1204 ltCmp 3 False) 3 ltAns (le_refl 3) (fun i j x y b hb => by
      simp only [ltAns, Option.some.injEq] at hb
      simp [lswPar, byLess, ← hb]) _ _ _ h1
  obtain ⟨tr, ht⟩ := Steps.trace hc
  exact ⟨c, hc, h2, ((C70_parallel_slices (cs := colsT) (n := 1204) demoC_ok lt_strictWeak (fun _ => rfl) colsT_apart lwit_fits lwit_depth
    lwitM 3 False).2 c hc).2.2.1, tr, ht, (C70_no_data_race (cs := colsT) (n := 1204) demoC_ok lt_strictWeak.tame (fun _ => rfl) colsT_apart
    lwit_fits lwit_depth lwitM 3 False ht).1⟩

end Sorty
