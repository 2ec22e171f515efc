import Verif.Proofs.MachJob
import Verif.Props.Lsw
import Verif.Props.LswCheck
import Verif.Props.Pure

/-! # Properties of the machine-word model

`SortSliceM`, `SortLenM`, `SortLswM`, `IsSortedSliceM`, ... are the functions with index arithmetic on Go's `int` and `uint`.
-/

namespace Sorty

open Prog

section
variable {C : Conf} {t : GoType} {s : Slice} {m : Mem Cell} {M : Nat} {stale : Prop} {call : Call} {sorted : List Cell → Prop}

/-- **C53, SortSlice.** If `2*(MaxLenRec+1)` is an `int`, then for every slice (its length is an `int`) of any element type the
machine-word function and the one on unbounded integers have executions that look alike, whatever the rest of the program
writes elsewhere. -/
theorem C53_sortSlice_machine (hC : C.OK) (hr : 2 * ((C.maxLenRec : Int) + 1) < intLimit C.wordSize) (t : GoType)
    (hs : s.len < intLimit C.wordSize) (m : Mem Cell) (M : Nat) (stale : Prop) :
    (∀ c, (SortSliceM C (.slice t s)).EReaches M stale s m c → ∃ d, (SortSlice C (.slice t s)).EReaches M stale s m d ∧ Alike c d) ∧
    (∀ d, (SortSlice C (.slice t s)).EReaches M stale s m d → ∃ c, (SortSliceM C (.slice t s)).EReaches M stale s m c ∧ Alike d c) := by
  obtain ⟨id, h⟩ := same_sortCall hC hr sliceFam t hs
  exact ⟨fun c hc => h.symm.ereaches hc, fun c hc => h.ereaches hc⟩

/-- **C53, SortLen.** -/
theorem C53_sortLen_machine (hC : C.OK) (hr : 2 * ((C.maxLenRec : Int) + 1) < intLimit C.wordSize) (t : GoType)
    (hs : s.len < intLimit C.wordSize) (m : Mem Cell) (M : Nat) (stale : Prop) :
    (∀ c, (SortLenM C (.slice t s)).EReaches M stale s m c → ∃ d, (SortLen C (.slice t s)).EReaches M stale s m d ∧ Alike c d) ∧
    (∀ d, (SortLen C (.slice t s)).EReaches M stale s m d → ∃ c, (SortLenM C (.slice t s)).EReaches M stale s m c ∧ Alike d c) := by
  obtain ⟨id, h⟩ := same_sortCall hC hr lenFam t hs
  exact ⟨fun c hc => h.symm.ereaches hc, fun c hc => h.ereaches hc⟩

/-- **C53, outcome of SortSlice and SortLen on machine words.** A documented call has no infinite execution, never races, panics
or runs out of stack, gets stuck only by returning, and then the slice is sorted and has the original elements. -/
theorem C53_machine_sorts (hC : C.OK) (hr : 2 * ((C.maxLenRec : Int) + 1) < intLimit C.wordSize) (J : SortJobM C s m call sorted)
    (hd : DepthFor C.depth s.len) (M : Nat) (stale : Prop) :
    (¬ ∃ f : Nat → Cfg Cell (VSp Key), f 0 = start call.main m ∧ ∀ n, Step (call.par M stale) (f n) (f (n + 1))) ∧
    ∀ c, call.Reaches M stale m c → ¬ Race c ∧ ¬ Wrong c ∧ ((∀ c', ¬ Step (call.par M stale) c c') → Returned c) ∧
      (Returned c → sorted (s.view c.sh.mem) ∧ (s.view c.sh.mem).Perm (s.view m)) :=
  machine_works hC hr J hd M stale

theorem machine_returns (hC : C.OK) (hr : 2 * ((C.maxLenRec : Int) + 1) < intLimit C.wordSize) (J : SortJobM C s m call sorted)
    (hd : DepthFor C.depth s.len) (M : Nat) (stale : Prop) : ∃ c, call.Reaches M stale m c ∧ Returned c := by
  obtain ⟨ideal, id, J', hS⟩ := J.ideal hC hr
  obtain ⟨d, h1, h2⟩ := sortJob_returns hC J' hd M stale
  obtain ⟨c, h3, h4⟩ := Twin.steps (hS.par M stale) h1 (Twin.start hS.main m)
  exact ⟨c, h3, h4.alike.returned h2⟩

theorem demoC_rec : 2 * ((demoC.maxLenRec : Int) + 1) < intLimit demoC.wordSize := by
  show 2 * (((600 : Nat) : Int) + 1) < 2 ^ (8 * 8 - 1); norm_num

theorem demoS_int : (demoS.len : Int) < intLimit demoC.wordSize := by
  show ((3000 : Nat) : Int) < 2 ^ (8 * 8 - 1); norm_num

/-- C53 carries an execution of SortSlice on floats with NaNs, and one of SortLen, to machine words -/
example : (∃ c, (SortSliceM demoC (.slice .float64 demoS)).EReaches 7 True demoS demoFloats c ∧ Returned c) ∧
    ∃ c, (SortLenM demoC (.slice .string demoS)).EReaches 7 True demoS demoStrs c ∧ Returned c := by
  constructor
  · obtain ⟨d, h1, h2⟩ := sortJob_returns demoC_ok (.slice .float64 rfl (demoFloats_typed 1) (fun _ => .inl rfl)) demo_depth 7 True
    obtain ⟨c, h3, h4⟩ := (C53_sortSlice_machine demoC_ok demoC_rec .float64 demoS_int demoFloats 7 True).2 d h1.toE
    exact ⟨c, h3, h4.returned h2⟩
  · obtain ⟨d, h1, h2⟩ := sortJob_returns demoC_ok (.len .string rfl demoStrs_typed) demo_depth 7 True
    obtain ⟨c, h3, h4⟩ := (C53_sortLen_machine demoC_ok demoC_rec .string demoS_int demoStrs 7 True).2 d h1.toE
    exact ⟨c, h3, h4.returned h2⟩

/-- C53 applies to 3000 ints and to 3000 strings by length -/
example : (∃ c, (SortSliceM demoC (.slice .int64 demoS)).Reaches 7 True demoInts c ∧ AscNum (GoType.signed .int64) (demoS.view c.sh.mem)) ∧
    ∃ c, (SortLenM demoC (.slice .string demoS)).Reaches 7 True demoStrs c ∧ AscLen (demoS.view c.sh.mem) := by
  refine ⟨?_, ?_⟩
  · have J : SortJobM demoC demoS demoInts _ _ := .slice .int64 rfl demoInts_typed demoS_int (by simp [NaNSafe, GoType.float])
    obtain ⟨c, h1, h2⟩ := machine_returns demoC_ok demoC_rec J demo_depth 7 True
    exact ⟨c, h1, (((C53_machine_sorts demoC_ok demoC_rec J demo_depth 7 True).2 c h1).2.2.2 h2).1⟩
  · have J : SortJobM demoC demoS demoStrs _ _ := .len .string rfl demoStrs_typed demoS_int
    obtain ⟨c, h1, h2⟩ := machine_returns demoC_ok demoC_rec J demo_depth 7 True
    exact ⟨c, h1, (((C53_machine_sorts demoC_ok demoC_rec J demo_depth 7 True).2 c h1).2.2.2 h2).1⟩

/-- **C53, IsSortedSlice, IsSortedLen, Search and minMaxSample-free helpers.** On machine words they are the same functions. -/
theorem C53_checks_machine {Sp σ : Type} (hC : C.OK) (t : GoType) (hs : s.len < intLimit C.wordSize) :
    (IsSortedSliceM C (.slice t s) : Prog Cell Sp Int) = IsSortedSlice C (.slice t s) ∧
    (IsSortedLenM C (.slice t s) : Prog Cell Sp Int) = IsSortedLen C (.slice t s) ∧
    (∀ n < intLimit C.wordSize, ∀ (fn : Int → σ → Bool × σ) (st : σ), SearchM C.wordSize n fn st = Search n fn st) :=
  ⟨isSortedCall_same hC sliceFam t hs, isSortedCall_same hC lenFam t hs, fun _ hn fn st => Search_same (word_of hC) fn hn st⟩

example : (IsSortedSliceM demoC (.slice .float64 demoS) : Prog Cell LSp Int) = IsSortedSlice demoC (.slice .float64 demoS) :=
  (C53_checks_machine (σ := Unit) demoC_ok .float64 demoS_int).1

/-- Search on machine words finds the border even among all ints -/
example : SearchM demoC.wordSize (2 ^ 63 - 1) (fun k (_ : Unit) => (decide (12345 ≤ k), ())) () =
    Search (2 ^ 63 - 1) (fun k (_ : Unit) => (decide (12345 ≤ k), ())) () :=
  (C53_checks_machine (σ := Unit) (Sp := LSp) demoC_ok .int demoS_int).2.2 _ (by show _ < (2 : Int) ^ (8 * 8 - 1); norm_num) _ _

end

section
variable {V Sp : Type} {C : Conf} {s : Slice} {m : Mem V} {M : Nat} {stale : Prop} {cmp : Cmp V} {less : V → V → Prop}

/-- **C53, Sort.** Likewise for Sort on collections of fewer elements than the largest `int`, with any comparator. (Where `h += step`
of `pivot` wraps, C41, it does so in both.) -/
theorem C53_sort_machine (hC : C.OK) (hr : 2 * ((C.maxLenRec : Int) + 1) < intLimit C.wordSize) (hs : (s.len : Int) + 1 < intLimit C.wordSize)
    (cmp : Cmp V) (m : Mem V) (M : Nat) (stale : Prop) :
    (∀ c, SortEReachesM C s cmp M stale m c → ∃ d, SortEReaches C s cmp M stale m d ∧ Alike c d) ∧
    (∀ d, SortEReaches C s cmp M stale m d → ∃ c, SortEReachesM C s cmp M stale m c ∧ Alike d c) := by
  refine ⟨fun c hc => ?_, fun c hc => ?_⟩
  · obtain ⟨d, h1, h2⟩ := Twin.esteps (lswPar_same hC hr hs cmp M stale).symm hc (lswStart_same hC hr hs m).symm
    exact ⟨d, h1, h2.alike⟩
  · obtain ⟨d, h1, h2⟩ := Twin.esteps (lswPar_same hC hr hs cmp M stale) hc (lswStart_same hC hr hs m)
    exact ⟨d, h1, h2.alike⟩

/-- **C53, outcome of Sort on machine words.** With a strict weak order and a collection of up to 10/11 of the `int` range. -/
theorem C53_sort_machine_sorts (hC : C.OK) (hr : 2 * ((C.maxLenRec : Int) + 1) < intLimit C.wordSize) (hless : StrictWeak less)
    (hf : FitsInt C.wordSize s.len) (hd : DepthFor C.depth s.len) (m : Mem V) (M : Nat) (stale : Prop) :
    (¬ ∃ f : Nat → Cfg V LSp, f 0 = start (SortLswM C s.len s) m ∧ ∀ n, Step (lswParM C s (byLess less) M stale) (f n) (f (n + 1))) ∧
    ∀ c, SortReachesM C s (byLess less) M stale m c → ¬ Race c ∧ ¬ Wrong c ∧
      ((∀ c', ¬ Step (lswParM C s (byLess less) M stale) c c') → Returned c) ∧
      (Returned c → Ascending less (s.view c.sh.mem) ∧ (s.view c.sh.mem).Perm (s.view m)) := by
  have hs := fits_lt hC.word hf
  have hP := lswPar_same hC hr hs (byLess less) M stale
  have h0 := lswStart_same (V := V) hC hr hs m
  refine ⟨?_, fun c hc => ?_⟩
  · rintro ⟨f, e0, hst⟩
    have ha := Twin.acc hP.symm (lsw_acc C s (byLess less) m M stale) h0.symm
    rw [← e0] at ha
    generalize hx : f 0 = x at ha
    have key : ∀ x, Acc (fun c' c => Step (lswParM C s (byLess less) M stale) c c') x → ∀ n, f n ≠ x := by
      intro x hx
      induction hx with
      | intro x _ ih => intro n hn; exact ih (f (n + 1)) (hn ▸ hst n) (n + 1) rfl
    exact key x ha 0 hx
  · obtain ⟨d, h1, h2⟩ := Twin.steps hP.symm hc h0.symm
    have hal := h2.alike
    have hd1 : SortReaches C s (byLess less) M stale m d := h1
    have hany := (C08_sort_any_comparator hC hless.tame hf hd m M stale).2 d hd1
    refine ⟨fun h => C10_sort_no_race hC hless.tame hf hd hd1 (hal.race h), fun h => hany.2.1 (hal.wrong h), fun hno => ?_, fun hret => ?_⟩
    · refine hal.symm.returned (hany.1 fun d' hs => ?_)
      obtain ⟨c', h3, _⟩ := Twin.step hP hs h2.symm
      exact hno c' h3
    · rw [hal.1]
      exact C07_sort_strict_weak_order hC hless hf hd hd1 (hal.returned hret)

/-- C53 carries an execution of Sort to machine words -/
example : ∃ c, SortEReachesM demoC demoS ltCmp 5 True demoDesc c ∧ Returned c := by
  obtain ⟨d, h1, h2⟩ := sort_returns demoC_ok lt_strictWeak.tame demoS_fits demo_depth demoDesc 5 True
  obtain ⟨c, h4, h5⟩ := (C53_sort_machine demoC_ok demoC_rec (fits_lt demoC_ok.word demoS_fits) ltCmp demoDesc 5 True).2 d (SortReaches.toE h1)
  exact ⟨c, h4, h5.returned h2⟩

/-- C53 applies to Sort on 3000 numbers -/
example : ∃ c, SortReachesM demoC demoS ltCmp 5 True demoDesc c ∧ Ascending (· < ·) (demoS.view c.sh.mem) := by
  have hs := fits_lt demoC_ok.word demoS_fits
  obtain ⟨d, h1, h2⟩ := sort_returns demoC_ok lt_strictWeak.tame demoS_fits demo_depth demoDesc 5 True
  obtain ⟨c, h3, h4⟩ := Twin.steps (lswPar_same demoC_ok demoC_rec hs ltCmp 5 True) h1 (lswStart_same demoC_ok demoC_rec hs demoDesc)
  exact ⟨c, h3, (((C53_sort_machine_sorts demoC_ok demoC_rec lt_strictWeak demoS_fits demo_depth demoDesc 5 True).2 c h3).2.2.2
    (h4.alike.returned h2)).1⟩

/-- **C53, IsSorted.** -/
theorem C53_isSorted_machine (hC : C.OK) (n : Int) (hs : s.len < intLimit C.wordSize) :
    (IsSortedM C.wordSize n s : Prog V Sp Int) = IsSorted C.wordSize n s :=
  (Twin.eq (G := fun _ => True) (same_IsSorted (word_of hC) hs n)).symm

example : (IsSortedM 8 (-2 ^ 63) demoS : Prog Nat LSp Int) = IsSorted 8 (-2 ^ 63) demoS :=
  C53_isSorted_machine demoC_ok _ demoS_int

end

section

/-- **C37, thresholds below a quarter of the range of `uint`.** Whatever thresholds pass the start-up check as the program computes
it, if twice `MaxLenRec + 1` and twice `MaxLenIns` are `int`s, then documented calls of SortSlice and SortLen, as the program
computes them, work. Missing from the full property: larger thresholds, for which it is false. -/
theorem C37_every_accepted_tuning_partial (E : Sixb) (hE : E.OK) (maxGor maxLenIns maxLenInsFC maxLenRec maxLenRecFC : Nat) (ws : Nat)
    (hw : ws = 4 ∨ ws = 8) (hinit : initOKM ws maxGor maxLenRec maxLenRecFC maxLenIns maxLenInsFC = true)
    (hrec : 2 * ((maxLenRec : Int) + 1) < intLimit ws) (hins : 2 * (maxLenIns : Int) < intLimit ws) (nanOption : Int) (depth : Nat)
    {s : Slice} {m : Mem Cell} {call : Call} {sorted : List Cell → Prop}
    (J : SortJobM ⟨E, maxLenIns, maxLenInsFC, maxLenRec, maxLenRecFC, nanOption, ws, depth⟩ s m call sorted)
    (hd : DepthFor depth s.len) (M : Nat) (stale : Prop) :
    (¬ ∃ f : Nat → Cfg Cell (VSp Key), f 0 = start call.main m ∧ ∀ n, Step (call.par M stale) (f n) (f (n + 1))) ∧
    ∀ c, call.Reaches M stale m c → ¬ Race c ∧ ¬ Wrong c ∧ ((∀ c', ¬ Step (call.par M stale) c c') → Returned c) ∧
      (Returned c → sorted (s.view c.sh.mem) ∧ (s.view c.sh.mem).Perm (s.view m)) := by
  have h : initOK maxGor maxLenRec maxLenRecFC maxLenIns maxLenInsFC = true := by
    unfold initOKM at hinit
    rw [(Word.mk hw rfl : Word ws (intLimit ws)).wrap (by omega) hins] at hinit
    simp only [Bool.and_eq_true, decide_eq_true_eq, gt_iff_lt, initOK] at hinit ⊢
    omega
  exact C53_machine_sorts (C := ⟨E, maxLenIns, maxLenInsFC, maxLenRec, maxLenRecFC, nanOption, ws, depth⟩) ⟨hE, ⟨_, h⟩, hw⟩ hrec J hd M stale

/-- **C37 is false for thresholds from a quarter of the range of `uint` on** (build tag tuneparam): then `2*(MaxLenRec+1)` wraps to a
number that is not positive, every slice counts as long enough for concurrent partitioning, and on an empty slice the choice of
samples panics if `MaxGor` is at least 2. The start-up check lets such a `MaxLenRec` pass. -/
theorem C37_huge_tuning_violated (E : Sixb) (ws : Nat) (hw : ws = 4 ∨ ws = 8) (maxLenRec : Nat) (h1 : intLimit ws ≤ 2 * ((maxLenRec : Int) + 1))
    (h2 : maxLenRec < intLimit ws) (nanOption : Int) (depth off : Nat) (m : Mem Cell) :
    initOKM ws 3 maxLenRec 300 60 30 = true ∧
    ∃ c, (SortSliceM ⟨E, 60, 30, maxLenRec, 300, nanOption, ws, depth⟩ (.slice .int64 ⟨off, 0⟩)).Reaches 2 False m c ∧ .panic ∈ c.ths := by
  have w : Word ws (intLimit ws) := ⟨hw, rfl⟩
  have hb := w.big
  generalize intLimit ws = W at *
  refine ⟨?_, ?_⟩
  · unfold initOKM
    rw [w.wrap (by omega) (by omega)]
    simp [nsShort]
    omega
  · have hrd : ∀ i : Int, (Slice.rd ⟨off, 0⟩ i : Prog Cell (VSp Key) Cell) = .panic := by
      intro i; unfold Slice.rd; rw [if_neg]; simp
    have hpv : ∀ F : Fam Cell Key, (pivotM ws F ⟨off, 0⟩ F.nConc : Prog Cell (VSp Key) Key) = .panic := by
      intro F
      have hn : (F.nConc : Int) ≤ 8 ∧ 1 ≤ (F.nConc : Int) := by unfold Fam.nConc nsConc; split <;> simp
      unfold pivotM
      simp only [loop]
      rw [w.sub (by omega) (by omega)]
      simp only [hrd, bind_def, Prog.bind, ge_iff_le, if_pos (show (0 : Int) ≤ (F.nConc : Int) - 1 by omega)]
    have hcancel : ∀ (x : Int) (k : Nat), (x - k).bmod k = x.bmod k := by
      intro x k
      simp [Int.bmod_def]
    have hwrap : ∀ x : Int, W ≤ x → x < 2 * W → wrapInt ws x = x - 2 * W := by
      intro x h1 h2
      have := w.wrap (x := x - 2 * W) (by omega) (by omega)
      rw [← this]
      unfold wrapInt
      rw [← w.pow']
      exact (hcancel x _).symm
    have htwo : ∀ F : Fam Cell Key, F.maxRec = maxLenRec → twoRecM ws F ≤ 0 := by
      intro F hF
      unfold twoRecM
      rw [hF]
      by_cases hm : (maxLenRec : Int) + 1 < W
      · rw [w.add (by omega) hm, hwrap _ h1 (by omega)]; omega
      · unfold addI
        rw [hwrap ((maxLenRec : Int) + 1) (by omega) (by omega)]
        have e : (maxLenRec : Int) + 1 = W := by omega
        rw [e]
        have := w.wrap (x := 0) (by omega) (by omega)
        have e2 : 2 * (W - 2 * W) = 0 - 2 * W := by ring
        rw [e2]
        unfold wrapInt at this ⊢
        rw [← w.pow', hcancel, this]
    let C : Conf := ⟨E, 60, 30, maxLenRec, 300, nanOption, ws, depth⟩
    have hmain : (SortSliceM C (.slice .int64 ⟨off, 0⟩)).main = sortVM ws (fam C .I8) depth ⟨off, 0⟩ := rfl
    refine ⟨⟨⟨m, 1, true⟩, [.panic]⟩, ?_, by simp⟩
    show Steps _ (start (SortSliceM C (.slice .int64 ⟨off, 0⟩)).main m) _
    rw [hmain]
    have hsort : sortVM ws (fam C .I8) depth ⟨off, 0⟩ = .maxGor fun mg =>
        if mg ≤ 1 then insertionM ws (fam C .I8).key (fam C .I8).lt ⟨off, 0⟩ else .mkSync .panic := by
      unfold sortVM
      have := htwo (fam C .I8) rfl
      rw [if_neg (by show ¬ ((0 : Nat) : Int) < _; omega)]
      show Prog.maxGor _ = Prog.maxGor _
      congr 1
      funext mg
      simp only [bind_def, Prog.bind, pure_def, decide_eq_true_eq]
      split
      · rw [if_neg (by simp), if_neg (by simp)]
      · congr 1
        show sortLoopM ws (fam C .I8) depth 1 ⟨off, 0⟩ = .panic
        simp only [sortLoopM, partConM, hpv, bind_def, Prog.bind]
    rw [hsort]
    refine .tail (.tail (.refl _) (.tau [] [] _ _ _ _ [] (.maxGor _ _ 2 le_rfl))) ?_
    rw [if_neg (by omega)]
    exact .tau [] [] _ _ _ _ [] (.mkSync ..)

/-- C37's violation on 64-bit words: `MaxLenRec = MaxInt/2` -/
example : initOKM 8 3 (2 ^ 62 - 1) 300 60 30 = true ∧
    ∃ c, (SortSliceM { demoC with maxLenIns := 60, maxLenInsFC := 30, maxLenRec := 2 ^ 62 - 1, maxLenRecFC := 300 } (.slice .int64 ⟨5, 0⟩)).Reaches
      2 False demoInts c ∧ .panic ∈ c.ths :=
  C37_huge_tuning_violated _ 8 (.inr rfl) _ (by show (2 : Int) ^ (8 * 8 - 1) ≤ _; norm_num) (by show _ < (2 : Int) ^ (8 * 8 - 1); norm_num) _ _ _ _

/-- C37's theorem on 32-bit words: `MaxLenRec` half as large -/
example : ∃ c, (SortSliceM ⟨demoC.sixb, 60, 30, 2 ^ 30 - 2, 300, 1, 4, 64⟩ (.slice .int64 demoS)).Reaches 3 False demoInts c ∧
    AscNum (GoType.signed .int64) (demoS.view c.sh.mem) := by
  have hC : (⟨demoC.sixb, 60, 30, 2 ^ 30 - 2, 300, 1, 4, 64⟩ : Conf).OK := ⟨demoC_ok.sixb, ⟨3, by decide⟩, .inl rfl⟩
  have h1 : 2 * (((2 ^ 30 - 2 : Nat) : Int) + 1) < intLimit 4 := by show _ < (2 : Int) ^ (8 * 4 - 1); norm_num
  have h2 : ((3000 : Nat) : Int) < intLimit 4 := by show _ < (2 : Int) ^ (8 * 4 - 1); norm_num
  have J : SortJobM ⟨demoC.sixb, 60, 30, 2 ^ 30 - 2, 300, 1, 4, 64⟩ demoS demoInts _ _ :=
    .slice .int64 rfl ⟨demoInts_typed.1, demoInts_typed.2⟩ h2 (by simp [NaNSafe, GoType.float])
  obtain ⟨c, h3, h4⟩ := machine_returns hC h1 J demo_depth 3 False
  refine ⟨c, h3, (((C37_every_accepted_tuning_partial demoC.sixb demoC_ok.sixb 3 60 30 (2 ^ 30 - 2) 300 4 (.inl rfl) (by decide) h1 ?_ 1 64 J
    demo_depth 3 False).2 c h3).2.2.2 h4).1⟩
  show _ < (2 : Int) ^ (8 * 4 - 1); norm_num

end

end Sorty
