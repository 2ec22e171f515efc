import Verif.Proofs.Det
import Verif.Props.Slice
import Verif.Props.LswWitness

/-! # With one goroutine, results are reproducible

SortLen and Sort do not say how equal elements are arranged. Without concurrency the arrangement is at least a function
of the contents of the slice: not of its address, of the rest of memory or of anything else.
-/

namespace Sorty

variable {C : Conf} {t : GoType} {s s' : Slice} {M M' : Nat} {stale stale' : Prop}

/-- the two ranges of two slices -/
def detPar (s s' : Slice) (M M' : Nat) (L : Prop) : SimPar := ⟨s.off, s'.off, s.len, M, M', L⟩

theorem same_of_view {V : Type} {m m' : Mem V} {L : Prop} (h : s.view m = s'.view m') :
    s'.len = s.len ∧ (detPar s s' M M' L).Same m m' := by
  have hl : s'.len = s.len := by
    have := congrArg List.length h
    simpa [Slice.view] using this.symm
  refine ⟨hl, fun j hj => ?_⟩
  have e := congrArg (fun l => l[j]?) h
  have hj' : j < s.len := hj
  show m (s.off + j) = m' (s'.off + j)
  simpa [Slice.view, hj', hl] using e

theorem view_of_same {V : Type} {m m' : Mem V} {L : Prop} (hl : s'.len = s.len) (h : (detPar s s' M M' L).Same m m') :
    s.view m = s'.view m' := by
  unfold Slice.view
  rw [hl]
  exact List.map_congr_left fun j hj => h j (List.mem_range.1 hj)

theorem detPar_SR (hl : s'.len = s.len) {L : Prop} : SR (detPar s s' M M' L) s s' := by
  refine ⟨0, s.len, rfl, ?_, by simp [detPar]⟩
  rw [← hl]; rfl

theorem fam_det {id : FamId} {m m' : Mem Cell} {c c' : Cfg Cell (VSp Key)} {call call' : Call} (hv : s.view m = s'.view m')
    (hB : M ≤ 1 ∧ M' ≤ 1 ∨ s.len < 2 * ((fam C id).maxRec + 1)) (hc : call = famCall C id s) (hc' : call' = famCall C id s')
    (h : call.Reaches M stale m c) (h' : call'.Reaches M' stale' m' c') (hr : Returned c) (hr' : Returned c') :
    s.view c.sh.mem = s'.view c'.sh.mem := by
  subst hc; subst hc'
  obtain ⟨hl, hm⟩ := same_of_view (M := M) (M' := M') (L := False) hv
  refine view_of_same hl (sim_result (P := (famCall C id s).par M stale) (P' := (famCall C id s').par M' stale')
    (X := detPar s s' M M' False) le_rfl le_rfl (fun h => h.elim) (sim_sortOf C id (detPar_SR hl) hB) hm h h' hr hr')

/-- **C47.** SortSlice: equal contents are arranged equally if `MaxGor` is at most 1 or the slice is short, whatever the
addresses of the slices and the rest of memory are. (Strings and byte slices can be equal and yet distinguishable.) -/
theorem C47_sortSlice_reproducible (hC : C.OK) (ht : t.sortable = true) {m m' : Mem Cell} {c c' : Cfg Cell (VSp Key)}
    (hv : s.view m = s'.view m')
    (hB : M ≤ 1 ∧ M' ≤ 1 ∨ s.len < 2 * ((if t.bytes then C.maxLenRecFC else C.maxLenRec) + 1))
    (h : (SortSlice C (.slice t s)).Reaches M stale m c) (h' : (SortSlice C (.slice t s')).Reaches M' stale' m' c')
    (hr : Returned c) (hr' : Returned c') : s.view c.sh.mem = s'.view c'.sh.mem := by
  obtain ⟨id, hid⟩ := famOf_of_sortable (ws := C.wordSize) ht
  have hm := fam_maxRec (C := C) hid
  exact fam_det hv (by rw [hm]; exact hB) (sortSlice_eq hC hid _) (sortSlice_eq hC hid _) h h' hr hr'

/-- **C47** for SortLen. -/
theorem C47_sortLen_reproducible (hC : C.OK) (ht : t.hasLen = true) {m m' : Mem Cell} {c c' : Cfg Cell (VSp Key)}
    (hv : s.view m = s'.view m') (hB : M ≤ 1 ∧ M' ≤ 1 ∨ s.len < 2 * (C.maxLenRec + 1))
    (h : (SortLen C (.slice t s)).Reaches M stale m c) (h' : (SortLen C (.slice t s')).Reaches M' stale' m' c')
    (hr : Returned c) (hr' : Returned c') : s.view c.sh.mem = s'.view c'.sh.mem := by
  obtain ⟨id, hid⟩ := lfamOf_of_hasLen ht
  have hm := lfam_maxRec (C := C) hid
  exact fam_det hv (by rw [hm]; exact hB) (sortLen_eq hC hid _) (sortLen_eq hC hid _) h h' hr hr'

/-- **C47** for Sort: any comparator that repeats its answers, consistent or not. -/
theorem C47_sort_reproducible {V : Type} {cmp : Cmp V} (hcmp : Repeatable cmp) (hC : C.OK) {m m' : Mem V} {c c' : Cfg V LSp}
    (hf : FitsInt C.wordSize s.len) (hv : s.view m = s'.view m') (hB : M ≤ 1 ∧ M' ≤ 1 ∨ s.len < 2 * (C.maxLenRecFC + 1))
    (h : SortReaches C s cmp M stale m c) (h' : SortReaches C s' cmp M' stale' m' c')
    (hr : Returned c) (hr' : Returned c') : s.view c.sh.mem = s'.view c'.sh.mem := by
  obtain ⟨hl, hm⟩ := same_of_view (M := M) (M' := M') (L := True) hv
  have hw : wrapInt C.wordSize ((s.len : Int) - 1) = (s.len : Int) - 1 := by
    unfold FitsInt at hf
    rcases hC.word with hw | hw <;> rw [hw] at hf ⊢ <;> norm_num at hf <;>
      exact wrapInt_id (by simp) (by norm_num; omega) (by norm_num; omega)
  unfold SortReaches at h'
  rw [hl] at h'
  refine view_of_same hl (sim_result (P := lswPar C s cmp M stale) (P' := lswPar C s' cmp M' stale')
    (X := detPar s s' M M' True) le_rfl le_rfl (fun _ => ⟨hcmp, rfl⟩)
    (sim_sortLsw (detPar_SR hl) trivial _ (hB.imp_right fun h => by rw [hw]; omega)) hm h h' hr hr')

/-- 3000 strings at two addresses, the second among other data: one goroutine arranges them equally by length -/
example : ∃ c c', (SortLen demoC (.slice .string demoS)).Reaches 1 False demoStrs c ∧
    (SortLen demoC (.slice .string ⟨77, 3000⟩)).Reaches 0 True (fun a => if a < 77 then .str a [] else demoStrs (a - 67)) c' ∧
    Returned c ∧ Returned c' ∧ demoS.view c.sh.mem = (Slice.mk 77 3000).view c'.sh.mem := by
  have J : SortJob demoC ⟨77, 3000⟩ (fun a => if a < 77 then .str a [] else demoStrs (a - 67))
      (SortLen demoC (.slice .string ⟨77, 3000⟩)) AscLen := by
    refine .len .string rfl ⟨demo_view_all fun a => ?_, by decide⟩
    show ∃ p bs, _ = Cell.str p bs
    split
    · exact ⟨_, _, rfl⟩
    · exact ⟨_, _, rfl⟩
  obtain ⟨c, h1, h2⟩ := sortJob_returns demoC_ok (.len .string rfl demoStrs_typed) demo_depth 1 False
  obtain ⟨c', h3, h4⟩ := sortJob_returns demoC_ok J (show DepthFor 64 3000 by unfold DepthFor; decide) 0 True
  refine ⟨c, c', h1, h3, h2, h4, C47_sortLen_reproducible demoC_ok rfl ?_ (.inl ⟨by omega, by omega⟩) h1 h3 h2 h4⟩
  unfold Slice.view
  refine List.map_congr_left fun j _ => ?_
  show demoStrs (10 + j) = if 77 + j < 77 then _ else demoStrs (77 + j - 67)
  rw [if_neg (by omega)]
  congr 1
  omega

/-- 1201 floats, some of them NaNs: whatever `MaxGor` is, the resulting bits are the same -/
example : ∃ c c', (SortSlice demoC (.slice .float64 ⟨0, 1201⟩)).Reaches 1000 False demoFloats c ∧
    (SortSlice demoC (.slice .float64 ⟨0, 1201⟩)).Reaches 1 True demoFloats c' ∧
    Returned c ∧ Returned c' ∧ (Slice.mk 0 1201).view c.sh.mem = (Slice.mk 0 1201).view c'.sh.mem := by
  have J : SortJob demoC ⟨0, 1201⟩ demoFloats (SortSlice demoC (.slice .float64 ⟨0, 1201⟩)) _ :=
    .slice .float64 rfl ⟨demo_view_all fun a => ⟨_, rfl⟩, by decide⟩ (fun _ => .inl rfl)
  have hd : DepthFor demoC.depth (Slice.mk 0 1201).len := by show Nat.log2 1201 + 2 ≤ 64; decide
  obtain ⟨c, h1, h2⟩ := sortJob_returns demoC_ok J hd 1000 False
  obtain ⟨c', h3, h4⟩ := sortJob_returns demoC_ok J hd 1 True
  exact ⟨c, c', h1, h3, h2, h4, C47_sortSlice_reproducible demoC_ok rfl rfl (.inr (by decide)) h1 h3 h2 h4⟩

/-- a comparator that is far from an order, but repeats its answers -/
def oddCmp : Cmp Nat := fun i k _ _ b => b = decide (i % 3 < k % 2 ∧ i ≠ k)

theorem odd_tame : Tame oddCmp where
  answers := fun _ _ _ _ => ⟨_, rfl⟩
  strict := fun i x h => by simp [oddCmp] at h

/-- 601 numbers, an inconsistent but repeatable comparator, any number of goroutines allowed -/
example : ∃ c c', SortReaches demoC ⟨0, 601⟩ oddCmp 1000 False demoDesc c ∧ SortReaches demoC ⟨0, 601⟩ oddCmp 1 True demoDesc c' ∧
    Returned c ∧ Returned c' ∧ (Slice.mk 0 601).view c.sh.mem = (Slice.mk 0 601).view c'.sh.mem := by
  have hf : FitsInt demoC.wordSize (Slice.mk 0 601).len := by show 11 * (601 + 8) ≤ 10 * 2 ^ (8 * 8 - 1); norm_num
  have hd : DepthFor demoC.depth (Slice.mk 0 601).len := by show Nat.log2 601 + 2 ≤ 64; decide
  obtain ⟨c, h1, h2⟩ := sort_returns demoC_ok odd_tame hf hd demoDesc 1000 False
  obtain ⟨c', h3, h4⟩ := sort_returns demoC_ok odd_tame hf hd demoDesc 1 True
  exact ⟨c, c', h1, h3, h2, h4, C47_sort_reproducible (fun i k x y b b' e e' => e.trans e'.symm) demoC_ok hf rfl (.inr (by decide))
    h1 h3 h2 h4⟩

/-- the smallest thresholds the start-up check accepts -/
def tinyC : Conf := { demoC with maxLenIns := 10, maxLenInsFC := 9, maxLenRec := 22, maxLenRecFC := 21 }

theorem tinyC_ok : tinyC.OK where
  sixb := Sixb.bits_ok
  init := ⟨1, by decide⟩
  word := .inr rfl

/-- strings of five bytes, except for number 3 which has nine -/
def tinyStrs : Mem Cell := fun a => .str a (List.replicate (if a = 3 then 9 else 5) 0)

def tinyCall : Call := SortLen tinyC (.slice .string ⟨0, 46⟩)

/-- the caller has returned; data pointer of string number 3 -/
def retAt3 (c : Cfg Cell (VSp Key)) : Option Nat :=
  match c.ths, c.sh.mem 3 with
  | .ret () :: _, .str p _ => some p
  | _, _ => none

theorem retAt3_spec {c : Cfg Cell (VSp Key)} {p : Nat} (h : retAt3 c = some p) : Returned c ∧ ∃ b, c.sh.mem 3 = .str p b := by
  unfold retAt3 at h
  split at h
  · rename_i h1 h2
    simp only [Option.some.injEq] at h
    subst h
    exact ⟨⟨_, h1⟩, _, h2⟩
  · simp at h

theorem tiny_run1 : (run tinyCall.body 1 (fun _ _ _ _ => none) [.run 0 263] (start tinyCall.main tinyStrs)).bind retAt3 = some 41 := by
  decide +kernel

theorem tiny_run2 : (run tinyCall.body 2 (fun _ _ _ _ => none) [.run 0 38, .run 1 23, .comm 1, .run 0 204]
    (start tinyCall.main tinyStrs)).bind retAt3 = some 42 := by decide +kernel

/-- **C47, the restriction to one goroutine is needed.** SortLen may arrange 46 strings differently with `MaxGor` 1 and 2. -/
theorem C47_concurrent_arrangement_may_differ : ∃ (s : Slice) (m : Mem Cell) (c c' : Cfg Cell (VSp Key)),
    SliceOf tinyC.wordSize .string s m ∧ (SortLen tinyC (.slice .string s)).Reaches 1 False m c ∧
    (SortLen tinyC (.slice .string s)).Reaches 2 False m c' ∧ Returned c ∧ Returned c' ∧ s.view c.sh.mem ≠ s.view c'.sh.mem := by
  have h1 := tiny_run1
  have h2 := tiny_run2
  simp only [Option.bind_eq_some_iff] at h1 h2
  obtain ⟨c, h1, h1'⟩ := h1
  obtain ⟨c', h2, h2'⟩ := h2
  obtain ⟨r1, b1, e1⟩ := retAt3_spec h1'
  obtain ⟨r2, b2, e2⟩ := retAt3_spec h2'
  refine ⟨⟨0, 46⟩, tinyStrs, c, c', ⟨demo_view_all fun _ => ⟨_, _, rfl⟩, by decide⟩,
    run_sound (P := tinyCall.par 1 False) (le_refl 1) (by simp) _ h1,
    run_sound (P := tinyCall.par 2 False) (le_refl 2) (by simp) _ h2, r1, r2, fun h => ?_⟩
  have e := congrArg (fun l => l[3]?) h
  simp [Slice.view, e1, e2] at e

end Sorty
