import Verif.Proofs.Stable
import Verif.Proofs.JobProps
import Verif.Props.Slice
import Verif.Props.LswWitness

/-! # Stability of short sorts -/

namespace Sorty

open Prog

variable {C : Conf} {t : GoType} {s : Slice} {m : Mem Cell} {M : Nat} {stale : Prop}

theorem fam_stable (hC : C.OK) {id : FamId} (hf : id.float = false) (hl : s.len ≤ (fam C id).maxIns) {p : Cell → Bool}
    (hp : ∀ x y, p x = true → p y = true → (fam C id).lt ((fam C id).key x) ((fam C id).key y) = false) {call : Call} {c : Cfg Cell (VSp Key)}
    (hc : call = famCall C id s) (h : call.Reaches M stale m c) (hr : Returned c) : (s.view c.sh.mem).filter p = (s.view m).filter p := by
  have hI := (famOK hC id).recOK
  have hmain : call.main = insertion (fam C id).key (fam C id).lt s := by
    subst hc
    show sortOf C id s = _
    unfold sortOf
    rw [if_neg (by cases id <;> simp [FamId.float] at hf ⊢)]
    unfold sortV
    rw [if_pos (by omega)]
    simp only [pure_def, bind_def, Prog.bind]
    rw [if_pos trivial, if_neg (by omega), if_neg (by omega)]
  unfold Call.Reaches at h
  rw [hmain] at h
  exact swp_returned (W := s.rng) (R := ∅) (insertion_stable hp subset_rfl) h hr

/-- **C55.** SortLen keeps the order of strings, or slices, of equal length if there are at most MaxLenIns of them. -/
theorem C55_sortLen_short_stable (hC : C.OK) (ht : t.hasLen = true) (hs : SliceOf C.wordSize t s m) (hl : s.len ≤ C.maxLenIns)
    {c : Cfg Cell (VSp Key)} (h : (SortLen C (.slice t s)).Reaches M stale m c) (hr : Returned c) :
    Stable Cell.length (s.view m) (s.view c.sh.mem) := by
  obtain ⟨id, hid⟩ := lfamOf_of_hasLen ht
  have h2 : id = .LenS ∨ id = .LenB := by
    cases t <;> simp only [lfamOf, Option.some.injEq, reduceCtorEq] at hid <;> subst hid <;> simp
  intro n
  refine fam_stable hC (by rcases h2 with rfl | rfl <;> rfl) (by rcases h2 with rfl | rfl <;> exact hl) ?_ (sortLen_eq hC hid s) h hr
  intro x y hx hy
  simp only [decide_eq_true_eq] at hx hy
  have e : ∀ z : Cell, lenKey z = .int z.length := by rintro (_ | _ | _ | _) <;> rfl
  have : onInt false (fun x y => decide (x < y)) (lenKey x) (lenKey y) = false := by
    rw [e, e, hx, hy]; simp [onInt]
  rcases h2 with rfl | rfl <;> exact this

theorem bytesLt_irrefl (l : List UInt8) : bytesLt l l = false := by
  induction l with
  | nil => rfl
  | cons a l ih => simp [bytesLt, ih]

/-- **C55.** SortSlice keeps the order of strings, or byte slices, with equal bytes (they may still differ in where the
bytes are stored) if there are at most MaxLenInsFC of them. -/
theorem C55_sortSlice_short_stable (hC : C.OK) (ht : t.bytes = true) (hs : SliceOf C.wordSize t s m) (hl : s.len ≤ C.maxLenInsFC)
    {c : Cfg Cell (VSp Key)} (h : (SortSlice C (.slice t s)).Reaches M stale m c) (hr : Returned c) :
    Stable Cell.bytes (s.view m) (s.view c.sh.mem) := by
  have h2 : ∃ id : FamId, famOf C.wordSize t = some id ∧ (id = .S ∨ id = .B) := by
    cases t with
    | string => exact ⟨_, rfl, .inl rfl⟩
    | slice t => cases t <;> simp [GoType.bytes] at ht; exact ⟨_, rfl, .inr rfl⟩
    | _ => simp [GoType.bytes] at ht
  obtain ⟨id, hid, h2⟩ := h2
  intro b
  refine fam_stable hC (by rcases h2 with rfl | rfl <;> rfl) (by rcases h2 with rfl | rfl <;> exact hl) ?_ (sortSlice_eq hC hid s) h hr
  intro x y hx hy
  simp only [decide_eq_true_eq] at hx hy
  have : onStr bytesLt (bytesKey x) (bytesKey y) = false := by
    cases x <;> cases y <;> simp only [bytesKey, onStr] <;> simp only [Cell.bytes] at hx hy <;> rw [hx, hy, bytesLt_irrefl]
  rcases h2 with rfl | rfl <;> exact this

/-- **C55.** Sort keeps the order of elements that the strict weak order does not distinguish if there are at most
MaxLenInsFC of them. -/
theorem C55_sort_short_stable {V : Type} {less : V → V → Prop} (hC : C.OK) (hless : StrictWeak less) (hf : FitsInt C.wordSize s.len)
    (hl : s.len ≤ C.maxLenInsFC) {m : Mem V} {c : Cfg V LSp} (h : SortReaches C s (byLess less) M stale m c) (hr : Returned c) :
    StableFor less (s.view m) (s.view c.sh.mem) := by
  have hi := conf_ineq hC
  have hw : wrapInt C.wordSize ((s.len : Int) - 1) = (s.len : Int) - 1 := by
    unfold FitsInt at hf
    rcases hC.word with hw | hw <;> rw [hw] at hf ⊢ <;> norm_num at hf <;>
      exact wrapInt_id (by simp) (by norm_num; omega) (by norm_num; omega)
  have hmain : (SortLsw C s.len s : Prog V LSp Unit) = if (s.len : Int) - 1 > 0 then lswInsertion s 0 ((s.len : Int) - 1) else pure () := by
    unfold SortLsw
    rw [hw]
    rw [if_pos (by omega)]
    simp only [pure_def, bind_def, Prog.bind]
    rw [if_pos trivial, if_neg (by omega), if_neg (by omega)]
  intro x
  unfold SortReaches at h
  rw [hmain] at h
  refine swp_returned (W := s.rng) (R := ∅) (Q := fun _ m' => (s.view m').filter _ = (s.view m).filter _) ?_ h hr
  split_ifs with h0
  · refine lswInsertion_stable (fun _ _ x y => ?_) (fun _ _ y z hyz => ?_) subset_rfl (by omega)
    · classical exact ⟨decide (less x y), by simp [lswPar, byLess]⟩
    · rintro ⟨h1, h2⟩
      simp only [decide_eq_true_eq] at h1 h2
      exact (hless.incomp y x z ⟨h1.2, h1.1⟩ h2).1 (hyz.1 rfl)
  · rfl

/-- one string of two bytes before strings of one byte; each string is stored elsewhere -/
def stabStrs : Mem Cell := fun a => .str a (List.replicate (if a = 0 then 2 else 1) 0)

theorem stabStrs_of (n : Nat) (h : n < 1000) : SliceOf demoC.wordSize .string ⟨0, n⟩ stabStrs :=
  ⟨demo_view_all fun _ => ⟨_, _, rfl⟩, by show n < 2 ^ 63; omega⟩

/-- 60 strings by length: the 59 shorter ones come first, in their order -/
example : ∃ c, (SortLen demoC (.slice .string ⟨0, 60⟩)).Reaches 3 False stabStrs c ∧ Returned c ∧
    ((Slice.mk 0 60).view c.sh.mem).filter (fun x => x.length = 1) = (Slice.mk 1 59).view stabStrs := by
  obtain ⟨c, h1, h2⟩ := sortJob_returns demoC_ok (.len .string rfl (stabStrs_of 60 (by omega))) (show DepthFor 64 60 by unfold DepthFor; decide) 3 False
  exact ⟨c, h1, h2, (C55_sortLen_short_stable demoC_ok rfl (stabStrs_of 60 (by omega)) (by decide) h1 h2 1).trans (by decide)⟩

/-- 30 strings by content -/
example : ∃ c, (SortSlice demoC (.slice .string ⟨0, 30⟩)).Reaches 3 False stabStrs c ∧ Returned c ∧
    ((Slice.mk 0 30).view c.sh.mem).filter (fun x => x.bytes = [0]) = (Slice.mk 1 29).view stabStrs := by
  obtain ⟨c, h1, h2⟩ := sortJob_returns demoC_ok (.slice .string rfl (stabStrs_of 30 (by omega)) (by simp [NaNSafe, GoType.float]))
    (show DepthFor 64 30 by unfold DepthFor; decide) 3 False
  exact ⟨c, h1, h2, (C55_sortSlice_short_stable demoC_ok rfl (stabStrs_of 30 (by omega)) (by decide) h1 h2 [0]).trans (by decide)⟩

/-- the first component decides -/
def fstLess : Nat × Nat → Nat × Nat → Prop := fun x y => x.1 < y.1

theorem fst_strictWeak : StrictWeak fstLess where
  irrefl := by simp [fstLess]
  trans := fun _ _ _ => Nat.lt_trans
  incomp := by unfold fstLess; omega

/-- a 2 before ones, with their indices -/
def stabPairs : Mem (Nat × Nat) := fun a => (if a = 0 then 2 else 1, a)

/-- 30 pairs -/
example : ∃ c, SortReaches demoC ⟨0, 30⟩ (byLess fstLess) 3 False stabPairs c ∧ Returned c ∧
    StableFor fstLess ((Slice.mk 0 30).view stabPairs) ((Slice.mk 0 30).view c.sh.mem) := by
  have hf : FitsInt demoC.wordSize (Slice.mk 0 30).len := by show 11 * (30 + 8) ≤ 10 * 2 ^ (8 * 8 - 1); norm_num
  obtain ⟨c, h1, h2⟩ := sort_returns demoC_ok fst_strictWeak.tame hf (show DepthFor 64 30 by unfold DepthFor; decide) stabPairs 3 False
  exact ⟨c, h1, h2, C55_sort_short_stable demoC_ok fst_strictWeak hf (by decide) h1 h2⟩

/-- the caller has returned; first element -/
def retAt0 {V Sp : Type} (c : Cfg V Sp) : Option V :=
  match c.ths with
  | .ret () :: _ => some (c.sh.mem 0)
  | _ => none

theorem retAt0_spec {V Sp : Type} {c : Cfg V Sp} {x : V} (h : retAt0 c = some x) : Returned c ∧ c.sh.mem 0 = x := by
  unfold retAt0 at h
  split at h
  · rename_i h1
    exact ⟨⟨_, h1⟩, by simpa using h⟩
  · simp at h

theorem stab_run1 : (run (SortLen demoC (.slice .string ⟨0, 61⟩)).body 1 (fun _ _ _ _ => none) [.run 0 190]
    (start (SortLen demoC (.slice .string ⟨0, 61⟩)).main stabStrs)).bind retAt0 = some (.str 59 [0]) := by decide +kernel

theorem stab_run2 : (run (SortSlice demoC (.slice .string ⟨0, 31⟩)).body 1 (fun _ _ _ _ => none) [.run 0 99]
    (start (SortSlice demoC (.slice .string ⟨0, 31⟩)).main stabStrs)).bind retAt0 = some (.str 29 [0]) := by decide +kernel

theorem stab_run3 : (run (lswBody demoC ⟨0, 31⟩) 1 (fun _ _ (x y : Nat × Nat) => some (decide (x.1 < y.1))) [.run 0 362]
    (start (SortLsw demoC 31 ⟨0, 31⟩) stabPairs)).bind retAt0 = some (1, 5) := by decide +kernel

theorem not_filter_eq {V : Type} {n : Nat} {m m' : Mem V} {p : V → Bool} {x y : V} (hx : m' 0 = x) (hp : p x = true)
    (hy : (((Slice.mk 0 (n + 1)).view m).filter p).head? = some y) (hxy : x ≠ y) :
    ((Slice.mk 0 (n + 1)).view m').filter p ≠ ((Slice.mk 0 (n + 1)).view m).filter p := by
  intro h
  rw [← h] at hy
  simp [Slice.view, List.range_succ_eq_map, hx, hp] at hy
  exact hxy hy

/-- **C55, the limits are exact.** With one element more than the limit, and the default settings, elements that compare
equal may change places. -/
theorem C55_longer_not_stable :
    (∃ (m : Mem Cell) (c : Cfg Cell (VSp Key)), SliceOf demoC.wordSize .string ⟨0, demoC.maxLenIns + 1⟩ m ∧
      (SortLen demoC (.slice .string ⟨0, demoC.maxLenIns + 1⟩)).Reaches 1 False m c ∧ Returned c ∧
      ¬ Stable Cell.length ((Slice.mk 0 (demoC.maxLenIns + 1)).view m) ((Slice.mk 0 (demoC.maxLenIns + 1)).view c.sh.mem)) ∧
    (∃ (m : Mem Cell) (c : Cfg Cell (VSp Key)), SliceOf demoC.wordSize .string ⟨0, demoC.maxLenInsFC + 1⟩ m ∧
      (SortSlice demoC (.slice .string ⟨0, demoC.maxLenInsFC + 1⟩)).Reaches 1 False m c ∧ Returned c ∧
      ¬ Stable Cell.bytes ((Slice.mk 0 (demoC.maxLenInsFC + 1)).view m) ((Slice.mk 0 (demoC.maxLenInsFC + 1)).view c.sh.mem)) ∧
    ∃ (m : Mem (Nat × Nat)) (c : Cfg (Nat × Nat) LSp), SortReaches demoC ⟨0, demoC.maxLenInsFC + 1⟩ (byLess fstLess) 1 False m c ∧ Returned c ∧
      ¬ StableFor fstLess ((Slice.mk 0 (demoC.maxLenInsFC + 1)).view m) ((Slice.mk 0 (demoC.maxLenInsFC + 1)).view c.sh.mem) := by
  have h1 := stab_run1
  have h2 := stab_run2
  have h3 := stab_run3
  simp only [Option.bind_eq_some_iff] at h1 h2 h3
  obtain ⟨c1, h1, h1'⟩ := h1
  obtain ⟨c2, h2, h2'⟩ := h2
  obtain ⟨c3, h3, h3'⟩ := h3
  obtain ⟨r1, e1⟩ := retAt0_spec h1'
  obtain ⟨r2, e2⟩ := retAt0_spec h2'
  obtain ⟨r3, e3⟩ := retAt0_spec h3'
  refine ⟨⟨stabStrs, c1, stabStrs_of 61 (by omega), run_sound (P := (SortLen demoC (.slice .string ⟨0, 61⟩)).par 1 False) (le_refl 1) (by simp) _ h1, r1, ?_⟩,
    ⟨stabStrs, c2, stabStrs_of 31 (by omega), run_sound (P := (SortSlice demoC (.slice .string ⟨0, 31⟩)).par 1 False) (le_refl 1) (by simp) _ h2, r2, ?_⟩,
    stabPairs, c3, run_sound (P := lswPar demoC ⟨0, 31⟩ (byLess fstLess) 1 False) (le_refl 1) ?_ _ h3, r3, ?_⟩
  · exact fun h => not_filter_eq (n := 60) (y := .str 1 [0]) e1 (by decide) (by decide) (by decide) (h 1)
  · exact fun h => not_filter_eq (n := 30) (y := .str 1 [0]) e2 (by decide) (by decide) (by decide) (h [0])
  · intro i j x y b hb
    simp only [Option.some.injEq] at hb
    simp [lswPar, byLess, fstLess, ← hb]
  · refine fun h => not_filter_eq (n := 30) (y := (1, 1)) e3 (by simp [fstLess]) ?_ (by decide) (h (1, 0))
    have : ((Slice.mk 0 31).view stabPairs).filter (fun y => decide (y.1 = 1)) = (Slice.mk 1 30).view stabPairs := by decide
    rw [List.filter_congr (q := fun y => decide (y.1 = 1)), this]
    · rfl
    · intro y _
      rw [Bool.eq_iff_iff]
      simp only [decide_eq_true_eq]
      unfold fstLess
      omega

end Sorty
