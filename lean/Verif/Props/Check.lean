import Verif.Proofs.Check
import Verif.Props.Slice

/-! # Properties of IsSortedSlice and IsSortedLen -/

namespace Sorty

open Prog

variable {C : Conf} {t : GoType} {s : Slice} {m : Mem Cell} {M : Nat} {stale : Prop} {c : Cfg Cell (VSp Key)}

/-- **C21.** On integers, pointers, strings and byte slices IsSortedSlice stores nothing, does not panic and returns:
0 exactly if the slice is ascending; otherwise some valid `i > 0` with `ar[i] < ar[i-1]`. -/
theorem C21_isSortedSlice_exact (hC : C.OK) (ht : t.sortable = true) (hf : t.float = false) (hs : SliceOf C.wordSize t s m) :
    ∃ i, Answers (IsSortedSlice C (.slice t s)) m i ∧ (i = 0 ↔ SortedFor C t (s.view m)) ∧
      (i ≠ 0 → PairAt (s.view m) i (LtFor t)) := by
  obtain ⟨id, h⟩ := famOf_of_sortable (ws := C.wordSize) ht
  rw [isSortedSlice_eq hC h]
  have hfi : id.float = false := by rw [famOf_float h, hf]
  have hok : ∀ a ∈ s.rng, cok C id (m a) := fun a ha =>
    cok_of_type h (view_all.1 hs.elems a ha) (by simp [hfi])
  obtain ⟨i, h1, h2, h3⟩ := isSortedOf_answers hC hfi hok
  refine ⟨i, h1, ?_, fun hi => (h3 hi).imp fun x hx y hy hxy => ?_⟩
  · rw [h2, SortedFor, if_neg (by simp [hf])]
    by_cases hb : t.bytes = true
    · rw [if_pos hb]; exact ascBytes_of h hb hs
    · rw [if_neg hb]
      refine ascNum_of h ?_ hs
      simp [GoType.sortable, hf, hb] at ht
      exact ht
  · unfold LtFor
    by_cases hb : t.bytes = true
    · rw [if_pos hb]
      rw [crk_bytes h hb (hs.elems x hx), crk_bytes h hb (hs.elems y hy), ← not_le, rkStr_le, not_le, ← bytes_lt_map] at hxy
      exact hxy
    · rw [if_neg hb]
      have ht' : t.signed = true ∨ t.unsigned = true := by
        simp [GoType.sortable, hf, hb] at ht
        exact ht
      rw [crk_num h ht' (hs.elems x hx), crk_num h ht' (hs.elems y hy), ← not_le, rkNum_le, not_le] at hxy
      exact hxy

/-- 3000 descending integers: a pair out of order is reported -/
example : ∃ i, Answers (IsSortedSlice demoC (.slice .int64 demoS)) demoInts i ∧ i ≠ 0 ∧
    PairAt (demoS.view demoInts) i (LtFor .int64) := by
  obtain ⟨i, h1, h2, h3⟩ := C21_isSortedSlice_exact demoC_ok rfl rfl demoInts_typed
  have hne : i ≠ 0 := by
    rw [Ne, h2]
    intro h
    unfold SortedFor at h
    rw [if_neg (by decide), if_neg (by decide), AscNum, List.pairwise_map] at h
    have := List.pairwise_iff_getElem.1 h 0 1 (by simp [Slice.view, demoS]) (by simp [Slice.view, demoS]) (by decide)
    revert this
    simp only [Slice.view, demoS, demoInts, List.getElem_map, List.getElem_range]
    decide
  exact ⟨i, h1, hne, h3 hne⟩

/-- **C22.** On floats IsSortedSlice stores nothing, does not panic and returns: with NaNlarge (NaNsmall), 0 exactly if
the numbers are ascending and all NaNs are behind (in front of) them; with NaNignore (any other option value), 0 exactly
if each element is `>=` the one before it. If it returns `i ≠ 0`, then `i > 0` is a valid index and `ar[i] >= ar[i-1]`
is false. -/
theorem C22_isSortedSlice_floats (hC : C.OK) (ht : t.float = true) (hs : SliceOf C.wordSize t s m) :
    ∃ i, Answers (IsSortedSlice C (.slice t s)) m i ∧
      (C.nanOption = 1 → (i = 0 ↔ ∃ k ≤ s.len, AscFloat ((s.view m).take k) ∧ AllNaN ((s.view m).drop k))) ∧
      (C.nanOption = -1 → (i = 0 ↔ ∃ k ≤ s.len, AllNaN ((s.view m).take k) ∧ AscFloat ((s.view m).drop k))) ∧
      (C.nanOption ≠ 1 → C.nanOption ≠ -1 →
        (i = 0 ↔ ∀ j x y, (s.view m)[j]? = some y → (s.view m)[j + 1]? = some x → FGe x y)) ∧
      (i ≠ 0 → PairAt (s.view m) i fun x y => ¬ FGe x y) := by
  obtain ⟨id, h⟩ := famOf_of_sortable (ws := C.wordSize) (t := t) (by simp [GoType.sortable, ht])
  have hid : id = .F4 ∨ id = .F8 := by
    have := famOf_float h
    rw [ht] at this
    cases id <;> simp [FamId.float] at this <;> simp
  rw [isSortedSlice_eq hC h, isSortedOf, if_pos hid]
  obtain ⟨i, h1, h2, l, h, h3, h4, h5, h6, h7, h8, h9, h10⟩ := isSortedF_answers ht hs
  refine ⟨i, h1, fun ho => ?_, fun ho => ?_, fun o1 o2 => ?_, h2⟩
  · obtain ⟨a1, a2⟩ := h8 ho
    obtain rfl := h6 (by omega)
    rw [h10]
    constructor
    · intro hj
      refine ⟨(h + 1).toNat, by omega, ?_, ?_⟩
      · rw [view_take _ _ _ (by omega), ascFloat_iff]
        refine ⟨fun j b1 b2 => ?_, fun j b1 b2 => (hj j b1 (by dsimp only at b2; omega)).2.2⟩
        dsimp only at b2
        show ¬ (s.E m j).isNaN
        by_cases hz : j = h
        · subst hz; exact a2 b1
        · have := (hj (j + 1) (by omega) (by omega)).2.1
          rwa [show j + 1 - 1 = j by omega] at this
      · rw [view_drop _ _ _ (by omega)]
        refine view_all.2 fun a ha => ?_
        simp only [Slice.rng, Set.mem_ofPred_eq] at ha
        have := a1 ((a - s.off : Nat) : Int) (by omega) (by omega)
        simp only [Slice.E] at this
        rwa [show s.off + ((a - s.off : Nat) : Int).toNat = a by omega] at this
    · rintro ⟨k, b1, b2, b3⟩ j c1 c2
      rw [view_take _ _ _ b1, ascFloat_iff] at b2
      obtain ⟨b4, b5⟩ := b2
      rw [view_drop _ _ _ b1] at b3
      have b6 := view_all.1 b3
      have hk : h < k := by
        by_contra hc
        refine a2 (by omega) (b6 _ ?_)
        simp only [Slice.rng, Set.mem_ofPred_eq]; omega
      refine ⟨b4 j (by omega) (by dsimp only; omega), b4 (j - 1) (by omega) (by dsimp only; omega), b5 j (by omega) (by dsimp only; omega)⟩
  · obtain ⟨a1, a2⟩ := h9 ho
    have hh := h7 (by omega)
    rw [h10]
    have hE : ∀ (k : Nat) (j : Int), 0 ≤ j → (⟨s.off + k, s.len - k⟩ : Slice).E m j = s.E m (j + k) := fun k j hj => by
      simp only [Slice.E]; congr 1; omega
    constructor
    · intro hj
      refine ⟨l.toNat, by omega, ?_, ?_⟩
      · rw [view_take _ _ _ (by omega)]
        refine view_all.2 fun a ha => ?_
        simp only [Slice.rng, Set.mem_ofPred_eq] at ha
        have := a1 ((a - s.off : Nat) : Int) (by omega) (by omega)
        simp only [Slice.E] at this
        rwa [show s.off + ((a - s.off : Nat) : Int).toNat = a by omega] at this
      · rw [view_drop _ _ _ (by omega), ascFloat_iff]
        refine ⟨fun j b1 b2 => ?_, fun j b1 b2 => ?_⟩
        · dsimp only at b2
          rw [hE _ _ b1]
          by_cases hz : j = 0
          · subst hz
            rw [show (0 : Int) + (l.toNat : Int) = l by omega]
            exact a2 (by omega)
          · exact (hj (j + l.toNat) (by omega) (by omega)).1
        · dsimp only at b2
          rw [hE _ _ (by omega), hE _ _ (by omega)]
          have := (hj (j + l.toNat) (by omega) (by omega)).2.2
          rwa [show j + (l.toNat : Int) - 1 = j - 1 + l.toNat by omega] at this
    · rintro ⟨k, b1, b2, b3⟩ j c1 c2
      rw [view_drop _ _ _ b1, ascFloat_iff] at b3
      obtain ⟨b4, b5⟩ := b3
      dsimp only at b4 b5
      rw [view_take _ _ _ b1] at b2
      have b6 := view_all.1 b2
      have hk : (k : Int) ≤ l := by
        by_contra hc
        refine a2 (by omega) (b6 _ ?_)
        simp only [Slice.rng, Set.mem_ofPred_eq]; omega
      have e1 := b4 (j - k) (by omega) (by omega)
      have e2 := b4 (j - 1 - k) (by omega) (by omega)
      have e3 := b5 (j - k) (by omega) (by omega)
      rw [hE _ _ (by omega)] at e1 e2 e3
      rw [hE _ _ (by omega)] at e3
      rw [show j - (k : Int) + k = j by omega] at e1 e3
      rw [show j - 1 - (k : Int) + k = j - 1 by omega] at e2
      rw [show j - (k : Int) - 1 + k = j - 1 by omega] at e3
      exact ⟨e1, e2, e3⟩
  · obtain rfl := h6 o2
    have hh := h7 o1
    rw [h10]
    constructor
    · intro hj n x y hy hx
      have hn : n + 1 < s.len := by
        by_contra hc
        rw [List.getElem?_eq_none (by rw [view_length]; omega)] at hx
        simp at hx
      rw [view_get s m _ (by omega)] at hx hy
      simp only [Option.some.injEq] at hx hy
      subst hx hy
      have := hj ((n + 1 : Nat) : Int) (by omega) (by omega)
      simp only [Slice.E] at this
      rwa [show ((n + 1 : Nat) : Int).toNat = n + 1 by omega, show (((n + 1 : Nat) : Int) - 1).toNat = n by omega] at this
    · intro hj j c1 c2
      have := hj (j - 1).toNat _ _ (view_get s m _ (by omega)) (view_get s m _ (by omega))
      rw [show (j - 1).toNat + 1 = j.toNat by omega] at this
      exact this

/-- NaNs scattered among 3000 floats are reported under NaNlarge -/
example : ∃ i, Answers (IsSortedSlice { demoC with nanOption := 1 } (.slice .float64 demoS)) demoFloats i ∧
    (i ≠ 0 → PairAt (demoS.view demoFloats) i fun x y => ¬ FGe x y) := by
  obtain ⟨i, h1, -, -, -, h2⟩ := C22_isSortedSlice_floats (demoC_ok' 1) rfl (demoFloats_typed 1)
  exact ⟨i, h1, h2⟩

/-- **C23.** IsSortedLen stores nothing, does not panic and returns: 0 exactly if lengths are ascending; otherwise some
valid `i > 0` with `len(ar[i]) < len(ar[i-1])`. -/
theorem C23_isSortedLen_exact (hC : C.OK) (ht : t.hasLen = true) (hs : SliceOf C.wordSize t s m) :
    ∃ i, Answers (IsSortedLen C (.slice t s)) m i ∧ (i = 0 ↔ AscLen (s.view m)) ∧
      (i ≠ 0 → PairAt (s.view m) i fun x y => x.length < y.length) := by
  obtain ⟨id, h⟩ := lfamOf_of_hasLen ht
  rw [isSortedLen_eq hC h]
  have hok : ∀ a ∈ s.rng, cok C id (m a) := fun a ha => cok_of_len h (view_all.1 hs.elems a ha)
  obtain ⟨i, h1, h2, h3⟩ := isSortedOf_answers hC (lfamOf_float h) hok
  refine ⟨i, h1, h2.trans (ascLen_of h hs), fun hi => (h3 hi).imp fun x hx y hy hxy => ?_⟩
  rw [crk_len h (hs.elems x hx), crk_len h (hs.elems y hy), ← not_le, rkNum_le, not_le] at hxy
  exact_mod_cast hxy

example : ∃ i, Answers (IsSortedLen demoC (.slice .string demoS)) demoStrs i ∧
    (i ≠ 0 → PairAt (demoS.view demoStrs) i fun x y => x.length < y.length) := by
  obtain ⟨i, h1, -, h2⟩ := C23_isSortedLen_exact demoC_ok rfl demoStrs_typed
  exact ⟨i, h1, h2⟩

/-- **C19** (the part about IsSorted*). On a slice of any documented type, whatever its contents, IsSortedSlice and
IsSortedLen return: no index is out of range, nothing panics. -/
theorem C19_isSorted_no_panic (hC : C.OK) (hs : SliceOf C.wordSize t s m) :
    (t.sortable = true → ∃ i, Answers (IsSortedSlice C (.slice t s)) m i) ∧
      (t.hasLen = true → ∃ i, Answers (IsSortedLen C (.slice t s)) m i) := by
  refine ⟨fun ht => ?_, fun ht => ?_⟩
  · cases hf : t.float with
    | false => obtain ⟨i, h, _⟩ := C21_isSortedSlice_exact hC ht hf hs; exact ⟨i, h⟩
    | true => obtain ⟨i, h, _⟩ := C22_isSortedSlice_floats hC hf hs; exact ⟨i, h⟩
  · obtain ⟨i, h, _⟩ := C23_isSortedLen_exact hC ht hs; exact ⟨i, h⟩

example : ∃ i, Answers (IsSortedSlice demoC (.slice .string demoS)) demoStrs i :=
  (C19_isSorted_no_panic demoC_ok demoStrs_typed).1 rfl

theorem Answers.unique {f : Prog Cell (VSp Key) Int} {i j : Int} (h1 : Answers f m i) (h2 : Answers f m j) : i = j :=
  Option.some.inj (h1.1.symm.trans h2.1)

/-- **C25.** In the memory SortSlice returns with, IsSortedSlice returns 0; floats may have NaNs if the option is
NaNlarge or NaNsmall. -/
theorem C25_sortSlice_then_check (hC : C.OK) (ht : t.sortable = true) (hs : SliceOf C.wordSize t s m)
    (hn : NaNSafe C t (s.view m)) (hd : DepthFor C.depth s.len)
    (hr : (SortSlice C (.slice t s)).Reaches M stale m c) (hret : Returned c) :
    Answers (IsSortedSlice C (.slice t s)) c.sh.mem 0 := by
  obtain ⟨hsorted, hperm⟩ := job_outcome hC (.slice t ht hs hn) hd hr.toE hret
  have hs' := hs.of_perm hperm
  cases hf : t.float with
  | false =>
    obtain ⟨i, h1, h2, -⟩ := C21_isSortedSlice_exact hC ht hf hs'
    rwa [h2.2 hsorted] at h1
  | true =>
    obtain ⟨i, h1, h2, h3, h4, -⟩ := C22_isSortedSlice_floats hC hf hs'
    unfold SortedFor at hsorted
    rw [if_pos hf] at hsorted
    by_cases o1 : C.nanOption = 1
    · rw [if_pos o1, view_length] at hsorted
      rwa [(h2 o1).2 hsorted] at h1
    · rw [if_neg o1] at hsorted
      by_cases o2 : C.nanOption = -1
      · rw [if_pos o2, view_length] at hsorted
        rwa [(h3 o2).2 hsorted] at h1
      · rw [if_neg o2] at hsorted
        refine (h4 o1 o2).2 (fun j x y hy hx => ?_) ▸ h1
        obtain ⟨a1, a2⟩ := hsorted
        rw [List.pairwise_map, List.pairwise_iff_getElem] at a2
        obtain ⟨b1, rfl⟩ := List.getElem?_eq_some_iff.1 hx
        obtain ⟨b2, rfl⟩ := List.getElem?_eq_some_iff.1 hy
        exact ⟨a1 _ (List.getElem_mem _), a1 _ (List.getElem_mem _), a2 j (j + 1) b2 b1 (by omega)⟩

example : ∃ c, (SortSlice { demoC with nanOption := -1 } (.slice .float64 demoS)).Reaches 5 False demoFloats c ∧ Returned c ∧
    Answers (IsSortedSlice { demoC with nanOption := -1 } (.slice .float64 demoS)) c.sh.mem 0 := by
  obtain ⟨c, h1, h2⟩ := sortJob_returns (demoC_ok' (-1)) (demoFloats_job (-1) (.inr rfl)) (demo_depth' (-1)) 5 False
  exact ⟨c, h1, h2, C25_sortSlice_then_check (demoC_ok' (-1)) rfl (demoFloats_typed (-1)) (fun _ => by simp) (demo_depth' (-1)) h1 h2⟩

/-- **C25** for SortLen and IsSortedLen. -/
theorem C25_sortLen_then_check (hC : C.OK) (ht : t.hasLen = true) (hs : SliceOf C.wordSize t s m)
    (hd : DepthFor C.depth s.len) (hr : (SortLen C (.slice t s)).Reaches M stale m c) (hret : Returned c) :
    Answers (IsSortedLen C (.slice t s)) c.sh.mem 0 := by
  obtain ⟨hsorted, hperm⟩ := job_outcome hC (.len t ht hs) hd hr.toE hret
  obtain ⟨i, h1, h2, -⟩ := C23_isSortedLen_exact hC ht (hs.of_perm hperm)
  rwa [h2.2 hsorted] at h1

example : ∃ c, (SortLen demoC (.slice .string demoS)).Reaches 5 False demoStrs c ∧ Returned c ∧
    Answers (IsSortedLen demoC (.slice .string demoS)) c.sh.mem 0 := by
  obtain ⟨c, h1, h2⟩ := sortJob_returns demoC_ok demoLens_job demo_depth 5 False
  exact ⟨c, h1, h2, C25_sortLen_then_check demoC_ok rfl demoStrs_typed demo_depth h1 h2⟩

end Sorty
