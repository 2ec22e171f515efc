import Verif.Proofs.FlatFam
import Verif.Proofs.LswFlat
import Verif.Props.Conc
import Verif.Props.Lsw

/-! # How many goroutines work at the same time

`HighSteps P M` are the steps of an execution during which every read of `MaxGor` yields at least `M`. Since such a read
yields at most `M` too, `MaxGor` is `M` throughout. -/

namespace Sorty

section
variable {C : Conf} {s : Slice} {m : Mem Cell} {M : Nat}

theorem flat_of_replicate {x : Cell} (he : s.view m = List.replicate s.len x) : ∀ a ∈ s.rng, m a = x :=
  view_all.1 fun c hc => by rw [he] at hc; exact List.eq_of_mem_replicate hc

/-- **C17, for every `MaxGor`**: let `MaxGor` be `M` ≥ 2 throughout a call of SortSlice on equal elements, none a NaN, at
least `8 * M * (MaxLenRec + 2)` of them. In some execution exactly `2 * (M - 1)` goroutines of the call work at the same
time. From `M` = 3 on that is more than the documentation allows. -/
theorem C17_bound_is_reached (hC : C.OK) {t : GoType} (ht : t.sortable = true) (hs : SliceOf C.wordSize t s m) (hd : DepthFor C.depth s.len)
    {x : Cell} (he : s.view m = List.replicate s.len x) (hx : t.float = true → ¬ x.isNaN) (hM : 2 ≤ M) (hl : 8 * M * (C.maxLenRec + 2) ≤ s.len) :
    ∃ c, HighSteps ((SortSlice C (.slice t s)).par M False) M (start (SortSlice C (.slice t s)).main m) c ∧
      working c = 2 * (M - 1) ∧ (3 ≤ M → M < working c) := by
  obtain ⟨id, hid⟩ := famOf_of_sortable (ws := C.wordSize) ht
  have hflat := flat_of_replicate he
  have hJ : SortJob C s m (SortSlice C (.slice t s)) (SortedFor C t) := .slice t ht hs fun hf => .inr (.inr fun c hc => by
    rw [he] at hc; rw [List.eq_of_mem_replicate hc]; exact hx hf)
  have hr : (fam C id).maxRec ≤ C.maxLenRec := by
    have := conf_ineq hC
    rw [fam_maxRec hid]
    split <;> omega
  have h0 : 0 < s.len := lt_of_lt_of_le (by positivity) hl
  have hnan : id.float = true → cellNaN x = false := fun hf => by
    have := hx (by rw [← famOf_float hid]; exact hf)
    rw [← cellNaN_iff] at this
    simpa using this
  have hok : cok C id x := by
    have := hs.elems x (by rw [he]; exact List.mem_replicate.2 ⟨by omega, rfl⟩)
    exact cok_of_type hid this hnan
  have key := flat_crowd hC (s := s) (m := m) (M := M) False (v := (fam C id).key x) hok
    (fun a h1 h2 => by rw [hflat a ⟨h1, h2⟩]) (fun hf a h1 h2 => by rw [hflat a ⟨h1, h2⟩]; exact hnan hf) hM
    (le_trans (Nat.mul_le_mul_left _ (by omega)) hl) hs.len
  rw [← sortSlice_eq hC hid s] at key
  obtain ⟨c, h1, h2⟩ := key
  have h3 := (C17_goroutine_bound_partial hC hJ hd not_false h1.steps).1
  exact ⟨c, h1, by omega, fun _ => by omega⟩

/-- **C17, for every `MaxGor`**: the same for SortLen. -/
theorem C17_len_bound_is_reached (hC : C.OK) {t : GoType} (ht : t.hasLen = true) (hs : SliceOf C.wordSize t s m) (hd : DepthFor C.depth s.len)
    {x : Cell} (he : s.view m = List.replicate s.len x) (hM : 2 ≤ M) (hl : 8 * M * (C.maxLenRec + 2) ≤ s.len) :
    ∃ c, HighSteps ((SortLen C (.slice t s)).par M False) M (start (SortLen C (.slice t s)).main m) c ∧
      working c = 2 * (M - 1) ∧ (3 ≤ M → M < working c) := by
  obtain ⟨id, hid⟩ := lfamOf_of_hasLen ht
  have hflat := flat_of_replicate he
  have hJ : SortJob C s m (SortLen C (.slice t s)) AscLen := .len t ht hs
  have h0 : 0 < s.len := lt_of_lt_of_le (by positivity) hl
  have hok : cok C id x := cok_of_len hid (hs.elems x (by rw [he]; exact List.mem_replicate.2 ⟨by omega, rfl⟩))
  have key := flat_crowd hC (s := s) (m := m) (M := M) False (v := (fam C id).key x) hok
    (fun a h1 h2 => by rw [hflat a ⟨h1, h2⟩]) (fun hf => by rw [lfamOf_float hid] at hf; simp at hf) hM
    (by rw [lfam_maxRec hid]; exact hl) hs.len
  rw [← sortLen_eq hC hid s] at key
  obtain ⟨c, h1, h2⟩ := key
  have h3 := (C17_goroutine_bound_partial hC hJ hd not_false h1.steps).1
  exact ⟨c, h1, by omega, fun _ => by omega⟩

theorem view_const (s : Slice) (x : Cell) : s.view (fun _ => x) = List.replicate s.len x := by simp [Slice.view, List.map_const']

/-- 50000 equal floats and `MaxGor` = 10: eighteen goroutines work at the same time -/
example : ∃ c, HighSteps ((SortSlice demoC (.slice .float64 ⟨0, 50000⟩)).par 10 False) 10
    (start (SortSlice demoC (.slice .float64 ⟨0, 50000⟩)).main fun _ => .w64 0) c ∧ working c = 18 := by
  obtain ⟨c, h1, h2, -⟩ := C17_bound_is_reached (C := demoC) (s := ⟨0, 50000⟩) (m := fun _ => .w64 0) (M := 10) (t := .float64) demoC_ok rfl
    ⟨view_all.2 fun _ _ => ⟨_, rfl⟩, by norm_num⟩ (by show Nat.log2 50000 + 2 ≤ 64; decide) (x := .w64 0)
    (view_const _ _) (fun _ => by rw [← cellNaN_iff]; decide) (by norm_num) (by norm_num [demoC, Conf.default])
  exact ⟨c, h1, h2⟩

/-- 50000 strings of equal length -/
example : ∃ c, HighSteps ((SortLen demoC (.slice .string ⟨0, 50000⟩)).par 10 False) 10
    (start (SortLen demoC (.slice .string ⟨0, 50000⟩)).main fun _ => .str 4 [1, 2]) c ∧ working c = 18 := by
  obtain ⟨c, h1, h2, -⟩ := C17_len_bound_is_reached (C := demoC) (s := ⟨0, 50000⟩) (m := fun _ => .str 4 [1, 2]) (M := 10) (t := .string) demoC_ok rfl
    ⟨view_all.2 fun _ _ => ⟨_, _, rfl⟩, by norm_num⟩ (by show Nat.log2 50000 + 2 ≤ 64; decide) (x := .str 4 [1, 2])
    (view_const _ _) (by norm_num) (by norm_num [demoC, Conf.default])
  exact ⟨c, h1, h2⟩

end

section
variable {V : Type} {C : Conf} {s : Slice} {m : Mem V} {M : Nat}

/-- **C17, for every `MaxGor`**: the same for Sort, on elements none of which is less than another, with any `lsw` that
follows the documented contract. -/
theorem C17_sort_bound_is_reached (hC : C.OK) {less : V → V → Prop} (hless : StrictWeak less) (hf : FitsInt C.wordSize s.len)
    (hd : DepthFor C.depth s.len) (he : ∀ x ∈ s.view m, ∀ y ∈ s.view m, ¬ less x y) (hM : 2 ≤ M) (hl : 8 * M * (C.maxLenRecFC + 2) ≤ s.len) :
    ∃ c, HighSteps (lswPar C s (byLess less) M False) M (start (SortLsw C s.len s) m) c ∧
      working c = 2 * (M - 1) ∧ (3 ≤ M → M < working c) := by
  have hn : Never (byLess less) m s := fun i j hi hj => by
    have h1 := view_all.1 he (s.off + i) ⟨by omega, by omega⟩
    have h2 := view_all.1 h1 (s.off + j) ⟨by omega, by omega⟩
    simpa [byLess] using h2
  obtain ⟨c, h1, h2⟩ := lflat_crowd hC False hn hf hM hl
  have h3 := (C17_sort_goroutine_bound_partial hC hless.tame hf hd not_false h1.steps).1
  exact ⟨c, h1, by omega, fun _ => by omega⟩

/-- 30000 equal numbers and `MaxGor` = 10: eighteen goroutines work at the same time -/
example : ∃ c, HighSteps (lswPar demoC ⟨0, 30000⟩ (byLess fun x y : Nat => x < y) 10 False) 10 (start (SortLsw demoC 30000 ⟨0, 30000⟩) fun _ => 7) c ∧
    working c = 18 := by
  obtain ⟨c, h1, h2, -⟩ := C17_sort_bound_is_reached (C := demoC) (s := ⟨0, 30000⟩) (m := fun _ => 7) (M := 10) demoC_ok lt_strictWeak
    (by show 11 * (30000 + 8) ≤ 10 * 2 ^ (8 * 8 - 1); norm_num) (by show Nat.log2 30000 + 2 ≤ 64; decide)
    (view_all.2 fun _ _ => view_all.2 fun _ _ => by simp) (by norm_num) (by norm_num [demoC, Conf.default])
  exact ⟨c, h1, h2⟩

end

end Sorty
