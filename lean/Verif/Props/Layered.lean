import Verif.Proofs.ValLayered
import Verif.Props.ValKiller

/-! # SortSlice and SortLen on descending slices -/

namespace Sorty

section
variable {C : Conf} {t : GoType} {s : Slice} {m : Mem Cell} {M : Nat} {stale : Prop} {c : Cfg Cell (VSp Key)} {n : Nat}

/-- elements whose ranks ascend count as sorted -/
theorem sortedFor_le {id : FamId} (hid : famOf C.wordSize t = some id) (ht : t.sortable = true) {x y : Cell} (hx : HasType C.wordSize t x)
    (hy : HasType C.wordSize t y) (hn : t.float = true → ¬ x.isNaN ∧ ¬ y.isNaN) (hxo : cok C id x) (hyo : cok C id y)
    (h : crk C id x ≤ crk C id y) : SortedFor C t [x, y] := by
  have hs : SliceOf C.wordSize t ⟨0, 2⟩ (fun a => if a = 0 then x else y) := ⟨by rw [pair_view]; simp [hx, hy], by norm_num⟩
  have := sortedFor_of hid ht hs (fun hf => .inr (.inr (by rw [pair_view]; simp [hn hf]))) (sortedAs_full (C := C) (id := id) (by
    intro a _
    show cok C id (if a = 0 then x else y)
    split_ifs
    · exact hxo
    · exact hyo) (by
    intro i j _ hij _
    show crk C id (if i = 0 then x else y) ≤ crk C id (if j = 0 then x else y)
    split_ifs
    · exact le_rfl
    · exact h
    · omega
    · exact le_rfl))
  rwa [pair_view] at this

theorem mem_runs {runs : List (List Cell)} (hv : s.view m = (runs.map List.reverse).flatten) {x : Cell} (hx : x ∈ runs.flatten) : x ∈ s.view m := by
  rw [hv]
  simp only [List.mem_flatten, List.mem_map] at hx ⊢
  obtain ⟨a, ha, hx⟩ := hx
  exact ⟨_, ⟨a, ha, rfl⟩, List.mem_reverse.2 hx⟩

/-- **C64** for SortSlice: let the slice consist of the consecutive parts `runs` of a strictly ascending sequence (for x before y in it, [y, x] is
not sorted), every part reversed; with one part it is descending, with parts of one element it is ascending. If there is no NaN and
`MaxLenRec` is below 2^32, a call of `SortSlice` with `MaxGor` at most 1, or with any `MaxGor` on a slice of at most 2·r elements, loads and
stores elements at most n(32⌈log₂ n⌉ + MaxLenIns + 5) times for n elements, r being `MaxLenRecFC` for strings and byte slices and `MaxLenRec`
otherwise. -/
theorem C64_sortSlice_descending (hC : C.OK) (h32 : C.maxLenRec < 2 ^ 32) (ht : t.sortable = true) (hs : SliceOf C.wordSize t s m)
    (hn : t.float = true → ∀ c ∈ s.view m, ¬ c.isNaN) (hd : DepthFor C.depth s.len) (runs : List (List Cell))
    (hv : s.view m = (runs.map List.reverse).flatten) (hasc : runs.flatten.Pairwise fun x y => ¬ SortedFor C t [y, x])
    (hM : M ≤ 1 ∨ s.len ≤ 2 * (if t.bytes = true then C.maxLenRecFC else C.maxLenRec))
    (h : CSteps ((SortSlice C (.slice t s)).par M stale) Prog.accs (start (SortSlice C (.slice t s)).main m) c n) :
    n ≤ s.len * (32 * Nat.clog 2 s.len + C.maxLenIns + 5) := by
  obtain ⟨id, hid⟩ := famOf_of_sortable (ws := C.wordSize) ht
  have hnan : ∀ x ∈ s.view m, id.float = true → cellNaN x = false := by
    intro x hx hf
    cases hh : cellNaN x with
    | false => rfl
    | true => exact absurd (cellNaN_iff.1 hh) (hn (by rw [← famOf_float hid]; exact hf) x hx)
  have hok : ∀ x ∈ s.view m, cok C id x := fun x hx => cok_of_type hid (hs.elems x hx) (hnan x hx)
  rw [sortSlice_eq hC hid] at h
  rw [← fam_maxRec (C := C) hid] at hM
  refine call_lay hC id h32 (by omega) hd (view_all.1 hok) (lay_of hv (hasc.imp_of_mem fun {x y} hx hy hxy => ?_)) h
  have hx := mem_runs hv hx
  have hy := mem_runs hv hy
  by_contra hc
  exact hxy (sortedFor_le hid ht (hs.elems y hy) (hs.elems x hx) (fun hf => ⟨hn hf y hy, hn hf x hx⟩) (hok y hy) (hok x hx) (not_lt.1 hc))

/-- **C64** for SortLen: the same for lengths. -/
theorem C64_sortLen_descending (hC : C.OK) (h32 : C.maxLenRec < 2 ^ 32) (ht : t.hasLen = true) (hs : SliceOf C.wordSize t s m)
    (hd : DepthFor C.depth s.len) (runs : List (List Cell))
    (hv : s.view m = (runs.map List.reverse).flatten) (hasc : runs.flatten.Pairwise fun x y => x.length < y.length)
    (hM : M ≤ 1 ∨ s.len ≤ 2 * C.maxLenRec)
    (h : CSteps ((SortLen C (.slice t s)).par M stale) Prog.accs (start (SortLen C (.slice t s)).main m) c n) :
    n ≤ s.len * (32 * Nat.clog 2 s.len + C.maxLenIns + 5) := by
  obtain ⟨id, hid⟩ := lfamOf_of_hasLen ht
  rw [sortLen_eq hC hid] at h
  have hr : (fam C id).maxRec = C.maxLenRec := by
    cases t <;> simp [GoType.hasLen] at ht <;> (simp [lfamOf] at hid; subst hid; rfl)
  rw [← hr] at hM
  refine call_lay hC id h32 (by omega) hd (fun a ha => cok_of_len hid (view_all.1 hs.elems a ha))
    (lay_of hv (hasc.imp_of_mem fun {x y} hx hy hxy => ?_)) h
  rw [crk_len hid (hs.elems x (mem_runs hv hx)), crk_len hid (hs.elems y (mem_runs hv hy))]
  by_contra hc
  have := (ascLen_of (C := C) (id := id) (s := ⟨0, 2⟩) (m := fun i => if i = 0 then y else x) hid
    ⟨by rw [pair_view]; simp [hs.elems x (mem_runs hv hx), hs.elems y (mem_runs hv hy)], by norm_num⟩).1 (by
    intro i j _ hij hj
    dsimp only
    split_ifs
    · exact le_rfl
    · rw [crk_len hid (hs.elems x (mem_runs hv hx)), crk_len hid (hs.elems y (mem_runs hv hy))]; exact not_lt.1 hc
    · omega
    · exact le_rfl)
  rw [pair_view] at this
  simp [AscLen] at this
  omega

end

/-- A million integers in descending order take at most 705 million loads and stores; n²/12 would be more than 80 billion. -/
example : ∃ c n, CSteps ((SortSlice demoC (.slice .int64 ⟨0, 1000000⟩)).par 1 False) Prog.accs
      (start (SortSlice demoC (.slice .int64 ⟨0, 1000000⟩)).main fun a => .w64 (BitVec.ofNat 64 (1000000 - a))) c n ∧ Returned c ∧ n ≤ 705000000 := by
  have hs : SliceOf demoC.wordSize .int64 ⟨0, 1000000⟩ (fun a => .w64 (BitVec.ofNat 64 (1000000 - a))) :=
    ⟨by intro c hc; obtain ⟨i, -, rfl⟩ := List.mem_map.1 hc; exact ⟨_, rfl⟩, by norm_num⟩
  have J : SortJob demoC ⟨0, 1000000⟩ (fun a => .w64 (BitVec.ofNat 64 (1000000 - a))) _ _ := .slice .int64 rfl hs (fun h => by cases h)
  have hd : DepthFor demoC.depth (⟨0, 1000000⟩ : Slice).len := by show Nat.log2 1000000 + 2 ≤ 64; decide
  obtain ⟨c, h1, h2⟩ := sortJob_returns demoC_ok J hd 1 False
  obtain ⟨n, h3⟩ := Steps.metered Prog.accs h1
  refine ⟨c, n, h3, h2, ?_⟩
  have h4 := C64_sortSlice_descending demoC_ok (by show 600 < 2 ^ 32; norm_num) rfl hs (fun h => by cases h) hd
    [((⟨0, 1000000⟩ : Slice).view fun a => Cell.w64 (BitVec.ofNat 64 (1000000 - a))).reverse] (by simp) (by
      rw [List.flatten_singleton, List.pairwise_reverse, Slice.view, List.pairwise_map]
      refine List.pairwise_lt_range.imp_of_mem fun {i j} hi hj hij h => ?_
      rw [List.mem_range] at hi hj
      have hi : i < 1000000 := hi
      have hj : j < 1000000 := hj
      have e : ∀ k, k ≤ 1000000 → (BitVec.ofNat 64 k).toInt = k := by
        intro k hk
        have h1 : (BitVec.ofNat 64 k).toNat = k := by rw [BitVec.toNat_ofNat, Nat.mod_eq_of_lt (by omega)]
        rw [BitVec.toInt_eq_toNat_of_lt (by rw [h1]; omega), h1]
      simp only [SortedFor, GoType.float, GoType.bytes, AscNum] at h
      simp [Cell.num, GoType.signed, e (1000000 - i) (by omega), e (1000000 - j) (by omega)] at h
      omega) (.inl le_rfl) h3
  have e : Nat.clog 2 1000000 = 20 := by decide +kernel
  have h5 : n ≤ 1000000 * (32 * Nat.clog 2 1000000 + 60 + 5) := h4
  rw [e] at h5
  exact h5

/-- A hundred thousand slices whose lengths descend: at most 62 million loads and stores, with one goroutine. -/
example : ∃ c n, CSteps ((SortLen demoC (.slice (.slice .int) ⟨0, 100000⟩)).par 1 False) Prog.accs
      (start (SortLen demoC (.slice (.slice .int) ⟨0, 100000⟩)).main fun a => .slc 8 (100000 - a) 100000 []) c n ∧ Returned c ∧ n ≤ 62000000 := by
  have hs : SliceOf demoC.wordSize (.slice .int) ⟨0, 100000⟩ (fun a => .slc 8 (100000 - a) 100000 []) :=
    ⟨by intro c hc; obtain ⟨i, -, rfl⟩ := List.mem_map.1 hc; exact ⟨_, _, _, _, rfl⟩, by norm_num⟩
  have J : SortJob demoC ⟨0, 100000⟩ (fun a => .slc 8 (100000 - a) 100000 []) _ _ := .len (.slice .int) rfl hs
  have hd : DepthFor demoC.depth (⟨0, 100000⟩ : Slice).len := by show Nat.log2 100000 + 2 ≤ 64; decide
  obtain ⟨c, h1, h2⟩ := sortJob_returns demoC_ok J hd 1 False
  obtain ⟨n, h3⟩ := Steps.metered Prog.accs h1
  refine ⟨c, n, h3, h2, ?_⟩
  have h4 := C64_sortLen_descending demoC_ok (by show 600 < 2 ^ 32; norm_num) rfl hs hd
    [((⟨0, 100000⟩ : Slice).view fun a => Cell.slc 8 (100000 - a) 100000 []).reverse] (by simp) (by
      rw [List.flatten_singleton, List.pairwise_reverse, Slice.view, List.pairwise_map]
      refine List.pairwise_lt_range.imp_of_mem fun {i j} hi hj hij => ?_
      rw [List.mem_range] at hi hj
      have hj : j < 100000 := hj
      simp [Cell.length]
      omega) (.inl le_rfl) h3
  have e : Nat.clog 2 100000 = 17 := by decide +kernel
  have h5 : n ≤ 100000 * (32 * Nat.clog 2 100000 + 60 + 5) := h4
  rw [e] at h5
  exact h5.trans (by norm_num)

end Sorty
