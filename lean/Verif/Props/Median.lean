import Verif.Proofs.Median
import Verif.Props.Slice
import Mathlib.Tactic.IntervalCases

/-! # Properties of pivot selection -/

namespace Sorty

variable {C : Conf} {t : GoType} {id : FamId} {s : Slice} {m : Mem Cell}

theorem chooses_pivot {ρ : Type} {le : ρ → ρ → Prop} {value : Cell → ρ} {pivotValue : Key → ρ} (hC : C.OK)
    (hok : ∀ c ∈ s.view m, cok C id c)
    (h1 : ∀ c ∈ s.view m, ∀ p, okOf id p → crk C id c ≤ rkOf id p → le (value c) (pivotValue p))
    (h2 : ∀ c ∈ s.view m, ∀ p, okOf id p → rkOf id p ≤ crk C id c → le (pivotValue p) (value c))
    {n : Nat} (hn : 2 ≤ n) (hodd : (fam C id).mean = none ∨ n % 2 = 0) (hl : 2 * n ≤ s.len) :
    ChoosesMedian le value pivotValue s m n (pivot (fam C id) s n) := by
  obtain ⟨p, e, -, hp, σ, s', hm⟩ := swp_observe (less := fun _ _ _ _ => false) (cmp := fun _ _ _ _ _ => True) (fun _ _ _ _ => trivial)
    (pivot_mid (W := ∅) (R := s.rng) (Sp := VSp Key) (famOK hC id) (by simp) hn hl (m0 := m) (fun a ha => view_all.1 hok a ha))
  obtain ⟨g1, g2⟩ := hm.half hn hl hodd
  have hsub : ∀ c ∈ picks (s.view m) (minMaxSample s.len n).1 (minMaxSample s.len n).2.1 n, c ∈ s.view m := by
    intro c hc
    obtain ⟨j, -, hj⟩ := List.mem_filterMap.1 hc
    exact List.mem_of_getElem? hj
  exact ⟨p, _, _, e, wellSpread hn hl, picks_length hn hl, g1.mono fun c hc h => h1 c (hsub c hc) p hp h,
    g2.mono fun c hc h => h2 c (hsub c hc) p hp h⟩

theorem chooses_short {ρ : Type} {le : ρ → ρ → Prop} {value : Cell → ρ} {pivotValue : Key → ρ} (hC : C.OK)
    (hok : ∀ c ∈ s.view m, cok C id c)
    (h1 : ∀ c ∈ s.view m, ∀ p, okOf id p → crk C id c ≤ rkOf id p → le (value c) (pivotValue p))
    (h2 : ∀ c ∈ s.view m, ∀ p, okOf id p → rkOf id p ≤ crk C id c → le (pivotValue p) (value c))
    {n : Nat} (hn : n = if (fam C id).mean.isSome then 4 else 3) (hl : 2 * n ≤ s.len) (h32 : (fam C id).mean.isSome → s.len < 2 ^ 32) :
    ChoosesMedian le value pivotValue s m n (shortPivot (fam C id) s) := by
  have hsub : ∀ c ∈ picks (s.view m) (minMaxSample s.len n).1 (minMaxSample s.len n).2.1 n, c ∈ s.view m := by
    intro c hc
    obtain ⟨j, -, hj⟩ := List.mem_filterMap.1 hc
    exact List.mem_of_getElem? hj
  have hn2 : 2 ≤ n := by split_ifs at hn <;> omega
  have key : swp (fun _ _ _ _ _ => True) ∅ s.rng (shortPivot (fam C id) s : Prog Cell (VSp Key) Key) m fun pv m' => m' = m ∧ okOf id pv ∧
      Half (fun c => rkOf id ((fam C id).key c) ≤ rkOf id pv) (picks (s.view m) (minMaxSample s.len n).1 (minMaxSample s.len n).2.1 n) ∧
      Half (fun c => rkOf id pv ≤ rkOf id ((fam C id).key c)) (picks (s.view m) (minMaxSample s.len n).1 (minMaxSample s.len n).2.1 n) := by
    unfold shortPivot
    cases hf : (fam C id).mean with
    | none =>
      simp only [hf, Option.isSome_none, Bool.false_eq_true, if_false] at hn
      subst hn
      exact shortPivot3_half (famOK hC id) (by simp) hl (fun a ha => view_all.1 hok a ha)
    | some f =>
      simp only [hf, Option.isSome_some, if_true, true_implies] at hn h32
      subst hn
      exact shortPivot4_half (famOK hC id) (by simp) hf hl h32 (fun a ha => view_all.1 hok a ha)
  obtain ⟨p, e, -, hp, g1, g2⟩ := swp_observe (less := fun _ _ _ _ => false) (fun _ _ _ _ => trivial) key
  exact ⟨p, _, _, e, wellSpread hn2 hl, picks_length hn2 hl, g1.mono fun c hc h => h1 c (hsub c hc) p hp h,
    g2.mono fun c hc h => h2 c (hsub c hc) p hp h⟩

/-- rank of a key of an integer family -/
theorem rk_num (h : famOf C.wordSize t = some id) (ht : t.signed = true ∨ t.unsigned = true) {p : Key} (hp : okOf id p) :
    rkOf id p = rkNum (p.num t.signed) := by
  have hsg : (t.signed = true → id = .I4 ∨ id = .I8) ∧ (t.unsigned = true → (id = .U4 ∨ id = .U8) ∧ t.signed = false) := by
    cases t <;> simp [GoType.signed, GoType.unsigned] <;> simp [famOf] at h <;> subst h <;> (try split_ifs) <;> simp
  rcases ht with ht | ht
  · rcases hsg.1 ht with rfl | rfl <;> cases p <;> first | exact hp.elim | simp [rkOf, Key.num, ht]
  · obtain ⟨h1, h2⟩ := hsg.2 ht
    rcases h1 with rfl | rfl <;> cases p <;> first | exact hp.elim | simp [rkOf, Key.num, h2]

theorem rk_float (h : famOf C.wordSize t = some id) (ht : t.float = true) {p : Key} (hp : okOf id p) : rkOf id p = rkNum p.fval := by
  cases t <;> simp [GoType.float] at ht <;> (simp [famOf] at h; subst h; cases p) <;>
    first | exact hp.elim | simp [rkOf, Key.fval, fkey, fsign, fmag]

theorem rk_bytes (h : famOf C.wordSize t = some id) (ht : t.bytes = true) {p : Key} (hp : okOf id p) :
    rkOf id p = rkStr (p.bytes.map UInt8.toNat) := by
  cases t <;> simp [GoType.bytes] at ht
  · rename_i t
    cases t <;> simp at ht
    simp [famOf] at h; subst h
    cases p <;> first | exact hp.elim | simp [rkOf, Key.bytes]
  · simp [famOf] at h; subst h
    cases p <;> first | exact hp.elim | simp [rkOf, Key.bytes]

theorem rk_len (h : lfamOf t = some id) {p : Key} (hp : okOf id p) : rkOf id p = rkNum p.length := by
  cases t <;> simp [lfamOf] at h <;> subst h <;> cases p <;> first | exact hp.elim | simp [rkOf, Key.length]

/-- **C49, integers.** The pivot of concurrent partitioning (ranges of 16 and more), of long ranges (12 and more) and of short ranges
(8 and more, below 2^32) is a median of eight, six or four best spread samples of the range. -/
theorem C49_pivot_ints (hC : C.OK) (ht : t.signed = true ∨ t.unsigned = true) (hs : SliceOf C.wordSize t s m)
    (hid : sliceFam (elemKind C.wordSize t) = some id) :
    (16 ≤ s.len → ChoosesMedian (· ≤ ·) (Cell.num t.signed) (Key.num t.signed) s m 8 (pivot (fam C id) s (fam C id).nConc)) ∧
    (12 ≤ s.len → ChoosesMedian (· ≤ ·) (Cell.num t.signed) (Key.num t.signed) s m 6 (pivot (fam C id) s (fam C id).nLong)) ∧
    (8 ≤ s.len → s.len < 2 ^ 32 →
      ChoosesMedian (· ≤ ·) (Cell.num t.signed) (Key.num t.signed) s m 4 (shortPivot (fam C id) s)) := by
  rw [sliceFam_elemKind hC.word] at hid
  have hf : t.float = false := by
    rcases ht with h | h <;> cases t <;> simp [GoType.signed, GoType.unsigned] at h <;> rfl
  have hok : ∀ c ∈ s.view m, cok C id c := fun c hc => cok_of_type hid (hs.elems c hc) (by rw [famOf_float hid, hf]; simp)
  have h1 : ∀ c ∈ s.view m, ∀ p, okOf id p → crk C id c ≤ rkOf id p → c.num t.signed ≤ p.num t.signed := by
    intro c hc p hp h
    rwa [crk_num hid ht (hs.elems c hc), rk_num hid ht hp, rkNum_le] at h
  have h2 : ∀ c ∈ s.view m, ∀ p, okOf id p → rkOf id p ≤ crk C id c → p.num t.signed ≤ c.num t.signed := by
    intro c hc p hp h
    rwa [crk_num hid ht (hs.elems c hc), rk_num hid ht hp, rkNum_le] at h
  have hm : (fam C id).mean.isSome = true := by
    rcases ht with h | h <;> cases t <;> simp [GoType.signed, GoType.unsigned] at h <;> simp [famOf] at hid <;> subst hid <;>
      (try split_ifs) <;> rfl
  refine ⟨fun hl => ?_, fun hl => ?_, fun hl h32 => ?_⟩
  · have : (fam C id).nConc = 8 := by simp [Fam.nConc, hm, nsConc]
    rw [this]; exact chooses_pivot hC hok h1 h2 (by omega) (.inr rfl) hl
  · have : (fam C id).nLong = 6 := by simp [Fam.nLong, hm, nsLong]
    rw [this]; exact chooses_pivot hC hok h1 h2 (by omega) (.inr rfl) hl
  · exact chooses_short hC hok h1 h2 (by simp [hm]) hl fun _ => h32

/-- **C49, floats.** Without NaNs, the pivots of floats are medians of seven (ranges of 14 and more), five (10 and more) and three
(6 and more) best spread samples. -/
theorem C49_pivot_floats (hC : C.OK) (ht : t.float = true) (hs : SliceOf C.wordSize t s m) (hn : ∀ c ∈ s.view m, ¬ c.isNaN)
    (hid : sliceFam (elemKind C.wordSize t) = some id) :
    (14 ≤ s.len → ChoosesMedian (· ≤ ·) Cell.fval Key.fval s m 7 (pivot (fam C id) s (fam C id).nConc)) ∧
    (10 ≤ s.len → ChoosesMedian (· ≤ ·) Cell.fval Key.fval s m 5 (pivot (fam C id) s (fam C id).nLong)) ∧
    (6 ≤ s.len → ChoosesMedian (· ≤ ·) Cell.fval Key.fval s m 3 (shortPivot (fam C id) s)) := by
  rw [sliceFam_elemKind hC.word] at hid
  have hok : ∀ c ∈ s.view m, cok C id c := fun c hc => cok_of_type hid (hs.elems c hc) fun _ => by
    rw [← Bool.not_eq_true, cellNaN_iff]; exact hn c hc
  have h1 : ∀ c ∈ s.view m, ∀ p, okOf id p → crk C id c ≤ rkOf id p → c.fval ≤ p.fval := by
    intro c hc p hp h
    rwa [crk_float hid ht (hs.elems c hc), rk_float hid ht hp, rkNum_le] at h
  have h2 : ∀ c ∈ s.view m, ∀ p, okOf id p → rkOf id p ≤ crk C id c → p.fval ≤ c.fval := by
    intro c hc p hp h
    rwa [crk_float hid ht (hs.elems c hc), rk_float hid ht hp, rkNum_le] at h
  have hm : (fam C id).mean = none := by
    cases t <;> simp [GoType.float] at ht <;> simp [famOf] at hid <;> subst hid <;> rfl
  refine ⟨fun hl => ?_, fun hl => ?_, fun hl => ?_⟩
  · have : (fam C id).nConc = 7 := by simp [Fam.nConc, hm, nsConc]
    rw [this]; exact chooses_pivot hC hok h1 h2 (by omega) (.inl hm) hl
  · have : (fam C id).nLong = 5 := by simp [Fam.nLong, hm, nsLong]
    rw [this]; exact chooses_pivot hC hok h1 h2 (by omega) (.inl hm) hl
  · exact chooses_short hC hok h1 h2 (by simp [hm]) hl (by simp [hm])

/-- **C49, strings and byte slices.** The same in lexicographic order. -/
theorem C49_pivot_bytes (hC : C.OK) (ht : t.bytes = true) (hs : SliceOf C.wordSize t s m)
    (hid : sliceFam (elemKind C.wordSize t) = some id) :
    (14 ≤ s.len → ChoosesMedian (fun x y => ¬ y < x) Cell.bytes Key.bytes s m 7 (pivot (fam C id) s (fam C id).nConc)) ∧
    (10 ≤ s.len → ChoosesMedian (fun x y => ¬ y < x) Cell.bytes Key.bytes s m 5 (pivot (fam C id) s (fam C id).nLong)) ∧
    (6 ≤ s.len → ChoosesMedian (fun x y => ¬ y < x) Cell.bytes Key.bytes s m 3 (shortPivot (fam C id) s)) := by
  rw [sliceFam_elemKind hC.word] at hid
  have hf : t.float = false := by
    cases t <;> simp [GoType.bytes] at ht <;> rfl
  have hok : ∀ c ∈ s.view m, cok C id c := fun c hc => cok_of_type hid (hs.elems c hc) (by rw [famOf_float hid, hf]; simp)
  have h1 : ∀ c ∈ s.view m, ∀ p, okOf id p → crk C id c ≤ rkOf id p → ¬ p.bytes < c.bytes := by
    intro c hc p hp h
    rw [crk_bytes hid ht (hs.elems c hc), rk_bytes hid ht hp, rkStr_le, ← not_lt, ← bytes_lt_map] at h
    exact h
  have h2 : ∀ c ∈ s.view m, ∀ p, okOf id p → rkOf id p ≤ crk C id c → ¬ c.bytes < p.bytes := by
    intro c hc p hp h
    rw [crk_bytes hid ht (hs.elems c hc), rk_bytes hid ht hp, rkStr_le, ← not_lt, ← bytes_lt_map] at h
    exact h
  have hm : (fam C id).mean = none := by
    cases t <;> simp [GoType.bytes] at ht
    · rename_i t
      cases t <;> simp at ht
      simp [famOf] at hid; subst hid; rfl
    · simp [famOf] at hid; subst hid; rfl
  refine ⟨fun hl => ?_, fun hl => ?_, fun hl => ?_⟩
  · have : (fam C id).nConc = 7 := by simp [Fam.nConc, hm, nsConc]
    rw [this]; exact chooses_pivot hC hok h1 h2 (by omega) (.inl hm) hl
  · have : (fam C id).nLong = 5 := by simp [Fam.nLong, hm, nsLong]
    rw [this]; exact chooses_pivot hC hok h1 h2 (by omega) (.inl hm) hl
  · exact chooses_short hC hok h1 h2 (by simp [hm]) hl (by simp [hm])

/-- **C49, lengths.** The pivots of SortLen are medians of the lengths of eight, six or four best spread samples. -/
theorem C49_pivot_lengths (hC : C.OK) (hs : SliceOf C.wordSize t s m) (hid : lenFam (elemKind C.wordSize t) = some id) :
    (16 ≤ s.len → ChoosesMedian (· ≤ ·) (fun c => (c.length : Int)) Key.length s m 8 (pivot (fam C id) s (fam C id).nConc)) ∧
    (12 ≤ s.len → ChoosesMedian (· ≤ ·) (fun c => (c.length : Int)) Key.length s m 6 (pivot (fam C id) s (fam C id).nLong)) ∧
    (8 ≤ s.len → s.len < 2 ^ 32 →
      ChoosesMedian (· ≤ ·) (fun c => (c.length : Int)) Key.length s m 4 (shortPivot (fam C id) s)) := by
  rw [lenFam_elemKind hC.word] at hid
  have hok : ∀ c ∈ s.view m, cok C id c := fun c hc => cok_of_len hid (hs.elems c hc)
  have h1 : ∀ c ∈ s.view m, ∀ p, okOf id p → crk C id c ≤ rkOf id p → (c.length : Int) ≤ p.length := by
    intro c hc p hp h
    rwa [crk_len hid (hs.elems c hc), rk_len hid hp, rkNum_le] at h
  have h2 : ∀ c ∈ s.view m, ∀ p, okOf id p → rkOf id p ≤ crk C id c → p.length ≤ (c.length : Int) := by
    intro c hc p hp h
    rwa [crk_len hid (hs.elems c hc), rk_len hid hp, rkNum_le] at h
  have hm : (fam C id).mean.isSome = true := by
    cases t <;> simp [lfamOf] at hid <;> subst hid <;> rfl
  refine ⟨fun hl => ?_, fun hl => ?_, fun hl h32 => ?_⟩
  · have : (fam C id).nConc = 8 := by simp [Fam.nConc, hm, nsConc]
    rw [this]; exact chooses_pivot hC hok h1 h2 (by omega) (.inr rfl) hl
  · have : (fam C id).nLong = 6 := by simp [Fam.nLong, hm, nsLong]
    rw [this]; exact chooses_pivot hC hok h1 h2 (by omega) (.inr rfl) hl
  · exact chooses_short hC hok h1 h2 (by simp [hm]) hl fun _ => h32

/-- C49 applies: 3000 descending integers, and floats, strings -/
example : ChoosesMedian (· ≤ ·) (Cell.num true) (Key.num true) demoS demoInts 8 (pivot (fam demoC .I8) demoS (fam demoC .I8).nConc) :=
  (C49_pivot_ints (t := .int64) demoC_ok (.inl rfl) demoInts_typed rfl).1 (by decide)

example : ChoosesMedian (· ≤ ·) Cell.fval Key.fval demoS demoNums 5 (pivot (fam demoC .F8) demoS (fam demoC .F8).nLong) :=
  (C49_pivot_floats (t := .float64) demoC_ok rfl (demoNums_typed 1) (demo_view_all fun a => by
    rw [demoNums, isNaN_w64]
    have hlt : 5000 - a % 1000 < 2 ^ 63 := by omega
    simp only [fnan, fmag, finf, BitVec.toNat_ofNat, decide_eq_true_eq]
    rw [if_neg (by decide)]
    omega) rfl).2.1 (by decide)

example : ChoosesMedian (fun x y => ¬ y < x) Cell.bytes Key.bytes demoS demoStrs 3 (shortPivot (fam demoC .S) demoS) :=
  (C49_pivot_bytes (t := .string) demoC_ok rfl demoStrs_typed rfl).2.2 (by decide)

example : ChoosesMedian (· ≤ ·) (fun c => (c.length : Int)) Key.length demoS demoStrs 4 (shortPivot (fam demoC .LenS) demoS) :=
  (C49_pivot_lengths (t := .string) demoC_ok demoStrs_typed rfl).2.2 (by decide) (by decide)

/-- the specification can fail: the smallest of ten numbers is no median of five of them -/
example : ¬ ∃ first step, WellSpread 10 5 first step ∧
    Half (fun x : Nat => x ≤ 0) (picks [0, 1, 2, 3, 4, 5, 6, 7, 8, 9] first step 5) ∧ (picks [0, 1, 2, 3, 4, 5, 6, 7, 8, 9] first step 5).length = 5 := by
  rintro ⟨f, st, ⟨hr, hw⟩, ⟨l', hsub, hle, hlen⟩, hl⟩
  have hst : 1 ≤ st := by
    by_contra h0
    obtain rfl : st = 0 := by omega
    have := hw 0 2 1 (by omega) (by intro p hp; exact ⟨p / 2, by omega, by omega, by omega⟩)
    obtain ⟨j, _, h1, h2⟩ := this 0 (by omega)
    obtain ⟨j', _, h3, h4⟩ := this 9 (by omega)
    omega
  have hf : st ≤ 2 := by omega
  have h9 : f ≤ 5 := by omega
  have hall : l' = List.replicate l'.length 0 := List.eq_replicate_iff.2 ⟨rfl, fun x hx => Nat.le_zero.1 (hle x hx)⟩
  have h3 : 3 ≤ l'.length := by omega
  have hc : 3 ≤ (picks [0, 1, 2, 3, 4, 5, 6, 7, 8, 9] f st 5).count 0 := by
    refine le_trans ?_ (hsub.count_le 0)
    rw [hall, List.count_replicate_self]; exact h3
  interval_cases st <;> interval_cases f <;> revert hc <;> decide

end Sorty
