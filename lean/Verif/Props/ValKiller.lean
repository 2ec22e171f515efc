import Verif.Proofs.ValSlow
import Verif.Props.Cost

/-! # How slow a call of SortSlice or SortLen can be -/

namespace Sorty

section
variable {C : Conf} {t : GoType} {s : Slice} {m : Mem Cell}

theorem pair_view (x y : Cell) : (⟨0, 2⟩ : Slice).view (fun a => if a = 0 then x else y) = [x, y] := rfl

/-- elements of the same rank count as sorted in both orders -/
theorem sortedFor_pair {id : FamId} (hid : famOf C.wordSize t = some id) (ht : t.sortable = true) {x y : Cell} (hx : HasType C.wordSize t x)
    (hy : HasType C.wordSize t y) (hn : t.float = true → ¬ x.isNaN ∧ ¬ y.isNaN) (hxo : cok C id x) (hyo : cok C id y)
    (h : crk C id x = crk C id y) : SortedFor C t [x, y] := by
  have hs : SliceOf C.wordSize t ⟨0, 2⟩ (fun a => if a = 0 then x else y) := ⟨by rw [pair_view]; simp [hx, hy], by norm_num⟩
  have := sortedFor_of hid ht hs (fun hf => .inr (.inr (by rw [pair_view]; simp [hn hf]))) (sortedAs_full (C := C) (id := id) (by
    intro a _
    show cok C id (if a = 0 then x else y)
    split_ifs
    · exact hxo
    · exact hyo) (by
    intro i j _ _ _
    show crk C id (if i = 0 then x else y) ≤ crk C id (if j = 0 then x else y)
    split_ifs
    · exact le_rfl
    · rw [h]
    · rw [h]
    · exact le_rfl))
  rwa [pair_view] at this

/-- **C61** for SortSlice: whatever pairwise different elements a slice holds (no two of them sorted in both orders, and no NaN), there is an
arrangement `m'` of them with which every call of `SortSlice` with `MaxGor` at most 1 loads and stores elements at least (n² - r²)/12 times
for n elements, r being `MaxLenRecFC` for strings and byte slices and `MaxLenRec` otherwise. With any `MaxGor`, some execution does (the
one in which `MaxGor` is 1 when it is read). -/
theorem C61_sortSlice_can_be_quadratic (hC : C.OK) (ht : t.sortable = true) (hs : SliceOf C.wordSize t s m)
    (hn : t.float = true → ∀ c ∈ s.view m, ¬ c.isNaN) (hd : DepthFor C.depth s.len)
    (hdiff : ∀ i j, i < j → j < s.len →
      ¬ (SortedFor C t [m (s.off + i), m (s.off + j)] ∧ SortedFor C t [m (s.off + j), m (s.off + i)])) :
    ∃ m', (s.view m').Perm (s.view m) ∧
      (∀ M stale c n, M ≤ 1 → CSteps ((SortSlice C (.slice t s)).par M stale) Prog.accs (start (SortSlice C (.slice t s)).main m') c n →
        Returned c → s.len ^ 2 ≤ 12 * n + (if t.bytes = true then C.maxLenRecFC else C.maxLenRec) ^ 2) ∧
      ∀ M stale, ∃ c n, CSteps ((SortSlice C (.slice t s)).par M stale) Prog.accs (start (SortSlice C (.slice t s)).main m') c n ∧
        Returned c ∧ s.len ^ 2 ≤ 12 * n + (if t.bytes = true then C.maxLenRecFC else C.maxLenRec) ^ 2 := by
  obtain ⟨id, hid⟩ := famOf_of_sortable (ws := C.wordSize) ht
  have hty := view_all.1 hs.elems
  have hnan : ∀ a ∈ s.rng, id.float = true → cellNaN (m a) = false := by
    intro a ha hf
    cases hh : cellNaN (m a) with
    | false => rfl
    | true => exact absurd (cellNaN_iff.1 hh) (view_all.1 (hn (by rw [← famOf_float hid]; exact hf)) a ha)
  have hok : ∀ a ∈ s.rng, cok C id (m a) := fun a ha => cok_of_type hid (hty a ha) (hnan a ha)
  have hne : ∀ a ∈ s.rng, ∀ b ∈ s.rng, a < b → crk C id (m a) ≠ crk C id (m b) := by
    intro a ha b hb hab he
    have ha' : s.off ≤ a ∧ a < s.off + s.len := ha
    have hb' : s.off ≤ b ∧ b < s.off + s.len := hb
    refine hdiff (a - s.off) (b - s.off) (by omega) (by omega) ?_
    rw [show s.off + (a - s.off) = a by omega, show s.off + (b - s.off) = b by omega]
    exact ⟨sortedFor_pair hid ht (hty a ha) (hty b hb) (fun hf => ⟨view_all.1 (hn hf) a ha, view_all.1 (hn hf) b hb⟩) (hok a ha) (hok b hb) he,
      sortedFor_pair hid ht (hty b hb) (hty a ha) (fun hf => ⟨view_all.1 (hn hf) b hb, view_all.1 (hn hf) a ha⟩) (hok b hb) (hok a ha) he.symm⟩
  obtain ⟨m', h1, h2, h3⟩ := call_slow hC id hs.len hd hok (by
    intro a ha b hb he
    by_contra hc
    rcases Nat.lt_or_gt_of_ne hc with h | h
    · exact hne a ha b hb h he
    · exact hne b hb a ha h he.symm)
  have hr := fam_maxRec (C := C) hid
  rw [hr] at h2 h3
  rw [sortSlice_eq hC hid]
  exact ⟨m', view_perm h1.on, h2, h3⟩

/-- **C61** for SortLen: the same for strings or slices of pairwise different lengths. -/
theorem C61_sortLen_can_be_quadratic (hC : C.OK) (ht : t.hasLen = true) (hs : SliceOf C.wordSize t s m) (hd : DepthFor C.depth s.len)
    (hdiff : ∀ i j, i < j → j < s.len → (m (s.off + i)).length ≠ (m (s.off + j)).length) :
    ∃ m', (s.view m').Perm (s.view m) ∧
      (∀ M stale c n, M ≤ 1 → CSteps ((SortLen C (.slice t s)).par M stale) Prog.accs (start (SortLen C (.slice t s)).main m') c n →
        Returned c → s.len ^ 2 ≤ 12 * n + C.maxLenRec ^ 2) ∧
      ∀ M stale, ∃ c n, CSteps ((SortLen C (.slice t s)).par M stale) Prog.accs (start (SortLen C (.slice t s)).main m') c n ∧
        Returned c ∧ s.len ^ 2 ≤ 12 * n + C.maxLenRec ^ 2 := by
  obtain ⟨id, hid⟩ := lfamOf_of_hasLen ht
  have hty := view_all.1 hs.elems
  have hok : ∀ a ∈ s.rng, cok C id (m a) := fun a ha => cok_of_len hid (hty a ha)
  have hle : ∀ a ∈ s.rng, ∀ b ∈ s.rng, crk C id (m a) ≤ crk C id (m b) → (m a).length ≤ (m b).length := by
    intro a ha b hb h
    have := (ascLen_of (C := C) (id := id) (s := ⟨0, 2⟩) (m := fun i => if i = 0 then m a else m b) hid
      ⟨by rw [pair_view]; simp [hty a ha, hty b hb], by norm_num⟩).1 (by
      intro i j _ hij hj
      dsimp only
      rcases Nat.eq_zero_or_pos i with rfl | hi
      · rcases Nat.eq_zero_or_pos j with rfl | hj'
        · exact le_rfl
        · rw [if_pos rfl, if_neg (by omega)]; exact h
      · rw [if_neg (by omega), if_neg (by omega)])
    rw [pair_view] at this
    simpa [AscLen] using this
  obtain ⟨m', h1, h2, h3⟩ := call_slow hC id hs.len hd hok (by
    intro a ha b hb he
    have hl : (m a).length = (m b).length := le_antisymm (hle a ha b hb he.le) (hle b hb a ha he.ge)
    have ha' : s.off ≤ a ∧ a < s.off + s.len := ha
    have hb' : s.off ≤ b ∧ b < s.off + s.len := hb
    by_contra hc
    rcases Nat.lt_or_gt_of_ne hc with h | h
    · refine hdiff (a - s.off) (b - s.off) (by omega) (by omega) ?_
      rw [show s.off + (a - s.off) = a by omega, show s.off + (b - s.off) = b by omega]; exact hl
    · refine hdiff (b - s.off) (a - s.off) (by omega) (by omega) ?_
      rw [show s.off + (a - s.off) = a by omega, show s.off + (b - s.off) = b by omega]; exact hl.symm)
  have hr : (fam C id).maxRec = C.maxLenRec := by
    cases t <;> simp [GoType.hasLen] at ht <;> (simp [lfamOf] at hid; subst hid; rfl)
  rw [hr] at h2 h3
  rw [sortLen_eq hC hid]
  exact ⟨m', view_perm h1.on, h2, h3⟩

end

/-- Some arrangement of the integers from 0 to 9999 takes at least eight million loads and stores. -/
example : ∃ m', ((⟨0, 10000⟩ : Slice).view m').Perm ((⟨0, 10000⟩ : Slice).view fun a => .w64 (BitVec.ofNat 64 a)) ∧
    ∃ c n, CSteps ((SortSlice demoC (.slice .int64 ⟨0, 10000⟩)).par 1 False) Prog.accs
      (start (SortSlice demoC (.slice .int64 ⟨0, 10000⟩)).main m') c n ∧ Returned c ∧ 8000000 ≤ n := by
  obtain ⟨m', h1, -, h2⟩ := C61_sortSlice_can_be_quadratic (t := .int64) (s := ⟨0, 10000⟩) (m := fun a => .w64 (BitVec.ofNat 64 a)) demoC_ok rfl
    ⟨by intro c hc; obtain ⟨i, -, rfl⟩ := List.mem_map.1 hc; exact ⟨_, rfl⟩, by norm_num⟩ (fun h => by cases h)
    (by show Nat.log2 10000 + 2 ≤ 64; decide) (by
      intro i j hij hj h
      have hj : j < 10000 := hj
      have := h.2
      simp only [SortedFor, GoType.float, GoType.bytes, AscNum] at this
      have e : ∀ k < 10000, (BitVec.ofNat 64 k).toInt = k := by
        intro k hk
        have h1 : (BitVec.ofNat 64 k).toNat = k := by rw [BitVec.toNat_ofNat, Nat.mod_eq_of_lt (by omega)]
        rw [BitVec.toInt_eq_toNat_of_lt (by rw [h1]; omega), h1]
      simp [Cell.num, GoType.signed, e i (by omega), e j hj] at this
      omega)
  obtain ⟨c, n, h3, h4, h5⟩ := h2 1 False
  refine ⟨m', h1, c, n, h3, h4, ?_⟩
  have h5 : 10000 ^ 2 ≤ 12 * n + demoC.maxLenRec ^ 2 := h5
  have : demoC.maxLenRec = 600 := rfl
  norm_num [this] at *
  omega

/-- Some arrangement of strings with 0 to 4999 bytes takes at least two million loads and stores to sort by length. -/
example : ∃ m', ((⟨0, 5000⟩ : Slice).view m').Perm ((⟨0, 5000⟩ : Slice).view fun a => .str a (List.replicate a 65)) ∧
    ∃ c n, CSteps ((SortLen demoC (.slice .string ⟨0, 5000⟩)).par 1 False) Prog.accs
      (start (SortLen demoC (.slice .string ⟨0, 5000⟩)).main m') c n ∧ Returned c ∧ 2000000 ≤ n := by
  obtain ⟨m', h1, -, h2⟩ := C61_sortLen_can_be_quadratic (t := .string) (s := ⟨0, 5000⟩) (m := fun a => .str a (List.replicate a 65)) demoC_ok rfl
    ⟨by
      intro c hc
      obtain ⟨i, hi, rfl⟩ := List.mem_map.1 hc
      rw [List.mem_range] at hi
      have hi : i < 5000 := hi
      exact ⟨_, _, rfl⟩, by norm_num⟩
    (by show Nat.log2 5000 + 2 ≤ 64; decide) (by
      intro i j hij hj
      simp [Cell.length]
      omega)
  obtain ⟨c, n, h3, h4, h5⟩ := h2 1 False
  refine ⟨m', h1, c, n, h3, h4, ?_⟩
  have h5 : 5000 ^ 2 ≤ 12 * n + demoC.maxLenRec ^ 2 := h5
  have : demoC.maxLenRec = 600 := rfl
  norm_num [this] at *
  omega

end Sorty
