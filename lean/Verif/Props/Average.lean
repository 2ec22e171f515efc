import Verif.Proofs.ValAverageNaN
import Verif.Props.ValKiller
import Verif.Props.FewKeys

/-! # SortSlice on average -/

namespace Sorty

section
variable {C : Conf} {t : GoType} {s : Slice} {M : Nat} {stale : Prop}

theorem cellNaN_false {c : Cell} (h : cellNaN c = false) : ¬ c.isNaN := fun hn => by rw [cellNaN_iff.2 hn] at h; cases h

/-- different elements have different ranks -/
theorem avg_inj {id : FamId} (hid : famOf C.wordSize t = some id) (ht : t.sortable = true) {v : Fin s.len → Cell} (hv : ∀ i, HasType C.wordSize t (v i))
    (hdiff : ∀ i j, i ≠ j → ¬ (v i).isNaN → ¬ (v j).isNaN → ¬ (SortedFor C t [v i, v j] ∧ SortedFor C t [v j, v i])) (i j : Fin s.len)
    (hi : cellNaN (v i) = false) (hj : cellNaN (v j) = false) (e : crk C id (v i) = crk C id (v j)) : i = j := by
  have hi' := cok_of_type hid (hv i) fun _ => hi
  have hj' := cok_of_type hid (hv j) fun _ => hj
  have ni := cellNaN_false hi
  have nj := cellNaN_false hj
  by_contra hc
  exact hdiff i j hc ni nj ⟨sortedFor_pair hid ht (hv i) (hv j) (fun _ => ⟨ni, nj⟩) hi' hj' e,
    sortedFor_pair hid ht (hv j) (hv i) (fun _ => ⟨nj, ni⟩) hj' hi' e.symm⟩

/-- no NaN, or NaNs are moved away -/
theorem avg_cases {id : FamId} (hid : famOf C.wordSize t = some id) {v : Fin s.len → Cell} (hv : ∀ i, HasType C.wordSize t (v i))
    (hn : t.float = true → C.nanOption = 1 ∨ C.nanOption = -1 ∨ ∀ i, ¬ (v i).isNaN) (hfb : t.float = true ∨ t.bytes = true) :
    (∀ i, cellNaN (v i) = false) ∨ (id = .F4 ∨ id = .F8) ∧ (C.nanOption = 1 ∨ C.nanOption = -1) := by
  have free : ∀ i, ¬ (v i).isNaN → cellNaN (v i) = false := fun i h => by
    cases hh : cellNaN (v i) with
    | false => rfl
    | true => exact absurd (cellNaN_iff.1 hh) h
  by_cases hf : t.float = true
  · have hi : id = .F4 ∨ id = .F8 := by
      rw [← famOf_float hid] at hf
      simpa [FamId.float] using hf
    rcases hn hf with h | h | h
    · exact .inr ⟨hi, .inl h⟩
    · exact .inr ⟨hi, .inr h⟩
    · exact .inl fun i => free i (h i)
  · refine .inl fun i => ?_
    have hb := hfb.resolve_left hf
    have := hv i
    cases t <;> simp [GoType.bytes] at hb
    case string => obtain ⟨p, bs, e⟩ := this; rw [e]; rfl
    case slice t => cases t <;> simp at hb; obtain ⟨p, n, k, bs, e, _⟩ := this; rw [e]; rfl

/-- **C65**: let `v` be n pairwise different elements (no two of them sorted in both orders) of a float type, of type string or of type []byte;
of floats, with the option NaNlarge or NaNsmall, any number may be NaNs, equal or not, otherwise none is one. And let the slice hold them, in memory `m σ`, in the order given by the permutation `σ`. For every `σ` take an execution of
`SortSlice` on it, with `MaxGor` at most 1, or with any `MaxGor` on at most 2·r elements, r being `MaxLenRecFC` for strings and byte slices and
`MaxLenRec` for floats. The average over all n! orders of the number of loads and stores of elements is at most
n(10⌈log₂ n⌉ + MaxLenIns + 27). -/
theorem C65_sortSlice_average (hC : C.OK) (ht : t.sortable = true) (hfb : t.float = true ∨ t.bytes = true) (hd : DepthFor C.depth s.len)
    {v : Fin s.len → Cell} (hv : ∀ i, HasType C.wordSize t (v i)) (hn : t.float = true → C.nanOption = 1 ∨ C.nanOption = -1 ∨ ∀ i, ¬ (v i).isNaN)
    (hdiff : ∀ i j, i ≠ j → ¬ (v i).isNaN → ¬ (v j).isNaN → ¬ (SortedFor C t [v i, v j] ∧ SortedFor C t [v j, v i]))
    (hM : M ≤ 1 ∨ s.len ≤ 2 * (if t.bytes = true then C.maxLenRecFC else C.maxLenRec))
    {m : Equiv.Perm (Fin s.len) → Mem Cell} (hm : ∀ σ (i : Fin s.len), m σ (s.off + i) = v (σ i)) {N : Equiv.Perm (Fin s.len) → Nat}
    (h : ∀ σ, ∃ c, CSteps ((SortSlice C (.slice t s)).par M stale) Prog.accs (start (SortSlice C (.slice t s)).main (m σ)) c (N σ)) :
    ∑ σ, N σ ≤ s.len.factorial * (s.len * (10 * Nat.clog 2 s.len + C.maxLenIns + 27)) := by
  obtain ⟨id, hid⟩ := famOf_of_sortable (ws := C.wordSize) ht
  rw [sortSlice_eq hC hid] at h
  rw [← fam_maxRec (C := C) hid] at hM
  have hmean : (fam C id).mean = none := by
    cases t <;> simp [GoType.float, GoType.bytes] at hfb <;> simp only [famOf, Option.some.injEq] at hid
    case slice t => cases t <;> simp at hid hfb; subst hid; rfl
    all_goals subst hid; rfl
  have hok : ∀ i, cellNaN (v i) = false → cok C id (v i) := fun i hi => cok_of_type hid (hv i) fun _ => hi
  have hinj := avg_inj hid ht hv hdiff
  rcases avg_cases hid hv hn hfb with hnan | ⟨hf, ho⟩
  · exact call_avg hC hmean (by omega) hd (fun i => hok i (hnan i)) (fun i j => hinj i j (hnan i) (hnan j)) hm h
  · exact call_avg_nan hC hf ho hmean (by omega) hd hok hinj hm h

/-- **C65**: for any `MaxGor`, which may differ from order to order, and whatever the schedules, the average over all n! orders of the number of
loads and stores of elements by all goroutines together is at most 10·n(10⌈log₂ n⌉ + MaxLenIns + 24). -/
theorem C65_sortSlice_average_concurrent (hC : C.OK) (ht : t.sortable = true) (hfb : t.float = true ∨ t.bytes = true) (hd : DepthFor C.depth s.len)
    (hl : s.len < 2 ^ 63) {v : Fin s.len → Cell} (hv : ∀ i, HasType C.wordSize t (v i)) (hn : t.float = true → C.nanOption = 1 ∨ C.nanOption = -1 ∨ ∀ i, ¬ (v i).isNaN)
    (hdiff : ∀ i j, i ≠ j → ¬ (v i).isNaN → ¬ (v j).isNaN → ¬ (SortedFor C t [v i, v j] ∧ SortedFor C t [v j, v i]))
    {m : Equiv.Perm (Fin s.len) → Mem Cell} (hm : ∀ σ (i : Fin s.len), m σ (s.off + i) = v (σ i)) {M N : Equiv.Perm (Fin s.len) → Nat}
    (h : ∀ σ, ∃ c, CSteps ((SortSlice C (.slice t s)).par (M σ) stale) Prog.accs (start (SortSlice C (.slice t s)).main (m σ)) c (N σ)) :
    ∑ σ, N σ ≤ s.len.factorial * (10 * s.len * (10 * Nat.clog 2 s.len + C.maxLenIns + 24)) := by
  obtain ⟨id, hid⟩ := famOf_of_sortable (ws := C.wordSize) ht
  rw [sortSlice_eq hC hid] at h
  have hmean : (fam C id).mean = none := by
    cases t <;> simp [GoType.float, GoType.bytes] at hfb <;> simp only [famOf, Option.some.injEq] at hid
    case slice t => cases t <;> simp at hid hfb; subst hid; rfl
    all_goals subst hid; rfl
  have hok : ∀ i, cellNaN (v i) = false → cok C id (v i) := fun i hi => cok_of_type hid (hv i) fun _ => hi
  have hinj := avg_inj hid ht hv hdiff
  rcases avg_cases hid hv hn hfb with hnan | ⟨hf, ho⟩
  · exact call_avg_con hC hmean hd hl (fun i => hok i (hnan i)) (fun i j => hinj i j (hnan i) (hnan j)) hm h
  · exact call_avg_con_nan hC hf ho hmean hd hl hok hinj hm h

end

/-- The strings of up to 9999 letters A, in all orders, take on average at most 2.27·10⁶ loads and stores; for some orders (C61) it is more
than 8·10⁶. -/
example : ∃ (m : Equiv.Perm (Fin 10000) → Mem Cell) (N : Equiv.Perm (Fin 10000) → Nat),
    (∀ σ (i : Fin 10000), m σ i = .str (σ i) (List.replicate (σ i) 65)) ∧
    (∀ σ, ∃ c, CSteps ((SortSlice demoC (.slice .string ⟨0, 10000⟩)).par 1 False) Prog.accs
      (start (SortSlice demoC (.slice .string ⟨0, 10000⟩)).main (m σ)) c (N σ) ∧ Returned c) ∧
    ∑ σ, N σ ≤ Nat.factorial 10000 * 2270000 := by
  let m : Equiv.Perm (Fin 10000) → Mem Cell := fun σ a => if h : a < 10000 then .str (σ ⟨a, h⟩) (List.replicate (σ ⟨a, h⟩) 65) else .str 0 []
  have hm : ∀ σ (i : Fin 10000), m σ i = .str (σ i) (List.replicate (σ i) 65) := fun σ i => by
    show (if h : (i : Nat) < 10000 then _ else _) = _
    rw [dif_pos i.isLt]
  have hd : DepthFor demoC.depth (⟨0, 10000⟩ : Slice).len := by show Nat.log2 10000 + 2 ≤ 64; decide
  have hex : ∀ σ, ∃ n c, CSteps ((SortSlice demoC (.slice .string ⟨0, 10000⟩)).par 1 False) Prog.accs
      (start (SortSlice demoC (.slice .string ⟨0, 10000⟩)).main (m σ)) c n ∧ Returned c := by
    intro σ
    have hs : SliceOf demoC.wordSize .string ⟨0, 10000⟩ (m σ) := ⟨by
      intro c hc
      obtain ⟨i, hi, rfl⟩ := List.mem_map.1 hc
      have hi : i < 10000 := List.mem_range.1 hi
      exact ⟨_, _, (congrArg (m σ) (by simp)).trans (hm σ ⟨i, hi⟩)⟩, by norm_num⟩
    obtain ⟨c, h1, h2⟩ := sortJob_returns demoC_ok (SortJob.slice .string rfl hs fun h => by cases h) hd 1 False
    obtain ⟨n, h3⟩ := Steps.metered Prog.accs h1
    exact ⟨n, c, h3, h2⟩
  choose N c hN using hex
  refine ⟨m, N, hm, fun σ => ⟨c σ, hN σ⟩, ?_⟩
  have h := C65_sortSlice_average (s := ⟨0, 10000⟩) (t := .string) (v := fun i => .str i (List.replicate i 65)) (m := m) demoC_ok rfl (.inr rfl) hd
    (fun i => ⟨_, _, rfl⟩) (fun h => by cases h) (by
      intro i j hij _ _ h
      simp [SortedFor, GoType.float, GoType.bytes, AscBytes, Cell.bytes] at h
      have := List.le_antisymm h.1 h.2
      exact hij (Fin.ext (by simpa using congrArg List.length this))) (.inl le_rfl) (fun σ i => by rw [Nat.zero_add]; exact hm σ i) fun σ => ⟨c σ, (hN σ).1⟩
  have e : Nat.clog 2 10000 = 14 := by decide +kernel
  have e2 : demoC.maxLenIns = 60 := rfl
  have e3 : 10000 * (10 * 14 + 60 + 27) = 2270000 := by norm_num
  dsimp only at h
  rw [e, e2, e3] at h
  exact h

/-- The same with `MaxGor` 8: on average the goroutines load and store together at most 22.4·10⁶ times. -/
example : ∃ (m : Equiv.Perm (Fin 10000) → Mem Cell) (N : Equiv.Perm (Fin 10000) → Nat),
    (∀ σ (i : Fin 10000), m σ i = .str (σ i) (List.replicate (σ i) 65)) ∧
    (∀ σ, ∃ c, CSteps ((SortSlice demoC (.slice .string ⟨0, 10000⟩)).par 8 False) Prog.accs
      (start (SortSlice demoC (.slice .string ⟨0, 10000⟩)).main (m σ)) c (N σ) ∧ Returned c) ∧
    ∑ σ, N σ ≤ Nat.factorial 10000 * 22400000 := by
  let m : Equiv.Perm (Fin 10000) → Mem Cell := fun σ a => if h : a < 10000 then .str (σ ⟨a, h⟩) (List.replicate (σ ⟨a, h⟩) 65) else .str 0 []
  have hm : ∀ σ (i : Fin 10000), m σ i = .str (σ i) (List.replicate (σ i) 65) := fun σ i => by
    show (if h : (i : Nat) < 10000 then _ else _) = _
    rw [dif_pos i.isLt]
  have hd : DepthFor demoC.depth (⟨0, 10000⟩ : Slice).len := by show Nat.log2 10000 + 2 ≤ 64; decide
  have hex : ∀ σ, ∃ n c, CSteps ((SortSlice demoC (.slice .string ⟨0, 10000⟩)).par 8 False) Prog.accs
      (start (SortSlice demoC (.slice .string ⟨0, 10000⟩)).main (m σ)) c n ∧ Returned c := by
    intro σ
    have hs : SliceOf demoC.wordSize .string ⟨0, 10000⟩ (m σ) := ⟨by
      intro c hc
      obtain ⟨i, hi, rfl⟩ := List.mem_map.1 hc
      have hi : i < 10000 := List.mem_range.1 hi
      exact ⟨_, _, (congrArg (m σ) (by simp)).trans (hm σ ⟨i, hi⟩)⟩, by norm_num⟩
    obtain ⟨c, h1, h2⟩ := sortJob_returns demoC_ok (SortJob.slice .string rfl hs fun h => by cases h) hd 8 False
    obtain ⟨n, h3⟩ := Steps.metered Prog.accs h1
    exact ⟨n, c, h3, h2⟩
  choose N c hN using hex
  refine ⟨m, N, hm, fun σ => ⟨c σ, hN σ⟩, ?_⟩
  have h := C65_sortSlice_average_concurrent (M := fun _ => 8) (s := ⟨0, 10000⟩) (t := .string) (v := fun i => .str i (List.replicate i 65)) (m := m) demoC_ok rfl (.inr rfl) hd (by norm_num)
    (fun i => ⟨_, _, rfl⟩) (fun h => by cases h) (by
      intro i j hij _ _ h
      simp [SortedFor, GoType.float, GoType.bytes, AscBytes, Cell.bytes] at h
      have := List.le_antisymm h.1 h.2
      exact hij (Fin.ext (by simpa using congrArg List.length this))) (fun σ i => by rw [Nat.zero_add]; exact hm σ i) fun σ => ⟨c σ, (hN σ).1⟩
  have e : Nat.clog 2 10000 = 14 := by decide +kernel
  have e2 : demoC.maxLenIns = 60 := rfl
  have e3 : 10 * 10000 * (10 * 14 + 60 + 24) = 22400000 := by norm_num
  dsimp only at h
  rw [e, e2, e3] at h
  exact h

/-- 10000 floats, every third of them a NaN -/
def demoAvg (i : Fin 10000) : Cell := .w64 (if i.val % 3 = 0 then 0x7FF8000000000001#64 else BitVec.ofNat 64 i)

/-- With the option NaNlarge they take on average at most 2.27·10⁶ loads and stores. -/
example : ∃ (m : Equiv.Perm (Fin 10000) → Mem Cell) (N : Equiv.Perm (Fin 10000) → Nat),
    (∀ σ (i : Fin 10000), m σ i = demoAvg (σ i)) ∧
    (∀ σ, ∃ c, CSteps ((SortSlice { demoC with nanOption := 1 } (.slice .float64 ⟨0, 10000⟩)).par 1 False) Prog.accs
      (start (SortSlice { demoC with nanOption := 1 } (.slice .float64 ⟨0, 10000⟩)).main (m σ)) c (N σ) ∧ Returned c) ∧
    ∑ σ, N σ ≤ Nat.factorial 10000 * 2270000 := by
  let m : Equiv.Perm (Fin 10000) → Mem Cell := fun σ a => if h : a < 10000 then demoAvg (σ ⟨a, h⟩) else .w64 0
  have hm : ∀ σ (i : Fin 10000), m σ i = demoAvg (σ i) := fun σ i => by
    show (if h : (i : Nat) < 10000 then _ else _) = _
    rw [dif_pos i.isLt]
  have hd : DepthFor { demoC with nanOption := 1 }.depth (⟨0, 10000⟩ : Slice).len := by show Nat.log2 10000 + 2 ≤ 64; decide
  have hex : ∀ σ, ∃ n c, CSteps ((SortSlice { demoC with nanOption := 1 } (.slice .float64 ⟨0, 10000⟩)).par 1 False) Prog.accs
      (start (SortSlice { demoC with nanOption := 1 } (.slice .float64 ⟨0, 10000⟩)).main (m σ)) c n ∧ Returned c := by
    intro σ
    have hs : SliceOf { demoC with nanOption := 1 }.wordSize .float64 ⟨0, 10000⟩ (m σ) := ⟨by
      intro c hc
      obtain ⟨i, hi, rfl⟩ := List.mem_map.1 hc
      have hi : i < 10000 := List.mem_range.1 hi
      exact ⟨_, (congrArg (m σ) (by simp)).trans (hm σ ⟨i, hi⟩)⟩, by norm_num⟩
    obtain ⟨c, h1, h2⟩ := sortJob_returns (demoC_ok' 1) (SortJob.slice .float64 rfl hs fun _ => .inl rfl) hd 1 False
    obtain ⟨n, h3⟩ := Steps.metered Prog.accs h1
    exact ⟨n, c, h3, h2⟩
  choose N c hN using hex
  refine ⟨m, N, hm, fun σ => ⟨c σ, hN σ⟩, ?_⟩
  have h := C65_sortSlice_average (C := { demoC with nanOption := 1 }) (s := ⟨0, 10000⟩) (t := .float64) (v := demoAvg) (m := m) (demoC_ok' 1) rfl
    (.inl rfl) hd (fun i => ⟨_, rfl⟩) (fun _ => .inl rfl) (by
      intro i j hij hi hj h
      have e := float_tie rfl hi h.1 h.2
      have hfin : ∀ k : Fin 10000, ¬ (demoAvg k).isNaN → (demoAvg k).fval = (k.val : Int) := by
        intro k hk
        by_cases h3 : k.val % 3 = 0
        · refine absurd ?_ hk
          unfold demoAvg
          rw [if_pos h3]
          show 0x7ff0000000000000 < (0x7FF8000000000001#64).toNat % 2 ^ 63
          decide
        · unfold demoAvg
          rw [if_neg h3]
          have hlt : k.val < 2 ^ 63 := k.isLt.trans (by norm_num)
          have e1 : (BitVec.ofNat 64 k.val).toNat = k.val := by
            rw [BitVec.toNat_ofNat]
            exact Nat.mod_eq_of_lt (hlt.trans (by norm_num))
          unfold Cell.fval
          dsimp only
          rw [e1, if_neg (by omega), Nat.mod_eq_of_lt hlt]
      rw [hfin i hi, hfin j hj] at e
      exact hij (Fin.ext (by exact_mod_cast e))) (.inl le_rfl) (fun σ i => by rw [Nat.zero_add]; exact hm σ i) fun σ => ⟨c σ, (hN σ).1⟩
  have e : Nat.clog 2 10000 = 14 := by decide +kernel
  have e2 : { demoC with nanOption := 1 }.maxLenIns = 60 := rfl
  have e3 : 10000 * (10 * 14 + 60 + 27) = 2270000 := by norm_num
  dsimp only at h
  rw [e, show demoC.maxLenIns = 60 from rfl, e3] at h
  exact h

end Sorty
