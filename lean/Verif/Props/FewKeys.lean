import Verif.Proofs.ValFew
import Verif.Props.Cost
import Mathlib.Tactic.IntervalCases

/-! # SortSlice and SortLen on slices with few different keys -/

namespace Sorty

section
variable {C : Conf} {s : Slice} {m : Mem Cell} {call : Call} {sorted : List Cell → Prop} {M : Nat} {stale : Prop} {c : Cfg Cell (VSp Key)} {n : Nat}

/-- floats that are sorted in both orders are equal -/
theorem float_tie {t : GoType} (ht : t.float = true) {x y : Cell} (hx : ¬ x.isNaN) (h1 : SortedFor C t [x, y]) (h2 : SortedFor C t [y, x]) :
    x.fval = y.fval := by
  have hp : ∀ {x y : Cell}, ¬ x.isNaN → SortedFor C t [x, y] → ¬ y.isNaN → x.fval ≤ y.fval := by
    intro x y hx h hy
    unfold SortedFor at h
    rw [if_pos ht] at h
    have fin : ∀ k ≤ 2, (AscFloat ([x, y].take k) ∧ AllNaN ([x, y].drop k)) ∨ (AllNaN ([x, y].take k) ∧ AscFloat ([x, y].drop k)) → x.fval ≤ y.fval := by
      intro k hk h
      interval_cases k <;> simp_all [AscFloat, AllNaN]
    split_ifs at h
    · obtain ⟨k, hk, h⟩ := h; exact fin k hk (.inl h)
    · obtain ⟨k, hk, h⟩ := h; exact fin k hk (.inr h)
    · simpa [AscFloat, hx, hy] using h
  have hy : ¬ y.isNaN := by
    intro hy
    unfold SortedFor at h1 h2
    rw [if_pos ht] at h1 h2
    split_ifs at h1 h2
    · obtain ⟨k, hk, h⟩ := h2
      have hk : k ≤ 2 := hk
      interval_cases k <;> simp_all [AscFloat, AllNaN]
    · obtain ⟨k, hk, h⟩ := h1
      have hk : k ≤ 2 := hk
      interval_cases k <;> simp_all [AscFloat, AllNaN]
    · exact h1.1 y (by simp) hy
  exact le_antisymm (hp hx h1 hy) (hp hy h2 hx)

/-- what the specification takes for equal, the code does -/
theorem job_ties (hC : C.OK) (J : SortJob C s m call sorted) : ∃ id, call = famCall C id s ∧ (∀ a ∈ s.rng, Accept C id (m a)) ∧ s.len < 2 ^ 63 ∧
    ∀ x ∈ s.view m, ∀ y ∈ s.view m, cok C id x → sorted [x, y] → sorted [y, x] → crk C id x = crk C id y := by
  cases J with
  | slice t ht hs hn =>
    obtain ⟨id, h⟩ := famOf_of_sortable (ws := C.wordSize) ht
    refine ⟨id, sortSlice_eq hC h s, accept_slice h hs hn, hs.len, fun x hx y hy hok h1 h2 => ?_⟩
    have tx := hs.elems x hx
    have ty := hs.elems y hy
    by_cases hf : t.float = true
    · rw [crk_float h hf tx, crk_float h hf ty, float_tie hf (fun hn => nan_not_ok (by rw [famOf_float h]; exact hf) (cellNaN_iff.2 hn) hok) h1 h2]
    · unfold SortedFor at h1 h2
      rw [if_neg hf] at h1 h2
      by_cases hb : t.bytes = true
      · rw [if_pos hb] at h1 h2
        rw [crk_bytes h hb tx, crk_bytes h hb ty]
        have e : x.bytes = y.bytes := by
          simp only [AscBytes, List.map_cons, List.map_nil, List.pairwise_cons, List.mem_singleton, forall_eq, List.Pairwise.nil] at h1 h2
          exact List.le_antisymm h1.1 h2.1
        rw [e]
      · rw [if_neg hb] at h1 h2
        rw [crk_num h (by simp [GoType.sortable, hf, hb] at ht; exact ht) tx, crk_num h (by simp [GoType.sortable, hf, hb] at ht; exact ht) ty]
        simp [AscNum] at h1 h2
        rw [le_antisymm h1 h2]
  | len t ht hs =>
    obtain ⟨id, h⟩ := lfamOf_of_hasLen ht
    refine ⟨id, sortLen_eq hC h s, fun a ha => .inl (cok_of_len h (view_all.1 hs.elems a ha)), hs.len, fun x hx y hy _ h1 h2 => ?_⟩
    rw [crk_len h (hs.elems x hx), crk_len h (hs.elems y hy)]
    simp [AscLen] at h1 h2
    rw [le_antisymm h1 h2]

/-- **C63**: if every element of the slice ranks equal to one of d elements `keys` (they count as sorted in both orders), then all the
goroutines of a call of `SortSlice` or `SortLen` together load and store elements at most n(6d(⌈log₂ n⌉+3) + MaxLenIns + 5) times for n elements,
whatever their arrangement, `MaxGor` and the schedule, NaN handling included. -/
theorem C63_few_keys (hC : C.OK) (J : SortJob C s m call sorted) (hd : DepthFor C.depth s.len) (keys : List Cell)
    (hk : ∀ x ∈ s.view m, ∃ y ∈ keys, y ∈ s.view m ∧ sorted [x, y] ∧ sorted [y, x])
    (h : CSteps (call.par M stale) Prog.accs (start call.main m) c n) :
    n ≤ s.len * (6 * keys.length * (Nat.clog 2 s.len + 3) + C.maxLenIns + 5) := by
  obtain ⟨id, rfl, hok, hl, hr⟩ := job_ties hC J
  have hS := call_few hC id hd hok hl (keys.map (crk C id)).toFinset (by
    intro a ha hoka
    have hv : m a ∈ s.view m := (view_all (p := fun x => x ∈ s.view m)).1 (fun _ h => h) a ha
    obtain ⟨y, hy, hyv, h1, h2⟩ := hk _ hv
    rw [hr _ hv _ hyv hoka h1 h2, List.mem_toFinset]
    exact List.mem_map_of_mem hy) h
  have hcard : (keys.map (crk C id)).toFinset.card ≤ keys.length := by
    refine (List.toFinset_card_le _).trans ?_
    rw [List.length_map]
  have hI : (fam C id).maxIns ≤ C.maxLenIns := by
    have := conf_ineq hC
    cases id <;> simp only [fam] <;> omega
  refine hS.trans ?_
  unfold fewBound
  rw [← Nat.add_mul, Nat.mul_comm]
  refine Nat.mul_le_mul_left _ ?_
  have := Nat.mul_le_mul_right (Nat.clog 2 s.len + 3) hcard
  rw [Nat.mul_assoc]
  omega

end

/-- With four goroutines a million integers, zeros and ones in turn, take at most 341 million loads and stores; n²/3 would be more than 300 billion. -/
example : ∃ c n, CSteps ((SortSlice demoC (.slice .int64 ⟨0, 1000000⟩)).par 4 False) Prog.accs
      (start (SortSlice demoC (.slice .int64 ⟨0, 1000000⟩)).main fun a => .w64 (if a % 2 = 0 then 0 else 1)) c n ∧ Returned c ∧ n ≤ 341000000 := by
  have J : SortJob demoC ⟨0, 1000000⟩ (fun a => .w64 (if a % 2 = 0 then 0 else 1)) _ _ := .slice .int64 rfl
    ⟨by intro c hc; obtain ⟨i, -, rfl⟩ := List.mem_map.1 hc; exact ⟨_, rfl⟩, by norm_num⟩ (fun h => by cases h)
  have hd : DepthFor demoC.depth (⟨0, 1000000⟩ : Slice).len := by show Nat.log2 1000000 + 2 ≤ 64; decide
  obtain ⟨c, h1, h2⟩ := sortJob_returns demoC_ok J hd 4 False
  obtain ⟨n, h3⟩ := Steps.metered Prog.accs h1
  refine ⟨c, n, h3, h2, ?_⟩
  have hv : ∀ i < 1000000, (Cell.w64 (if i % 2 = 0 then 0 else 1)) ∈ (⟨0, 1000000⟩ : Slice).view (fun a => Cell.w64 (if a % 2 = 0 then 0 else 1)) := by
    intro i hi
    exact List.mem_map.2 ⟨i, List.mem_range.2 hi, by rw [Nat.zero_add]⟩
  have h4 := C63_few_keys demoC_ok J hd [.w64 0, .w64 1] (by
    intro x hx
    obtain ⟨i, -, rfl⟩ := List.mem_map.1 hx
    refine ⟨_, ?_, hx, ?_, ?_⟩
    · dsimp only
      split_ifs <;> simp
    · simp [SortedFor, GoType.float, GoType.bytes, AscNum]
    · simp [SortedFor, GoType.float, GoType.bytes, AscNum]) h3
  have e : Nat.clog 2 1000000 = 20 := by decide +kernel
  have h5 : n ≤ 1000000 * (6 * 2 * (Nat.clog 2 1000000 + 3) + 60 + 5) := h4
  rw [e] at h5
  exact h5

end Sorty
