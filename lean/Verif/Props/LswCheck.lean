import Verif.Props.Lsw
import Verif.Props.Unique
import Verif.Proofs.LswCheck
import Verif.Proofs.Wrap

/-! # Properties of IsSorted; Sort compared with SortSlice; limits of the argument n

`(IsSorted ws n s).observe ans m = some i`: IsSorted(n, lsw) on the collection `s`, where `lsw` answers by `ans`,
returns `i` without swapping anything and without an invalid index.
-/

namespace Sorty

open Prog

variable {V Sp : Type} {C : Conf} {s : Slice} {m : Mem V} {M : Nat} {stale : Prop} {cmp : Cmp V} {c : Cfg V LSp}
  {less : V → V → Prop} {ws : Nat} {ans : Nat → Nat → V → V → Bool}

/-- **C24.** For any repeatable comparator `ans` (of indices and elements), IsSorted swaps nothing, uses valid indices,
and returns 0 exactly if less(j+1, j) is false for all adjacent pairs; otherwise some `i = j + 1` inside the collection
with less(i, i-1). -/
theorem C24_isSorted_exact (hws : ws = 4 ∨ ws = 8) (hl : s.len < 2 ^ (8 * ws - 1)) (ans : Nat → Nat → V → V → Bool) (m : Mem V) :
    ∃ i : Int, (IsSorted ws s.len s : Prog V Sp Int).observe ans m = some i ∧
      (i = 0 ↔ ∀ j x y, (s.view m)[j]? = some y → (s.view m)[j + 1]? = some x → ans (j + 1) j x y = false) ∧
      (i ≠ 0 → ∃ j x y, i = (j + 1 : Nat) ∧ (s.view m)[j]? = some y ∧ (s.view m)[j + 1]? = some x ∧ ans (j + 1) j x y = true) := by
  obtain ⟨i, h1, h2⟩ := isSorted_observe (Sp := Sp) (s := s) (m := m) ans hws hl
  have hv : ∀ j x, (s.view m)[j]? = some x → j < s.len ∧ x = s.E m (j : Int) := by
    intro j x h
    have hj : j < s.len := by
      obtain ⟨h', -⟩ := List.getElem?_eq_some_iff.1 h
      rwa [view_length] at h'
    rw [view_get s m j hj, Option.some.injEq] at h
    exact ⟨hj, by rw [← h]; simp [Slice.E]⟩
  have hbad : ∀ k : Int, 0 < k → k < s.len → ∃ j x y, k = (j + 1 : Nat) ∧ (s.view m)[j]? = some y ∧ (s.view m)[j + 1]? = some x ∧
      ans (j + 1) j x y = ans k.toNat (k - 1).toNat (s.E m k) (s.E m (k - 1)) := by
    intro k a1 a2
    refine ⟨k.toNat - 1, s.E m k, s.E m (k - 1), by omega, ?_, ?_, ?_⟩
    · rw [view_get s m _ (by omega)]; simp only [Slice.E, Option.some.injEq]; congr 2; omega
    · rw [view_get s m _ (by omega)]; simp only [Slice.E, Option.some.injEq]; congr 2; omega
    · congr 1 <;> omega
  have hgood : ∀ j x y, (s.view m)[j]? = some y → (s.view m)[j + 1]? = some x →
      ans (j + 1) j x y = ans ((j : Int) + 1).toNat ((j : Int) + 1 - 1).toNat (s.E m ((j : Int) + 1)) (s.E m ((j : Int) + 1 - 1)) := by
    intro j x y hy hx
    obtain ⟨a1, rfl⟩ := hv _ _ hy
    obtain ⟨a2, rfl⟩ := hv _ _ hx
    congr 1
    · omega
    · congr 1; omega
  refine ⟨i, h1, ⟨fun h0 j x y hy hx => ?_, fun h0 => ?_⟩, fun hi => ?_⟩
  · have a2 := (hv _ _ hx).1
    rcases h2 with ⟨_, h3⟩ | ⟨h3, _⟩
    · have := h3 ((j : Int) + 1) (by omega) (by omega)
      rw [hgood j x y hy hx]
      simpa using this
    · omega
  · rcases h2 with ⟨h3, _⟩ | ⟨h3, h4, h5, _⟩
    · exact h3
    · obtain ⟨j, x, y, _, b2, b3, b4⟩ := hbad i h3 (by omega)
      rw [h0 j x y b2 b3] at b4
      exact absurd (b4.trans h5) (by simp)
  · rcases h2 with ⟨h3, _⟩ | ⟨h3, h4, h5, _⟩
    · exact absurd h3 hi
    · obtain ⟨j, x, y, b1, b2, b3, b4⟩ := hbad i h3 (by omega)
      exact ⟨j, x, y, b1, b2, b3, by rw [b4]; exact h5⟩

/-- C24 applies to a comparator that answers by position only, and there IsSorted reports the last such position -/
example : ∃ i : Int, (IsSorted 8 100 ⟨3, 100⟩ : Prog Nat LSp Int).observe (fun i k _ _ => decide (k < i ∧ i % 40 = 0)) (fun a => a) = some i ∧ i ≠ 0 := by
  obtain ⟨i, h1, h2, -⟩ := C24_isSorted_exact (Sp := LSp) (ws := 8) (s := ⟨3, 100⟩) (.inr rfl) (by norm_num)
    (fun i k _ _ => decide (k < i ∧ i % 40 = 0)) (fun a : Nat => a)
  refine ⟨i, h1, fun h0 => ?_⟩
  simpa using h2.1 h0 39 43 42 (by decide) (by decide)

/-- **C24** for a strict weak order: 0 exactly if no later element is less than an earlier one. -/
theorem C24_isSorted_order (hws : ws = 4 ∨ ws = 8) (hl : s.len < 2 ^ (8 * ws - 1)) (hless : StrictWeak less)
    (hans : ∀ i k x y, ans i k x y = true ↔ less x y) (m : Mem V) :
    ∃ i : Int, (IsSorted ws s.len s : Prog V Sp Int).observe ans m = some i ∧ (i = 0 ↔ Ascending less (s.view m)) := by
  obtain ⟨i, h1, h2, -⟩ := C24_isSorted_exact (Sp := Sp) hws hl ans m
  refine ⟨i, h1, h2.trans ?_⟩
  obtain ⟨ρ, _, r, hr⟩ := hless.rank
  have e : ∀ j x y, ans (j + 1) j x y = false ↔ r y ≤ r x := by
    intro j x y
    rw [← not_lt, ← hr, ← hans (j + 1) j, Bool.not_eq_true]
  have e2 : Ascending less (s.view m) ↔ (s.view m).Pairwise (fun x y => r x ≤ r y) := by
    unfold Ascending
    simp only [hr, not_lt]
  rw [e2, ← view_sorted]
  simp only [e]
  constructor
  · intro h
    refine SortedOn.of_adj fun a a1 a2 => ?_
    have := h (a - s.off) (m (a + 1)) (m a) (by rw [view_get s m _ (by omega)]; congr 2; omega)
      (by rw [view_get s m _ (by omega)]; congr 2; omega)
    exact this
  · intro h j x y hy hx
    have hj : j + 1 < s.len := by
      obtain ⟨h', -⟩ := List.getElem?_eq_some_iff.1 hx
      rwa [view_length] at h'
    rw [view_get s m _ (by omega), Option.some.injEq] at hy hx
    rw [← hy, ← hx]
    exact h _ _ (by omega) (by omega) (by omega)

/-- `<` on numbers as a comparator -/
def ltBool : Nat → Nat → Nat → Nat → Bool := fun _ _ x y => decide (x < y)

theorem demoS_len : demoS.len < 2 ^ (8 * 8 - 1) := by decide

/-- C24 on 3000 descending numbers: the answer is not 0, and points to an adjacent pair out of order -/
example : ∃ i : Int, (IsSorted 8 demoS.len demoS : Prog Nat LSp Int).observe ltBool demoDesc = some i ∧ i ≠ 0 := by
  obtain ⟨i, h1, h2⟩ := C24_isSorted_order (Sp := LSp) (.inr rfl) demoS_len lt_strictWeak
    (ans := ltBool) (by simp [ltBool]) demoDesc
  refine ⟨i, h1, fun h0 => ?_⟩
  have := List.pairwise_iff_getElem.1 (h2.1 h0) 0 1 (by simp [Slice.view, demoS]) (by simp [Slice.view, demoS]) (by decide)
  simp [Slice.view, demoS, demoDesc] at this

/-- C24 on ascending numbers -/
example : (IsSorted 8 demoS.len demoS : Prog Nat LSp Int).observe ltBool id = some 0 := by
  obtain ⟨i, h1, h2⟩ := C24_isSorted_order (Sp := LSp) (.inr rfl) demoS_len lt_strictWeak
    (ans := ltBool) (by simp [ltBool]) id
  rw [h1, h2.2]
  unfold Ascending Slice.view
  rw [List.pairwise_map]
  exact List.pairwise_lt_range.imp fun h => by simp only [id]; omega

/-- **C25** for Sort and IsSorted. -/
theorem C25_sort_then_check (hC : C.OK) (hless : StrictWeak less) (hf : FitsInt C.wordSize s.len)
    (hd : DepthFor C.depth s.len) (hr : SortReaches C s (byLess less) M stale m c) (hret : Returned c)
    (hans : ∀ i k x y, ans i k x y = true ↔ less x y) :
    (IsSorted C.wordSize s.len s : Prog V Sp Int).observe ans c.sh.mem = some 0 := by
  have hl : s.len < 2 ^ (8 * C.wordSize - 1) := by
    unfold FitsInt at hf
    have : 0 < 2 ^ (8 * C.wordSize - 1) := by positivity
    omega
  obtain ⟨i, h1, h2⟩ := C24_isSorted_order (Sp := Sp) hC.word hl hless hans c.sh.mem
  rw [h1, h2.2 (C07_sort_strict_weak_order hC hless hf hd hr hret).1]

example : ∃ c, SortReaches demoC demoS ltCmp 5 False demoDesc c ∧ Returned c ∧
    (IsSorted 8 demoS.len demoS : Prog Nat LSp Int).observe ltBool c.sh.mem = some 0 := by
  obtain ⟨c, h1, h2⟩ := sort_returns demoC_ok lt_strictWeak.tame demoS_fits demo_depth demoDesc 5 False
  exact ⟨c, h1, h2, C25_sort_then_check demoC_ok lt_strictWeak demoS_fits demo_depth h1 h2 (by simp [ltBool])⟩

theorem loop_brk {σ α : Type} (N : Nat) (hN : 0 < N) (body : σ → Prog V Sp (Ctl σ α)) (st : σ) (a : α) (h : body st = .ret (.brk a)) :
    loop N body st = .ret a := by
  cases N with
  | zero => omega
  | succ N => unfold loop; rw [h]; rfl

/-- **C32, except for the smallest int.** For n < 2, Sort and IsSorted return at once, IsSorted with 0: `lsw` is not
called, nothing at all happens, whatever collection `lsw` works on. -/
theorem C32_fewer_than_two_partial (hC : C.OK) (n : Int) (hmin : -2 ^ (8 * C.wordSize - 1) < n) (hn : n < 2) (s : Slice) :
    (SortLsw C n s : Prog V LSp Unit) = .ret () ∧ (IsSorted C.wordSize n s : Prog V Sp Int) = .ret 0 := by
  have hP : (2 : Int) ^ 31 ≤ 2 ^ (8 * C.wordSize - 1) := by rcases hC.word with h | h <;> rw [h] <;> norm_num
  have hw : wrapInt C.wordSize (n - 1) = n - 1 := wrapInt_id hC.word (by omega) (by omega)
  obtain ⟨_, h2, h3, h4⟩ := conf_ineq hC
  constructor
  · unfold SortLsw
    rw [hw]
    dsimp only
    rw [if_pos (by omega)]
    simp only [pure_def, bind_def, Prog.bind, if_true]
    rw [if_neg (by omega), if_neg (by omega), if_neg (by omega)]
  · unfold IsSorted
    rw [hw]
    refine loop_brk _ (by omega) _ _ _ ?_
    rw [if_neg (by omega)]
    rfl

/-- C32 applies to n = -3, 1 and the second smallest int -/
example : (SortLsw demoC (-3) demoS : Prog Nat LSp Unit) = .ret () ∧ (SortLsw demoC 1 demoS : Prog Nat LSp Unit) = .ret () ∧
    (IsSorted 8 (-2 ^ 63 + 1) demoS : Prog Nat LSp Int) = .ret 0 :=
  ⟨(C32_fewer_than_two_partial (Sp := LSp) demoC_ok (-3) (by show -2 ^ (8 * 8 - 1) < _; norm_num) (by norm_num) demoS).1,
   (C32_fewer_than_two_partial (Sp := LSp) demoC_ok 1 (by show -2 ^ (8 * 8 - 1) < _; norm_num) (by norm_num) demoS).1,
   (C32_fewer_than_two_partial demoC_ok (-2 ^ 63 + 1) (by show -2 ^ (8 * 8 - 1) < _; norm_num) (by norm_num) demoS).2⟩

/-- a goroutine has panicked -/
def hasPanic (c : Cfg V Sp) : Bool := c.ths.any fun p => match p with | .panic => true | _ => false

theorem mem_of_hasPanic {c : Cfg V Sp} (h : hasPanic c = true) : .panic ∈ c.ths := by
  unfold hasPanic at h
  rw [List.any_eq_true] at h
  obtain ⟨p, hp, h⟩ := h
  cases p <;> simp at h
  exact hp

theorem ltAns_ok {i j x y : Nat} {b : Bool} (hb : ltAns i j x y = some b) : ltCmp i j x y b := by
  simp only [ltAns, Option.some.injEq] at hb
  simp [byLess, ← hb]

/-- **C32, refuted for the smallest int.** On a 64-bit platform Sort(-2^63, lsw) and IsSorted(-2^63, lsw) do call `lsw`:
on an empty collection that is a panic. -/
theorem C32_smallest_int_violated :
    (∃ c, Reach (lswPar demoC ⟨0, 0⟩ ltCmp 1 False) (SortLsw demoC (-2 ^ 63) ⟨0, 0⟩) lwitM c ∧ .panic ∈ c.ths) ∧
    (IsSorted 8 (-2 ^ 63) ⟨0, 0⟩ : Prog Nat LSp Int) = .panic := by
  refine ⟨?_, rfl⟩
  have h : (run (lswBody demoC ⟨0, 0⟩) 1 ltAns [.run 0 1] (start (SortLsw demoC (-2 ^ 63) ⟨0, 0⟩) lwitM)).map hasPanic = some true := by
    decide +kernel
  simp only [Option.map_eq_some_iff] at h
  obtain ⟨c, h1, h2⟩ := h
  exact ⟨c, run_sound (P := lswPar demoC ⟨0, 0⟩ ltCmp 1 False) (le_refl 1) (fun _ _ _ _ _ => ltAns_ok) _ h1, mem_of_hasPanic h2⟩

/-- **C41, refuted for lengths near the largest int.** On a 64-bit platform with a collection of 2^63-1 equal numbers, and on
a 32-bit platform with 2^31-1 of them, Sort calls `lsw` with a negative index, both with one goroutine and with more. -/
theorem C41_sort_near_largest_int_violated (mg : Nat) (hmg : mg = 1 ∨ mg = 2) :
    (∃ c, SortReaches demoC ⟨0, 2 ^ 63 - 1⟩ ltCmp mg False lwitM c ∧ .panic ∈ c.ths) ∧
    (∃ c, SortReaches { demoC with wordSize := 4 } ⟨0, 2 ^ 31 - 1⟩ ltCmp mg False lwitM c ∧ .panic ∈ c.ths) := by
  have key : ∀ (C : Conf) (s : Slice) (k : Nat),
      (run (lswBody C s) mg ltAns [.run 0 k] (start (SortLsw C s.len s) lwitM)).map hasPanic = some true →
      ∃ c, SortReaches C s ltCmp mg False lwitM c ∧ .panic ∈ c.ths := by
    intro C s k h
    simp only [Option.map_eq_some_iff] at h
    obtain ⟨c, h1, h2⟩ := h
    exact ⟨c, run_sound (P := lswPar C s ltCmp mg False) (le_refl mg) (fun _ _ _ _ _ => ltAns_ok) _ h1, mem_of_hasPanic h2⟩
  rcases hmg with rfl | rfl
  · exact ⟨key _ _ 13 (by decide +kernel), key _ _ 13 (by decide +kernel)⟩
  · exact ⟨key _ _ 20 (by decide +kernel), key _ _ 20 (by decide +kernel)⟩

/-- **C41, refuted for all lengths beyond the threshold.** With one goroutine and a length above about 10/11 of 2^63 (2^31 on
32-bit platforms), or with any `MaxGor` and a length above about 14/15 of it, no execution of Sort returns, whatever the
collection holds and the comparator answers: from every reachable point the call gets to use an index outside [0,n). -/
theorem C41_sort_too_long_violated (hC : C.OK) (hcmp : Tame cmp) (hint : s.len < 2 ^ (8 * C.wordSize - 1)) (hrec : C.maxLenRecFC < s.len)
    (hlong : (M ≤ 1 ∧ 10 * 2 ^ (8 * C.wordSize - 1) + 70 ≤ 11 * s.len) ∨ 14 * 2 ^ (8 * C.wordSize - 1) + 130 ≤ 15 * s.len)
    (hr : SortReaches C s cmp M stale m c) :
    ¬ Returned c ∧ ∃ c', Steps (lswPar C s cmp M stale) c c' ∧ .panic ∈ c'.ths := by
  obtain ⟨sh, p, rfl, h⟩ := Dies.steps (P := lswPar C s cmp M stale) (sh := ⟨m, 0, false⟩) (sortLsw_dies hcmp.ok hC hint hrec hlong) hr
  refine ⟨?_, h.panics⟩
  rintro ⟨l, hl⟩
  simp only [List.cons.injEq] at hl
  rw [hl.1] at h
  exact h

/-- C41 is violated on a 32-bit platform by 1.96 billion elements and one goroutine, and by 2.01 billion elements and 4 -/
example : (∃ c, SortReaches { demoC with wordSize := 4 } ⟨0, 1960000000⟩ ltCmp 1 False demoDesc c ∧ .panic ∈ c.ths) ∧
    ∃ c, SortReaches { demoC with wordSize := 4 } ⟨0, 2010000000⟩ ltCmp 4 False demoDesc c ∧ .panic ∈ c.ths := by
  have hC : Conf.OK { demoC with wordSize := 4 } := ⟨demoC_ok.sixb, demoC_ok.init, .inl rfl⟩
  exact ⟨(C41_sort_too_long_violated (s := ⟨0, 1960000000⟩) hC lt_strictWeak.tame (by norm_num) (by decide)
      (.inl ⟨le_rfl, by norm_num⟩) (.refl _)).2,
    (C41_sort_too_long_violated (s := ⟨0, 2010000000⟩) hC lt_strictWeak.tame (by norm_num) (by decide)
      (.inr (by norm_num)) (.refl _)).2⟩

/-- **C41, what does hold.** For lengths up to about 10/11 of 2^63 (2^31 on 32-bit platforms) Sort sorts: no goroutine panics or calls
`lsw` with an index outside [0,n), and on return no later element is less than an earlier one. -/
theorem C41_sort_length_partial (hC : C.OK) (hless : StrictWeak less) (hf : 11 * (s.len + 8) ≤ 10 * 2 ^ (8 * C.wordSize - 1))
    (hd : DepthFor C.depth s.len) (hr : SortReaches C s (byLess less) M stale m c) :
    ¬ Wrong c ∧ (Returned c → Ascending less (s.view c.sh.mem) ∧ (s.view c.sh.mem).Perm (s.view m)) :=
  ⟨((C08_sort_any_comparator hC hless.tame hf hd m M stale).2 c hr).2.1, C07_sort_strict_weak_order hC hless hf hd hr⟩

/-- C41 applies to a 32-bit platform and 1.95 billion elements -/
example : ∃ c, SortReaches { demoC with wordSize := 4 } ⟨0, 1950000000⟩ ltCmp 4 False demoDesc c ∧ Returned c ∧
    Ascending (· < ·) ((Slice.mk 0 1950000000).view c.sh.mem) := by
  have hC : Conf.OK { demoC with wordSize := 4 } := ⟨demoC_ok.sixb, demoC_ok.init, .inl rfl⟩
  have hf : FitsInt 4 1950000000 := by unfold FitsInt; norm_num
  have hd : DepthFor 64 1950000000 := by show Nat.log2 1950000000 + 2 ≤ 64; decide
  obtain ⟨c, h1, h2⟩ := sort_returns (s := ⟨0, 1950000000⟩) hC lt_strictWeak.tame hf hd demoDesc 4 False
  exact ⟨c, h1, h2, ((C41_sort_length_partial (s := ⟨0, 1950000000⟩) hC lt_strictWeak hf hd h1).2 h2).1⟩

variable {t : GoType} {m : Mem Cell} {c : Cfg Cell LSp} {c' : Cfg Cell (VSp Key)} {M' : Nat} {stale' : Prop}

theorem strictWeak_of_key {α β : Type} [LinearOrder β] (f : α → β) : StrictWeak (fun x y => f x < f y) where
  irrefl := fun _ => lt_irrefl _
  trans := fun _ _ _ => lt_trans
  incomp := fun x y z h1 h2 => by
    simp only [not_lt] at *
    exact ⟨h2.1.trans h1.1, h1.2.trans h2.2⟩

/-- **C39.** On integers, Sort with the natural comparator leaves exactly the slice SortSlice leaves. -/
theorem C39_ints_sort_eq_sortSlice (hC : C.OK) (ht : t.signed = true ∨ t.unsigned = true) (hs : SliceOf C.wordSize t s m)
    (hf : FitsInt C.wordSize s.len) (hd : DepthFor C.depth s.len)
    (hr : SortReaches C s (byLess fun x y => x.num t.signed < y.num t.signed) M stale m c) (hret : Returned c)
    (hr' : (SortSlice C (.slice t s)).Reaches M' stale' m c') (hret' : Returned c') :
    s.view c.sh.mem = s.view c'.sh.mem := by
  obtain ⟨a, p⟩ := C07_sort_strict_weak_order hC (strictWeak_of_key (Cell.num t.signed)) hf hd hr hret
  refine ((C28_ints_unique hC ht hs hd hr' hret').1 _ p ?_).symm
  unfold AscNum
  rw [List.pairwise_map]
  exact a.imp fun h => not_lt.1 h

theorem bytes_strictWeak : StrictWeak (fun x y : Cell => x.bytes < y.bytes) := by
  have h := strictWeak_of_key (fun x : Cell => x.bytes.map UInt8.toNat)
  refine ⟨fun x => ?_, fun x y z => ?_, fun x y z => ?_⟩
  · rw [bytes_lt_map]; exact h.irrefl x
  · simp only [bytes_lt_map]; exact h.trans x y z
  · simp only [bytes_lt_map]; exact h.incomp x y z

/-- **C39** for strings and byte slices: the same sequence of contents. -/
theorem C39_bytes_sort_eq_sortSlice (hC : C.OK) (ht : t.bytes = true) (hs : SliceOf C.wordSize t s m)
    (hf : FitsInt C.wordSize s.len) (hd : DepthFor C.depth s.len)
    (hr : SortReaches C s (byLess fun x y => x.bytes < y.bytes) M stale m c) (hret : Returned c)
    (hr' : (SortSlice C (.slice t s)).Reaches M' stale' m c') (hret' : Returned c') :
    (s.view c.sh.mem).map Cell.bytes = (s.view c'.sh.mem).map Cell.bytes := by
  obtain ⟨a, p⟩ := C07_sort_strict_weak_order hC bytes_strictWeak hf hd hr hret
  refine ((C28_bytes_unique hC ht hs hd hr' hret').1 _ p ?_).symm
  unfold AscBytes
  rw [List.pairwise_map]
  exact a

example : ∃ c c', SortReaches demoC demoS (byLess fun x y : Cell => x.num true < y.num true) 5 False demoInts c ∧ Returned c ∧
    (SortSlice demoC (.slice .int64 demoS)).Reaches 2 True demoInts c' ∧ Returned c' ∧ demoS.view c.sh.mem = demoS.view c'.sh.mem := by
  obtain ⟨c, h1, h2⟩ := sort_returns demoC_ok (strictWeak_of_key (Cell.num true)).tame demoS_fits demo_depth demoInts 5 False
  obtain ⟨c', h3, h4⟩ := sortJob_returns demoC_ok demoInts_job demo_depth 2 True
  exact ⟨c, c', h1, h2, h3, h4, C39_ints_sort_eq_sortSlice demoC_ok (.inl rfl) demoInts_typed demoS_fits demo_depth h1 h2 h3 h4⟩

example : ∃ c c', SortReaches demoC demoS (byLess fun x y : Cell => x.bytes < y.bytes) 5 False demoStrs c ∧ Returned c ∧
    (SortSlice demoC (.slice .string demoS)).Reaches 2 True demoStrs c' ∧ Returned c' ∧
    (demoS.view c.sh.mem).map Cell.bytes = (demoS.view c'.sh.mem).map Cell.bytes := by
  obtain ⟨c, h1, h2⟩ := sort_returns demoC_ok bytes_strictWeak.tame demoS_fits demo_depth demoStrs 5 False
  obtain ⟨c', h3, h4⟩ := sortJob_returns demoC_ok demoStrs_job demo_depth 2 True
  exact ⟨c, c', h1, h2, h3, h4, C39_bytes_sort_eq_sortSlice demoC_ok rfl demoStrs_typed demoS_fits demo_depth h1 h2 h3 h4⟩

end Sorty
