import Verif.Proofs.Loads
import Verif.Props.Check
import Verif.Props.LswCheck

/-! # Checking needs no exclusive access -/

namespace Sorty

variable {C : Conf} {t : GoType} {s : Slice} {m : Mem Cell}

theorem agree_of_view {V : Type} {s : Slice} {m m' : Mem V} (h : s.view m' = s.view m) (i : Nat) (h1 : s.off ≤ i) (h2 : i < s.off + s.len) :
    m' i = m i := by
  have e := congrArg (fun l => l[i - s.off]?) h
  have hi : i - s.off < s.len := by omega
  simpa [Slice.view, hi, h1] using e

/-- **C48.** IsSortedSlice does nothing but load elements of its slice, so that it cannot race with other readers; and it
returns the answer for the contents of the slice, whatever other code does to the rest of memory meanwhile. -/
theorem C48_isSortedSlice_undisturbed (hC : C.OK) (ht : t.sortable = true) (hs : SliceOf C.wordSize t s m) :
    (IsSortedSlice C (.slice t s) : Prog Cell (VSp Key) Int).OnlyLoads s ∧
    ∃ i, Answers (IsSortedSlice C (.slice t s)) m i ∧ ∀ ms : Nat → Mem Cell, (∀ n, s.view (ms n) = s.view m) →
      AnswersWhile (IsSortedSlice C (.slice t s)) ms i := by
  obtain ⟨id, h⟩ := famOf_of_sortable (ws := C.wordSize) ht
  have hl : (IsSortedSlice C (.slice t s) : Prog Cell (VSp Key) Int).OnlyLoads s := by
    rw [isSortedSlice_eq hC h]; exact onlyLoads_isSortedOf _ _ _
  have hi : ∃ i, Answers (IsSortedSlice C (.slice t s)) m i := by
    by_cases hf : t.float = true
    · obtain ⟨i, h, -⟩ := C22_isSortedSlice_floats hC hf hs; exact ⟨i, h⟩
    · obtain ⟨i, h, -⟩ := C21_isSortedSlice_exact hC ht (by simpa using hf) hs; exact ⟨i, h⟩
  obtain ⟨i, h1, h2⟩ := hi
  exact ⟨hl, i, ⟨h1, h2⟩, fun ms hms => ⟨watch_of_observe hl (fun n => agree_of_view (hms n)) h1,
    watch_of_observe hl (fun n => agree_of_view (hms n)) h2⟩⟩

/-- **C48** for IsSortedLen. -/
theorem C48_isSortedLen_undisturbed (hC : C.OK) (ht : t.hasLen = true) (hs : SliceOf C.wordSize t s m) :
    (IsSortedLen C (.slice t s) : Prog Cell (VSp Key) Int).OnlyLoads s ∧
    ∃ i, Answers (IsSortedLen C (.slice t s)) m i ∧ ∀ ms : Nat → Mem Cell, (∀ n, s.view (ms n) = s.view m) →
      AnswersWhile (IsSortedLen C (.slice t s)) ms i := by
  obtain ⟨id, h⟩ := lfamOf_of_hasLen ht
  have hl : (IsSortedLen C (.slice t s) : Prog Cell (VSp Key) Int).OnlyLoads s := by
    rw [isSortedLen_eq hC h]; exact onlyLoads_isSortedOf _ _ _
  obtain ⟨i, ⟨h1, h2⟩, -⟩ := C23_isSortedLen_exact hC ht hs
  exact ⟨hl, i, ⟨h1, h2⟩, fun ms hms => ⟨watch_of_observe hl (fun n => agree_of_view (hms n)) h1,
    watch_of_observe hl (fun n => agree_of_view (hms n)) h2⟩⟩

/-- **C48** for IsSorted, with any repeatable comparator `ans`. -/
theorem C48_isSorted_undisturbed {V Sp : Type} {s : Slice} {ws : Nat} (hws : ws = 4 ∨ ws = 8) (hl : s.len < 2 ^ (8 * ws - 1))
    (ans : Nat → Nat → V → V → Bool) (m : Mem V) :
    (IsSorted ws s.len s : Prog V Sp Int).OnlyLoads s ∧
    ∃ i : Int, (IsSorted ws s.len s : Prog V Sp Int).observe ans m = some i ∧ ∀ ms : Nat → Mem V, (∀ n, s.view (ms n) = s.view m) →
      (IsSorted ws s.len s : Prog V Sp Int).watch ans ms = some i := by
  obtain ⟨i, h, -⟩ := C24_isSorted_exact (Sp := Sp) hws hl ans m
  have ho : (IsSorted ws s.len s : Prog V Sp Int).OnlyLoads s := onlyLoads_isSorted _ _ _
  exact ⟨ho, i, h, fun ms hms => watch_of_observe ho (fun n => agree_of_view (hms n)) h⟩

/-- memory in which everything outside `demoS` changes with every step -/
def busy (m : Mem Cell) (n : Nat) : Mem Cell := fun a => if 10 ≤ a ∧ a < 3010 then m a else .w64 (BitVec.ofNat 64 (a + n))

theorem busy_view (m : Mem Cell) (n : Nat) : demoS.view (busy m n) = demoS.view m := by
  unfold Slice.view
  refine List.map_congr_left fun j hj => ?_
  have hj' : j < 3000 := List.mem_range.1 hj
  show (if 10 ≤ 10 + j ∧ 10 + j < 3010 then _ else _) = _
  rw [if_pos (by omega)]

/-- C48 applies to 3000 descending integers, with a busy neighbourhood -/
example : ∃ i, Answers (IsSortedSlice demoC (.slice .int64 demoS)) demoInts i ∧
    AnswersWhile (IsSortedSlice demoC (.slice .int64 demoS)) (busy demoInts) i := by
  obtain ⟨-, i, h1, h2⟩ := C48_isSortedSlice_undisturbed demoC_ok rfl demoInts_typed
  exact ⟨i, h1, h2 _ (busy_view _)⟩

/-- C48 applies to 3000 strings -/
example : ∃ i, Answers (IsSortedLen demoC (.slice .string demoS)) demoStrs i ∧
    AnswersWhile (IsSortedLen demoC (.slice .string demoS)) (busy demoStrs) i := by
  obtain ⟨-, i, h1, h2⟩ := C48_isSortedLen_undisturbed demoC_ok rfl demoStrs_typed
  exact ⟨i, h1, h2 _ (busy_view _)⟩

/-- C48 applies to IsSorted with a comparator that is no order -/
example : ∃ i : Int, (IsSorted 8 demoS.len demoS : Prog Cell LSp Int).watch (fun i k _ _ => i % 3 < k % 5) (busy demoInts) = some i := by
  obtain ⟨-, i, -, h⟩ := C48_isSorted_undisturbed (Sp := LSp) (s := demoS) (ws := 8) (.inr rfl) (by decide) (fun i k _ _ => i % 3 < k % 5) demoInts
  exact ⟨i, h _ (busy_view _)⟩

end Sorty
