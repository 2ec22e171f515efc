import Verif.Props.FloatUnique
import Verif.Props.LswCheck
import Verif.Props.SearchSorted

/-! # Search on floats and lengths that were sorted, and Sort against SortSlice on floats -/

namespace Sorty

variable {C : Conf} {t : GoType} {s : Slice} {m : Mem Cell} {M M' : Nat} {stale stale' : Prop} {c c' : Cfg Cell (VSp Key)}

/-- Search in a list ascending by a key -/
theorem search_key {α β : Type} [LinearOrder β] (f : α → β) (l l₀ : List α) (hp : l.Perm l₀)
    (hl : l.Pairwise fun x y => f x ≤ f y) (x : β) (p : α → Bool) (hpx : ∀ y, p y = true ↔ x ≤ f y) :
    ∃ (k : Nat) (calls : List Int), Search l.length (ask l p) () = some ((k : Int), (), calls) ∧
      k = l₀.countP (fun y => !p y) ∧ ((∃ y ∈ l₀, f y = x) ↔ ∃ y, l[k]? = some y ∧ f y = x) := by
  obtain ⟨calls, e, h⟩ := search_count l p (hl.imp fun h => by simp only [hpx]; exact fun h' => h'.trans h)
  refine ⟨_, calls, e, hp.countP_eq _, ⟨?_, ?_⟩⟩
  · rintro ⟨y, hy, rfl⟩
    obtain ⟨j, hj, rfl⟩ := List.getElem_of_mem (hp.mem_iff.2 hy)
    have h1 := (h j _ (List.getElem?_eq_getElem hj)).1 ((hpx _).2 le_rfl)
    set k := l.countP fun y => !p y
    have hk : k < l.length := by omega
    refine ⟨l[k], List.getElem?_eq_getElem hk, ?_⟩
    have h2 := (hpx _).1 ((h k _ (List.getElem?_eq_getElem hk)).2 le_rfl)
    refine le_antisymm ?_ h2
    rcases Nat.lt_or_eq_of_le h1 with h1 | h1
    · exact List.pairwise_iff_getElem.1 hl k j hk hj h1
    · simp [h1]
  · rintro ⟨y, hy, h1⟩
    exact ⟨y, hp.mem_iff.1 (List.mem_of_getElem? hy), h1⟩

/-- **C45** for SortLen: Search with the callback "element k is at least x long" returns the number of elements of the
original slice that are shorter than x. -/
theorem C45_search_lengths (hC : C.OK) (ht : t.hasLen = true) (hs : SliceOf C.wordSize t s m)
    (hd : DepthFor C.depth s.len) (hr : (SortLen C (.slice t s)).Reaches M stale m c) (hret : Returned c) (x : Nat) :
    ∃ (k : Nat) (calls : List Int),
      Search s.len (ask (s.view c.sh.mem) fun y => decide (x ≤ y.length)) () = some ((k : Int), (), calls) ∧
      k = (s.view m).countP (fun y => decide (y.length < x)) ∧
      ((∃ y ∈ s.view m, y.length = x) ↔ ∃ y, (s.view c.sh.mem)[k]? = some y ∧ y.length = x) := by
  obtain ⟨a, p, -⟩ := C06_sortLen hC ht hs hd hr hret
  obtain ⟨k, calls, e, h1, h2⟩ := search_key Cell.length (s.view c.sh.mem) (s.view m) p (List.pairwise_map.1 a) x
    (fun y => decide (x ≤ y.length)) (fun y => by simp)
  refine ⟨k, calls, by rw [← e]; simp [Slice.view], ?_, h2⟩
  rw [h1]
  refine List.countP_congr fun y _ => ?_
  simp

/-- the order in which NaNs are larger than all numbers -/
noncomputable def keyLarge (y : Cell) : WithTop (WithBot (WithTop ℚ)) := y.reading

/-- the order in which NaNs are smaller than all numbers -/
noncomputable def keySmall (y : Cell) : WithBot (WithBot (WithTop ℚ)) := y.reading

theorem leLarge_le : ∀ {x y : Option (WithBot (WithTop ℚ))}, leLarge x y →
    (show WithTop (WithBot (WithTop ℚ)) from x) ≤ (show WithTop (WithBot (WithTop ℚ)) from y)
  | _, none, _ => le_top
  | some _, some _, h => WithTop.coe_le_coe.2 h

theorem leSmall_le : ∀ {x y : Option (WithBot (WithTop ℚ))}, leSmall x y →
    (show WithBot (WithBot (WithTop ℚ)) from x) ≤ (show WithBot (WithBot (WithTop ℚ)) from y)
  | none, _, _ => bot_le
  | some _, some _, h => WithBot.coe_le_coe.2 h

/-- what SortSlice leaves is ascending with NaNs as the largest -/
theorem sorted_large (hC : C.OK) (ht : t.float = true) (ho : C.nanOption = 1 ∨ ∀ e ∈ s.view m, ¬ e.ieeeNaN)
    (hs : SliceOf C.wordSize t s m) (hd : DepthFor C.depth s.len) (hr : (SortSlice C (.slice t s)).Reaches M stale m c)
    (hret : Returned c) : (s.view c.sh.mem).Pairwise fun x y => keyLarge x ≤ keyLarge y := by
  have : ((s.view c.sh.mem).map Cell.reading).Pairwise leLarge := by
    by_cases hn : ∀ e ∈ s.view m, ¬ e.ieeeNaN
    · have h := C40_sortSlice_no_NaN hC ht hn hs hd hr hret
      have p := (C35_sortSlice_no_NaN hC ht (fun e he => mt (isNaN_ieee e).1 (hn e he)) hs hd hr hret).2
      have hl : (s.view c.sh.mem).length ≤ s.len := by simp [Slice.view]
      exact reading_large (k := s.len) (fun e he => hn e (p.mem_iff.1 (List.mem_of_mem_take he)))
        (by rw [List.take_of_length_le hl]; exact h) (fun e he => by simp [List.drop_eq_nil_of_le hl] at he)
    · obtain ⟨k, -, h1, h2, h3⟩ := C40_sortSlice_NaNlarge hC ht (ho.resolve_right hn) hs hd hr hret
      exact reading_large h1 h2 h3
  exact (List.pairwise_map.1 this).imp leLarge_le

/-- what SortSlice leaves is ascending with NaNs as the smallest -/
theorem sorted_small (hC : C.OK) (ht : t.float = true) (ho : C.nanOption = -1 ∨ ∀ e ∈ s.view m, ¬ e.ieeeNaN)
    (hs : SliceOf C.wordSize t s m) (hd : DepthFor C.depth s.len) (hr : (SortSlice C (.slice t s)).Reaches M stale m c)
    (hret : Returned c) : (s.view c.sh.mem).Pairwise fun x y => keySmall x ≤ keySmall y := by
  have : ((s.view c.sh.mem).map Cell.reading).Pairwise leSmall := by
    by_cases hn : ∀ e ∈ s.view m, ¬ e.ieeeNaN
    · have h := C40_sortSlice_no_NaN hC ht hn hs hd hr hret
      have p := (C35_sortSlice_no_NaN hC ht (fun e he => mt (isNaN_ieee e).1 (hn e he)) hs hd hr hret).2
      exact reading_small (k := 0) (by simp) (fun e he => hn e (p.mem_iff.1 (by simpa using he))) (by simpa using h)
    · obtain ⟨k, -, h1, h2, h3⟩ := C40_sortSlice_NaNsmall hC ht (ho.resolve_right hn) hs hd hr hret
      exact reading_small h1 h2 h3
  exact (List.pairwise_map.1 this).imp leSmall_le

theorem sorted_perm (hC : C.OK) (ht : t.float = true)
    (ho : C.nanOption = 1 ∨ C.nanOption = -1 ∨ ∀ e ∈ s.view m, ¬ e.ieeeNaN)
    (hs : SliceOf C.wordSize t s m) (hd : DepthFor C.depth s.len) (hr : (SortSlice C (.slice t s)).Reaches M stale m c)
    (hret : Returned c) : (s.view c.sh.mem).Perm (s.view m) := by
  refine (C02_sortSlice_permutes hC (by simp [GoType.sortable, ht]) hs (fun _ => ?_) hd hr).1 hret
  rcases ho with h | h | h
  · exact .inl h
  · exact .inr (.inl h)
  · exact .inr (.inr fun e he => mt (isNaN_ieee e).1 (h e he))

open Classical in
/-- **C45** for floats with the NaNs behind, or none: Search with the callback "element k is not less than x" returns the
number of elements of the original slice that are numbers less than x. -/
theorem C45_search_floats_NaNlarge (hC : C.OK) (ht : t.float = true)
    (ho : C.nanOption = 1 ∨ ∀ e ∈ s.view m, ¬ e.ieeeNaN) (hs : SliceOf C.wordSize t s m)
    (hd : DepthFor C.depth s.len) (hr : (SortSlice C (.slice t s)).Reaches M stale m c) (hret : Returned c)
    (x : WithBot (WithTop ℚ)) :
    ∃ (k : Nat) (calls : List Int),
      Search s.len (ask (s.view c.sh.mem) fun y => decide (¬ (¬ y.ieeeNaN ∧ y.value < x))) () = some ((k : Int), (), calls) ∧
      k = (s.view m).countP (fun y => decide (¬ y.ieeeNaN ∧ y.value < x)) ∧
      ((∃ y ∈ s.view m, ¬ y.ieeeNaN ∧ y.value = x) ↔
        ∃ y, (s.view c.sh.mem)[k]? = some y ∧ ¬ y.ieeeNaN ∧ y.value = x) := by
  have p := sorted_perm hC ht (ho.imp_right .inr) hs hd hr hret
  have a := sorted_large hC ht ho hs hd hr hret
  have hk : ∀ y : Cell, (x : WithTop (WithBot (WithTop ℚ))) ≤ keyLarge y ↔ ¬ (¬ y.ieeeNaN ∧ y.value < x) := by
    intro y
    unfold keyLarge Cell.reading
    split_ifs with h
    · simp only [h, not_true_eq_false, false_and, not_false_eq_true, iff_true]; exact le_top
    · simp only [h, not_false_eq_true, true_and, not_lt]; exact WithTop.coe_le_coe
  have he : ∀ y : Cell, keyLarge y = (x : WithTop (WithBot (WithTop ℚ))) ↔ ¬ y.ieeeNaN ∧ y.value = x := by
    intro y
    unfold keyLarge Cell.reading
    split_ifs with h
    · simp only [h, not_true_eq_false, false_and, iff_false]; exact fun h => Option.noConfusion rfl (heq_of_eq h)
    · simp only [h, not_false_eq_true, true_and]; exact WithTop.coe_inj
  obtain ⟨k, calls, e, h1, h2⟩ := search_key keyLarge (s.view c.sh.mem) (s.view m) p a x
    (fun y => decide (¬ (¬ y.ieeeNaN ∧ y.value < x))) (fun y => by rw [decide_eq_true_eq, hk])
  refine ⟨k, calls, by rw [← e]; simp [Slice.view], ?_, by simpa only [he] using h2⟩
  rw [h1]
  refine List.countP_congr fun y _ => ?_
  simp only [decide_not, Bool.not_not]

open Classical in
/-- **C45** for floats with the NaNs in front, or none: Search with the callback "element k is at least x" returns the
number of elements of the original slice that are NaNs or less than x. -/
theorem C45_search_floats_NaNsmall (hC : C.OK) (ht : t.float = true)
    (ho : C.nanOption = -1 ∨ ∀ e ∈ s.view m, ¬ e.ieeeNaN) (hs : SliceOf C.wordSize t s m)
    (hd : DepthFor C.depth s.len) (hr : (SortSlice C (.slice t s)).Reaches M stale m c) (hret : Returned c)
    (x : WithBot (WithTop ℚ)) :
    ∃ (k : Nat) (calls : List Int),
      Search s.len (ask (s.view c.sh.mem) fun y => decide (¬ y.ieeeNaN ∧ x ≤ y.value)) () = some ((k : Int), (), calls) ∧
      k = (s.view m).countP (fun y => decide (y.ieeeNaN ∨ y.value < x)) ∧
      ((∃ y ∈ s.view m, ¬ y.ieeeNaN ∧ y.value = x) ↔
        ∃ y, (s.view c.sh.mem)[k]? = some y ∧ ¬ y.ieeeNaN ∧ y.value = x) := by
  have p := sorted_perm hC ht (.inr ho) hs hd hr hret
  have a := sorted_small hC ht ho hs hd hr hret
  have hk : ∀ y : Cell, (x : WithBot (WithBot (WithTop ℚ))) ≤ keySmall y ↔ ¬ y.ieeeNaN ∧ x ≤ y.value := by
    intro y
    unfold keySmall Cell.reading
    split_ifs with h
    · simp only [h, not_true_eq_false, false_and, iff_false]; exact WithBot.not_coe_le_bot x
    · simp only [h, not_false_eq_true, true_and]; exact WithBot.coe_le_coe
  have he : ∀ y : Cell, keySmall y = (x : WithBot (WithBot (WithTop ℚ))) ↔ ¬ y.ieeeNaN ∧ y.value = x := by
    intro y
    unfold keySmall Cell.reading
    split_ifs with h
    · simp only [h, not_true_eq_false, false_and, iff_false]; exact fun h => Option.noConfusion rfl (heq_of_eq h)
    · simp only [h, not_false_eq_true, true_and]; exact WithBot.coe_inj
  obtain ⟨k, calls, e, h1, h2⟩ := search_key keySmall (s.view c.sh.mem) (s.view m) p a x
    (fun y => decide (¬ y.ieeeNaN ∧ x ≤ y.value)) (fun y => by rw [decide_eq_true_eq, hk])
  refine ⟨k, calls, by rw [← e]; simp [Slice.view], ?_, by simpa only [he] using h2⟩
  rw [h1]
  refine List.countP_congr fun y _ => ?_
  by_cases h : y.ieeeNaN <;> simp [h]

/-- a float comparator in user code: NaNs behind the numbers -/
def floatLess (x y : Cell) : Prop := ¬ x.ieeeNaN ∧ (y.ieeeNaN ∨ x.value < y.value)

theorem floatLess_key (x y : Cell) : floatLess x y ↔ keyLarge x < keyLarge y := by
  unfold floatLess keyLarge Cell.reading
  by_cases hx : x.ieeeNaN <;> by_cases hy : y.ieeeNaN <;> simp only [hx, hy, if_true, if_false, not_true_eq_false,
    not_false_eq_true, false_and, true_and, true_or, false_or, true_iff, false_iff]
  · exact lt_irrefl _
  · exact not_top_lt
  · exact WithTop.coe_lt_top _
  · exact WithTop.coe_lt_coe.symm

theorem floatLess_weak : StrictWeak floatLess := by
  have e : floatLess = fun x y => keyLarge x < keyLarge y := by
    funext x y; exact propext (floatLess_key x y)
  rw [e]
  exact strictWeak_of_key keyLarge

/-- **C39** for floats: Sort with the comparator "x is less than y, or y and not x is NaN" leaves the numbers SortSlice
leaves under NaNlarge, each where SortSlice leaves it, and NaNs where it leaves NaNs. -/
theorem C39_floats_sort_eq_sortSlice {c : Cfg Cell LSp} (hC : C.OK) (ht : t.float = true) (hs : SliceOf C.wordSize t s m)
    (ho : C.nanOption = 1 ∨ ∀ e ∈ s.view m, ¬ e.ieeeNaN)
    (hf : FitsInt C.wordSize s.len) (hd : DepthFor C.depth s.len)
    (hr : SortReaches C s (byLess fun x y => ¬ x.ieeeNaN ∧ (y.ieeeNaN ∨ x.value < y.value)) M stale m c) (hret : Returned c)
    (hr' : (SortSlice C (.slice t s)).Reaches M' stale' m c') (hret' : Returned c') :
    (s.view c.sh.mem).map Cell.reading = (s.view c'.sh.mem).map Cell.reading := by
  obtain ⟨a, p⟩ := C07_sort_strict_weak_order hC floatLess_weak hf hd hr hret
  have p' := sorted_perm hC ht (ho.imp_right .inr) hs hd hr' hret'
  have a' := sorted_large hC ht ho hs hd hr' hret'
  have a1 : ((s.view c.sh.mem).map keyLarge).Pairwise (· ≤ ·) :=
    List.pairwise_map.2 (a.imp fun h => not_lt.1 (mt (floatLess_key _ _).2 h))
  have e : (s.view c.sh.mem).map keyLarge = (s.view c'.sh.mem).map keyLarge :=
    ((p.trans p'.symm).map keyLarge).eq_of_pairwise' a1 (List.pairwise_map.2 a')
  exact e

/-- lengths of 3000 strings -/
example : ∃ c, (SortLen demoC (.slice .string demoS)).Reaches 5 False demoStrs c ∧ Returned c ∧ ∃ (k : Nat) (calls : List Int),
    Search demoS.len (ask (demoS.view c.sh.mem) fun y => decide (2 ≤ y.length)) () = some ((k : Int), (), calls) ∧
    k = (demoS.view demoStrs).countP (fun y => decide (y.length < 2)) := by
  obtain ⟨c, h1, h2⟩ := sortJob_returns demoC_ok demoLens_job demo_depth 5 False
  obtain ⟨k, calls, h3, h4, _⟩ := C45_search_lengths demoC_ok rfl demoStrs_typed demo_depth h1 h2 2
  exact ⟨c, h1, h2, k, calls, h3, h4⟩

open Classical in
/-- 3000 floats, many of them NaNs, under NaNlarge: where 0 is -/
example : ∃ c, (SortSlice { demoC with nanOption := 1 } (.slice .float64 demoS)).Reaches 5 False demoFloats c ∧ Returned c ∧
    ∃ (k : Nat) (calls : List Int),
      Search demoS.len (ask (demoS.view c.sh.mem) fun y => decide (¬ (¬ y.ieeeNaN ∧ y.value < 0))) () = some ((k : Int), (), calls) ∧
      k = (demoS.view demoFloats).countP (fun y => decide (¬ y.ieeeNaN ∧ y.value < 0)) := by
  obtain ⟨c, h1, h2⟩ := sortJob_returns (demoC_ok' 1) (demoFloats_job 1 (.inl rfl)) (demo_depth' 1) 5 False
  obtain ⟨k, calls, h3, h4, _⟩ := C45_search_floats_NaNlarge (demoC_ok' 1) rfl (.inl rfl) (demoFloats_typed 1) (demo_depth' 1) h1 h2 0
  exact ⟨c, h1, h2, k, calls, h3, h4⟩

open Classical in
/-- and under NaNsmall -/
example : ∃ c, (SortSlice { demoC with nanOption := -1 } (.slice .float64 demoS)).Reaches 5 False demoFloats c ∧ Returned c ∧
    ∃ (k : Nat) (calls : List Int),
      Search demoS.len (ask (demoS.view c.sh.mem) fun y => decide (¬ y.ieeeNaN ∧ 0 ≤ y.value)) () = some ((k : Int), (), calls) ∧
      k = (demoS.view demoFloats).countP (fun y => decide (y.ieeeNaN ∨ y.value < 0)) := by
  obtain ⟨c, h1, h2⟩ := sortJob_returns (demoC_ok' (-1)) (demoFloats_job (-1) (.inr rfl)) (demo_depth' (-1)) 5 False
  obtain ⟨k, calls, h3, h4, _⟩ :=
    C45_search_floats_NaNsmall (demoC_ok' (-1)) rfl (.inl rfl) (demoFloats_typed (-1)) (demo_depth' (-1)) h1 h2 0
  exact ⟨c, h1, h2, k, calls, h3, h4⟩

/-- 3000 floats, many of them NaNs, sorted by Sort and by SortSlice -/
example : ∃ c c', SortReaches { demoC with nanOption := 1 } demoS
      (byLess fun x y => ¬ x.ieeeNaN ∧ (y.ieeeNaN ∨ x.value < y.value)) 5 False demoFloats c ∧ Returned c ∧
    (SortSlice { demoC with nanOption := 1 } (.slice .float64 demoS)).Reaches 2 True demoFloats c' ∧ Returned c' ∧
    (demoS.view c.sh.mem).map Cell.reading = (demoS.view c'.sh.mem).map Cell.reading := by
  have hw : StrictWeak (fun x y : Cell => ¬ x.ieeeNaN ∧ (y.ieeeNaN ∨ x.value < y.value)) := floatLess_weak
  obtain ⟨c, h1, h2⟩ := sort_returns (demoC_ok' 1) hw.tame demoS_fits (demo_depth' 1) demoFloats 5 False
  obtain ⟨c', h3, h4⟩ := sortJob_returns (demoC_ok' 1) (demoFloats_job 1 (.inl rfl)) (demo_depth' 1) 2 True
  exact ⟨c, c', h1, h2, h3, h4,
    C39_floats_sort_eq_sortSlice (demoC_ok' 1) rfl (demoFloats_typed 1) (.inl rfl) demoS_fits (demo_depth' 1) h1 h2 h3 h4⟩

end Sorty
