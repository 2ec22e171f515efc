import Verif.Props.Pure
import Verif.Props.Unique

/-! # Search on a slice that was sorted -/

namespace Sorty

variable {C : Conf} {t : GoType} {s : Slice} {m : Mem Cell} {M : Nat} {stale : Prop} {c : Cfg Cell (VSp Key)}

theorem countP_split {α : Type} (q : α → Bool) : ∀ (l : List α) (k : Nat), k ≤ l.length →
    (∀ j y, j < k → l[j]? = some y → q y = true) → (∀ j y, k ≤ j → l[j]? = some y → q y = false) → l.countP q = k
  | [], k, hk, _, _ => by simp at hk; simp [hk]
  | y :: l, 0, _, _, h2 => by
    rw [List.countP_cons_of_neg (by simp [h2 0 y le_rfl rfl])]
    exact countP_split q l 0 (by omega) (fun j _ h => by omega) (fun j z _ h => h2 (j + 1) z (by omega) (by simpa using h))
  | y :: l, k + 1, hk, h1, h2 => by
    rw [List.countP_cons_of_pos (h1 0 y (by omega) rfl)]
    rw [countP_split q l k (by simpa using hk) (fun j z hj h => h1 (j + 1) z (by omega) (by simpa using h))
      (fun j z hj h => h2 (j + 1) z (by omega) (by simpa using h))]

/-- the answer of a callback that looks at element `k` of `l` -/
def ask {α : Type} (l : List α) (p : α → Bool) (k : Int) (u : Unit) : Bool × Unit := ((l[k.toNat]?.map p).getD false, u)

/-- Search with a predicate that holds from some point on -/
theorem search_count {α : Type} (l : List α) (p : α → Bool) (hp : l.Pairwise fun x y => p x = true → p y = true) :
    ∃ calls, Search l.length (ask l p) () = some (((l.countP fun y => !p y : Nat) : Int), (), calls) ∧
      ∀ (j : Nat) y, l[j]? = some y → (p y = true ↔ l.countP (fun y => !p y) ≤ j) := by
  have hmono : ∀ (i j : Nat) x y, i ≤ j → l[i]? = some x → l[j]? = some y → p x = true → p y = true := by
    intro i j x y hij hi hj hx
    obtain ⟨hi', rfl⟩ := List.getElem?_eq_some_iff.1 hi
    obtain ⟨hj', rfl⟩ := List.getElem?_eq_some_iff.1 hj
    rcases Nat.lt_or_eq_of_le hij with h | rfl
    · exact List.pairwise_iff_getElem.1 hp i j hi' hj' h hx
    · exact hx
  have hask : ∀ k : Int, 0 ≤ k → k < l.length → ∀ y, l[k.toNat]? = some y → (ask l p k ()).1 = p y := by
    intro k _ _ y hy; simp [ask, hy]
  obtain ⟨k, calls, e, h1, h2⟩ := C26_search_boundary l.length (by omega) (fun k => (ask l p k ()).1) (by
    intro k h0 h1 hk
    obtain ⟨x, hx⟩ : ∃ x, l[k.toNat]? = some x := ⟨_, List.getElem?_eq_getElem (by omega)⟩
    obtain ⟨y, hy⟩ : ∃ y, l[(k + 1).toNat]? = some y := ⟨_, List.getElem?_eq_getElem (by omega)⟩
    rw [hask k h0 (by omega) x hx] at hk
    rw [hask (k + 1) (by omega) h1 y hy]
    exact hmono _ _ x y (by omega) hx hy hk)
  have key : 0 ≤ k ∧ k ≤ l.length ∧ ∀ (j : Nat) y, l[j]? = some y → (p y = true ↔ k ≤ j) := by
    by_cases hex : ∃ j : Int, 0 ≤ j ∧ j < l.length ∧ (ask l p j ()).1 = true
    · obtain ⟨k0, k1, k2, k3⟩ := h1 hex
      refine ⟨k0, by omega, fun j y hj => ⟨fun hy => ?_, fun hkj => ?_⟩⟩
      · have hl := (List.getElem?_eq_some_iff.1 hj).1
        exact k3 j (by omega) (by omega) (by rw [hask j (by omega) (by omega) y (by simpa using hj)]; exact hy)
      · obtain ⟨x, hx⟩ : ∃ x, l[k.toNat]? = some x := ⟨_, List.getElem?_eq_getElem (by omega)⟩
        rw [hask k k0 k1 x hx] at k2
        exact hmono _ _ x y (by omega) hx hj k2
    · push Not at hex
      have := h2 fun j j0 j1 => by simpa using hex j j0 j1
      subst this
      refine ⟨by omega, le_rfl, fun j y hj => ?_⟩
      have hl := (List.getElem?_eq_some_iff.1 hj).1
      have := hex j (by omega) (by omega)
      rw [hask j (by omega) (by omega) y (by simpa using hj)] at this
      exact ⟨fun h => absurd h this, fun h => by omega⟩
  obtain ⟨k0, k1, k2⟩ := key
  have hc : l.countP (fun y => !p y) = k.toNat := countP_split _ l k.toNat (by omega)
    (fun j y hj hy => by
      have := k2 j y hy
      cases hpy : p y
      · rfl
      · have := this.1 hpy; omega)
    (fun j y hj hy => by simp [(k2 j y hy).2 (by omega)])
  rw [hc]
  refine ⟨calls, ?_, fun j y hj => (k2 j y hj).trans (by omega)⟩
  rw [Int.toNat_of_nonneg k0, ← e]

/-- **C45.** After SortSlice on integers, Search with the callback "element k is at least x" returns the number of
elements of the original slice that are less than x; and x was in the slice exactly if it is now at that position. -/
theorem C45_search_ints (hC : C.OK) (ht : t.signed = true ∨ t.unsigned = true) (hs : SliceOf C.wordSize t s m)
    (hd : DepthFor C.depth s.len) (hr : (SortSlice C (.slice t s)).Reaches M stale m c) (hret : Returned c) (x : Int) :
    ∃ (k : Nat) (calls : List Int),
      Search s.len (ask (s.view c.sh.mem) fun y => decide (x ≤ y.num t.signed)) () = some ((k : Int), (), calls) ∧
      k = (s.view m).countP (fun y => decide (y.num t.signed < x)) ∧
      ((∃ y ∈ s.view m, y.num t.signed = x) ↔ ∃ y, (s.view c.sh.mem)[k]? = some y ∧ y.num t.signed = x) := by
  have hso : t.sortable = true := by rcases ht with h | h <;> simp [GoType.sortable, h]
  have hf : t.float = false := by
    rcases ht with h | h <;> cases t <;> simp [GoType.signed, GoType.unsigned] at h <;> rfl
  have p := (C02_sortSlice_permutes hC hso hs (by simp [NaNSafe, hf]) hd hr).1 hret
  have a := C01_sortSlice_ints_ascending hC ht hs hd hr hret
  set l := s.view c.sh.mem with hl
  have hlen : l.length = s.len := by simp [hl, Slice.view]
  have a' : l.Pairwise fun x y => x.num t.signed ≤ y.num t.signed := List.pairwise_map.1 a
  obtain ⟨calls, e, h⟩ := search_count l (fun y => decide (x ≤ y.num t.signed))
    (a'.imp fun h => by simp only [decide_eq_true_eq]; intro h'; omega)
  have hneg : (fun y : Cell => !decide (x ≤ y.num t.signed)) = fun y => decide (y.num t.signed < x) := by
    funext y; by_cases hh : x ≤ y.num t.signed <;> simp [hh, ← not_le]
  rw [hneg] at e h
  rw [hlen] at e
  refine ⟨_, calls, e, p.countP_eq _, ⟨?_, ?_⟩⟩
  · rintro ⟨y, hy, rfl⟩
    obtain ⟨j, hj, rfl⟩ := List.getElem_of_mem (p.mem_iff.2 hy)
    have h1 := (h j _ (List.getElem?_eq_getElem hj)).1 (by simp)
    set k := l.countP fun y => decide (y.num t.signed < l[j].num t.signed)
    have hk : k < l.length := by omega
    refine ⟨l[k], List.getElem?_eq_getElem hk, ?_⟩
    have h2 := (h k _ (List.getElem?_eq_getElem hk)).2 le_rfl
    simp only [decide_eq_true_eq] at h2
    have h3 : l[k].num t.signed ≤ l[j].num t.signed := by
      rcases Nat.lt_or_eq_of_le h1 with h1 | h1
      · exact List.pairwise_iff_getElem.1 a' k j hk hj h1
      · simp [h1]
    omega
  · rintro ⟨y, hy, h1⟩
    exact ⟨y, p.mem_iff.1 (List.mem_of_getElem? hy), h1⟩

/-- **C45** for strings and byte slices. -/
theorem C45_search_bytes (hC : C.OK) (ht : t.bytes = true) (hs : SliceOf C.wordSize t s m)
    (hd : DepthFor C.depth s.len) (hr : (SortSlice C (.slice t s)).Reaches M stale m c) (hret : Returned c) (x : List UInt8) :
    ∃ (k : Nat) (calls : List Int),
      Search s.len (ask (s.view c.sh.mem) fun y => decide (¬ y.bytes < x)) () = some ((k : Int), (), calls) ∧
      k = (s.view m).countP (fun y => decide (y.bytes < x)) ∧
      ((∃ y ∈ s.view m, y.bytes = x) ↔ ∃ y, (s.view c.sh.mem)[k]? = some y ∧ y.bytes = x) := by
  obtain ⟨a, p⟩ := C03_sortSlice_bytes_ascending hC ht hs hd hr hret
  set l := s.view c.sh.mem with hl
  have hlen : l.length = s.len := by simp [hl, Slice.view]
  have a' : l.Pairwise fun x y => ¬ y.bytes < x.bytes := List.pairwise_map.1 a
  have trans : ∀ {u v w : List UInt8}, ¬ v < u → ¬ w < v → ¬ w < u := by
    intro u v w h1 h2
    rw [bytes_lt_map] at *
    exact not_lt.2 (le_trans (not_lt.1 h1) (not_lt.1 h2))
  obtain ⟨calls, e, h⟩ := search_count l (fun y => decide (¬ y.bytes < x))
    (a'.imp fun h => by simp only [decide_eq_true_eq]; intro h'; exact trans h' h)
  have hneg : (fun y : Cell => !decide (¬ y.bytes < x)) = fun y => decide (y.bytes < x) := by
    funext y; by_cases hh : y.bytes < x <;> simp [hh]
  rw [hneg] at e h
  rw [hlen] at e
  refine ⟨_, calls, e, p.countP_eq _, ⟨?_, ?_⟩⟩
  · rintro ⟨y, hy, rfl⟩
    obtain ⟨j, hj, rfl⟩ := List.getElem_of_mem (p.mem_iff.2 hy)
    have h1 := (h j _ (List.getElem?_eq_getElem hj)).1 (by
      simp only [decide_eq_true_eq]; rw [bytes_lt_map]; exact lt_irrefl _)
    set k := l.countP fun y => decide (y.bytes < l[j].bytes)
    have hk : k < l.length := by omega
    refine ⟨l[k], List.getElem?_eq_getElem hk, ?_⟩
    have h2 := (h k _ (List.getElem?_eq_getElem hk)).2 le_rfl
    simp only [decide_eq_true_eq] at h2
    have h3 : ¬ l[j].bytes < l[k].bytes := by
      rcases Nat.lt_or_eq_of_le h1 with h1 | h1
      · exact List.pairwise_iff_getElem.1 a' k j hk hj h1
      · simp only [h1]; rw [bytes_lt_map]; exact lt_irrefl _
    exact bytes_antisymm h3 h2
  · rintro ⟨y, hy, h1⟩
    exact ⟨y, p.mem_iff.1 (List.mem_of_getElem? hy), h1⟩

/-- C45 applies: 3000 integers, sorted, and the place of 1000 among them -/
example : ∃ c, (SortSlice demoC (.slice .int64 demoS)).Reaches 5 False demoInts c ∧ Returned c ∧ ∃ (k : Nat) (calls : List Int),
    Search demoS.len (ask (demoS.view c.sh.mem) fun y => decide (1000 ≤ y.num true)) () = some ((k : Int), (), calls) ∧
    k = (demoS.view demoInts).countP (fun y => decide (y.num true < 1000)) := by
  obtain ⟨c, h1, h2⟩ := sortJob_returns demoC_ok demoInts_job demo_depth 5 False
  obtain ⟨k, calls, h3, h4, _⟩ := C45_search_ints demoC_ok (.inl rfl) demoInts_typed demo_depth h1 h2 1000
  exact ⟨c, h1, h2, k, calls, h3, h4⟩

/-- C45 applies to 3000 strings and the empty string -/
example : ∃ c, (SortSlice demoC (.slice .string demoS)).Reaches 5 False demoStrs c ∧ Returned c ∧ ∃ (k : Nat) (calls : List Int),
    Search demoS.len (ask (demoS.view c.sh.mem) fun y => decide (¬ y.bytes < [])) () = some ((k : Int), (), calls) ∧
    k = (demoS.view demoStrs).countP (fun y => decide (y.bytes < [])) := by
  obtain ⟨c, h1, h2⟩ := sortJob_returns demoC_ok demoStrs_job demo_depth 5 False
  obtain ⟨k, calls, h3, h4, _⟩ := C45_search_bytes demoC_ok rfl demoStrs_typed demo_depth h1 h2 []
  exact ⟨c, h1, h2, k, calls, h3, h4⟩

end Sorty
