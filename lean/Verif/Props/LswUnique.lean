import Verif.Props.LswCheck
import Mathlib.Order.Antisymmetrization

/-! # What Sort leaves is determined up to elements that the comparator does not distinguish -/

namespace Sorty

variable {V : Type} {C : Conf} {s : Slice} {m : Mem V} {less : V → V → Prop} {M : Nat} {stale : Prop} {c : Cfg V LSp}

theorem ascending_unique (hless : StrictWeak less) {l l' : List V} (hp : l.Perm l') (h : Ascending less l) (h' : Ascending less l') :
    List.Forall₂ (fun x y => ¬ less x y ∧ ¬ less y x) l l' := by
  let _ := hless.pre
  have e : l.map (toAntisymmetrization (α := V) (· ≤ ·)) = l'.map (toAntisymmetrization (α := V) (· ≤ ·)) := by
    refine (hp.map _).eq_of_pairwise' (r := (· ≤ ·)) (List.pairwise_map.2 ?_) (List.pairwise_map.2 ?_)
    · exact List.Pairwise.imp (R := fun x y : V => ¬ less y x) (fun h => toAntisymmetrization_le_toAntisymmetrization_iff.2 h) h
    · exact List.Pairwise.imp (R := fun x y : V => ¬ less y x) (fun h => toAntisymmetrization_le_toAntisymmetrization_iff.2 h) h'
  rw [← List.forall₂_eq_eq_eq, List.forall₂_map_left_iff, List.forall₂_map_right_iff] at e
  refine e.imp fun x y hxy => ?_
  have := Quotient.exact hxy
  exact ⟨this.2, this.1⟩

/-- **C28** for Sort: for a strict weak order, what Sort leaves is the same for every schedule and every number of goroutines, and the same as any
other ascending permutation of the input, up to elements that `less` does not distinguish. If it distinguishes all different elements, the
result is unique. -/
theorem C28_sort_unique (hC : C.OK) (hless : StrictWeak less) (hf : FitsInt C.wordSize s.len) (hd : DepthFor C.depth s.len)
    (hr : SortReaches C s (byLess less) M stale m c) (hret : Returned c) :
    (∀ l : List V, l.Perm (s.view m) → Ascending less l → List.Forall₂ (fun x y => ¬ less x y ∧ ¬ less y x) (s.view c.sh.mem) l) ∧
    (∀ M' stale' c', SortReaches C s (byLess less) M' stale' m c' → Returned c' →
      List.Forall₂ (fun x y => ¬ less x y ∧ ¬ less y x) (s.view c.sh.mem) (s.view c'.sh.mem)) ∧
    ((∀ x ∈ s.view m, ∀ y ∈ s.view m, less x y ∨ less y x ∨ x = y) →
      ∀ M' stale' c', SortReaches C s (byLess less) M' stale' m c' → Returned c' → s.view c'.sh.mem = s.view c.sh.mem) := by
  obtain ⟨a, p⟩ := C07_sort_strict_weak_order hC hless hf hd hr hret
  have h1 : ∀ l : List V, l.Perm (s.view m) → Ascending less l → List.Forall₂ (fun x y => ¬ less x y ∧ ¬ less y x) (s.view c.sh.mem) l :=
    fun l hl hal => ascending_unique hless (p.trans hl.symm) a hal
  refine ⟨h1, fun M' stale' c' hr' hret' => ?_, fun ht M' stale' c' hr' hret' => ?_⟩
  · obtain ⟨a', p'⟩ := C07_sort_strict_weak_order hC hless hf hd hr' hret'
    exact h1 _ p' a'
  · obtain ⟨a', p'⟩ := C07_sort_strict_weak_order hC hless hf hd hr' hret'
    refine (p'.trans p.symm).eq_of_pairwise (fun x y hx hy h2 h3 => ?_) a' a
    rcases ht x (p'.mem_iff.1 hx) y (p.mem_iff.1 hy) with h | h | h
    · exact absurd h h3
    · exact absurd h h2
    · exact h

example : ∃ c c', SortReaches demoC demoS ltCmp 1 False demoDesc c ∧ Returned c ∧ SortReaches demoC demoS ltCmp 8 True demoDesc c' ∧ Returned c' ∧
    demoS.view c'.sh.mem = demoS.view c.sh.mem := by
  obtain ⟨c, h1, h2⟩ := sort_returns demoC_ok lt_strictWeak.tame demoS_fits demo_depth demoDesc 1 False
  obtain ⟨c', h3, h4⟩ := sort_returns demoC_ok lt_strictWeak.tame demoS_fits demo_depth demoDesc 8 True
  exact ⟨c, c', h1, h2, h3, h4, (C28_sort_unique demoC_ok lt_strictWeak demoS_fits demo_depth h1 h2).2.2
    (fun x _ y _ => by omega) 8 True c' h3 h4⟩

end Sorty
