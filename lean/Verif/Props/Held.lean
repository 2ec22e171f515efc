import Verif.Proofs.Held
import Verif.Props.Conc
import Verif.Props.Swaps

/-! # Where the elements are while a sort runs -/

namespace Sorty

variable {C : Conf} {s : Slice} {m : Mem Cell} {call : Call} {sorted : List Cell → Prop} {M : Nat} {stale : Prop} {c : Cfg Cell (VSp Key)}

/-- **C67.** At any time of any execution of SortSlice or SortLen: all original elements are in the slice, except for at most one for each
goroutine that is about to access the slice (which holds it in a local variable); the slice contains nothing but original elements; if no goroutine
is about to access it, it is a permutation of the original; and nothing else in memory has changed. -/
theorem C67_elements_stay (hC : C.OK) (J : SortJob C s m call sorted) (hd : DepthFor C.depth s.len) (hr : call.Reaches M stale m c) :
    (∃ held : List Cell, held.length ≤ accessing c ∧ (s.view m).Subperm (s.view c.sh.mem ++ held)) ∧
    (∀ x ∈ s.view c.sh.mem, x ∈ s.view m) ∧
    (accessing c = 0 → (s.view c.sh.mem).Perm (s.view m)) ∧
    ∀ a, a < s.off ∨ s.off + s.len ≤ a → c.sh.mem a = m a := by
  have HR := fun c hr => C09_no_race (c := c) (M := M) (stale := stale) hC J hd hr
  obtain ⟨id, rfl, _⟩ := J.fam hC
  obtain ⟨μ, Hs, h⟩ := Holes.reach (P := (famCall C id s).par M stale) HR (cl_sortOf C id (subset_refl s.rng)) (fun sp hsp => cl_vbody _ _ sp hsp) hr
  exact h.outcome

/-- **C67** for Sort: at any time all original elements are in the collection, except for at most one for each goroutine
that is about to access it. -/
theorem C67_sort_elements_stay {V : Type} {cmp : Cmp V} {m : Mem V} {c : Cfg V LSp} (hC : C.OK) (hcmp : Tame cmp) (hf : FitsInt C.wordSize s.len)
    (hd : DepthFor C.depth s.len) (hr : SortReaches C s cmp M stale m c) :
    (∃ held : List V, held.length ≤ accessing c ∧ (s.view m).Subperm (s.view c.sh.mem ++ held)) ∧
    (∀ x ∈ s.view c.sh.mem, x ∈ s.view m) ∧
    (accessing c = 0 → (s.view c.sh.mem).Perm (s.view m)) ∧
    ∀ a, a < s.off ∨ s.off + s.len ≤ a → c.sh.mem a = m a := by
  obtain ⟨μ, Hs, h⟩ := Holes.reach (P := lswPar C s cmp M stale) (fun c hc => C10_sort_no_race hC hcmp hf hd hc)
    (SwapsIn.cl (swaps_sort (C := C) (s := s) s.len)) (fun sp _ => SwapsIn.cl (swaps_body sp)) hr
  exact h.outcome

/-- C67 applies to a state of Sort in which four goroutines are about to access elements -/
example : ∃ c, SortReaches demoC lwitS ltCmp 3 False lwitM c ∧ accessing c = 4 ∧
    ∃ held : List Nat, held.length ≤ 4 ∧ (lwitS.view lwitM).Subperm (lwitS.view c.sh.mem ++ held) := by
  obtain ⟨c, h1, h2⟩ := lwit_reaches
  exact ⟨c, h1, h2, h2 ▸ (C67_sort_elements_stay demoC_ok lt_strictWeak.tame lwit_fits lwit_depth h1).1⟩

/-- descending integers -/
def heldM : Mem Cell := fun a => .w64 (BitVec.ofNat 64 (5000 - a))

theorem held_job : SortJob demoC witS heldM witCall (SortedFor demoC .int64) :=
  .slice .int64 rfl ⟨demo_view_all fun _ => ⟨_, rfl⟩, by decide⟩ (by simp [NaNSafe, GoType.float])

/-- two goroutines, two elements out of the slice -/
def heldCheck (c : Cfg Cell (VSp Key)) : Bool :=
  accessing c = 2 && decide (heldM 600 ∉ witS.view c.sh.mem) && decide (heldM 601 ∉ witS.view c.sh.mem)

theorem held_run : (run witCall.body 3 (fun _ _ _ _ => none) [.run 0 16, .run 1 5] (start witCall.main heldM)).map heldCheck = some true := by
  decide +kernel

/-- **C67, the bound is attained**: sorting 2404 descending integers, two goroutines are about to access the slice and two elements are
not in it. -/
theorem C67_two_elements_out : ∃ c, witCall.Reaches 3 False heldM c ∧ accessing c = 2 ∧ heldM 600 ∈ witS.view heldM ∧ heldM 601 ∈ witS.view heldM ∧
    heldM 600 ≠ heldM 601 ∧ heldM 600 ∉ witS.view c.sh.mem ∧ heldM 601 ∉ witS.view c.sh.mem := by
  have h := held_run
  simp only [Option.map_eq_some_iff] at h
  obtain ⟨c, h1, h2⟩ := h
  simp only [heldCheck, Bool.and_eq_true, decide_eq_true_eq] at h2
  refine ⟨c, run_sound (P := witCall.par 3 False) (le_refl 3) (by simp) _ h1, h2.1.1, ?_, ?_, by decide, h2.1.2, h2.2⟩
  · exact List.mem_map.2 ⟨600, by simp [witS], rfl⟩
  · exact List.mem_map.2 ⟨601, by simp [witS], rfl⟩

/-- C67 applies to that state -/
example : ∃ c, witCall.Reaches 3 False heldM c ∧ accessing c = 2 ∧
    ∃ held : List Cell, held.length ≤ 2 ∧ (witS.view heldM).Subperm (witS.view c.sh.mem ++ held) := by
  obtain ⟨c, h1, h2, _⟩ := C67_two_elements_out
  exact ⟨c, h1, h2, h2 ▸ (C67_elements_stay demoC_ok held_job wit_depth h1).1⟩

/-- insertion sort of two elements, up to its first store -/
theorem insertion_two {V κ Sp : Type} (key : V → κ) (lt : κ → κ → Bool) (off : Nat) : ∃ (k : V → V → Prog V Sp Unit) (k' : Prog V Sp Unit),
    insertion key lt ⟨off, 2⟩ = .read (off + 1) fun x => .read off fun y => if lt (key x) (key y) then .write (off + 1) y (k x y) else k' := by
  refine ⟨fun x y => .write off x (.ret ()), .ret (), ?_⟩
  show Prog.read (off + 1) _ = Prog.read (off + 1) _
  congr 1
  funext x
  show Prog.read off _ = Prog.read off _
  congr 1
  funext y
  simp only [insertInner]
  cases hl : lt (key x) (key y)
  · simp [hl, Prog.bind]
    rfl
  · simp [hl, Prog.bind, Slice.wr]
    rfl

/-- **C67, pointers.** SortSlice on a slice of two pointers, the greater one first: there is a moment at which the smaller pointer is not in
the slice (it is in a local variable of an integer type, sortyU8.go:29). -/
theorem C67_pointer_out_of_slice (hC : C.OK) (hw : C.wordSize = 8) {A B : BitVec 64} (hAB : A.ult B = true) (off : Nat)
    (h0 : m off = .w64 B) (h1 : m (off + 1) = .w64 A) (M : Nat) (stale : Prop) :
    ∃ c, (SortSlice C (.slice .pointer ⟨off, 2⟩)).Reaches M stale m c ∧ (⟨off, 2⟩ : Slice).view c.sh.mem = [.w64 B, .w64 B] := by
  have e : (SortSlice C (.slice .pointer ⟨off, 2⟩)) = famCall C .U8 ⟨off, 2⟩ := sortSlice_eq hC (by simp [famOf, hw]) _
  rw [e]
  have e2 : (famCall C .U8 ⟨off, 2⟩).main = insertion wordKey (fam C .U8).lt ⟨off, 2⟩ := by
    obtain ⟨c1, c2, c3, c4⟩ := conf_ineq hC
    have g1 : 2 < 2 * (C.maxLenRec + 1) := by omega
    have g2 : ¬ C.maxLenRec < 2 := by omega
    have g3 : ¬ C.maxLenIns < 2 := by unfold nsShort at c4; omega
    simp [famCall, sortOf, sortV, fam, g1, g2, g3, Prog.bind]
  obtain ⟨k1, k2, e3⟩ := insertion_two (Sp := VSp Key) wordKey (fam C .U8).lt off
  have hlt : (fam C .U8).lt (wordKey (m (off + 1))) (wordKey (m off)) = true := by
    rw [h0, h1]
    exact hAB
  let P := (famCall C .U8 ⟨off, 2⟩).par M stale
  refine ⟨⟨⟨Function.update m (off + 1) (m off), 0, false⟩, [k1 (m (off + 1)) (m off)]⟩, ?_, ?_⟩
  · show Steps P _ _
    rw [e2, e3]
    refine .tail (.tail (.tail (.refl _) (.tau [] [] ⟨m, 0, false⟩ _ _ _ [] (.read _ _ _))) (.tau [] [] ⟨m, 0, false⟩ _ _ _ [] (.read _ _ _))) ?_
    simp only [hlt, if_true]
    exact .tau [] [] ⟨m, 0, false⟩ _ _ _ [] (.write _ _ _ _)
  · simp [Slice.view, List.range_succ, h0]

/-- C67's case of pointers: 0x1000 after 0x2000 -/
example : ∃ c, (SortSlice demoC (.slice .pointer ⟨0, 2⟩)).Reaches 1 False (fun a => if a = 0 then .w64 0x2000 else .w64 0x1000) c ∧
    (⟨0, 2⟩ : Slice).view c.sh.mem = [.w64 0x2000, .w64 0x2000] :=
  C67_pointer_out_of_slice demoC_ok rfl (by decide) 0 rfl rfl 1 False

end Sorty
