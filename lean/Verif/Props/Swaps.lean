import Verif.Proofs.Swaps
import Verif.Props.Lsw

/-! # Interrupted calls of Sort -/

namespace Sorty

variable {V : Type} {C : Conf} {s : Slice} {cmp : Cmp V} {m : Mem V} {M : Nat} {stale : Prop} {c : Cfg V LSp}

/-- **C56.** At any time of any execution of Sort, provided that no goroutine is just about to store an element (so that
no swap is half done), the collection is a permutation of the original. -/
theorem C56_sort_nothing_lost (hC : C.OK) (hcmp : Tame cmp) (hf : FitsInt C.wordSize s.len) (hd : DepthFor C.depth s.len)
    (hr : SortReaches C s cmp M stale m c) (hq : ∀ p ∈ c.ths, ∀ a, p.access ≠ some (a, true)) :
    (s.view c.sh.mem).Perm (s.view m) ∧ ∀ a, a < s.off ∨ s.off + s.len ≤ a → c.sh.mem a = m a := by
  obtain ⟨μ, h⟩ := Arr.reach (fun c hc => C10_sort_no_race hC hcmp hf hd hc) (swaps_sort (C := C) (s := s) s.len) (fun sp => swaps_body sp) hr
  have e := h.perm hq
  refine ⟨e ▸ view_perm h.rp.on, fun a ha => e ▸ h.rp.out ?_⟩
  simp only [Slice.rng, Set.mem_ofPred_eq]
  omega

/-- **C56, a panic of the user's function.** Let `MaxGor` be at most 1 or the collection short. Whenever the user's comparator is
running, and might panic: it was called by the goroutine that called Sort, which is the only one, there is no channel, and the
collection is a permutation of the original. -/
theorem C56_sort_panic_loses_nothing (hC : C.OK) (hcmp : Tame cmp) (hf : FitsInt C.wordSize s.len) (hd : DepthFor C.depth s.len)
    (h1 : M ≤ 1 ∨ s.len < 2 * (C.maxLenRecFC + 1)) (hr : SortReaches C s cmp M stale m c) {t i j : Nat} {x y : V} {k : Bool → Prog V LSp Unit}
    (ht : c.ths[t]? = some (.less i j x y k)) :
    t = 0 ∧ c.ths.length = 1 ∧ c.sh.sync = false ∧ (s.view c.sh.mem).Perm (s.view m) ∧
      ∀ a, a < s.off ∨ s.off + s.len ≤ a → c.sh.mem a = m a := by
  have h2 : c.sh.sync = false ∧ c.ths.length = 1 := by
    rcases h1 with h1 | h1
    · exact C15_sort_no_goroutine_if_MaxGor_le_1 hC hcmp hf hd h1 hr
    · exact C16_sort_no_goroutine_if_short hC hcmp hf hd h1 hr
  obtain ⟨hl, he⟩ := List.getElem?_eq_some_iff.1 ht
  have h3 : t = 0 := by omega
  refine ⟨h3, h2.2, h2.1, C56_sort_nothing_lost hC hcmp hf hd hr fun p hp a => ?_⟩
  obtain ⟨n, hn, rfl⟩ := List.getElem_of_mem hp
  have h4 : n = t := by omega
  subst h4
  rw [he]
  simp [Prog.access]

/-- `n` goroutines, all about to call the comparator, and the element at address `a` is not the original one -/
def askCheck (n a : Nat) (c : Cfg Nat LSp) : Bool :=
  c.ths.length = n && c.ths.all (fun p => match p with | .less .. => true | _ => false) && c.sh.mem a != demoDesc a

theorem ask_run1 : (run (lswBody demoC lwitS) 1 ltAns [.run 0 300] (start (SortLsw demoC lwitS.len lwitS) demoDesc)).map (askCheck 1 20) = some true := by
  decide +kernel

theorem ask_run2 : (run (lswBody demoC lwitS) 3 ltAns [.run 0 600, .run 0 2, .run 1 402] (start (SortLsw demoC lwitS.len lwitS) demoDesc)).map
    (askCheck 2 270) = some true := by
  decide +kernel

theorem ask_spec {M n a : Nat} {l : List Act} (h : (run (lswBody demoC lwitS) M ltAns l (start (SortLsw demoC lwitS.len lwitS) demoDesc)).map
    (askCheck n a) = some true) : ∃ c, SortReaches demoC lwitS ltCmp M False demoDesc c ∧ c.ths.length = n ∧
      (∀ p ∈ c.ths, ∃ i j x y k, p = .less i j x y k) ∧ c.sh.mem a ≠ demoDesc a := by
  simp only [Option.map_eq_some_iff] at h
  obtain ⟨c, h1, h2⟩ := h
  simp only [askCheck, Bool.and_eq_true, decide_eq_true_eq, List.all_eq_true, bne_iff_ne] at h2
  refine ⟨c, run_sound (P := lswPar demoC lwitS ltCmp M False) (le_refl M) ?_ _ h1, h2.1.1, fun p hp => ?_, h2.2⟩
  · intro i j x y b hb
    simp only [ltAns, Option.some.injEq] at hb
    simp [lswPar, byLess, ← hb]
  · have := h2.1.2 p hp
    split at this
    · exact ⟨_, _, _, _, _, rfl⟩
    · cases this

/-- two goroutines are calling the comparator, elements have been moved -/
example : ∃ c, SortReaches demoC lwitS ltCmp 3 False demoDesc c ∧ c.ths.length = 2 ∧ c.sh.mem 270 ≠ demoDesc 270 ∧
    (lwitS.view c.sh.mem).Perm (lwitS.view demoDesc) := by
  obtain ⟨c, h1, h2, h3, h4⟩ := ask_spec ask_run2
  refine ⟨c, h1, h2, h4, (C56_sort_nothing_lost demoC_ok lt_strictWeak.tame lwit_fits lwit_depth h1 fun p hp a => ?_).1⟩
  obtain ⟨i, j, x, y, k, rfl⟩ := h3 p hp
  simp [Prog.access]

/-- one goroutine, calling the comparator after elements have been moved -/
example : ∃ c, SortReaches demoC lwitS ltCmp 1 False demoDesc c ∧ c.sh.mem 20 ≠ demoDesc 20 ∧ (lwitS.view c.sh.mem).Perm (lwitS.view demoDesc) := by
  obtain ⟨c, h1, h2, h3, h4⟩ := ask_spec ask_run1
  have h5 : c.ths[0]? = some c.ths[0] := List.getElem?_eq_getElem (by omega)
  obtain ⟨i, j, x, y, k, h6⟩ := h3 _ (List.mem_of_getElem? h5)
  rw [h6] at h5
  exact ⟨c, h1, h4, (C56_sort_panic_loses_nothing demoC_ok lt_strictWeak.tame lwit_fits lwit_depth (.inl le_rfl) h1 h5).2.2.2.1⟩

end Sorty
