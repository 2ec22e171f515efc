import Verif.Props.Swaps
import Verif.Logic.Left

/-! # A panic of the user's function that the caller of Sort recovers

While goroutine `t` is about to get an answer of the comparator, the user's function may panic instead. If `t` is the caller and
the caller recovers, the call is over for it: it does nothing more, and the other goroutines carry on. (A panic in another
goroutine ends the program.) -/

namespace Sorty

/-- The state after the caller, who was calling the comparator, has left the call by a panic and recovered. -/
def Cfg.left {V Sp : Type} (c : Cfg V Sp) : Cfg V Sp := ⟨c.sh, .ret () :: c.ths.tail⟩

/-- Goroutine `t` is running the user's comparator. -/
def Comparing {V Sp : Type} (c : Cfg V Sp) (t : Nat) : Prop := ∃ i j x y k, c.ths[t]? = some (.less i j x y k)

section
variable {V : Type} {C : Conf} {s : Slice} {cmp : Cmp V} {m : Mem V} {M : Nat} {stale : Prop} {c : Cfg V LSp}

/-- **C59, the part that holds.** With `MaxGor` at most 1 or a short collection, a panic of the user's function happens in the
caller, and when the caller has recovered no goroutine of the call is left that could do anything, so that the collection stays
the permutation of the original it was at the time of the panic. Missing: other calls, see `C59_recovered_panic_violated`. -/
theorem C59_recovered_panic_partial (hC : C.OK) (hcmp : Tame cmp) (hf : FitsInt C.wordSize s.len) (hd : DepthFor C.depth s.len)
    (h1 : M ≤ 1 ∨ s.len < 2 * (C.maxLenRecFC + 1)) (hr : SortReaches C s cmp M stale m c) {t : Nat} (ht : Comparing c t) :
    t = 0 ∧ (∀ p ∈ c.left.ths, p = .ret ()) ∧ ∀ c', Steps (lswPar C s cmp M stale) c.left c' → c' = c.left ∧ (s.view c'.sh.mem).Perm (s.view m) := by
  obtain ⟨i, j, x, y, k, ht⟩ := ht
  obtain ⟨h2, h3, _, h4, _⟩ := C56_sort_panic_loses_nothing hC hcmp hf hd h1 hr ht
  have hall : ∀ p ∈ c.left.ths, p = .ret () := by
    intro p hp
    have : c.ths.tail = [] := by
      rw [← List.length_eq_zero_iff, List.length_tail]
      omega
    simpa [Cfg.left, this] using hp
  have hst : ∀ c', Steps (lswPar C s cmp M stale) c.left c' → c' = c.left := by
    intro c' h
    induction h with
    | refl => rfl
    | tail _ hs ih => exact (no_step_ret hall (ih ▸ hs)).elim
  exact ⟨h2, hall, fun c' h => ⟨hst c' h, by rw [hst c' h]; exact h4⟩⟩

/-- **C59, the part that holds for every call.** After the caller has recovered, the other goroutines stop after finitely many steps.
Until then they work without data race, run-time panic or access outside the collection, and whenever none of them is about to
store an element, the collection is a permutation of the original. In the end it is one, and at most one goroutine is left,
waiting. -/
theorem C59_recovered_panic_aftermath_partial (hC : C.OK) (hcmp : Tame cmp) (hf : FitsInt C.wordSize s.len) (hd : DepthFor C.depth s.len)
    (hr : SortReaches C s cmp M stale m c) (ht : Comparing c 0) :
    (¬ ∃ f : Nat → Cfg V LSp, f 0 = c.left ∧ ∀ n, Step (lswPar C s cmp M stale) (f n) (f (n + 1))) ∧
    ∀ c', Steps (lswPar C s cmp M stale) c.left c' → ¬ Race c' ∧ ¬ Wrong c' ∧
      (∀ p ∈ c'.ths, ∀ a w, p.access = some (a, w) → s.off ≤ a ∧ a < s.off + s.len) ∧
      (∀ a, a < s.off ∨ s.off + s.len ≤ a → c'.sh.mem a = m a) ∧
      ((∀ p ∈ c'.ths, ∀ a, p.access ≠ some (a, true)) → (s.view c'.sh.mem).Perm (s.view m)) ∧
      ((∀ c'', ¬ Step (lswPar C s cmp M stale) c' c'') → (s.view c'.sh.mem).Perm (s.view m) ∧ live c' ≤ 1) := by
  obtain ⟨i, j, x, y, k, ht⟩ := ht
  obtain ⟨sh, ths⟩ := c
  cases ths with
  | nil => simp at ht
  | cons q l =>
  obtain rfl : q = .less i j x y k := by simpa using ht
  refine ⟨no_infinite (Acc.without (hr.acc (lsw_acc C s cmp m M stale))), fun c' hs => ?_⟩
  obtain ⟨l', h1, h2⟩ := hs.without (.less i j x y k)
  have hr' : SortReaches C s cmp M stale m ⟨c'.sh, .less i j x y k :: l'⟩ := hr.trans h2
  obtain ⟨sh', ths'⟩ := c'
  dsimp only at h1
  subst h1
  obtain ⟨_, h3, h4, h5, _⟩ := (C08_sort_any_comparator hC hcmp hf hd m M stale).2 _ hr'
  have h6 := C10_sort_no_race hC hcmp hf hd hr'
  have hw : ¬ Wrong (⟨sh', .ret () :: l'⟩ : Cfg V LSp) := by
    simpa [Wrong] using h3
  have hp : (∀ p ∈ (.ret () :: l' : List (Prog V LSp Unit)), ∀ a, p.access ≠ some (a, true)) → (s.view sh'.mem).Perm (s.view m) := fun hq =>
    (C56_sort_nothing_lost hC hcmp hf hd hr' fun p hp a => by
      rcases List.mem_cons.1 hp with rfl | hp
      · simp [Prog.access]
      · exact hq p (List.mem_cons_of_mem _ hp) a).1
  refine ⟨?_, hw, ?_, h5, hp, fun hno => ?_⟩
  · rintro ⟨a, b, p, q, i', w, w', hab, ha, hb, hpa, hqb, hww⟩
    refine h6 ⟨a, b, p, q, i', w, w', hab, ?_, ?_, hpa, hqb, hww⟩
    · cases a with
      | zero => simp only [List.getElem?_cons_zero, Option.some.injEq] at ha; subst ha; simp [Prog.access] at hpa
      | succ a => simpa using ha
    · cases b with
      | zero => simp only [List.getElem?_cons_zero, Option.some.injEq] at hb; subst hb; simp [Prog.access] at hqb
      | succ b => simpa using hb
  · intro p hp a w ha
    rcases List.mem_cons.1 hp with rfl | hp
    · simp [Prog.access] at ha
    · exact h4 p (List.mem_cons_of_mem _ hp) a w ha
  · obtain ⟨ts, hI⟩ := lsw_reach (lok hC hcmp.ok hf) hd hr'.toE
    have hst : ∀ p ∈ l', p = .ret () ∨ ∃ v k, p = .send v k := by
      intro p hp
      rcases stuck_of_no_step (P := lswPar C s cmp M stale) hcmp.answers hno (List.mem_cons_of_mem _ hp) hw with h | h | ⟨k', h⟩
      · exact .inl h
      · exact .inr h
      · obtain ⟨n, hn⟩ := List.getElem?_of_mem hp
        have := hI.recv_main (i := n + 1) (k := k') (by simpa [h] using hn)
        omega
    refine ⟨hp fun p hp a => ?_, le_trans ?_ hI.one_sender⟩
    · rcases List.mem_cons.1 hp with rfl | hp
      · simp [Prog.access]
      · rcases hst p hp with rfl | ⟨v, k, rfl⟩ <;> simp [Prog.access]
    · simp only [live, List.filter_cons, Prog.isRet, Prog.isSend]
      simp only [Bool.not_true, Bool.false_eq_true, if_false]
      refine le_of_eq (congrArg List.length (List.filter_congr fun p hp => ?_))
      rcases hst p hp with rfl | ⟨v, k, rfl⟩ <;> rfl

end

/-- C59 applies to a call on 1204 numbers with `MaxGor` = 1, interrupted after elements have been moved -/
example : ∃ c, SortReaches demoC lwitS ltCmp 1 False demoDesc c ∧ c.sh.mem 20 ≠ demoDesc 20 ∧ Comparing c 0 ∧
    ∀ c', Steps (lswPar demoC lwitS ltCmp 1 False) c.left c' → c' = c.left := by
  obtain ⟨c, h1, h2, h3, h4⟩ := ask_spec ask_run1
  have h5 : c.ths[0]? = some c.ths[0] := List.getElem?_eq_getElem (by omega)
  obtain ⟨i, j, x, y, k, h6⟩ := h3 _ (List.mem_of_getElem? h5)
  have h7 : Comparing c 0 := ⟨i, j, x, y, k, by rw [h5, h6]⟩
  exact ⟨c, h1, h4, h7, fun c' h => ((C59_recovered_panic_partial demoC_ok lt_strictWeak.tame lwit_fits lwit_depth (.inl le_rfl) h1 h7).2.2 c' h).1⟩

/-- the caller is running the comparator, and there is one more goroutine -/
def panicCheck (c : Cfg Nat LSp) : Bool :=
  match c.ths with
  | [.less .., _] => true
  | _ => false

/-- the caller has left, the other goroutine waits for somebody to receive -/
def leakCheck (c : Cfg Nat LSp) : Bool :=
  match c.ths with
  | [.ret (), .send _ _] => true
  | _ => false

theorem leak_run : ((run (lswBody demoC lwitS) 3 ltAns [.run 0 166] (start (SortLsw demoC lwitS.len lwitS) demoDesc)).bind fun c =>
    (run (lswBody demoC lwitS) 3 ltAns [.run 1 600, .run 1 600, .run 1 600, .run 1 600, .run 1 592] c.left).map fun c' =>
    panicCheck c && leakCheck c' && c'.sh.mem 600 != c.sh.mem 600) = some true := by decide +kernel

/-- **C59 is false** for longer collections and `MaxGor` above 1: 1204 numbers, `MaxGor` = 3. The user's function panics in the
caller, the caller recovers, and afterwards another goroutine still moves elements of the collection, and then waits forever to
send its result. -/
theorem C59_recovered_panic_violated : ∃ c c', SortReaches demoC lwitS ltCmp 3 False demoDesc c ∧ Comparing c 0 ∧
    Steps (lswPar demoC lwitS ltCmp 3 False) c.left c' ∧ lwitS.view c'.sh.mem ≠ lwitS.view c.sh.mem ∧
    (∃ p ∈ c'.ths, p ≠ .ret ()) ∧ ∀ c'', ¬ Step (lswPar demoC lwitS ltCmp 3 False) c' c'' := by
  have h := leak_run
  simp only [Option.bind_eq_some_iff, Option.map_eq_some_iff, Bool.and_eq_true, bne_iff_ne] at h
  obtain ⟨c, h1, c', h2, ⟨h3, h4⟩, h5⟩ := h
  have hans : ∀ i j x y b, ltAns i j x y = some b → (lswPar demoC lwitS ltCmp 3 False).cmp i j x y b := by
    intro i j x y b hb
    simp only [ltAns, Option.some.injEq] at hb
    simp [lswPar, byLess, ← hb]
  refine ⟨c, c', run_sound (P := lswPar demoC lwitS ltCmp 3 False) (le_refl 3) hans _ h1, ?_,
    run_sound (P := lswPar demoC lwitS ltCmp 3 False) (le_refl 3) hans _ h2, fun e => h5 ?_, ?_, ?_⟩
  · unfold panicCheck at h3
    split at h3
    · rename_i i j x y k q e
      exact ⟨i, j, x, y, k, by rw [e]; rfl⟩
    · cases h3
  · have := congrArg (fun l => l[600]?) e
    simpa [Slice.view, lwitS] using this
  all_goals
    unfold leakCheck at h4
    split at h4
    rotate_left
    · cases h4
    rename_i v k e
  · exact ⟨.send v k, by rw [e]; simp, by simp⟩
  · intro c'' hs
    obtain ⟨sh', ths'⟩ := c'
    dsimp only at e
    subst e
    generalize hc : (⟨sh', [.ret (), .send v k]⟩ : Cfg Nat LSp) = d at hs
    cases hs with
    | tau l₁ l₂ sh p sh' p' new ht =>
      simp only [Cfg.mk.injEq] at hc
      have : p ∈ [Prog.ret (), Prog.send v k] := by rw [hc.2]; simp
      rcases List.mem_cons.1 this with rfl | this
      · cases ht
      · rcases List.mem_singleton.1 this with rfl
        cases ht
    | commSR l₁ l₂ l₃ sh v' k' k'' hs =>
      simp only [Cfg.mk.injEq] at hc
      have : Prog.recv k'' ∈ [Prog.ret (), Prog.send v k] := by rw [hc.2]; simp
      simp at this
    | commRS l₁ l₂ l₃ sh v' k' k'' hs =>
      simp only [Cfg.mk.injEq] at hc
      have : Prog.recv k'' ∈ [Prog.ret (), Prog.send v k] := by rw [hc.2]; simp
      simp at this

/-- the part that holds for every call applies to that execution: what is left in the end is a permutation, and one goroutine -/
example : ∃ c c', SortReaches demoC lwitS ltCmp 3 False demoDesc c ∧ Steps (lswPar demoC lwitS ltCmp 3 False) c.left c' ∧
    lwitS.view c'.sh.mem ≠ lwitS.view c.sh.mem ∧ (lwitS.view c'.sh.mem).Perm (lwitS.view demoDesc) ∧ live c' = 1 := by
  obtain ⟨c, c', h1, h2, h3, h4, ⟨p, h5, h6⟩, h7⟩ := C59_recovered_panic_violated
  obtain ⟨h8, h9⟩ := ((C59_recovered_panic_aftermath_partial demoC_ok lt_strictWeak.tame lwit_fits lwit_depth h1 h2).2 c' h3).2.2.2.2.2 h7
  refine ⟨c, c', h1, h3, h4, h8, le_antisymm h9 (List.length_pos_of_mem (List.mem_filter.2 ⟨h5, ?_⟩))⟩
  cases p <;> simp_all [Prog.isRet]

end Sorty
