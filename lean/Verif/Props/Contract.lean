import Verif.Proofs.LswVariants
import Verif.Props.Lsw
import Verif.Props.HB

/-! # Which parts of the Lesswap contract are necessary

The documentation of Sort says: "Strict comparator, r!=s check, swap and returns are all necessary." C42 shows that for the
strict comparator. `unchecked`, `swapless` and `silent` (Verif.Model.LswVariants) are `lsw` functions that lack the check, the
swap or the `return true`. -/

namespace Sorty

open Prog

variable {V : Type} {C : Conf} {s : Slice} {m : Mem V} {M : Nat} {stale : Prop} {cmp : Cmp V} {c : Cfg V LSp} {less : V → V → Prop}

/-- `SortReaches` for the `lsw` implementation `L` -/
abbrev SortWith (L : Lesswap V) (C : Conf) (s : Slice) (cmp : Cmp V) (M : Nat) (stale : Prop) (m : Mem V) (c : Cfg V LSp) : Prop :=
  @SortReaches V L C s cmp M stale m c

/-- **C69, the check is not needed by Sort.** With an `lsw` that swaps even if `r == s`, and a strict weak order `less`: no
execution of Sort is infinite, one that cannot go on has returned, no goroutine ever panics or accesses anything outside the
collection, nothing outside it changes, there is never a data race, and on return every goroutine has finished, no later element
is less than an earlier one, and the collection is a permutation of the original. -/
theorem C69_check_not_needed (hC : C.OK) (hless : StrictWeak less) (hf : FitsInt C.wordSize s.len) (hd : DepthFor C.depth s.len)
    (m : Mem V) (M : Nat) (stale : Prop) :
    (¬ ∃ f : Nat → Cfg V LSp, f 0 = start (@SortLsw V unchecked C s.len s) m ∧
      ∀ n, Step (@lswPar V unchecked C s (byLess less) M stale) (f n) (f (n + 1))) ∧
    (∀ c, SortWith unchecked C s (byLess less) M stale m c →
      ((∀ c', ¬ Step (@lswPar V unchecked C s (byLess less) M stale) c c') → Returned c) ∧ ¬ Wrong c ∧ ¬ Race c ∧
      (∀ p ∈ c.ths, ∀ a w, p.access = some (a, w) → s.off ≤ a ∧ a < s.off + s.len) ∧
      (∀ a, a < s.off ∨ s.off + s.len ≤ a → c.sh.mem a = m a) ∧
      (Returned c → (∀ p ∈ c.ths, p = .ret ()) ∧ Ascending less (s.view c.sh.mem) ∧ (s.view c.sh.mem).Perm (s.view m))) ∧
    ∀ tr c, Trace (@lswPar V unchecked C s (byLess less) M stale) (start (@SortLsw V unchecked C s.len s) m) tr c → ¬ GoRace tr := by
  let : Lesswap V := unchecked
  have := unchecked_ok (V := V)
  have hL := lok (s := s) hC hless.tame.ok hf
  refine ⟨?_, fun c hr => ?_, fun tr c h => ?_⟩
  · rintro ⟨f, h0, hstep⟩
    exact no_rinfinite (lsw_racc C s (byLess less) m M stale) ⟨f, h0, fun n => ⟨(f n).sh.mem, hstep n⟩⟩
  · obtain ⟨ts, h⟩ := lsw_reach hL hd hr.toE
    refine ⟨fun hno => ?_, h.not_wrong, h.not_race, fun p hp a w ha => h.access_sub hp ha, fun a ha => ?_,
      fun hret => ⟨(h.returned hret).1, sort_outcome hC hless hf hd hr.toE hret⟩⟩
    · rcases h.progress (lsw_hyp hL m M stale) with ⟨c', h1⟩ | h1
      · exact absurd h1 (hno c')
      · exact returned_of_all h h1
    · refine lsw_frame hL hd hr a ?_
      simp only [Slice.rng, Set.mem_ofPred_eq]; omega
  · obtain ⟨ts, _, hI⟩ := Inv.trace (lsw_hyp hL m M stale) (lsw_start hL hd M stale) h
    exact hI.norace

/-- C69 applies to 3000 descending numbers -/
example : ∃ c, SortWith unchecked demoC demoS ltCmp 5 True demoDesc c ∧ Returned c ∧ Ascending (· < ·) (demoS.view c.sh.mem) := by
  obtain ⟨c, h1, h2⟩ := @sort_returns _ _ _ _ unchecked unchecked_ok demoC_ok lt_strictWeak.tame demoS_fits demo_depth demoDesc 5 True
  exact ⟨c, h1, h2, ((((C69_check_not_needed demoC_ok lt_strictWeak demoS_fits demo_depth demoDesc 5 True).2.1 c h1).2.2.2.2.2) h2).2.1⟩

/-- C69 holds in a state where four goroutines are about to access elements -/
example : ∃ c, SortWith unchecked demoC lwitS ltCmp 3 False lwitM c ∧ accessing c = 4 ∧ ¬ Race c := by
  have h : (run (@lswBody Nat unchecked demoC lwitS) 3 ltAns lwitSched (start (@SortLsw Nat unchecked demoC lwitS.len lwitS) lwitM)).map accessing = some 4 := by
    decide +kernel
  simp only [Option.map_eq_some_iff] at h
  obtain ⟨c, h1, h2⟩ := h
  have h3 : SortWith unchecked demoC lwitS ltCmp 3 False lwitM c :=
    run_sound (P := @lswPar Nat unchecked demoC lwitS ltCmp 3 False) (le_refl 3) (fun i j x y b hb => by
      simp only [ltAns, Option.some.injEq] at hb
      simp [lswPar, byLess, ← hb]) _ h1
  exact ⟨c, h3, h2, ((C69_check_not_needed demoC_ok lt_strictWeak lwit_fits lwit_depth lwitM 3 False).2.1 c h3).2.2.1⟩

/-- goroutine that calls `IsSorted(n, lsw)` on the collection `s` -/
def checker (L : Lesswap V) (ws : Nat) (s : Slice) : Prog V LSp Unit := (@IsSorted V LSp L ws s.len s).bind fun _ => .ret ()

/-- **C69, the check is what lets IsSorted be called concurrently.** Any number of goroutines may call IsSorted on one collection
with the documented `lsw`: they never race and the collection does not change. -/
theorem C69_documented_checks (P : Par V LSp) (ws : Nat) (s : Slice) (sh : Sh V) (k : Nat)
    (h : Steps P ⟨sh, List.replicate k (checker documented ws s)⟩ c) : ¬ Race c ∧ c.sh.mem = sh.mem := by
  have h1 := loads_steps (s := s) h fun p hp => by
    rw [(List.mem_replicate.1 hp).2]
    exact Prog.OnlyLoads.bind (onlyLoads_isSorted ws s.len s) fun _ => trivial
  exact ⟨loads_no_race h1.1, h1.2⟩

/-- numbers of which the second is less than the first -/
def twoM : Mem Nat := fun a => if a = 0 then 2 else 1

theorem two_run (ws : Nat) (hws : ws = 4 ∨ ws = 8) : (run (Sp := LSp) (fun _ => .ret ()) 0 ltAns [.run 0 5, .run 1 5]
    ⟨⟨twoM, 0, false⟩, List.replicate 2 (checker unchecked ws ⟨0, 2⟩)⟩).map
      (fun c => ((c.ths[0]?).bind Prog.access, (c.ths[1]?).bind Prog.access)) = some (some (1, true), some (1, true)) := by
  rcases hws with rfl | rfl <;> decide +kernel

/-- **C69.** Without the check it is not so: two goroutines that call IsSorted on one collection can race, on 64 and 32 bits. -/
theorem C69_unchecked_checks_race {ws : Nat} (hws : ws = 4 ∨ ws = 8) : ∃ (P : Par Nat LSp) (c : Cfg Nat LSp), P.cmp = ltCmp ∧
    Steps P ⟨⟨twoM, 0, false⟩, List.replicate 2 (checker unchecked ws ⟨0, 2⟩)⟩ c ∧ Race c := by
  have h := two_run ws hws
  simp only [Option.map_eq_some_iff] at h
  obtain ⟨c, h1, h2⟩ := h
  refine ⟨⟨0, False, ltCmp, fun _ => .ret ()⟩, c, rfl, run_sound (P := ⟨0, False, ltCmp, fun _ => .ret ()⟩) (le_refl 0) (fun i j x y b hb => by
      simp only [ltAns, Option.some.injEq] at hb
      simp [byLess, ← hb]) _ h1, ?_⟩
  simp only [Prod.mk.injEq, Option.bind_eq_some_iff] at h2
  obtain ⟨⟨p, hp, hp'⟩, q, hq, hq'⟩ := h2
  exact ⟨0, 1, p, q, 1, true, true, by decide, hp, hq, hp', hq', .inl rfl⟩

/-- three numbers that are not in order: 2, 3, 1 -/
def threeM : Mem Nat := fun a => if a = 0 then 2 else if a = 1 then 3 else 1

theorem threeSeen {L : Lesswap Nat} {n : Nat} (h : (run (@lswBody Nat L demoC ⟨0, 3⟩) 1 ltAns [.run 0 n]
      (start (@SortLsw Nat L demoC 3 ⟨0, 3⟩) threeM)).map (fun c => (c.ths.head?.map Prog.isRet, decide ((Slice.mk 0 3).view c.sh.mem).SortedLE)) =
      some (some true, false)) :
    ∃ c, SortWith L demoC ⟨0, 3⟩ ltCmp 1 False threeM c ∧ Returned c ∧ ¬ Ascending (· < ·) ((Slice.mk 0 3).view c.sh.mem) := by
  simp only [Option.map_eq_some_iff] at h
  obtain ⟨c, h1, h2⟩ := h
  refine ⟨c, run_sound (P := @lswPar Nat L demoC ⟨0, 3⟩ ltCmp 1 False) (le_refl 1) (fun i j x y b hb => by
      simp only [ltAns, Option.some.injEq] at hb
      simp [lswPar, byLess, ← hb]) _ h1, ?_, ?_⟩
  · simp only [Prod.mk.injEq, Option.map_eq_some_iff] at h2
    obtain ⟨⟨p, hp, hp'⟩, -⟩ := h2
    cases p <;> simp [Prog.isRet] at hp'
    obtain ⟨l, hl⟩ := List.head?_eq_some_iff.1 hp
    exact ⟨l, hl⟩
  · simp only [Prod.mk.injEq, decide_eq_false_iff_not] at h2
    intro ha
    refine h2.2 (List.Pairwise.sortedLE (ha.imp fun {a b} hab => ?_))
    omega

/-- **C69, the swap is needed.** With an `lsw` that does not swap, Sort can return with numbers out of order, here with 3 numbers. -/
theorem C69_swap_needed : ∃ c, SortWith swapless demoC ⟨0, 3⟩ ltCmp 1 False threeM c ∧ Returned c ∧
    ¬ Ascending (· < ·) ((Slice.mk 0 3).view c.sh.mem) :=
  threeSeen (n := 9) (by decide +kernel)

/-- **C69, the `return true` is needed.** With an `lsw` that always returns false, Sort can return with numbers out of order, here
with 3 numbers. -/
theorem C69_return_needed : ∃ c, SortWith silent demoC ⟨0, 3⟩ ltCmp 1 False threeM c ∧ Returned c ∧
    ¬ Ascending (· < ·) ((Slice.mk 0 3).view c.sh.mem) :=
  threeSeen (n := 10) (by decide +kernel)

end Sorty
