import Verif.Props.LswWitness

/-! # Sort needs a strict comparator -/

namespace Sorty

/-- the comparator `<=` -/
abbrev leCmp : Cmp Nat := byLess (· ≤ ·)

/-- `<=`, computed -/
def leAns : Nat → Nat → Nat → Nat → Option Bool := fun _ _ x y => some (decide (x ≤ y))

theorem leAns_ok (C : Conf) (s : Slice) (M : Nat) : ∀ i k x y b, leAns i k x y = some b → (lswPar C s leCmp M False).cmp i k x y b := by
  intro i k x y b hb
  simp only [leAns, Option.some.injEq] at hb
  simp [lswPar, byLess, ← hb]

/-- the caller starts the other partition goroutine and is about to read the pivot; that goroutine goes on until it
wants to move the pivot -/
def leSched : List Act := [.run 0 165, .run 1 600, .run 1 600, .run 1 600, .run 1 600, .run 1 598]

/-- the next accesses of the first two goroutines -/
def nextTwo {V Sp : Type} (c : Cfg V Sp) : Option (Nat × Bool) × Option (Nat × Bool) :=
  ((c.ths[0]?).bind Prog.access, (c.ths[1]?).bind Prog.access)

theorem le_run : (run (lswBody demoC lwitS) 3 leAns leSched (start (SortLsw demoC lwitS.len lwitS) lwitM)).map nextTwo =
    some (some (602, false), some (602, true)) := by
  decide +kernel

/-- **C42, race.** With `<=` as comparator, which answers true for an element and itself, there is an execution of Sort on
1204 equal numbers, default thresholds and `MaxGor` = 3, in which one goroutine is about to swap an element while another
is about to compare it. -/
theorem C42_nonstrict_race : ∃ c, SortReaches demoC lwitS leCmp 3 False lwitM c ∧ Race c := by
  have h := le_run
  simp only [Option.map_eq_some_iff] at h
  obtain ⟨c, h1, h2⟩ := h
  refine ⟨c, run_sound (P := lswPar demoC lwitS leCmp 3 False) (le_refl 3) (leAns_ok demoC lwitS 3) _ h1, ?_⟩
  simp only [nextTwo, Prod.mk.injEq, Option.bind_eq_some_iff] at h2
  obtain ⟨⟨p, hp, hp'⟩, q, hq, hq'⟩ := h2
  exact ⟨0, 1, p, q, 602, false, true, by decide, hp, hq, hp', hq', .inr rfl⟩

/-- 31 small numbers -/
def leM : Mem Nat := fun a => (a * 3 / 2 + a * a) % 3

def leS : Slice := ⟨0, 31⟩

def leSched1 : List Act := [.run 0 600, .run 0 600, .run 0 280]

/-- is the caller finished, and what is at indices 17 and 18? -/
def leSeen (c : Cfg Nat LSp) : Option Bool × Nat × Nat := (c.ths.head?.map Prog.isRet, c.sh.mem 17, c.sh.mem 18)

theorem le_run1 : (run (lswBody demoC leS) 1 leAns leSched1 (start (SortLsw demoC leS.len leS) leM)).map leSeen =
    some (some true, 2, 1) := by
  decide +kernel

/-- **C42, order.** With `<=` as comparator Sort can return with the numbers out of order, even in a single goroutine: here
on 31 numbers with `MaxGor` = 1. -/
theorem C42_nonstrict_unsorted : ∃ c, SortReaches demoC leS leCmp 1 False leM c ∧ Returned c ∧
    ¬ Ascending (· < ·) (leS.view c.sh.mem) := by
  have h := le_run1
  simp only [Option.map_eq_some_iff] at h
  obtain ⟨c, h1, h2⟩ := h
  refine ⟨c, run_sound (P := lswPar demoC leS leCmp 1 False) (le_refl 1) (leAns_ok demoC leS 1) _ h1, ?_, ?_⟩
  · simp only [leSeen, Prod.mk.injEq, Option.map_eq_some_iff] at h2
    obtain ⟨⟨p, hp, hp'⟩, -⟩ := h2
    cases p <;> simp [Prog.isRet] at hp'
    obtain ⟨l, hl⟩ := List.head?_eq_some_iff.1 hp
    exact ⟨l, hl⟩
  · simp only [leSeen, Prod.mk.injEq] at h2
    obtain ⟨-, h3, h4⟩ := h2
    intro ha
    have := List.pairwise_iff_getElem.1 ha 17 18 (by simp [Slice.view, leS]) (by simp [Slice.view, leS]) (by decide)
    simp only [Slice.view, leS, List.getElem_map, List.getElem_range] at this
    simp only [Nat.zero_add] at this
    omega

/-- `<=` is total and transitive: it lacks strictness only -/
example : (∀ x y : Nat, x ≤ y ∨ y ≤ x) ∧ (∀ x y z : Nat, x ≤ y → y ≤ z → x ≤ z) ∧ ¬ StrictWeak (fun x y : Nat => x ≤ y) :=
  ⟨Nat.le_total, fun _ _ _ => Nat.le_trans, fun h => h.irrefl 0 (Nat.le_refl 0)⟩

end Sorty
