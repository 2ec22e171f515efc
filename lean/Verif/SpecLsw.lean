import Verif.Model.Lsw

/-! # Vocabulary of the properties of Sort and IsSorted -/

namespace Sorty

variable {V : Type}

/-- A comparator as the collection's `lsw` uses it: the answers it may give when asked `less(i, k)` while the elements
there are `x` and `y`. It need not be consistent or repeatable. -/
abbrev Cmp (V : Type) := Nat → Nat → V → V → Bool → Prop

/-- The comparator always answers, and never says that an index is less than itself. Nothing else is asked of it. -/
structure Tame (cmp : Cmp V) : Prop where
  answers : ∀ i k x y, ∃ b, cmp i k x y b
  strict : ∀ i x, ¬ cmp i i x x true

/-- The comparator gives the same answer whenever it is asked about the same indices and elements. -/
def Repeatable (cmp : Cmp V) : Prop := ∀ i k x y b b', cmp i k x y b → cmp i k x y b' → b = b'

/-- `less` is a strict weak order. -/
structure StrictWeak (less : V → V → Prop) : Prop where
  irrefl : ∀ x, ¬ less x x
  trans : ∀ x y z, less x y → less y z → less x z
  incomp : ∀ x y z, ¬ less x y ∧ ¬ less y x → ¬ less y z ∧ ¬ less z y → ¬ less x z ∧ ¬ less z x

/-- The comparator that answers by `less`. -/
def byLess (less : V → V → Prop) : Cmp V := fun _ _ x y b => b = true ↔ less x y

/-- No later element is less than an earlier one. -/
def Ascending (less : V → V → Prop) (l : List V) : Prop := l.Pairwise fun x y => ¬ less y x

/-- Lengths up to 10/11 of 2^63 (of 2^31 on 32-bit platforms), less 8. -/
def FitsInt (wordSize n : Nat) : Prop := 11 * (n + 8) ≤ 10 * 2 ^ (8 * wordSize - 1)

variable [Lesswap V]

/-- `c` is a state some execution of `Sort(n, lsw)` passes through, where `lsw` works on the collection `s` of `n`
elements (so that indices outside [0,n) make it panic), started on memory `m`: any interleaving, any answers up to `M`
each time `MaxGor` is read. -/
def SortReaches (C : Conf) (s : Slice) (cmp : Cmp V) (M : Nat) (stale : Prop) (m : Mem V) (c : Cfg V LSp) : Prop :=
  Reach (lswPar C s cmp M stale) (SortLsw C s.len s) m c

/-- Like `SortReaches`, while the rest of the program writes anything anywhere outside the collection. -/
def SortEReaches (C : Conf) (s : Slice) (cmp : Cmp V) (M : Nat) (stale : Prop) (m : Mem V) (c : Cfg V LSp) : Prop :=
  ESteps (lswPar C s cmp M stale) (fun a => s.off ≤ a ∧ a < s.off + s.len) (start (SortLsw C s.len s) m) c

end Sorty
