import Verif.Spec
import Verif.SpecLsw

/-! # Vocabulary for pivots -/

namespace Sorty

/-- The elements of `l` at positions `first`, `first+step`, ... (`n` of them, as far as they exist). -/
def picks {α : Type} (l : List α) (first step n : Nat) : List α := (List.range n).filterMap fun j => l[first + j * step]?

/-- At least half of the elements of `l` satisfy `A`. -/
def Half {α : Type} (A : α → Prop) (l : List α) : Prop :=
  ∃ l' : List α, l'.Sublist l ∧ (∀ x ∈ l', A x) ∧ l.length ≤ 2 * l'.length

/-- `n` positions `first`, `first+step`, ... in a range of `slen`: no other choice of `n` equidistant positions covers the range
with a smaller maximal distance. -/
def WellSpread (slen n first step : Nat) : Prop :=
  first + (n - 1) * step < slen ∧ ∀ a t D, a + (n - 1) * t < slen → Covers slen n a t D → Covers slen n first step D

/-- The number a pivot of an integer sort stands for. -/
def Key.num (signed : Bool) : Key → Int
  | .w32 b => if signed then b.toInt else b.toNat
  | .w64 b => if signed then b.toInt else b.toNat
  | _ => 0

/-- The number a pivot of a float sort stands for, as in `Cell.fval`. -/
def Key.fval : Key → Int
  | .w32 b => if 2 ^ 31 ≤ b.toNat then -(b.toNat % 2 ^ 31 : Nat) else (b.toNat % 2 ^ 31 : Nat)
  | .w64 b => if 2 ^ 63 ≤ b.toNat then -(b.toNat % 2 ^ 63 : Nat) else (b.toNat % 2 ^ 63 : Nat)
  | _ => 0

/-- The bytes of a pivot of strings or byte slices. -/
def Key.bytes : Key → List UInt8
  | .str bs => bs
  | _ => []

/-- A pivot of a sort by length. -/
def Key.length : Key → Int
  | .int n => n
  | _ => 0

/-- On memory `m`, `choose` returns a pivot without storing anything, and the pivot is a median of `n` well-spread samples of slice
`s`: at least half of them are at most it, and at least half at least it. -/
def ChoosesMedian {ρ : Type} (le : ρ → ρ → Prop) (value : Cell → ρ) (pivotValue : Key → ρ) (s : Slice) (m : Mem Cell) (n : Nat)
    (choose : Prog Cell (VSp Key) Key) : Prop :=
  ∃ p first step, choose.observe (fun _ _ _ _ => false) m = some p ∧ WellSpread s.len n first step ∧
    (picks (s.view m) first step n).length = n ∧
    Half (fun c => le (value c) (pivotValue p)) (picks (s.view m) first step n) ∧
    Half (fun c => le (pivotValue p) (value c)) (picks (s.view m) first step n)

/-- Runs a sequential program: its result and the memory it leaves, or `none` if it panics, runs out of a budget or uses goroutines.
`less` answers calls of the comparator. -/
def Prog.exec {V Sp α : Type} (less : V → V → Bool) : Prog V Sp α → Mem V → Option (α × Mem V)
  | .ret a, m => some (a, m)
  | .read i k, m => (k (m i)).exec less m
  | .write i v k, m => k.exec less (Function.update m i v)
  | .less _ _ x y k, m => (k (less x y)).exec less m
  | _, _ => none

/-- On memory `m`, `choose` returns a position strictly inside the range of indices `lo` to `hi` of `s`, having only rearranged that
range, such that the element `x` now there is a median of `n` well-spread samples of the range as it was before, the element at `lo` is not
greater than `x` and the element at `hi` is not less. -/
def MovesMedian {V : Type} (less : V → V → Bool) (s : Slice) (lo hi : Nat) (m : Mem V) (n : Nat) (choose : Prog V LSp Int) : Prop :=
  let range : Slice := ⟨s.off + lo, hi + 1 - lo⟩
  ∃ (p : Nat) (x a b : V) (m' : Mem V) (first step : Nat), choose.exec less m = some ((p : Int), m') ∧ lo < p ∧ p < hi ∧
    (range.view m').Perm (range.view m) ∧ (∀ i, ¬ (s.off + lo ≤ i ∧ i ≤ s.off + hi) → m' i = m i) ∧
    (s.view m')[p]? = some x ∧ (s.view m')[lo]? = some a ∧ (s.view m')[hi]? = some b ∧
    less x a = false ∧ less b x = false ∧ WellSpread (hi + 1 - lo) n first step ∧
    (picks (range.view m) first step n).length = n ∧
    Half (fun c => less x c = false) (picks (range.view m) first step n) ∧
    Half (fun c => less c x = false) (picks (range.view m) first step n)

end Sorty
