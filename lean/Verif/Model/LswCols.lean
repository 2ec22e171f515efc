import Verif.Model.Lsw

/-! # A Lesswap function for parallel slices

A collection need not be one slice. A common one consists of several slices of equal length, say of keys and of the values that
belong to them: `less(i, k)` compares the keys with indices `i` and `k`, and `swap(r, s)` swaps the elements with indices `r` and
`s` of every slice, one slice after the other. -/

namespace Sorty

open Prog

variable {T Sp : Type} {K : Nat}

/-- the `swap(r, q)` of sortyLsw.go:19 for the parallel slices `cs`: those of the list, in this order -/
def swapCols (cs : Fin (K + 1) → Slice) (r q : Int) : List (Fin (K + 1)) → Prog T Sp Unit
  | [] => pure ()
  | j :: js => do
    (cs j).swap r q
    swapCols cs r q js

/-- sortyLsw.go:15-24 for the parallel slices `cs` of equal length, of which the first one has the keys. Slices of different element
types are modelled by an element type `T` that includes all of them. -/
def lswCols (cs : Fin (K + 1) → Slice) (i k r q : Int) : Prog T Sp Bool :=
  if (0 ≤ i ∧ i < (cs 0).len) ∧ (0 ≤ k ∧ k < (cs 0).len) ∧ (0 ≤ r ∧ r < (cs 0).len) ∧ (0 ≤ q ∧ q < (cs 0).len) then do
    let x ← (cs 0).rd i
    let y ← (cs 0).rd k
    let b ← .less i.toNat k.toNat x y .ret
    if b then do
      if r ≠ q then swapCols cs r q (List.finRange (K + 1)) else pure ()
      pure true
    else pure false
  else .panic

/-- sortyLsw.go:15-24 for the parallel slices `cs`, as the `lsw` parameter -/
@[reducible] def columns (cs : Fin (K + 1) → Slice) : Lesswap T := ⟨fun _ => lswCols cs⟩

end Sorty
