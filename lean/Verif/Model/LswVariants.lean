import Verif.Model.Lsw

/-! # Lesswap functions that leave out a part of the documented contract

sortyLsw.go:333-334 says of the `Lesswap` of sortyLsw.go:15-24: "Strict comparator, r!=s check, swap and returns are all necessary."
These are user functions that lack one of them. (A comparator that is not strict is a matter of `Par.cmp`.) -/

namespace Sorty

open Prog

variable {V Sp : Type}

/-- sortyLsw.go:15-24 without the check of line 18: `if less(i, k) { swap(r, q); return true }; return false` -/
def lswUnchecked (s : Slice) (i k r q : Int) : Prog V Sp Bool :=
  if (0 ≤ i ∧ i < s.len) ∧ (0 ≤ k ∧ k < s.len) ∧ (0 ≤ r ∧ r < s.len) ∧ (0 ≤ q ∧ q < s.len) then do
    let x ← s.rd i
    let y ← s.rd k
    let b ← .less i.toNat k.toNat x y .ret
    if b then do
      s.swap r q
      pure true
    else pure false
  else .panic

/-- sortyLsw.go:15-24 without the swap of lines 18-20: `return less(i, k)` -/
def lswSwapless (s : Slice) (i k r q : Int) : Prog V Sp Bool :=
  if (0 ≤ i ∧ i < s.len) ∧ (0 ≤ k ∧ k < s.len) ∧ (0 ≤ r ∧ r < s.len) ∧ (0 ≤ q ∧ q < s.len) then do
    let x ← s.rd i
    let y ← s.rd k
    .less i.toNat k.toNat x y .ret
  else .panic

/-- sortyLsw.go:15-24 without the return of line 21: `if less(i, k) { if r != q { swap(r, q) } }; return false` -/
def lswSilent (s : Slice) (i k r q : Int) : Prog V Sp Bool :=
  if (0 ≤ i ∧ i < s.len) ∧ (0 ≤ k ∧ k < s.len) ∧ (0 ≤ r ∧ r < s.len) ∧ (0 ≤ q ∧ q < s.len) then do
    let x ← s.rd i
    let y ← s.rd k
    let b ← .less i.toNat k.toNat x y .ret
    if b then do
      if r ≠ q then s.swap r q else pure ()
      pure false
    else pure false
  else .panic

/-- sortyLsw.go:15-24 without the check of line 18, as the `lsw` parameter -/
@[reducible] def unchecked : Lesswap V := ⟨lswUnchecked⟩

/-- sortyLsw.go:15-24 without the swap of lines 18-20, as the `lsw` parameter -/
@[reducible] def swapless : Lesswap V := ⟨lswSwapless⟩

/-- sortyLsw.go:15-24 without the return of line 21, as the `lsw` parameter -/
@[reducible] def silent : Lesswap V := ⟨lswSilent⟩

end Sorty
