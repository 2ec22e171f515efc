import Verif.Prog

/-! # sorty.go: means, sample selection, start-up check, Search -/

namespace Sorty

/-- `sixb.MeanI` on indices, sorty.go:69, sortyI8.go:189, sortyLsw.go:80, 177. The source of `sixb` is not available here: assumed to be the floor of the
exact mean (see `Verif.Proofs.Mean` for the bit formula `x&y + (x^y)>>1`, which computes it). -/
def meanI (x y : Int) : Int := (x + y) / 2

/-- sorty.go:94-99 -/
def nsShort : Nat := 4
/-- sorty.go:94-99 -/
def nsLong : Nat := 6
/-- sorty.go:94-99 -/
def nsConc : Nat := 8

/-- sorty.go:103-116 `minMaxSample`, on unbounded naturals: `(first, step, last)`. Its agreement with the
computation on machine words `minMaxSampleW` for all inputs the code uses is a theorem. -/
def minMaxSample (slen n : Nat) : Nat × Nat × Nat :=
  let step := slen / n
  let n := n - 1
  let span := n * step
  let tail := slen - span
  let (step, span, tail) :=
    if tail > n ∧ tail / 2 > (step + 1) / 2 then (step + 1, span + n, tail - n) else (step, span, tail)
  let first := tail / 2
  (first, step, first + span)

/-- sorty.go:103-116 `minMaxSample` on machine words (`uint` of `w` bits, all operations wrap). -/
def minMaxSampleW {w : Nat} (slen n : BitVec w) : BitVec w × BitVec w × BitVec w :=
  let step := slen / n
  let n := n - 1
  let span := n * step
  let tail := slen - span
  let (step, span, tail) :=
    if tail > n ∧ tail >>> 1 > (step + 1) >>> 1 then (step + 1, span + n, tail - n) else (step, span, tail)
  let first := tail >>> 1
  (first, step, first + span)

/-- sorty.go:118 `firstFour` (index taken mod 8) -/
def firstFour (i : UInt32) : UInt32 :=
  if i = 2 then ~~~0 else if i = 5 ∨ i = 6 then 1 else 0

/-- sorty.go:119 `stepFour` (index taken mod 8) -/
def stepFour (i : UInt32) : UInt32 :=
  if i = 2 ∨ i = 3 ∨ i = 7 then 1 else 0

/-- sorty.go:122-127 `minMaxFour` on 32-bit words -/
def minMaxFour (slen : UInt32) : UInt32 × UInt32 :=
  let mod := slen &&& 7
  (slen >>> 3 + firstFour mod, slen >>> 2 + stepFour mod)

/-- sorty.go:33-38 the condition checked by `init` (false: panic). Simplification: the thresholds are
mathematical integers, so tunings of 2^62 and more, for which `2*MaxLenIns` wraps, are not modelled. -/
def initOK (maxGor maxLenRec maxLenRecFC maxLenIns maxLenInsFC : Nat) : Bool :=
  4097 > maxGor && maxGor > 0 && maxLenRec > maxLenRecFC && maxLenRecFC > 2 * maxLenIns &&
    maxLenIns > maxLenInsFC && maxLenInsFC > 2 * nsShort

/-- sorty.go:65-78 `Search`, one round of the loop on `(l, h)`. The callback may have state `σ`; the
calls made are collected in order. -/
def searchLoop {σ : Type} (fn : Int → σ → Bool × σ) : Nat → Int → Int → σ → List Int → Option (Int × σ × List Int)
  | 0, _, _, _, _ => none
  | fuel + 1, l, h, st, calls =>
    if l < h then
      let m := meanI l h
      let (b, st) := fn m st
      if b then searchLoop fn fuel l m st (calls ++ [m])
      else searchLoop fn fuel (m + 1) h st (calls ++ [m])
    else some (l, st, calls)

/-- sorty.go:65-78 `Search(n, fn)`: result, final callback state, arguments `fn` was called with.
`none` would mean that more than `n+1` rounds are needed. -/
def Search {σ : Type} (n : Int) (fn : Int → σ → Bool × σ) (st : σ) : Option (Int × σ × List Int) :=
  searchLoop fn (n.toNat + 1) 0 n st []

end Sorty
