import Verif.Model.Types

/-! # sortyLsw.go: IsSorted and Sort via a user-supplied Lesswap function

The collection behind the user's `lsw` is a slice `s` of elements of any type. `lsw` is modelled after its documented
contract (sortyLsw.go:15-24, 323-326), its calls of `less` being answered by the environment (`Par.cmp`).
-/

namespace Sorty

open Prog

/-- Goroutines of `Sort`: the `go` statements of sortyLsw.go:179, 311, 372. -/
inductive LSp where
  /-- `go gPartOne(lsw, l, pv, h, ch)` -/
  | part (l pv h : Int)
  /-- `go gLong(lsw, lo, hi, sv)`; `f` is the length budget -/
  | long (lo hi : Int) (f : Nat)

/-- Go's `int` arithmetic (used for sortyLsw.go:67, 339): wraps to the signed range of `8 * wordSize` bits. -/
def wrapInt (wordSize : Nat) (x : Int) : Int := x.bmod (2 ^ (8 * wordSize))

variable {V Sp : Type}

/-- `lsw(i, k, r, q)`, sortyLsw.go:15-24: `if less(i, k) { if r != q { swap(r, q) }; return true }; return false`.
All four indices must be valid (a call with an invalid one counts as a panic, even if that index would not be used).
The two compared elements are loaded, then `less` is consulted, then the swap loads and stores. -/
def lsw (s : Slice) (i k r q : Int) : Prog V Sp Bool :=
  if (0 ≤ i ∧ i < s.len) ∧ (0 ≤ k ∧ k < s.len) ∧ (0 ≤ r ∧ r < s.len) ∧ (0 ≤ q ∧ q < s.len) then do
    let x ← s.rd i
    let y ← s.rd k
    let b ← .less i.toNat k.toNat x y .ret
    if b then do
      if r ≠ q then s.swap r q else pure ()
      pure true
    else pure false
  else .panic

/-- The `lsw` parameter of `IsSorted` and `Sort` (sortyLsw.go:30, 337): a function of four indices, for a collection that
is a slice of elements of any type. Everything below calls the `lsw` it is given; which one that is, is decided where `Sort`
is called. -/
class Lesswap (V : Type) where
  call : {Sp : Type} → Slice → Int → Int → Int → Int → Prog V Sp Bool

/-- The documented implementation (sortyLsw.go:15-24, 323-326), meant wherever no other one is mentioned. -/
instance documented : Lesswap V := ⟨lsw⟩

theorem call_documented (s : Slice) (i k r q : Int) : (Lesswap.call s i k r q : Prog V Sp Bool) = lsw s i k r q := rfl

variable [Lesswap V]

/-- `IsSorted`, sortyLsw.go:30-37 -/
def IsSorted (wordSize : Nat) (n : Int) (s : Slice) : Prog V Sp Int :=
  loop (s.len + 1) (fun i : Int =>
    if i > 0 then do
      let b ← Lesswap.call s i (i - 1) i i
      if b then pure (.brk i) else pure (.again (i - 1))
    else pure (.brk 0)) (wrapInt wordSize (n - 1))

/-- the inner `for` of insertion sorts: sortyLsw.go:68-73 (`bound` is `first`), and with `step` 1 sortyLsw.go:44-49
(`bound` is `lo`) and sortyLsw.go:243-248 (`bound` is `l`) -/
def lswInner (s : Slice) (bound step h : Int) : Prog V Sp Unit :=
  loop (s.len + 1) (fun l : Int => do
    let b ← Lesswap.call s l (l - step) l (l - step)
    if b then
      let l := l - step
      if l ≤ bound then pure (.brk ()) else pure (.again l)
    else pure (.brk ())) h

/-- `insertion`, sortyLsw.go:42-51, also inlined at sortyLsw.go:242-249 -/
def lswInsertion (s : Slice) (lo hi : Int) : Prog V Sp Unit :=
  loop (s.len + 1) (fun h : Int =>
    if h ≤ hi then do
      lswInner s lo 1 h
      pure (.again (h + 1))
    else pure (.brk ())) (lo + 1)

/-- `pivot`, sortyLsw.go:59-81. `h += step` is the only `int` operation of this file besides `n--` and `n - 1` that can
wrap. (`uint(hi+1-lo)` is exact even if `hi+1` wraps.) -/
def lswPivot (wordSize : Nat) (s : Slice) (lo hi : Int) (n : Nat) : Prog V Sp Int := do
  let (f, st, la) := minMaxSample (hi + 1 - lo).toNat n
  let first := lo + f
  let step : Int := st
  let last := lo + la
  loop (n + 1) (fun h : Int =>
    if h ≤ last then do
      lswInner s first step h
      pure (.again (wrapInt wordSize (h + step)))
    else pure (.brk ())) (first + step)
  let _ ← Lesswap.call s first lo first lo
  let _ ← Lesswap.call s hi last hi last
  pure (meanI first last)

/-- control points and locals of `partOne`, sortyLsw.go:88-119 -/
inductive LP1 where
  /-- the `for` at line 90 -/
  | head (l h : Int)
  /-- the `for` at line 93 -/
  | scan (l h : Int)
  /-- the `for` at line 103 -/
  | second (l h : Int)

/-- `partOne`, sortyLsw.go:90-118, by control points -/
def lswPartOneStep (s : Slice) (pv : Int) : LP1 → Prog V Sp (Ctl LP1 Int)
  | .head l h =>
    if l < h then do
      let b ← Lesswap.call s h pv h h
      if b then pure (.again (.scan l h))
      else do
        let b ← Lesswap.call s pv l l l
        if b then pure (.again (.second l h)) else pure (.again (.head (l + 1) (h - 1)))
    else if l = h ∧ h ≠ pv then do
      let b ← Lesswap.call s h pv h h
      if b then pure (.brk (l + 1)) else pure (.brk l)
    else pure (.brk l)
  | .scan l h => do
    let b ← Lesswap.call s pv l h l
    if b then pure (.again (.head (l + 1) (h - 1)))
    else
      let l := l + 1
      if l ≥ h then pure (.brk (l + 1)) else pure (.again (.scan l h))
  | .second l h =>
    let h := h - 1
    if l ≥ h then pure (.brk l)
    else do
      let b ← Lesswap.call s h pv h l
      if b then pure (.again (.head (l + 1) (h - 1))) else pure (.again (.second l h))

/-- `partOne`, sortyLsw.go:88-119 -/
def lswPartOne (s : Slice) (l pv h : Int) : Prog V Sp Int :=
  loop (2 * s.len + 4) (lswPartOneStep s pv) (.head l h)

/-- control points and locals of `partTwo`, sortyLsw.go:127-160 -/
inductive LP2 where
  /-- the `for` at line 129 -/
  | head (l h : Int)
  /-- the `for` at line 131 -/
  | scan (l h : Int)
  /-- the `for` at line 141 -/
  | second (l h : Int)

/-- sortyLsw.go:151-158 -/
def lswPartTwoNext (lo hi l h : Int) : Ctl LP2 Int :=
  let l := l - 1
  let h := h + 1
  if l < lo then .brk h else if h > hi then .brk l else .again (.head l h)

/-- `partTwo`, sortyLsw.go:129-159, by control points -/
def lswPartTwoStep (s : Slice) (lo pv hi : Int) : LP2 → Prog V Sp (Ctl LP2 Int)
  | .head l h => do
    let b ← Lesswap.call s h pv h h
    if b then pure (.again (.scan l h))
    else do
      let b ← Lesswap.call s pv l l l
      if b then pure (.again (.second l h)) else pure (lswPartTwoNext lo hi l h)
  | .scan l h => do
    let b ← Lesswap.call s pv l h l
    if b then pure (lswPartTwoNext lo hi l h)
    else
      let l := l - 1
      if l < lo then pure (.brk h) else pure (.again (.scan l h))
  | .second l h =>
    let h := h + 1
    if h > hi then pure (.brk l)
    else do
      let b ← Lesswap.call s h pv h l
      if b then pure (lswPartTwoNext lo hi l h) else pure (.again (.second l h))

/-- `partTwo`, sortyLsw.go:127-160 -/
def lswPartTwo (s : Slice) (lo l pv h hi : Int) : Prog V Sp Int :=
  loop (2 * s.len + 4) (lswPartTwoStep s lo pv hi) (.head l h)

/-- sortyLsw.go:187-194, closing a gap left in the low range; state `(r, k, pv)` -/
def lswGapLow (s : Slice) (lo r k pv : Int) : Prog V Sp Int :=
  loop (s.len + 2) (fun (st : Int × Int × Int) =>
    let (r, k, pv) := st
    if lo ≤ r then do
      let b ← Lesswap.call s pv r (k - 1) r
      if b then
        let k := k - 1
        let pv := if k = pv then r else pv
        pure (.again (r - 1, k, pv))
      else pure (.again (r - 1, k, pv))
    else pure (.brk k)) (r, k, pv)

/-- sortyLsw.go:196-203, closing a gap left in the high range; state `(r, k, pv)` -/
def lswGapHigh (s : Slice) (hi r k pv : Int) : Prog V Sp Int :=
  loop (s.len + 2) (fun (st : Int × Int × Int) =>
    let (r, k, pv) := st
    if r ≤ hi then do
      let b ← Lesswap.call s r pv r k
      if b then
        let pv := if k = pv then r else pv
        pure (.again (r + 1, k + 1, pv))
      else pure (.again (r + 1, k, pv))
    else pure (.brk k)) (r, k, pv)

/-- `partCon`, sortyLsw.go:172-206 -/
def lswPartCon (wordSize : Nat) (s : Slice) (lo hi : Int) : Prog V LSp Int := do
  let pv ← lswPivot wordSize s lo hi (nsConc - 1)
  let lo := lo + 1
  let hi := hi - 1
  let l := meanI lo pv
  let h := meanI pv hi
  .go (.part (l + 1) pv (h - 1)) (.ret ())
  let r ← lswPartTwo s lo l pv h hi
  let k ← .recv .ret
  if r < pv then lswGapLow s lo r k pv else lswGapHigh s hi r k pv

/-- sortyLsw.go:226-234 (276-284, 359-367): the two ranges of `[lo,hi]` split at `l`, and their high index differences:
`(l, h, lo, hi, n, no)`, where `[l,h]` is the shorter range -/
def lswSplit (lo hi l : Int) : Int × Int × Int × Int × Int × Int :=
  let h := l - 1
  let no := h - lo
  let n := hi - l
  if no < n then (lo, h, l, hi, no, n) else (l, hi, lo, h, n, no)

/-- median-of-3 pivot of `short`, sortyLsw.go:211-223 -/
def lswShortPivot (s : Slice) (lo hi : Int) : Prog V Sp Int := do
  let (fr, step, _) := minMaxSample (hi + 1 - lo).toNat 3
  let first := lo + fr
  let pv := first + step
  let last := pv + step
  let _ ← Lesswap.call s pv first pv first
  let b ← Lesswap.call s last pv last pv
  if b then do
    let _ ← Lesswap.call s pv first pv first
    pure ()
  else pure ()
  let _ ← Lesswap.call s first lo first lo
  let _ ← Lesswap.call s hi last hi last
  pure pv

variable (C : Conf)

/-- `short`, sortyLsw.go:209-258. `f` bounds the rounds of `start`, `d` the nesting of calls. -/
def lswShort (s : Slice) : Nat → Nat → Int → Int → Prog V Sp Unit
  | 0, _, _, _ => .diverge
  | f + 1, d, lo, hi => do
    let pv ← lswShortPivot s lo hi
    let l ← lswPartOne s (lo + 1) pv (hi - 1)
    let (l, h, lo, hi, n, no) := lswSplit lo hi l
    if n ≥ C.maxLenInsFC then do
      match d with
      | 0 => .overflow
      | d + 1 => lswShort s f d l h
      lswShort s f d lo hi
    else do
      -- isort:
      let again ← loop 3 (fun (st : Int × Int) => do
        let (l, h) := st
        lswInsertion s l h
        if no ≥ C.maxLenInsFC then pure (.brk true)
        else if lo ≠ l then pure (.again (lo, hi)) else pure (.brk false)) (l, h)
      if again then lswShort s f d lo hi else pure ()

/-- `long`, sortyLsw.go:272-314. `sv = false` is the nil `*syncVar`. -/
def lswLong (s : Slice) : Nat → Nat → Int → Int → Bool → Prog V LSp Unit
  | 0, _, _, _, _ => .diverge
  | f + 1, d, lo, hi, sv => do
    let pv ← lswPivot C.wordSize s lo hi (nsLong - 1)
    let l ← lswPartOne s (lo + 1) pv (hi - 1)
    let (l, h, lo, hi, n, no) := lswSplit lo hi l
    if n < C.maxLenRecFC then do
      if n ≥ C.maxLenInsFC then
        match d with
        | 0 => .overflow
        | d + 1 => lswShort C s f d l h
      else lswInsertion s l h
      if no ≥ C.maxLenRecFC then lswLong s f d lo hi sv
      else
        match d with
        | 0 => .overflow
        | d + 1 => lswShort C s f d lo hi
    else do
      let full ← if sv then gorFull else pure true
      if full then do
        match d with
        | 0 => .overflow
        | d + 1 => lswLong s f d l h sv
        lswLong s f d lo hi sv
      else do
        let _ ← .incGor .ret
        .go (.long lo hi f) (.ret ())
        lswLong s f d l h sv

/-- `gPartOne` (sortyLsw.go:165-167) and `gLong` (sortyLsw.go:263-269) -/
def lswBody (s : Slice) : LSp → Prog V LSp Unit
  | .part l pv h => do
    let k ← lswPartOne s l pv h
    .send k (.ret ())
  | .long lo hi f => do
    lswLong C s f C.depth lo hi true
    let n ← .decGor .ret
    if n = 0 then .send 0 (.ret ()) else pure ()

/-- the `for` of `Sort`, sortyLsw.go:356-385, and what follows it -/
def lswSortLoop (s : Slice) : Nat → Int → Int → Prog V LSp Unit
  | 0, _, _ => .diverge
  | f + 1, lo, hi => do
    let l ← lswPartCon C.wordSize s lo hi
    let (l, h, lo, hi, n, no) := lswSplit lo hi l
    if n ≥ C.maxLenRecFC then do
      let _ ← .incGor .ret
      .go (.long l h f) (.ret ())
    else if n ≥ C.maxLenInsFC then lswShort C s f C.depth l h
    else lswInsertion s l h
    let stop ← if no ≤ 2 * C.maxLenRecFC then pure true else gorFull
    if stop then do
      lswLong C s f C.depth lo hi true
      let n ← .decGor .ret
      if n ≠ 0 then do
        let _ ← .recv .ret
        pure ()
      else pure ()
    else lswSortLoop s f lo hi

/-- `Sort(n, lsw)`, sortyLsw.go:337-392, for an `lsw` that works on the collection `s` -/
def SortLsw (n : Int) (s : Slice) : Prog V LSp Unit := do
  let n := wrapInt C.wordSize (n - 1)
  let f := (n + 1).toNat
  let single ← if n ≤ 2 * C.maxLenRecFC then pure true else do
    let mg ← .maxGor .ret
    pure (decide (mg ≤ 1))
  if single then
    if n ≥ C.maxLenRecFC then lswLong C s f C.depth 0 n false
    else if n ≥ C.maxLenInsFC then lswShort C s f C.depth 0 n
    else if n > 0 then lswInsertion s 0 n
    else pure ()
  else do
    .mkSync (.ret ())
    lswSortLoop C s f 0 n

/-- Execution environment of a call of `Sort`, sortyLsw.go:337-392: the user's `less` answers as `cmp` allows. -/
def lswPar (s : Slice) (cmp : Nat → Nat → V → V → Bool → Prop) (M : Nat) (stale : Prop) : Par V LSp :=
  { M := M, stale := stale, cmp := cmp, body := lswBody C s }

end Sorty
