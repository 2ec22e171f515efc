import Verif.Prog
import Verif.Model.Sample

/-! # The type-specific sorts

sortyI4.go, sortyI8.go, sortyU4.go, sortyU8.go, sortyLenS.go, sortyLenB.go (mean-of-two-middle-samples
pivots) and sortyF4.go, sortyF8.go, sortyS.go, sortyB.go (middle-sample pivots) contain the same functions
up to: the element type, the key that is compared (`x`, `len(x)`, `sixb.BtoS(x)`), the thresholds
(`MaxLenIns/MaxLenRec` or `MaxLenInsFC/MaxLenRecFC`) and the two ways to choose pivots. They are modelled once,
over a record `Fam` of these differences. Line numbers below are those of sortyI8.go unless said otherwise.
-/

namespace Sorty

/-- What distinguishes the ten files (sortyI8.go:17-375 and the same functions of the others). -/
structure Fam (V κ : Type) where
  /-- the compared key of an element: `x` (I*,U*,F*,S), `len(x)` (Len*), `sixb.BtoS(x)` (B) -/
  key : V → κ
  /-- Go's `<` on keys -/
  lt : κ → κ → Bool
  /-- Go's `<=` on keys -/
  le : κ → κ → Bool
  /-- zero value, initial content of the local `sample` array -/
  zero : κ
  /-- `MaxLenIns` (I*,U*,F*,Len*) or `MaxLenInsFC` (S,B) -/
  maxIns : Nat
  /-- `MaxLenRec` or `MaxLenRecFC` -/
  maxRec : Nat
  /-- `some MeanXX` for files that average the two middle samples (I*,U*,Len*), `none` for files that
  take the middle sample of an odd number (F*,S,B) -/
  mean : Option (κ → κ → κ)

/-- Goroutines of the type-specific sorts: the `go` statements of sortyI8.go:191, 314, 355. -/
inductive VSp (κ : Type) where
  /-- `go gPartOne*(ar, pv, ch)` -/
  | part (ar : Slice) (pv : κ)
  /-- `go gLong*(ar, sv)`; `f` is the length budget -/
  | long (ar : Slice) (f : Nat)

open Prog Slice

section
variable {V κ Sp : Type}

/-- `isSorted*`, sortyI8.go:17-24 (sortyS.go:17-24, sortyB.go:17-24, sortyLenS.go:17-24, ...). -/
def isSortedV (F : Fam V κ) (ar : Slice) : Prog V Sp Int :=
  loop (ar.len + 1) (fun i : Int =>
    if i > 0 then do
      let x ← ar.rd i
      let y ← ar.rd (i - 1)
      if F.lt (F.key x) (F.key y) then pure (.brk i) else pure (.again (i - 1))
    else pure (.brk 0)) (ar.len - 1)

/-- inner part of `insertion*`, sortyI8.go:31-47, from label `start` on; state is `l` -/
def insertInner (key : V → κ) (lt : κ → κ → Bool) (slc : Slice) (h : Int) (val : V) : Prog V Sp Unit :=
  loop (slc.len + 1) (fun l : Int => do
    let pre ← slc.rd (l - 1)
    if lt (key val) (key pre) then do
      -- loop:
      slc.wr l pre
      let l := l - 1
      if l = 0 then do
        slc.wr l val
        pure (.brk ())
      else pure (.again l)
    else if l = h then pure (.brk ())
    else do
      slc.wr l val
      pure (.brk ())) h

/-- `insertion*`, sortyI8.go:27-49 -/
def insertion (key : V → κ) (lt : κ → κ → Bool) (slc : Slice) : Prog V Sp Unit :=
  loop (slc.len + 1) (fun h : Int =>
    if h < slc.len then do
      let val ← slc.rd h
      insertInner key lt slc h val
      pure (.again (h + 1))
    else pure (.brk ())) 1

variable (F : Fam V κ)

/-- `pivot*`, sortyI8.go:56-69 (mean of the two middle samples), sortyF8.go:71-83, sortyS.go:56-68,
sortyB.go:56-68 (middle sample), sortyLenS.go:56-69, where `insertionI`, sorty.go:129-136, is `insertionI8` or `insertionI4` on
the lengths. The stack array `sample` is local to the goroutine. -/
def pivot (slc : Slice) (n : Nat) : Prog V Sp κ := do
  let (first, step, _) := minMaxSample slc.len n
  let sample ← loop (n + 1) (fun (st : Int × Int × Mem κ) =>
    let (i, first, sample) := st
    if i ≥ 0 then do
      let x ← slc.rd first
      pure (.again (i - 1, first + step, Function.update sample i.toNat (F.key x)))
    else pure (.brk sample)) ((n : Int) - 1, (first : Int), fun _ => F.zero)
  match evalLocal (Sp := Empty) (insertion id F.lt ⟨0, n⟩) sample with
  | none => .panic
  | some (_, sample) =>
    match F.mean with
    | some mean => pure (mean (sample (n / 2 - 1)) (sample (n / 2)))
    | none => pure (sample (n / 2))

/-- labels and locals of `partOne*`, sortyI8.go:77-120 -/
inductive P1 where
  | second (l h : Int)
  | swap (l h : Int)
  | next (l h : Int)
  | start (l h : Int)
  | scan (l h : Int)
  | last (l h : Int)

/-- basic blocks of `partOne*`, sortyI8.go:80-119; `scan` is the `for` at line 106 -/
def partOneStep (slc : Slice) (pv : κ) : P1 → Prog V Sp (Ctl P1 Int)
  | .second l h =>
    let h := h - 1
    if h ≤ l then pure (.brk l)
    else do
      let x ← slc.rd h
      if F.le (F.key x) pv then pure (.again (.swap l h)) else pure (.again (.second l h))
  | .swap l h => do
    slc.swap l h
    pure (.again (.next l h))
  | .next l h => pure (.again (.start (l + 1) (h - 1)))
  | .start l h =>
    if h ≤ l then pure (.again (.last l h))
    else do
      let x ← slc.rd h
      if F.le pv (F.key x) then do
        let y ← slc.rd l
        if F.lt pv (F.key y) then pure (.again (.second l h)) else pure (.again (.next l h))
      else pure (.again (.scan l h))
  | .scan l h => do
    let y ← slc.rd l
    if F.le pv (F.key y) then pure (.again (.swap l h))
    else
      let l := l + 1
      if h ≤ l then pure (.brk (l + 1)) else pure (.again (.scan l h))
  | .last l h =>
    if l = h then do
      let x ← slc.rd h
      if F.lt (F.key x) pv then pure (.brk (l + 1)) else pure (.brk l)
    else pure (.brk l)

/-- `partOne*`, sortyI8.go:77-120 -/
def partOne (slc : Slice) (pv : κ) : Prog V Sp Int :=
  loop (4 * slc.len + 8) (partOneStep F slc pv) (.start 0 (slc.len - 1))

/-- labels and locals of `partTwo*`, sortyI8.go:129-173 -/
inductive P2 where
  | second (l h : Int)
  | swap (l h : Int)
  | next (l h : Int)
  | start (l h : Int)
  | scan (l h : Int)

/-- basic blocks of `partTwo*`, sortyI8.go:135-172; `scan` is the `for` at line 164 -/
def partTwoStep (slc : Slice) (pv : κ) : P2 → Prog V Sp (Ctl P2 Int)
  | .second l h =>
    let h := h + 1
    if h ≥ slc.len then pure (.brk l)
    else do
      let x ← slc.rd h
      if F.le (F.key x) pv then pure (.again (.swap l h)) else pure (.again (.second l h))
  | .swap l h => do
    slc.swap l h
    pure (.again (.next l h))
  | .next l h => pure (.again (.start (l - 1) (h + 1)))
  | .start l h =>
    if l < 0 then pure (.brk h)
    else if h ≥ slc.len then pure (.brk l)
    else do
      let x ← slc.rd h
      if F.le pv (F.key x) then do
        let y ← slc.rd l
        if F.lt pv (F.key y) then pure (.again (.second l h)) else pure (.again (.next l h))
      else pure (.again (.scan l h))
  | .scan l h => do
    let y ← slc.rd l
    if F.le pv (F.key y) then pure (.again (.swap l h))
    else
      let l := l - 1
      if l < 0 then pure (.brk h) else pure (.again (.scan l h))

/-- `partTwo*`, sortyI8.go:129-173 -/
def partTwo (slc : Slice) (l h : Int) (pv : κ) : Prog V Sp Int :=
  let l := l - 1
  if h ≤ l then pure (-1)
  else loop (4 * slc.len + 8) (partTwoStep F slc pv) (.start l h)

/-- sortyI8.go:199-204, closing a gap left in the low range; state `(r, k)` -/
def gapLow (slc : Slice) (pv : κ) (r k : Int) : Prog V Sp Int :=
  loop (slc.len + 2) (fun (st : Int × Int) =>
    let (r, k) := st
    if 0 ≤ r then do
      let x ← slc.rd r
      if F.lt pv (F.key x) then do
        let k := k - 1
        slc.swap r k
        pure (.again (r - 1, k))
      else pure (.again (r - 1, k))
    else pure (.brk k)) (r, k)

/-- sortyI8.go:206-211, closing a gap left in the high range; state `(r, k)` -/
def gapHigh (slc : Slice) (pv : κ) (r k : Int) : Prog V Sp Int :=
  loop (slc.len + 2) (fun (st : Int × Int) =>
    let (r, k) := st
    if r < slc.len then do
      let x ← slc.rd r
      if F.lt (F.key x) pv then do
        slc.swap r k
        pure (.again (r + 1, k + 1))
      else pure (.again (r + 1, k))
    else pure (.brk k)) (r, k)

/-- samples for dual partitioning, sortyI8.go:187, sortyF8.go:201: `nsConc` (I*,U*,Len*) or `nsConc-1` (F*,S,B) -/
def Fam.nConc : Nat := if F.mean.isSome then nsConc else nsConc - 1

/-- samples for long ranges, sortyI8.go:277, sortyF8.go:288: `nsLong` (I*,U*,Len*) or `nsLong-1` (F*,S,B) -/
def Fam.nLong : Nat := if F.mean.isSome then nsLong else nsLong - 1

/-- `partCon*`, sortyI8.go:185-214 -/
def partCon (slc : Slice) : Prog V (VSp κ) Int := do
  let pv ← pivot F slc F.nConc
  let mid : Int := (slc.len : Int) / 2
  let l := mid / 2
  let h := meanI mid slc.len
  let half ← slc.sub l h
  .go (.part half pv) (.ret ())
  let r ← partTwo F slc l h pv
  let v ← .recv .ret
  let k := l + v
  if r < mid then gapLow F slc pv r k else gapHigh F slc pv r k

/-- median-of-4 pivot of `short*`, sortyI8.go:219-234 (I*,U*,Len*) -/
def shortPivot4 (mean : κ → κ → κ) (ar : Slice) : Prog V Sp κ := do
  let (first, step) := minMaxFour (UInt32.ofNat ar.len)
  let a ← ar.rd first.toNat
  let b ← ar.rd (first + step).toNat
  let c ← ar.rd (first + 2 * step).toNat
  let d ← ar.rd (first + 3 * step).toNat
  let (a, b, c, d) := (F.key a, F.key b, F.key c, F.key d)
  let (d, b) := if F.lt d b then (b, d) else (d, b)
  let (c, a) := if F.lt c a then (a, c) else (c, a)
  let c := if F.lt d c then d else c
  let b := if F.lt b a then a else b
  pure (mean b c)

/-- median-of-3 pivot of `short*`, sortyF8.go:233-245, sortyS.go:217-230, sortyB.go:217-230 -/
def shortPivot3 (ar : Slice) : Prog V Sp κ := do
  let (first, step, last) := minMaxSample ar.len 3
  let f ← ar.rd first
  let pv ← ar.rd (first + step : Nat)
  let l ← ar.rd last
  let (f, pv, l) := (F.key f, F.key pv, F.key l)
  let (pv, f) := if F.lt pv f then (f, pv) else (pv, f)
  if F.lt l pv then
    if F.lt l f then pure f else pure l
  else pure pv

/-- pivot of `short*`, sortyI8.go:219-234 and sortyF8.go:233-245 -/
def shortPivot (ar : Slice) : Prog V Sp κ :=
  match F.mean with
  | some mean => shortPivot4 F mean ar
  | none => shortPivot3 F ar

/-- sortyI8.go:237-245 (281-287, 342-350): `(aq, ar)` = (shorter, longer) range of `ar` split at `k` -/
def splitAt (ar : Slice) (k : Int) : Prog V Sp (Slice × Slice) :=
  if k < ar.len - k then do
    let aq ← ar.sub 0 k
    let ar ← ar.sub k ar.len
    pure (aq, ar)
  else do
    let aq ← ar.sub k ar.len
    let ar ← ar.sub 0 k
    pure (aq, ar)

/-- `short*`, sortyI8.go:217-261. `f` bounds the rounds of `start`, `d` the nesting of calls. -/
def short : Nat → Nat → Slice → Prog V Sp Unit
  | 0, _, _ => .diverge
  | f + 1, d, ar => do
    let pv ← shortPivot F ar
    let k ← partOne F ar pv
    let (aq, ar) ← splitAt ar k
    if aq.len > F.maxIns then do
      match d with
      | 0 => .overflow
      | d + 1 => short f d aq
      short f d ar
    else do
      -- isort:
      let again ← loop 3 (fun aq : Slice => do
        insertion F.key F.lt aq
        if ar.len > F.maxIns then pure (.brk true)
        else do
          let ne ← ar.addrNe aq
          if ne then pure (.again ar) else pure (.brk false)) aq
      if again then short f d ar else pure ()

/-- `gorFull`, sorty.go:89-92 -/
def gorFull : Prog V Sp Bool := do
  let mg ← .maxGor .ret
  let n ← .loadGor .ret
  pure (decide (n ≥ mg))

/-- `long*`, sortyI8.go:275-317. `sv = false` is the nil `*syncVar`. -/
def long : Nat → Nat → Slice → Bool → Prog V (VSp κ) Unit
  | 0, _, _, _ => .diverge
  | f + 1, d, ar, sv => do
    let pv ← pivot F ar F.nLong
    let k ← partOne F ar pv
    let (aq, ar) ← splitAt ar k
    if aq.len ≤ F.maxRec then do
      if aq.len > F.maxIns then
        match d with
        | 0 => .overflow
        | d + 1 => short F f d aq
      else insertion F.key F.lt aq
      if ar.len > F.maxRec then long f d ar sv
      else
        match d with
        | 0 => .overflow
        | d + 1 => short F f d ar
    else do
      let full ← if sv then gorFull else pure true
      if full then do
        match d with
        | 0 => .overflow
        | d + 1 => long f d aq sv
        long f d ar sv
      else do
        let _ ← .incGor .ret
        .go (.long ar f) (.ret ())
        long f d aq sv

/-- `gPartOne*` (sortyI8.go:178-180) and `gLong*` (sortyI8.go:266-272). `d` is the stack budget of a new goroutine. -/
def vbody (d : Nat) : VSp κ → Prog V (VSp κ) Unit
  | .part ar pv => do
    let k ← partOne F ar pv
    .send k (.ret ())
  | .long ar f => do
    long F f d ar true
    let n ← .decGor .ret
    if n = 0 then .send 0 (.ret ()) else pure ()

/-- the `for` of `sort*`, sortyI8.go:339-374, and what follows it -/
def sortLoop (d : Nat) : Nat → Slice → Prog V (VSp κ) Unit
  | 0, _ => .diverge
  | f + 1, ar => do
    let k ← partCon F ar
    let (aq, ar) ← splitAt ar k
    if aq.len > F.maxRec then do
      let _ ← .incGor .ret
      .go (.long aq f) (.ret ())
    else if aq.len > F.maxIns then short F f d aq
    else insertion F.key F.lt aq
    let stop ← if ar.len < 2 * (F.maxRec + 1) then pure true else gorFull
    if stop then do
      long F f d ar true
      let n ← .decGor .ret
      if n ≠ 0 then do
        let _ ← .recv .ret
        pure ()
      else pure ()
    else sortLoop d f ar

/-- `sort*`, sortyI8.go:322-375. `d` is the stack budget below this call. -/
def sortV (d : Nat) (ar : Slice) : Prog V (VSp κ) Unit := do
  let f := ar.len
  let single ← if ar.len < 2 * (F.maxRec + 1) then pure true else do
    let mg ← .maxGor .ret
    pure (decide (mg ≤ 1))
  if single then
    if ar.len > F.maxRec then long F f d ar false
    else if ar.len > F.maxIns then short F f d ar
    else insertion F.key F.lt ar
  else do
    .mkSync (.ret ())
    sortLoop F d f ar

end

end Sorty
