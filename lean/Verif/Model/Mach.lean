import Verif.Model.Lsw
import Verif.Proofs.Mean

/-! # The same functions on machine words

`Model/Val.lean` and `Model/Types.lean` compute indices in unbounded integers. Here every `+`, `-`, `++`, `--` and `*` on
values of type `int` wraps to the word size, `uint` computations are done on machine words, and so are the thresholds
(`2*(MaxLenRec+1)`, `2*MaxLenIns`, ...) and `sixb.MeanI` of indices. Comparisons, bounds checks, loads, stores and everything that
concerns goroutines are as in the other files, and so are the line numbers cited: those of sortyI8.go unless said otherwise.
-/

namespace Sorty

open Prog Slice

/-- `x + y` on `int`, as in sortyI8.go:28, sortyLsw.go:67 -/
def addI (ws : Nat) (x y : Int) : Int := wrapInt ws (x + y)

/-- `x - y` on `int`, as in sortyI8.go:18, sortyLsw.go:339 -/
def subI (ws : Nat) (x y : Int) : Int := wrapInt ws (x - y)

/-- `sixb.MeanI` (sorty.go:69, sortyI8.go:189, sortyLsw.go:80, 177) as `x&y + (x^y)>>1` on `int` (the source of sixb is not available here) -/
def meanIM (ws : Nat) (x y : Int) : Int := (meanBitsS (BitVec.ofInt (8 * ws) x) (BitVec.ofInt (8 * ws) y)).toInt

/-- sorty.go:103-116 `minMaxSample(uint(slen), n)`, results read as numbers; `slen` is an `int` -/
def minMaxSampleM (ws : Nat) (slen : Int) (n : Nat) : Nat × Nat × Nat :=
  let r := minMaxSampleW (BitVec.ofInt (8 * ws) slen) (BitVec.ofNat (8 * ws) n)
  (r.1.toNat, r.2.1.toNat, r.2.2.toNat)

/-- `first + step` on `uint`, sortyI8.go:63 -/
def addU (ws : Nat) (x y : Int) : Int := (x + y) % 2 ^ (8 * ws)

/-- sorty.go:33-38 on `int`; `MaxGor` is unsigned -/
def initOKM (ws maxGor maxLenRec maxLenRecFC maxLenIns maxLenInsFC : Nat) : Bool :=
  4097 > maxGor && maxGor > 0 && maxLenRec > maxLenRecFC && (maxLenRecFC : Int) > wrapInt ws (2 * maxLenIns) &&
    maxLenIns > maxLenInsFC && maxLenInsFC > 2 * nsShort

section
variable {V κ Sp : Type} (ws : Nat)

/-- `isSorted*`, sortyI8.go:17-24 -/
def isSortedVM (F : Fam V κ) (ar : Slice) : Prog V Sp Int :=
  loop (ar.len + 1) (fun i : Int =>
    if i > 0 then do
      let x ← ar.rd i
      let y ← ar.rd (subI ws i 1)
      if F.lt (F.key x) (F.key y) then pure (.brk i) else pure (.again (subI ws i 1))
    else pure (.brk 0)) (subI ws ar.len 1)

/-- inner part of `insertion*`, sortyI8.go:31-47 -/
def insertInnerM (key : V → κ) (lt : κ → κ → Bool) (slc : Slice) (h : Int) (val : V) : Prog V Sp Unit :=
  loop (slc.len + 1) (fun l : Int => do
    let pre ← slc.rd (subI ws l 1)
    if lt (key val) (key pre) then do
      slc.wr l pre
      let l := subI ws l 1
      if l = 0 then do
        slc.wr l val
        pure (.brk ())
      else pure (.again l)
    else if l = h then pure (.brk ())
    else do
      slc.wr l val
      pure (.brk ())) h

/-- `insertion*`, sortyI8.go:27-49 -/
def insertionM (key : V → κ) (lt : κ → κ → Bool) (slc : Slice) : Prog V Sp Unit :=
  loop (slc.len + 1) (fun h : Int =>
    if h < slc.len then do
      let val ← slc.rd h
      insertInnerM ws key lt slc h val
      pure (.again (addI ws h 1))
    else pure (.brk ())) 1

variable (F : Fam V κ)

/-- `pivot*`, sortyI8.go:56-69, sortyF8.go:71-83. `first` is a `uint`. -/
def pivotM (slc : Slice) (n : Nat) : Prog V Sp κ := do
  let (first, step, _) := minMaxSampleM ws slc.len n
  let sample ← loop (n + 1) (fun (st : Int × Int × Mem κ) =>
    let (i, first, sample) := st
    if i ≥ 0 then do
      let x ← slc.rd first
      pure (.again (subI ws i 1, addU ws first step, Function.update sample i.toNat (F.key x)))
    else pure (.brk sample)) (subI ws n 1, (first : Int), fun _ => F.zero)
  match evalLocal (Sp := Empty) (insertionM ws id F.lt ⟨0, n⟩) sample with
  | none => .panic
  | some (_, sample) =>
    match F.mean with
    | some mean => pure (mean (sample (n / 2 - 1)) (sample (n / 2)))
    | none => pure (sample (n / 2))

/-- basic blocks of `partOne*`, sortyI8.go:80-119 -/
def partOneStepM (slc : Slice) (pv : κ) : P1 → Prog V Sp (Ctl P1 Int)
  | .second l h =>
    let h := subI ws h 1
    if h ≤ l then pure (.brk l)
    else do
      let x ← slc.rd h
      if F.le (F.key x) pv then pure (.again (.swap l h)) else pure (.again (.second l h))
  | .swap l h => do
    slc.swap l h
    pure (.again (.next l h))
  | .next l h => pure (.again (.start (addI ws l 1) (subI ws h 1)))
  | .start l h =>
    if h ≤ l then pure (.again (.last l h))
    else do
      let x ← slc.rd h
      if F.le pv (F.key x) then do
        let y ← slc.rd l
        if F.lt pv (F.key y) then pure (.again (.second l h)) else pure (.again (.next l h))
      else pure (.again (.scan l h))
  | .scan l h => do
    let y ← slc.rd l
    if F.le pv (F.key y) then pure (.again (.swap l h))
    else
      let l := addI ws l 1
      if h ≤ l then pure (.brk (addI ws l 1)) else pure (.again (.scan l h))
  | .last l h =>
    if l = h then do
      let x ← slc.rd h
      if F.lt (F.key x) pv then pure (.brk (addI ws l 1)) else pure (.brk l)
    else pure (.brk l)

/-- `partOne*`, sortyI8.go:77-120 -/
def partOneM (slc : Slice) (pv : κ) : Prog V Sp Int :=
  loop (4 * slc.len + 8) (partOneStepM ws F slc pv) (.start 0 (subI ws slc.len 1))

/-- basic blocks of `partTwo*`, sortyI8.go:135-172 -/
def partTwoStepM (slc : Slice) (pv : κ) : P2 → Prog V Sp (Ctl P2 Int)
  | .second l h =>
    let h := addI ws h 1
    if h ≥ slc.len then pure (.brk l)
    else do
      let x ← slc.rd h
      if F.le (F.key x) pv then pure (.again (.swap l h)) else pure (.again (.second l h))
  | .swap l h => do
    slc.swap l h
    pure (.again (.next l h))
  | .next l h => pure (.again (.start (subI ws l 1) (addI ws h 1)))
  | .start l h =>
    if l < 0 then pure (.brk h)
    else if h ≥ slc.len then pure (.brk l)
    else do
      let x ← slc.rd h
      if F.le pv (F.key x) then do
        let y ← slc.rd l
        if F.lt pv (F.key y) then pure (.again (.second l h)) else pure (.again (.next l h))
      else pure (.again (.scan l h))
  | .scan l h => do
    let y ← slc.rd l
    if F.le pv (F.key y) then pure (.again (.swap l h))
    else
      let l := subI ws l 1
      if l < 0 then pure (.brk h) else pure (.again (.scan l h))

/-- `partTwo*`, sortyI8.go:129-173 -/
def partTwoM (slc : Slice) (l h : Int) (pv : κ) : Prog V Sp Int :=
  let l := subI ws l 1
  if h ≤ l then pure (-1)
  else loop (4 * slc.len + 8) (partTwoStepM ws F slc pv) (.start l h)

/-- sortyI8.go:199-204 -/
def gapLowM (slc : Slice) (pv : κ) (r k : Int) : Prog V Sp Int :=
  loop (slc.len + 2) (fun (st : Int × Int) =>
    let (r, k) := st
    if 0 ≤ r then do
      let x ← slc.rd r
      if F.lt pv (F.key x) then do
        let k := subI ws k 1
        slc.swap r k
        pure (.again (subI ws r 1, k))
      else pure (.again (subI ws r 1, k))
    else pure (.brk k)) (r, k)

/-- sortyI8.go:206-211 -/
def gapHighM (slc : Slice) (pv : κ) (r k : Int) : Prog V Sp Int :=
  loop (slc.len + 2) (fun (st : Int × Int) =>
    let (r, k) := st
    if r < slc.len then do
      let x ← slc.rd r
      if F.lt (F.key x) pv then do
        slc.swap r k
        pure (.again (addI ws r 1, addI ws k 1))
      else pure (.again (addI ws r 1, k))
    else pure (.brk k)) (r, k)

/-- `partCon*`, sortyI8.go:185-214 -/
def partConM (slc : Slice) : Prog V (VSp κ) Int := do
  let pv ← pivotM ws F slc F.nConc
  let mid : Int := (slc.len : Int) / 2
  let l := mid / 2
  let h := meanIM ws mid slc.len
  let half ← slc.sub l h
  .go (.part half pv) (.ret ())
  let r ← partTwoM ws F slc l h pv
  let v ← .recv .ret
  let k := addI ws l v
  if r < mid then gapLowM ws F slc pv r k else gapHighM ws F slc pv r k

/-- median-of-3 pivot of `short*`, sortyF8.go:233-245, sortyS.go:217-230, sortyB.go:217-230 -/
def shortPivot3M (ar : Slice) : Prog V Sp κ := do
  let (first, step, last) := minMaxSampleM ws ar.len 3
  let f ← ar.rd first
  let pv ← ar.rd (addU ws first step)
  let l ← ar.rd last
  let (f, pv, l) := (F.key f, F.key pv, F.key l)
  let (pv, f) := if F.lt pv f then (f, pv) else (pv, f)
  if F.lt l pv then
    if F.lt l f then pure f else pure l
  else pure pv

/-- pivot of `short*`, sortyI8.go:219-234 and sortyF8.go:233-245; `shortPivot4` computes on 32-bit words already -/
def shortPivotM (ar : Slice) : Prog V Sp κ :=
  match F.mean with
  | some mean => shortPivot4 F mean ar
  | none => shortPivot3M ws F ar

/-- sortyI8.go:237-245 (281-287, 342-350) -/
def splitAtM (ar : Slice) (k : Int) : Prog V Sp (Slice × Slice) :=
  if k < subI ws ar.len k then do
    let aq ← ar.sub 0 k
    let ar ← ar.sub k ar.len
    pure (aq, ar)
  else do
    let aq ← ar.sub k ar.len
    let ar ← ar.sub 0 k
    pure (aq, ar)

/-- `short*`, sortyI8.go:217-261 -/
def shortM : Nat → Nat → Slice → Prog V Sp Unit
  | 0, _, _ => .diverge
  | f + 1, d, ar => do
    let pv ← shortPivotM ws F ar
    let k ← partOneM ws F ar pv
    let (aq, ar) ← splitAtM ws ar k
    if aq.len > F.maxIns then do
      match d with
      | 0 => .overflow
      | d + 1 => shortM f d aq
      shortM f d ar
    else do
      -- isort:
      let again ← loop 3 (fun aq : Slice => do
        insertionM ws F.key F.lt aq
        if ar.len > F.maxIns then pure (.brk true)
        else do
          let ne ← ar.addrNe aq
          if ne then pure (.again ar) else pure (.brk false)) aq
      if again then shortM f d ar else pure ()

/-- `long*`, sortyI8.go:275-317 -/
def longM : Nat → Nat → Slice → Bool → Prog V (VSp κ) Unit
  | 0, _, _, _ => .diverge
  | f + 1, d, ar, sv => do
    let pv ← pivotM ws F ar F.nLong
    let k ← partOneM ws F ar pv
    let (aq, ar) ← splitAtM ws ar k
    if aq.len ≤ F.maxRec then do
      if aq.len > F.maxIns then
        match d with
        | 0 => .overflow
        | d + 1 => shortM ws F f d aq
      else insertionM ws F.key F.lt aq
      if ar.len > F.maxRec then longM f d ar sv
      else
        match d with
        | 0 => .overflow
        | d + 1 => shortM ws F f d ar
    else do
      let full ← if sv then gorFull else pure true
      if full then do
        match d with
        | 0 => .overflow
        | d + 1 => longM f d aq sv
        longM f d ar sv
      else do
        let _ ← .incGor .ret
        .go (.long ar f) (.ret ())
        longM f d aq sv

/-- `gPartOne*` (sortyI8.go:178-180) and `gLong*` (sortyI8.go:266-272) -/
def vbodyM (d : Nat) : VSp κ → Prog V (VSp κ) Unit
  | .part ar pv => do
    let k ← partOneM ws F ar pv
    .send k (.ret ())
  | .long ar f => do
    longM ws F f d ar true
    let n ← .decGor .ret
    if n = 0 then .send 0 (.ret ()) else pure ()

/-- `2*(MaxLenRec+1)` on `int`, sortyI8.go:324, 364 -/
def twoRecM : Int := wrapInt ws (2 * addI ws F.maxRec 1)

/-- the `for` of `sort*`, sortyI8.go:339-374, and what follows it -/
def sortLoopM (d : Nat) : Nat → Slice → Prog V (VSp κ) Unit
  | 0, _ => .diverge
  | f + 1, ar => do
    let k ← partConM ws F ar
    let (aq, ar) ← splitAtM ws ar k
    if aq.len > F.maxRec then do
      let _ ← .incGor .ret
      .go (.long aq f) (.ret ())
    else if aq.len > F.maxIns then shortM ws F f d aq
    else insertionM ws F.key F.lt aq
    let stop ← if (ar.len : Int) < twoRecM ws F then pure true else gorFull
    if stop then do
      longM ws F f d ar true
      let n ← .decGor .ret
      if n ≠ 0 then do
        let _ ← .recv .ret
        pure ()
      else pure ()
    else sortLoopM d f ar

/-- `sort*`, sortyI8.go:322-375. The loop has fuel for one iteration even if the slice is empty: `2*(MaxLenRec+1)` may wrap. -/
def sortVM (d : Nat) (ar : Slice) : Prog V (VSp κ) Unit := do
  let f := ar.len
  let single ← if (ar.len : Int) < twoRecM ws F then pure true else do
    let mg ← .maxGor .ret
    pure (decide (mg ≤ 1))
  if single then
    if ar.len > F.maxRec then longM ws F f d ar false
    else if ar.len > F.maxIns then shortM ws F f d ar
    else insertionM ws F.key F.lt ar
  else do
    .mkSync (.ret ())
    sortLoopM ws F d (max f 1) ar

end

section
variable {Sp : Type}

/-- sortyF8.go:336-349 (sortyF4.go alike) -/
def nanToEndM (ws : Nat) (ar : Slice) : Prog Cell Sp Slice := do
  let h ← loop (ar.len + 1) (fun (st : Int × Int) =>
    let (l, h) := st
    if l ≤ h then do
      let x ← ar.rd h
      if cellNaN x then pure (.again (l, subI ws h 1))
      else do
        let y ← ar.rd l
        if cellNaN y then do
          ar.wr l x
          ar.wr h y
          pure (.again (addI ws l 1, subI ws h 1))
        else pure (.again (addI ws l 1, h))
    else pure (.brk h)) (0, subI ws ar.len 1)
  ar.sub 0 (addI ws h 1)

/-- sortyF8.go:350-364 (sortyF4.go alike) -/
def nanToStartM (ws : Nat) (ar : Slice) : Prog Cell Sp Slice := do
  let l ← loop (ar.len + 1) (fun (st : Int × Int) =>
    let (l, h) := st
    if l ≤ h then do
      let y ← ar.rd l
      if cellNaN y then pure (.again (addI ws l 1, h))
      else do
        let x ← ar.rd h
        if cellNaN x then do
          ar.wr l x
          ar.wr h y
          pure (.again (addI ws l 1, subI ws h 1))
        else pure (.again (l, subI ws h 1))
    else pure (.brk l)) (0, subI ws ar.len 1)
  ar.sub l ar.len

/-- `sort*`: sortyF8.go:333-418 and sortyF4.go alike; the other eight files have no NaN handling -/
def sortOfM (C : Conf) (id : FamId) (ar : Slice) : Prog Cell (VSp Key) Unit :=
  if id = .F4 ∨ id = .F8 then do
    let ar ← if C.nanOption = 1 then nanToEndM C.wordSize ar else if C.nanOption = -1 then nanToStartM C.wordSize ar else pure ar
    sortVM C.wordSize (fam C id) C.depth ar
  else sortVM C.wordSize (fam C id) C.depth ar

/-- call of the `sort*` function of a family, or the panic of the `default` case, sortySlice.go:66-93, sortyLen.go:45-54 -/
def sortCallM (C : Conf) (sel : Nat → Option FamId) (ar : GoAny) : Call :=
  match extractSK C.wordSize ar with
  | none => ⟨.panic, fun _ => .panic⟩
  | some (s, k) =>
    match sel k with
    | some id => ⟨sortOfM C id s, vbodyM C.wordSize (fam C id) C.depth⟩
    | none => ⟨.panic, fun _ => .panic⟩

/-- `SortSlice`, sortySlice.go:64-94 -/
def SortSliceM (C : Conf) (ar : GoAny) : Call := sortCallM C sliceFam ar

/-- `SortLen`, sortyLen.go:43-55 -/
def SortLenM (C : Conf) (ar : GoAny) : Call := sortCallM C lenFam ar

/-- `isSortedF4`, `isSortedF8`, sortyF8.go:17-39 -/
def isSortedFM (ws : Nat) (nanOption : Int) (ar : Slice) : Prog Cell Sp Int := do
  let (l, h) ← if nanOption = 1 then
      loop (ar.len + 1) (fun h : Int =>
        if 0 ≤ h then do
          let x ← ar.rd h
          if cellNaN x then pure (.again (subI ws h 1)) else pure (.brk (0, h))
        else pure (.brk (0, h))) (subI ws ar.len 1)
    else if nanOption = -1 then
      loop (ar.len + 1) (fun l : Int =>
        if l ≤ subI ws ar.len 1 then do
          let x ← ar.rd l
          if cellNaN x then pure (.again (addI ws l 1)) else pure (.brk (l, subI ws ar.len 1))
        else pure (.brk (l, subI ws ar.len 1))) 0
    else pure ((0, subI ws ar.len 1) : Int × Int)
  loop (ar.len + 1) (fun i : Int =>
    if i > l then do
      let x ← ar.rd i
      let y ← ar.rd (subI ws i 1)
      if !cellGE x y then pure (.brk i) else pure (.again (subI ws i 1))
    else pure (.brk 0)) h

/-- `isSorted*` of the family, sortyI8.go:17-24, sortyF8.go:17-39 -/
def isSortedOfM (C : Conf) (id : FamId) (ar : Slice) : Prog Cell Sp Int :=
  if id = .F4 ∨ id = .F8 then isSortedFM C.wordSize C.nanOption ar else isSortedVM C.wordSize (fam C id) ar

/-- call of the `isSorted*` function of a family, or the panic of the `default` case, sortySlice.go:26-51, sortyLen.go:24-32 -/
def isSortedCallM (C : Conf) (sel : Nat → Option FamId) (ar : GoAny) : Prog Cell Sp Int :=
  match extractSK C.wordSize ar with
  | none => .panic
  | some (s, k) =>
    match sel k with
    | some id => isSortedOfM C id s
    | none => .panic

/-- `IsSortedSlice`, sortySlice.go:24-53 -/
def IsSortedSliceM (C : Conf) (ar : GoAny) : Prog Cell Sp Int := isSortedCallM C sliceFam ar

/-- `IsSortedLen`, sortyLen.go:22-33 -/
def IsSortedLenM (C : Conf) (ar : GoAny) : Prog Cell Sp Int := isSortedCallM C lenFam ar

end

/-- sorty.go:65-78 `Search`, one round of the loop on `(l, h)` -/
def searchLoopM (ws : Nat) {σ : Type} (fn : Int → σ → Bool × σ) : Nat → Int → Int → σ → List Int → Option (Int × σ × List Int)
  | 0, _, _, _, _ => none
  | fuel + 1, l, h, st, calls =>
    if l < h then
      let m := meanIM ws l h
      let (b, st) := fn m st
      if b then searchLoopM ws fn fuel l m st (calls ++ [m])
      else searchLoopM ws fn fuel (addI ws m 1) h st (calls ++ [m])
    else some (l, st, calls)

/-- sorty.go:65-78 `Search(n, fn)` -/
def SearchM (ws : Nat) {σ : Type} (n : Int) (fn : Int → σ → Bool × σ) (st : σ) : Option (Int × σ × List Int) :=
  searchLoopM ws fn (n.toNat + 1) 0 n st []

/-! ## sortyLsw.go -/

section
variable {V Sp : Type} (ws : Nat)

/-- `IsSorted`, sortyLsw.go:30-37 -/
def IsSortedM (n : Int) (s : Slice) : Prog V Sp Int :=
  loop (s.len + 1) (fun i : Int =>
    if i > 0 then do
      let b ← lsw s i (subI ws i 1) i i
      if b then pure (.brk i) else pure (.again (subI ws i 1))
    else pure (.brk 0)) (subI ws n 1)

/-- the inner `for` of insertion sorts: sortyLsw.go:44-49, 68-73, 243-248 -/
def lswInnerM (s : Slice) (bound step h : Int) : Prog V Sp Unit :=
  loop (s.len + 1) (fun l : Int => do
    let b ← lsw s l (subI ws l step) l (subI ws l step)
    if b then
      let l := subI ws l step
      if l ≤ bound then pure (.brk ()) else pure (.again l)
    else pure (.brk ())) h

/-- `insertion`, sortyLsw.go:42-51, also inlined at sortyLsw.go:242-249 -/
def lswInsertionM (s : Slice) (lo hi : Int) : Prog V Sp Unit :=
  loop (s.len + 1) (fun h : Int =>
    if h ≤ hi then do
      lswInnerM ws s lo 1 h
      pure (.again (addI ws h 1))
    else pure (.brk ())) (addI ws lo 1)

/-- `pivot`, sortyLsw.go:59-81; `int(f)`, `int(s)`, `int(l)` are conversions of `uint` -/
def lswPivotM (s : Slice) (lo hi : Int) (n : Nat) : Prog V Sp Int := do
  let (f, st, la) := minMaxSampleM ws (subI ws (addI ws hi 1) lo) n
  let first := addI ws lo (wrapInt ws f)
  let step : Int := wrapInt ws st
  let last := addI ws lo (wrapInt ws la)
  loop (n + 1) (fun h : Int =>
    if h ≤ last then do
      lswInnerM ws s first step h
      pure (.again (addI ws h step))
    else pure (.brk ())) (addI ws first step)
  let _ ← lsw s first lo first lo
  let _ ← lsw s hi last hi last
  pure (meanIM ws first last)

/-- `partOne`, sortyLsw.go:90-118, by control points -/
def lswPartOneStepM (s : Slice) (pv : Int) : LP1 → Prog V Sp (Ctl LP1 Int)
  | .head l h =>
    if l < h then do
      let b ← lsw s h pv h h
      if b then pure (.again (.scan l h))
      else do
        let b ← lsw s pv l l l
        if b then pure (.again (.second l h)) else pure (.again (.head (addI ws l 1) (subI ws h 1)))
    else if l = h ∧ h ≠ pv then do
      let b ← lsw s h pv h h
      if b then pure (.brk (addI ws l 1)) else pure (.brk l)
    else pure (.brk l)
  | .scan l h => do
    let b ← lsw s pv l h l
    if b then pure (.again (.head (addI ws l 1) (subI ws h 1)))
    else
      let l := addI ws l 1
      if l ≥ h then pure (.brk (addI ws l 1)) else pure (.again (.scan l h))
  | .second l h =>
    let h := subI ws h 1
    if l ≥ h then pure (.brk l)
    else do
      let b ← lsw s h pv h l
      if b then pure (.again (.head (addI ws l 1) (subI ws h 1))) else pure (.again (.second l h))

/-- `partOne`, sortyLsw.go:88-119 -/
def lswPartOneM (s : Slice) (l pv h : Int) : Prog V Sp Int :=
  loop (2 * s.len + 4) (lswPartOneStepM ws s pv) (.head l h)

/-- sortyLsw.go:151-158 -/
def lswPartTwoNextM (lo hi l h : Int) : Ctl LP2 Int :=
  let l := subI ws l 1
  let h := addI ws h 1
  if l < lo then .brk h else if h > hi then .brk l else .again (.head l h)

/-- `partTwo`, sortyLsw.go:129-159, by control points -/
def lswPartTwoStepM (s : Slice) (lo pv hi : Int) : LP2 → Prog V Sp (Ctl LP2 Int)
  | .head l h => do
    let b ← lsw s h pv h h
    if b then pure (.again (.scan l h))
    else do
      let b ← lsw s pv l l l
      if b then pure (.again (.second l h)) else pure (lswPartTwoNextM ws lo hi l h)
  | .scan l h => do
    let b ← lsw s pv l h l
    if b then pure (lswPartTwoNextM ws lo hi l h)
    else
      let l := subI ws l 1
      if l < lo then pure (.brk h) else pure (.again (.scan l h))
  | .second l h =>
    let h := addI ws h 1
    if h > hi then pure (.brk l)
    else do
      let b ← lsw s h pv h l
      if b then pure (lswPartTwoNextM ws lo hi l h) else pure (.again (.second l h))

/-- `partTwo`, sortyLsw.go:127-160 -/
def lswPartTwoM (s : Slice) (lo l pv h hi : Int) : Prog V Sp Int :=
  loop (2 * s.len + 4) (lswPartTwoStepM ws s lo pv hi) (.head l h)

/-- sortyLsw.go:187-194 -/
def lswGapLowM (s : Slice) (lo r k pv : Int) : Prog V Sp Int :=
  loop (s.len + 2) (fun (st : Int × Int × Int) =>
    let (r, k, pv) := st
    if lo ≤ r then do
      let b ← lsw s pv r (subI ws k 1) r
      if b then
        let k := subI ws k 1
        let pv := if k = pv then r else pv
        pure (.again (subI ws r 1, k, pv))
      else pure (.again (subI ws r 1, k, pv))
    else pure (.brk k)) (r, k, pv)

/-- sortyLsw.go:196-203 -/
def lswGapHighM (s : Slice) (hi r k pv : Int) : Prog V Sp Int :=
  loop (s.len + 2) (fun (st : Int × Int × Int) =>
    let (r, k, pv) := st
    if r ≤ hi then do
      let b ← lsw s r pv r k
      if b then
        let pv := if k = pv then r else pv
        pure (.again (addI ws r 1, addI ws k 1, pv))
      else pure (.again (addI ws r 1, k, pv))
    else pure (.brk k)) (r, k, pv)

/-- `partCon`, sortyLsw.go:172-206 -/
def lswPartConM (s : Slice) (lo hi : Int) : Prog V LSp Int := do
  let pv ← lswPivotM ws s lo hi (nsConc - 1)
  let lo := addI ws lo 1
  let hi := subI ws hi 1
  let l := meanIM ws lo pv
  let h := meanIM ws pv hi
  .go (.part (addI ws l 1) pv (subI ws h 1)) (.ret ())
  let r ← lswPartTwoM ws s lo l pv h hi
  let k ← .recv .ret
  if r < pv then lswGapLowM ws s lo r k pv else lswGapHighM ws s hi r k pv

/-- sortyLsw.go:226-234 (276-284, 359-367) -/
def lswSplitM (lo hi l : Int) : Int × Int × Int × Int × Int × Int :=
  let h := subI ws l 1
  let no := subI ws h lo
  let n := subI ws hi l
  if no < n then (lo, h, l, hi, no, n) else (l, hi, lo, h, n, no)

/-- median-of-3 pivot of `short`, sortyLsw.go:211-223 -/
def lswShortPivotM (s : Slice) (lo hi : Int) : Prog V Sp Int := do
  let (fr, step, _) := minMaxSampleM ws (subI ws (addI ws hi 1) lo) 3
  let first := addI ws lo (wrapInt ws fr)
  let pv := addI ws first (wrapInt ws step)
  let last := addI ws pv (wrapInt ws step)
  let _ ← lsw s pv first pv first
  let b ← lsw s last pv last pv
  if b then do
    let _ ← lsw s pv first pv first
    pure ()
  else pure ()
  let _ ← lsw s first lo first lo
  let _ ← lsw s hi last hi last
  pure pv

end

section
variable {V Sp : Type} (C : Conf)

/-- `short`, sortyLsw.go:209-258 -/
def lswShortM (s : Slice) : Nat → Nat → Int → Int → Prog V Sp Unit
  | 0, _, _, _ => .diverge
  | f + 1, d, lo, hi => do
    let pv ← lswShortPivotM C.wordSize s lo hi
    let l ← lswPartOneM C.wordSize s (addI C.wordSize lo 1) pv (subI C.wordSize hi 1)
    let (l, h, lo, hi, n, no) := lswSplitM C.wordSize lo hi l
    if n ≥ C.maxLenInsFC then do
      match d with
      | 0 => .overflow
      | d + 1 => lswShortM s f d l h
      lswShortM s f d lo hi
    else do
      -- isort:
      let again ← loop 3 (fun (st : Int × Int) => do
        let (l, h) := st
        lswInsertionM C.wordSize s l h
        if no ≥ C.maxLenInsFC then pure (.brk true)
        else if lo ≠ l then pure (.again (lo, hi)) else pure (.brk false)) (l, h)
      if again then lswShortM s f d lo hi else pure ()

/-- `long`, sortyLsw.go:272-314 -/
def lswLongM (s : Slice) : Nat → Nat → Int → Int → Bool → Prog V LSp Unit
  | 0, _, _, _, _ => .diverge
  | f + 1, d, lo, hi, sv => do
    let pv ← lswPivotM C.wordSize s lo hi (nsLong - 1)
    let l ← lswPartOneM C.wordSize s (addI C.wordSize lo 1) pv (subI C.wordSize hi 1)
    let (l, h, lo, hi, n, no) := lswSplitM C.wordSize lo hi l
    if n < C.maxLenRecFC then do
      if n ≥ C.maxLenInsFC then
        match d with
        | 0 => .overflow
        | d + 1 => lswShortM C s f d l h
      else lswInsertionM C.wordSize s l h
      if no ≥ C.maxLenRecFC then lswLongM s f d lo hi sv
      else
        match d with
        | 0 => .overflow
        | d + 1 => lswShortM C s f d lo hi
    else do
      let full ← if sv then gorFull else pure true
      if full then do
        match d with
        | 0 => .overflow
        | d + 1 => lswLongM s f d l h sv
        lswLongM s f d lo hi sv
      else do
        let _ ← .incGor .ret
        .go (.long lo hi f) (.ret ())
        lswLongM s f d l h sv

/-- `gPartOne` (sortyLsw.go:165-167) and `gLong` (sortyLsw.go:263-269) -/
def lswBodyM (s : Slice) : LSp → Prog V LSp Unit
  | .part l pv h => do
    let k ← lswPartOneM C.wordSize s l pv h
    .send k (.ret ())
  | .long lo hi f => do
    lswLongM C s f C.depth lo hi true
    let n ← .decGor .ret
    if n = 0 then .send 0 (.ret ()) else pure ()

/-- the `for` of `Sort`, sortyLsw.go:356-385, and what follows it -/
def lswSortLoopM (s : Slice) : Nat → Int → Int → Prog V LSp Unit
  | 0, _, _ => .diverge
  | f + 1, lo, hi => do
    let l ← lswPartConM C.wordSize s lo hi
    let (l, h, lo, hi, n, no) := lswSplitM C.wordSize lo hi l
    if n ≥ C.maxLenRecFC then do
      let _ ← .incGor .ret
      .go (.long l h f) (.ret ())
    else if n ≥ C.maxLenInsFC then lswShortM C s f C.depth l h
    else lswInsertionM C.wordSize s l h
    let stop ← if no ≤ wrapInt C.wordSize (2 * C.maxLenRecFC) then pure true else gorFull
    if stop then do
      lswLongM C s f C.depth lo hi true
      let n ← .decGor .ret
      if n ≠ 0 then do
        let _ ← .recv .ret
        pure ()
      else pure ()
    else lswSortLoopM s f lo hi

/-- `Sort(n, lsw)`, sortyLsw.go:337-392 -/
def SortLswM (n : Int) (s : Slice) : Prog V LSp Unit := do
  let n := subI C.wordSize n 1
  let f := (n + 1).toNat
  let single ← if n ≤ wrapInt C.wordSize (2 * C.maxLenRecFC) then pure true else do
    let mg ← .maxGor .ret
    pure (decide (mg ≤ 1))
  if single then
    if n ≥ C.maxLenRecFC then lswLongM C s f C.depth 0 n false
    else if n ≥ C.maxLenInsFC then lswShortM C s f C.depth 0 n
    else if n > 0 then lswInsertionM C.wordSize s 0 n
    else pure ()
  else do
    .mkSync (.ret ())
    lswSortLoopM C s f 0 n

/-- Execution environment of a call of `Sort`, sortyLsw.go:337-392 -/
def lswParM (s : Slice) (cmp : Nat → Nat → V → V → Bool → Prop) (M : Nat) (stale : Prop) : Par V LSp :=
  { M := M, stale := stale, cmp := cmp, body := lswBodyM C s }

end

end Sorty
