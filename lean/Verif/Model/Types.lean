import Verif.Model.Val
import Verif.Sem

/-! # Element types and the public entry points SortSlice, SortLen, IsSortedSlice, IsSortedLen

Elements are raw machine words, string headers or slice headers. Which interpretation a call uses is decided by
`extractSK` and the `switch` statements of the entry points, as in the code.
-/

namespace Sorty

open Prog

/-- One slice element as it lies in memory (the element types in sortySlice.go:67-90, sortyLen.go:46-51). -/
inductive Cell where
  /-- 4-byte word: int32, uint32, float32, and int, uint, uintptr, pointers on 32-bit platforms -/
  | w32 (b : BitVec 32)
  /-- 8-byte word: int64, uint64, float64, and int, uint, uintptr, pointers on 64-bit platforms -/
  | w64 (b : BitVec 64)
  /-- string header: data pointer and the (immutable) bytes -/
  | str (ptr : Nat) (bytes : List UInt8)
  /-- slice header: data pointer, length, capacity; `bytes` are the contents if it is a `[]byte` -/
  | slc (ptr len cap : Nat) (bytes : List UInt8)
  deriving DecidableEq, Repr

/-- A compared key, also the type of pivots (sortyI8.go:56, sortyS.go:56, sortyB.go:56, sortyLenS.go:56): a word, string contents (`sixb.BtoS` for byte slices) or a length. -/
inductive Key where
  | w32 (b : BitVec 32)
  | w64 (b : BitVec 64)
  | str (bytes : List UInt8)
  | int (n : Int)
  deriving DecidableEq, Repr

/-- The ten families of functions, named by the suffix of their file (sortySlice.go:66-90, sortyLen.go:45-51). -/
inductive FamId where
  | I4 | I8 | U4 | U8 | F4 | F8 | S | B | LenS | LenB
  deriving DecidableEq, Repr

/-- Go's `<` on strings, sortyS.go:19, sortyB.go:19: bytewise lexicographic. -/
def bytesLt : List UInt8 → List UInt8 → Bool
  | _, [] => false
  | [], _ :: _ => true
  | x :: xs, y :: ys => x < y || (x == y && bytesLt xs ys)

/-- For the floats of sortyF8.go:17-418, sortyF4.go:17-418: bit pattern of +infinity in the IEEE 754 format of width `w` (32 or 64). -/
def finf (w : Nat) : Nat := if w = 32 then 0x7f800000 else 0x7ff0000000000000

/-- Exponent and fraction bits (for sortyF8.go:17-418, sortyF4.go:17-418). -/
def fmag {w : Nat} (b : BitVec w) : Nat := b.toNat % 2 ^ (w - 1)

/-- Sign bit (for sortyF8.go:17-418, sortyF4.go:17-418). -/
def fsign {w : Nat} (b : BitVec w) : Bool := 2 ^ (w - 1) ≤ b.toNat

/-- Is it a NaN? Go's `x != x`, sortyF8.go:338. -/
def fnan {w : Nat} (b : BitVec w) : Bool := finf w < fmag b

/-- Sign-magnitude value of the bit pattern (for sortyF8.go:17-418, sortyF4.go:17-418); orders all non-NaN floats, with -0 = +0. -/
def fkey {w : Nat} (b : BitVec w) : Int := if fsign b then -(fmag b : Int) else fmag b

/-- Go's `<` on floats, sortyF8.go:55. -/
def flt {w : Nat} (x y : BitVec w) : Bool := !fnan x && !fnan y && decide (fkey x < fkey y)

/-- Go's `<=` on floats, sortyF8.go:100. -/
def fle {w : Nat} (x y : BitVec w) : Bool := !fnan x && !fnan y && decide (fkey x ≤ fkey y)

/-- The integer means of package sixb (sortyI4.go:68, 234, sortyU4.go:68, 234, sortyI8.go:68, 234, sortyU8.go:68, 234), whose source is not available here. Theorems assume of them only
`Sixb.OK`: the mean of two numbers lies between them. -/
structure Sixb where
  meanI4 : BitVec 32 → BitVec 32 → BitVec 32
  meanU4 : BitVec 32 → BitVec 32 → BitVec 32
  meanI8 : BitVec 64 → BitVec 64 → BitVec 64
  meanU8 : BitVec 64 → BitVec 64 → BitVec 64

/-- Package-level state (sorty.go:55, maxc.go:13-25) and platform a call runs with. -/
structure Conf where
  sixb : Sixb
  /-- maxc.go:13 / maxv.go:13 -/
  maxLenIns : Nat
  /-- maxc.go:17 / maxv.go:17 -/
  maxLenInsFC : Nat
  /-- maxc.go:21 / maxv.go:21 -/
  maxLenRec : Nat
  /-- maxc.go:25 / maxv.go:25 -/
  maxLenRecFC : Nat
  /-- `NaNoption`, sorty.go:40-55: -1 NaNsmall, 0 NaNignore, 1 NaNlarge. Assumed not to change during a call. -/
  nanOption : Int
  /-- `unsafe.Sizeof(uintptr(0))`, which is also the size of int and uint -/
  wordSize : Nat
  /-- how deep calls may nest in a goroutine: not in the Go code; `overflow` is what needing more leads to -/
  depth : Nat

/-- lifts operations on words (sortyI4.go:19, sortyU4.go:19, ...) to keys; the other cases are not reached on well-typed slices -/
def on32 {α : Type} (dflt : α) (f : BitVec 32 → BitVec 32 → α) : Key → Key → α
  | .w32 x, .w32 y => f x y
  | _, _ => dflt

/-- see `on32`; sortyI8.go:19, sortyU8.go:19 -/
def on64 {α : Type} (dflt : α) (f : BitVec 64 → BitVec 64 → α) : Key → Key → α
  | .w64 x, .w64 y => f x y
  | _, _ => dflt

/-- see `on32`; sortyS.go:19, sortyB.go:19 -/
def onStr (f : List UInt8 → List UInt8 → Bool) : Key → Key → Bool
  | .str x, .str y => f x y
  | _, _ => false

/-- see `on32`; sortyLenS.go:19, sortyLenB.go:19 -/
def onInt {α : Type} (dflt : α) (f : Int → Int → α) : Key → Key → α
  | .int x, .int y => f x y
  | _, _ => dflt

/-- element of the slice as the word that is compared, `slc[i]` of sortyI8.go:19 and of I4, U4, U8, F4, F8 -/
def wordKey : Cell → Key
  | .w32 b => .w32 b
  | .w64 b => .w64 b
  | _ => .int 0

/-- `slc[i]` of sortyS.go:19, `sixb.BtoS(slc[i])` of sortyB.go:19 -/
def bytesKey : Cell → Key
  | .str _ bs => .str bs
  | .slc _ _ _ bs => .str bs
  | _ => .int 0

/-- `len(slc[i])` of sortyLenS.go:19, sortyLenB.go:19 -/
def lenKey : Cell → Key
  | .str _ bs => .int bs.length
  | .slc _ n _ _ => .int n
  | _ => .int 0

/-- What distinguishes the ten files (key and `<`: sortyI8.go:19; thresholds: sortyI8.go:247, 324; mean: sortyI8.go:68, and alike in the others): sortyI4.go, sortyI8.go, sortyU4.go, sortyU8.go, sortyF4.go, sortyF8.go,
sortyS.go, sortyB.go, sortyLenS.go, sortyLenB.go. (`sixb.MeanI` of lengths is the `meanI` of indices.) -/
def fam (C : Conf) : FamId → Fam Cell Key
  | .I4 => { key := wordKey, lt := on32 false (fun x y => x.slt y), le := on32 false (fun x y => x.sle y),
             zero := .w32 0, maxIns := C.maxLenIns, maxRec := C.maxLenRec,
             mean := some (on32 (.int 0) fun x y => .w32 (C.sixb.meanI4 x y)) }
  | .I8 => { key := wordKey, lt := on64 false (fun x y => x.slt y), le := on64 false (fun x y => x.sle y),
             zero := .w64 0, maxIns := C.maxLenIns, maxRec := C.maxLenRec,
             mean := some (on64 (.int 0) fun x y => .w64 (C.sixb.meanI8 x y)) }
  | .U4 => { key := wordKey, lt := on32 false (fun x y => x.ult y), le := on32 false (fun x y => x.ule y),
             zero := .w32 0, maxIns := C.maxLenIns, maxRec := C.maxLenRec,
             mean := some (on32 (.int 0) fun x y => .w32 (C.sixb.meanU4 x y)) }
  | .U8 => { key := wordKey, lt := on64 false (fun x y => x.ult y), le := on64 false (fun x y => x.ule y),
             zero := .w64 0, maxIns := C.maxLenIns, maxRec := C.maxLenRec,
             mean := some (on64 (.int 0) fun x y => .w64 (C.sixb.meanU8 x y)) }
  | .F4 => { key := wordKey, lt := on32 false flt, le := on32 false fle,
             zero := .w32 0, maxIns := C.maxLenIns, maxRec := C.maxLenRec, mean := none }
  | .F8 => { key := wordKey, lt := on64 false flt, le := on64 false fle,
             zero := .w64 0, maxIns := C.maxLenIns, maxRec := C.maxLenRec, mean := none }
  | .S | .B => { key := bytesKey, lt := onStr bytesLt, le := onStr (fun x y => !bytesLt y x),
                 zero := .str [], maxIns := C.maxLenInsFC, maxRec := C.maxLenRecFC, mean := none }
  | .LenS | .LenB => { key := lenKey, lt := onInt false (fun x y => x < y), le := onInt false (fun x y => x ≤ y),
                       zero := .int 0, maxIns := C.maxLenIns, maxRec := C.maxLenRec,
                       mean := some (onInt (.int 0) fun x y => .int (meanI x y)) }

variable {Sp : Type}

/-- `x != x` for the element `x`, sortyF8.go:338, sortyF4.go:338 -/
def cellNaN : Cell → Bool
  | .w32 b => fnan b
  | .w64 b => fnan b
  | _ => false

/-- `slc[i] >= slc[i-1]` of sortyF4.go:33, sortyF8.go:33 -/
def cellGE : Cell → Cell → Bool
  | .w32 x, .w32 y => fle y x
  | .w64 x, .w64 y => fle y x
  | _, _ => false

/-- sortyF8.go:336-349 (sortyF4.go alike): move NaNs to the end, `ar = ar[:h+1]` -/
def nanToEnd (ar : Slice) : Prog Cell Sp Slice := do
  let h ← loop (ar.len + 1) (fun (st : Int × Int) =>
    let (l, h) := st
    if l ≤ h then do
      let x ← ar.rd h
      if cellNaN x then pure (.again (l, h - 1))
      else do
        let y ← ar.rd l
        if cellNaN y then do
          ar.wr l x
          ar.wr h y
          pure (.again (l + 1, h - 1))
        else pure (.again (l + 1, h))
    else pure (.brk h)) (0, (ar.len : Int) - 1)
  ar.sub 0 (h + 1)

/-- sortyF8.go:350-364 (sortyF4.go alike): move NaNs to the start, `ar = ar[l:]` -/
def nanToStart (ar : Slice) : Prog Cell Sp Slice := do
  let l ← loop (ar.len + 1) (fun (st : Int × Int) =>
    let (l, h) := st
    if l ≤ h then do
      let y ← ar.rd l
      if cellNaN y then pure (.again (l + 1, h))
      else do
        let x ← ar.rd h
        if cellNaN x then do
          ar.wr l x
          ar.wr h y
          pure (.again (l + 1, h - 1))
        else pure (.again (l, h - 1))
    else pure (.brk l)) (0, (ar.len : Int) - 1)
  ar.sub l ar.len

/-- `sort*`: sortyF8.go:333-418 and sortyF4.go alike; the other eight files have no NaN handling -/
def sortOf (C : Conf) (id : FamId) (ar : Slice) : Prog Cell (VSp Key) Unit :=
  if id = .F4 ∨ id = .F8 then do
    let ar ← if C.nanOption = 1 then nanToEnd ar else if C.nanOption = -1 then nanToStart ar else pure ar
    sortV (fam C id) C.depth ar
  else sortV (fam C id) C.depth ar

/-- `isSortedF4`, `isSortedF8`, sortyF8.go:17-39 -/
def isSortedF (nanOption : Int) (ar : Slice) : Prog Cell Sp Int := do
  let (l, h) ← if nanOption = 1 then
      loop (ar.len + 1) (fun h : Int =>
        if 0 ≤ h then do
          let x ← ar.rd h
          if cellNaN x then pure (.again (h - 1)) else pure (.brk (0, h))
        else pure (.brk (0, h))) ((ar.len : Int) - 1)
    else if nanOption = -1 then
      loop (ar.len + 1) (fun l : Int =>
        if l ≤ (ar.len : Int) - 1 then do
          let x ← ar.rd l
          if cellNaN x then pure (.again (l + 1)) else pure (.brk (l, (ar.len : Int) - 1))
        else pure (.brk (l, (ar.len : Int) - 1))) 0
    else pure ((0, (ar.len : Int) - 1) : Int × Int)
  loop (ar.len + 1) (fun i : Int =>
    if i > l then do
      let x ← ar.rd i
      let y ← ar.rd (i - 1)
      if !cellGE x y then pure (.brk i) else pure (.again (i - 1))
    else pure (.brk 0)) h

/-- `isSorted*` of the family, sortyI8.go:17-24, sortyF8.go:17-39 -/
def isSortedOf (C : Conf) (id : FamId) (ar : Slice) : Prog Cell Sp Int :=
  if id = .F4 ∨ id = .F8 then isSortedF C.nanOption ar else isSortedV (fam C id) ar

/-- Go types by their underlying kind, as far as sorty.go:143-174 looks at them. Only slices need their element type here. -/
inductive GoType where
  | bool | int | int8 | int16 | int32 | int64 | uint | uint8 | uint16 | uint32 | uint64 | uintptr
  | float32 | float64 | complex64 | complex128 | array | chan | func | interface | map | pointer
  | slice (elem : GoType) | string | struct | unsafePointer
  deriving DecidableEq, Repr

/-- `reflect.Kind` numbers, used in sorty.go:143-174 -/
def GoType.kind : GoType → Nat
  | .bool => 1 | .int => 2 | .int8 => 3 | .int16 => 4 | .int32 => 5 | .int64 => 6
  | .uint => 7 | .uint8 => 8 | .uint16 => 9 | .uint32 => 10 | .uint64 => 11 | .uintptr => 12
  | .float32 => 13 | .float64 => 14 | .complex64 => 15 | .complex128 => 16 | .array => 17 | .chan => 18
  | .func => 19 | .interface => 20 | .map => 21 | .pointer => 22 | .slice _ => 23 | .string => 24
  | .struct => 25 | .unsafePointer => 26

/-- A value of type `any`, the argument in sorty.go:143: nil, a slice, or a value of some other type. -/
inductive GoAny where
  | nil
  | slice (elem : GoType) (s : Slice)
  | other (t : GoType)

/-- sorty.go:138 -/
def sliceBias : Nat := 100

/-- the `switch` of `extractSK`, sorty.go:151-168, on the element type -/
def elemKind (wordSize : Nat) (elem : GoType) : Nat :=
  match elem with
  | .uintptr | .pointer | .unsafePointer => GoType.uint32.kind + wordSize / 8
  | .uint => GoType.uint32.kind + wordSize / 8
  | .int => GoType.int32.kind + wordSize / 8
  | .slice t => sliceBias + t.kind
  | .int32 | .int64 | .uint32 | .uint64 | .float32 | .float64 | .string => elem.kind
  | _ => 0

/-- `extractSK`, sorty.go:143-174: slice and element kind; `none` is the nil dereference of
`reflect.TypeOf(nil).Kind()`. The returned slice is empty where the code returns early. -/
def extractSK (wordSize : Nat) : GoAny → Option (Slice × Nat)
  | .nil => none
  | .other _ => some (⟨0, 0⟩, 0)
  | .slice elem s => let k := elemKind wordSize elem; some (if k = 0 then ⟨0, 0⟩ else s, k)

/-- the `switch` of `SortSlice` (sortySlice.go:66-93) and `IsSortedSlice` (sortySlice.go:26-51) -/
def sliceFam (kind : Nat) : Option FamId :=
  if kind = GoType.int32.kind then some .I4
  else if kind = GoType.int64.kind then some .I8
  else if kind = GoType.uint32.kind then some .U4
  else if kind = GoType.uint64.kind then some .U8
  else if kind = GoType.float32.kind then some .F4
  else if kind = GoType.float64.kind then some .F8
  else if kind = sliceBias + GoType.uint8.kind then some .B
  else if kind = GoType.string.kind then some .S
  else none

/-- the `switch` of `SortLen` (sortyLen.go:45-54) and `IsSortedLen` (sortyLen.go:24-31) -/
def lenFam (kind : Nat) : Option FamId :=
  if kind = GoType.string.kind then some .LenS
  else if kind ≥ sliceBias then some .LenB
  else none

/-- A call of an entry point (sortySlice.go:64, sortyLen.go:43): what the caller's goroutine runs and what spawned goroutines run. -/
structure Call where
  main : Prog Cell (VSp Key) Unit
  body : VSp Key → Prog Cell (VSp Key) Unit

/-- call of the `sort*` function of a family, or the panic of the `default` case, sortySlice.go:66-93, sortyLen.go:45-54 -/
def sortCall (C : Conf) (sel : Nat → Option FamId) (ar : GoAny) : Call :=
  match extractSK C.wordSize ar with
  | none => ⟨.panic, fun _ => .panic⟩
  | some (s, k) =>
    match sel k with
    | some id => ⟨sortOf C id s, vbody (fam C id) C.depth⟩
    | none => ⟨.panic, fun _ => .panic⟩

/-- `SortSlice`, sortySlice.go:64-94 -/
def SortSlice (C : Conf) (ar : GoAny) : Call := sortCall C sliceFam ar

/-- `SortLen`, sortyLen.go:43-55 -/
def SortLen (C : Conf) (ar : GoAny) : Call := sortCall C lenFam ar

/-- call of the `isSorted*` function of a family, or the panic of the `default` case, sortySlice.go:26-51, sortyLen.go:24-32 -/
def isSortedCall (C : Conf) (sel : Nat → Option FamId) (ar : GoAny) : Prog Cell Sp Int :=
  match extractSK C.wordSize ar with
  | none => .panic
  | some (s, k) =>
    match sel k with
    | some id => isSortedOf C id s
    | none => .panic

/-- `IsSortedSlice`, sortySlice.go:24-53 -/
def IsSortedSlice (C : Conf) (ar : GoAny) : Prog Cell Sp Int := isSortedCall C sliceFam ar

/-- `IsSortedLen`, sortyLen.go:22-33 -/
def IsSortedLen (C : Conf) (ar : GoAny) : Prog Cell Sp Int := isSortedCall C lenFam ar

/-- An execution environment of a call (sortySlice.go:64, sortyLen.go:43): values of `MaxGor` are bounded by `M`; `stale` as in `Par`. -/
def Call.par (call : Call) (M : Nat) (stale : Prop) : Par Cell (VSp Key) :=
  { M := M, stale := stale, cmp := fun _ _ _ _ _ => True, body := call.body }

end Sorty
