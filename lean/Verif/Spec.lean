import Verif.Model.Types
import Verif.Sem

/-! # Specification vocabulary

Small definitions used by the statements of the properties. Nothing here depends on how the code sorts.
-/

namespace Sorty

/-- What the theorems assume about package sixb: the mean of two integers is not smaller than both and not larger
than both, as numbers. (`Verif.Proofs.Mean` shows that the well-known bit formulas have this property.) -/
structure Sixb.OK (E : Sixb) : Prop where
  i4 : ∀ x y, min x.toInt y.toInt ≤ (E.meanI4 x y).toInt ∧ (E.meanI4 x y).toInt ≤ max x.toInt y.toInt
  u4 : ∀ x y, min x.toNat y.toNat ≤ (E.meanU4 x y).toNat ∧ (E.meanU4 x y).toNat ≤ max x.toNat y.toNat
  i8 : ∀ x y, min x.toInt y.toInt ≤ (E.meanI8 x y).toInt ∧ (E.meanI8 x y).toInt ≤ max x.toInt y.toInt
  u8 : ∀ x y, min x.toNat y.toNat ≤ (E.meanU8 x y).toNat ∧ (E.meanU8 x y).toNat ≤ max x.toNat y.toNat

/-- A configuration the package can run with: the start-up check of sorty.go:33-38 has passed (for some initial
`MaxGor`), on a 32-bit or 64-bit platform. -/
structure Conf.OK (C : Conf) : Prop where
  sixb : C.sixb.OK
  init : ∃ maxGor, initOK maxGor C.maxLenRec C.maxLenRecFC C.maxLenIns C.maxLenInsFC = true
  word : C.wordSize = 4 ∨ C.wordSize = 8

/-- The configuration of a default build on a 64-bit platform (maxc.go, sorty.go:55), given the means and a stack
budget. -/
def Conf.default (E : Sixb) (depth : Nat) : Conf :=
  { sixb := E, maxLenIns := 60, maxLenInsFC := 30, maxLenRec := 600, maxLenRecFC := 300, nanOption := 1,
    wordSize := 8, depth := depth }

/-- `c` is an element of Go type `t` on a platform with words of `ws` bytes. -/
def HasType (ws : Nat) (t : GoType) (c : Cell) : Prop :=
  match t with
  | .int32 | .uint32 | .float32 => ∃ b, c = .w32 b
  | .int64 | .uint64 | .float64 => ∃ b, c = .w64 b
  | .int | .uint | .uintptr | .pointer | .unsafePointer => if ws = 8 then ∃ b, c = .w64 b else ∃ b, c = .w32 b
  | .string => ∃ p bs, c = .str p bs
  | .slice .uint8 => ∃ p n k bs, c = .slc p n k bs ∧ bs.length = n
  | .slice _ => ∃ p n k bs, c = .slc p n k bs
  | _ => False

/-- `s` is a slice of elements of Go type `t`. (Lengths are below 2^63: they are of type `int`.) -/
structure SliceOf (ws : Nat) (t : GoType) (s : Slice) (m : Mem Cell) : Prop where
  elems : ∀ c ∈ s.view m, HasType ws t c
  len : s.len < 2 ^ 63

/-- Signed integer types. -/
def GoType.signed : GoType → Bool
  | .int | .int32 | .int64 => true
  | _ => false

/-- Types whose elements are compared as unsigned integers. -/
def GoType.unsigned : GoType → Bool
  | .uint | .uint32 | .uint64 | .uintptr | .pointer | .unsafePointer => true
  | _ => false

/-- Floating-point types. -/
def GoType.float : GoType → Bool
  | .float32 | .float64 => true
  | _ => false

/-- Types of strings and byte slices. -/
def GoType.bytes : GoType → Bool
  | .string | .slice .uint8 => true
  | _ => false

/-- Types that have a length: strings and all slices. -/
def GoType.hasLen : GoType → Bool
  | .string | .slice _ => true
  | _ => false

/-- The number an integer element stands for. -/
def Cell.num (signed : Bool) : Cell → Int
  | .w32 b => if signed then b.toInt else b.toNat
  | .w64 b => if signed then b.toInt else b.toNat
  | _ => 0

/-- The bytes of a string or byte slice. -/
def Cell.bytes : Cell → List UInt8
  | .str _ bs => bs
  | .slc _ _ _ bs => bs
  | _ => []

/-- The length of a string or slice. -/
def Cell.length : Cell → Nat
  | .str _ bs => bs.length
  | .slc _ n _ _ => n
  | _ => 0

/-- Is the float element a NaN? Apart from the sign bit, NaNs are the patterns above that of infinity. (That this is the
definition of IEEE 754 is part of C40.) -/
def Cell.isNaN : Cell → Prop
  | .w32 b => 0x7f800000 < b.toNat % 2 ^ 31
  | .w64 b => 0x7ff0000000000000 < b.toNat % 2 ^ 63
  | _ => False

/-- The order of float elements: sign-magnitude bit patterns compared as numbers, for non-NaNs. (That this is the order of
the denoted numbers is part of C40.) -/
def Cell.fval : Cell → Int
  | .w32 b => if 2 ^ 31 ≤ b.toNat then -(b.toNat % 2 ^ 31 : Nat) else (b.toNat % 2 ^ 31 : Nat)
  | .w64 b => if 2 ^ 63 ≤ b.toNat then -(b.toNat % 2 ^ 63 : Nat) else (b.toNat % 2 ^ 63 : Nat)
  | _ => 0

/-- Ascending integers. -/
def AscNum (signed : Bool) (l : List Cell) : Prop := (l.map (Cell.num signed)).Pairwise (· ≤ ·)

/-- Ascending in bytewise lexicographic order (`<` of lists is lexicographic). -/
def AscBytes (l : List Cell) : Prop := (l.map Cell.bytes).Pairwise (fun x y => ¬ y < x)

/-- Ascending by length. -/
def AscLen (l : List Cell) : Prop := (l.map Cell.length).Pairwise (· ≤ ·)

/-- Numbers in ascending order, none of them a NaN. -/
def AscFloat (l : List Cell) : Prop := (∀ c ∈ l, ¬ c.isNaN) ∧ (l.map Cell.fval).Pairwise (· ≤ ·)

/-- Only NaNs. -/
def AllNaN (l : List Cell) : Prop := ∀ c ∈ l, c.isNaN

/-- Element types SortSlice is documented for. -/
def GoType.sortable (t : GoType) : Bool := t.signed || t.unsigned || t.float || t.bytes

/-- Floats need NaNlarge, NaNsmall or no NaNs. -/
def NaNSafe (C : Conf) (t : GoType) (l : List Cell) : Prop :=
  t.float = true → C.nanOption = 1 ∨ C.nanOption = -1 ∨ ∀ c ∈ l, ¬ c.isNaN

/-- What "sorted" means for a slice of elements of type `t`: ascending integers or bytes; floats ascending, with the
NaNs behind (NaNlarge) or in front (NaNsmall). -/
def SortedFor (C : Conf) (t : GoType) (l : List Cell) : Prop :=
  if t.float = true then
    if C.nanOption = 1 then ∃ k ≤ l.length, AscFloat (l.take k) ∧ AllNaN (l.drop k)
    else if C.nanOption = -1 then ∃ k ≤ l.length, AllNaN (l.take k) ∧ AscFloat (l.drop k)
    else AscFloat l
  else if t.bytes = true then AscBytes l
  else AscNum t.signed l

/-- `call` is a call of SortSlice or SortLen on slice `s`, in memory `m`, with an argument it is documented for;
`sorted` is what it should make true of the slice. -/
inductive SortJob (C : Conf) (s : Slice) (m : Mem Cell) : Call → (List Cell → Prop) → Prop
  | slice (t : GoType) : t.sortable = true → SliceOf C.wordSize t s m → NaNSafe C t (s.view m) →
      SortJob C s m (SortSlice C (.slice t s)) (SortedFor C t)
  | len (t : GoType) : t.hasLen = true → SliceOf C.wordSize t s m → SortJob C s m (SortLen C (.slice t s)) AscLen

/-- `c` is a state some execution of the call, started on memory `m`, passes through: any interleaving of its
goroutines, any answers below or equal to `M` each time `MaxGor` is read. -/
def Call.Reaches (call : Call) (M : Nat) (stale : Prop) (m : Mem Cell) (c : Cfg Cell (VSp Key)) : Prop :=
  Reach (call.par M stale) call.main m c

/-- Like `Call.Reaches`, while the rest of the program writes anything anywhere outside slice `s`. -/
def Call.EReaches (call : Call) (M : Nat) (stale : Prop) (s : Slice) (m : Mem Cell) (c : Cfg Cell (VSp Key)) : Prop :=
  ESteps (call.par M stale) (fun a => s.off ≤ a ∧ a < s.off + s.len) (start call.main m) c

/-- The stack budget suffices for slices of `n` elements: `depth` is at least log2(n) + 2. -/
def DepthFor (depth n : Nat) : Prop := Nat.log2 n + 2 ≤ depth

/-- Every position below `slen` is at most `D` away from one of the `n` positions `a`, `a+t`, `a+2t`, ... -/
def Covers (slen n a t D : Nat) : Prop :=
  ∀ p < slen, ∃ j < n, p ≤ a + j * t + D ∧ a + j * t ≤ p + D

/-- Runs a program that only looks: its result, or `none` if it panics, runs out of a budget, stores anything or uses
goroutines. `less` answers calls of the user's comparator. -/
def Prog.observe {V Sp α : Type} (less : Nat → Nat → V → V → Bool) : Prog V Sp α → Mem V → Option α
  | .ret a, _ => some a
  | .read i k, m => (k (m i)).observe less m
  | .less i j x y k, m => (k (less i j x y)).observe less m
  | _, _ => none

/-- Whatever it finds, `p` only loads elements of slice `s` and asks the comparator, until it returns or panics. -/
def Prog.OnlyLoads {V Sp α : Type} (s : Slice) : Prog V Sp α → Prop
  | .ret _ => True
  | .read i k => (s.off ≤ i ∧ i < s.off + s.len) ∧ ∀ x, (k x).OnlyLoads s
  | .less _ _ _ _ k => ∀ b, (k b).OnlyLoads s
  | .panic => True
  | .overflow => True
  | .diverge => True
  | _ => False

/-- Like `Prog.observe`, while other code changes memory: `ms n` is the memory at the n-th step. -/
def Prog.watch {V Sp α : Type} (less : Nat → Nat → V → V → Bool) : Prog V Sp α → (Nat → Mem V) → Option α
  | .ret a, _ => some a
  | .read i k, ms => (k (ms 0 i)).watch less fun n => ms (n + 1)
  | .less i j x y k, ms => (k (less i j x y)).watch less fun n => ms (n + 1)
  | _, _ => none

/-- `f` run on memory `m` returns `i` without storing anything and without panic (IsSortedSlice, IsSortedLen call no
comparator). -/
def Answers (f : Prog Cell (VSp Key) Int) (m : Mem Cell) (i : Int) : Prop :=
  f.observe (fun _ _ _ _ => false) m = some i ∧ f.observe (fun _ _ _ _ => true) m = some i

/-- `f` returns `i` while other code changes memory as `ms` says (IsSortedSlice, IsSortedLen call no comparator) -/
def AnswersWhile (f : Prog Cell (VSp Key) Int) (ms : Nat → Mem Cell) (i : Int) : Prop :=
  f.watch (fun _ _ _ _ => false) ms = some i ∧ f.watch (fun _ _ _ _ => true) ms = some i

/-- `i` is positive, a valid index, and elements number `i` and `i-1` are related by `r`. -/
def PairAt (l : List Cell) (i : Int) (r : Cell → Cell → Prop) : Prop :=
  0 < i ∧ ∃ x y, l[i.toNat]? = some x ∧ l[i.toNat - 1]? = some y ∧ r x y

/-- `x < y` for elements of (non-float) type `t`. -/
def LtFor (t : GoType) (x y : Cell) : Prop :=
  if t.bytes = true then x.bytes < y.bytes else x.num t.signed < y.num t.signed

/-- `x >= y` for floats: false if there is a NaN. -/
def FGe (x y : Cell) : Prop := ¬ x.isNaN ∧ ¬ y.isNaN ∧ y.fval ≤ x.fval

/-- `p` comes to `q` by loads from memory `m` alone. -/
inductive Loads {V Sp α : Type} (m : Mem V) : Prog V Sp α → Prog V Sp α → Prop
  | refl (p) : Loads m p p
  | read {i k q} : Loads m (k (m i)) q → Loads m (.read i k) q

end Sorty
