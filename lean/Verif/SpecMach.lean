import Verif.Model.Mach
import Verif.SpecLsw
import Verif.Spec

/-! # Vocabulary of the properties of the machine-word model

`SortSliceM`, `SortLenM`, `SortLswM`, ... compute indices in Go's `int` and `uint`, which wrap; `SortSlice`, `SortLen`, `SortLsw`,
... compute them in unbounded integers.
-/

namespace Sorty

variable {V Sp : Type}

/-- What a goroutine does next. -/
inductive Next (V Sp : Type) where
  | finished
  | load (address : Nat)
  | store (address : Nat) (value : V)
  | less (i j : Nat) (x y : V)
  | readMaxGor
  | readCount
  | increment
  | decrement
  | makeChannel
  | start (goroutine : Sp)
  | send (value : Int)
  | receive
  | panic
  | overflow
  | diverge

/-- The next effect of a goroutine. -/
def Prog.next {α : Type} : Prog V Sp α → Next V Sp
  | .ret _ => .finished
  | .read i _ => .load i
  | .write i v _ => .store i v
  | .less i j x y _ => .less i j x y
  | .maxGor _ => .readMaxGor
  | .loadGor _ => .readCount
  | .incGor _ => .increment
  | .decGor _ => .decrement
  | .mkSync _ => .makeChannel
  | .go s _ => .start s
  | .send v _ => .send v
  | .recv _ => .receive
  | .panic => .panic
  | .overflow => .overflow
  | .diverge => .diverge

/-- The two states have the same memory, the same counter and as many goroutines, and each goroutine is about to do in one what
its counterpart is about to do in the other. -/
def Alike (c d : Cfg V Sp) : Prop := c.sh = d.sh ∧ c.ths.map Prog.next = d.ths.map Prog.next

/-- The largest `int` plus one. -/
def intLimit (wordSize : Nat) : Int := 2 ^ (8 * wordSize - 1)

/-- Like `SortJob`, for the machine-word functions; the length of the slice is an `int`. -/
inductive SortJobM (C : Conf) (s : Slice) (m : Mem Cell) : Call → (List Cell → Prop) → Prop
  | slice (t : GoType) : t.sortable = true → SliceOf C.wordSize t s m → s.len < intLimit C.wordSize → NaNSafe C t (s.view m) →
      SortJobM C s m (SortSliceM C (.slice t s)) (SortedFor C t)
  | len (t : GoType) : t.hasLen = true → SliceOf C.wordSize t s m → s.len < intLimit C.wordSize →
      SortJobM C s m (SortLenM C (.slice t s)) AscLen

/-- Like `SortEReaches`, for the machine-word functions. -/
def SortEReachesM (C : Conf) (s : Slice) (cmp : Cmp V) (M : Nat) (stale : Prop) (m : Mem V) (c : Cfg V LSp) : Prop :=
  ESteps (lswParM C s cmp M stale) (fun a => s.off ≤ a ∧ a < s.off + s.len) (start (SortLswM C s.len s) m) c

/-- Like `SortReaches`, for the machine-word functions. -/
def SortReachesM (C : Conf) (s : Slice) (cmp : Cmp V) (M : Nat) (stale : Prop) (m : Mem V) (c : Cfg V LSp) : Prop :=
  Reach (lswParM C s cmp M stale) (SortLswM C s.len s) m c

end Sorty
