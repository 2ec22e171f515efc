import Mathlib.Logic.Function.Basic

/-! # The programming language of the model

Go code that touches shared memory, the `syncVar` of a sort call, goroutines or the channel is modelled
as a tree of single effects. One node is one atomic step of one goroutine.
-/

namespace Sorty

/-- Shared memory: address ↦ element. Only addresses inside slices are ever accessed. -/
abbrev Mem (V : Type) := Nat → V

/-- Programs over elements `V` that can spawn goroutines described by `Sp` and return an `α`. -/
inductive Prog (V Sp : Type) (α : Type) : Type where
  /-- finished with result `a` -/
  | ret (a : α)
  /-- load the element at address `i` -/
  | read (i : Nat) (k : V → Prog V Sp α)
  /-- store `v` at address `i` -/
  | write (i : Nat) (v : V) (k : Prog V Sp α)
  /-- user comparator `less(i,j)`, called on the elements `x`,`y` just read at indices `i`,`j` -/
  | less (i j : Nat) (x y : V) (k : Bool → Prog V Sp α)
  /-- plain read of the global `MaxGor` (sorty.go:31) -/
  | maxGor (k : Nat → Prog V Sp α)
  /-- plain read of `sv.nGor` (sorty.go:91) -/
  | loadGor (k : Nat → Prog V Sp α)
  /-- `atomic.AddUint64(&sv.nGor, 1)`, continues with the new value -/
  | incGor (k : Nat → Prog V Sp α)
  /-- `atomic.AddUint64(&sv.nGor, ^uint64(0))`, continues with the new value -/
  | decGor (k : Nat → Prog V Sp α)
  /-- `sv := syncVar{1, make(chan int)}` -/
  | mkSync (k : Prog V Sp α)
  /-- `go` statement -/
  | go (s : Sp) (k : Prog V Sp α)
  /-- send on the (unbuffered) channel of the `syncVar` -/
  | send (v : Int) (k : Prog V Sp α)
  /-- receive from the channel -/
  | recv (k : Int → Prog V Sp α)
  /-- Go run-time panic (index or slice bounds out of range) -/
  | panic
  /-- recursion budget exhausted -/
  | overflow
  /-- loop budget exhausted -/
  | diverge

namespace Prog

variable {V Sp α β γ : Type}

/-- Sequencing. -/
def bind : Prog V Sp α → (α → Prog V Sp β) → Prog V Sp β
  | .ret a, f => f a
  | .read i k, f => .read i fun v => (k v).bind f
  | .write i v k, f => .write i v (k.bind f)
  | .less i j x y k, f => .less i j x y fun b => (k b).bind f
  | .maxGor k, f => .maxGor fun n => (k n).bind f
  | .loadGor k, f => .loadGor fun n => (k n).bind f
  | .incGor k, f => .incGor fun n => (k n).bind f
  | .decGor k, f => .decGor fun n => (k n).bind f
  | .mkSync k, f => .mkSync (k.bind f)
  | .go s k, f => .go s (k.bind f)
  | .send v k, f => .send v (k.bind f)
  | .recv k, f => .recv fun v => (k v).bind f
  | .panic, _ => .panic
  | .overflow, _ => .overflow
  | .diverge, _ => .diverge

instance : Monad (Prog V Sp) where
  pure := .ret
  bind := bind

@[simp] theorem bind_def (p : Prog V Sp α) (f : α → Prog V Sp β) : (p >>= f) = p.bind f := rfl
@[simp] theorem pure_def (a : α) : (pure a : Prog V Sp α) = .ret a := rfl

/-- What a loop body decides: go round again or leave the loop. -/
inductive Ctl (σ α : Type) : Type where
  | again (s : σ)
  | brk (a : α)

/-- A loop with at most `n` rounds; needing more is the outcome `diverge`. The fuel is not in the Go
code: theorems show that `diverge` is never reached, so it does not cut any execution short. -/
def loop {σ : Type} : Nat → (σ → Prog V Sp (Ctl σ α)) → σ → Prog V Sp α
  | 0, _, _ => .diverge
  | n + 1, body, s => (body s).bind fun c =>
      match c with
      | .again s' => loop n body s'
      | .brk a => .ret a

/-- Runs a program on a goroutine-local array (a stack array such as `sample [nsConc]int64`): only
element reads and writes are possible there. `none` is a panic. -/
def evalLocal : Prog V Sp α → Mem V → Option (α × Mem V)
  | .ret a, m => some (a, m)
  | .read i k, m => (k (m i)).evalLocal m
  | .write i v k, m => k.evalLocal (Function.update m i v)
  | _, _ => none

end Prog

/-- A Go slice: `len` elements from address `off` on. (Capacity beyond `len` is never used by sorty.) -/
structure Slice where
  off : Nat
  len : Nat
  deriving DecidableEq, Repr

namespace Slice

variable {V Sp : Type}

/-- `x := s[i]` with Go's bounds check. -/
def rd (s : Slice) (i : Int) : Prog V Sp V :=
  if 0 ≤ i ∧ i < s.len then .read (s.off + i.toNat) .ret else .panic

/-- `s[i] = v` with Go's bounds check. -/
def wr (s : Slice) (i : Int) (v : V) : Prog V Sp Unit :=
  if 0 ≤ i ∧ i < s.len then .write (s.off + i.toNat) v (.ret ()) else .panic

/-- `s[i], s[j] = s[j], s[i]`: two loads, then two stores. -/
def swap (s : Slice) (i j : Int) : Prog V Sp Unit := do
  let x ← s.rd j
  let y ← s.rd i
  s.wr i x
  s.wr j y

/-- `s[lo:hi]` (`s[lo:hi:hi]`) with Go's bounds check. -/
def sub (s : Slice) (lo hi : Int) : Prog V Sp Slice :=
  if 0 ≤ lo ∧ lo ≤ hi ∧ hi ≤ s.len then .ret ⟨s.off + lo.toNat, (hi - lo).toNat⟩ else .panic

/-- `&s[0] != &t[0]`; indexing an empty slice panics. -/
def addrNe (s t : Slice) : Prog V Sp Bool :=
  if 0 < s.len ∧ 0 < t.len then .ret (s.off != t.off) else .panic

/-- The elements of a slice, in order. -/
def view {V : Type} (s : Slice) (m : Mem V) : List V :=
  (List.range s.len).map fun i => m (s.off + i)

end Slice

end Sorty
