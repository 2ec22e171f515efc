import Verif.Prog

/-! # Semantics of concurrent programs

A configuration is the shared memory, the `syncVar` of the call and the list of its goroutines (number 0 is the
caller, new ones are appended). One step lets any one goroutine do one effect, or two goroutines meet on the
unbuffered channel. Which goroutine moves is unrestricted.
-/

namespace Sorty

variable {V Sp : Type}

/-- State shared by the goroutines of one call. -/
structure Sh (V : Type) where
  /-- element memory -/
  mem : Mem V
  /-- `syncVar.nGor` (sorty.go:82), a `uint64` -/
  nGor : Nat
  /-- has the call created its `syncVar` and channel? -/
  sync : Bool

/-- A configuration. -/
structure Cfg (V Sp : Type) where
  sh : Sh V
  ths : List (Prog V Sp Unit)

/-- Parameters of an execution. -/
structure Par (V Sp : Type) where
  /-- least upper bound of the values `MaxGor` holds during the call; every read of `MaxGor` may yield a
  different number up to it -/
  M : Nat
  /-- if true, the unsynchronised read of `nGor` in `gorFull` may yield any value -/
  stale : Prop
  /-- the answers the user's comparator may give for (index, index, element, element) -/
  cmp : Nat → Nat → V → V → Bool → Prop
  /-- what a spawned goroutine runs -/
  body : Sp → Prog V Sp Unit

/-- A goroutine's next step that involves no other goroutine: new shared state, rest of the goroutine, and
newly created goroutines. -/
inductive TStep (P : Par V Sp) : Sh V → Prog V Sp Unit → Sh V → Prog V Sp Unit → List (Prog V Sp Unit) → Prop
  | read (sh i k) : TStep P sh (.read i k) sh (k (sh.mem i)) []
  | write (sh i v k) : TStep P sh (.write i v k) { sh with mem := Function.update sh.mem i v } k []
  | less (sh i j x y k b) : P.cmp i j x y b → TStep P sh (.less i j x y k) sh (k b) []
  | maxGor (sh k n) : n ≤ P.M → TStep P sh (.maxGor k) sh (k n) []
  | loadGor (sh k n) : sh.sync = true → (P.stale ∨ n = sh.nGor) → TStep P sh (.loadGor k) sh (k n) []
  | loadNil (sh k) : sh.sync = false → TStep P sh (.loadGor k) sh .panic []
  | incGor (sh k) : sh.sync = true →
      TStep P sh (.incGor k) { sh with nGor := (sh.nGor + 1) % 2 ^ 64 } (k ((sh.nGor + 1) % 2 ^ 64)) []
  | incNil (sh k) : sh.sync = false → TStep P sh (.incGor k) sh .panic []
  | decGor (sh k) : sh.sync = true →
      TStep P sh (.decGor k) { sh with nGor := (sh.nGor + (2 ^ 64 - 1)) % 2 ^ 64 }
        (k ((sh.nGor + (2 ^ 64 - 1)) % 2 ^ 64)) []
  | decNil (sh k) : sh.sync = false → TStep P sh (.decGor k) sh .panic []
  | mkSync (sh k) : TStep P sh (.mkSync k) { sh with nGor := 1, sync := true } k []
  | go (sh s k) : TStep P sh (.go s k) sh k [P.body s]

/-- One step of a configuration. -/
inductive Step (P : Par V Sp) : Cfg V Sp → Cfg V Sp → Prop
  | tau (l₁ l₂ sh p sh' p' new) : TStep P sh p sh' p' new →
      Step P ⟨sh, l₁ ++ p :: l₂⟩ ⟨sh', l₁ ++ p' :: l₂ ++ new⟩
  /-- rendezvous, sender listed first -/
  | commSR (l₁ l₂ l₃ sh v k k') : sh.sync = true →
      Step P ⟨sh, l₁ ++ .send v k :: l₂ ++ .recv k' :: l₃⟩ ⟨sh, l₁ ++ k :: l₂ ++ k' v :: l₃⟩
  /-- rendezvous, receiver listed first -/
  | commRS (l₁ l₂ l₃ sh v k k') : sh.sync = true →
      Step P ⟨sh, l₁ ++ .recv k' :: l₂ ++ .send v k :: l₃⟩ ⟨sh, l₁ ++ k' v :: l₂ ++ k :: l₃⟩

/-- Any number of steps. -/
inductive Steps (P : Par V Sp) : Cfg V Sp → Cfg V Sp → Prop
  | refl (c) : Steps P c c
  | tail {c c' c''} : Steps P c c' → Step P c' c'' → Steps P c c''

/-- Start of a call: only the caller runs, no `syncVar` yet. -/
def start (p : Prog V Sp Unit) (m : Mem V) : Cfg V Sp := ⟨⟨m, 0, false⟩, [p]⟩

/-- `c` can occur while the call `p` started on memory `m` is executed. -/
def Reach (P : Par V Sp) (p : Prog V Sp Unit) (m : Mem V) (c : Cfg V Sp) : Prop := Steps P (start p m) c

/-- The caller's goroutine has finished, i.e. the call has returned. -/
def Returned (c : Cfg V Sp) : Prop := ∃ l, c.ths = .ret () :: l

/-- One step of a configuration, or of the rest of the program: other code may write anywhere outside `W`. -/
inductive EStep (P : Par V Sp) (W : Nat → Prop) : Cfg V Sp → Cfg V Sp → Prop
  | own {c c'} : Step P c c' → EStep P W c c'
  | env (sh m' ths) : (∀ i, W i → sh.mem i = m' i) → EStep P W ⟨sh, ths⟩ ⟨{ sh with mem := m' }, ths⟩

/-- Any number of steps, with interference outside `W`. -/
inductive ESteps (P : Par V Sp) (W : Nat → Prop) : Cfg V Sp → Cfg V Sp → Prop
  | refl (c) : ESteps P W c c
  | tail {c c' c''} : ESteps P W c c' → EStep P W c' c'' → ESteps P W c c''

/-- Any number of steps from `c0`, recording which goroutines were started: goroutine number `i+1` is the one
started as the `i`-th in the list. -/
inductive LSteps (P : Par V Sp) (c0 : Cfg V Sp) : Cfg V Sp → List Sp → Prop
  | refl : LSteps P c0 c0 []
  | quiet {c c' ds} : LSteps P c0 c ds → Step P c c' → c'.ths.length = c.ths.length → LSteps P c0 c' ds
  | spawn {l₁ l₂ sh s k ds} : LSteps P c0 ⟨sh, l₁ ++ .go s k :: l₂⟩ ds →
      LSteps P c0 ⟨sh, l₁ ++ k :: l₂ ++ [P.body s]⟩ (ds ++ [s])

/-- The element access a goroutine does next: address, and whether it is a store. -/
def Prog.access : Prog V Sp Unit → Option (Nat × Bool)
  | .read i _ => some (i, false)
  | .write i _ _ => some (i, true)
  | _ => none

/-- Data race: two goroutines are both about to access one address and one of them to store to it. -/
def Race (c : Cfg V Sp) : Prop :=
  ∃ (a b : Nat) (p q : Prog V Sp Unit) (i : Nat) (w w' : Bool), a ≠ b ∧ c.ths[a]? = some p ∧ c.ths[b]? = some q ∧
    p.access = some (i, w) ∧ q.access = some (i, w') ∧ (w = true ∨ w' = true)

/-- Something has gone wrong in some goroutine: run-time panic, recursion or loop budget exhausted. -/
def Wrong (c : Cfg V Sp) : Prop := .panic ∈ c.ths ∨ .overflow ∈ c.ths ∨ .diverge ∈ c.ths

/-- The goroutine is finished. -/
def Prog.isRet : Prog V Sp Unit → Bool
  | .ret _ => true
  | _ => false

/-- The goroutine waits to receive. -/
def Prog.isRecv : Prog V Sp Unit → Bool
  | .recv _ => true
  | _ => false

/-- The goroutine waits to send. -/
def Prog.isSend : Prog V Sp Unit → Bool
  | .send _ _ => true
  | _ => false

/-- Number of goroutines of the call that have not finished, caller included. -/
def live (c : Cfg V Sp) : Nat := (c.ths.filter fun p => !p.isRet).length

/-- Number of goroutines of the call that are neither finished nor waiting for a message. -/
def working (c : Cfg V Sp) : Nat := (c.ths.filter fun p => !p.isRet && !p.isRecv).length

end Sorty
