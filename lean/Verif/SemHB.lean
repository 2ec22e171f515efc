import Verif.Sem

/-! # Happens-before

Executions recorded as sequences of actions, and the order the Go memory model (go.dev/ref/mem) puts on them. Two
accesses that conflict and are not ordered by it are a data race, whether or not they come close in time.
-/

namespace Sorty

variable {V Sp : Type}

/-- Actions of the goroutines of a call (number 0 is the caller). -/
inductive Ev where
  /-- goroutine `t` loads (`w = false`) or stores (`w = true`) the element at address `a` -/
  | acc (t a : Nat) (w : Bool)
  /-- goroutine `t` executes a `go` statement that starts goroutine `child` -/
  | go (t child : Nat)
  /-- goroutine `t` executes an atomic addition to the counter of the call -/
  | atom (t : Nat)
  /-- goroutine `s` sends to goroutine `r` on the unbuffered channel -/
  | comm (s r : Nat)
  /-- goroutine `t` creates the counter and the channel -/
  | make (t : Nat)

/-- Who takes part in actions: goroutines and the atomic counter. -/
inductive Who where
  | gor (t : Nat)
  | counter
deriving DecidableEq

/-- The participants of an action. -/
def Ev.who : Ev → List Who
  | .acc t _ _ => [.gor t]
  | .go t child => [.gor t, .gor child]
  | .atom t => [.gor t, .counter]
  | .comm s r => [.gor s, .gor r]
  | .make t => [.gor t]

/-- Happens-before on the positions of a recorded execution: the transitive closure of "earlier, and with a common
participant". This is: the order of each goroutine's own actions; a `go` statement before everything its goroutine
does; atomic additions in their order (each one observes the one before); what precedes a send before what follows its
receive, and, the channel being unbuffered, what precedes the receive before what follows the send. -/
inductive HB (tr : List Ev) : Nat → Nat → Prop
  | edge {i j x y w} : i < j → tr[i]? = some x → tr[j]? = some y → w ∈ x.who → w ∈ y.who → HB tr i j
  | trans {i j k} : HB tr i j → HB tr j k → HB tr i k

/-- Data race by the Go memory model: two accesses to one address, one of them a store, not ordered by
happens-before. -/
def GoRace (tr : List Ev) : Prop :=
  ∃ i j t t' a w w', i < j ∧ tr[i]? = some (.acc t a w) ∧ tr[j]? = some (.acc t' a w') ∧ (w = true ∨ w' = true) ∧ ¬ HB tr i j

/-- Action number `i` is one of `w`'s actions or happens before one of them. -/
def KnownTo (tr : List Ev) (w : Who) (i : Nat) : Prop :=
  ∃ j x, tr[j]? = some x ∧ w ∈ x.who ∧ (i = j ∨ HB tr i j)

/-- The action goroutine number `t` of `n` does next, if it is one that is recorded. (The plain reads of `MaxGor` and of
the counter order nothing.) -/
def Prog.act (t n : Nat) : Prog V Sp Unit → Option Ev
  | .read a _ => some (.acc t a false)
  | .write a _ _ => some (.acc t a true)
  | .incGor _ => some (.atom t)
  | .decGor _ => some (.atom t)
  | .go _ _ => some (.go t n)
  | .mkSync _ => some (.make t)
  | _ => none

/-- Any number of steps from `c0`, recorded. -/
inductive Trace (P : Par V Sp) (c0 : Cfg V Sp) : List Ev → Cfg V Sp → Prop
  | refl : Trace P c0 [] c0
  | tau {tr l₁ l₂ sh p sh' p' new} : Trace P c0 tr ⟨sh, l₁ ++ p :: l₂⟩ → TStep P sh p sh' p' new →
      Trace P c0 (tr ++ (p.act l₁.length (l₁ ++ p :: l₂).length).toList) ⟨sh', l₁ ++ p' :: l₂ ++ new⟩
  | commSR {tr l₁ l₂ l₃ sh v k k'} : Trace P c0 tr ⟨sh, l₁ ++ .send v k :: l₂ ++ .recv k' :: l₃⟩ → sh.sync = true →
      Trace P c0 (tr ++ [.comm l₁.length (l₁ ++ .send v k :: l₂).length]) ⟨sh, l₁ ++ k :: l₂ ++ k' v :: l₃⟩
  | commRS {tr l₁ l₂ l₃ sh v k k'} : Trace P c0 tr ⟨sh, l₁ ++ .recv k' :: l₂ ++ .send v k :: l₃⟩ → sh.sync = true →
      Trace P c0 (tr ++ [.comm (l₁ ++ .recv k' :: l₂).length l₁.length]) ⟨sh, l₁ ++ k' v :: l₂ ++ k :: l₃⟩

/-- every execution can be recorded -/
theorem Steps.trace {P : Par V Sp} {c0 c : Cfg V Sp} (h : Steps P c0 c) : ∃ tr, Trace P c0 tr c := by
  induction h with
  | refl => exact ⟨_, .refl⟩
  | tail _ hs ih =>
    obtain ⟨tr, ih⟩ := ih
    cases hs with
    | tau l₁ l₂ sh p sh' p' new ht => exact ⟨_, .tau ih ht⟩
    | commSR l₁ l₂ l₃ sh v k k' hs => exact ⟨_, .commSR ih hs⟩
    | commRS l₁ l₂ l₃ sh v k k' hs => exact ⟨_, .commRS ih hs⟩

/-- recordings are of executions -/
theorem Trace.steps {P : Par V Sp} {c0 c : Cfg V Sp} {tr} (h : Trace P c0 tr c) : Steps P c0 c := by
  induction h with
  | refl => exact .refl _
  | tau _ ht ih => exact .tail ih (.tau _ _ _ _ _ _ _ ht)
  | commSR _ hs ih => exact .tail ih (.commSR _ _ _ _ _ _ _ hs)
  | commRS _ hs ih => exact .tail ih (.commRS _ _ _ _ _ _ _ hs)

/-- Is the action a `go` statement? -/
def Ev.isGo : Ev → Bool
  | .go _ _ => true
  | _ => false

/-- every goroutine but the caller was started by a recorded `go` statement -/
theorem Trace.count {P : Par V Sp} {p : Prog V Sp Unit} {m : Mem V} {c : Cfg V Sp} {tr} (h : Trace P (start p m) tr c) :
    c.ths.length = 1 + (tr.filter Ev.isGo).length := by
  induction h with
  | refl => rfl
  | @tau tr l₁ l₂ sh p sh' p' new _ ht ih =>
    simp only [List.length_append, List.length_cons, List.filter_append] at ih ⊢
    cases ht <;> simp [Prog.act, List.filter_cons, Ev.isGo] <;> omega
  | commSR _ _ ih => simpa [Ev.isGo] using ih
  | commRS _ _ ih => simpa [Ev.isGo] using ih

/-- Sanity check: two goroutines storing to one address with nothing between them are a data race ... -/
example : GoRace [.go 0 1, .acc 0 5 true, .acc 1 5 true] := by
  refine ⟨1, 2, 0, 1, 5, true, true, by decide, rfl, rfl, .inl rfl, ?_⟩
  have key : ∀ i j, HB [.go 0 1, .acc 0 5 true, .acc 1 5 true] i j → i < j ∧ (i = 0 ∨ 2 < j) := by
    intro i j h
    induction h with
    | @edge i j x y w hij hx hy hwx hwy =>
      refine ⟨hij, ?_⟩
      have hj : j < 3 := by have := (List.getElem?_eq_some_iff.1 hy).1; simpa using this
      by_cases hi : i = 0
      · exact .inl hi
      · have h1 : i = 1 := by omega
        have h2 : j = 2 := by omega
        subst h1 h2
        simp at hx hy
        subst hx hy
        simp [Ev.who] at hwx hwy
        subst hwx
        simp at hwy
    | trans _ _ h1 h2 => omega
  intro h
  have := (key _ _ h).2
  omega

/-- ... and are none if a message is passed between them. -/
example : ¬ GoRace [.go 0 1, .acc 0 5 true, .comm 0 1, .acc 1 5 true] := by
  rintro ⟨i, j, t, t', a, w, w', hij, hi, hj, hw, hn⟩
  have hj4 : j < 4 := by have := (List.getElem?_eq_some_iff.1 hj).1; simpa using this
  have hj3 : j = 3 ∧ i = 1 := by
    rcases (by omega : j = 0 ∨ j = 1 ∨ j = 2 ∨ j = 3) with rfl | rfl | rfl | rfl <;> simp at hj
    · have : i = 0 := by omega
      subst this; simp at hi
    · rcases (by omega : i = 0 ∨ i = 1 ∨ i = 2) with rfl | rfl | rfl <;> simp at hi ⊢
  obtain ⟨rfl, rfl⟩ := hj3
  refine hn (.trans (j := 2) ?_ ?_)
  · exact .edge (by decide) rfl rfl (w := .gor 0) (by simp [Ev.who]) (by simp [Ev.who])
  · exact .edge (by decide) rfl rfl (w := .gor 1) (by simp [Ev.who]) (by simp [Ev.who])

end Sorty
