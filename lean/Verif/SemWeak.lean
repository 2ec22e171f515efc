import Verif.SemHB

/-! # Executions on weakly ordered memory

In Sem.lean a load returns what was stored last. The Go memory model (go.dev/ref/mem) promises less: a load returns what
was stored by some store that happens before it and is not overwritten in between, and next to nothing if there is a data
race. Here loads return whatever it allows: what compilers, caches and store buffers do to racy programs is included. The
atomic counter and the channel are as in Sem.lean, as the memory model makes them sequentially consistent. -/

namespace Sorty

variable {V Sp : Type}

/-- A recorded action, with the value in case of a store. -/
abbrev WEv (V : Type) := Ev × Option V

/-- The actions of a record. -/
def evs (r : List (WEv V)) : List Ev := r.map Prod.fst

/-- Action number `k` of a recorded execution is a store to address `a`. -/
def StoreAt (tr : List Ev) (a k : Nat) : Prop := ∃ t, tr[k]? = some (.acc t a true)

/-- `Sees m r t a v`: the memory model allows that goroutine `t` loads `v` from address `a` after the recorded actions
`r` of a call that was started on memory `m`. Either some pair of accesses is a data race, and anything may be loaded. Or
`v` was stored to `a` by a store that happens before the load, without another store to `a` between the two. Or `v` was
there at the start and no store to `a` happens before the load. -/
def Sees (m : Mem V) (r : List (WEv V)) (t a : Nat) (v : V) : Prop :=
  let tr := evs r ++ [.acc t a false]
  GoRace tr ∨
  (∃ i t', r[i]? = some (.acc t' a true, some v) ∧ HB tr i r.length ∧ ∀ k, StoreAt tr a k → HB tr i k → ¬ HB tr k r.length) ∨
  (m a = v ∧ ∀ k, StoreAt tr a k → ¬ HB tr k r.length)

/-- `Weak P p m r c`: an execution of call `p`, started on memory `m`, that leads to `c`, with its record. The memory in `c`
is not used: it stays `m`. -/
inductive Weak (P : Par V Sp) (p : Prog V Sp Unit) (m : Mem V) : List (WEv V) → Cfg V Sp → Prop
  | refl : Weak P p m [] (start p m)
  | load {r sh l₁ a k l₂ v} : Weak P p m r ⟨sh, l₁ ++ .read a k :: l₂⟩ → Sees m r l₁.length a v →
      Weak P p m (r ++ [(.acc l₁.length a false, none)]) ⟨sh, l₁ ++ k v :: l₂⟩
  | store {r sh l₁ a v k l₂} : Weak P p m r ⟨sh, l₁ ++ .write a v k :: l₂⟩ →
      Weak P p m (r ++ [(.acc l₁.length a true, some v)]) ⟨sh, l₁ ++ k :: l₂⟩
  | other {r sh l₁ q l₂ sh' q' new} : Weak P p m r ⟨sh, l₁ ++ q :: l₂⟩ → q.access = none → TStep P sh q sh' q' new →
      Weak P p m (r ++ (q.act l₁.length (l₁ ++ q :: l₂).length).toList.map fun e => (e, none)) ⟨sh', l₁ ++ q' :: l₂ ++ new⟩
  | commSR {r l₁ l₂ l₃ sh v k k'} : Weak P p m r ⟨sh, l₁ ++ .send v k :: l₂ ++ .recv k' :: l₃⟩ → sh.sync = true →
      Weak P p m (r ++ [(.comm l₁.length (l₁ ++ .send v k :: l₂).length, none)]) ⟨sh, l₁ ++ k :: l₂ ++ k' v :: l₃⟩
  | commRS {r l₁ l₂ l₃ sh v k k'} : Weak P p m r ⟨sh, l₁ ++ .recv k' :: l₂ ++ .send v k :: l₃⟩ → sh.sync = true →
      Weak P p m (r ++ [(.comm (l₁ ++ .recv k' :: l₂).length l₁.length, none)]) ⟨sh, l₁ ++ k' v :: l₂ ++ k :: l₃⟩

/-- Sanity check: a goroutine that loads what another one stored without synchronization may load anything, here 9, though 3 was
there at the start and 4 was stored. -/
example : Sees (fun _ => 3) [(.go 0 1, none), (.acc 0 5 true, some 4)] 1 5 (9 : Nat) := by
  refine .inl ⟨1, 2, 0, 1, 5, true, false, by decide, rfl, rfl, .inl rfl, ?_⟩
  have key : ∀ i j, HB [.go 0 1, .acc 0 5 true, .acc 1 5 false] i j → i < j ∧ (i = 0 ∨ 2 < j) := by
    intro i j h
    induction h with
    | @edge i j x y w hij hx hy hwx hwy =>
      refine ⟨hij, ?_⟩
      have hj : j < 3 := by have := (List.getElem?_eq_some_iff.1 hy).1; simpa using this
      by_cases hi : i = 0
      · exact .inl hi
      · have h1 : i = 1 := by omega
        have h2 : j = 2 := by omega
        subst h1 h2
        simp at hx hy
        subst hx hy
        simp [Ev.who] at hwx hwy
        subst hwx
        simp at hwy
    | trans _ _ h1 h2 => omega
  intro h
  have := (key _ _ h).2
  omega

end Sorty
