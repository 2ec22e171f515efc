import Verif.Sem

/-! # Metered executions

Executions together with the number of times something of interest was done. -/

namespace Sorty

variable {V Sp : Type}

/-- Any number of steps from `c0`, with a meter: a goroutine about to continue as `p` is charged `w p` for its next
step. A rendezvous is free. -/
inductive CSteps (P : Par V Sp) (w : Prog V Sp Unit → Nat) (c0 : Cfg V Sp) : Cfg V Sp → Nat → Prop
  | refl : CSteps P w c0 c0 0
  | tau {n l₁ l₂ sh p sh' p' new} : CSteps P w c0 ⟨sh, l₁ ++ p :: l₂⟩ n → TStep P sh p sh' p' new →
      CSteps P w c0 ⟨sh', l₁ ++ p' :: l₂ ++ new⟩ (n + w p)
  | commSR {n l₁ l₂ l₃ sh v k k'} : CSteps P w c0 ⟨sh, l₁ ++ .send v k :: l₂ ++ .recv k' :: l₃⟩ n → sh.sync = true →
      CSteps P w c0 ⟨sh, l₁ ++ k :: l₂ ++ k' v :: l₃⟩ n
  | commRS {n l₁ l₂ l₃ sh v k k'} : CSteps P w c0 ⟨sh, l₁ ++ .recv k' :: l₂ ++ .send v k :: l₃⟩ n → sh.sync = true →
      CSteps P w c0 ⟨sh, l₁ ++ k' v :: l₂ ++ k :: l₃⟩ n

/-- 1 if the next step is a call of the user's comparator (every call of `lsw` makes exactly one) -/
def Prog.asks : Prog V Sp Unit → Nat
  | .less .. => 1
  | _ => 0

/-- 1 if the next step is a load or a store of an element -/
def Prog.accs : Prog V Sp Unit → Nat
  | .read .. => 1
  | .write .. => 1
  | _ => 0

/-- 1 if the next step is a store of an element -/
def Prog.stores : Prog V Sp Unit → Nat
  | .write .. => 1
  | _ => 0

/-- every execution can be metered -/
theorem Steps.metered {P : Par V Sp} (w : Prog V Sp Unit → Nat) {c0 c : Cfg V Sp} (h : Steps P c0 c) :
    ∃ n, CSteps P w c0 c n := by
  induction h with
  | refl => exact ⟨0, .refl⟩
  | tail _ hs ih =>
    obtain ⟨n, ih⟩ := ih
    cases hs with
    | tau l₁ l₂ sh p sh' p' new ht => exact ⟨_, ih.tau ht⟩
    | commSR l₁ l₂ l₃ sh v k k' hs => exact ⟨_, ih.commSR hs⟩
    | commRS l₁ l₂ l₃ sh v k k' hs => exact ⟨_, ih.commRS hs⟩

/-- metered executions are executions -/
theorem CSteps.steps {P : Par V Sp} {w : Prog V Sp Unit → Nat} {c0 c : Cfg V Sp} {n : Nat} (h : CSteps P w c0 c n) :
    Steps P c0 c := by
  induction h with
  | refl => exact .refl _
  | tau _ ht ih => exact ih.tail (.tau _ _ _ _ _ _ _ ht)
  | commSR _ hs ih => exact ih.tail (.commSR _ _ _ _ _ _ _ hs)
  | commRS _ hs ih => exact ih.tail (.commRS _ _ _ _ _ _ _ hs)

/-- Cost of running a program that only looks (see `Prog.observe`): `wa` for every load, `wl` for every call of the
comparator. -/
def Prog.looks {α : Type} (wa wl : Nat) (less : Nat → Nat → V → V → Bool) : Prog V Sp α → Mem V → Nat
  | .read i k, m => wa + (k (m i)).looks wa wl less m
  | .less i j x y k, m => wl + (k (less i j x y)).looks wa wl less m
  | _, _ => 0

end Sorty
