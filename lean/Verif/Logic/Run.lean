import Verif.Sem
import Mathlib.Tactic.SplitIfs

/-! # Replaying a schedule

A computable scheduler, to exhibit reachable states. `MaxGor` always reads as `mg`, `nGor` as its current value, and
`ans` answers for the comparator.
-/

namespace Sorty

variable {V Sp : Type}

/-- one step of one goroutine -/
def tstep (body : Sp → Prog V Sp Unit) (mg : Nat) (ans : Nat → Nat → V → V → Option Bool) (sh : Sh V) :
    Prog V Sp Unit → Option (Sh V × Prog V Sp Unit × List (Prog V Sp Unit))
  | .read i k => some (sh, k (sh.mem i), [])
  | .write i v k => some ({ sh with mem := Function.update sh.mem i v }, k, [])
  | .less i j x y k =>
    match ans i j x y with
    | some b => some (sh, k b, [])
    | none => none
  | .maxGor k => some (sh, k mg, [])
  | .loadGor k => if sh.sync then some (sh, k sh.nGor, []) else none
  | .incGor k => if sh.sync then
      some ({ sh with nGor := (sh.nGor + 1) % 2 ^ 64 }, k ((sh.nGor + 1) % 2 ^ 64), []) else none
  | .decGor k => if sh.sync then
      some ({ sh with nGor := (sh.nGor + (2 ^ 64 - 1)) % 2 ^ 64 }, k ((sh.nGor + (2 ^ 64 - 1)) % 2 ^ 64), []) else none
  | .mkSync k => some ({ sh with nGor := 1, sync := true }, k, [])
  | .go s k => some (sh, k, [body s])
  | _ => none

/-- `n` steps of one goroutine, collecting the new goroutines -/
def trun (body : Sp → Prog V Sp Unit) (mg : Nat) (ans : Nat → Nat → V → V → Option Bool) : Nat → Sh V → Prog V Sp Unit → List (Prog V Sp Unit) →
    Option (Sh V × Prog V Sp Unit × List (Prog V Sp Unit))
  | 0, sh, p, new => some (sh, p, new)
  | n + 1, sh, p, new =>
    match tstep body mg ans sh p with
    | some (sh', p', new') => trun body mg ans n sh' p' (new ++ new')
    | none => none

/-- scheduling decisions -/
inductive Act where
  /-- goroutine `i` does `n` steps -/
  | run (i n : Nat)
  /-- goroutine `i > 0` sends to goroutine 0 -/
  | comm (i : Nat)

def act (body : Sp → Prog V Sp Unit) (mg : Nat) (ans : Nat → Nat → V → V → Option Bool) : Act → Cfg V Sp → Option (Cfg V Sp)
  | .run i n, c =>
    match c.ths.drop i with
    | p :: l₂ =>
      match trun body mg ans n c.sh p [] with
      | some (sh', p', new) => some ⟨sh', c.ths.take i ++ p' :: l₂ ++ new⟩
      | none => none
    | [] => none
  | .comm i, c =>
    match c.ths with
    | .recv k' :: l =>
      match l.drop (i - 1) with
      | .send v k :: l₃ => if c.sh.sync then some ⟨c.sh, k' v :: (l.take (i - 1) ++ k :: l₃)⟩ else none
      | _ => none
    | _ => none

def run (body : Sp → Prog V Sp Unit) (mg : Nat) (ans : Nat → Nat → V → V → Option Bool) : List Act → Cfg V Sp → Option (Cfg V Sp)
  | [], c => some c
  | a :: l, c =>
    match act body mg ans a c with
    | some c' => run body mg ans l c'
    | none => none

variable {P : Par V Sp} {mg : Nat} {ans : Nat → Nat → V → V → Option Bool}

theorem tstep_sound (hm : mg ≤ P.M) (ha : ∀ i j x y b, ans i j x y = some b → P.cmp i j x y b) {sh sh' : Sh V} {p p' new} (h : tstep P.body mg ans sh p = some (sh', p', new)) :
    TStep P sh p sh' p' new := by
  cases p <;> simp only [tstep] at h
  case read i k => simp at h; obtain ⟨rfl, rfl, rfl⟩ := h; exact .read ..
  case write i v k => simp at h; obtain ⟨rfl, rfl, rfl⟩ := h; exact .write ..
  case less i j x y k =>
    split at h
    · rename_i b hb
      simp at h; obtain ⟨rfl, rfl, rfl⟩ := h; exact .less _ _ _ _ _ _ _ (ha _ _ _ _ _ hb)
    · simp at h
  case maxGor k => simp at h; obtain ⟨rfl, rfl, rfl⟩ := h; exact .maxGor _ _ _ hm
  case mkSync k => simp at h; obtain ⟨rfl, rfl, rfl⟩ := h; exact .mkSync ..
  case go s k => simp at h; obtain ⟨rfl, rfl, rfl⟩ := h; exact .go ..
  case loadGor k =>
    split_ifs at h with hs
    simp at h; obtain ⟨rfl, rfl, rfl⟩ := h; exact .loadGor _ _ _ hs (.inr rfl)
  case incGor k =>
    split_ifs at h with hs
    simp only [Option.some.injEq, Prod.mk.injEq] at h; obtain ⟨rfl, rfl, rfl⟩ := h; exact .incGor _ _ hs
  case decGor k =>
    split_ifs at h with hs
    simp only [Option.some.injEq, Prod.mk.injEq] at h; obtain ⟨rfl, rfl, rfl⟩ := h; exact .decGor _ _ hs
  all_goals simp at h

theorem Steps.trans {c c' c'' : Cfg V Sp} (h : Steps P c c') (h' : Steps P c' c'') : Steps P c c'' := by
  induction h' with
  | refl => exact h
  | tail _ hs ih => exact .tail ih hs

theorem trun_sound (hm : mg ≤ P.M) (ha : ∀ i j x y b, ans i j x y = some b → P.cmp i j x y b) (l₁ l₂ : List (Prog V Sp Unit)) : ∀ n {sh sh' : Sh V} {p p' new new'},
    trun P.body mg ans n sh p new = some (sh', p', new') → Steps P ⟨sh, l₁ ++ p :: l₂ ++ new⟩ ⟨sh', l₁ ++ p' :: l₂ ++ new'⟩ := by
  intro n
  induction n with
  | zero => intro sh sh' p p' new new' h; simp only [trun, Option.some.injEq, Prod.mk.injEq] at h; obtain ⟨rfl, rfl, rfl⟩ := h; exact .refl _
  | succ n ih =>
    intro sh sh' p p' new new' h
    unfold trun at h
    split at h
    · rename_i sh1 p1 new1 h1
      refine Steps.trans (.tail (.refl _) ?_) (ih h)
      have := Step.tau l₁ (l₂ ++ new) sh p sh1 p1 new1 (tstep_sound hm ha h1)
      simpa using this
    · cases h

theorem act_sound (hm : mg ≤ P.M) (ha : ∀ i j x y b, ans i j x y = some b → P.cmp i j x y b) {a c c'} (h : act P.body mg ans a c = some c') : Steps P c c' := by
  obtain ⟨sh, ths⟩ := c
  cases a with
  | run i n =>
    simp only [act] at h
    split at h
    · rename_i p l₂ hd
      split at h
      · rename_i sh' p' new ht
        simp only [Option.some.injEq] at h
        subst h
        have := trun_sound hm ha (ths.take i) l₂ n ht
        have e : ths = ths.take i ++ p :: l₂ := by rw [← hd, List.take_append_drop]
        rw [List.append_nil, ← e] at this
        exact this
      · cases h
    · cases h
  | comm i =>
    simp only [act] at h
    split at h
    · rename_i k' l
      split at h
      · rename_i v k l₃ hd
        split_ifs at h with hs
        simp only [Option.some.injEq] at h
        subst h
        have e : l = l.take (i - 1) ++ .send v k :: l₃ := by rw [← hd, List.take_append_drop]
        have := Step.commRS (P := P) [] (l.take (i - 1)) l₃ sh v k k' hs
        simp only [List.nil_append, List.cons_append] at this
        rw [← e] at this
        exact .tail (.refl _) this
      · cases h
    · cases h

theorem run_sound (hm : mg ≤ P.M) (ha : ∀ i j x y b, ans i j x y = some b → P.cmp i j x y b) : ∀ l {c c'}, run P.body mg ans l c = some c' → Steps P c c' := by
  intro l
  induction l with
  | nil => intro c c' h; simp only [run, Option.some.injEq] at h; subst h; exact .refl _
  | cons a l ih =>
    intro c c' h
    unfold run at h
    split at h
    · rename_i c1 h1
      exact (act_sound hm ha h1).trans (ih h)
    · cases h

end Sorty
