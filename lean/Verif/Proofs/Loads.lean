import Verif.Spec
import Verif.Model.Lsw
import Mathlib.Tactic.SplitIfs

/-! # IsSorted* only load elements of their slice -/

namespace Sorty

open Prog

variable {V κ Sp α β : Type} {s : Slice}

theorem Prog.OnlyLoads.bind {p : Prog V Sp α} {f : α → Prog V Sp β} (h : p.OnlyLoads s) (hf : ∀ a, (f a).OnlyLoads s) :
    (p >>= f).OnlyLoads s := by
  show (Prog.bind p f).OnlyLoads s
  induction p with
  | ret a => exact hf a
  | read i k ih => exact ⟨h.1, fun x => ih _ (h.2 x)⟩
  | less i j x y k ih => intro b; exact ih _ (h b)
  | panic => trivial
  | overflow => trivial
  | diverge => trivial
  | _ => exact h.elim

theorem Prog.OnlyLoads.loop {σ : Type} {body : σ → Prog V Sp (Ctl σ α)} (h : ∀ st, (body st).OnlyLoads s) :
    ∀ N st, (Prog.loop N body st).OnlyLoads s := by
  intro N
  induction N with
  | zero => intro st; trivial
  | succ N ih =>
    intro st
    refine OnlyLoads.bind (h st) fun r => ?_
    cases r with
    | again s' => exact ih s'
    | brk a => trivial

theorem Prog.OnlyLoads.rd (i : Int) : (s.rd i : Prog V Sp V).OnlyLoads s := by
  unfold Slice.rd
  split
  · exact ⟨by omega, fun _ => trivial⟩
  · trivial

theorem Prog.OnlyLoads.pure (a : α) : (Pure.pure a : Prog V Sp α).OnlyLoads s := trivial

theorem onlyLoads_isSortedV (F : Fam V κ) (s : Slice) : (isSortedV F s : Prog V Sp Int).OnlyLoads s := by
  unfold isSortedV
  refine OnlyLoads.loop (fun i => ?_) _ _
  split
  · refine .bind (.rd _) fun x => .bind (.rd _) fun y => ?_
    split <;> trivial
  · trivial

theorem onlyLoads_isSortedF (o : Int) (s : Slice) : (isSortedF o s : Prog Cell Sp Int).OnlyLoads s := by
  have h : ∀ lh : Int × Int, (loop (s.len + 1) (fun i : Int =>
    if i > lh.1 then do
      let x ← s.rd i
      let y ← s.rd (i - 1)
      if !cellGE x y then pure (.brk i) else pure (.again (i - 1))
    else pure (.brk 0)) lh.2 : Prog Cell Sp Int).OnlyLoads s := by
    intro lh
    refine OnlyLoads.loop (fun i => ?_) _ _
    split
    · refine .bind (.rd _) fun x => .bind (.rd _) fun y => ?_
      split <;> trivial
    · trivial
  unfold isSortedF
  dsimp only
  split
  · refine .bind (.loop (fun i => ?_) _ _) h
    split
    · refine .bind (.rd _) fun x => ?_
      split <;> trivial
    · trivial
  split
  · refine .bind (.loop (fun i => ?_) _ _) h
    split
    · refine .bind (.rd _) fun x => ?_
      split <;> trivial
    · trivial
  · exact h (0, (s.len : Int) - 1)

theorem onlyLoads_isSortedOf (C : Conf) (id : FamId) (s : Slice) : (isSortedOf C id s : Prog Cell Sp Int).OnlyLoads s := by
  unfold isSortedOf
  split
  · exact onlyLoads_isSortedF _ _
  · exact onlyLoads_isSortedV _ _

theorem onlyLoads_isSorted (ws : Nat) (n : Int) (s : Slice) : (IsSorted ws n s : Prog V Sp Int).OnlyLoads s := by
  unfold IsSorted
  refine OnlyLoads.loop (fun i => ?_) _ _
  split
  · refine .bind ?_ fun b => ?_
    · rw [call_documented]
      unfold lsw
      split
      · refine .bind (.rd _) fun x => .bind (.rd _) fun y => .bind (fun _ => trivial) fun b => ?_
        split
        · rw [if_neg (by simp)]
          trivial
        · trivial
      · trivial
    · split <;> trivial
  · trivial

/-- a program that only loads from `s` does not notice changes elsewhere -/
theorem watch_of_observe {less : Nat → Nat → V → V → Bool} {m : Mem V} {a : α} {p : Prog V Sp α} : ∀ {ms : Nat → Mem V},
    p.OnlyLoads s → (∀ n i, s.off ≤ i → i < s.off + s.len → ms n i = m i) → p.observe less m = some a →
    p.watch less ms = some a := by
  induction p with
  | ret b => intro ms _ _ h; exact h
  | read i k ih =>
    intro ms hl hm h
    show (k (ms 0 i)).watch less _ = _
    rw [hm 0 i hl.1.1 hl.1.2]
    exact ih _ (hl.2 _) (fun n => hm (n + 1)) h
  | less i j x y k ih => intro ms hl hm h; exact ih _ (hl _) (fun n => hm (n + 1)) h
  | _ => intro ms _ _ h; simp [Prog.observe] at h

end Sorty
