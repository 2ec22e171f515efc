import Verif.Proofs.IsSorted
import Verif.Proofs.Outcome

/-! # Programs that only look at memory -/

namespace Sorty

open Prog

variable {V Sp α β : Type}

theorem swp_observe {cmp : Nat → Nat → V → V → Bool → Prop} {less : Nat → Nat → V → V → Bool} {R : Set Nat}
    (hc : ∀ i j x y, cmp i j x y (less i j x y)) {p : Prog V Sp α} : ∀ {m} {Q : α → Mem V → Prop},
    swp cmp ∅ R p m Q → ∃ a, p.observe less m = some a ∧ Q a m := by
  induction p with
  | ret a => intro m Q h; exact ⟨a, rfl, h⟩
  | read i k ih => intro m Q h; exact ih _ h.2
  | write i v k ih => intro m Q h; exact h.1.elim
  | less i j x y k ih => intro m Q h; exact ih _ (h.2 _ (hc i j x y))
  | _ => intro m Q h; exact h.elim

theorem swp_answers {cmp : Nat → Nat → Cell → Cell → Bool → Prop} {R : Set Nat} {p : Prog Cell (VSp Key) Int} {m : Mem Cell} {Q : Int → Mem Cell → Prop}
    (hc : ∀ i j x y b, ¬ cmp i j x y b) (h : swp cmp ∅ R p m Q) : ∃ i, Answers p m i ∧ Q i m := by
  induction p with
  | ret a => exact ⟨a, ⟨rfl, rfl⟩, h⟩
  | read i k ih => exact ih _ h.2
  | write i v k ih => exact h.1.elim
  | less i j x y k ih => obtain ⟨b, hb⟩ := h.1; exact absurd hb (hc _ _ _ _ _)
  | _ => exact h.elim

theorem observe_bind {less : Nat → Nat → V → V → Bool} {p : Prog V Sp α} {f : α → Prog V Sp β} {m : Mem V} {a : α}
    (h : p.observe less m = some a) : (p.bind f).observe less m = (f a).observe less m := by
  induction p with
  | ret a => simp only [Prog.observe, Option.some.injEq] at h; subst h; rfl
  | read i k ih => exact ih _ h
  | less i j x y k ih => exact ih _ h
  | _ => simp [Prog.observe] at h

end Sorty
