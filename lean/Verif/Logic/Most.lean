import Verif.Logic.Touch
import Verif.Logic.Cost

/-! # Upper bounds for sequential code on a given memory -/

namespace Sorty

open Prog

variable {V Sp α β : Type}

theorem TRuns.bind {p : Prog V Sp α} {f : α → Prog V Sp β} {m m1 m2 : Mem V} {n k : Nat} {a : α} {b : β} (h : TRuns p m n a m1)
    (hf : TRuns (f a) m1 k b m2) : TRuns (p >>= f) m (n + k) b m2 := by
  simp only [Prog.bind_def]
  induction h with
  | ret a m => rw [Nat.zero_add]; exact hf
  | @read i k' m n a m' _ ih =>
    rw [show n + 1 + k = n + k + 1 by omega]
    exact .read (ih hf)
  | @write i v k' m n a m' _ ih =>
    rw [show n + 1 + k = n + k + 1 by omega]
    exact .write (ih hf)

theorem TRuns.again {σ : Type} {body : σ → Prog V Sp (Ctl σ α)} {f n k : Nat} {s s' : σ} {m m1 m2 : Mem V} {a : α}
    (h : TRuns (body s) m n (.again s') m1) (h' : TRuns (loop f body s') m1 k a m2) : TRuns (loop (f + 1) body s) m (n + k) a m2 :=
  TRuns.bind h h'

theorem TRuns.brk {σ : Type} {body : σ → Prog V Sp (Ctl σ α)} {f n : Nat} {s : σ} {m m1 : Mem V} {a : α}
    (h : TRuns (body s) m n (.brk a) m1) : TRuns (loop (f + 1) body s) m n a m1 := by
  have := TRuns.bind h (f := fun c => match c with | .again s' => loop f body s' | .brk a => .ret a) (.ret a m1)
  exact this

/-- a run costs what the meter allows -/
theorem TRuns.paid {M : Meter V Sp} (ha : M.wa = 1) (hw : M.ww = 1) (hrd : ∀ i x, M.rd i x) {p : Prog V Sp α} {m m' : Mem V} {k : Nat} {a : α}
    (h : TRuns p m k a m') : ∀ {J : Option Sp} {n : Nat} {Q : α → Option Sp → Nat → Prop}, cw M p J n Q → k ≤ n ∧ ∃ J', Q a J' (n - k) := by
  induction h with
  | ret a m => intro J n Q h; exact ⟨Nat.zero_le _, J, h⟩
  | read _ ih =>
    intro J n Q h
    obtain ⟨h1, J', h2⟩ := ih (h.2 _ (hrd _ _))
    have h3 := h.1
    rw [ha] at h1 h2 h3
    exact ⟨by omega, J', by rwa [Nat.sub_sub, Nat.add_comm] at h2⟩
  | write _ ih =>
    intro J n Q h
    obtain ⟨h1, J', h2⟩ := ih h.2
    have h3 := h.1.2
    rw [hw] at h1 h2 h3
    exact ⟨by omega, J', by rwa [Nat.sub_sub, Nat.add_comm] at h2⟩

theorem TRuns.le_cost {M : Meter V Sp} (ha : M.wa = 1) (hw : M.ww = 1) (hrd : ∀ i x, M.rd i x) {p : Prog V Sp α} {m m' : Mem V} {k N : Nat} {a : α}
    {R : α → Prop} (h : TRuns p m k a m') (hc : Costs M p N R) : k ≤ N :=
  (h.paid ha hw hrd (hc none N le_rfl)).1

end Sorty
