import Verif.Logic.Most

/-! # Upper bounds for calls that start no goroutine -/

namespace Sorty

open Prog

variable {V Sp α β : Type} {G : Nat}

/-- if `MaxGor` is at most `G`, `p` starts no goroutine and loads and stores at most `n` times -/
def Prog.most (G : Nat) : Prog V Sp α → Mem V → Nat → Prop
  | .ret _, _, _ => True
  | .read i k, m, n => 0 < n ∧ (k (m i)).most G m (n - 1)
  | .write i v k, m, n => 0 < n ∧ k.most G (Function.update m i v) (n - 1)
  | .maxGor k, m, n => ∀ g ≤ G, (k g).most G m n
  | _, _, _ => False

theorem most_le {p : Prog V Sp α} : ∀ {m : Mem V} {n k : Nat}, p.most G m n → n ≤ k → p.most G m k := by
  induction p with
  | ret a => intros; trivial
  | read i f ih => intro m n k h hk; exact ⟨by have := h.1; omega, ih _ h.2 (by omega)⟩
  | write i v f ih => intro m n k h hk; exact ⟨by have := h.1; omega, ih h.2 (by omega)⟩
  | maxGor f ih => intro m n k h hk g hg; exact ih g (h g hg) hk
  | _ => intro m n k h; exact h.elim

theorem TRuns.most {p : Prog V Sp α} {m m' : Mem V} {n k : Nat} {a : α} (h : TRuns p m n a m') (hk : n ≤ k) : p.most G m k := by
  induction h generalizing k with
  | ret a m => trivial
  | read _ ih => exact ⟨by omega, ih (by omega)⟩
  | write _ ih => exact ⟨by omega, ih (by omega)⟩

theorem TRuns.most_bind {p : Prog V Sp α} {f : α → Prog V Sp β} {m m' : Mem V} {n k : Nat} {a : α} (h : TRuns p m n a m') (hn : n ≤ k)
    (hk : (f a).most G m' (k - n)) : (p >>= f).most G m k := by
  simp only [Prog.bind_def]
  induction h generalizing k with
  | ret a m => exact hk
  | read _ ih => exact ⟨by omega, ih (by omega) (by rwa [Nat.sub_sub, Nat.add_comm 1])⟩
  | write _ ih => exact ⟨by omega, ih (by omega) (by rwa [Nat.sub_sub, Nat.add_comm 1])⟩

/-- so it is in every execution -/
theorem most_all {P : Par V Sp} (hM : P.M ≤ G) {c0 : Cfg V Sp} {sh0 : Sh V} {p0 : Prog V Sp Unit} {k : Nat}
    (h0 : c0 = ⟨sh0, [p0]⟩) (hk : p0.most G sh0.mem k) {c : Cfg V Sp} {n : Nat} (h : CSteps P Prog.accs c0 c n) :
    ∃ (sh : Sh V) (p : Prog V Sp Unit) (j : Nat), c = ⟨sh, [p]⟩ ∧ k = n + j ∧ p.most G sh.mem j := by
  induction h with
  | refl => exact ⟨sh0, p0, k, h0, by omega, hk⟩
  | @tau n l₁ l₂ sh p sh' p' new _ ht ih =>
    obtain ⟨sh1, p1, j, hc, hj, hp⟩ := ih
    obtain ⟨rfl, hl⟩ := Cfg.mk.inj hc
    obtain ⟨rfl, rfl, rfl⟩ : l₁ = [] ∧ p = p1 ∧ l₂ = [] := by
      cases l₁ with
      | nil => simpa using hl
      | cons a l => simp at hl
    cases ht with
    | read i k => exact ⟨_, _, j - 1, rfl, by have := hp.1; simp only [Prog.accs]; omega, hp.2⟩
    | write i v k => exact ⟨_, _, j - 1, rfl, by have := hp.1; simp only [Prog.accs]; omega, hp.2⟩
    | maxGor k g hg => exact ⟨_, _, j, rfl, by simpa [Prog.accs] using hj, hp g (hg.trans hM)⟩
    | _ => exact hp.elim
  | @commSR n l₁ l₂ l₃ sh v k k' _ _ ih =>
    obtain ⟨sh1, p1, j, hc, hj, hp⟩ := ih
    have := congrArg List.length (Cfg.mk.inj hc).2
    simp at this
    omega
  | @commRS n l₁ l₂ l₃ sh v k k' _ _ ih =>
    obtain ⟨sh1, p1, j, hc, hj, hp⟩ := ih
    have := congrArg List.length (Cfg.mk.inj hc).2
    simp at this
    omega

end Sorty
