import Verif.SemHigh
import Verif.Logic.Swp
import Verif.Proofs.Job

/-! # Programs that cannot finish alone -/

namespace Sorty

open Prog

variable {V Sp α β : Type} {P : Par V Sp} {L : Nat}

/-- Run alone, with reads of `MaxGor` yielding at least `L`, the program does not finish, unless with `Q`. -/
def mgw (L : Nat) : Prog V Sp α → Mem V → (α → Mem V → Prop) → Prop
  | .ret a, m, Q => Q a m
  | .read i k, m, Q => mgw L (k (m i)) m Q
  | .write i v k, m, Q => mgw L k (Function.update m i v) Q
  | .less _ _ _ _ k, m, Q => ∀ b, mgw L (k b) m Q
  | .maxGor k, m, Q => ∀ n, L ≤ n → mgw L (k n) m Q
  | .loadGor k, m, Q => ∀ n, mgw L (k n) m Q
  | .incGor k, m, Q => ∀ n, mgw L (k n) m Q
  | .decGor k, m, Q => ∀ n, mgw L (k n) m Q
  | .mkSync k, m, Q => mgw L k m Q
  | _, _, _ => True

theorem mgw.bind {p : Prog V Sp α} {f : α → Prog V Sp β} : ∀ {m} {Q : β → Mem V → Prop},
    mgw L p m (fun a m => mgw L (f a) m Q) → mgw L (p >>= f) m Q := by
  simp only [Prog.bind_def]
  induction p with
  | ret a => intro m Q h; exact h
  | read i k ih => intro m Q h; exact ih _ h
  | write i v k ih => intro m Q h; exact ih h
  | less i j x y k ih => intro m Q h b; exact ih _ (h b)
  | maxGor k ih => intro m Q h b hb; exact ih _ (h b hb)
  | loadGor k ih => intro m Q h b; exact ih _ (h b)
  | incGor k ih => intro m Q h b; exact ih _ (h b)
  | decGor k ih => intro m Q h b; exact ih _ (h b)
  | mkSync k ih => intro m Q h; exact ih h
  | _ => intro m Q h; trivial

theorem mgw.all {p : Prog V Sp α} {Q : α → Mem V → Prop} (hQ : ∀ a m, Q a m) : ∀ {m}, mgw L p m Q := by
  induction p with
  | ret a => intro m; exact hQ a m
  | read i k ih => intro m; exact ih _
  | write i v k ih => intro m; exact ih
  | less i j x y k ih => intro m b; exact ih _
  | maxGor k ih => intro m b hb; exact ih _
  | loadGor k ih => intro m b; exact ih _
  | incGor k ih => intro m b; exact ih _
  | decGor k ih => intro m b; exact ih _
  | mkSync k ih => intro m; exact ih
  | _ => intro m; trivial

/-- behind anything -/
theorem mgw.seq {p : Prog V Sp α} {f : α → Prog V Sp β} {m} {Q : β → Mem V → Prop} (h : ∀ a m, mgw L (f a) m Q) : mgw L (p >>= f) m Q :=
  mgw.bind (mgw.all h)

theorem swp.mgw {cmp : Nat → Nat → V → V → Bool → Prop} (hcmp : ∀ i j x y b, cmp i j x y b) {W R : Set Nat} {p : Prog V Sp α} :
    ∀ {m} {Q : α → Mem V → Prop}, swp cmp W R p m Q → mgw L p m Q := by
  induction p with
  | ret a => intro m Q h; exact h
  | read i k ih => intro m Q h; exact ih _ h.2
  | write i v k ih => intro m Q h; exact ih h.2
  | less i j x y k ih => intro m Q h b; exact ih _ (h.2 b (hcmp _ _ _ _ _))
  | _ => intro m Q h; exact h.elim

theorem mgw.mono {p : Prog V Sp α} : ∀ {m} {Q Q' : α → Mem V → Prop}, Sorty.mgw L p m Q → (∀ a m, Q a m → Q' a m) → Sorty.mgw L p m Q' := by
  induction p with
  | ret a => intro m Q Q' h hq; exact hq _ _ h
  | read i k ih => intro m Q Q' h hq; exact ih _ h hq
  | write i v k ih => intro m Q Q' h hq; exact ih h hq
  | less i j x y k ih => intro m Q Q' h hq b; exact ih _ (h b) hq
  | maxGor k ih => intro m Q Q' h hq b hb; exact ih _ (h b hb) hq
  | loadGor k ih => intro m Q Q' h hq b; exact ih _ (h b) hq
  | incGor k ih => intro m Q Q' h hq b; exact ih _ (h b) hq
  | decGor k ih => intro m Q Q' h hq b; exact ih _ (h b) hq
  | mkSync k ih => intro m Q Q' h hq; exact ih h hq
  | _ => intro m Q Q' h hq; trivial

theorem mgw_dec {k : Nat → Prog V Sp Unit} {sh : Sh V} {Q : Unit → Mem V → Prop} (z : Nat) (h : mgw L (.decGor k) sh.mem Q) :
    2 ≤ (⟨{ sh with nGor := z }, [] ++ k z :: [] ++ []⟩ : Cfg V Sp).ths.length ∨
    ∃ q, (⟨{ sh with nGor := z }, [] ++ k z :: [] ++ []⟩ : Cfg V Sp).ths = [q] ∧
      mgw L q (⟨{ sh with nGor := z }, [] ++ k z :: [] ++ []⟩ : Cfg V Sp).sh.mem Q := .inr ⟨_, rfl, h z⟩

/-- who cannot finish alone has company when finished -/
theorem mgw_high {p : Prog V Sp Unit} {m : Mem V} {c : Cfg V Sp} (hp : mgw L p m fun _ _ => False) (h : HighSteps P L (start p m) c) :
    2 ≤ c.ths.length ∨ ∃ q, c.ths = [q] ∧ mgw L q c.sh.mem fun _ _ => False := by
  generalize hc0 : start p m = c0 at h
  induction h with
  | refl => subst hc0; exact .inr ⟨p, rfl, hp⟩
  | tail _ hs ih =>
    cases hs with
    | commSR l₁ l₂ l₃ sh v k k' hs => left; simp; omega
    | commRS l₁ l₂ l₃ sh v k k' hs => left; simp; omega
    | tau l₁ l₂ sh p sh' p' new ht hm =>
      rcases ih with ih | ⟨q, hq, hw⟩
      · left; simp at ih ⊢; omega
      have : l₁ = [] ∧ p = q ∧ l₂ = [] := by
        cases l₁ with
        | nil => simpa using hq
        | cons a l => simp at hq
      obtain ⟨rfl, rfl, rfl⟩ := this
      dsimp only at hw
      cases ht with
      | read i k => exact .inr ⟨_, rfl, hw⟩
      | write i v k => exact .inr ⟨_, rfl, hw⟩
      | less i j x y k b _ => exact .inr ⟨_, rfl, hw b⟩
      | maxGor k n _ =>
        obtain ⟨n', h1, _, h2⟩ := hm k rfl
        rw [h2]
        exact .inr ⟨_, rfl, hw n' h1⟩
      | loadGor k n => exact .inr ⟨_, rfl, hw n⟩
      | loadNil k => exact .inr ⟨_, rfl, trivial⟩
      | incGor k => exact .inr ⟨_, rfl, hw ((sh.nGor + 1) % 2 ^ 64)⟩
      | incNil k => exact .inr ⟨_, rfl, trivial⟩
      | decGor k =>
        exact mgw_dec _ hw
      | decNil k => exact .inr ⟨_, rfl, trivial⟩
      | mkSync k => exact .inr ⟨_, rfl, hw⟩
      | go s k => left; simp

theorem mgw_returned {p : Prog V Sp Unit} {m : Mem V} {c : Cfg V Sp} (hp : mgw L p m fun _ _ => False) (h : HighSteps P L (start p m) c)
    (hr : Returned c) : 2 ≤ c.ths.length := by
  rcases mgw_high hp h with h | ⟨q, h1, h2⟩
  · exact h
  · obtain ⟨l, hl⟩ := hr
    rw [h1] at hl
    simp only [List.cons.injEq] at hl
    rw [hl.1] at h2
    exact h2.elim

/-- a step can be made high -/
theorem Step.high {c c' : Cfg V Sp} (hL : L ≤ P.M) (h : Step P c c') : ∃ c'', HighStep P L c c'' := by
  cases h with
  | commSR l₁ l₂ l₃ sh v k k' h => exact ⟨_, .commSR _ _ _ _ _ _ _ h⟩
  | commRS l₁ l₂ l₃ sh v k k' h => exact ⟨_, .commRS _ _ _ _ _ _ _ h⟩
  | tau l₁ l₂ sh p sh' p' new h =>
    by_cases hp : ∃ k, p = .maxGor k
    · obtain ⟨k, rfl⟩ := hp
      exact ⟨_, .tau l₁ l₂ sh _ _ _ _ (.maxGor sh k P.M le_rfl) fun k' hk => ⟨P.M, hL, le_rfl, by cases hk; rfl⟩⟩
    · exact ⟨_, .tau l₁ l₂ sh _ _ _ _ h fun k hk => (hp ⟨k, hk⟩).elim⟩

theorem exists_high_return {S : Spec V Sp} {I : IPar V Sp} (H : Hyp P S I) (hL : L ≤ P.M) {c0 : Cfg V Sp}
    (hacc : Acc (fun c' c => Step P c c') c0) : (∃ ts, Inv P S I c0 ts) → ∃ c, HighSteps P L c0 c ∧ Returned c := by
  induction hacc with
  | intro c _ ih =>
    rintro ⟨ts, hi⟩
    rcases hi.progress H with ⟨c', hs⟩ | hall
    · obtain ⟨c', hs⟩ := hs.high hL
      obtain ⟨d, h1, h2⟩ := ih c' hs.step (hi.step H hs.step)
      refine ⟨d, ?_, h2⟩
      clear ih h2 hi
      induction h1 with
      | refl => exact .tail (.refl _) hs
      | tail _ h3 ih => exact .tail ih h3
    · refine ⟨c, .refl _, ?_⟩
      have hths := hi.ths
      have hroles := hi.roles
      obtain ⟨rs, hr, _⟩ := hroles
      cases h : c.ths with
      | nil =>
        have h1 : ts = [] := by rw [h] at hths; simpa using hths.symm
        subst h1; simp at hr
      | cons p l => exact ⟨l, by rw [h, hall p (by simp [h])]⟩

end Sorty
