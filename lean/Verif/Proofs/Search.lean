import Verif.Model.Sample
import Mathlib.Tactic.Linarith
import Mathlib.Data.List.Nodup
import Mathlib.Algebra.Order.Group.Int
import Mathlib.Data.Nat.Log

/-! # Binary search -/

namespace Sorty

variable {σ : Type}

/-- any callback: termination, range, calls -/
theorem searchLoop_safe (fn : Int → σ → Bool × σ) : ∀ (fuel : Nat) (l h : Int) (st : σ) (calls : List Int), (h - l).toNat < fuel →
    ∃ k st' cs, searchLoop fn fuel l h st calls = some (k, st', calls ++ cs) ∧ l ≤ k ∧ (l ≤ h → k ≤ h) ∧ (h ≤ l → k = l ∧ cs = [] ∧ st' = st) ∧
      (∀ c ∈ cs, l ≤ c ∧ c < h) ∧ cs.Nodup ∧ (l < h → cs.length ≤ Nat.log2 (h - l).toNat + 1) := by
  intro fuel
  induction fuel with
  | zero => intro l h st calls hf; omega
  | succ fuel ih =>
    intro l h st calls hf
    unfold searchLoop
    by_cases hlt : l < h
    · rw [if_pos hlt]
      have hm : l ≤ meanI l h ∧ meanI l h < h := by unfold meanI; omega
      have hm2 : 2 * (meanI l h - l) ≤ h - l ∧ 2 * (h - (meanI l h + 1)) ≤ h - l := by unfold meanI; omega
      have hlog : ∀ a : Int, 0 < a → 2 * a ≤ h - l → Nat.log2 a.toNat + 1 ≤ Nat.log2 (h - l).toNat := by
        intro a h0 h1
        have : Nat.log2 (2 * a.toNat) = Nat.log2 a.toNat + 1 := Nat.log2_two_mul (by omega)
        rw [← this, Nat.log2_eq_log_two, Nat.log2_eq_log_two]
        exact Nat.log_mono_right (by omega)
      dsimp only
      generalize meanI l h = m at *
      cases hb : (fn m st).1 with
      | true =>
        simp only [if_true]
        obtain ⟨k, st', cs, e, k1, k2, k3, k4, k5, k6⟩ := ih l m (fn m st).2 (calls ++ [m]) (by omega)
        refine ⟨k, st', m :: cs, by rw [e]; simp, by omega, by have := k2 hm.1; omega, by omega, ?_, ?_, ?_⟩
        · intro c hc
          rcases List.mem_cons.1 hc with rfl | hc
          · exact hm
          · have := k4 c hc; omega
        · refine List.nodup_cons.2 ⟨fun hc => ?_, k5⟩
          have := k4 m hc; omega
        · intro _
          by_cases hc : l < m
          · have := k6 hc; have := hlog (m - l) (by omega) hm2.1
            simp only [List.length_cons]; omega
          · rw [(k3 (by omega)).2.1]; simp
      | false =>
        simp only [Bool.false_eq_true, if_false]
        obtain ⟨k, st', cs, e, k1, k2, k3, k4, k5, k6⟩ := ih (m + 1) h (fn m st).2 (calls ++ [m]) (by omega)
        refine ⟨k, st', m :: cs, by rw [e]; simp, by omega, by have := k2 (by omega); omega, by omega, ?_, ?_, ?_⟩
        · intro c hc
          rcases List.mem_cons.1 hc with rfl | hc
          · exact hm
          · have := k4 c hc; omega
        · refine List.nodup_cons.2 ⟨fun hc => ?_, k5⟩
          have := k4 m hc; omega
        · intro _
          by_cases hc : m + 1 < h
          · have := k6 hc; have := hlog (h - (m + 1)) (by omega) hm2.2
            simp only [List.length_cons]; omega
          · rw [(k3 (by omega)).2.1]; simp
    · rw [if_neg hlt]
      exact ⟨l, st, [], by simp, le_rfl, fun h => h, fun _ => ⟨rfl, rfl, rfl⟩, by simp, by simp, fun h => absurd h hlt⟩

/-- monotone predicates: the boundary -/
theorem searchLoop_bound (p : Int → Bool) (n : Int) (hp : ∀ j k, 0 ≤ j → j ≤ k → k < n → p j = true → p k = true) :
    ∀ (fuel : Nat) (l h : Int) (calls : List Int), (h - l).toNat < fuel → 0 ≤ l → l ≤ h → h ≤ n →
    (∀ j, 0 ≤ j → j < l → p j = false) → (h < n → p h = true) →
    ∃ k calls', searchLoop (fun k (_ : Unit) => (p k, ())) fuel l h () calls = some (k, (), calls') ∧ 0 ≤ k ∧ k ≤ n ∧
      (∀ j, 0 ≤ j → j < k → p j = false) ∧ (k < n → p k = true) := by
  intro fuel
  induction fuel with
  | zero => intro l h calls hf; omega
  | succ fuel ih =>
    intro l h calls hf h0 hlh hn hlow hhi
    unfold searchLoop
    by_cases hlt : l < h
    · rw [if_pos hlt]
      have hm : l ≤ meanI l h ∧ meanI l h < h := by unfold meanI; omega
      dsimp only
      generalize meanI l h = m at *
      cases hb : p m with
      | true =>
        simp only [if_true]
        exact ih l m _ (by omega) h0 hm.1 (by omega) hlow fun _ => hb
      | false =>
        simp only [Bool.false_eq_true, if_false]
        refine ih (m + 1) h _ (by omega) (by omega) (by omega) hn ?_ hhi
        intro j hj hj'
        by_contra hc
        have := hp j m hj (by omega) (by omega) (by simpa using hc)
        simp [this] at hb
    · rw [if_neg hlt]
      obtain rfl : l = h := by omega
      exact ⟨l, calls, rfl, h0, hn, hlow, hhi⟩

/-- a callback that logs its arguments sees exactly the calls -/
theorem searchLoop_log {τ : Type} (f : Int → τ → Bool × τ) : ∀ (fuel : Nat) (l h : Int) (st : τ) (calls : List Int) (k : Int) (st' : τ × List Int)
    (calls' : List Int), searchLoop (fun k (s : τ × List Int) => ((f k s.1).1, (f k s.1).2, s.2 ++ [k])) fuel l h (st, calls) calls =
      some (k, st', calls') → st'.2 = calls' := by
  intro fuel
  induction fuel with
  | zero => intro l h st calls k st' calls' e; simp [searchLoop] at e
  | succ fuel ih =>
    intro l h st calls k st' calls' e
    unfold searchLoop at e
    by_cases hlt : l < h
    · rw [if_pos hlt] at e
      dsimp only at e
      split_ifs at e
      · exact ih _ _ _ _ _ _ _ e
      · exact ih _ _ _ _ _ _ _ e
    · rw [if_neg hlt] at e
      simp only [Option.some.injEq, Prod.mk.injEq] at e
      rw [← e.2.1, ← e.2.2]

end Sorty
