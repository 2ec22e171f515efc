import Verif.Proofs.LswJob
import Verif.Proofs.Observe

/-! # IsSorted -/

namespace Sorty

open Prog

variable {V Sp : Type} {s : Slice} {m : Mem V} {less : Nat → Nat → V → V → Bool}

/-- the downward scan of `IsSorted` -/
theorem isSorted_scan (ans : Nat → Nat → V → V → Bool) : ∀ (N : Nat) (i : Int), 0 < N → i < N → i < s.len →
    ∃ j, (loop N (fun i : Int =>
      if i > 0 then do
        let b ← lsw s i (i - 1) i i
        if b then pure (.brk i) else pure (.again (i - 1))
      else pure (.brk 0)) i : Prog V Sp Int).observe ans m = some j ∧
      ScanPost (fun k => ans k.toNat (k - 1).toNat (s.E m k) (s.E m (k - 1)) = true) 0 i j := by
  intro N
  induction N with
  | zero =>
    intro i hN h1 h2
    omega
  | succ N ih =>
    intro i hN h1 h2
    unfold loop
    dsimp only
    by_cases hi : i > 0
    · rw [if_pos hi]
      have ho := lsw_observe (Sp := Sp) (m := m) (less := ans) (s := s) (i := i) (k := i - 1) ⟨by omega, h2⟩ ⟨by omega, by omega⟩
      have ho2 := observe_bind (f := fun b => (if b then pure (.brk i) else pure (.again (i - 1)) : Prog V Sp (Ctl Int Int))) ho
      by_cases hb : ans i.toNat (i - 1).toNat (s.E m i) (s.E m (i - 1)) = true
      · rw [hb] at ho2
        refine ⟨i, ?_, .inr ⟨hi, le_rfl, hb, fun j _ _ => by omega⟩⟩
        exact observe_bind ho2
      · rw [Bool.not_eq_true] at hb
        rw [hb] at ho2
        obtain ⟨j, h3, h4⟩ := ih (i - 1) (by omega) (by omega) (by omega)
        refine ⟨j, ?_, ?_⟩
        · exact (observe_bind ho2).trans h3
        · rcases h4 with ⟨h5, h6⟩ | ⟨h5, h6, h7, h8⟩
          · refine .inl ⟨h5, fun k a1 a2 => ?_⟩
            by_cases hk : k = i
            · subst hk; exact Bool.eq_false_iff.1 hb
            · exact h6 k a1 (by omega)
          · refine .inr ⟨h5, by omega, h7, fun k a1 a2 => ?_⟩
            by_cases hk : k = i
            · subst hk; exact Bool.eq_false_iff.1 hb
            · exact h8 k a1 (by omega)
    · rw [if_neg hi]
      exact ⟨0, rfl, .inl ⟨rfl, fun j _ _ => by omega⟩⟩

theorem isSorted_observe (ans : Nat → Nat → V → V → Bool) {ws : Nat} (hws : ws = 4 ∨ ws = 8) (hl : s.len < 2 ^ (8 * ws - 1)) :
    ∃ j, (IsSorted ws s.len s : Prog V Sp Int).observe ans m = some j ∧
      ScanPost (fun k => ans k.toNat (k - 1).toNat (s.E m k) (s.E m (k - 1)) = true) 0 (s.len - 1) j := by
  have hP : (2 : Int) ^ (8 * ws - 1) = ((2 ^ (8 * ws - 1) : Nat) : Int) := by push_cast; rfl
  have hP' : 0 < 2 ^ (8 * ws - 1) := by positivity
  have hw : wrapInt ws ((s.len : Int) - 1) = (s.len : Int) - 1 := wrapInt_id hws (by omega) (by omega)
  unfold IsSorted
  rw [hw]
  exact isSorted_scan ans _ _ (by omega) (by omega) (by omega)

end Sorty
