import Verif.Proofs.Observe

/-! # NaNignore and a slice of NaNs: `short*` makes no progress -/

namespace Sorty

open Prog

variable {V κ Sp α β : Type} {F : Fam V κ} {s : Slice} {m : Mem V}

theorem Loads.trans {p q r : Prog V Sp α} (h : Loads m p q) (h' : Loads m q r) : Loads m p r := by
  induction h with
  | refl => exact h'
  | read _ ih => exact .read (ih h')

/-- a program whose `less` is never called is done by loads -/
theorem swp_loads {cmp : Nat → Nat → V → V → Bool → Prop} {R : Set Nat} (hc : ∀ i j x y b, ¬ cmp i j x y b)
    {p : Prog V Sp α} {f : α → Prog V Sp β} : ∀ {Q : α → Mem V → Prop},
    swp cmp ∅ R p m Q → ∃ a, Q a m ∧ Loads m (p.bind f) (f a) := by
  induction p with
  | ret a => intro Q h; exact ⟨a, h, .refl _⟩
  | read i k ih => intro Q h; obtain ⟨a, h1, h2⟩ := ih _ h.2; exact ⟨a, h1, .read h2⟩
  | write i v k ih => intro Q h; exact h.1.elim
  | less i j x y k ih => intro Q h; obtain ⟨b, hb⟩ := h.1; exact absurd hb (hc _ _ _ _ _)
  | _ => intro Q h; exact h.elim

/-- keys for which every comparison is false -/
def Unordered (F : Fam V κ) (x : κ) : Prop :=
  ∀ y, F.lt x y = false ∧ F.lt y x = false ∧ F.le x y = false ∧ F.le y x = false

variable {cmp : Nat → Nat → V → V → Bool → Prop} {W R : Set Nat}

theorem shortPivot3_unordered (hW : s.rng ⊆ W ∪ R) (hlen : 6 ≤ s.len) (hu : ∀ a ∈ s.rng, Unordered F (F.key (m a))) :
    swp cmp W R (shortPivot3 F s : Prog V Sp κ) m fun pv m' => m' = m ∧ Unordered F pv := by
  obtain ⟨b1, b2, b3⟩ := minMaxSample_bounds (by omega : 2 ≤ 3) hlen
  unfold shortPivot3
  generalize hf0 : (minMaxSample s.len 3).1 = f0 at *
  generalize hst : (minMaxSample s.len 3).2.1 = st at *
  generalize hla : (minMaxSample s.len 3).2.2 = la at *
  have hmm : minMaxSample s.len 3 = (f0, st, la) := by rw [← hf0, ← hst, ← hla]
  rw [hmm]
  dsimp only
  refine swp_bind (Slice.swp_rd (by omega) (by omega) hW ?_)
  refine swp_bind (Slice.swp_rd (by omega) (by omega) hW ?_)
  refine swp_bind (Slice.swp_rd (by omega) (by omega) hW ?_)
  have mA := hu _ (Slice.mem_rng (s := s) (i := (f0 : Int)) (by omega) (by omega))
  have mB := hu _ (Slice.mem_rng (s := s) (i := ((f0 + st : Nat) : Int)) (by omega) (by omega))
  have mC := hu _ (Slice.mem_rng (s := s) (i := (la : Int)) (by omega) (by omega))
  unfold Slice.E
  rw [(mB _).1]
  simp only [Bool.false_eq_true, if_false]
  rw [(mC _).1]
  simp only [Bool.false_eq_true, if_false]
  exact ⟨rfl, mB⟩

theorem partOne_unordered (hW : s.rng ⊆ W ∪ R) (hlen : 2 ≤ s.len) {pv : κ} (hp : Unordered F pv) :
    swp cmp W R (partOne F s pv : Prog V Sp Int) m fun k m' => m' = m ∧ k = s.len := by
  unfold partOne
  refine swp_loop _ _ (fun (st : P1) m' => m' = m ∧ match st with
      | .start l h => l = 0 ∧ h = s.len - 1
      | .scan l h => 0 ≤ l ∧ l < s.len - 1 ∧ h = s.len - 1
      | _ => False)
    (fun st => match st with
      | .start _ _ => s.len + 1
      | .scan l _ => (s.len - l).toNat
      | _ => 0) ?_ _ _ _ ⟨rfl, rfl, rfl⟩ (by dsimp only; omega)
  rintro st m' ⟨rfl, h⟩
  cases st with
  | start l h' =>
    obtain ⟨rfl, rfl⟩ := h
    unfold partOneStep
    dsimp only
    rw [if_neg (by omega)]
    refine swp_bind (Slice.swp_rd (by omega) (by omega) hW ?_)
    rw [(hp _).2.2.1]
    simp only [Bool.false_eq_true, if_false]
    exact ⟨⟨rfl, le_rfl, by omega, rfl⟩, by dsimp only; omega⟩
  | scan l h' =>
    obtain ⟨h0, h1, rfl⟩ := h
    unfold partOneStep
    dsimp only
    refine swp_bind (Slice.swp_rd (by omega) (by omega) hW ?_)
    rw [(hp _).2.2.1]
    simp only [Bool.false_eq_true, if_false]
    by_cases hc : (s.len : Int) - 1 ≤ l + 1
    · rw [if_pos hc]; exact ⟨rfl, by omega⟩
    · rw [if_neg hc]; exact ⟨⟨rfl, by omega, by omega, rfl⟩, by dsimp only; omega⟩
  | _ => exact h.elim

/-- one round of `short*`: nothing is stored, and the next round is the same -/
theorem short_spins (hF : F.mean = none) (hu : ∀ a ∈ s.rng, Unordered F (F.key (m a))) (hlen : 6 ≤ s.len) (hmax : F.maxIns < s.len)
    (f d : Nat) : Loads m (short F (f + 1) d s : Prog V Sp Unit) (short F f d s) := by
  conv => lhs; unfold short
  obtain ⟨pv, ⟨-, h1⟩, l1⟩ := swp_loads (cmp := fun _ _ _ _ _ => False) (R := s.rng) (fun _ _ _ _ _ h => h) (by
    show swp _ ∅ s.rng (shortPivot F s : Prog V Sp κ) m fun pv m' => m' = m ∧ Unordered F pv
    unfold shortPivot
    rw [hF]
    exact shortPivot3_unordered (by simp) hlen hu)
  refine l1.trans ?_
  obtain ⟨k, ⟨-, h2⟩, l2⟩ := swp_loads (cmp := fun _ _ _ _ _ => False) (R := s.rng) (fun _ _ _ _ _ h => h)
    (partOne_unordered (Sp := Sp) (m := m) (W := ∅) (s := s) (R := s.rng) (F := F) (by simp) (by omega) h1)
  refine l2.trans ?_
  subst h2
  have hsp : (splitAt s s.len : Prog V Sp (Slice × Slice)) = .ret (⟨s.off + s.len, 0⟩, s) := by
    unfold splitAt
    rw [if_neg (by omega)]
    simp [Slice.sub, Prog.bind]
  rw [hsp]
  simp only [bind_def, Prog.bind]
  rw [if_neg (by simp)]
  have hins : (insertion F.key F.lt ⟨s.off + s.len, 0⟩ : Prog V Sp Unit) = .ret () := rfl
  rw [show (3 : Nat) = 2 + 1 from rfl, loop]
  simp only [pure_def, hins, Prog.bind]
  rw [if_pos hmax]
  exact .refl _

/-- a goroutine that can only load and at last exhausts its budget does not return -/
theorem Loads.stays {P : Par V Sp} {p : Prog V Sp Unit} (h : Loads m p .diverge) {c : Cfg V Sp}
    (hr : Reach P p m c) : c.sh.mem = m ∧ ∃ q, c.ths = [q] ∧ Loads m q .diverge := by
  unfold Reach at hr
  generalize hc0 : Sorty.start p m = c0 at hr
  induction hr with
  | refl => subst hc0; exact ⟨rfl, p, rfl, h⟩
  | tail _ hs ih =>
    obtain ⟨h1, q, h2, h3⟩ := ih
    cases hs with
    | tau l₁ l₂ sh p' sh' p'' new ht =>
      dsimp only at h1 h2
      cases l₁ with
      | cons a l => simp at h2
      | nil =>
        simp only [List.nil_append, List.cons.injEq] at h2
        obtain ⟨rfl, rfl⟩ := h2
        cases h3 with
        | refl => cases ht
        | read h4 =>
          cases ht
          subst h1
          exact ⟨rfl, _, rfl, h4⟩
    | commSR l₁ l₂ l₃ sh v k k' =>
      have := congrArg List.length h2
      simp at this; omega
    | commRS l₁ l₂ l₃ sh v k k' =>
      have := congrArg List.length h2
      simp at this; omega

end Sorty
