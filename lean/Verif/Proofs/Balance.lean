import Verif.Logic.Most
import Verif.Proofs.Short
import Mathlib.Algebra.Order.Interval.Finset.SuccPred
import Mathlib.Order.Interval.Finset.Nat
import Mathlib.Data.Nat.SuccPred

/-! # How partitioning divides elements equal to the pivot -/

namespace Sorty

open Prog

variable {V κ Sp : Type} {ρ : Type} [LinearOrder ρ]

/-- number of positions of `[a,b)` with `P` -/
def cnt (P : Nat → Prop) [DecidablePred P] (a b : Nat) : Nat := ((Finset.Ico a b).filter P).card

variable {P Q : Nat → Prop} [DecidablePred P] [DecidablePred Q]

theorem cnt_right {a b : Nat} (h : a ≤ b) : cnt P a (b + 1) = cnt P a b + if P b then 1 else 0 := by
  unfold cnt
  rw [← Finset.insert_Ico_right_eq_Ico_add_one h, Finset.filter_insert]
  split_ifs with hb
  · rw [Finset.card_insert_of_notMem (by simp)]
  · rfl

theorem cnt_left {a b : Nat} (h : a < b) : cnt P a b = cnt P (a + 1) b + if P a then 1 else 0 := by
  unfold cnt
  rw [← Finset.insert_Ico_add_one_left_eq_Ico h, Finset.filter_insert]
  split_ifs with hb
  · rw [Finset.card_insert_of_notMem (by simp)]
  · rfl

theorem cnt_congr {a b : Nat} (h : ∀ x, a ≤ x → x < b → (P x ↔ Q x)) : cnt P a b = cnt Q a b := by
  unfold cnt
  refine congrArg _ (Finset.filter_congr fun x hx => ?_)
  rw [Finset.mem_Ico] at hx
  exact h x hx.1 hx.2

theorem cnt_nil {a : Nat} : cnt P a a = 0 := by simp [cnt]

theorem cnt_add {a b c : Nat} (h : a ≤ b) (h' : b ≤ c) : cnt P a b + cnt P b c = cnt P a c := by
  induction c, h' using Nat.le_induction with
  | base => rw [cnt_nil]; rfl
  | succ c hc ih => rw [cnt_right hc, cnt_right (h.trans hc)]; omega

theorem cnt_le {a b : Nat} : cnt P a b ≤ b - a := by
  unfold cnt
  exact (Finset.card_filter_le _ _).trans (by simp)

theorem cnt_pos {a b x : Nat} (h0 : a ≤ x) (h1 : x < b) (h : P x) : 0 < cnt P a b := by
  unfold cnt
  exact Finset.card_pos.2 ⟨x, by simp [h0, h1, h]⟩

theorem cnt_zero {a b : Nat} (h : ∀ x, a ≤ x → x < b → ¬ P x) : cnt P a b = 0 := by
  unfold cnt
  rw [Finset.card_eq_zero, Finset.filter_eq_empty_iff]
  intro x hx
  rw [Finset.mem_Ico] at hx
  exact h x hx.1 hx.2

theorem aw_swapM {s : Slice} {i j : Int} {m : Mem V} {n : Nat} {K : Unit → Mem V → Nat → Prop}
    (h : K () (s.swapM m i j) (n + 4)) : aw (s.swap i j : Prog V Sp Unit) m n K := by
  unfold Slice.swap
  exact aw_bind (aw_rd fun _ => aw_bind (aw_rd fun _ => aw_bind (aw_wr (aw_wr h))))

variable {F : Fam V κ} {ok : κ → Prop} {rk : κ → ρ}

section
variable (F rk) (p : ρ) (slc : Slice)

/-- how many elements equal to the pivot are before `l` -/
def lowC (m : Mem V) (l : Int) : Nat := cnt (fun a => rk (F.key (m a)) = p) slc.off (slc.off + l.toNat)

/-- how many are not before `k` -/
def highC (m : Mem V) (k : Int) : Nat := cnt (fun a => rk (F.key (m a)) = p) (slc.off + k.toNat) (slc.off + slc.len)

end

variable {p : ρ} {slc : Slice} {m : Mem V}

theorem lowC_succ {l : Int} (h : 0 ≤ l) : lowC F rk p slc m (l + 1) = lowC F rk p slc m l + if rk (F.key (slc.E m l)) = p then 1 else 0 := by
  unfold lowC Slice.E
  rw [show slc.off + (l + 1).toNat = slc.off + l.toNat + 1 by omega]
  exact cnt_right (by omega)

theorem highC_step {h : Int} (h0 : 0 ≤ h) (h1 : h < slc.len) :
    highC F rk p slc m h = highC F rk p slc m (h + 1) + if rk (F.key (slc.E m h)) = p then 1 else 0 := by
  unfold highC Slice.E
  rw [show slc.off + (h + 1).toNat = slc.off + h.toNat + 1 by omega]
  exact cnt_left (by omega)

theorem lowC_swap {l h : Int} (h0 : 0 ≤ l) (h1 : l < h) : lowC F rk p slc (slc.swapM m l h) l = lowC F rk p slc m l := by
  refine cnt_congr fun x hx hx' => ?_
  unfold Slice.swapM
  rw [Function.update_of_ne (by omega), Function.update_of_ne (by omega)]

theorem highC_swap {l h : Int} (h0 : 0 ≤ l) (h1 : l < h) : highC F rk p slc (slc.swapM m l h) (h + 1) = highC F rk p slc m (h + 1) := by
  refine cnt_congr fun x hx hx' => ?_
  unfold Slice.swapM
  rw [Function.update_of_ne (by omega), Function.update_of_ne (by omega)]

/-- acceptable elements of one side -/
def Side (F : Fam V κ) (ok : κ → Prop) (slc : Slice) (q : κ → Prop) (m : Mem V) : Prop :=
  ∀ i : Int, 0 ≤ i → i < slc.len → ok (F.key (slc.E m i)) ∧ q (F.key (slc.E m i))

theorem Side.swap {q : κ → Prop} {l h : Int} (hs : Side F ok slc q m) (h0 : 0 ≤ l) (h1 : l < h) (h2 : h < slc.len) :
    Side F ok slc q (slc.swapM m l h) := by
  intro i i0 i1
  rw [Slice.E_swapM h0 (by omega) i0]
  split_ifs
  · exact hs l h0 (by omega)
  · exact hs h (by omega) h2
  · exact hs i i0 i1

/-- if nothing is greater than the pivot, at most half of its equals go to the left -/
theorem balance_le (hF : FamOK F ok rk) {pv : κ} (hpv : ok pv) {n : Nat} (hs : Side F ok slc (fun x => rk x ≤ rk pv) m) :
    aw (partOne F slc pv : Prog V Sp Int) m n fun k m' _ => lowC F rk (rk pv) slc m' k ≤ highC F rk (rk pv) slc m' k := by
  unfold partOne
  refine aw_loop (fun st m' _ => Side F ok slc (fun x => rk x ≤ rk pv) m' ∧ match st with
    | .second _ _ => False
    | .swap l h => (0 ≤ l ∧ l < h ∧ h < slc.len) ∧ lowC F rk (rk pv) slc m' l ≤ highC F rk (rk pv) slc m' (h + 1) ∧ rk (F.key (slc.E m' l)) = rk pv
    | .next l h => (0 ≤ l ∧ l < h ∧ h < slc.len) ∧ lowC F rk (rk pv) slc m' l ≤ highC F rk (rk pv) slc m' (h + 1) ∧ rk (F.key (slc.E m' h)) = rk pv
    | .start l h => (0 ≤ l ∧ l ≤ h + 1 ∧ h < slc.len) ∧ lowC F rk (rk pv) slc m' l ≤ highC F rk (rk pv) slc m' (h + 1)
    | .scan l h => (0 ≤ l ∧ l < h ∧ h < slc.len) ∧ lowC F rk (rk pv) slc m' l ≤ highC F rk (rk pv) slc m' (h + 1) ∧ rk (F.key (slc.E m' h)) < rk pv
    | .last l h => (0 ≤ l ∧ h ≤ l ∧ l ≤ h + 1 ∧ h < slc.len) ∧ lowC F rk (rk pv) slc m' l ≤ highC F rk (rk pv) slc m' (h + 1)) ?_ _ _ _ _ ?_
  · rintro (⟨l, h⟩ | ⟨l, h⟩ | ⟨l, h⟩ | ⟨l, h⟩ | ⟨l, h⟩ | ⟨l, h⟩) m' n ⟨hs, hI⟩ <;> dsimp only at hI
    · obtain ⟨⟨a, b, c⟩, g1, g2⟩ := hI
      simp only [partOneStep]
      refine aw_bind (aw_swapM ⟨hs.swap a b c, ⟨a, b, c⟩, ?_, ?_⟩)
      · rw [lowC_swap a b, highC_swap a b]; exact g1
      · rw [Slice.E_swapM a (by omega) (by omega), if_pos rfl]; exact g2
    · obtain ⟨⟨a, b, c⟩, g1, g2⟩ := hI
      simp only [partOneStep]
      refine ⟨hs, ⟨by omega, by omega, by omega⟩, ?_⟩
      rw [lowC_succ a, show h - 1 + 1 = h by omega, highC_step (by omega) c, if_pos g2]
      split_ifs <;> omega
    · obtain ⟨⟨a, b, c⟩, g1⟩ := hI
      simp only [partOneStep]
      split_ifs with hc
      · exact ⟨hs, ⟨a, hc, b, c⟩, g1⟩
      · refine aw_bind (aw_rd fun _ => ?_)
        have hk := hF.le _ _ hpv (hs h (by omega) c).1
        have hh := (hs h (by omega) c).2
        split_ifs with hle
        · rw [hk] at hle
          refine aw_bind (aw_rd fun _ => ?_)
          rw [if_neg (by rw [hF.lt _ _ hpv (hs l a (by omega)).1, not_lt]; exact (hs l a (by omega)).2)]
          exact ⟨hs, ⟨a, by omega, c⟩, g1, le_antisymm hh hle⟩
        · rw [hk, not_le] at hle
          exact ⟨hs, ⟨a, by omega, c⟩, g1, hle⟩
    · obtain ⟨⟨a, b, c⟩, g1, g2⟩ := hI
      simp only [partOneStep]
      refine aw_bind (aw_rd fun _ => ?_)
      have hk := hF.le _ _ hpv (hs l a (by omega)).1
      have hl := (hs l a (by omega)).2
      split_ifs with hle hc
      · rw [hk] at hle
        exact ⟨hs, ⟨a, b, c⟩, g1, le_antisymm hl hle⟩
      · rw [hk, not_le] at hle
        show lowC F rk (rk pv) slc m' (l + 1 + 1) ≤ highC F rk (rk pv) slc m' (l + 1 + 1)
        obtain rfl : h = l + 1 := by omega
        rw [lowC_succ (by omega), lowC_succ a, if_neg hle.ne, if_neg g2.ne]
        exact g1
      · rw [hk, not_le] at hle
        refine ⟨hs, ⟨by omega, by omega, c⟩, ?_, g2⟩
        rw [lowC_succ a, if_neg hle.ne]
        exact g1
    · obtain ⟨⟨a, b, b', c⟩, g1⟩ := hI
      simp only [partOneStep]
      split_ifs with hc
      · subst hc
        refine aw_bind (aw_rd fun _ => ?_)
        have hk := hF.lt _ _ (hs l a (by omega)).1 hpv
        split_ifs with hlt
        · rw [hk] at hlt
          show lowC F rk (rk pv) slc m' (l + 1) ≤ highC F rk (rk pv) slc m' (l + 1)
          rw [lowC_succ a, if_neg hlt.ne]
          exact g1
        · show lowC F rk (rk pv) slc m' l ≤ highC F rk (rk pv) slc m' l
          rw [highC_step a c]
          omega
      · obtain rfl : l = h + 1 := by omega
        exact g1
  · refine ⟨hs, ⟨le_rfl, by omega, by omega⟩, ?_⟩
    unfold lowC
    rw [show slc.off + (0 : Int).toNat = slc.off by simp, cnt_nil]
    exact Nat.zero_le _

/-- if nothing is less than the pivot, at most half of its equals go to the right -/
theorem balance_ge (hF : FamOK F ok rk) {pv : κ} (hpv : ok pv) {n : Nat} (hs : Side F ok slc (fun x => rk pv ≤ rk x) m) :
    aw (partOne F slc pv : Prog V Sp Int) m n fun k m' _ => highC F rk (rk pv) slc m' k ≤ lowC F rk (rk pv) slc m' k + 1 := by
  unfold partOne
  refine aw_loop (fun st m' _ => Side F ok slc (fun x => rk pv ≤ rk x) m' ∧ match st with
    | .second l h => (0 ≤ l ∧ l < h ∧ h < slc.len) ∧ highC F rk (rk pv) slc m' h ≤ lowC F rk (rk pv) slc m' l + 1 ∧ rk pv < rk (F.key (slc.E m' l))
    | .swap l h => (0 ≤ l ∧ l < h ∧ h < slc.len) ∧ highC F rk (rk pv) slc m' (h + 1) ≤ lowC F rk (rk pv) slc m' l + 1 ∧
        rk pv < rk (F.key (slc.E m' l)) ∧ rk (F.key (slc.E m' h)) = rk pv
    | .next l h => (0 ≤ l ∧ l < h ∧ h < slc.len) ∧ highC F rk (rk pv) slc m' h ≤ lowC F rk (rk pv) slc m' l + 1 ∧ rk (F.key (slc.E m' l)) = rk pv
    | .start l h => (0 ≤ l ∧ l ≤ h + 1 ∧ h < slc.len) ∧ highC F rk (rk pv) slc m' (h + 1) ≤ lowC F rk (rk pv) slc m' l
    | .scan _ _ => False
    | .last l h => (0 ≤ l ∧ h ≤ l ∧ l ≤ h + 1 ∧ h < slc.len) ∧ highC F rk (rk pv) slc m' (h + 1) ≤ lowC F rk (rk pv) slc m' l) ?_ _ _ _ _ ?_
  · rintro (⟨l, h⟩ | ⟨l, h⟩ | ⟨l, h⟩ | ⟨l, h⟩ | ⟨l, h⟩ | ⟨l, h⟩) m' n ⟨hs, hI⟩ <;> dsimp only at hI
    · obtain ⟨⟨a, b, c⟩, g1, g2⟩ := hI
      simp only [partOneStep]
      split_ifs with hc
      · obtain rfl : h = l + 1 := by omega
        show highC F rk (rk pv) slc m' l ≤ lowC F rk (rk pv) slc m' l + 1
        rw [highC_step a (by omega), if_neg g2.ne']
        exact g1
      · refine aw_bind (aw_rd fun _ => ?_)
        have hk := hF.le _ _ (hs (h - 1) (by omega) (by omega)).1 hpv
        have hh := (hs (h - 1) (by omega) (by omega)).2
        split_ifs with hle
        · rw [hk] at hle
          exact ⟨hs, ⟨a, by omega, by omega⟩, by rwa [show h - 1 + 1 = h by omega], g2, le_antisymm hle hh⟩
        · rw [hk, not_le] at hle
          refine ⟨hs, ⟨a, by omega, by omega⟩, ?_, g2⟩
          rw [highC_step (by omega) (by omega), show h - 1 + 1 = h by omega, if_neg hle.ne']
          exact g1
    · obtain ⟨⟨a, b, c⟩, g1, g2, g3⟩ := hI
      simp only [partOneStep]
      refine aw_bind (aw_swapM ⟨hs.swap a b c, ⟨a, b, c⟩, ?_, ?_⟩)
      · rw [lowC_swap a b, highC_step (by omega) c, highC_swap a b, Slice.E_swapM a (by omega) (by omega), if_pos rfl, if_neg g2.ne']; exact g1
      · rw [Slice.E_swapM a (by omega) (by omega), if_neg (by omega), if_pos rfl]; exact g3
    · obtain ⟨⟨a, b, c⟩, g1, g2⟩ := hI
      simp only [partOneStep]
      refine ⟨hs, ⟨by omega, by omega, by omega⟩, ?_⟩
      rw [lowC_succ a, show h - 1 + 1 = h by omega, if_pos g2]
      exact g1
    · obtain ⟨⟨a, b, c⟩, g1⟩ := hI
      simp only [partOneStep]
      split_ifs with hc
      · exact ⟨hs, ⟨a, hc, b, c⟩, g1⟩
      · refine aw_bind (aw_rd fun _ => ?_)
        rw [if_pos ((hF.le _ _ hpv (hs h (by omega) c).1).2 (hs h (by omega) c).2)]
        refine aw_bind (aw_rd fun _ => ?_)
        have hk := hF.lt _ _ hpv (hs l a (by omega)).1
        have hg : highC F rk (rk pv) slc m' h ≤ lowC F rk (rk pv) slc m' l + 1 := by
          rw [highC_step (by omega) c]
          split_ifs <;> omega
        split_ifs with hlt
        · rw [hk] at hlt
          exact ⟨hs, ⟨a, by omega, c⟩, hg, hlt⟩
        · rw [hk, not_lt] at hlt
          exact ⟨hs, ⟨a, by omega, c⟩, hg, le_antisymm hlt (hs l a (by omega)).2⟩
    · obtain ⟨⟨a, b, b', c⟩, g1⟩ := hI
      simp only [partOneStep]
      split_ifs with hc
      · subst hc
        refine aw_bind (aw_rd fun _ => ?_)
        rw [if_neg (by rw [hF.lt _ _ (hs l a (by omega)).1 hpv, not_lt]; exact (hs l a (by omega)).2)]
        show highC F rk (rk pv) slc m' l ≤ lowC F rk (rk pv) slc m' l + 1
        rw [highC_step a c]
        split_ifs <;> omega
      · obtain rfl : l = h + 1 := by omega
        exact Nat.le_succ_of_le g1
  · refine ⟨hs, ⟨le_rfl, by omega, by omega⟩, ?_⟩
    unfold highC
    rw [show slc.off + ((slc.len : Int) - 1 + 1).toNat = slc.off + slc.len by omega, cnt_nil]
    exact Nat.zero_le _

end Sorty
