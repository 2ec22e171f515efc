import Verif.Proofs.Ins

/-! # Partitioning -/

namespace Sorty

open Prog

variable {V κ Sp : Type} {ρ : Type} [LinearOrder ρ]

/-- What a family must satisfy: on the acceptable keys its comparisons are those of a linear order of ranks, its mean
lies between, and its thresholds pass the start-up check. -/
structure FamOK (F : Fam V κ) (ok : κ → Prop) (rk : κ → ρ) : Prop where
  lt : ∀ x y, ok x → ok y → (F.lt x y = true ↔ rk x < rk y)
  le : ∀ x y, ok x → ok y → (F.le x y = true ↔ rk x ≤ rk y)
  mean : ∀ f, F.mean = some f → ∀ x y, ok x → ok y →
    ok (f x y) ∧ min (rk x) (rk y) ≤ rk (f x y) ∧ rk (f x y) ≤ max (rk x) (rk y)
  ins : 2 * nsShort < F.maxIns
  recOK : 2 * F.maxIns < F.maxRec

variable {F : Fam V κ} {ok : κ → Prop} {rk : κ → ρ}

theorem FamOK.ltOK (hF : FamOK F ok rk) : LtOK F.key F.lt (fun v => ok (F.key v)) (fun v => rk (F.key v)) :=
  fun _ _ hx hy => hF.lt _ _ hx hy

variable {cmp : Nat → Nat → V → V → Bool → Prop} {W R : Set Nat}

/-- what holds of `(l,h)` at every label of `partOne*` -/
structure P1C (F : Fam V κ) (rk : κ → ρ) (p : ρ) (slc : Slice) (m0 : Mem V) (l h : Int) (m : Mem V) : Prop where
  l0 : 0 ≤ l
  h1 : h ≤ slc.len - 1
  rp : RP slc.rng m0 m
  low : ∀ i : Int, 0 ≤ i → i < l → rk (F.key (slc.E m i)) ≤ p
  high : ∀ i : Int, h < i → i < slc.len → p ≤ rk (F.key (slc.E m i))

/-- invariant of `partOne*` -/
def P1I (F : Fam V κ) (rk : κ → ρ) (p : ρ) (slc : Slice) (m0 : Mem V) : P1 → Mem V → Prop
  | .start l h, m => P1C F rk p slc m0 l h m ∧ l ≤ h + 1 ∧ ((l = 0 ∧ h = slc.len - 1 ∧ m = m0) ∨ (1 ≤ l ∧ h ≤ slc.len - 2))
  | .second l h, m => P1C F rk p slc m0 l h m ∧ l < h ∧ p ≤ rk (F.key (slc.E m h)) ∧ p < rk (F.key (slc.E m l)) ∧
      (l = 0 → m = m0 ∧ ∀ i : Int, h ≤ i → i < slc.len - 1 → p < rk (F.key (slc.E m i)))
  | .swap l h, m => P1C F rk p slc m0 l h m ∧ l < h ∧ rk (F.key (slc.E m h)) ≤ p ∧ p ≤ rk (F.key (slc.E m l))
  | .next l h, m => P1C F rk p slc m0 l h m ∧ l < h ∧ rk (F.key (slc.E m l)) ≤ p ∧ p ≤ rk (F.key (slc.E m h))
  | .scan l h, m => P1C F rk p slc m0 l h m ∧ l < h ∧ rk (F.key (slc.E m h)) < p ∧
      (h = slc.len - 1 → ∀ i : Int, 0 ≤ i → i < l → rk (F.key (slc.E m i)) < p)
  | .last l h, m => P1C F rk p slc m0 l h m ∧ h ≤ l ∧ l ≤ h + 1 ∧
      ((l = 0 ∧ h = slc.len - 1) ∨ (1 ≤ l ∧ h ≤ slc.len - 2))

def P1mu : P1 → Nat
  | .start l h => 4 * (h - l + 1).toNat + 3
  | .second l h => 4 * (h - l + 1).toNat + 2
  | .scan l h => 4 * (h - l + 1).toNat + 2
  | .swap l h => 4 * (h - l + 1).toNat + 1
  | .next l h => 4 * (h - l + 1).toNat
  | .last _ _ => 0

/-- postcondition of `partOne*` -/
structure P1Post (F : Fam V κ) (rk : κ → ρ) (p : ρ) (slc : Slice) (m0 : Mem V) (k : Int) (m : Mem V) : Prop where
  k0 : 0 ≤ k
  k1 : k ≤ slc.len
  rp : RP slc.rng m0 m
  low : ∀ i : Int, 0 ≤ i → i < k → rk (F.key (slc.E m i)) ≤ p
  high : ∀ i : Int, k ≤ i → i < slc.len → p ≤ rk (F.key (slc.E m i))
  zero : 2 ≤ slc.len → k = 0 → m = m0 ∧ ∀ i : Int, 0 ≤ i → i < slc.len - 1 → p < rk (F.key (slc.E m i))
  full : 2 ≤ slc.len → k = slc.len → ∀ i : Int, 0 ≤ i → i < slc.len → rk (F.key (slc.E m i)) < p

theorem partOne_spec (hF : FamOK F ok rk) {slc : Slice} (hW : slc.rng ⊆ W) {pv : κ} (hpv : ok pv) {m0 : Mem V}
    (hok : ∀ a ∈ slc.rng, ok (F.key (m0 a))) :
    swp cmp W R (partOne F slc pv : Prog V Sp Int) m0 (P1Post F rk (rk pv) slc m0) := by
  have hWR : slc.rng ⊆ W ∪ R := hW.trans Set.subset_union_left
  have hokE : ∀ {m}, RP slc.rng m0 m → ∀ i : Int, 0 ≤ i → i < slc.len → ok (F.key (slc.E m i)) := fun hr i h0 h1 =>
    hr.all (p := fun v => ok (F.key v)) hok _ (Slice.mem_rng h0 h1)
  unfold partOne
  refine swp_loop _ _ (P1I F rk (rk pv) slc m0) P1mu ?_ _ _ _ ?_ ?_
  · rintro (⟨l, h⟩ | ⟨l, h⟩ | ⟨l, h⟩ | ⟨l, h⟩ | ⟨l, h⟩ | ⟨l, h⟩) m hI
    · -- second
      obtain ⟨c, g1, g2, g3, g4⟩ := hI
      have := c.l0; have := c.h1
      simp only [partOneStep]
      split_ifs with hc
      · refine ⟨by omega, by omega, c.rp, c.low, ?_, ?_, ?_⟩
        · intro i hi hi'
          rcases (by omega : i = l ∨ i = h ∨ h < i) with e | e | e
          · rw [e]; exact g3.le
          · rw [e]; exact g2
          · exact c.high i e hi'
        · intro _ hl
          refine ⟨(g4 hl).1, fun i hi hi' => ?_⟩
          rcases (by omega : i = l ∨ h ≤ i) with e | e
          · rw [e]; exact g3
          · exact (g4 hl).2 i e hi'
        · intro _ hl; omega
      · refine swp_bind (Slice.swp_rd (by omega) (by omega) hWR ?_)
        have hk := hF.le _ _ (hokE c.rp (h - 1) (by omega) (by omega)) hpv
        have hhigh : ∀ i : Int, h - 1 < i → i < slc.len → rk pv ≤ rk (F.key (slc.E m i)) := by
          intro i hi hi'
          rcases (by omega : i = h ∨ h < i) with e | e
          · rw [e]; exact g2
          · exact c.high i e hi'
        split_ifs with hle
        · rw [hk] at hle
          refine ⟨⟨⟨c.l0, by omega, c.rp, c.low, hhigh⟩, by omega, hle, g3.le⟩, by simp only [P1mu]; omega⟩
        · rw [hk, not_le] at hle
          refine ⟨⟨⟨c.l0, by omega, c.rp, c.low, hhigh⟩, by omega, hle.le, g3, ?_⟩, by simp only [P1mu]; omega⟩
          intro hl
          refine ⟨(g4 hl).1, fun i hi hi' => ?_⟩
          rcases (by omega : i = h - 1 ∨ h ≤ i) with e | e
          · rw [e]; exact hle
          · exact (g4 hl).2 i e hi'
    · -- swap
      obtain ⟨c, g1, g2, g3⟩ := hI
      have := c.l0; have := c.h1
      simp only [partOneStep]
      refine swp_bind (Slice.swp_swap (by omega) (by omega) (by omega) (by omega) hW ?_)
      refine ⟨⟨⟨c.l0, c.h1, c.rp.trans (RP.swapM (by omega) (by omega) (by omega) (by omega)), ?_, ?_⟩, g1, ?_, ?_⟩,
        by simp only [P1mu]; omega⟩
      · intro i hi hi'
        rw [Slice.E_swapM (by omega) (by omega) hi, if_neg (by omega), if_neg (by omega)]
        exact c.low i hi hi'
      · intro i hi hi'
        rw [Slice.E_swapM (by omega) (by omega) (by omega), if_neg (by omega), if_neg (by omega)]
        exact c.high i hi hi'
      · rw [Slice.E_swapM (by omega) (by omega) (by omega), if_neg (by omega), if_pos rfl]; exact g2
      · rw [Slice.E_swapM (by omega) (by omega) (by omega), if_pos rfl]; exact g3
    · -- next
      obtain ⟨c, g1, g2, g3⟩ := hI
      have := c.l0; have := c.h1
      simp only [partOneStep]
      refine ⟨⟨⟨by omega, by omega, c.rp, ?_, ?_⟩, by omega, .inr ⟨by omega, by omega⟩⟩, by simp only [P1mu]; omega⟩
      · intro i hi hi'
        rcases (by omega : i = l ∨ i < l) with e | e
        · rw [e]; exact g2
        · exact c.low i hi e
      · intro i hi hi'
        rcases (by omega : i = h ∨ h < i) with e | e
        · rw [e]; exact g3
        · exact c.high i e hi'
    · -- start
      obtain ⟨c, g1, g2⟩ := hI
      have := c.l0; have := c.h1
      simp only [partOneStep]
      split_ifs with hc
      · exact ⟨⟨c, hc, g1, g2.imp (fun g => ⟨g.1, g.2.1⟩) id⟩, by simp only [P1mu]; omega⟩
      · refine swp_bind (Slice.swp_rd (by omega) (by omega) hWR ?_)
        have hk := hF.le _ _ hpv (hokE c.rp h (by omega) (by omega))
        split_ifs with hle
        · rw [hk] at hle
          refine swp_bind (Slice.swp_rd (by omega) (by omega) hWR ?_)
          have hk2 := hF.lt _ _ hpv (hokE c.rp l (by omega) (by omega))
          split_ifs with hlt
          · rw [hk2] at hlt
            exact ⟨⟨c, by omega, hle, hlt, fun hl => ⟨(g2.resolve_right (by omega)).2.2, fun i _ _ => by omega⟩⟩, by simp only [P1mu]; omega⟩
          · rw [hk2, not_lt] at hlt
            exact ⟨⟨c, by omega, hlt, hle⟩, by simp only [P1mu]; omega⟩
        · rw [hk, not_le] at hle
          exact ⟨⟨c, by omega, hle, fun _ i _ _ => by omega⟩, by simp only [P1mu]; omega⟩
    · -- scan
      obtain ⟨c, g1, g2, g3⟩ := hI
      have := c.l0; have := c.h1
      simp only [partOneStep]
      refine swp_bind (Slice.swp_rd (by omega) (by omega) hWR ?_)
      have hk := hF.le _ _ hpv (hokE c.rp l (by omega) (by omega))
      split_ifs with hle hhl
      · rw [hk] at hle
        exact ⟨⟨c, by omega, g2.le, hle⟩, by simp only [P1mu]; omega⟩
      · rw [hk, not_le] at hle
        refine ⟨by omega, by omega, c.rp, ?_, ?_, ?_, ?_⟩
        · intro i hi hi'
          rcases (by omega : i = l ∨ i = h ∨ i < l) with e | e | e
          · rw [e]; exact hle.le
          · rw [e]; exact g2.le
          · exact c.low i hi e
        · intro i hi hi'; exact c.high i (by omega) hi'
        · intro _ hl; omega
        · intro _ hl i hi hi'
          rcases (by omega : i = l ∨ i = h ∨ i < l) with e | e | e
          · rw [e]; exact hle
          · rw [e]; exact g2
          · exact g3 (by omega) i hi e
      · rw [hk, not_le] at hle
        refine ⟨⟨⟨by omega, c.h1, c.rp, ?_, c.high⟩, by omega, g2, ?_⟩, by simp only [P1mu]; omega⟩
        · intro i hi hi'
          rcases (by omega : i = l ∨ i < l) with e | e
          · rw [e]; exact hle.le
          · exact c.low i hi e
        · intro hh i hi hi'
          rcases (by omega : i = l ∨ i < l) with e | e
          · rw [e]; exact hle
          · exact g3 hh i hi e
    · -- last
      obtain ⟨c, g1, g1', g2⟩ := hI
      have := c.l0; have := c.h1
      simp only [partOneStep]
      split_ifs with hc
      · subst hc
        refine swp_bind (Slice.swp_rd (by omega) (by omega) hWR ?_)
        have hk := hF.lt _ _ (hokE c.rp l (by omega) (by omega)) hpv
        split_ifs with hlt
        · rw [hk] at hlt
          refine ⟨by omega, by omega, c.rp, ?_, ?_, ?_, ?_⟩
          · intro i hi hi'
            rcases (by omega : i = l ∨ i < l) with e | e
            · rw [e]; exact hlt.le
            · exact c.low i hi e
          · intro i hi hi'; exact c.high i (by omega) hi'
          · intro _ hl; omega
          · intro _ hl; omega
        · rw [hk, not_lt] at hlt
          refine ⟨by omega, by omega, c.rp, c.low, ?_, ?_, ?_⟩
          · intro i hi hi'
            rcases (by omega : i = l ∨ l < i) with e | e
            · rw [e]; exact hlt
            · exact c.high i e hi'
          · intro _ hl; omega
          · intro _ hl; omega
      · refine ⟨by omega, by omega, c.rp, c.low, ?_, ?_, ?_⟩
        · intro i hi hi'; exact c.high i (by omega) hi'
        · intro _ hl; omega
        · intro _ hl; omega
  · exact ⟨⟨le_refl _, le_refl _, RP.refl _ _, fun i _ _ => by omega, fun i _ _ => by omega⟩, by omega, .inl ⟨rfl, rfl, rfl⟩⟩
  · simp only [P1mu]; omega

/-- addresses outside the middle part `[l,h)` of a slice -/
def outRng (slc : Slice) (l h : Int) : Set Nat := {a | a ∈ slc.rng ∧ (a < slc.off + l.toNat ∨ slc.off + h.toNat ≤ a)}

/-- what holds of `(l,h)` at every label of `partTwo*`, started with `(l0,h0)` -/
structure P2C (F : Fam V κ) (rk : κ → ρ) (p : ρ) (slc : Slice) (l0 h0 : Int) (m0 : Mem V) (l h : Int) (m : Mem V) :
    Prop where
  hl : -1 ≤ l ∧ l < l0
  hh : h0 ≤ h ∧ h ≤ slc.len
  rp : RP (outRng slc l0 h0) m0 m
  low : ∀ i : Int, l < i → i < l0 → rk (F.key (slc.E m i)) ≤ p
  high : ∀ i : Int, h0 ≤ i → i < h → p ≤ rk (F.key (slc.E m i))

/-- invariant of `partTwo*` -/
def P2I (F : Fam V κ) (rk : κ → ρ) (p : ρ) (slc : Slice) (l0 h0 : Int) (m0 : Mem V) : P2 → Mem V → Prop
  | .start l h, m => P2C F rk p slc l0 h0 m0 l h m ∧ ((l = l0 - 1 ∧ h = h0) ∨ (l < l0 - 1 ∧ h0 < h))
  | .second l h, m => P2C F rk p slc l0 h0 m0 l h m ∧ 0 ≤ l ∧ h < slc.len ∧
      p ≤ rk (F.key (slc.E m h)) ∧ p < rk (F.key (slc.E m l)) ∧
      (l = l0 - 1 → ∀ i : Int, h0 < i → i ≤ h → p < rk (F.key (slc.E m i)))
  | .swap l h, m => P2C F rk p slc l0 h0 m0 l h m ∧ 0 ≤ l ∧ h < slc.len ∧
      rk (F.key (slc.E m h)) ≤ p ∧ p ≤ rk (F.key (slc.E m l))
  | .next l h, m => P2C F rk p slc l0 h0 m0 l h m ∧ 0 ≤ l ∧ h < slc.len ∧
      rk (F.key (slc.E m l)) ≤ p ∧ p ≤ rk (F.key (slc.E m h))
  | .scan l h, m => P2C F rk p slc l0 h0 m0 l h m ∧ 0 ≤ l ∧ h < slc.len ∧ rk (F.key (slc.E m h)) < p ∧
      (h = h0 → ∀ i : Int, l < i → i < l0 → rk (F.key (slc.E m i)) < p)

def P2mu (n : Int) : P2 → Nat
  | .start l h => 4 * (n - h + l + 1).toNat + 3
  | .second l h => 4 * (n - h + l + 1).toNat + 2
  | .scan l h => 4 * (n - h + l + 1).toNat + 2
  | .swap l h => 4 * (n - h + l + 1).toNat + 1
  | .next l h => 4 * (n - h + l + 1).toNat

/-- postcondition of `partTwo*`: a gap may be left in one of the two outer parts -/
structure P2Post (F : Fam V κ) (rk : κ → ρ) (p : ρ) (slc : Slice) (l0 h0 : Int) (m0 : Mem V) (r : Int) (m : Mem V) :
    Prop where
  rp : RP (outRng slc l0 h0) m0 m
  cases : (-1 ≤ r ∧ r < l0 ∧ (∀ i : Int, r < i → i < l0 → rk (F.key (slc.E m i)) ≤ p) ∧
      (∀ i : Int, h0 ≤ i → i < slc.len → p ≤ rk (F.key (slc.E m i))) ∧
      (r = l0 - 1 → ∀ i : Int, h0 < i → i < slc.len → p < rk (F.key (slc.E m i)))) ∨
    (h0 ≤ r ∧ r ≤ slc.len ∧ (∀ i : Int, 0 ≤ i → i < l0 → rk (F.key (slc.E m i)) ≤ p) ∧
      (∀ i : Int, h0 ≤ i → i < r → p ≤ rk (F.key (slc.E m i))) ∧
      (r = h0 → ∀ i : Int, 0 ≤ i → i < l0 → rk (F.key (slc.E m i)) < p))

theorem mem_out {slc : Slice} {l h i : Int} (h0 : 0 ≤ i) (h1 : i < slc.len) (h2 : i < l ∨ h ≤ i) :
    slc.off + i.toNat ∈ outRng slc l h := by
  refine ⟨Slice.mem_rng h0 h1, ?_⟩
  omega

theorem partTwo_spec (hF : FamOK F ok rk) {slc : Slice} {l0 h0 : Int} (hl0 : 0 ≤ l0) (hlh : l0 ≤ h0) (hh0 : h0 < slc.len)
    (hW : outRng slc l0 h0 ⊆ W) {pv : κ} (hpv : ok pv) {m0 : Mem V}
    (hok : ∀ a ∈ outRng slc l0 h0, ok (F.key (m0 a))) :
    swp cmp W R (partTwo F slc l0 h0 pv : Prog V Sp Int) m0 (P2Post F rk (rk pv) slc l0 h0 m0) := by
  have hokE : ∀ {m}, RP (outRng slc l0 h0) m0 m → ∀ i : Int, 0 ≤ i → i < slc.len → (i < l0 ∨ h0 ≤ i) →
      ok (F.key (slc.E m i)) := fun hr i h0 h1 h2 =>
    hr.all (p := fun v => ok (F.key v)) hok _ (mem_out h0 h1 h2)
  unfold partTwo
  dsimp only
  rw [if_neg (by omega)]
  refine swp_loop _ _ (P2I F rk (rk pv) slc l0 h0 m0) (P2mu slc.len) ?_ _ _ _ ?_ ?_
  · rintro (⟨l, h⟩ | ⟨l, h⟩ | ⟨l, h⟩ | ⟨l, h⟩ | ⟨l, h⟩) m hI
    · -- second
      obtain ⟨c, g0, g1, g2, g3, g4⟩ := hI
      have := c.hl; have := c.hh
      simp only [partTwoStep]
      have hhigh : ∀ i : Int, h0 ≤ i → i < h + 1 → rk pv ≤ rk (F.key (slc.E m i)) := by
        intro i hi hi'
        rcases (by omega : i = h ∨ i < h) with e | e
        · rw [e]; exact g2
        · exact c.high i hi e
      split_ifs with hc
      · refine ⟨c.rp, .inl ⟨by omega, by omega, c.low, ?_, ?_⟩⟩
        · intro i hi hi'; exact hhigh i hi (by omega)
        · intro hl i hi hi'; exact g4 hl i hi (by omega)
      · refine swp_bind (Slice.swp_rd' (by omega) (by omega) (.inl (hW (mem_out (by omega) (by omega) (.inr (by omega))))) ?_)
        have hk := hF.le _ _ (hokE c.rp (h + 1) (by omega) (by omega) (.inr (by omega))) hpv
        split_ifs with hle
        · rw [hk] at hle
          exact ⟨⟨⟨c.hl, by omega, c.rp, c.low, hhigh⟩, by omega, by omega, hle, g3.le⟩, by simp only [P2mu]; omega⟩
        · rw [hk, not_le] at hle
          refine ⟨⟨⟨c.hl, by omega, c.rp, c.low, hhigh⟩, by omega, by omega, hle.le, g3, ?_⟩, by simp only [P2mu]; omega⟩
          intro hl i hi hi'
          rcases (by omega : i = h + 1 ∨ i ≤ h) with e | e
          · rw [e]; exact hle
          · exact g4 hl i hi e
    · -- swap
      obtain ⟨c, g0, g1, g2, g3⟩ := hI
      have := c.hl; have := c.hh
      simp only [partTwoStep]
      have hml : slc.off + l.toNat ∈ outRng slc l0 h0 := mem_out (by omega) (by omega) (.inl (by omega))
      have hmh : slc.off + h.toNat ∈ outRng slc l0 h0 := mem_out (by omega) (by omega) (.inr (by omega))
      refine swp_bind (Slice.swp_swap' (by omega) (by omega) (by omega) (by omega) (hW hml) (hW hmh) ?_)
      refine ⟨⟨⟨c.hl, c.hh, c.rp.trans (RP.swap hml hmh), ?_, ?_⟩, g0, g1, ?_, ?_⟩,
        by simp only [P2mu]; omega⟩
      · intro i hi hi'
        rw [Slice.E_swapM (by omega) (by omega) (by omega), if_neg (by omega), if_neg (by omega)]
        exact c.low i hi hi'
      · intro i hi hi'
        rw [Slice.E_swapM (by omega) (by omega) (by omega), if_neg (by omega), if_neg (by omega)]
        exact c.high i hi hi'
      · rw [Slice.E_swapM (by omega) (by omega) (by omega), if_neg (by omega), if_pos rfl]; exact g2
      · rw [Slice.E_swapM (by omega) (by omega) (by omega), if_pos rfl]; exact g3
    · -- next
      obtain ⟨c, g0, g1, g2, g3⟩ := hI
      have := c.hl; have := c.hh
      simp only [partTwoStep]
      refine ⟨⟨⟨by omega, by omega, c.rp, ?_, ?_⟩, .inr ⟨by omega, by omega⟩⟩, by simp only [P2mu]; omega⟩
      · intro i hi hi'
        rcases (by omega : i = l ∨ l < i) with e | e
        · rw [e]; exact g2
        · exact c.low i e hi'
      · intro i hi hi'
        rcases (by omega : i = h ∨ i < h) with e | e
        · rw [e]; exact g3
        · exact c.high i hi e
    · -- start
      obtain ⟨c, g2⟩ := hI
      have := c.hl; have := c.hh
      simp only [partTwoStep]
      split_ifs with hc hc2
      · refine ⟨c.rp, .inr ⟨by omega, by omega, ?_, c.high, ?_⟩⟩
        · intro i hi hi'; exact c.low i (by omega) hi'
        · intro hl i hi hi'; omega
      · refine ⟨c.rp, .inl ⟨by omega, by omega, c.low, ?_, ?_⟩⟩
        · intro i hi hi'; exact c.high i hi (by omega)
        · intro hl i hi hi'; omega
      · refine swp_bind (Slice.swp_rd' (by omega) (by omega) (.inl (hW (mem_out (by omega) (by omega) (.inr (by omega))))) ?_)
        have hk := hF.le _ _ hpv (hokE c.rp h (by omega) (by omega) (.inr (by omega)))
        split_ifs with hle
        · rw [hk] at hle
          refine swp_bind (Slice.swp_rd' (by omega) (by omega) (.inl (hW (mem_out (by omega) (by omega) (.inl (by omega))))) ?_)
          have hk2 := hF.lt _ _ hpv (hokE c.rp l (by omega) (by omega) (.inl (by omega)))
          split_ifs with hlt
          · rw [hk2] at hlt
            exact ⟨⟨c, by omega, by omega, hle, hlt, fun _ i _ _ => by omega⟩, by simp only [P2mu]; omega⟩
          · rw [hk2, not_lt] at hlt
            exact ⟨⟨c, by omega, by omega, hlt, hle⟩, by simp only [P2mu]; omega⟩
        · rw [hk, not_le] at hle
          exact ⟨⟨c, by omega, by omega, hle, fun _ i _ _ => by omega⟩, by simp only [P2mu]; omega⟩
    · -- scan
      obtain ⟨c, g0, g1, g2, g3⟩ := hI
      have := c.hl; have := c.hh
      simp only [partTwoStep]
      refine swp_bind (Slice.swp_rd' (by omega) (by omega) (.inl (hW (mem_out (by omega) (by omega) (.inl (by omega))))) ?_)
      have hk := hF.le _ _ hpv (hokE c.rp l (by omega) (by omega) (.inl (by omega)))
      have hlow : rk (F.key (slc.E m l)) ≤ rk pv → ∀ i : Int, l - 1 < i → i < l0 → rk (F.key (slc.E m i)) ≤ rk pv := by
        intro hh i hi hi'
        rcases (by omega : i = l ∨ l < i) with e | e
        · rw [e]; exact hh
        · exact c.low i e hi'
      have hlow' : rk (F.key (slc.E m l)) < rk pv → h = h0 → ∀ i : Int, l - 1 < i → i < l0 → rk (F.key (slc.E m i)) < rk pv := by
        intro hh he i hi hi'
        rcases (by omega : i = l ∨ l < i) with e | e
        · rw [e]; exact hh
        · exact g3 he i e hi'
      split_ifs with hle hhl
      · rw [hk] at hle
        exact ⟨⟨c, by omega, by omega, g2.le, hle⟩, by simp only [P2mu]; omega⟩
      · rw [hk, not_le] at hle
        refine ⟨c.rp, .inr ⟨by omega, by omega, ?_, c.high, ?_⟩⟩
        · intro i hi hi'; exact hlow hle.le i (by omega) hi'
        · intro hr i hi hi'; exact hlow' hle hr i (by omega) hi'
      · rw [hk, not_le] at hle
        exact ⟨⟨⟨by omega, c.hh, c.rp, hlow hle.le, c.high⟩, by omega, by omega, g2, hlow' hle⟩, by simp only [P2mu]; omega⟩
  · exact ⟨⟨by omega, by omega, RP.refl _ _, fun i _ _ => by omega, fun i _ _ => by omega⟩, .inl ⟨rfl, rfl⟩⟩
  · simp only [P2mu]; omega

/-- three cells with a property, two of them may be equal to given ones -/
def Three (p : Nat → Prop) : Prop := ∃ a b c, a ≠ b ∧ a ≠ c ∧ b ≠ c ∧ p a ∧ p b ∧ p c

theorem gapLow_spec (hF : FamOK F ok rk) {slc : Slice} (hW : slc.rng ⊆ W) {pv : κ} (hpv : ok pv) {m0 : Mem V}
    (hok : ∀ a ∈ slc.rng, ok (F.key (m0 a))) {r0 k0 x y : Int} (hr : -1 ≤ r0) (hrk : r0 < k0) (hk : k0 ≤ slc.len)
    (hlow : ∀ i : Int, r0 < i → i < k0 → rk (F.key (slc.E m0 i)) ≤ rk pv)
    (hhigh : ∀ i : Int, k0 ≤ i → i < slc.len → rk pv ≤ rk (F.key (slc.E m0 i)))
    (hz : k0 = r0 + 1 → ∀ i : Int, k0 ≤ i → i < slc.len → i ≠ x → i ≠ y → rk pv < rk (F.key (slc.E m0 i))) :
    swp cmp W R (gapLow F slc pv r0 k0 : Prog V Sp Int) m0 fun k m =>
      0 ≤ k ∧ k ≤ k0 ∧ RP slc.rng m0 m ∧ (∀ i : Int, 0 ≤ i → i < k → rk (F.key (slc.E m i)) ≤ rk pv) ∧
      (∀ i : Int, k ≤ i → i < slc.len → rk pv ≤ rk (F.key (slc.E m i))) ∧
      (k = 0 → ∀ i : Int, 0 ≤ i → i < slc.len → i ≠ x → i ≠ y → rk pv < rk (F.key (slc.E m i))) := by
  have hWR : slc.rng ⊆ W ∪ R := hW.trans Set.subset_union_left
  have hokE : ∀ {m}, RP slc.rng m0 m → ∀ i : Int, 0 ≤ i → i < slc.len → ok (F.key (slc.E m i)) := fun hr i h0 h1 =>
    hr.all (p := fun v => ok (F.key v)) hok _ (Slice.mem_rng h0 h1)
  unfold gapLow
  refine swp_loop _ _ (fun (st : Int × Int) m => -1 ≤ st.1 ∧ st.1 < st.2 ∧ st.2 ≤ k0 ∧ RP slc.rng m0 m ∧
    (∀ i : Int, st.1 < i → i < st.2 → rk (F.key (slc.E m i)) ≤ rk pv) ∧
    (∀ i : Int, st.2 ≤ i → i < slc.len → rk pv ≤ rk (F.key (slc.E m i))) ∧
    (st.2 = st.1 + 1 → ∀ i : Int, st.2 ≤ i → i < slc.len → i ≠ x → i ≠ y → rk pv < rk (F.key (slc.E m i))))
    (fun st => (st.1 + 1).toNat) ?_ _ _ _ ⟨hr, hrk, le_refl _, RP.refl _ _, hlow, hhigh, hz⟩ (by dsimp only; omega)
  rintro ⟨r, k⟩ m ⟨h1, h2, h3, h4, h5, h6, h7⟩
  dsimp only at *
  split_ifs with hc
  · refine swp_bind (Slice.swp_rd (by omega) (by omega) hWR ?_)
    have hk := hF.lt _ _ hpv (hokE h4 r (by omega) (by omega))
    split_ifs with hlt
    · rw [hk] at hlt
      refine swp_bind (Slice.swp_swap (by omega) (by omega) (by omega) (by omega) hW ?_)
      have hE : ∀ i : Int, 0 ≤ i → slc.E (slc.swapM m r (k - 1)) i =
          if i = k - 1 then slc.E m r else if i = r then slc.E m (k - 1) else slc.E m i :=
        fun i hi => Slice.E_swapM (by omega) (by omega) hi
      refine ⟨⟨by omega, by omega, by omega, h4.trans (RP.swapM (by omega) (by omega) (by omega) (by omega)), ?_, ?_, ?_⟩,
        by omega⟩
      · intro i hi hi'
        rw [hE i (by omega), if_neg (by omega)]
        split_ifs with e
        · exact h5 _ (by omega) (by omega)
        · exact h5 _ (by omega) (by omega)
      · intro i hi hi'
        rw [hE i (by omega)]
        split_ifs with e e2
        · exact hlt.le
        · exact h6 _ (by omega) (by omega)
        · exact h6 _ (by omega) (by omega)
      · intro he i hi hi' hx hy
        rw [hE i (by omega)]
        split_ifs with e e2
        · exact hlt
        · omega
        · exact h7 (by omega) i (by omega) hi' hx hy
    · rw [hk, not_lt] at hlt
      refine ⟨⟨by omega, by omega, by omega, h4, ?_, h6, by omega⟩, by omega⟩
      intro i hi hi'
      rcases (by omega : i = r ∨ r < i) with e | e
      · rw [e]; exact hlt
      · exact h5 i e hi'
  · refine ⟨by omega, by omega, h4, ?_, h6, ?_⟩
    · intro i hi hi'; exact h5 i (by omega) hi'
    · intro he i hi hi' hx hy; exact h7 (by omega) i (by omega) hi' hx hy

theorem gapHigh_spec (hF : FamOK F ok rk) {slc : Slice} (hW : slc.rng ⊆ W) {pv : κ} (hpv : ok pv) {m0 : Mem V}
    (hok : ∀ a ∈ slc.rng, ok (F.key (m0 a))) {r0 k0 : Int} (hk0 : 0 ≤ k0) (hrk : k0 ≤ r0) (hr : r0 ≤ slc.len)
    (hlow : ∀ i : Int, 0 ≤ i → i < k0 → rk (F.key (slc.E m0 i)) ≤ rk pv)
    (hhigh : ∀ i : Int, k0 ≤ i → i < r0 → rk pv ≤ rk (F.key (slc.E m0 i)))
    (hz : k0 = r0 → ∀ i : Int, 0 ≤ i → i < k0 → rk (F.key (slc.E m0 i)) < rk pv) :
    swp cmp W R (gapHigh F slc pv r0 k0 : Prog V Sp Int) m0 fun k m =>
      k0 ≤ k ∧ k ≤ slc.len ∧ RP slc.rng m0 m ∧ (∀ i : Int, 0 ≤ i → i < k → rk (F.key (slc.E m i)) ≤ rk pv) ∧
      (∀ i : Int, k ≤ i → i < slc.len → rk pv ≤ rk (F.key (slc.E m i))) ∧
      (k = slc.len → ∀ i : Int, 0 ≤ i → i < slc.len → rk (F.key (slc.E m i)) < rk pv) := by
  have hWR : slc.rng ⊆ W ∪ R := hW.trans Set.subset_union_left
  have hokE : ∀ {m}, RP slc.rng m0 m → ∀ i : Int, 0 ≤ i → i < slc.len → ok (F.key (slc.E m i)) := fun hr i h0 h1 =>
    hr.all (p := fun v => ok (F.key v)) hok _ (Slice.mem_rng h0 h1)
  unfold gapHigh
  refine swp_loop _ _ (fun (st : Int × Int) m => st.1 ≤ slc.len ∧ st.2 ≤ st.1 ∧ k0 ≤ st.2 ∧ RP slc.rng m0 m ∧
    (∀ i : Int, 0 ≤ i → i < st.2 → rk (F.key (slc.E m i)) ≤ rk pv) ∧
    (∀ i : Int, st.2 ≤ i → i < st.1 → rk pv ≤ rk (F.key (slc.E m i))) ∧
    (st.2 = st.1 → ∀ i : Int, 0 ≤ i → i < st.2 → rk (F.key (slc.E m i)) < rk pv))
    (fun (st : Int × Int) => ((slc.len : Int) - st.1).toNat) ?_ _ _ _ ⟨hr, hrk, le_refl _, RP.refl _ _, hlow, hhigh, hz⟩ (by dsimp only; omega)
  rintro ⟨r, k⟩ m ⟨h1, h2, h3, h4, h5, h6, h7⟩
  dsimp only at *
  split_ifs with hc
  · refine swp_bind (Slice.swp_rd (by omega) (by omega) hWR ?_)
    have hk := hF.lt _ _ (hokE h4 r (by omega) (by omega)) hpv
    split_ifs with hlt
    · rw [hk] at hlt
      refine swp_bind (Slice.swp_swap (by omega) (by omega) (by omega) (by omega) hW ?_)
      have hE : ∀ i : Int, 0 ≤ i → slc.E (slc.swapM m r k) i =
          if i = k then slc.E m r else if i = r then slc.E m k else slc.E m i :=
        fun i hi => Slice.E_swapM (by omega) (by omega) hi
      refine ⟨⟨by omega, by omega, by omega, h4.trans (RP.swapM (by omega) (by omega) (by omega) (by omega)), ?_, ?_, ?_⟩,
        by omega⟩
      · intro i hi hi'
        rw [hE i (by omega)]
        split_ifs with e e2
        · exact hlt.le
        · omega
        · exact h5 _ (by omega) (by omega)
      · intro i hi hi'
        rw [hE i (by omega), if_neg (by omega)]
        split_ifs with e
        · exact h6 _ (by omega) (by omega)
        · exact h6 _ (by omega) (by omega)
      · intro he i hi hi'
        rw [hE i (by omega)]
        split_ifs with e e2
        · exact hlt
        · omega
        · exact h7 (by omega) i (by omega) (by omega)
    · rw [hk, not_lt] at hlt
      refine ⟨⟨by omega, by omega, by omega, h4, h5, ?_, by omega⟩, by omega⟩
      intro i hi hi'
      rcases (by omega : i = r ∨ i < r) with e | e
      · rw [e]; exact hlt
      · exact h6 i hi e
  · refine ⟨by omega, by omega, h4, h5, ?_, ?_⟩
    · intro i hi hi'; exact h6 i (by omega) (by omega)
    · intro he i hi hi'; exact h7 (by omega) i (by omega) (by omega)

end Sorty
