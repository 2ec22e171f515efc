import Verif.Proofs.LswPivot

/-! # Partitioning via lesswap -/

namespace Sorty

open Prog

variable {V Sp : Type} {ρ : Type} [LinearOrder ρ]
variable {cmp : Nat → Nat → V → V → Bool → Prop} {W R : Set Nat} {r : V → ρ}
variable [Lesswap V] [Lesswap.OK V]

/-- addresses of the indices in `[l,h]` except `pv` -/
def Slice.but (s : Slice) (l pv h : Int) : Set Nat := {a | ∃ i, l ≤ i ∧ i ≤ h ∧ i ≠ pv ∧ a = s.ad i}

omit [Lesswap V] [Lesswap.OK V] in
theorem pv_not_but {s : Slice} {l pv h : Int} (h0 : 0 ≤ l) (hp : 0 ≤ pv) : s.ad pv ∉ s.but l pv h := by
  rintro ⟨i, i0, i1, i2, i3⟩
  exact i2 (ad_inj (by omega) hp i3.symm)

omit [Lesswap V] [Lesswap.OK V] in
theorem but_sub_seg {s : Slice} {l pv h : Int} (h0 : 0 ≤ l) : s.but l pv h ⊆ (s.seg l h).rng := by
  rintro a ⟨i, i0, i1, _, rfl⟩
  exact ad_mem_seg h0 i0 i1

omit [Lesswap V] [Lesswap.OK V] in
theorem RP.E_out {A : Set Nat} {s : Slice} {m0 m : Mem V} {i : Int} (h : RP A m0 m) (hi : s.ad i ∉ A) : s.E m i = s.E m0 i :=
  h.out hi

/-- what holds of `(l,h)` at every control point of `partOne` -/
structure LP1C (r : V → ρ) (s : Slice) (l0 pv h0 : Int) (m0 : Mem V) (l h : Int) (m : Mem V) : Prop where
  la : l0 ≤ l
  hb : h ≤ h0
  rp : RP (s.but l0 pv h0) m0 m
  low : ∀ i, l0 ≤ i → i < l → r (s.E m i) ≤ r (s.E m0 pv)
  high : ∀ i, h < i → i ≤ h0 → r (s.E m0 pv) ≤ r (s.E m i)

/-- postcondition of `partOne` -/
structure LP1Post (r : V → ρ) (s : Slice) (l0 pv h0 : Int) (m0 : Mem V) (k : Int) (m : Mem V) : Prop where
  k0 : l0 ≤ k
  k1 : k ≤ h0 + 1
  rp : RP (s.but l0 pv h0) m0 m
  low : ∀ i, l0 ≤ i → i < k → r (s.E m i) ≤ r (s.E m0 pv)
  high : ∀ i, k ≤ i → i ≤ h0 → r (s.E m0 pv) ≤ r (s.E m i)

def LP1I (r : V → ρ) (s : Slice) (l0 pv h0 : Int) (m0 : Mem V) : LP1 → Mem V → Prop
  | .head l h, m => LP1C r s l0 pv h0 m0 l h m ∧ l ≤ h + 1
  | .scan l h, m => LP1C r s l0 pv h0 m0 l h m ∧ l < h ∧ h ≠ pv ∧ r (s.E m h) ≤ r (s.E m0 pv)
  | .second l h, m => LP1C r s l0 pv h0 m0 l h m ∧ l < h ∧ l ≠ pv ∧ r (s.E m0 pv) ≤ r (s.E m l) ∧
      r (s.E m0 pv) ≤ r (s.E m h)

def LP1mu : LP1 → Nat
  | .head l h => 2 * (h + 1 - l).toNat + 1
  | .scan l h => 2 * (h + 1 - l).toNat
  | .second l h => 2 * (h + 1 - l).toNat

omit [Lesswap V] [Lesswap.OK V] in
theorem LP1C.swap {s : Slice} {l0 pv h0 l h : Int} {m0 m : Mem V} (c : LP1C r s l0 pv h0 m0 l h m) (hl : 0 ≤ l0)
    (hh : h0 < s.len) (hlh : l < h) (nl : l ≠ pv) (nh : h ≠ pv) (gl : r (s.E m0 pv) ≤ r (s.E m l))
    (gh : r (s.E m h) ≤ r (s.E m0 pv)) : LP1C r s l0 pv h0 m0 (l + 1) (h - 1) (s.swapM m h l) := by
  have := c.la; have := c.hb
  have okl : s.ok l := ⟨by omega, by omega⟩
  have okh : s.ok h := ⟨by omega, by omega⟩
  refine ⟨by omega, by omega, c.rp.trans (RP.swapA fun _ => ⟨⟨h, by omega, by omega, nh, rfl⟩, ⟨l, by omega, by omega, nl, rfl⟩⟩), ?_, ?_⟩
  · intro i i0 i1
    rw [E_swap okh okl (by omega)]
    by_cases e : i = l
    · rw [if_pos e]; exact gh
    · rw [if_neg e, if_neg (by omega)]; exact c.low i i0 (by omega)
  · intro i i0 i1
    rw [E_swap okh okl (by omega), if_neg (by omega)]
    by_cases e : i = h
    · rw [if_pos e]; exact gl
    · rw [if_neg e]; exact c.high i (by omega) i1

theorem lswPartOne_spec (hc : CmpOK cmp r) {s : Slice} {l0 pv h0 : Int} {m0 : Mem V} (hl : 0 ≤ l0) (hlh : l0 ≤ h0 + 1)
    (hh : h0 < s.len) (hp : s.ok pv) (hW : s.but l0 pv h0 ⊆ W) (hR : s.ad pv ∈ W ∪ R) :
    swp cmp W R (lswPartOne s l0 pv h0 : Prog V Sp Int) m0 (LP1Post r s l0 pv h0 m0) := by
  have ok : ∀ i, l0 ≤ i → i ≤ h0 → s.ok i := fun i a b => ⟨by omega, by omega⟩
  have me : ∀ i, l0 ≤ i → i ≤ h0 → i ≠ pv → s.ad i ∈ W := fun i a b c => hW ⟨i, a, b, c, rfl⟩
  have meR : ∀ i, l0 ≤ i → i ≤ h0 → s.ad i ∈ W ∪ R := by
    intro i a b
    by_cases e : i = pv
    · rw [e]; exact hR
    · exact .inl (me i a b e)
  have hpv : ∀ {m}, RP (s.but l0 pv h0) m0 m → s.E m pv = s.E m0 pv := fun h => h.E_out (pv_not_but hl hp.1)
  unfold lswPartOne
  refine swp_loop _ _ (LP1I r s l0 pv h0 m0) LP1mu ?_ _ _ _ ?_ ?_
  · rintro (⟨l, h⟩ | ⟨l, h⟩ | ⟨l, h⟩) m hI
    · -- head
      obtain ⟨c, g1⟩ := hI
      have := c.la; have := c.hb
      have ep := hpv c.rp
      simp only [lswPartOneStep]
      by_cases hc1 : l < h
      · rw [if_pos hc1]
        refine swp_bind (lsw_test hc (ok h (by omega) (by omega)) hp (ok h (by omega) (by omega)) (meR h (by omega) (by omega)) hR ?_ ?_)
        · intro hne hle
          rw [ep] at hle
          refine ⟨me h (by omega) (by omega) hne, ?_⟩
          rw [if_pos rfl]
          exact ⟨⟨c, hc1, hne, hle⟩, by simp only [LP1mu]; omega⟩
        · intro hle
          rw [ep] at hle
          rw [if_neg (by simp)]
          refine swp_bind (lsw_test hc hp (ok l (by omega) (by omega)) (ok l (by omega) (by omega)) hR (meR l (by omega) (by omega)) ?_ ?_)
          · intro hne hle2
            rw [ep] at hle2
            refine ⟨me l (by omega) (by omega) (Ne.symm hne), ?_⟩
            rw [if_pos rfl]
            exact ⟨⟨c, hc1, Ne.symm hne, hle2, hle⟩, by simp only [LP1mu]; omega⟩
          · intro hle2
            rw [ep] at hle2
            rw [if_neg (by simp)]
            refine ⟨⟨⟨by omega, by omega, c.rp, ?_, ?_⟩, by omega⟩, by simp only [LP1mu]; omega⟩
            · intro i i0 i1
              rcases (by omega : i = l ∨ i < l) with e | e
              · rw [e]; exact hle2
              · exact c.low i i0 e
            · intro i i0 i1
              rcases (by omega : i = h ∨ h < i) with e | e
              · rw [e]; exact hle
              · exact c.high i e i1
      · rw [if_neg hc1]
        by_cases hc2 : l = h ∧ h ≠ pv
        · rw [if_pos hc2]
          obtain ⟨rfl, hne⟩ := hc2
          refine swp_bind (lsw_test hc (ok l (by omega) (by omega)) hp (ok l (by omega) (by omega)) (meR l (by omega) (by omega)) hR ?_ ?_)
          · intro _ hle
            rw [ep] at hle
            refine ⟨me l (by omega) (by omega) hne, ?_⟩
            rw [if_pos rfl]
            refine ⟨by omega, by omega, c.rp, ?_, fun i i0 i1 => c.high i (by omega) i1⟩
            intro i i0 i1
            rcases (by omega : i = l ∨ i < l) with e | e
            · rw [e]; exact hle
            · exact c.low i i0 e
          · intro hle
            rw [ep] at hle
            rw [if_neg (by simp)]
            refine ⟨by omega, by omega, c.rp, c.low, ?_⟩
            intro i i0 i1
            rcases (by omega : i = l ∨ l < i) with e | e
            · rw [e]; exact hle
            · exact c.high i e i1
        · rw [if_neg hc2]
          refine ⟨by omega, by omega, c.rp, c.low, ?_⟩
          intro i i0 i1
          rcases (by omega : i = h ∨ h < i) with e | e
          · have : h = pv := by
              by_contra hn
              exact hc2 ⟨by omega, hn⟩
            rw [e, this, ep]
          · exact c.high i e i1
    · -- scan
      obtain ⟨c, g1, g2, g3⟩ := hI
      have := c.la; have := c.hb
      have ep := hpv c.rp
      simp only [lswPartOneStep]
      refine swp_bind (lsw_spec hc hp (ok l (by omega) (by omega)) (ok h (by omega) (by omega)) (ok l (by omega) (by omega)) hR
        (meR l (by omega) (by omega)) ?_ ?_)
      · intro hne hle
        rw [ep] at hle
        refine ⟨⟨me h (by omega) (by omega) g2, me l (by omega) (by omega) (Ne.symm hne)⟩, ?_⟩
        rw [if_pos rfl]
        exact ⟨⟨c.swap hl hh g1 (Ne.symm hne) g2 hle g3, by omega⟩, by simp only [LP1mu]; omega⟩
      · intro hle
        rw [ep] at hle
        rw [if_neg (by simp)]
        have hlow : ∀ i, l0 ≤ i → i < l + 1 → r (s.E m i) ≤ r (s.E m0 pv) := by
          intro i i0 i1
          rcases (by omega : i = l ∨ i < l) with e | e
          · rw [e]; exact hle
          · exact c.low i i0 e
        by_cases hc1 : l + 1 ≥ h
        · rw [if_pos hc1]
          refine ⟨by omega, by omega, c.rp, ?_, fun i i0 i1 => c.high i (by omega) i1⟩
          intro i i0 i1
          rcases (by omega : i = h ∨ i < l + 1) with e | e
          · rw [e]; exact g3
          · exact hlow i i0 e
        · rw [if_neg hc1]
          exact ⟨⟨⟨by omega, by omega, c.rp, hlow, c.high⟩, by omega, g2, g3⟩, by simp only [LP1mu]; omega⟩
    · -- second
      obtain ⟨c, g1, g2, g3, g4⟩ := hI
      have := c.la; have := c.hb
      have ep := hpv c.rp
      simp only [lswPartOneStep]
      have hhigh : ∀ i, h - 1 < i → i ≤ h0 → r (s.E m0 pv) ≤ r (s.E m i) := by
        intro i i0 i1
        rcases (by omega : i = h ∨ h < i) with e | e
        · rw [e]; exact g4
        · exact c.high i e i1
      by_cases hc1 : l ≥ h - 1
      · rw [if_pos hc1]
        refine ⟨by omega, by omega, c.rp, c.low, ?_⟩
        intro i i0 i1
        rcases (by omega : i = l ∨ h - 1 < i) with e | e
        · rw [e]; exact g3
        · exact hhigh i e i1
      · rw [if_neg hc1]
        have c' : LP1C r s l0 pv h0 m0 l (h - 1) m := ⟨c.la, by omega, c.rp, c.low, hhigh⟩
        refine swp_bind (lsw_spec hc (ok (h - 1) (by omega) (by omega)) hp (ok (h - 1) (by omega) (by omega)) (ok l (by omega) (by omega))
          (meR (h - 1) (by omega) (by omega)) hR ?_ ?_)
        · intro hne hle
          rw [ep] at hle
          refine ⟨⟨me (h - 1) (by omega) (by omega) hne, me l (by omega) (by omega) g2⟩, ?_⟩
          rw [if_pos rfl]
          exact ⟨⟨c'.swap hl hh (by omega) g2 hne g3 hle, by omega⟩, by simp only [LP1mu]; omega⟩
        · intro hle
          rw [ep] at hle
          rw [if_neg (by simp)]
          exact ⟨⟨c', by omega, g2, g3, hle⟩, by simp only [LP1mu]; omega⟩
  · exact ⟨⟨le_rfl, le_rfl, RP.refl _ _, fun i _ _ => by omega, fun i _ _ => by omega⟩, hlh⟩
  · simp only [LP1mu]; omega

/-- addresses of the indices in `[lo,l]` and `[h,hi]` -/
def Slice.outer (s : Slice) (lo l h hi : Int) : Set Nat :=
  {a | ∃ i, ((lo ≤ i ∧ i ≤ l) ∨ (h ≤ i ∧ i ≤ hi)) ∧ a = s.ad i}

/-- what holds of `(l,h)` at every control point of `partTwo`; `p` is the pivot's rank -/
structure LP2C (r : V → ρ) (s : Slice) (lo l0 h0 hi : Int) (p : ρ) (m0 : Mem V) (l h : Int) (m : Mem V) : Prop where
  ll : lo ≤ l
  lu : l ≤ l0
  hl : h0 ≤ h
  hu : h ≤ hi
  rp : RP (s.outer lo l0 h0 hi) m0 m
  low : ∀ i, l < i → i ≤ l0 → r (s.E m i) ≤ p
  high : ∀ i, h0 ≤ i → i < h → p ≤ r (s.E m i)

/-- postcondition of `partTwo` -/
structure LP2Post (r : V → ρ) (s : Slice) (lo l0 h0 hi : Int) (p : ρ) (m0 : Mem V) (k : Int) (m : Mem V) : Prop where
  rp : RP (s.outer lo l0 h0 hi) m0 m
  cases : (lo - 1 ≤ k ∧ k ≤ l0 ∧ (∀ i, k < i → i ≤ l0 → r (s.E m i) ≤ p) ∧ ∀ i, h0 ≤ i → i ≤ hi → p ≤ r (s.E m i)) ∨
    (h0 ≤ k ∧ k ≤ hi + 1 ∧ (∀ i, lo ≤ i → i ≤ l0 → r (s.E m i) ≤ p) ∧ ∀ i, h0 ≤ i → i < k → p ≤ r (s.E m i))

def LP2I (r : V → ρ) (s : Slice) (lo l0 h0 hi : Int) (p : ρ) (m0 : Mem V) : LP2 → Mem V → Prop
  | .head l h, m => LP2C r s lo l0 h0 hi p m0 l h m
  | .scan l h, m => LP2C r s lo l0 h0 hi p m0 l h m ∧ r (s.E m h) ≤ p
  | .second l h, m => LP2C r s lo l0 h0 hi p m0 l h m ∧ p ≤ r (s.E m l) ∧ p ≤ r (s.E m h)

def LP2mu (lo hi : Int) : LP2 → Nat
  | .head l h => ((l - lo) + (hi - h)).toNat * 2 + 1
  | .scan l h => ((l - lo) + (hi - h)).toNat * 2
  | .second l h => ((l - lo) + (hi - h)).toNat * 2

theorem lswPartTwo_spec (hc : CmpOK cmp r) {s : Slice} {lo l0 pv h0 hi : Int} {m0 : Mem V} (hlo : 0 ≤ lo) (hl : lo ≤ l0)
    (hlp : l0 < pv) (hph : pv < h0) (hh : h0 ≤ hi) (hhi : hi < s.len) (hW : s.outer lo l0 h0 hi ⊆ W) (hR : s.ad pv ∈ W ∪ R) :
    swp cmp W R (lswPartTwo s lo l0 pv h0 hi : Prog V Sp Int) m0 (LP2Post r s lo l0 h0 hi (r (s.E m0 pv)) m0) := by
  have okp : s.ok pv := ⟨by omega, by omega⟩
  have okl : ∀ i, lo ≤ i → i ≤ l0 → s.ok i := fun i a b => ⟨by omega, by omega⟩
  have okh : ∀ i, h0 ≤ i → i ≤ hi → s.ok i := fun i a b => ⟨by omega, by omega⟩
  have ml : ∀ i, lo ≤ i → i ≤ l0 → s.ad i ∈ s.outer lo l0 h0 hi := fun i a b => ⟨i, .inl ⟨a, b⟩, rfl⟩
  have mh : ∀ i, h0 ≤ i → i ≤ hi → s.ad i ∈ s.outer lo l0 h0 hi := fun i a b => ⟨i, .inr ⟨a, b⟩, rfl⟩
  have hpn : s.ad pv ∉ s.outer lo l0 h0 hi := by
    rintro ⟨i, i0, i1⟩
    have := ad_inj (by omega) (by omega) i1
    omega
  have hpv : ∀ {m}, RP (s.outer lo l0 h0 hi) m0 m → s.E m pv = s.E m0 pv := fun h => h.E_out hpn
  -- after both sides are in place
  have next : ∀ {l h m}, lo ≤ l → l ≤ l0 → h0 ≤ h → h ≤ hi → RP (s.outer lo l0 h0 hi) m0 m →
      (∀ i, l ≤ i → i ≤ l0 → r (s.E m i) ≤ r (s.E m0 pv)) → (∀ i, h0 ≤ i → i ≤ h → r (s.E m0 pv) ≤ r (s.E m i)) →
      match lswPartTwoNext lo hi l h with
      | .again s' => LP2I r s lo l0 h0 hi (r (s.E m0 pv)) m0 s' m ∧ LP2mu lo hi s' < ((l - lo) + (hi - h)).toNat * 2
      | .brk a => LP2Post r s lo l0 h0 hi (r (s.E m0 pv)) m0 a m := by
    intro l h m a1 a2 a3 a4 a5 a6 a7
    unfold lswPartTwoNext
    dsimp only
    by_cases c1 : l - 1 < lo
    · rw [if_pos c1]
      exact ⟨a5, .inr ⟨by omega, by omega, fun i i0 i1 => a6 i (by omega) i1, fun i i0 i1 => a7 i i0 (by omega)⟩⟩
    · rw [if_neg c1]
      by_cases c2 : h + 1 > hi
      · rw [if_pos c2]
        exact ⟨a5, .inl ⟨by omega, by omega, fun i i0 i1 => a6 i (by omega) i1, fun i i0 i1 => a7 i i0 (by omega)⟩⟩
      · rw [if_neg c2]
        refine ⟨⟨by omega, by omega, by omega, by omega, a5, fun i i0 i1 => a6 i (by omega) i1, fun i i0 i1 => a7 i i0 (by omega)⟩, ?_⟩
        simp only [LP2mu]; omega
  have swapped : ∀ {l h m}, LP2C r s lo l0 h0 hi (r (s.E m0 pv)) m0 l h m → r (s.E m0 pv) ≤ r (s.E m l) →
      r (s.E m h) ≤ r (s.E m0 pv) → RP (s.outer lo l0 h0 hi) m0 (s.swapM m h l) ∧
      (∀ i, l ≤ i → i ≤ l0 → r (s.E (s.swapM m h l) i) ≤ r (s.E m0 pv)) ∧
      (∀ i, h0 ≤ i → i ≤ h → r (s.E m0 pv) ≤ r (s.E (s.swapM m h l) i)) := by
    intro l h m c gl gh
    have := c.ll; have := c.lu; have := c.hl; have := c.hu
    refine ⟨c.rp.trans (RP.swapA fun _ => ⟨mh h (by omega) (by omega), ml l (by omega) (by omega)⟩), ?_, ?_⟩
    · intro i i0 i1
      rw [E_swap (okh h (by omega) (by omega)) (okl l (by omega) (by omega)) (by omega)]
      by_cases e : i = l
      · rw [if_pos e]; exact gh
      · rw [if_neg e, if_neg (by omega)]; exact c.low i (by omega) i1
    · intro i i0 i1
      rw [E_swap (okh h (by omega) (by omega)) (okl l (by omega) (by omega)) (by omega), if_neg (by omega)]
      by_cases e : i = h
      · rw [if_pos e]; exact gl
      · rw [if_neg e]; exact c.high i (by omega) (by omega)
  unfold lswPartTwo
  refine swp_loop _ _ (LP2I r s lo l0 h0 hi (r (s.E m0 pv)) m0) (LP2mu lo hi) ?_ _ _ _ ?_ ?_
  · rintro (⟨l, h⟩ | ⟨l, h⟩ | ⟨l, h⟩) m hI
    · -- head
      have c : LP2C r s lo l0 h0 hi (r (s.E m0 pv)) m0 l h m := hI
      have := c.ll; have := c.lu; have := c.hl; have := c.hu
      have ep := hpv c.rp
      simp only [lswPartTwoStep]
      refine swp_bind (lsw_test hc (okh h (by omega) (by omega)) okp (okh h (by omega) (by omega))
        (.inl (hW (mh h (by omega) (by omega)))) hR ?_ ?_)
      · intro _ hle
        rw [ep] at hle
        refine ⟨hW (mh h (by omega) (by omega)), ?_⟩
        rw [if_pos rfl]
        exact ⟨⟨c, hle⟩, by simp only [LP2mu]; omega⟩
      · intro hle
        rw [ep] at hle
        rw [if_neg (by simp)]
        refine swp_bind (lsw_test hc okp (okl l (by omega) (by omega)) (okl l (by omega) (by omega)) hR
          (.inl (hW (ml l (by omega) (by omega)))) ?_ ?_)
        · intro _ hle2
          rw [ep] at hle2
          refine ⟨hW (ml l (by omega) (by omega)), ?_⟩
          rw [if_pos rfl]
          exact ⟨⟨c, hle2, hle⟩, by simp only [LP2mu]; omega⟩
        · intro hle2
          rw [ep] at hle2
          rw [if_neg (by simp)]
          have hn := next c.ll c.lu c.hl c.hu c.rp (fun i i0 i1 => by
            rcases (by omega : i = l ∨ l < i) with e | e
            · rw [e]; exact hle2
            · exact c.low i e i1) (fun i i0 i1 => by
            rcases (by omega : i = h ∨ i < h) with e | e
            · rw [e]; exact hle
            · exact c.high i i0 e)
          generalize lswPartTwoNext lo hi l h = cc at *
          cases cc with
          | again s' => exact ⟨hn.1, by have := hn.2; simp only [LP2mu] at this ⊢; omega⟩
          | brk a => exact hn
    · -- scan
      obtain ⟨c, g1⟩ := hI
      have := c.ll; have := c.lu; have := c.hl; have := c.hu
      have ep := hpv c.rp
      simp only [lswPartTwoStep]
      refine swp_bind (lsw_spec hc okp (okl l (by omega) (by omega)) (okh h (by omega) (by omega)) (okl l (by omega) (by omega)) hR
        (.inl (hW (ml l (by omega) (by omega)))) ?_ ?_)
      · intro _ hle
        rw [ep] at hle
        refine ⟨⟨hW (mh h (by omega) (by omega)), hW (ml l (by omega) (by omega))⟩, ?_⟩
        rw [if_pos rfl]
        obtain ⟨b1, b2, b3⟩ := swapped c hle g1
        have hn := next c.ll c.lu c.hl c.hu b1 b2 b3
        generalize lswPartTwoNext lo hi l h = cc at *
        cases cc with
        | again s' => exact ⟨hn.1, by have := hn.2; simp only [LP2mu] at this ⊢; omega⟩
        | brk a => exact hn
      · intro hle
        rw [ep] at hle
        rw [if_neg (by simp)]
        have hlow : ∀ i, l - 1 < i → i ≤ l0 → r (s.E m i) ≤ r (s.E m0 pv) := by
          intro i i0 i1
          rcases (by omega : i = l ∨ l < i) with e | e
          · rw [e]; exact hle
          · exact c.low i e i1
        by_cases c1 : l - 1 < lo
        · rw [if_pos c1]
          exact ⟨c.rp, .inr ⟨by omega, by omega, fun i i0 i1 => hlow i (by omega) i1, c.high⟩⟩
        · rw [if_neg c1]
          exact ⟨⟨⟨by omega, by omega, by omega, by omega, c.rp, hlow, c.high⟩, g1⟩, by simp only [LP2mu]; omega⟩
    · -- second
      obtain ⟨c, g1, g2⟩ := hI
      have := c.ll; have := c.lu; have := c.hl; have := c.hu
      have ep := hpv c.rp
      simp only [lswPartTwoStep]
      have hhigh : ∀ i, h0 ≤ i → i < h + 1 → r (s.E m0 pv) ≤ r (s.E m i) := by
        intro i i0 i1
        rcases (by omega : i = h ∨ i < h) with e | e
        · rw [e]; exact g2
        · exact c.high i i0 e
      by_cases c1 : h + 1 > hi
      · rw [if_pos c1]
        exact ⟨c.rp, .inl ⟨by omega, by omega, c.low, fun i i0 i1 => hhigh i i0 (by omega)⟩⟩
      · rw [if_neg c1]
        have c' : LP2C r s lo l0 h0 hi (r (s.E m0 pv)) m0 l (h + 1) m :=
          ⟨c.ll, c.lu, by omega, by omega, c.rp, c.low, hhigh⟩
        refine swp_bind (lsw_spec hc (okh (h + 1) (by omega) (by omega)) okp (okh (h + 1) (by omega) (by omega)) (okl l (by omega) (by omega))
          (.inl (hW (mh (h + 1) (by omega) (by omega)))) hR ?_ ?_)
        · intro _ hle
          rw [ep] at hle
          refine ⟨⟨hW (mh (h + 1) (by omega) (by omega)), hW (ml l (by omega) (by omega))⟩, ?_⟩
          rw [if_pos rfl]
          obtain ⟨b1, b2, b3⟩ := swapped c' g1 hle
          have hn := next c'.ll c'.lu c'.hl c'.hu b1 b2 b3
          generalize lswPartTwoNext lo hi l (h + 1) = cc at *
          cases cc with
          | again s' => exact ⟨hn.1, by have := hn.2; simp only [LP2mu] at this ⊢; omega⟩
          | brk a => exact hn
        · intro hle
          rw [ep] at hle
          rw [if_neg (by simp)]
          exact ⟨⟨c', g1, hle⟩, by simp only [LP2mu]; omega⟩
  · exact ⟨hl, le_rfl, le_rfl, hh, RP.refl _ _, fun i _ _ => by omega, fun i _ _ => by omega⟩
  · simp only [LP2mu]; omega

/-- postcondition of closing the gap, in `[a,b]` -/
structure LGapPost (r : V → ρ) (s : Slice) (a b : Int) (p : ρ) (m0 : Mem V) (k : Int) (m : Mem V) : Prop where
  k0 : a ≤ k
  k1 : k ≤ b + 1
  rp : RP (s.seg a b).rng m0 m
  low : ∀ i, a ≤ i → i < k → r (s.E m i) ≤ p
  high : ∀ i, k ≤ i → i ≤ b → p ≤ r (s.E m i)

theorem lswGapLow_spec (hc : CmpW cmp r) {s : Slice} {lo hi k0 r0 pv0 : Int} {p : ρ} {m0 : Mem V} (hlo : 0 ≤ lo)
    (hhi : hi < s.len) (hr0 : lo - 1 ≤ r0) (hrk : r0 + 1 ≤ k0) (hk : k0 ≤ hi + 1) (hpr : r0 < pv0) (hpv : pv0 ≤ hi)
    (hp : r (s.E m0 pv0) = p) (hlow : ∀ i, r0 < i → i < k0 → r (s.E m0 i) ≤ p)
    (hhigh : ∀ i, k0 ≤ i → i ≤ hi → p ≤ r (s.E m0 i)) (hW : (s.seg lo hi).rng ⊆ W) :
    swp cmp W R (lswGapLow s lo r0 k0 pv0 : Prog V Sp Int) m0 (LGapPost r s lo hi p m0) := by
  have ok : ∀ i, lo ≤ i → i ≤ hi → s.ok i := fun i a b => ⟨by omega, by omega⟩
  have me : ∀ i, lo ≤ i → i ≤ hi → s.ad i ∈ (s.seg lo hi).rng := fun i a b => ad_mem_seg hlo a b
  have meW : ∀ i, lo ≤ i → i ≤ hi → s.ad i ∈ W := fun i a b => hW (me i a b)
  unfold lswGapLow
  refine swp_loop _ _ (fun (st : Int × Int × Int) m => lo - 1 ≤ st.1 ∧ st.1 + 1 ≤ st.2.1 ∧ st.2.1 ≤ k0 ∧ st.1 < st.2.2 ∧ st.2.2 ≤ hi ∧
      RP (s.seg lo hi).rng m0 m ∧ r (s.E m st.2.2) = p ∧ (∀ i, st.1 < i → i < st.2.1 → r (s.E m i) ≤ p) ∧
      ∀ i, st.2.1 ≤ i → i ≤ hi → p ≤ r (s.E m i)) (fun st => (st.1 + 1 - lo).toNat) ?_ _ _ _ ?_ ?_
  · rintro ⟨x, k, pv⟩ m ⟨g1, g2, g3, g4, g5, g6, g7, g8, g9⟩
    dsimp only at g1 g2 g3 g4 g5 g7 g8 g9 ⊢
    by_cases c1 : lo ≤ x
    · rw [if_pos c1]
      refine swp_bind (lsw_specW hc (ok pv (by omega) (by omega)) (ok x (by omega) (by omega)) (ok (k - 1) (by omega) (by omega))
        (ok x (by omega) (by omega)) (.inl (meW _ (by omega) (by omega))) (.inl (meW _ (by omega) (by omega))) ?_ ?_)
      · intro hne hle
        rw [g7] at hle
        refine ⟨⟨meW _ (by omega) (by omega), meW _ (by omega) (by omega)⟩, ?_⟩
        rw [if_pos rfl]
        have hE : ∀ i, 0 ≤ i → s.E (s.swapM m (k - 1) x) i = _ := fun i i0 =>
          E_swap (ok (k - 1) (by omega) (by omega)) (ok x (by omega) (by omega)) i0
        have rp' : RP (s.seg lo hi).rng m0 (s.swapM m (k - 1) x) :=
          g6.trans (RP.swapA fun _ => ⟨me _ (by omega) (by omega), me _ (by omega) (by omega)⟩)
        refine ⟨⟨by dsimp only; omega, by dsimp only; omega, by dsimp only; omega, ?_, ?_, rp', ?_, ?_, ?_⟩, by omega⟩
        · dsimp only; split_ifs <;> omega
        · dsimp only; split_ifs <;> omega
        · dsimp only
          split_ifs with e
          · rw [hE x (by omega), if_pos rfl, e]; exact g7
          · rw [hE pv (by omega), if_neg (by omega), if_neg (by omega)]; exact g7
        · dsimp only
          intro i i0 i1
          rw [hE i (by omega)]
          by_cases e : i = x
          · rw [if_pos e]; exact g8 _ (by omega) (by omega)
          · rw [if_neg e, if_neg (by omega)]; exact g8 _ (by omega) (by omega)
        · dsimp only
          intro i i0 i1
          rw [hE i (by omega)]
          by_cases e : i = k - 1
          · by_cases e2 : i = x
            · rw [if_pos e2, ← e, e2]; exact hle
            · rw [if_neg e2, if_pos e]; exact hle
          · rw [if_neg (by omega), if_neg e]; exact g9 _ (by omega) i1
      · intro hle
        rw [g7] at hle
        rw [if_neg (by simp)]
        refine ⟨⟨by dsimp only; omega, by dsimp only; omega, by dsimp only; omega, by dsimp only; omega, by dsimp only; omega, g6, g7, ?_, g9⟩, by omega⟩
        dsimp only
        intro i i0 i1
        rcases (by omega : i = x ∨ x < i) with e | e
        · rw [e]; exact hle
        · exact g8 i e i1
    · rw [if_neg c1]
      exact ⟨by omega, by omega, g6, fun i i0 i1 => g8 i (by omega) i1, g9⟩
  · exact ⟨hr0, hrk, le_rfl, hpr, hpv, RP.refl _ _, hp, hlow, hhigh⟩
  · dsimp only; omega

theorem lswGapHigh_spec (hc : CmpW cmp r) {s : Slice} {lo hi k0 r0 pv0 : Int} {p : ρ} {m0 : Mem V} (hlo : 0 ≤ lo)
    (hhi : hi < s.len) (hr0 : r0 ≤ hi + 1) (hrk : k0 ≤ r0) (hk : lo ≤ k0) (hpr : pv0 < r0) (hpv : lo ≤ pv0)
    (hp : r (s.E m0 pv0) = p) (hlow : ∀ i, lo ≤ i → i < k0 → r (s.E m0 i) ≤ p)
    (hhigh : ∀ i, k0 ≤ i → i < r0 → p ≤ r (s.E m0 i)) (hW : (s.seg lo hi).rng ⊆ W) :
    swp cmp W R (lswGapHigh s hi r0 k0 pv0 : Prog V Sp Int) m0 (LGapPost r s lo hi p m0) := by
  have ok : ∀ i, lo ≤ i → i ≤ hi → s.ok i := fun i a b => ⟨by omega, by omega⟩
  have me : ∀ i, lo ≤ i → i ≤ hi → s.ad i ∈ (s.seg lo hi).rng := fun i a b => ad_mem_seg hlo a b
  have meW : ∀ i, lo ≤ i → i ≤ hi → s.ad i ∈ W := fun i a b => hW (me i a b)
  unfold lswGapHigh
  refine swp_loop _ _ (fun (st : Int × Int × Int) m => st.1 ≤ hi + 1 ∧ st.2.1 ≤ st.1 ∧ lo ≤ st.2.1 ∧ st.2.2 < st.1 ∧ lo ≤ st.2.2 ∧
      RP (s.seg lo hi).rng m0 m ∧ r (s.E m st.2.2) = p ∧ (∀ i, lo ≤ i → i < st.2.1 → r (s.E m i) ≤ p) ∧
      ∀ i, st.2.1 ≤ i → i < st.1 → p ≤ r (s.E m i)) (fun st => (hi + 1 - st.1).toNat) ?_ _ _ _ ?_ ?_
  · rintro ⟨x, k, pv⟩ m ⟨g1, g2, g3, g4, g5, g6, g7, g8, g9⟩
    dsimp only at g1 g2 g3 g4 g5 g7 g8 g9 ⊢
    by_cases c1 : x ≤ hi
    · rw [if_pos c1]
      refine swp_bind (lsw_specW hc (ok x (by omega) (by omega)) (ok pv (by omega) (by omega)) (ok x (by omega) (by omega))
        (ok k (by omega) (by omega)) (.inl (meW _ (by omega) (by omega))) (.inl (meW _ (by omega) (by omega))) ?_ ?_)
      · intro hne hle
        rw [g7] at hle
        refine ⟨⟨meW _ (by omega) (by omega), meW _ (by omega) (by omega)⟩, ?_⟩
        rw [if_pos rfl]
        have hE : ∀ i, 0 ≤ i → s.E (s.swapM m x k) i = _ := fun i i0 =>
          E_swap (ok x (by omega) (by omega)) (ok k (by omega) (by omega)) i0
        have rp' : RP (s.seg lo hi).rng m0 (s.swapM m x k) :=
          g6.trans (RP.swapA fun _ => ⟨me _ (by omega) (by omega), me _ (by omega) (by omega)⟩)
        refine ⟨⟨by dsimp only; omega, by dsimp only; omega, by dsimp only; omega, ?_, ?_, rp', ?_, ?_, ?_⟩, by omega⟩
        · dsimp only; split_ifs <;> omega
        · dsimp only; split_ifs <;> omega
        · dsimp only
          split_ifs with e
          · by_cases e2 : x = k
            · omega
            · rw [hE x (by omega), if_neg e2, if_pos rfl, e]; exact g7
          · rw [hE pv (by omega), if_neg (by omega), if_neg (by omega)]; exact g7
        · dsimp only
          intro i i0 i1
          rw [hE i (by omega)]
          by_cases e : i = k
          · rw [if_pos e]; exact hle
          · rw [if_neg e, if_neg (by omega)]; exact g8 _ (by omega) (by omega)
        · dsimp only
          intro i i0 i1
          rw [hE i (by omega), if_neg (by omega)]
          by_cases e : i = x
          · rw [if_pos e]; exact g9 _ (by omega) (by omega)
          · rw [if_neg e]; exact g9 _ (by omega) (by omega)
      · intro hle
        rw [g7] at hle
        rw [if_neg (by simp)]
        refine ⟨⟨by dsimp only; omega, by dsimp only; omega, by dsimp only; omega, by dsimp only; omega, by dsimp only; omega, g6, g7, g8, ?_⟩, by omega⟩
        dsimp only
        intro i i0 i1
        rcases (by omega : i = x ∨ i < x) with e | e
        · rw [e]; exact hle
        · exact g9 i i0 e
    · rw [if_neg c1]
      exact ⟨by omega, by omega, g6, g8, fun i i0 i1 => g9 i i0 (by omega)⟩
  · exact ⟨hr0, hrk, hk, hpr, hpv, RP.refl _ _, hp, hlow, hhigh⟩
  · dsimp only; omega

end Sorty
