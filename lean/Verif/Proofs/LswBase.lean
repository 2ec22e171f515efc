import Verif.SpecLsw
import Verif.Proofs.Short
import Verif.Proofs.Term

/-! # Lesswap calls and ranges of indices -/

namespace Sorty

open Prog

variable {V Sp : Type} {ρ : Type} [LinearOrder ρ]

/-- A comparator that agrees with ranks. With ranks in a one-element order it may answer anything. -/
structure CmpW (cmp : Nat → Nat → V → V → Bool → Prop) (r : V → ρ) : Prop where
  tru : ∀ i j x y, cmp i j x y true → r x ≤ r y
  fls : ∀ i j x y, cmp i j x y false → r y ≤ r x
  tot : ∀ i j x y, ∃ b, cmp i j x y b

/-- What is assumed of the comparator. With ranks in a one-element order this is irreflexivity only. -/
structure CmpOK (cmp : Nat → Nat → V → V → Bool → Prop) (r : V → ρ) : Prop extends CmpW cmp r where
  irrefl : ∀ i x, ¬ cmp i i x x true

variable {cmp : Nat → Nat → V → V → Bool → Prop} {W R : Set Nat} {r : V → ρ}

/-- address of index `i` -/
def Slice.ad (s : Slice) (i : Int) : Nat := s.off + i.toNat

/-- valid index -/
def Slice.ok (s : Slice) (i : Int) : Prop := 0 ≤ i ∧ i < s.len

theorem swapM_self {s : Slice} {m : Mem V} {i : Int} : s.swapM m i i = m := by
  unfold Slice.swapM Slice.E
  funext a
  by_cases h : a = s.off + i.toNat
  · subst h; simp
  · simp [h]

/-- the documented implementation -/
theorem lsw_doc (hc : ∀ i j x y, ∃ b, cmp i j x y b) {s : Slice} {i k x y : Int} {m : Mem V} {Q : Bool → Mem V → Prop}
    (hi : s.ok i) (hk : s.ok k) (hx : s.ok x) (hy : s.ok y) (ai : s.ad i ∈ W ∪ R) (ak : s.ad k ∈ W ∪ R)
    (ht : cmp i.toNat k.toNat (s.E m i) (s.E m k) true → (x ≠ y → s.ad x ∈ W ∧ s.ad y ∈ W) ∧ Q true (s.swapM m x y))
    (hf : cmp i.toNat k.toNat (s.E m i) (s.E m k) false → Q false m) : swp cmp W R (lsw s i k x y : Prog V Sp Bool) m Q := by
  unfold lsw
  rw [if_pos ⟨hi, hk, hx, hy⟩]
  refine swp_bind (Slice.swp_rd' hi.1 hi.2 ai (swp_bind (Slice.swp_rd' hk.1 hk.2 ak (swp_bind ⟨hc _ _ _ _, ?_⟩))))
  intro b hb
  cases b with
  | false => exact hf hb
  | true =>
    obtain ⟨h1, h2⟩ := ht hb
    show swp cmp W R (if true = true then _ else _) m Q
    rw [if_pos rfl]
    dsimp only
    by_cases hxy : x = y
    · subst hxy
      rw [if_neg (by simp)]
      rw [swapM_self] at h2
      exact h2
    · rw [if_pos hxy]
      exact swp_bind (Slice.swp_swap' hx.1 hx.2 hy.1 hy.2 (h1 hxy).1 (h1 hxy).2 h2)

/-- What the proofs about `Sort` need of the `lsw` it is given. -/
class Lesswap.OK (V : Type) [Lesswap V] : Prop where
  /-- if every comparison gets an answer, it compares `i` and `k`, swaps `x` and `y` if the answer is yes, and returns the answer,
  having read only the former two and written only the latter two -/
  spec : ∀ {Sp : Type} {cmp : Nat → Nat → V → V → Bool → Prop} {W R : Set Nat} {s : Slice} {i k x y : Int} {m : Mem V}
    {Q : Bool → Mem V → Prop}, (∀ i j x y, ∃ b, cmp i j x y b) → s.ok i → s.ok k → s.ok x → s.ok y → s.ad i ∈ W ∪ R → s.ad k ∈ W ∪ R →
    (cmp i.toNat k.toNat (s.E m i) (s.E m k) true → (s.ad x ∈ W ∧ s.ad y ∈ W) ∧ Q true (s.swapM m x y)) →
    (cmp i.toNat k.toNat (s.E m i) (s.E m k) false → Q false m) → swp cmp W R (Lesswap.call s i k x y : Prog V Sp Bool) m Q
  /-- the same if the compared elements may be changed meanwhile, whence nothing is known of the answer -/
  racy : ∀ {Sp : Type} {S : Spec V Sp} {s : Slice} {g : Gh V Sp} {i k x y : Int} {m : Mem V} {Q : Bool → Gh V Sp → Mem V → Prop},
    s.rng ⊆ S.racy → g.ph = .run → s.ok i → s.ok k → s.ok x → s.ok y → s.ad x ∈ g.W → s.ad y ∈ g.W →
    (∀ b, Q b g (if b = true then s.swapM m x y else m)) → wp S (Lesswap.call s i k x y) g m Q
  /-- it starts no goroutines -/
  plain : ∀ {Sp : Type} {ρ : Sp → Nat} {n : Nat} {s : Slice} (i k x y : Int), SpB ρ n (Lesswap.call s i k x y : Prog V Sp Bool)

/-- the documented implementation starts no goroutines -/
theorem SpB.lsw {ρ : Sp → Nat} {n : Nat} {s : Slice} (i k r q : Int) : SpB ρ n (lsw s i k r q : Prog V Sp Bool) := by
  unfold Sorty.lsw
  split
  · refine .bind (.rd _ _) fun x => .bind (.rd _ _) fun y => .bind (fun b => trivial) fun b => ?_
    spb
  · trivial

/-- the documented implementation where the compared elements may be racy -/
theorem lsw_racy {S : Spec V Sp} {s : Slice} {g : Gh V Sp} {m : Mem V} {i k x y : Int} {Q : Bool → Gh V Sp → Mem V → Prop}
    (hr : s.rng ⊆ S.racy) (hph : g.ph = .run)
    (hi : s.ok i) (hk : s.ok k) (hx : s.ok x) (hy : s.ok y) (hxy : x ≠ y → s.ad x ∈ g.W ∧ s.ad y ∈ g.W)
    (hQ : ∀ b, Q b g (if b = true then s.swapM m x y else m)) : wp S (lsw s i k x y) g m Q := by
  unfold lsw
  rw [if_pos ⟨hi, hk, hx, hy⟩]
  have mem : ∀ {j}, s.ok j → s.ad j ∈ S.racy := by
    intro j hj
    refine hr ?_
    have h1 := hj.1; have h2 := hj.2
    simp only [Slice.rng, Slice.ad, Set.mem_ofPred_eq]; omega
  have rd : ∀ {j} {Q' : V → Gh V Sp → Mem V → Prop}, s.ok j → (∀ v, Q' v g m) → wp S (s.rd j) g m Q' := by
    intro j Q' hj h
    unfold Slice.rd
    rw [if_pos ⟨hj.1, hj.2⟩]
    exact ⟨⟨hph, .inr (mem hj)⟩, fun v _ => h v⟩
  refine wp_bind (rd hi fun v1 => wp_bind (rd hk fun v2 => wp_bind ⟨hph, fun b _ => ?_⟩))
  have h1 := hQ b
  cases b with
  | false => exact h1
  | true =>
    show wp _ (if true = true then _ else _) g m Q
    rw [if_pos rfl] at h1 ⊢
    dsimp only
    by_cases e : x = y
    · subst e
      rw [if_neg (by simp)]
      rw [swapM_self] at h1
      exact h1
    · rw [if_pos e]
      obtain ⟨w1, w2⟩ := hxy e
      refine wp_mono (swp_wp (S := S) (cmp := S.cmp) (R := ∅) (Q := fun b m' => b = true ∧ m' = s.swapM m x y) (fun _ _ _ _ _ h => h) hph subset_rfl (by simp)
        (swp_bind (Slice.swp_swap' hx.1 hx.2 hy.1 hy.2 w1 w2 ⟨rfl, rfl⟩))) ?_
      rintro b g' m' ⟨rfl, rfl, rfl⟩
      exact h1

instance : Lesswap.OK V where
  spec ht hi hk hx hy ai ak h1 h2 := by
    refine lsw_doc ht hi hk hx hy ai ak (fun h => ⟨fun _ => (h1 h).1, (h1 h).2⟩) h2
  racy hr hp hi hk hx hy wx wy hQ := lsw_racy hr hp hi hk hx hy (fun _ => ⟨wx, wy⟩) hQ
  plain := SpB.lsw

section
variable [Lesswap V] [Lesswap.OK V]

theorem lsw_specW (hc : CmpW cmp r) {s : Slice} {i k x y : Int} {m : Mem V} {Q : Bool → Mem V → Prop}
    (hi : s.ok i) (hk : s.ok k) (hx : s.ok x) (hy : s.ok y) (ai : s.ad i ∈ W ∪ R) (ak : s.ad k ∈ W ∪ R)
    (ht : cmp i.toNat k.toNat (s.E m i) (s.E m k) true → r (s.E m i) ≤ r (s.E m k) → (s.ad x ∈ W ∧ s.ad y ∈ W) ∧ Q true (s.swapM m x y))
    (hf : r (s.E m k) ≤ r (s.E m i) → Q false m) : swp cmp W R (Lesswap.call s i k x y : Prog V Sp Bool) m Q :=
  Lesswap.OK.spec hc.tot hi hk hx hy ai ak (fun h => ht h (hc.tru _ _ _ _ h)) fun h => hf (hc.fls _ _ _ _ h)

theorem lsw_spec (hc : CmpOK cmp r) {s : Slice} {i k x y : Int} {m : Mem V} {Q : Bool → Mem V → Prop}
    (hi : s.ok i) (hk : s.ok k) (hx : s.ok x) (hy : s.ok y) (ai : s.ad i ∈ W ∪ R) (ak : s.ad k ∈ W ∪ R)
    (ht : i ≠ k → r (s.E m i) ≤ r (s.E m k) → (s.ad x ∈ W ∧ s.ad y ∈ W) ∧ Q true (s.swapM m x y))
    (hf : r (s.E m k) ≤ r (s.E m i) → Q false m) : swp cmp W R (Lesswap.call s i k x y : Prog V Sp Bool) m Q :=
  lsw_specW hc.toCmpW hi hk hx hy ai ak (fun hb => ht (by rintro rfl; exact hc.irrefl _ _ hb)) hf

/-- a call with equal third and fourth arguments only compares -/
theorem lsw_test (hc : CmpOK cmp r) {s : Slice} {i k x : Int} {m : Mem V} {Q : Bool → Mem V → Prop}
    (hi : s.ok i) (hk : s.ok k) (hx : s.ok x) (ai : s.ad i ∈ W ∪ R) (ak : s.ad k ∈ W ∪ R)
    (ht : i ≠ k → r (s.E m i) ≤ r (s.E m k) → s.ad x ∈ W ∧ Q true m)
    (hf : r (s.E m k) ≤ r (s.E m i) → Q false m) : swp cmp W R (Lesswap.call s i k x x : Prog V Sp Bool) m Q := by
  refine lsw_spec hc hi hk hx hx ai ak (fun h1 h2 => ⟨⟨(ht h1 h2).1, (ht h1 h2).1⟩, ?_⟩) hf
  rw [swapM_self]; exact (ht h1 h2).2

end

/-- a rearrangement by a swap -/
theorem RP.swapA {A : Set Nat} {s : Slice} {m : Mem V} {x y : Int} (h : x ≠ y → s.ad x ∈ A ∧ s.ad y ∈ A) :
    RP A m (s.swapM m x y) := by
  by_cases hxy : x = y
  · subst hxy; rw [swapM_self]; exact RP.refl _ _
  · exact RP.swap (h hxy).1 (h hxy).2

theorem E_swap {s : Slice} {m : Mem V} {i j x : Int} (hi : s.ok i) (hj : s.ok j) (hx : 0 ≤ x) :
    s.E (s.swapM m i j) x = if x = j then s.E m i else if x = i then s.E m j else s.E m x :=
  Slice.E_swapM hi.1 hj.1 hx

/-- the range `[lo,hi]` of the collection as a slice -/
def Slice.seg (s : Slice) (lo hi : Int) : Slice := ⟨s.off + lo.toNat, (hi + 1 - lo).toNat⟩

theorem ad_mem_seg {s : Slice} {lo hi i : Int} (h0 : 0 ≤ lo) (h1 : lo ≤ i) (h2 : i ≤ hi) : s.ad i ∈ (s.seg lo hi).rng := by
  simp only [Slice.rng, Slice.ad, Slice.seg, Set.mem_ofPred_eq]; omega

theorem seg_mem {s : Slice} {lo hi : Int} (h0 : 0 ≤ lo) {a : Nat} (h : a ∈ (s.seg lo hi).rng) :
    ∃ i, lo ≤ i ∧ i ≤ hi ∧ a = s.ad i := by
  simp only [Slice.rng, Slice.seg, Set.mem_ofPred_eq] at h
  exact ⟨((a - s.off : Nat) : Int), by omega, by omega, by simp only [Slice.ad]; omega⟩

theorem seg_E {s : Slice} {lo hi i : Int} {m : Mem V} (h0 : 0 ≤ lo) (h1 : 0 ≤ i) : (s.seg lo hi).E m i = s.E m (lo + i) := by
  unfold Slice.E Slice.seg
  congr 1
  dsimp only
  omega

theorem ad_inj {s : Slice} {i j : Int} (hi : 0 ≤ i) (hj : 0 ≤ j) (h : s.ad i = s.ad j) : i = j := by
  unfold Slice.ad at h; omega

theorem ad_E {s : Slice} {m : Mem V} {i : Int} : m (s.ad i) = s.E m i := rfl

theorem seg_mono {s : Slice} {lo hi lo' hi' : Int} (h0 : 0 ≤ lo) (h1 : lo ≤ lo') (h2 : hi' ≤ hi) :
    (s.seg lo' hi').rng ⊆ (s.seg lo hi).rng := by
  intro a ha
  simp only [Slice.rng, Slice.seg, Set.mem_ofPred_eq] at *
  omega

/-- the two ranges of a partitioned range -/
theorem lswSplit_spec {s : Slice} {lo hi k : Int} {m0 m : Mem V} {p : ρ} (h0 : 0 ≤ lo) (h1 : lo < k) (h2 : k ≤ hi)
    (hrp : RPon (s.seg lo hi).rng m0 m) (hlow : ∀ i, lo ≤ i → i < k → r (s.E m i) ≤ p)
    (hhigh : ∀ i, k ≤ i → i ≤ hi → p ≤ r (s.E m i)) :
    ∃ l h lo' hi', lswSplit lo hi k = (l, h, lo', hi', h - l, hi' - lo') ∧
      Split r (s.seg lo hi) (s.seg l h) (s.seg lo' hi') m0 m ∧
      lo ≤ l ∧ l ≤ h ∧ h ≤ hi ∧ lo ≤ lo' ∧ lo' ≤ hi' ∧ hi' ≤ hi ∧ lo' ≠ l ∧ h - l ≤ hi' - lo' ∧
      (h - l) + (hi' - lo') = hi - lo - 1 := by
  have e1 : ∀ i : Int, 0 ≤ i → i < k - lo → r ((s.seg lo hi).E m i) ≤ p := by
    intro i i0 i1
    rw [seg_E h0 i0]; exact hlow _ (by omega) (by omega)
  have e2 : ∀ i : Int, k - lo ≤ i → i < (s.seg lo hi).len → p ≤ r ((s.seg lo hi).E m i) := by
    intro i i0 i1
    rw [seg_E h0 (by omega)]
    refine hhigh _ (by omega) ?_
    unfold Slice.seg at i1; dsimp only at i1; omega
  have a1 : (⟨(s.seg lo hi).off, (k - lo).toNat⟩ : Slice) = s.seg lo (k - 1) := by
    unfold Slice.seg; dsimp only; congr 1; omega
  have a2 : (⟨(s.seg lo hi).off + (k - lo).toNat, (s.seg lo hi).len - (k - lo).toNat⟩ : Slice) = s.seg k hi := by
    unfold Slice.seg; dsimp only; congr 1 <;> omega
  have hlt : k - lo < (s.seg lo hi).len := by unfold Slice.seg; dsimp only; omega
  unfold lswSplit
  dsimp only
  by_cases hc : k - 1 - lo < hi - k
  · rw [if_pos hc]
    refine ⟨lo, k - 1, k, hi, rfl, split_of hrp (by omega) hlt e1 e2 ?_ ?_, by omega, by omega, by omega, by omega,
      by omega, by omega, by omega, by omega, by omega⟩
    · unfold Slice.seg; dsimp only; omega
    · rw [a1, a2]; exact .inl ⟨rfl, rfl⟩
  · rw [if_neg hc]
    refine ⟨k, hi, lo, k - 1, rfl, split_of hrp (by omega) hlt e1 e2 ?_ ?_, by omega, by omega, by omega, by omega,
      by omega, by omega, by omega, by omega, by omega⟩
    · unfold Slice.seg; dsimp only; omega
    · rw [a1, a2]; exact .inr ⟨rfl, rfl⟩

end Sorty
