import Verif.Proofs.TwoValued
import Verif.SpecDrops
import Verif.Props.Killer

/-! # Sort on collections of two kinds of elements -/

namespace Sorty

section
variable {V : Type} {C : Conf} {s : Slice} {m : Mem V} {b : V → Bool}

theorem drops_dr (β : Int → Bool) (f : Nat → V) (hβ : ∀ i : Nat, β i = b (f i)) : ∀ (n i : Nat),
    drops b ((List.range n).map fun j => f (i + j)) = dr β i (n - 1) := by
  intro n
  induction n with
  | zero => intro i; rfl
  | succ n ih =>
    intro i
    cases n with
    | zero => rfl
    | succ n =>
      have e : (List.range (n + 2)).map (fun j => f (i + j)) = f i :: f (i + 1) :: (List.range n).map fun j => f (i + 1 + (j + 1)) := by
        rw [List.range_succ_eq_map, List.map_cons, List.range_succ_eq_map]
        simp [Nat.add_comm, Nat.add_left_comm]
      have e' : (List.range (n + 1)).map (fun j => f (i + 1 + j)) = f (i + 1) :: (List.range n).map fun j => f (i + 1 + (j + 1)) := by
        rw [List.range_succ_eq_map]
        simp
      have ih := ih (i + 1)
      rw [e'] at ih
      rw [e, drops, ih, show n + 1 + 1 - 1 = 1 + n by omega, dr_add 1 n, show n + 1 - 1 = n by omega]
      have h1 := hβ (i + 1)
      push_cast at h1 ⊢
      simp [dr, hβ i, h1]

theorem drops_view : drops b (s.view m) = dis b s m 0 ((s.len : Int) - 1) := by
  have := drops_dr (b := b) (fun i => b (s.E m i)) (fun i => m (s.off + i)) (fun i => rfl) s.len 0
  simp only [Nat.zero_add] at this
  unfold Slice.view dis
  rw [this]
  congr 1
  omega

/-- `Sort` takes many calls -/
theorem sort_slow (hC : C.OK) (hf : FitsInt C.wordSize s.len) (hd : DepthFor C.depth s.len) (b : V → Bool) :
    ∃ n, (SortLsw C s.len s).atLeast (ltOf (kind b)) m n ∧ 4 * drops b (s.view m) ^ 2 ≤ 28 * n + C.maxLenInsFC ^ 2 := by
  obtain ⟨g1, g2, g3, g4⟩ := conf_ineq hC
  have g5 : nsShort = 4 := rfl
  have hL : LOK C s (fun _ _ x y b' => b' = ltOf (kind b) x y) (kind b) := ⟨(ltOf_ok _).toCmpW, fun _ => (ltOf_ok _).irrefl, fun h => by simp at h, by omega, by omega, hC.word, hf⟩
  have hpow : 2 * s.len < 2 ^ C.depth := by
    have h1 : s.len < 2 ^ (Nat.log2 s.len + 1) := Nat.lt_log2_self
    have h2 : 2 ^ (Nat.log2 s.len + 1 + 1) ≤ 2 ^ C.depth := Nat.pow_le_pow_right (by omega) hd
    rw [pow_succ] at h2
    omega
  rw [drops_view]
  by_cases hc : s.len ≤ C.maxLenInsFC
  · obtain ⟨n, h1, h2⟩ : Slow C b (SortLsw C s.len s : Prog V LSp Unit) m (dis b s m 0 ((s.len : Int) - 1)) := by
      refine Slow.small ?_
      unfold dis
      have := dr_le (β := fun i => b (s.E m i)) (lo := 0) ((s.len : Int) - 1 - 0).toNat
      by_cases h0 : s.len = 0
      · rw [h0]; simp [dr]
      · omega
    exact ⟨n, h1, by exact_mod_cast h2⟩
  · have hw : wrapInt C.wordSize ((s.len : Int) - 1) = s.len - 1 := by
      have hpow : (2 : Int) ^ (8 * C.wordSize - 1) = ((2 ^ (8 * C.wordSize - 1) : Nat) : Int) := by push_cast; rfl
      have : 2 ^ 31 ≤ 2 ^ (8 * C.wordSize - 1) := by
        rcases hC.word with h | h
        · rw [h]
        · rw [h]; norm_num
      unfold FitsInt at hf
      exact wrapInt_id hC.word (by rw [hpow]; omega) (by rw [hpow]; omega)
    have hbr : Slow C b (if (s.len : Int) - 1 ≥ C.maxLenRecFC then lswLong C s s.len C.depth 0 ((s.len : Int) - 1) false
          else if (s.len : Int) - 1 ≥ C.maxLenInsFC then lswShort C s s.len C.depth 0 ((s.len : Int) - 1)
          else if (s.len : Int) - 1 > 0 then lswInsertion s 0 ((s.len : Int) - 1) else pure () : Prog V LSp Unit) m
          (dis b s m 0 ((s.len : Int) - 1)) := by
      by_cases hc1 : (s.len : Int) - 1 ≥ C.maxLenRecFC
      · rw [if_pos hc1]
        exact slow_long hL s.len C.depth 0 _ m le_rfl (by omega) (by omega) (by omega) (by omega)
      · rw [if_neg hc1, if_pos (by omega)]
        exact slow_short (by omega) s.len C.depth 0 _ m le_rfl (by omega) (by omega) (by omega) (by omega)
    obtain ⟨n, h1, h2⟩ := hbr
    refine ⟨n, ?_, by exact_mod_cast h2⟩
    have hf' : ((s.len : Int) - 1 + 1).toNat = s.len := by omega
    unfold SortLsw
    dsimp only
    rw [hw, hf']
    by_cases hs : (s.len : Int) - 1 ≤ 2 * C.maxLenRecFC
    · rw [if_pos hs]
      exact h1
    · rw [if_neg hs]
      cases n with
      | zero => exact atLeast_zero
      | succ n =>
        intro g hg
        show (if decide (g ≤ 1) = true then _ else _ : Prog V LSp Unit).atLeast (ltOf (kind b)) m (n + 1)
        rw [if_pos (decide_eq_true hg)]
        exact h1

theorem kinds_strictWeak (b : V → Bool) : StrictWeak fun x y => b x = false ∧ b y = true :=
  ⟨fun x h => (by simp_all : ¬ (b x = false ∧ b x = true)) h, fun x y z h1 h2 => ⟨h1.1, h2.2⟩, fun x y z h1 h2 => by
    cases hx : b x <;> cases hy : b y <;> cases hz : b z <;> simp_all⟩

/-- **C62** Let the elements be of two kinds, those for which `b` is false being less than those for which it is true, and let `d` be the
number of places where the collection has an element of the greater kind directly followed by one of the lesser kind. Every call of `Sort` with `MaxGor` at
most 1 takes at least d²/7 - MaxLenInsFC²/28 calls of the user's function. With any `MaxGor`, some execution does. -/
theorem C62_sort_two_kinds_quadratic (hC : C.OK) (hf : FitsInt C.wordSize s.len) (hd : DepthFor C.depth s.len) (b : V → Bool) :
    (∀ M stale c n, M ≤ 1 → CSteps (lswPar C s (byLess fun x y => b x = false ∧ b y = true) M stale) Prog.asks (start (SortLsw C s.len s) m) c n →
      Returned c → 4 * drops b (s.view m) ^ 2 ≤ 28 * n + C.maxLenInsFC ^ 2) ∧
    ∀ M stale, ∃ c n, CSteps (lswPar C s (byLess fun x y => b x = false ∧ b y = true) M stale) Prog.asks (start (SortLsw C s.len s) m) c n ∧
      Returned c ∧ 4 * drops b (s.view m) ^ 2 ≤ 28 * n + C.maxLenInsFC ^ 2 := by
  obtain ⟨n, h2, h3⟩ := sort_slow (m := m) hC hf hd b
  refine ⟨?_, ?_⟩
  · intro M stale c k hM hs hr
    have := atLeast_all (P := lswPar C s (byLess fun x y => b x = false ∧ b y = true) M stale) hM (less := ltOf (kind b)) (fun i j x y b' hb => by
      have hb : b' = true ↔ b x = false ∧ b y = true := hb
      rw [Bool.eq_iff_iff, hb, kind_lt]) rfl h2 hs
    rcases this with h | ⟨sh, p, j, rfl, -, hp⟩
    · omega
    · obtain ⟨l, hl⟩ := hr
      simp only [List.cons.injEq] at hl
      rw [hl.1] at hp
      exact hp.elim
  · intro M stale
    obtain ⟨c, h4⟩ := atLeast_steps (P := lswPar C s (byLess fun x y => b x = false ∧ b y = true) M stale) (less := ltOf (kind b)) (fun i j x y => by
      show ltOf (kind b) x y = true ↔ _
      exact kind_lt) (sh := (start (SortLsw C s.len s) m).sh) h2 .refl
    have hL := lok hC (kinds_strictWeak b).tame.ok hf
    obtain ⟨d, h5, h6⟩ := exists_return (lsw_hyp hL m M stale)
      (acc_of_steps (lsw_acc C s (byLess fun x y => b x = false ∧ b y = true) m M stale) h4.steps) (lsw_reach hL hd (Steps.toE h4.steps))
    obtain ⟨k, h7⟩ := h4.continue h5
    exact ⟨d, _, h7, h6, by omega⟩

theorem drops_alternating (i : Nat) : ∀ n, drops (fun k : Nat => decide (k % 2 = 0)) ((List.range (2 * n)).map fun j => 2 * i + j) = n := by
  intro n
  have h := drops_dr (b := fun k : Nat => decide (k % 2 = 0)) (fun k => decide (k % 2 = 0)) id (fun k => by simp; omega) (2 * n) (2 * i)
  simp only [id] at h
  rw [h]
  cases n with
  | zero => rfl
  | succ n =>
    rw [show 2 * (n + 1) - 1 = 1 + 2 * n by omega, dr_add]
    have : ∀ n : Nat, dr (fun k => decide (k % 2 = 0)) (((2 * i : Nat) : Int) + (1 : Nat)) (2 * n) = n := by
      intro n
      induction n with
      | zero => rfl
      | succ n ih =>
        rw [show 2 * (n + 1) = 2 * n + 1 + 1 by ring]
        simp only [dr]
        rw [ih]
        push_cast
        rw [if_neg, if_pos]
        · constructor
          · simp; omega
          · simp; omega
        · simp
    rw [this]
    simp [dr]
    omega

/-- Sorting the numbers from 0 to 9999, the odd ones before the even ones, takes more than three million calls. -/
example {c n} (h : CSteps (lswPar demoC ⟨0, 10000⟩ (byLess fun x y : Nat => decide (x % 2 = 0) = false ∧ decide (y % 2 = 0) = true) 1 False) Prog.asks
    (start (SortLsw demoC 10000 ⟨0, 10000⟩) fun a => a) c n) (hr : Returned c) : 3000000 ≤ n := by
  have := (C62_sort_two_kinds_quadratic (s := ⟨0, 10000⟩) (m := fun a => a) demoC_ok
    (by show 11 * (10000 + 8) ≤ 10 * 2 ^ (8 * 8 - 1); norm_num) (by show Nat.log2 10000 + 2 ≤ 64; decide)
    fun x : Nat => decide (x % 2 = 0)).1 1 False c n le_rfl h hr
  rw [show drops (fun x : Nat => decide (x % 2 = 0)) ((⟨0, 10000⟩ : Slice).view fun a : Nat => a) = 5000 from drops_alternating 0 5000] at this
  have e : demoC.maxLenInsFC ≤ 60 := by decide
  have e : demoC.maxLenInsFC ^ 2 ≤ 60 ^ 2 := Nat.pow_le_pow_left e 2
  omega

end

end Sorty
