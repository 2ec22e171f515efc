import Verif.Logic.Adv
import Verif.Proofs.LswLong
import Verif.Proofs.LswMedian

/-! # An order that makes `Sort` slow

One round of `long` compares its pivot with every element of its range. The pivot is the median of five samples, so if the samples are made the least elements of the range, only a few
elements end up on the lower side. Apart from the samples, no two elements are compared with each other before the next round, so the
order of the others can still be chosen then. -/

namespace Sorty

open Prog

variable {V Sp : Type} {less : V → V → Bool} {Q : V → V → Prop} {s : Slice}

/-- the positions an insertion sort works on, and what is known of the elements there -/
theorem qw_inner {A : Int → Prop} {P : V → Prop} {bound step : Int} (hA : ∀ l, A l → bound < l → A (l - step)) (hA0 : ∀ l, A l → 0 ≤ l)
    (hQ : ∀ x y, P x → P y → Q x y) {h : Int} (hh : A h) (hb : bound < h) {m : Mem V} {n : Nat} (hm : ∀ i, A i → P (s.E m i)) :
    qw less Q (lswInner s bound step h : Prog V Sp Unit) m n fun _ m' _ => ∀ i, A i → P (s.E m' i) := by
  unfold lswInner
  refine qw_loop (fun l m _ => A l ∧ bound < l ∧ ∀ i, A i → P (s.E m i)) ?_ _ _ _ _ ⟨hh, hb, hm⟩
  rintro l m n ⟨h1, h2, h3⟩
  have h4 := hA l h1 h2
  refine qw_bind (qw_lsw fun k1 k2 _ _ => ⟨hQ _ _ (h3 _ h1) (h3 _ h4), fun _ => ?_, fun _ => ?_⟩)
  · rw [if_pos rfl]
    dsimp only
    have h5 : ∀ i, A i → P (s.E (s.swapM m l (l - step)) i) := by
      intro i hi
      rw [E_swap k1 k2 (hA0 i hi)]
      split_ifs
      · exact h3 _ h1
      · exact h3 _ h4
      · exact h3 _ hi
    by_cases hc : l - step ≤ bound
    · rw [if_pos hc]; exact h5
    · rw [if_neg hc]; exact ⟨h4, by omega, h5⟩
  · exact h3

theorem qw_insertion {P : V → Prop} {lo hi : Int} (h0 : 0 ≤ lo) (hQ : ∀ x y, P x → P y → Q x y) {m : Mem V} {n : Nat}
    (hm : ∀ i, lo ≤ i → i ≤ hi → P (s.E m i)) :
    qw less Q (lswInsertion s lo hi : Prog V Sp Unit) m n fun _ _ _ => True := by
  unfold lswInsertion
  refine qw_loop (fun h m _ => lo < h ∧ ∀ i, lo ≤ i ∧ i ≤ hi → P (s.E m i)) ?_ _ _ _ _ ⟨by omega, fun i h => hm i h.1 h.2⟩
  rintro h m n ⟨h1, h2⟩
  by_cases hc : h ≤ hi
  · rw [if_pos hc]
    refine qw_bind (qw_mono (qw_inner (A := fun i => lo ≤ i ∧ i ≤ hi) (P := P) (fun l hl hb => ⟨by omega, by omega⟩) (fun l hl => by omega) hQ ⟨by omega, hc⟩
      h1 h2) ?_)
    intro _ m n h3
    exact ⟨by omega, h3⟩
  · rw [if_neg hc]; trivial

/-- a pivot is chosen by comparing elements with samples -/
theorem qw_pivot {ws : Nat} (hws : ws = 4 ∨ ws = 8) (hfit : FitsInt ws s.len) {P : V → Prop} (hQ1 : ∀ x y, P x → Q x y) (hQ2 : ∀ x y, P y → Q x y)
    {lo hi : Int} {k t : Nat} {m : Mem V} {n : Nat} (h0 : 0 ≤ lo) (h1 : hi < s.len) (hn : k = 2 * t + 1) (ht : 2 ≤ t) (ht' : t ≤ 3)
    (hl : 2 * (k : Int) ≤ hi + 1 - lo)
    (hm : ∀ j : Int, 0 ≤ j → j < k → P (s.E m (lo + (minMaxSample (hi + 1 - lo).toNat k).1 + j * (minMaxSample (hi + 1 - lo).toNat k).2.1))) :
    qw less Q (lswPivot ws s lo hi k : Prog V Sp Int) m n fun _ _ _ => True := by
  have hP : 2 ^ 31 ≤ 2 ^ (8 * ws - 1) := by rcases hws with rfl | rfl <;> norm_num
  have hP' : (2 : Int) ^ (8 * ws - 1) = ((2 ^ (8 * ws - 1) : Nat) : Int) := by push_cast; rfl
  have hwrap : ∀ x : Int, 0 ≤ x → x < 2 ^ (8 * ws - 1) → wrapInt ws x = x := fun x a b =>
    wrapInt_id hws (by rw [hP']; omega) b
  unfold FitsInt at hfit
  unfold lswPivot
  have hb := minMaxSample_bounds (slen := (hi + 1 - lo).toNat) (n := k) (by omega) (by omega)
  have hov := minMaxSample_over (slen := (hi + 1 - lo).toNat) (n := k) (by omega) (by omega)
  have hdiv : (hi + 1 - lo).toNat / k ≤ (hi + 1 - lo).toNat / 5 := Nat.div_le_div_left (by omega) (by norm_num)
  rcases hmm : minMaxSample (hi + 1 - lo).toNat k with ⟨f, st, la⟩
  rw [hmm] at hb hov hm
  obtain ⟨b1, b2, b3⟩ := hb
  dsimp only at b1 b2 b3 hov hm ⊢
  have e2 : (la : Int) = f + (2 * t : Int) * st := by
    rw [b2, hn]; push_cast; simp
  have hs : (0 : Int) < st := by omega
  have hlt : ∀ j : Int, 0 ≤ j → j ≤ 2 * t → (0 : Int) ≤ j * st ∧ j * st ≤ 2 * t * st := fun j j0 j1 =>
    ⟨mul_nonneg j0 hs.le, mul_le_mul_of_nonneg_right j1 hs.le⟩
  have hfirst : lo + (f : Int) + 1 * (st : Int) = lo + f + st := by ring
  rw [← hfirst]
  have t1 := hlt t (by omega) (by omega)
  have t3 : (1 : Int) * st ≤ 2 * t * st := mul_le_mul_of_nonneg_right (by omega) hs.le
  refine qw_bind (qw_mono (K := fun _ m _ => ∀ j : Int, 0 ≤ j → j < k → P (s.E m (lo + f + j * st))) ?_ ?_)
  · refine qw_loop (fun h m _ => (∃ j : Int, h = lo + f + j * st ∧ 1 ≤ j ∧ j ≤ k) ∧ ∀ j : Int, 0 ≤ j → j < k → P (s.E m (lo + f + j * st))) ?_ _ _ _ _
      ⟨⟨1, rfl, by omega, by omega⟩, hm⟩
    rintro h m n ⟨⟨j, rfl, g1, g2⟩, h2⟩
    by_cases hcc : lo + (f : Int) + j * st ≤ lo + la
    · rw [if_pos hcc]
      have hj : j ≤ 2 * t := by
        have : j * (st : Int) ≤ 2 * t * st := by omega
        exact le_of_mul_le_mul_right this hs
      have := hlt j (by omega) hj
      have e0 : (1 : Int) * st ≤ j * st := mul_le_mul_of_nonneg_right (by omega) hs.le
      refine qw_bind (qw_mono (qw_inner (A := fun i => ∃ j : Int, i = lo + f + j * st ∧ 0 ≤ j ∧ j < k) (P := P) ?_ ?_ (fun x y hx _ => hQ1 x y hx)
        ⟨j, rfl, by omega, by omega⟩ (by omega) ?_) ?_)
      · rintro l ⟨i, rfl, i0, i1⟩ hb
        refine ⟨i - 1, by ring, ?_, by omega⟩
        by_contra hh
        have : i = 0 := by omega
        subst this
        simp at hb
      · rintro l ⟨i, rfl, i0, i1⟩
        have := hlt i i0 (by omega)
        omega
      · rintro _ ⟨i, rfl, i0, i1⟩
        exact h2 i i0 i1
      · intro _ m n h3
        have e3 : lo + (f : Int) + j * st + st = lo + f + (j + 1) * st := by ring
        have e4 : lo + (f : Int) + j * st + st < 2 ^ (8 * ws - 1) := by
          rw [hP']; omega
        refine ⟨⟨j + 1, ?_, by omega, by omega⟩, fun i i0 i1 => h3 _ ⟨i, rfl, i0, i1⟩⟩
        rw [hwrap _ (by omega) e4, e3]
    · rw [if_neg hcc]; exact h2
  · intro _ m n h2
    have f0 := h2 0 le_rfl (by omega)
    have f1 := h2 (2 * t) (by omega) (by omega)
    rw [show lo + (f : Int) + 0 * st = lo + f by ring] at f0
    rw [show lo + (f : Int) + 2 * t * st = lo + la by omega] at f1
    have key : ∀ m' n', s.E m' (lo + la) = s.E m (lo + la) → qw less Q (do
        let _ ← lsw s hi (lo + la) hi (lo + la)
        pure (meanI (lo + f) (lo + la)) : Prog V Sp Int) m' n' fun _ _ _ => True := by
      intro m' n' e
      refine qw_bind (qw_lsw fun _ _ _ _ => ⟨hQ2 _ _ (by rw [e]; exact f1), fun _ => ?_, fun _ => ?_⟩) <;> trivial
    refine qw_bind (qw_lsw fun k1 k2 _ _ => ⟨hQ1 _ _ f0, fun _ => key _ _ ?_, fun _ => key _ _ rfl⟩)
    rw [E_swap k1 k2 (by omega), if_neg (by omega), if_neg (by omega)]

/-- a partition compares the pivot with all elements -/
theorem qw_partOne {p : V} (hirr : less p p = false) (hQ1 : ∀ x, Q x p) (hQ2 : ∀ x, Q p x) {l0 pv h0 : Int} {m : Mem V} {n : Nat}
    (hp : s.E m pv = p) : qw less Q (lswPartOne s l0 pv h0 : Prog V Sp Int) m n fun _ _ n' => h0 - l0 ≤ (n' : Int) - n := by
  unfold lswPartOne
  refine qw_loop (fun st m n' => s.E m pv = p ∧ match st with
    | .head l h => h0 - l0 ≤ (n' : Int) - n + (h - l)
    | .scan l h => h0 - l0 ≤ (n' : Int) - n + (h - l) - 1 ∧ h ≠ pv
    | .second l h => h0 - l0 ≤ (n' : Int) - n + (h - l) - 2 ∧ l ≠ pv) ?_ _ _ _ _ ⟨hp, by omega⟩
  have hne : ∀ {m : Mem V} {i : Int}, s.E m pv = p → less (s.E m i) (s.E m pv) = true → i ≠ pv := by
    rintro m i e h rfl
    rw [e, hirr] at h; cases h
  have hne' : ∀ {m : Mem V} {i : Int}, s.E m pv = p → less (s.E m pv) (s.E m i) = true → i ≠ pv := by
    rintro m i e h rfl
    rw [e, hirr] at h; cases h
  rintro (⟨l, h⟩ | ⟨l, h⟩ | ⟨l, h⟩) m n' ⟨he, hI⟩
  · dsimp only at hI
    simp only [lswPartOneStep]
    by_cases hc : l < h
    · rw [if_pos hc]
      refine qw_bind (qw_lsw fun _ _ _ _ => ⟨by rw [he]; exact hQ1 _, fun hb => ?_, fun hb => ?_⟩)
      · rw [if_pos rfl, swapM_self]
        exact ⟨he, by push_cast; omega, hne he hb⟩
      · rw [if_neg (by simp)]
        refine qw_bind (qw_lsw fun _ _ _ _ => ⟨by rw [he]; exact hQ2 _, fun hb => ?_, fun hb => ?_⟩)
        · rw [if_pos rfl, swapM_self]
          exact ⟨he, by push_cast; omega, hne' he hb⟩
        · rw [if_neg (by simp)]
          exact ⟨he, by push_cast; omega⟩
    · rw [if_neg hc]
      by_cases hc2 : l = h ∧ h ≠ pv
      · rw [if_pos hc2]
        refine qw_bind (qw_lsw fun _ _ _ _ => ⟨by rw [he]; exact hQ1 _, fun hb => ?_, fun hb => ?_⟩)
        · rw [if_pos rfl]
          show h0 - l0 ≤ ((n' + 1 : Nat) : Int) - n
          push_cast; omega
        · rw [if_neg (by simp)]
          show h0 - l0 ≤ ((n' + 1 : Nat) : Int) - n
          push_cast; omega
      · rw [if_neg hc2]
        show h0 - l0 ≤ (n' : Int) - n
        omega
  · obtain ⟨hI, hh⟩ := hI
    simp only [lswPartOneStep]
    refine qw_bind (qw_lsw fun k1 k2 k3 _ => ⟨by rw [he]; exact hQ2 _, fun hb => ?_, fun hb => ?_⟩)
    · rw [if_pos rfl]
      refine ⟨?_, by push_cast; omega⟩
      rw [E_swap k3 k2 k1.1, if_neg (hne' he hb).symm, if_neg hh.symm, he]
    · rw [if_neg (by simp)]
      by_cases hc : l + 1 ≥ h
      · rw [if_pos hc]
        show h0 - l0 ≤ ((n' + 1 : Nat) : Int) - n
        push_cast; omega
      · rw [if_neg hc]
        exact ⟨he, by push_cast; omega, hh⟩
  · obtain ⟨hI, hh⟩ := hI
    simp only [lswPartOneStep]
    by_cases hc : l ≥ h - 1
    · rw [if_pos hc]
      show h0 - l0 ≤ (n' : Int) - n
      omega
    · rw [if_neg hc]
      refine qw_bind (qw_lsw fun k1 k2 k3 k4 => ⟨by rw [he]; exact hQ1 _, fun hb => ?_, fun hb => ?_⟩)
      · rw [if_pos rfl]
        refine ⟨?_, by push_cast; omega⟩
        rw [E_swap k3 k4 k2.1, if_neg hh.symm, if_neg (hne he hb).symm, he]
      · rw [if_neg (by simp)]
        exact ⟨he, by push_cast; omega, hh⟩

/-! ## Choosing the order -/

/-- different elements at different positions -/
def Dist (s : Slice) (m : Mem V) (lo hi : Int) : Prop :=
  ∀ i j, lo ≤ i → i ≤ hi → lo ≤ j → j ≤ hi → s.E m i = s.E m j → i = j

theorem Dist.rp {m m' : Mem V} {lo hi : Int} (h0 : 0 ≤ lo) (h : Dist s m lo hi) (hr : RP (s.seg lo hi).rng m m') : Dist s m' lo hi := by
  obtain ⟨σ, h1, h2⟩ := hr
  intro i j i0 i1 j0 j1 e
  obtain ⟨i', a0, a1, a2⟩ := seg_mem h0 (perm_mem h1 (ad_mem_seg (s := s) h0 i0 i1))
  obtain ⟨j', b0, b1, b2⟩ := seg_mem h0 (perm_mem h1 (ad_mem_seg (s := s) h0 j0 j1))
  have e1 : s.E m' i = s.E m i' := by rw [← ad_E, h2, a2]; rfl
  have e2 : s.E m' j = s.E m j' := by rw [← ad_E, h2, b2]; rfl
  rw [e1, e2] at e
  have := h i' j' a0 a1 b0 b1 e
  subst this
  exact ad_inj (by omega) (by omega) (σ.injective (a2.trans b2.symm))

theorem RP.seg_mem' {m m' : Mem V} {lo hi : Int} (h0 : 0 ≤ lo) (hr : RP (s.seg lo hi).rng m m') {i : Int} (i0 : lo ≤ i) (i1 : i ≤ hi) :
    ∃ j, lo ≤ j ∧ j ≤ hi ∧ s.E m' j = s.E m i := by
  obtain ⟨σ, h1, h2⟩ := hr.symm
  obtain ⟨j, a0, a1, a2⟩ := seg_mem h0 (perm_mem h1 (ad_mem_seg (s := s) h0 i0 i1))
  exact ⟨j, a0, a1, by rw [← ad_E (i := i), h2, a2]; rfl⟩

/-- What has been decided about the order of the elements: some have a rank below `N0` and are less than all others. Those in `G` are not
in the range any more, at most three still are. -/
structure Chain (s : Slice) (m : Mem V) (lo hi : Int) (r0 : V → Nat) (N0 : Nat) (G : V → Prop) (L : List V) : Prop where
  le : ∀ x, r0 x ≤ N0
  inj : ∀ x y, r0 x = r0 y → r0 x < N0 → x = y
  gone : ∀ i, lo ≤ i → i ≤ hi → ¬ G (s.E m i)
  rng : ∀ x, r0 x < N0 → ¬ G x → ∃ i, lo ≤ i ∧ i ≤ hi ∧ s.E m i = x
  mem : ∀ i, lo ≤ i → i ≤ hi → r0 (s.E m i) < N0 → s.E m i ∈ L
  len : L.length ≤ 3

/-- the comparator of a rank -/
def ltOf (r : V → Nat) (x y : V) : Bool := decide (r x < r y)

/-- the pairs a rank below `N` decides -/
def Known (r : V → Nat) (N : Nat) (x y : V) : Prop := r x < N ∨ r y < N ∨ x = y

theorem ltOf_ok (r : V → Nat) : CmpOK (fun _ _ x y b => b = ltOf r x y) r where
  irrefl i x h := by simp [ltOf] at h
  tru i j x y h := by simp [ltOf] at h; omega
  fls i j x y h := by simp [ltOf] at h; omega
  tot i j x y := ⟨_, rfl⟩

theorem List.length_le_of_nodup {l l' : List V} (h : l.Nodup) (hs : l ⊆ l') : l.length ≤ l'.length :=
  (List.subperm_of_subset h hs).length_le

/-- one round -/
structure Killed (ws : Nat) (s : Slice) (lo hi : Int) (m : Mem V) (G : V → Prop) (r0 r1 : V → Nat) (N1 : Nat) (pv l : Int) (m3 : Mem V)
    (L' : List V) : Prop where
  refines : ∀ x y, r0 x < r0 y → r1 x < r1 y
  le : ∀ x, r1 x ≤ N1
  inj : ∀ x y, r1 x = r1 y → r1 x < N1 → x = y
  run : ∃ (k1 k2 k3 : Nat) (m1 m2 : Mem V), hi - lo - 2 ≤ (k2 : Int) ∧
    Ex (ltOf r1) (Known r1 N1) (lswPivot ws s lo hi (nsLong - 1) : Prog V LSp Int) m k1 pv m1 ∧
    Ex (ltOf r1) (Known r1 N1) (lswPartOne s (lo + 1) pv (hi - 1) : Prog V LSp Int) m1 k2 l m2 ∧
    Ex (ltOf r1) (Known r1 N1) (lswInsertion s lo (l - 1) : Prog V LSp Unit) m2 k3 () m3
  lo_lt : lo < l
  few : l ≤ lo + 6
  rp : RP (s.seg lo hi).rng m m3
  low : ∀ i, lo ≤ i → i < l → r1 (s.E m3 i) < N1
  rng : ∀ x, r1 x < N1 → ¬ G x → ∃ i, lo ≤ i ∧ i ≤ hi ∧ s.E m3 i = x
  len : L'.length ≤ 3
  mem : ∀ j, l ≤ j → j ≤ hi → r1 (s.E m3 j) < N1 → s.E m3 j ∈ L'

open Classical in
theorem kill_round {ws : Nat} (hws : ws = 4 ∨ ws = 8) (hfit : FitsInt ws s.len) {lo hi : Int} {m : Mem V} {r0 : V → Nat} {N0 : Nat}
    {G : V → Prop} {L : List V} (h0 : 0 ≤ lo) (h1 : hi < s.len) (hl : 18 ≤ hi - lo) (hd : Dist s m lo hi) (hch : Chain s m lo hi r0 N0 G L) :
    ∃ r1 N1 pv l m3 L', Killed ws s lo hi m G r0 r1 N1 pv l m3 L' := by
  have hb := minMaxSample_bounds (slen := (hi + 1 - lo).toNat) (n := 5) (by omega) (by omega)
  obtain ⟨f, st, la, hmm⟩ : ∃ f st la, minMaxSample (hi + 1 - lo).toNat 5 = (f, st, la) := ⟨_, _, _, rfl⟩
  rw [hmm] at hb
  obtain ⟨b1, b2, b3⟩ := hb
  dsimp only at b1 b2 b3
  -- the samples
  let S : List V := (List.range 5).map fun j : Nat => s.E m (lo + f + (j : Int) * st)
  have hSl : S.length = 5 := by simp [S]
  have hpos : ∀ j : Int, 0 ≤ j → j < 5 → lo ≤ lo + f + j * st ∧ lo + f + j * st ≤ hi := by
    intro j j0 j1
    have a1 : 0 ≤ j * (st : Int) := mul_nonneg j0 (by omega)
    have a2 : j * (st : Int) ≤ 4 * st := mul_le_mul_of_nonneg_right (by omega) (by omega)
    omega
  have hS : ∀ x, x ∈ S ↔ ∃ j : Int, 0 ≤ j ∧ j < 5 ∧ s.E m (lo + f + j * st) = x := by
    intro x
    constructor
    · intro h
      obtain ⟨j, hj, e⟩ := List.mem_map.1 h
      rw [List.mem_range] at hj
      exact ⟨j, by omega, by omega, e⟩
    · rintro ⟨j, j0, j1, e⟩
      obtain ⟨k, rfl⟩ : ∃ k : Nat, j = k := ⟨j.toNat, by omega⟩
      exact List.mem_map.2 ⟨k, List.mem_range.2 (by omega), e⟩
  let r1 : V → Nat := fun x => if r0 x < N0 then r0 x else N0 + S.idxOf x
  let N1 := N0 + 5
  have hr1 : ∀ x, r1 x = if r0 x < N0 then r0 x else N0 + S.idxOf x := fun x => rfl
  have hlt1 : ∀ x, r1 x < N1 ↔ r0 x < N0 ∨ x ∈ S := by
    intro x
    rw [hr1]
    split_ifs with hc
    · exact ⟨fun _ => .inl hc, fun _ => by show r0 x < N0 + 5; omega⟩
    · rw [← List.idxOf_lt_length_iff, hSl]
      show N0 + _ < N0 + 5 ↔ _
      omega
  have hlt0 : ∀ x, r1 x < N0 ↔ r0 x < N0 := by
    intro x
    rw [hr1]
    split_ifs with hc
    · exact Iff.rfl
    · omega
  have hle : ∀ x, r1 x ≤ N1 := by
    intro x
    rw [hr1]
    have := S.idxOf_le_length (a := x)
    split_ifs with hc
    · show r0 x ≤ N0 + 5; omega
    · show N0 + _ ≤ N0 + 5; omega
  have hinj : ∀ x y, r1 x = r1 y → r1 x < N1 → x = y := by
    intro x y e hx
    by_cases hx0 : r0 x < N0
    · have hy0 : r0 y < N0 := by rw [← hlt0, ← e, hlt0]; exact hx0
      refine hch.inj x y ?_ hx0
      rw [hr1, hr1, if_pos hx0, if_pos hy0] at e
      exact e
    · have hy0 : ¬ r0 y < N0 := by rw [← hlt0, ← e, hlt0]; exact hx0
      have hxS : x ∈ S := ((hlt1 x).1 hx).resolve_left hx0
      rw [hr1, hr1, if_neg hx0, if_neg hy0] at e
      exact (List.idxOf_inj hxS).1 (by omega)
  have href : ∀ x y, r0 x < r0 y → r1 x < r1 y := by
    intro x y h
    have hx0 : r0 x < N0 := lt_of_lt_of_le h (hch.le y)
    rw [hr1, hr1, if_pos hx0]
    split_ifs with hc
    · exact h
    · omega
  have hc := ltOf_ok r1
  have hcmp : ∀ (_ _ : Nat) x y, ltOf r1 x y = ltOf r1 x y := fun _ _ _ _ => rfl
  -- pivot
  have hQ1 : ∀ x y, r1 x < N1 → Known r1 N1 x y := fun x y h => .inl h
  have hQ2 : ∀ x y, r1 y < N1 → Known r1 N1 x y := fun x y h => .inr (.inl h)
  obtain ⟨k1, pv, m1, x1, ⟨⟨hp, -, -⟩, mm, hmid⟩, -⟩ := ex_of (Q := Known r1 N1) (Sp := LSp) (n := 0) (cmp := fun _ _ x y b => b = ltOf r1 x y) hcmp
    (lswPivot_mid (W := (s.seg lo hi).rng) (R := ∅) hc.toCmpW hws hfit (t := 2) (n := 5) (m := m) h0 h1 rfl le_rfl (by omega) (by omega) subset_rfl)
    (qw_pivot hws hfit (P := fun x => r1 x < N1) hQ1 hQ2 h0 h1 (t := 2) rfl le_rfl (by omega) (by omega) (by
      intro j j0 j1
      rw [hmm, hlt1]
      exact .inr ((hS _).2 ⟨j, j0, by omega, rfl⟩)))
  rw [hmm] at hmid
  dsimp only at hmid
  have hp1 := hp.lt; have hp2 := hp.gt
  -- the sorted samples
  have hsub : lsamp s (lo + f) st (2 * 2 + 1) ⊆ (s.seg lo hi).rng := by
    rintro a ⟨j, j0, j1, rfl⟩
    have := hpos j j0 (by omega)
    exact ad_mem_seg h0 this.1 this.2
  let T : Int → V := fun j => s.E mm (lo + f + j * st)
  have hTS : ∀ j : Int, 0 ≤ j → j < 5 → T j ∈ S := by
    intro j j0 j1
    exact hmid.rp.all (p := fun x => x ∈ S) (by
      rintro a ⟨i, i0, i1, rfl⟩
      exact (hS _).2 ⟨i, i0, by omega, rfl⟩) _ ⟨j, j0, by omega, rfl⟩
  have hST : ∀ x ∈ S, ∃ j : Int, 0 ≤ j ∧ j < 5 ∧ T j = x := by
    intro x hx
    obtain ⟨j, j0, j1, rfl⟩ := (hS x).1 hx
    exact hmid.rp.symm.all (p := fun x => ∃ j : Int, 0 ≤ j ∧ j < 5 ∧ T j = x) (by
      rintro a ⟨i, i0, i1, rfl⟩
      exact ⟨i, i0, by omega, rfl⟩) _ ⟨j, j0, by omega, rfl⟩
  have hTlt : ∀ j : Int, 0 ≤ j → j < 5 → r1 (T j) < N1 := fun j j0 j1 => (hlt1 _).2 (.inr (hTS j j0 j1))
  have hTle : ∀ i j : Int, 0 ≤ i → i ≤ j → j < 5 → r1 (T i) ≤ r1 (T j) := by
    intro i j i0 ij j1
    rcases eq_or_lt_of_le ij with rfl | ij
    · exact le_rfl
    · exact hmid.sorted i j i0 ij (by omega)
  have hTinj : ∀ i j : Int, 0 ≤ i → i < 5 → 0 ≤ j → j < 5 → T i = T j → i = j := by
    intro i j i0 i1 j0 j1 e
    have a1 := hpos i i0 i1
    have a2 := hpos j j0 j1
    have := hd.rp h0 (hmid.rp.mono hsub) _ _ a1.1 a1.2 a2.1 a2.2 e
    exact (mul_step_inj (by omega)).1 this
  have hpv : s.E m1 pv = T 2 := by
    rw [hmid.eq, hmid.pos]; rfl
  have hpN : r1 (s.E m1 pv) < N1 := by rw [hpv]; exact hTlt 2 (by omega) (by omega)
  -- partition
  obtain ⟨k2, l, m2, x2, hk, hk2⟩ := ex_of (Q := Known r1 N1) (Sp := LSp) (n := 0) (cmp := fun _ _ x y b => b = ltOf r1 x y) hcmp
    (lswPartOne_spec (W := (s.seg lo hi).rng) (R := ∅) (m0 := m1) hc (l0 := lo + 1) (pv := pv) (h0 := hi - 1) (by omega) (by omega) (by omega)
      ⟨by omega, by omega⟩ (but_sub h0 subset_rfl) (.inl (ad_mem_seg h0 hp.lt.le hp.gt.le)))
    (qw_partOne (Q := Known r1 N1) (less := ltOf r1) (p := s.E m1 pv) (decide_eq_false (lt_irrefl _)) (fun x => hQ2 x _ hpN) (fun x => hQ1 _ x hpN) rfl)
  obtain ⟨q0, q1, hrp, hlow, hhigh⟩ := hp.part h0 hk
  -- insertion sort of the few
  obtain ⟨k3, u, m3, x3, ⟨hi3, -⟩, -⟩ := ex_of (Q := Known r1 N1) (Sp := LSp) (n := 0) (cmp := fun _ _ x y b => b = ltOf r1 x y) hcmp
    (lswInsertion_spec (W := (s.seg lo hi).rng) (R := ∅) (m := m2) hc.toCmpW (lo := lo) (hi := l - 1) h0 (by omega) (by omega) (seg_mono h0 le_rfl (by omega)))
    (qw_insertion (P := fun x => r1 x < N1) h0 (fun x y h _ => hQ1 x y h) fun i i0 i1 => lt_of_le_of_lt (hlow i i0 (by omega)) hpN)
  have hlow3 : ∀ i, lo ≤ i → i < l → r1 (s.E m3 i) ≤ r1 (T 2) := by
    intro i i0 i1
    refine hi3.all (p := fun x => r1 x ≤ r1 (T 2)) ?_ _ (ad_mem_seg h0 i0 (by omega))
    intro a ha
    obtain ⟨j, j0, j1, rfl⟩ := seg_mem h0 ha
    rw [← hpv]
    exact hlow j j0 (by omega)
  have hhigh3 : ∀ j, l ≤ j → j ≤ hi → r1 (T 2) ≤ r1 (s.E m3 j) := by
    intro j j0 j1
    have : s.E m3 j = s.E m2 j := by
      refine hi3.E_out ?_
      intro ha
      obtain ⟨i, i0, i1, e⟩ := seg_mem h0 ha
      have := ad_inj (by omega) (by omega) e
      omega
    rw [this, ← hpv]
    exact hhigh j j0 j1
  have hrp3 : RP (s.seg lo hi).rng m m3 := hrp.trans (hi3.mono (seg_mono h0 le_rfl (by omega)))
  have hd3 := hd.rp h0 hrp3
  have hmem : ∀ x, r0 x < N0 → (∃ i, lo ≤ i ∧ i ≤ hi ∧ s.E m i = x) → x ∈ L := by
    rintro x hx ⟨i, i0, i1, rfl⟩
    exact hch.mem i i0 i1 hx
  have hT2 : r1 (T 2) < N1 := hTlt 2 (by omega) (by omega)
  refine ⟨r1, N1, pv, l, m3, [T 2, T 3, T 4], href, hle, hinj, ⟨k1, k2, k3, m1, m2, by push_cast at hk2; omega, x1, x2, x3⟩, q0, ?_, hrp3,
    fun i i0 i1 => lt_of_le_of_lt (hlow3 i i0 i1) hT2, ?_, le_rfl, ?_⟩
  · -- at most six
    have hnd : ((List.range (l - lo).toNat).map fun i : Nat => s.E m3 (lo + (i : Int))).Nodup := by
      refine List.Nodup.map_on ?_ List.nodup_range
      intro i hi' j hj e
      rw [List.mem_range] at hi' hj
      have := hd3 _ _ (by omega) (by omega) (by omega) (by omega) e
      omega
    have hss : ((List.range (l - lo).toNat).map fun i : Nat => s.E m3 (lo + (i : Int))) ⊆ L ++ [T 0, T 1, T 2] := by
      intro x hx
      obtain ⟨i, hi', rfl⟩ := List.mem_map.1 hx
      rw [List.mem_range] at hi'
      have hle2 := hlow3 (lo + i) (by omega) (by omega)
      rw [List.mem_append]
      rcases (hlt1 _).1 (lt_of_le_of_lt hle2 hT2) with h | h
      · exact .inl (hmem _ h (hrp3.symm.seg_mem' h0 (by omega) (by omega)))
      · right
        obtain ⟨j, j0, j1, e⟩ := hST _ h
        by_cases hj : j < 2
        · rcases (by omega : j = 0 ∨ j = 1) with rfl | rfl <;> simp [← e]
        · have := hTle 2 j (by omega) (by omega) j1
          rw [e] at this
          have := hinj _ _ (le_antisymm hle2 this) (lt_of_le_of_lt hle2 hT2)
          rw [this]; simp
    have := List.length_le_of_nodup hnd hss
    have hL := hch.len
    simp at this
    omega
  · intro x hx hG
    rcases (hlt1 x).1 hx with h | h
    · obtain ⟨i, i0, i1, rfl⟩ := hch.rng x h hG
      exact hrp3.seg_mem' h0 i0 i1
    · obtain ⟨j, j0, j1, rfl⟩ := (hS x).1 h
      have := hpos j j0 j1
      exact hrp3.seg_mem' h0 this.1 this.2
  · intro j j0 j1 hN
    have hge := hhigh3 j j0 j1
    have hxr := hrp3.symm.seg_mem' (s := s) h0 (by omega : lo ≤ j) j1
    generalize s.E m3 j = x at *
    by_cases hxS : x ∈ S
    · obtain ⟨i, i0, i1, rfl⟩ := hST x hxS
      by_cases hi2 : 2 ≤ i
      · rcases (by omega : i = 2 ∨ i = 3 ∨ i = 4) with rfl | rfl | rfl <;> simp
      · have := hTle i 2 i0 (by omega) (by omega)
        rw [hinj _ _ (le_antisymm this hge) hN]; simp
    · exfalso
      have hx0 : r0 x < N0 := ((hlt1 x).1 hN).resolve_right hxS
      have hx1 : r1 x < N0 := (hlt0 x).2 hx0
      have hin : ∀ i : Int, 0 ≤ i → i ≤ 2 → T i ∈ L := by
        intro i i0 i1
        have a := hpos i i0 (by omega)
        refine hmem _ ((hlt0 _).1 ?_) ((hmid.rp.mono hsub).symm.seg_mem' h0 a.1 a.2)
        have := hTle i 2 i0 i1 (by omega)
        omega
      have hne : ∀ i : Int, 0 ≤ i → i ≤ 2 → T i ≠ x := fun i i0 i1 e => hxS (by rw [← e]; exact hTS i i0 (by omega))
      have hnd : [T 0, T 1, T 2, x].Nodup := by
        have a1 : T 0 ≠ T 1 := fun e => by have := hTinj 0 1 (by omega) (by omega) (by omega) (by omega) e; omega
        have a2 : T 0 ≠ T 2 := fun e => by have := hTinj 0 2 (by omega) (by omega) (by omega) (by omega) e; omega
        have a3 : T 1 ≠ T 2 := fun e => by have := hTinj 1 2 (by omega) (by omega) (by omega) (by omega) e; omega
        simp [a1, a2, a3, hne 0, hne 1, hne 2]
      have hss : [T 0, T 1, T 2, x] ⊆ L := by
        intro y hy
        simp only [List.mem_cons, List.not_mem_nil, or_false] at hy
        rcases hy with rfl | rfl | rfl | rfl
        · exact hin 0 (by omega) (by omega)
        · exact hin 1 (by omega) (by omega)
        · exact hin 2 (by omega) (by omega)
        · exact hmem _ hx0 hxr
      have := List.length_le_of_nodup hnd hss
      have hL := hch.len
      simp at this
      omega

/-- an order that does not contradict what has been decided -/
theorem exists_rank {m : Mem V} {lo hi : Int} (r0 : V → Nat) :
    ∃ r : V → Nat, (∀ x y, r0 x < r0 y → r x < r y) ∧
      ∀ i j, lo ≤ i → i ≤ hi → lo ≤ j → j ≤ hi → r (s.E m i) = r (s.E m j) → s.E m i = s.E m j := by
  classical
  let S : List V := (List.range (hi + 1 - lo).toNat).map fun j : Nat => s.E m (lo + (j : Int))
  have hS : ∀ i, lo ≤ i → i ≤ hi → s.E m i ∈ S := by
    intro i i0 i1
    refine List.mem_map.2 ⟨(i - lo).toNat, List.mem_range.2 (by omega), ?_⟩
    rw [show lo + (((i - lo).toNat : Nat) : Int) = i by omega]
  have hle : ∀ x, S.idxOf x < S.length + 1 := fun x => Nat.lt_succ_of_le S.idxOf_le_length
  refine ⟨fun x => (S.length + 1) * r0 x + S.idxOf x, ?_, ?_⟩
  · intro x y h
    have h1 := hle x
    have h2 : (S.length + 1) * (r0 x + 1) ≤ (S.length + 1) * r0 y := Nat.mul_le_mul_left _ h
    rw [Nat.mul_succ] at h2
    dsimp only
    omega
  · intro i j i0 i1 j0 j1 e
    dsimp only at e
    have h1 := congrArg (· % (S.length + 1)) e
    rw [Nat.mul_add_mod, Nat.mul_add_mod, Nat.mod_eq_of_lt (hle _), Nat.mod_eq_of_lt (hle _)] at h1
    exact (List.idxOf_inj (hS i i0 i1)).1 h1

theorem killer {C : Conf} (h8 : 8 < C.maxLenInsFC) (hr : 2 * C.maxLenInsFC < C.maxLenRecFC) (hws : C.wordSize = 4 ∨ C.wordSize = 8)
    (hfit : FitsInt C.wordSize s.len) : ∀ (f d : Nat) (lo hi : Int) (m : Mem V) (r0 : V → Nat) (N0 : Nat) (G : V → Prop) (L : List V),
    0 ≤ lo → hi < s.len → C.maxLenRecFC ≤ hi - lo → hi + 1 - lo ≤ f → Dist s m lo hi → Chain s m lo hi r0 N0 G L →
    ∃ r : V → Nat, (∀ x y, r0 x < r0 y → r x < r y) ∧
      (∀ i j, lo ≤ i → i ≤ hi → lo ≤ j → j ≤ hi → r (s.E m i) = r (s.E m j) → s.E m i = s.E m j) ∧
      ∃ n, (lswLong C s f d lo hi false).atLeast (ltOf r) m n ∧ (hi + 1 - lo) ^ 2 ≤ 12 * (n : Int) + C.maxLenRecFC ^ 2 := by
  intro f
  induction f with
  | zero => intro d lo hi m r0 N0 G L _ _ h1 h2; omega
  | succ f ih =>
    intro d lo hi m r0 N0 G L h0 h1 hl hf hd hch
    obtain ⟨r1, N1, pv, l, m3, L', K⟩ := kill_round hws hfit h0 h1 (by omega) hd hch
    obtain ⟨k1, k2, k3, m1, m2, hk2, x1, x2, x3⟩ := K.run
    have hlo := K.lo_lt; have hfew := K.few
    have hd3 := hd.rp h0 K.rp
    -- the order of the others
    have key : ∃ r : V → Nat, (∀ x y, r1 x < r1 y → r x < r y) ∧
        (∀ i j, l ≤ i → i ≤ hi → l ≤ j → j ≤ hi → r (s.E m3 i) = r (s.E m3 j) → s.E m3 i = s.E m3 j) ∧
        ∃ n, (if hi - l ≥ C.maxLenRecFC then lswLong C s f d l hi false
          else match d with
            | 0 => .overflow
            | d + 1 => lswShort C s f d l hi : Prog V LSp Unit).atLeast (ltOf r) m3 n ∧
          (hi - lo + 1) ^ 2 ≤ 12 * ((hi - lo - 2 : Int) + n) + C.maxLenRecFC ^ 2 := by
      by_cases hc : hi - l ≥ C.maxLenRecFC
      · obtain ⟨r, q1, q2, n, q3, q4⟩ := ih d l hi m3 r1 N1 (fun x => G x ∨ ∃ i, lo ≤ i ∧ i < l ∧ s.E m3 i = x) L' (by omega) h1 hc (by omega)
          (fun i j i0 i1 j0 j1 e => hd3 i j (by omega) i1 (by omega) j1 e) {
            le := K.le
            inj := K.inj
            gone := by
              rintro j j0 j1 (hg | ⟨i, i0, i1, e⟩)
              · obtain ⟨i, i0, i1, e⟩ := K.rp.symm.seg_mem' (s := s) h0 (by omega : lo ≤ j) j1
                exact hch.gone i i0 i1 (by rw [e]; exact hg)
              · have := hd3 i j i0 (by omega) (by omega) j1 e
                omega
            rng := by
              intro x hx hG
              obtain ⟨i, i0, i1, e⟩ := K.rng x hx fun h => hG (.inl h)
              refine ⟨i, ?_, i1, e⟩
              by_contra hh
              exact hG (.inr ⟨i, i0, by omega, e⟩)
            mem := K.mem
            len := K.len }
        refine ⟨r, q1, q2, n, by rw [if_pos hc]; exact q3, ?_⟩
        have e1 : hi + 1 - l ≥ hi + 1 - lo - 6 := by omega
        have e2 : (hi + 1 - lo - 6) ^ 2 ≤ (hi + 1 - l) ^ 2 := pow_le_pow_left₀ (by omega) e1 2
        nlinarith
      · obtain ⟨r, q1, q2⟩ := exists_rank (s := s) (m := m3) (lo := l) (hi := hi) r1
        refine ⟨r, q1, q2, 0, atLeast_zero, ?_⟩
        have e1 : (C.maxLenRecFC : Int) ≥ hi + 1 - lo - 6 := by omega
        have e2 : (hi + 1 - lo - 6) ^ 2 ≤ (C.maxLenRecFC : Int) ^ 2 := pow_le_pow_left₀ (by omega) e1 2
        push_cast
        nlinarith
    obtain ⟨r, q1, q2, n, q3, q4⟩ := key
    have agree : ∀ x y, Known r1 N1 x y → ltOf r x y = ltOf r1 x y := by
      intro x y hk
      unfold ltOf
      rw [decide_eq_decide]
      refine ⟨fun h => ?_, q1 x y⟩
      by_contra hh
      rcases eq_or_lt_of_le (not_lt.1 hh) with e | e
      · have : x = y := by
          rcases hk with h | h | h
          · exact K.inj x y e.symm h
          · exact (K.inj y x e h).symm
          · exact h
        rw [this] at h
        exact lt_irrefl _ h
      · exact lt_asymm h (q1 y x e)
    refine ⟨r, fun x y h => q1 x y (K.refines x y h), ?_, k1 + (k2 + (k3 + n)), ?_, ?_⟩
    · -- different ranks
      have low : ∀ x y, r1 x < N1 → r x = r y → x = y := by
        intro x y hx e
        rcases lt_trichotomy (r1 x) (r1 y) with h | h | h
        · have := q1 x y h; omega
        · exact K.inj x y h hx
        · have := q1 y x h; omega
      have key : ∀ i j, lo ≤ i → i ≤ hi → lo ≤ j → j ≤ hi → r (s.E m3 i) = r (s.E m3 j) → s.E m3 i = s.E m3 j := by
        intro i j i0 i1 j0 j1 e
        by_cases hi' : i < l
        · exact low _ _ (K.low i i0 hi') e
        · by_cases hj' : j < l
          · exact (low _ _ (K.low j j0 hj') e.symm).symm
          · exact q2 i j (by omega) i1 (by omega) j1 e
      intro i j i0 i1 j0 j1 e
      obtain ⟨i', a0, a1, a2⟩ := K.rp.seg_mem' (s := s) h0 i0 i1
      obtain ⟨j', b0, b1, b2⟩ := K.rp.seg_mem' (s := s) h0 j0 j1
      rw [← a2, ← b2] at e ⊢
      exact key i' j' a0 a1 b0 b1 e
    · unfold lswLong
      refine (x1.agree agree).atLeast ((x2.agree agree).atLeast ?_)
      have hsplit : lswSplit lo hi l = (lo, l - 1, l, hi, l - 1 - lo, hi - l) := by
        unfold lswSplit
        dsimp only
        rw [if_pos (by omega)]
      rw [hsplit]
      dsimp only
      rw [if_pos (by omega), if_neg (by omega)]
      exact (x3.agree agree).atLeast q3
    · push_cast
      have : (hi + 1 - lo) ^ 2 = (hi - lo + 1) ^ 2 := by ring
      rw [this]
      nlinarith

end Sorty
