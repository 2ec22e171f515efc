import Verif.Proofs.Exch
import Mathlib.Tactic.Linarith
import Mathlib.Tactic.Ring

/-! # Medians of samples of a range in arbitrary order -/

namespace Sorty

variable {V : Type} {ρ : Type} [LinearOrder ρ] {r : V → ρ} {s : Slice} {𝓜 : Finset (Mem V)} {X Y : Finset Nat}

/-- `p` is a median of the `2h+1` samples at the addresses `Q` -/
structure Middle (r : V → ρ) (Q : Finset Nat) (h : Nat) (m : Mem V) (p : ρ) : Prop where
  le : h + 1 ≤ (Q.filter fun x => r (m x) ≤ p).card
  ge : h + 1 ≤ (Q.filter fun x => p ≤ r (m x)).card

theorem Middle.dual {Q : Finset Nat} {h : Nat} {m : Mem V} {p : ρ} (hm : Middle r Q h m p) :
    Middle (fun v => OrderDual.toDual (r v)) Q h m (OrderDual.toDual p) := ⟨hm.ge, hm.le⟩

/-- there is only one -/
theorem Middle.unique {Q : Finset Nat} {h : Nat} (hQ : Q.card ≤ 2 * h + 1) {m : Mem V} {p q : ρ} (hp : Middle r Q h m p) (hq : Middle r Q h m q) : p = q := by
  have key : ∀ {p q : ρ}, Middle r Q h m p → Middle r Q h m q → ¬ p < q := by
    intro p q hp hq hlt
    have hd : Disjoint (Q.filter fun x => r (m x) ≤ p) (Q.filter fun x => q ≤ r (m x)) := by
      rw [Finset.disjoint_filter]
      intro x _ h1 h2
      exact absurd (h2.trans h1) (not_le.2 hlt)
    have h1 := Finset.card_union_of_disjoint hd
    have h2 := Finset.card_le_card (Finset.union_subset (Finset.filter_subset (fun x => r (m x) ≤ p) Q) (Finset.filter_subset (fun x => q ≤ r (m x)) Q))
    have := hp.le; have := hq.ge
    omega
  exact le_antisymm (not_lt.1 (key hq hp)) (not_lt.1 (key hp hq))

/-- how many elements of the range are greater than `p` -/
def upper (r : V → ρ) (s : Slice) (m : Mem V) (p : ρ) : Nat := lower (fun v => OrderDual.toDual (r v)) s m (OrderDual.toDual p)

theorem Exch.one (h : Exch r s 𝓜 X Y) (hne : 𝓜.Nonempty) : (X ∩ s.fin).card ≤ 1 := by
  obtain ⟨m, hm⟩ := hne
  rw [Finset.card_le_one]
  intro x hx y hy
  rw [Finset.mem_inter, Slice.mem_fin] at hx hy
  exact h.inj m hm x hx.2 y hy.2 (le_antisymm (h.bot m hm x hx.1 hx.2 y hy.2) (h.bot m hm y hy.1 hy.2 x hx.2))

theorem Exch.apart (h : Exch r s 𝓜 X Y) (hne : 𝓜.Nonempty) (h2 : 2 ≤ s.len) {x : Nat} (hx : x ∈ s.rng) (h1 : x ∈ X) : x ∉ Y := by
  intro h3
  obtain ⟨m, hm⟩ := hne
  have key : ∀ a ∈ s.rng, a = x := fun a ha => h.inj m hm a ha x hx (le_antisymm (h.top m hm x h3 hx a ha) (h.bot m hm x h1 hx a ha))
  have e1 := key s.off (show s.off ≤ s.off ∧ s.off < s.off + s.len by omega)
  have e2 := key (s.off + 1) (show s.off ≤ s.off + 1 ∧ s.off + 1 < s.off + s.len by omega)
  omega

theorem Exch.lower_top (h : Exch r s 𝓜 X Y) {m : Mem V} (hm : m ∈ 𝓜) {y : Nat} (hy : y ∈ Y) (hs : y ∈ s.rng) : s.len ≤ lower r s m (r (m y)) + 1 := by
  unfold lower cnt
  have h1 : s.fin.erase y ⊆ (Finset.Ico s.off (s.off + s.len)).filter fun a => r (m a) < r (m y) := by
    intro a ha
    rw [Finset.mem_erase, Slice.mem_fin] at ha
    rw [Finset.mem_filter, Finset.mem_Ico]
    exact ⟨ha.2, lt_of_le_of_ne (h.top m hm y hy hs a ha.2) fun e => ha.1 (h.inj m hm a ha.2 y hs e)⟩
  have h2 := Finset.card_le_card h1
  rw [Finset.card_erase_of_mem (Slice.mem_fin.2 hs), s.card_fin] at h2
  omega

open Classical in
/-- the median is seldom low -/
theorem Exch.low_mid (h : Exch r s 𝓜 X Y) (hne : 𝓜.Nonempty) {Q : Finset Nat} (hQ : Q ⊆ s.fin) {k : Nat} {P : Mem V → ρ} (hP : ∀ m ∈ 𝓜, Middle r Q k m (P m))
    {j : Nat} (hj : j < s.len) :
    (s.len - 2) * ((k + 1 - (Q ∩ X).card) * (𝓜.filter fun m => lower r s m (P m) < j).card) ≤ (Q.filter fun x => x ∉ X ∧ x ∉ Y).card * (j * 𝓜.card) := by
  have h1 : (k + 1 - (Q ∩ X).card) * (𝓜.filter fun m => lower r s m (P m) < j).card ≤
      ∑ x ∈ Q.filter (fun x => x ∉ X ∧ x ∉ Y), (𝓜.filter fun m => lower r s m (r (m x)) < j).card := by
    have e : ∑ x ∈ Q.filter (fun x => x ∉ X ∧ x ∉ Y), (𝓜.filter fun m => lower r s m (r (m x)) < j).card =
        ∑ m ∈ 𝓜, ((Q.filter (fun x => x ∉ X ∧ x ∉ Y)).filter fun x => lower r s m (r (m x)) < j).card := by
      generalize Q.filter (fun x => x ∉ X ∧ x ∉ Y) = Q'
      simp only [Finset.card_filter]
      exact Finset.sum_comm
    rw [e, Finset.card_eq_sum_ones (𝓜.filter _), Finset.mul_sum, Finset.sum_filter]
    refine Finset.sum_le_sum fun m hm => ?_
    split_ifs with hc
    · rw [Nat.mul_one]
      have h2 : (Q.filter fun x => r (m x) ≤ P m) ⊆ (Q ∩ X) ∪ ((Q.filter (fun x => x ∉ X ∧ x ∉ Y)).filter fun x => lower r s m (r (m x)) < j) := by
        intro x hx
        rw [Finset.mem_filter] at hx
        have hl : lower r s m (r (m x)) < j := (lower_mono hx.2).trans_lt hc
        have hxs := Slice.mem_fin.1 (hQ hx.1)
        rw [Finset.mem_union, Finset.mem_inter, Finset.mem_filter, Finset.mem_filter]
        by_cases hX : x ∈ X
        · exact .inl ⟨hx.1, hX⟩
        · refine .inr ⟨⟨hx.1, hX, fun hY => ?_⟩, hl⟩
          have := h.lower_top hm hY hxs
          omega
      have h3 := (Finset.card_le_card h2).trans (Finset.card_union_le _ _)
      have := (hP m hm).le
      omega
    · exact Nat.zero_le _
  refine (Nat.mul_le_mul_left _ h1).trans ?_
  rw [Finset.mul_sum]
  refine (Finset.sum_le_sum (g := fun _ => j * 𝓜.card) fun x hx => ?_).trans_eq (by rw [Finset.sum_const, smul_eq_mul])
  rw [Finset.mem_filter] at hx
  exact h.low_one (h.one hne) (h.dual.one hne) (Slice.mem_fin.1 (hQ hx.1)) hx.2.1 hx.2.2 j

open Classical in
/-- and seldom high -/
theorem Exch.bad_of (h : Exch r s 𝓜 X Y) (hne : 𝓜.Nonempty) (h10 : 10 ≤ s.len) {Q : Finset Nat} (hQ : Q ⊆ s.fin) {k : Nat} (hQc : Q.card = 2 * k + 1)
    {P : Mem V → ρ} (hP : ∀ m ∈ 𝓜, Middle r Q k m (P m)) {j : Nat} (hj : j < s.len) :
    ∃ z w q : Nat, z ≤ 1 ∧ w ≤ 1 ∧ q + z + w = 2 * k + 1 ∧
      (s.len - 2) * ((k + 1 - z) * (𝓜.filter fun m => lower r s m (P m) < j).card) ≤ q * (j * 𝓜.card) ∧
      (s.len - 2) * ((k + 1 - w) * (𝓜.filter fun m => upper r s m (P m) < j).card) ≤ q * (j * 𝓜.card) := by
  have h1 := h.low_mid hne hQ hP hj
  have h2 := h.dual.low_mid hne hQ (P := fun m => OrderDual.toDual (P m)) (fun m hm => (hP m hm).dual) hj
  have e : (Q.filter fun x => x ∉ Y ∧ x ∉ X) = Q.filter fun x => x ∉ X ∧ x ∉ Y := Finset.filter_congr fun x _ => and_comm
  rw [e] at h2
  have c1 : (Q ∩ X).card ≤ 1 := (Finset.card_le_card fun x hx => by
    rw [Finset.mem_inter] at hx ⊢
    exact ⟨hx.2, hQ hx.1⟩).trans (h.one hne)
  have c2 : (Q ∩ Y).card ≤ 1 := (Finset.card_le_card fun x hx => by
    rw [Finset.mem_inter] at hx ⊢
    exact ⟨hx.2, hQ hx.1⟩).trans (h.dual.one hne)
  have c3 : (Q.filter fun x => x ∉ X ∧ x ∉ Y).card + (Q ∩ X).card + (Q ∩ Y).card = 2 * k + 1 := by
    rw [← hQc]
    have d1 : Disjoint (Q ∩ X) (Q ∩ Y) := by
      rw [Finset.disjoint_left]
      intro x hx hy
      rw [Finset.mem_inter] at hx hy
      exact h.apart hne (by omega) (Slice.mem_fin.1 (hQ hx.1)) hx.2 hy.2
    have d2 : Disjoint (Q.filter fun x => x ∉ X ∧ x ∉ Y) ((Q ∩ X) ∪ (Q ∩ Y)) := by
      rw [Finset.disjoint_left]
      intro x hx hy
      rw [Finset.mem_filter] at hx
      rw [Finset.mem_union, Finset.mem_inter, Finset.mem_inter] at hy
      rcases hy with hy | hy
      · exact hx.2.1 hy.2
      · exact hx.2.2 hy.2
    rw [Nat.add_assoc, ← Finset.card_union_of_disjoint d1, ← Finset.card_union_of_disjoint d2]
    congr 1
    ext x
    simp only [Finset.mem_union, Finset.mem_filter, Finset.mem_inter]
    by_cases x ∈ X <;> by_cases x ∈ Y <;> simp_all
  exact ⟨_, _, _, c1, c2, c3, h1, h2⟩

open Classical in
theorem Exch.bad (h : Exch r s 𝓜 X Y) (h10 : 10 ≤ s.len) {Q : Finset Nat} (hQ : Q ⊆ s.fin) {k : Nat} (hk : k = 1 ∨ k = 2) (hQc : Q.card = 2 * k + 1)
    {P : Mem V → ρ} (hP : ∀ m ∈ 𝓜, Middle r Q k m (P m)) {j : Nat} (hj : j < s.len) :
    3 * (s.len - 2) * ((𝓜.filter fun m => lower r s m (P m) < j).card + (𝓜.filter fun m => upper r s m (P m) < j).card) ≤ 10 * (j * 𝓜.card) := by
  rcases 𝓜.eq_empty_or_nonempty with rfl | hne
  · simp
  obtain ⟨z, w, q, c1, c2, c3, h1, h2⟩ := h.bad_of hne h10 hQ hQc hP hj
  generalize (𝓜.filter fun m => lower r s m (P m) < j).card = L at *
  generalize (𝓜.filter fun m => upper r s m (P m) < j).card = H at *
  generalize s.len - 2 = W at *
  generalize j * 𝓜.card = c at *
  have hz : z = 0 ∨ z = 1 := by omega
  have hw : w = 0 ∨ w = 1 := by omega
  obtain rfl : q = 2 * k + 1 - z - w := by omega
  rcases hk with rfl | rfl <;> rcases hz with rfl | rfl <;> rcases hw with rfl | rfl <;> norm_num at h1 h2 <;> nlinarith

open Classical in
/-- the same for seven samples -/
theorem Exch.bad7 (h : Exch r s 𝓜 X Y) (h10 : 10 ≤ s.len) {Q : Finset Nat} (hQ : Q ⊆ s.fin) (hQc : Q.card = 2 * 3 + 1)
    {P : Mem V → ρ} (hP : ∀ m ∈ 𝓜, Middle r Q 3 m (P m)) {j : Nat} (hj : j < s.len) :
    2 * (s.len - 2) * ((𝓜.filter fun m => lower r s m (P m) < j).card + (𝓜.filter fun m => upper r s m (P m) < j).card) ≤ 7 * (j * 𝓜.card) := by
  rcases 𝓜.eq_empty_or_nonempty with rfl | hne
  · simp
  obtain ⟨z, w, q, c1, c2, c3, h1, h2⟩ := h.bad_of hne h10 hQ hQc hP hj
  generalize (𝓜.filter fun m => lower r s m (P m) < j).card = L at *
  generalize (𝓜.filter fun m => upper r s m (P m) < j).card = H at *
  generalize s.len - 2 = W at *
  generalize j * 𝓜.card = c at *
  have hz : z = 0 ∨ z = 1 := by omega
  have hw : w = 0 ∨ w = 1 := by omega
  obtain rfl : q = 2 * 3 + 1 - z - w := by omega
  rcases hz with rfl | rfl <;> rcases hw with rfl | rfl <;> norm_num at h1 h2 <;> nlinarith

open Classical in
theorem Exch.fair_of {P : Mem V → ρ} {a b : Nat} (ha : 0 < a) (hab : a < b) (h2 : 2 < s.len)
    (hbad : ∀ j, j < s.len → a * (s.len - 2) * ((𝓜.filter fun m => lower r s m (P m) < j).card + (𝓜.filter fun m => upper r s m (P m) < j).card) ≤ b * (j * 𝓜.card)) :
    (𝓜.card : Int) * (a * (s.len - 2) - b) ≤ 2 * b * ((∑ m ∈ 𝓜, min (lower r s m (P m)) (upper r s m (P m)) : Nat) : Int) := by
  have key : ∀ J : Nat, J < s.len → ((𝓜.card : Int) * (2 * a * (s.len - 2) * J - b * (J * (J + 1))) ≤
      2 * a * (s.len - 2) * ∑ m ∈ 𝓜, ((min (min (lower r s m (P m)) (upper r s m (P m))) J : Nat) : Int)) := by
    intro J
    induction J with
    | zero => intro _; simp
    | succ J ih =>
      intro hJ
      have h1 := ih (by omega)
      have h2 := hbad _ hJ
      have h3 : 𝓜.card + ∑ m ∈ 𝓜, min (min (lower r s m (P m)) (upper r s m (P m))) J ≤
          (∑ m ∈ 𝓜, min (min (lower r s m (P m)) (upper r s m (P m))) (J + 1)) +
            ((𝓜.filter fun m => lower r s m (P m) < J + 1).card + (𝓜.filter fun m => upper r s m (P m) < J + 1).card) := by
        simp only [Finset.card_filter]
        rw [Finset.card_eq_sum_ones, ← Finset.sum_add_distrib, ← Finset.sum_add_distrib, ← Finset.sum_add_distrib]
        refine Finset.sum_le_sum fun m _ => ?_
        split_ifs <;> omega
      generalize (𝓜.filter fun m => lower r s m (P m) < J + 1).card + (𝓜.filter fun m => upper r s m (P m) < J + 1).card = B at *
      rw [← Nat.cast_sum] at h1 ⊢
      generalize ∑ m ∈ 𝓜, min (min (lower r s m (P m)) (upper r s m (P m))) J = S at *
      generalize ∑ m ∈ 𝓜, min (min (lower r s m (P m)) (upper r s m (P m))) (J + 1) = S' at *
      obtain ⟨W, hW⟩ : ∃ W, s.len = W + 2 := ⟨s.len - 2, by omega⟩
      rw [hW] at h1 h2 ⊢
      rw [Nat.add_sub_cancel] at h2
      push_cast at h1 ⊢
      have h2' : (a : Int) * W * B ≤ b * ((J + 1) * 𝓜.card) := by exact_mod_cast h2
      have h3' : (𝓜.card : Int) + S ≤ S' + B := by exact_mod_cast h3
      have h4 := mul_le_mul_of_nonneg_left h3' (show (0 : Int) ≤ 2 * a * W by positivity)
      nlinarith
  obtain ⟨W, hW⟩ : ∃ W, s.len = W + 2 := ⟨s.len - 2, by omega⟩
  have hb : 0 < b := by omega
  have hJ : a * W / b < s.len := by
    refine (Nat.div_lt_of_lt_mul ?_)
    rw [hW]
    nlinarith
  have h1 := key (a * W / b) hJ
  have h3 : ∑ m ∈ 𝓜, min (min (lower r s m (P m)) (upper r s m (P m))) (a * W / b) ≤ ∑ m ∈ 𝓜, min (lower r s m (P m)) (upper r s m (P m)) :=
    Finset.sum_le_sum fun m _ => min_le_left _ _
  rw [← Nat.cast_sum] at h1
  generalize ∑ m ∈ 𝓜, min (min (lower r s m (P m)) (upper r s m (P m))) (a * W / b) = S at *
  generalize ∑ m ∈ 𝓜, min (lower r s m (P m)) (upper r s m (P m)) = S' at *
  have h3' : (S : Int) ≤ S' := by exact_mod_cast h3
  obtain ⟨e, he⟩ : ∃ e, a * W = b * (a * W / b) + e := ⟨a * W % b, (Nat.div_add_mod _ _).symm⟩
  have he' : e < b := by
    have h4 := Nat.mod_lt (a * W) hb
    have h5 := Nat.div_add_mod (a * W) b
    omega
  generalize a * W / b = J at *
  rw [hW] at h1 ⊢
  push_cast at h1 ⊢
  rw [add_sub_cancel_right] at h1 ⊢
  have hWe : (a : Int) * W = b * J + e := by exact_mod_cast he
  have hpos : (0 : Int) < a * W := by
    have : 0 < W := by omega
    positivity
  have h6 : (𝓜.card : Int) * (a * W - b) ≤ 2 * b * S := by
    refine le_of_mul_le_mul_left ?_ hpos
    have h5 : (a * W : Int) * (a * W - b) ≤ b * (2 * a * W * J - b * (J * (J + 1))) := by
      have e1 : (2 * a * W : Int) = 2 * (a * W) := by ring
      rw [e1, hWe]
      have he0 : (0 : Int) ≤ e := Int.natCast_nonneg e
      have he1 : (e : Int) ≤ b := by omega
      nlinarith [mul_nonneg he0 (sub_nonneg.2 he1)]
    have h6 := mul_le_mul_of_nonneg_left h5 (Int.natCast_nonneg 𝓜.card)
    have h7 := mul_le_mul_of_nonneg_left h1 (Int.natCast_nonneg b)
    nlinarith
  exact h6.trans (mul_le_mul_of_nonneg_left h3' (by positivity))

open Classical in
/-- so on average the median splits the range fairly -/
theorem Exch.fair (h : Exch r s 𝓜 X Y) (h10 : 10 ≤ s.len) {Q : Finset Nat} (hQ : Q ⊆ s.fin) {k : Nat} (hk : k = 1 ∨ k = 2) (hQc : Q.card = 2 * k + 1)
    {P : Mem V → ρ} (hP : ∀ m ∈ 𝓜, Middle r Q k m (P m)) :
    𝓜.card * (3 * s.len - 16) ≤ 20 * ∑ m ∈ 𝓜, min (lower r s m (P m)) (upper r s m (P m)) := by
  have h1 := Exch.fair_of (a := 3) (b := 10) (by omega) (by omega) (by omega) fun j hj => h.bad h10 hQ hk hQc hP hj
  have h4 : ((3 * s.len - 16 : Nat) : Int) = 3 * (s.len - 2) - 10 := by omega
  have h5 : ((𝓜.card * (3 * s.len - 16) : Nat) : Int) ≤ ((20 * ∑ m ∈ 𝓜, min (lower r s m (P m)) (upper r s m (P m)) : Nat) : Int) := by
    rw [Nat.cast_mul, h4, Nat.cast_mul 20]
    exact h1
  exact_mod_cast h5

/-- the same for seven samples -/
theorem Exch.fair7 (h : Exch r s 𝓜 X Y) (h10 : 10 ≤ s.len) {Q : Finset Nat} (hQ : Q ⊆ s.fin) (hQc : Q.card = 2 * 3 + 1)
    {P : Mem V → ρ} (hP : ∀ m ∈ 𝓜, Middle r Q 3 m (P m)) :
    𝓜.card * (2 * s.len - 11) ≤ 14 * ∑ m ∈ 𝓜, min (lower r s m (P m)) (upper r s m (P m)) := by
  have h1 := Exch.fair_of (a := 2) (b := 7) (by omega) (by omega) (by omega) fun j hj => h.bad7 h10 hQ hQc hP hj
  have h4 : ((2 * s.len - 11 : Nat) : Int) = 2 * (s.len - 2) - 7 := by omega
  have h5 : ((𝓜.card * (2 * s.len - 11) : Nat) : Int) ≤ ((14 * ∑ m ∈ 𝓜, min (lower r s m (P m)) (upper r s m (P m)) : Nat) : Int) := by
    rw [Nat.cast_mul, h4, Nat.cast_mul 14]
    exact h1
  exact_mod_cast h5

end Sorty
