import Verif.Proofs.Balance

/-! # How concurrent partitioning divides elements equal to the pivot -/

namespace Sorty

open Prog

variable {V κ Sp : Type} {ρ : Type} [LinearOrder ρ]
variable {F : Fam V κ} {ok : κ → Prop} {rk : κ → ρ} {p : ρ} {slc : Slice} {m : Mem V}

/-- how many elements from `a` up to `b` are equal to the pivot -/
def midC (F : Fam V κ) (rk : κ → ρ) (p : ρ) (slc : Slice) (m : Mem V) (a b : Int) : Nat :=
  cnt (fun x => rk (F.key (m x)) = p) (slc.off + a.toNat) (slc.off + b.toNat)

theorem midC_left {a b : Int} (h : 0 ≤ a) (h' : a < b) :
    midC F rk p slc m a b = midC F rk p slc m (a + 1) b + if rk (F.key (slc.E m a)) = p then 1 else 0 := by
  unfold midC Slice.E
  rw [show slc.off + (a + 1).toNat = slc.off + a.toNat + 1 by omega]
  exact cnt_left (by omega)

theorem midC_right {a b : Int} (h : 0 ≤ a) (h' : a ≤ b) :
    midC F rk p slc m a (b + 1) = midC F rk p slc m a b + if rk (F.key (slc.E m b)) = p then 1 else 0 := by
  unfold midC Slice.E
  rw [show slc.off + (b + 1).toNat = slc.off + b.toNat + 1 by omega]
  exact cnt_right (by omega)

theorem midC_nil {a : Int} : midC F rk p slc m a a = 0 := cnt_nil

theorem midC_add {a b c : Int} (h : a ≤ b) (h' : b ≤ c) : midC F rk p slc m a b + midC F rk p slc m b c = midC F rk p slc m a c :=
  cnt_add (by omega) (by omega)

theorem midC_le {a b : Int} (h : 0 ≤ a) (h' : a ≤ b) : (midC F rk p slc m a b : Int) ≤ b - a := by
  have := cnt_le (P := fun x => rk (F.key (m x)) = p) (a := slc.off + a.toNat) (b := slc.off + b.toNat)
  unfold midC
  omega

theorem midC_swap {a b l h : Int} (h0 : 0 ≤ l) (h1 : 0 ≤ h) (ha : 0 ≤ a) (_ : a ≤ b) (hl : l < a ∨ b ≤ l) (hh : h < a ∨ b ≤ h) :
    midC F rk p slc (slc.swapM m l h) a b = midC F rk p slc m a b := by
  refine cnt_congr fun x hx hx' => ?_
  unfold Slice.swapM
  rw [Function.update_of_ne (by omega), Function.update_of_ne (by omega)]

theorem midC_congr {m' : Mem V} {a b : Int} (ha : 0 ≤ a) (h : ∀ i : Int, a ≤ i → i < b → slc.E m i = slc.E m' i) :
    midC F rk p slc m a b = midC F rk p slc m' a b := by
  refine cnt_congr fun x hx hx' => ?_
  have := h ((x : Int) - slc.off) (by omega) (by omega)
  unfold Slice.E at this
  rw [show slc.off + ((x : Int) - slc.off).toNat = x by omega] at this
  rw [this]

theorem lowC_mid {k : Int} : lowC F rk p slc m k = midC F rk p slc m 0 k := by
  unfold lowC midC; simp

theorem highC_mid {k : Int} : highC F rk p slc m k = midC F rk p slc m k slc.len := by
  unfold highC midC; simp

/-- acceptable elements of one side, in the outer parts -/
def SideO (F : Fam V κ) (ok : κ → Prop) (slc : Slice) (l0 h0 : Int) (q : κ → Prop) (m : Mem V) : Prop :=
  ∀ i : Int, 0 ≤ i → i < slc.len → (i < l0 ∨ h0 ≤ i) → ok (F.key (slc.E m i)) ∧ q (F.key (slc.E m i))

theorem SideO.swap {q : κ → Prop} {l0 h0 l h : Int} (hs : SideO F ok slc l0 h0 q m) (g0 : 0 ≤ l) (g1 : l < l0) (g2 : l < h) (g3 : h0 ≤ h) (g4 : h < slc.len) :
    SideO F ok slc l0 h0 q (slc.swapM m l h) := by
  intro i i0 i1 i2
  rw [Slice.E_swapM g0 (by omega) i0]
  split_ifs
  · exact hs l g0 (by omega) (.inl g1)
  · exact hs h (by omega) g4 (.inr g3)
  · exact hs i i0 i1 i2

/-- if nothing is greater than the pivot, at most half of its equals in the outer parts go to the left -/
theorem balance2_le (hF : FamOK F ok rk) {pv : κ} (hpv : ok pv) {n : Nat} {l0 h0 : Int} (hl0 : 0 ≤ l0) (hlh : l0 ≤ h0) (hh0 : h0 ≤ slc.len)
    (hb : l0 ≤ slc.len - h0) (hs : SideO F ok slc l0 h0 (fun x => rk x ≤ rk pv) m) :
    aw (partTwo F slc l0 h0 pv : Prog V Sp Int) m n fun _ m' _ =>
      midC F rk (rk pv) slc m' 0 l0 ≤ midC F rk (rk pv) slc m' h0 slc.len := by
  unfold partTwo
  dsimp only
  rw [if_neg (by omega)]
  refine aw_loop (fun st m' _ => SideO F ok slc l0 h0 (fun x => rk x ≤ rk pv) m' ∧ match st with
    | .second _ _ => False
    | .swap l h => (0 ≤ l ∧ l < l0 ∧ h0 ≤ h ∧ h < slc.len) ∧ midC F rk (rk pv) slc m' (l + 1) l0 ≤ midC F rk (rk pv) slc m' h0 h ∧
        (midC F rk (rk pv) slc m' h0 h : Int) = h - h0 ∧ rk (F.key (slc.E m' l)) = rk pv
    | .next l h => (0 ≤ l ∧ l < l0 ∧ h0 ≤ h ∧ h < slc.len) ∧ midC F rk (rk pv) slc m' (l + 1) l0 ≤ midC F rk (rk pv) slc m' h0 h ∧
        (midC F rk (rk pv) slc m' h0 h : Int) = h - h0 ∧ rk (F.key (slc.E m' h)) = rk pv
    | .start l h => (-1 ≤ l ∧ l < l0 ∧ h0 ≤ h ∧ h ≤ slc.len) ∧ midC F rk (rk pv) slc m' (l + 1) l0 ≤ midC F rk (rk pv) slc m' h0 h ∧
        (midC F rk (rk pv) slc m' h0 h : Int) = h - h0
    | .scan l h => (0 ≤ l ∧ l < l0 ∧ h0 ≤ h ∧ h < slc.len) ∧ midC F rk (rk pv) slc m' (l + 1) l0 ≤ midC F rk (rk pv) slc m' h0 h ∧
        (midC F rk (rk pv) slc m' h0 h : Int) = h - h0) ?_ _ _ _ _ ?_
  · rintro (⟨l, h⟩ | ⟨l, h⟩ | ⟨l, h⟩ | ⟨l, h⟩ | ⟨l, h⟩) m' n ⟨hs, hI⟩ <;> dsimp only at hI
    · obtain ⟨⟨a, b, c, d⟩, g1, g2, g3⟩ := hI
      simp only [partTwoStep]
      refine aw_bind (aw_swapM ⟨hs.swap a b (by omega) c d, ⟨a, b, c, d⟩, ?_, ?_, ?_⟩)
      · rw [midC_swap a (by omega) (by omega) (by omega) (by omega) (by omega), midC_swap a (by omega) (by omega) (by omega) (by omega) (by omega)]
        exact g1
      · rw [midC_swap a (by omega) (by omega) (by omega) (by omega) (by omega)]
        exact g2
      · rw [Slice.E_swapM a (by omega) (by omega), if_pos rfl]; exact g3
    · obtain ⟨⟨a, b, c, d⟩, g1, g2, g3⟩ := hI
      simp only [partTwoStep]
      have e := midC_right (F := F) (rk := rk) (p := rk pv) (slc := slc) (m := m') (a := h0) (b := h) (by omega) c
      rw [if_pos g3] at e
      refine ⟨hs, ⟨by omega, by omega, by omega, by omega⟩, ?_, by omega⟩
      rw [show l - 1 + 1 = l by omega, midC_left a b, e]
      split_ifs <;> omega
    · obtain ⟨⟨a, b, c, d⟩, g1, g2⟩ := hI
      simp only [partTwoStep]
      split_ifs with hc hc2
      · obtain rfl : l = -1 := by omega
        show midC F rk (rk pv) slc m' 0 l0 ≤ midC F rk (rk pv) slc m' h0 slc.len
        have := midC_add (F := F) (rk := rk) (p := rk pv) (slc := slc) (m := m') c d
        simp only [Int.reduceNeg, neg_add_cancel] at g1
        omega
      · obtain rfl : h = slc.len := by omega
        show midC F rk (rk pv) slc m' 0 l0 ≤ midC F rk (rk pv) slc m' h0 slc.len
        have := midC_le (F := F) (rk := rk) (p := rk pv) (slc := slc) (m := m') le_rfl hl0
        omega
      · refine aw_bind (aw_rd fun _ => ?_)
        have hk := hF.le _ _ hpv (hs h (by omega) (by omega) (.inr c)).1
        have hh := (hs h (by omega) (by omega) (.inr c)).2
        split_ifs with hle
        · rw [hk] at hle
          refine aw_bind (aw_rd fun _ => ?_)
          have hl := hs l (by omega) (by omega) (.inl b)
          rw [if_neg (by rw [hF.lt _ _ hpv hl.1, not_lt]; exact hl.2)]
          exact ⟨hs, ⟨by omega, b, c, by omega⟩, g1, g2, le_antisymm hh hle⟩
        · exact ⟨hs, ⟨by omega, b, c, by omega⟩, g1, g2⟩
    · obtain ⟨⟨a, b, c, d⟩, g1, g2⟩ := hI
      simp only [partTwoStep]
      refine aw_bind (aw_rd fun _ => ?_)
      have hl := hs l (by omega) (by omega) (.inl b)
      have hk := hF.le _ _ hpv hl.1
      have e := midC_left (F := F) (rk := rk) (p := rk pv) (slc := slc) (m := m') a b
      split_ifs with hle hc
      · rw [hk] at hle
        exact ⟨hs, ⟨a, b, c, d⟩, g1, g2, le_antisymm hl.2 hle⟩
      · rw [hk, not_le] at hle
        rw [if_neg hle.ne] at e
        obtain rfl : l = 0 := by omega
        show midC F rk (rk pv) slc m' 0 l0 ≤ midC F rk (rk pv) slc m' h0 slc.len
        have := midC_add (F := F) (rk := rk) (p := rk pv) (slc := slc) (m := m') c d.le
        omega
      · rw [hk, not_le] at hle
        rw [if_neg hle.ne] at e
        refine ⟨hs, ⟨by omega, by omega, c, d⟩, ?_, g2⟩
        rw [show l - 1 + 1 = l by omega]
        omega
  · refine ⟨hs, ⟨by omega, by omega, le_rfl, hh0⟩, ?_, ?_⟩
    · rw [show l0 - 1 + 1 = l0 by omega, midC_nil]; exact Nat.zero_le _
    · rw [midC_nil]; omega

/-- if nothing is less than the pivot, at most half of its equals in the outer parts go to the right -/
theorem balance2_ge (hF : FamOK F ok rk) {pv : κ} (hpv : ok pv) {n : Nat} {l0 h0 : Int} (hl0 : 0 ≤ l0) (hlh : l0 ≤ h0) (hh0 : h0 ≤ slc.len)
    (hb : slc.len - h0 ≤ l0 + 1) (hs : SideO F ok slc l0 h0 (fun x => rk pv ≤ rk x) m) :
    aw (partTwo F slc l0 h0 pv : Prog V Sp Int) m n fun _ m' _ =>
      midC F rk (rk pv) slc m' h0 slc.len ≤ midC F rk (rk pv) slc m' 0 l0 + 1 := by
  unfold partTwo
  dsimp only
  rw [if_neg (by omega)]
  refine aw_loop (fun st m' _ => SideO F ok slc l0 h0 (fun x => rk pv ≤ rk x) m' ∧ match st with
    | .second l h => (0 ≤ l ∧ l < l0 ∧ h0 ≤ h ∧ h < slc.len) ∧ midC F rk (rk pv) slc m' h0 (h + 1) ≤ midC F rk (rk pv) slc m' (l + 1) l0 + 1 ∧
        (midC F rk (rk pv) slc m' (l + 1) l0 : Int) = l0 - 1 - l ∧ rk pv < rk (F.key (slc.E m' l))
    | .swap l h => (0 ≤ l ∧ l < l0 ∧ h0 ≤ h ∧ h < slc.len) ∧ midC F rk (rk pv) slc m' h0 h ≤ midC F rk (rk pv) slc m' (l + 1) l0 + 1 ∧
        (midC F rk (rk pv) slc m' (l + 1) l0 : Int) = l0 - 1 - l ∧ rk pv < rk (F.key (slc.E m' l)) ∧ rk (F.key (slc.E m' h)) = rk pv
    | .next l h => (0 ≤ l ∧ l < l0 ∧ h0 ≤ h ∧ h < slc.len) ∧ midC F rk (rk pv) slc m' h0 (h + 1) ≤ midC F rk (rk pv) slc m' (l + 1) l0 + 1 ∧
        (midC F rk (rk pv) slc m' (l + 1) l0 : Int) = l0 - 1 - l ∧ rk (F.key (slc.E m' l)) = rk pv
    | .start l h => (-1 ≤ l ∧ l < l0 ∧ h0 ≤ h ∧ h ≤ slc.len) ∧ midC F rk (rk pv) slc m' h0 h ≤ midC F rk (rk pv) slc m' (l + 1) l0 ∧
        (midC F rk (rk pv) slc m' (l + 1) l0 : Int) = l0 - 1 - l
    | .scan _ _ => False) ?_ _ _ _ _ ?_
  · rintro (⟨l, h⟩ | ⟨l, h⟩ | ⟨l, h⟩ | ⟨l, h⟩ | ⟨l, h⟩) m' n ⟨hs, hI⟩ <;> dsimp only at hI
    · obtain ⟨⟨a, b, c, d⟩, g1, g2, g3⟩ := hI
      simp only [partTwoStep]
      split_ifs with hc
      · obtain e : h + 1 = slc.len := by omega
        show midC F rk (rk pv) slc m' h0 slc.len ≤ midC F rk (rk pv) slc m' 0 l0 + 1
        have := midC_add (F := F) (rk := rk) (p := rk pv) (slc := slc) (m := m') (a := 0) (b := l + 1) (c := l0) (by omega) (by omega)
        rw [e] at g1
        omega
      · refine aw_bind (aw_rd fun _ => ?_)
        have hh := hs (h + 1) (by omega) (by omega) (.inr (by omega))
        have hk := hF.le _ _ hh.1 hpv
        split_ifs with hle
        · rw [hk] at hle
          exact ⟨hs, ⟨a, b, by omega, by omega⟩, g1, g2, g3, le_antisymm hle hh.2⟩
        · rw [hk, not_le] at hle
          refine ⟨hs, ⟨a, b, by omega, by omega⟩, ?_, g2, g3⟩
          rw [midC_right (by omega) (by omega), if_neg hle.ne']
          exact g1
    · obtain ⟨⟨a, b, c, d⟩, g1, g2, g3, g4⟩ := hI
      simp only [partTwoStep]
      refine aw_bind (aw_swapM ⟨hs.swap a b (by omega) c d, ⟨a, b, c, d⟩, ?_, ?_, ?_⟩)
      · rw [midC_right (by omega) c, Slice.E_swapM a (by omega) (by omega), if_pos rfl, if_neg g3.ne',
          midC_swap a (by omega) (by omega) (by omega) (by omega) (by omega), midC_swap a (by omega) (by omega) (by omega) (by omega) (by omega)]
        exact g1
      · rw [midC_swap a (by omega) (by omega) (by omega) (by omega) (by omega)]
        exact g2
      · rw [Slice.E_swapM a (by omega) (by omega), if_neg (by omega), if_pos rfl]; exact g4
    · obtain ⟨⟨a, b, c, d⟩, g1, g2, g3⟩ := hI
      simp only [partTwoStep]
      have e := midC_left (F := F) (rk := rk) (p := rk pv) (slc := slc) (m := m') a b
      rw [if_pos g3] at e
      refine ⟨hs, ⟨by omega, by omega, by omega, by omega⟩, ?_, ?_⟩
      · rw [show l - 1 + 1 = l by omega, e]; exact g1
      · rw [show l - 1 + 1 = l by omega, e]; omega
    · obtain ⟨⟨a, b, c, d⟩, g1, g2⟩ := hI
      simp only [partTwoStep]
      split_ifs with hc hc2
      · obtain rfl : l = -1 := by omega
        show midC F rk (rk pv) slc m' h0 slc.len ≤ midC F rk (rk pv) slc m' 0 l0 + 1
        simp only [Int.reduceNeg, neg_add_cancel] at g2
        have := midC_le (F := F) (rk := rk) (p := rk pv) (slc := slc) (m := m') (a := h0) (b := slc.len) (by omega) hh0
        omega
      · obtain rfl : h = slc.len := by omega
        show midC F rk (rk pv) slc m' h0 slc.len ≤ midC F rk (rk pv) slc m' 0 l0 + 1
        have := midC_add (F := F) (rk := rk) (p := rk pv) (slc := slc) (m := m') (a := 0) (b := l + 1) (c := l0) (by omega) (by omega)
        omega
      · refine aw_bind (aw_rd fun _ => ?_)
        have hh := hs h (by omega) (by omega) (.inr c)
        rw [if_pos ((hF.le _ _ hpv hh.1).2 hh.2)]
        refine aw_bind (aw_rd fun _ => ?_)
        have hl := hs l (by omega) (by omega) (.inl b)
        have hk := hF.lt _ _ hpv hl.1
        have hg : midC F rk (rk pv) slc m' h0 (h + 1) ≤ midC F rk (rk pv) slc m' (l + 1) l0 + 1 := by
          rw [midC_right (by omega) c]
          split_ifs <;> omega
        split_ifs with hlt
        · rw [hk] at hlt
          exact ⟨hs, ⟨by omega, b, c, by omega⟩, hg, g2, hlt⟩
        · rw [hk, not_lt] at hlt
          exact ⟨hs, ⟨by omega, b, c, by omega⟩, hg, g2, le_antisymm hlt hl.2⟩
  · refine ⟨hs, ⟨by omega, by omega, le_rfl, hh0⟩, ?_, ?_⟩
    · rw [midC_nil]; exact Nat.zero_le _
    · rw [show l0 - 1 + 1 = l0 by omega, midC_nil]; omega

/-- closing a gap in the low range moves no element equal to the pivot into the high range -/
theorem gapLow_mid (hF : FamOK F ok rk) {pv : κ} (hpv : ok pv) {n : Nat} {r0 k0 : Int} (hrk : r0 < k0) (hk : k0 ≤ slc.len)
    (hok : Side F ok slc (fun _ => True) m) :
    aw (gapLow F slc pv r0 k0 : Prog V Sp Int) m n fun k m' _ =>
      midC F rk (rk pv) slc m' k slc.len = midC F rk (rk pv) slc m k0 slc.len := by
  unfold gapLow
  refine aw_loop (fun (st : Int × Int) m' _ => (st.1 < st.2 ∧ st.2 ≤ slc.len) ∧ Side F ok slc (fun _ => True) m' ∧
    midC F rk (rk pv) slc m' st.2 slc.len = midC F rk (rk pv) slc m k0 slc.len) ?_ _ _ _ _ ⟨⟨hrk, hk⟩, hok, rfl⟩
  rintro ⟨r, k⟩ m' n ⟨⟨a, b⟩, hs, g⟩
  dsimp only at a b g ⊢
  split_ifs with hc
  · refine aw_bind (aw_rd fun _ => ?_)
    have hx := hs r hc (by omega)
    have hk := hF.lt _ _ hpv hx.1
    split_ifs with hlt
    · rw [hk] at hlt
      refine aw_bind (aw_swapM ⟨⟨by dsimp only; omega, by dsimp only; omega⟩, ?_, ?_⟩)
      · rcases (by omega : r = k - 1 ∨ r < k - 1) with e | e
        · intro i i0 i1
          rw [Slice.E_swapM hc (by omega) i0]
          split_ifs
          · exact hx
          · exact hs (k - 1) (by omega) (by omega)
          · exact hs i i0 i1
        · exact hs.swap hc e (by omega)
      · dsimp only
        rw [midC_left (by omega) (by omega), Slice.E_swapM hc (by omega) (by omega), if_pos rfl, if_neg hlt.ne',
          midC_swap hc (by omega) (by omega) (by omega) (by omega) (by omega), show k - 1 + 1 = k by omega]
        exact g
    · exact ⟨⟨by dsimp only; omega, b⟩, hs, g⟩
  · exact g

/-- closing a gap in the high range moves no element equal to the pivot into the low range -/
theorem gapHigh_mid (hF : FamOK F ok rk) {pv : κ} (hpv : ok pv) {n : Nat} {r0 k0 : Int} (h0 : 0 ≤ k0) (hrk : k0 ≤ r0)
    (hok : Side F ok slc (fun _ => True) m) :
    aw (gapHigh F slc pv r0 k0 : Prog V Sp Int) m n fun k m' _ =>
      midC F rk (rk pv) slc m' 0 k = midC F rk (rk pv) slc m 0 k0 := by
  unfold gapHigh
  refine aw_loop (fun (st : Int × Int) m' _ => (0 ≤ st.2 ∧ st.2 ≤ st.1) ∧ Side F ok slc (fun _ => True) m' ∧
    midC F rk (rk pv) slc m' 0 st.2 = midC F rk (rk pv) slc m 0 k0) ?_ _ _ _ _ ⟨⟨h0, hrk⟩, hok, rfl⟩
  rintro ⟨r, k⟩ m' n ⟨⟨a, b⟩, hs, g⟩
  dsimp only at a b g ⊢
  split_ifs with hc
  · refine aw_bind (aw_rd fun _ => ?_)
    have hx := hs r (by omega) hc
    have hk := hF.lt _ _ hx.1 hpv
    split_ifs with hlt
    · rw [hk] at hlt
      have hE : ∀ i : Int, 0 ≤ i → slc.E (slc.swapM m' r k) i = if i = k then slc.E m' r else if i = r then slc.E m' k else slc.E m' i :=
        fun i hi => Slice.E_swapM (by omega) (by omega) hi
      refine aw_bind (aw_swapM ⟨⟨by dsimp only; omega, by dsimp only; omega⟩, ?_, ?_⟩)
      · intro i i0 i1
        rw [hE i i0]
        split_ifs
        · exact hx
        · exact hs k (by omega) (by omega)
        · exact hs i i0 i1
      · dsimp only
        rw [midC_right le_rfl a, hE k a, if_pos rfl, if_neg hlt.ne, midC_swap (by omega) (by omega) le_rfl a (by omega) (by omega)]
        exact g
    · exact ⟨⟨a, by dsimp only; omega⟩, hs, g⟩
  · exact g

end Sorty
