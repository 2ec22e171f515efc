import Verif.Logic.Cost
import Verif.Proofs.LswCost
import Verif.Proofs.Job

/-! # The number of element accesses of the type-specific sorts -/

namespace Sorty

open Prog

/-- the bound for a range of `n` elements and `f` rounds of partitioning -/
def qv (f n : Nat) : Nat := 6 * (f * n) + n * (n + 1)

theorem qv_split {f n n1 n2 : Nat} (h : n1 + n2 = n) : qv f n1 + qv f n2 + 6 * n ≤ qv (f + 1) n := by
  subst h
  unfold qv
  have : 6 * ((f + 1) * (n1 + n2)) + (n1 + n2) * (n1 + n2 + 1) =
    6 * (f * n1) + n1 * (n1 + 1) + (6 * (f * n2) + n2 * (n2 + 1)) + 6 * (n1 + n2) + 2 * (n1 * n2) := by ring
  omega

theorem qi_le_qv (f n : Nat) : n * (n + 1) ≤ qv f n := by unfold qv; omega

/-- the meter for element accesses -/
def vmeter (V κ : Type) : Meter V (VSp κ) where
  wa := 1
  wl := 0
  ρ | .part ar _ => 3 * ar.len | .long ar f => qv f ar.len
  isPart | .part .. => true | .long .. => false
  ok := fun _ _ => True

variable {V κ Sp α : Type} {s : Slice} {F : Fam V κ} {M : Meter V Sp}

/-- a charge of one for a load or a store -/
structure Meter.Accs (M : Meter V Sp) : Prop where
  wa : M.wa = 1
  ww : M.ww = 1
  wr : M.wr

theorem cw_rd1 (hM : M.wa = 1) {i : Int} {f : V → Prog V Sp α} {J : Option Sp} {n : Nat} {Q : α → Option Sp → Nat → Prop} (hn : 1 ≤ n)
    (h : ∀ x, cw M (f x) J (n - 1) Q) : cw M (s.rd i >>= f) J n Q := by
  refine cw.bind ?_
  unfold Slice.rd
  split_ifs
  · refine ⟨by rw [hM]; omega, fun x _ => ?_⟩
    rw [hM]; exact h x
  · trivial

theorem cw_wr1 (hM : M.Accs) {i : Int} {v : V} {f : Unit → Prog V Sp α} {J : Option Sp} {n : Nat} {Q : α → Option Sp → Nat → Prop} (hn : 1 ≤ n)
    (h : cw M (f ()) J (n - 1) Q) : cw M (s.wr i v >>= f) J n Q := by
  refine cw.bind ?_
  unfold Slice.wr
  split_ifs
  · refine ⟨⟨hM.wr, by rw [hM.ww]; omega⟩, ?_⟩
    rw [hM.ww]; exact h
  · trivial

theorem cost_swap (hM : M.Accs) {i j : Int} : Costs M (s.swap i j : Prog V Sp Unit) 4 fun _ => True := by
  intro J n hn
  unfold Slice.swap
  refine cw_rd1 hM.wa (by omega) fun x => cw_rd1 hM.wa (by omega) fun y => cw_wr1 hM (by omega) ?_
  have : (s.wr j y : Prog V Sp Unit) = s.wr j y >>= pure := by
    unfold Slice.wr; split_ifs <;> rfl
  rw [this]
  exact cw_wr1 hM (by omega) ⟨rfl, by omega, trivial⟩

theorem cost_insertInner (hM : M.Accs) {key : V → κ} {lt : κ → κ → Bool} {h : Int} {val : V} (h0 : 1 ≤ h) :
    Costs M (insertInner key lt s h val : Prog V Sp Unit) (2 * h + 1).toNat fun _ => True := by
  unfold insertInner
  refine Costs.loop (fun l : Int => 1 ≤ l) (fun l : Int => (2 * l + 1).toNat) ?_ _ h h0
  intro l hl J n hn
  refine cw_rd1 hM.wa (by omega) fun pre => ?_
  split
  · refine cw_wr1 hM (by omega) ?_
    dsimp only
    split
    · exact cw_wr1 hM (by omega) ⟨rfl, by omega, trivial⟩
    · exact ⟨rfl, by omega, by omega⟩
  · split
    · exact ⟨rfl, by omega, trivial⟩
    · exact cw_wr1 hM (by omega) ⟨rfl, by omega, trivial⟩

theorem cost_insertion (hM : M.Accs) {key : V → κ} {lt : κ → κ → Bool} :
    Costs M (insertion key lt s : Prog V Sp Unit) (s.len * (s.len + 1)) fun _ => True := by
  unfold insertion
  refine (Costs.loop (fun h : Int => 1 ≤ h) (fun h : Int => s.len * (s.len + 1) - h.toNat * (h.toNat + 1)) ?_ _ 1 le_rfl).weaken (Nat.sub_le _ _) fun _ h => h
  intro h h1 J n hn
  split
  · rename_i hc
    obtain ⟨x, rfl⟩ : ∃ x : Nat, h = x := ⟨h.toNat, by omega⟩
    have hx : x + 1 ≤ s.len := by omega
    have e1 : (x + 1) * (x + 2) = x * (x + 1) + (2 * x + 2) := by ring
    have e2 : (x + 1) * (x + 2) ≤ s.len * (s.len + 1) := Nat.mul_le_mul hx (by omega)
    rw [Int.toNat_natCast] at hn ⊢
    have e3 : ((x : Int) + 1).toNat = x + 1 := by omega
    refine cw_rd1 hM.wa (by omega) fun val => (cost_insertInner hM h1).seq (by omega) fun _ k _ hk => ⟨rfl, by omega, ?_⟩
    rw [e3, show x + 1 + 1 = x + 2 from rfl]
    omega
  · exact ⟨rfl, by omega, trivial⟩

theorem cost_pivot (hM : M.wa = 1) (n : Nat) : Costs M (pivot F s n : Prog V Sp κ) n fun _ => True := by
  unfold pivot
  dsimp only
  refine (Costs.bind (N := n) (N' := 0) (R := fun _ => True) ?_ fun sample _ => ?_).weaken le_rfl fun _ h => h
  · refine (Costs.loop (fun _ : Int × Int × Mem κ => True) (fun st : Int × Int × Mem κ => (st.1 + 1).toNat) ?_ _ _ trivial).weaken (by dsimp only; omega) fun _ h => h
    rintro ⟨i, first, sample⟩ _ J n hn
    dsimp only at hn ⊢
    split
    · exact cw_rd1 hM (by omega) fun x => ⟨rfl, trivial, by dsimp only; omega⟩
    · exact ⟨rfl, by omega, trivial⟩
  · split
    · exact fun _ _ _ => trivial
    · split <;> exact Costs.pure trivial

theorem cost_shortPivot (hM : M.wa = 1) : Costs M (shortPivot F s : Prog V Sp κ) 4 fun _ => True := by
  unfold shortPivot
  split
  · intro J n hn
    unfold shortPivot4
    exact cw_rd1 hM (by omega) fun a => cw_rd1 hM (by omega) fun b => cw_rd1 hM (by omega) fun c => cw_rd1 hM (by omega) fun d =>
      ⟨rfl, by omega, trivial⟩
  · intro J n hn
    unfold shortPivot3
    refine cw_rd1 hM (by omega) fun a => cw_rd1 hM (by omega) fun b => cw_rd1 hM (by omega) fun c => ?_
    dsimp only
    split_ifs <;> exact ⟨rfl, by omega, trivial⟩

theorem cost_partOne (hM : M.Accs) {pv : κ} : Costs M (partOne F s pv : Prog V Sp Int) (3 * s.len) fun _ => True := by
  unfold partOne
  refine (Costs.loop
    (fun st : P1 => match st with
      | P1.second l h => l < h
      | P1.swap l h => l < h
      | P1.next l h => l < h
      | P1.start l h => l ≤ h + 1
      | P1.scan l h => l < h
      | P1.last _ _ => True)
    (fun st : P1 => match st with
      | P1.second l h => (3 * (h - l + 1) - 2).toNat
      | P1.swap l h => (3 * (h - l + 1) - 2).toNat
      | P1.next l h => (3 * (h - l - 1)).toNat
      | P1.start l h => (3 * (h - l + 1)).toNat
      | P1.scan l h => (3 * (h - l + 1) - 1).toNat
      | P1.last l h => (3 * (h - l + 1)).toNat) ?_ _ (P1.start 0 ((s.len : Int) - 1)) (by dsimp only; omega)).weaken (by dsimp only; omega) fun _ h => h
  rintro (⟨l, h⟩ | ⟨l, h⟩ | ⟨l, h⟩ | ⟨l, h⟩ | ⟨l, h⟩ | ⟨l, h⟩) hg J n hn <;> unfold partOneStep <;> dsimp only at hg hn ⊢
  · split
    · exact ⟨rfl, by omega, trivial⟩
    · refine cw_rd1 hM.wa (by omega) fun x => ?_
      split
      · exact ⟨rfl, by dsimp only; omega, by dsimp only; omega⟩
      · exact ⟨rfl, by dsimp only; omega, by dsimp only; omega⟩
  · exact (cost_swap hM).seq (by omega) fun _ k _ hk => ⟨rfl, by dsimp only; omega, by dsimp only; omega⟩
  · exact ⟨rfl, by dsimp only; omega, by dsimp only; omega⟩
  · split
    · exact ⟨rfl, trivial, by dsimp only; omega⟩
    · refine cw_rd1 hM.wa (by omega) fun x => ?_
      split
      · refine cw_rd1 hM.wa (by omega) fun y => ?_
        split
        · exact ⟨rfl, by dsimp only; omega, by dsimp only; omega⟩
        · exact ⟨rfl, by dsimp only; omega, by dsimp only; omega⟩
      · exact ⟨rfl, by dsimp only; omega, by dsimp only; omega⟩
  · refine cw_rd1 hM.wa (by omega) fun y => ?_
    split
    · exact ⟨rfl, by dsimp only; omega, by dsimp only; omega⟩
    · split
      · exact ⟨rfl, by omega, trivial⟩
      · exact ⟨rfl, by dsimp only; omega, by dsimp only; omega⟩
  · split
    · refine cw_rd1 hM.wa (by omega) fun x => ?_
      split <;> exact ⟨rfl, by omega, trivial⟩
    · exact ⟨rfl, by omega, trivial⟩

theorem cost_partTwo (hM : M.Accs) {pv : κ} {l h : Int} (h0 : 0 ≤ l) (h1 : h ≤ s.len) :
    Costs M (partTwo F s l h pv : Prog V Sp Int) (3 * (l + (s.len - h))).toNat fun _ => True := by
  unfold partTwo
  dsimp only
  split
  · exact Costs.pure trivial
  refine (Costs.loop
    (fun st : P2 => match st with
      | P2.second l h => 0 ≤ l ∧ h < s.len
      | P2.swap l h => 0 ≤ l ∧ h < s.len
      | P2.next l h => 0 ≤ l ∧ h < s.len
      | P2.start l h => -1 ≤ l ∧ h ≤ s.len
      | P2.scan l h => 0 ≤ l ∧ h < s.len)
    (fun st : P2 => match st with
      | P2.second l h => (3 * (l + 1 + (s.len - h)) - 2).toNat
      | P2.swap l h => (3 * (l + 1 + (s.len - h)) - 2).toNat
      | P2.next l h => (3 * (l + 1 + (s.len - h)) - 6).toNat
      | P2.start l h => (3 * (l + 1 + (s.len - h))).toNat
      | P2.scan l h => (3 * (l + 1 + (s.len - h)) - 1).toNat) ?_ _ (P2.start (l - 1) h) (by dsimp only; omega)).weaken (by dsimp only; omega) fun _ h => h
  rintro (⟨l, h⟩ | ⟨l, h⟩ | ⟨l, h⟩ | ⟨l, h⟩ | ⟨l, h⟩) hg J n hn <;> unfold partTwoStep <;> dsimp only at hg hn ⊢
  · split
    · exact ⟨rfl, by omega, trivial⟩
    · refine cw_rd1 hM.wa (by omega) fun x => ?_
      split
      · exact ⟨rfl, by dsimp only; omega, by dsimp only; omega⟩
      · exact ⟨rfl, by dsimp only; omega, by dsimp only; omega⟩
  · exact (cost_swap hM).seq (by omega) fun _ k _ hk => ⟨rfl, by dsimp only; omega, by dsimp only; omega⟩
  · exact ⟨rfl, by dsimp only; omega, by dsimp only; omega⟩
  · split
    · exact ⟨rfl, by omega, trivial⟩
    · split
      · exact ⟨rfl, by omega, trivial⟩
      · refine cw_rd1 hM.wa (by omega) fun x => ?_
        split
        · refine cw_rd1 hM.wa (by omega) fun y => ?_
          split
          · exact ⟨rfl, by dsimp only; omega, by dsimp only; omega⟩
          · exact ⟨rfl, by dsimp only; omega, by dsimp only; omega⟩
        · exact ⟨rfl, by dsimp only; omega, by dsimp only; omega⟩
  · refine cw_rd1 hM.wa (by omega) fun y => ?_
    split
    · exact ⟨rfl, by dsimp only; omega, by dsimp only; omega⟩
    · split
      · exact ⟨rfl, by omega, trivial⟩
      · exact ⟨rfl, by dsimp only; omega, by dsimp only; omega⟩

theorem cost_gapLow (hM : M.Accs) {pv : κ} {r k : Int} :
    Costs M (gapLow F s pv r k : Prog V Sp Int) (5 * (r + 1)).toNat fun _ => True := by
  unfold gapLow
  refine Costs.loop (fun _ : Int × Int => True) (fun st : Int × Int => (5 * (st.1 + 1)).toNat) ?_ _ (r, k) trivial
  rintro ⟨r, k⟩ _ J n hn
  dsimp only at hn ⊢
  split
  · refine cw_rd1 hM.wa (by omega) fun x => ?_
    split
    · exact (cost_swap hM).seq (by omega) fun _ k _ hk => ⟨rfl, trivial, by dsimp only; omega⟩
    · exact ⟨rfl, trivial, by dsimp only; omega⟩
  · exact ⟨rfl, by omega, trivial⟩

theorem cost_gapHigh (hM : M.Accs) {pv : κ} {r k : Int} :
    Costs M (gapHigh F s pv r k : Prog V Sp Int) (5 * (s.len - r)).toNat fun _ => True := by
  unfold gapHigh
  refine Costs.loop (fun _ : Int × Int => True) (fun st : Int × Int => (5 * (s.len - st.1)).toNat) ?_ _ (r, k) trivial
  rintro ⟨r, k⟩ _ J n hn
  dsimp only at hn ⊢
  split
  · refine cw_rd1 hM.wa (by omega) fun x => ?_
    split
    · exact (cost_swap hM).seq (by omega) fun _ k _ hk => ⟨rfl, trivial, by dsimp only; omega⟩
    · exact ⟨rfl, trivial, by dsimp only; omega⟩
  · exact ⟨rfl, by omega, trivial⟩

theorem cost_splitAt {k : Int} : Costs M (splitAt s k : Prog V Sp (Slice × Slice)) 0 fun r =>
    r.1.len + r.2.len = s.len ∧ r.1.len ≤ r.2.len := by
  intro J n _
  unfold splitAt
  split
  · refine cw.bind ?_
    unfold Slice.sub
    split
    · refine cw.bind ?_
      split
      · exact ⟨rfl, by omega, by dsimp only; omega, by dsimp only; omega⟩
      · trivial
    · trivial
  · refine cw.bind ?_
    unfold Slice.sub
    split
    · refine cw.bind ?_
      split
      · exact ⟨rfl, by omega, by dsimp only; omega, by dsimp only; omega⟩
      · trivial
    · trivial

theorem cost_short (hM : M.Accs) (hi : 8 < F.maxIns) :
    ∀ (f d : Nat) (ar : Slice), F.maxIns < ar.len → Costs M (short F f d ar : Prog V Sp Unit) (qv f ar.len) fun _ => True := by
  intro f
  induction f with
  | zero => intro d ar _ J n _; trivial
  | succ f ih =>
    intro d ar hl J n hn
    unfold short
    refine (cost_shortPivot hM.wa).seq ?_ fun pv k _ hk => (cost_partOne hM).seq ?_ fun i k' _ hk' => (cost_splitAt).seq (by omega) ?_
    · have := qv_split (f := f) (n1 := 0) (n2 := ar.len) (n := ar.len) (by omega); omega
    · have := qv_split (f := f) (n1 := 0) (n2 := ar.len) (n := ar.len) (by omega); omega
    rintro ⟨aq, ar'⟩ k2 ⟨h1, h2⟩ hk2
    dsimp only at h1 h2 ⊢
    have hq := qv_split (f := f) h1
    have hk1 : n ≤ k2 + 6 * ar.len := by omega
    clear hk hk' hk2
    split
    · rename_i hc
      cases d with
      | zero => trivial
      | succ d =>
        exact (ih d aq hc).seq (by omega) fun _ k3 _ hk3 => (ih (d + 1) ar' (by omega)).cw (by omega) fun _ k4 _ hk4 => ⟨rfl, by omega, trivial⟩
    · have e1 := qi_le_qv f aq.len
      have e2 := qi_le_qv f ar'.len
      refine cw.bind ((cw.loop (J := J) (Q := fun again J' k => J' = J ∧ n ≤ k + 6 * ar.len + qv f aq.len + (if again = true then 0 else qv f ar'.len) ∧
          (again = true → F.maxIns < ar'.len))
        (fun st k => (st = aq ∧ n ≤ k + 6 * ar.len) ∨
        (st = ar' ∧ n ≤ k + 6 * ar.len + qv f aq.len ∧ ¬ F.maxIns < ar'.len)) ?_ _ _ _ (.inl ⟨rfl, hk1⟩)).conseq ?_)
      · rintro st k (⟨rfl, hk⟩ | ⟨rfl, hk, hno⟩)
        · refine (cost_insertion hM).seq (by omega) fun _ k2 _ hk2 => ?_
          by_cases hno : F.maxIns < ar'.len
          · rw [if_pos hno]
            exact ⟨rfl, rfl, by rw [if_pos rfl]; omega, fun _ => hno⟩
          · rw [if_neg hno]
            refine cw.bind ?_
            unfold Slice.addrNe
            split
            · show cw M (if _ then _ else _) J k2 _
              split
              · exact ⟨rfl, .inr ⟨rfl, by omega, hno⟩⟩
              · exact ⟨rfl, rfl, by rw [if_neg (by simp)]; omega, by simp⟩
            · trivial
        · refine (cost_insertion hM).seq (by omega) fun _ k2 _ hk2 => ?_
          rw [if_neg hno]
          refine cw.bind ?_
          unfold Slice.addrNe
          split
          · show cw M (if (st.off != st.off) = true then _ else _) J k2 _
            rw [if_neg (by simp)]
            exact ⟨rfl, rfl, by rw [if_neg (by simp)]; omega, by simp⟩
          · trivial
      · rintro again J' k2 ⟨rfl, hk2, hag⟩
        cases again with
        | false =>
          rw [if_neg (by simp)] at hk2
          exact ⟨rfl, by omega, trivial⟩
        | true =>
          rw [if_pos rfl] at hk2
          exact (ih d ar' (hag rfl)).cw (by omega) fun _ k3 _ hk3 => ⟨rfl, by omega, trivial⟩

theorem vmeter_wa : (vmeter V κ).Accs := ⟨rfl, rfl, trivial⟩

theorem nLong_le : F.nLong ≤ 6 := by unfold Fam.nLong nsLong; split <;> omega
theorem nConc_le : F.nConc ≤ 8 := by unfold Fam.nConc nsConc; split <;> omega

theorem cw_long (hi : 8 < F.maxIns) (hr : 2 * F.maxIns < F.maxRec) :
    ∀ (f d : Nat) (ar : Slice) (sv : Bool), F.maxRec < ar.len → ∀ n, qv f ar.len ≤ n →
    cw (vmeter V κ) (long F f d ar sv) none n fun _ J' k => J' = none ∧ n ≤ k + qv f ar.len := by
  intro f
  induction f with
  | zero => intro d ar sv _ n _; trivial
  | succ f ih =>
    intro d ar sv hl n hn
    unfold long
    have hq0 := qv_split (f := f) (n1 := 0) (n2 := ar.len) (n := ar.len) (by omega)
    have hnl := nLong_le (F := F)
    refine (cost_pivot vmeter_wa.wa _).seq (by omega) fun pv k _ hk => (cost_partOne vmeter_wa).seq (by omega) fun i k' _ hk' => (cost_splitAt).seq (by omega) ?_
    rintro ⟨aq, ar'⟩ k2 ⟨h1, h2⟩ hk2
    dsimp only at h1 h2 ⊢
    have hq := qv_split (f := f) h1
    have hk1 : n ≤ k2 + 6 * ar.len := by omega
    clear hk hk' hk2
    by_cases hc : aq.len ≤ F.maxRec
    · rw [if_pos hc]
      have rest : ∀ k3, n ≤ k3 + 6 * ar.len + qv f aq.len →
          cw (vmeter V κ) (if ar'.len > F.maxRec then long F f d ar' sv
            else match d with
              | 0 => .overflow
              | d + 1 => short F f d ar') none k3 fun _ J' k => J' = none ∧ n ≤ k + qv (f + 1) ar.len := by
        intro k2 hk2
        split
        · rename_i hc2
          exact (ih d ar' sv hc2 k2 (by omega)).conseq fun _ J' k3 ⟨h1, h2⟩ => ⟨h1, by omega⟩
        · cases d with
          | zero => trivial
          | succ d =>
            exact (cost_short vmeter_wa hi f d ar' (by omega)).cw (by omega) fun _ k3 _ hk3 => ⟨rfl, by omega⟩
      by_cases hc1 : aq.len > F.maxIns
      · rw [if_pos hc1]
        cases d with
        | zero => trivial
        | succ d => exact (cost_short vmeter_wa hi f d aq hc1).seq (by omega) fun _ k3 _ hk3 => rest k3 (by omega)
      · rw [if_neg hc1]
        have := qi_le_qv f aq.len
        exact (cost_insertion vmeter_wa).seq (by omega) fun _ k3 _ hk3 => rest k3 (by omega)
    · rw [if_neg hc]
      have both : ∀ full : Bool, cw (vmeter V κ) (if full = true then do
            match d with
            | 0 => .overflow
            | d + 1 => long F f d aq sv
            long F f d ar' sv
          else do
            let _ ← .incGor .ret
            .go (.long ar' f) (.ret ())
            long F f d aq sv) none k2 fun _ J' k => J' = none ∧ n ≤ k + qv (f + 1) ar.len := by
        intro full
        split
        · cases d with
          | zero => trivial
          | succ d =>
            refine cw.bind ((ih d aq sv (by omega) k2 (by omega)).conseq ?_)
            rintro _ J' k3 ⟨rfl, hk3⟩
            exact (ih (d + 1) ar' sv (by omega) k3 (by omega)).conseq fun _ J' k3 ⟨h1, h2⟩ => ⟨h1, by omega⟩
        · intro x
          refine ⟨⟨trivial, ?_⟩, ?_⟩
          · show qv f ar'.len ≤ k2; omega
          · show cw (vmeter V κ) (long F f d aq sv) none (k2 - qv f ar'.len) _
            exact (ih d aq sv (by omega) _ (by omega)).conseq fun _ J' k3 ⟨h1, h2⟩ => ⟨h1, by omega⟩
      cases sv with
      | false => exact both true
      | true => exact fun mg x => both _

theorem cw_vbody (hi : 8 < F.maxIns) (hr : 2 * F.maxIns < F.maxRec) (d : Nat) {sp : VSp κ} (hp : ∀ ar f, sp = .long ar f → F.maxRec < ar.len) :
    cw (vmeter V κ) (vbody F d sp) none ((vmeter V κ).ρ sp) fun _ _ _ => True := by
  cases sp with
  | part ar pv => exact (cost_partOne vmeter_wa).seq le_rfl fun k _ _ _ => trivial
  | long ar f =>
    refine cw.bind ((cw_long hi hr f d ar true (hp _ _ rfl) _ le_rfl).conseq ?_)
    intro _ _ _ _ x
    show cw (vmeter V κ) (if x = 0 then _ else _) _ _ _
    split <;> trivial

theorem cw_partCon (hl : 40 ≤ s.len) (n : Nat) (hn : 6 * s.len ≤ n) :
    cw (vmeter V κ) (partCon F s) none n fun _ J' k => J' = none ∧ n ≤ k + 6 * s.len := by
  unfold partCon
  have hnl := nConc_le (F := F)
  refine (cost_pivot vmeter_wa.wa _).seq (by omega) fun pv k _ hk => ?_
  dsimp only
  have hm : (s.len : Int) / 2 / 2 ≤ (s.len : Int) / 2 ∧ 0 ≤ (s.len : Int) / 2 / 2 ∧ (s.len : Int) / 2 ≤ meanI ((s.len : Int) / 2) s.len ∧ meanI ((s.len : Int) / 2) s.len ≤ s.len := by
    unfold meanI; omega
  have hmid : 2 * ((s.len : Int) / 2) ≤ s.len ∧ s.len ≤ 2 * ((s.len : Int) / 2) + 1 := by omega
  generalize (s.len : Int) / 2 / 2 = l at *
  generalize meanI ((s.len : Int) / 2) s.len = h at *
  generalize (s.len : Int) / 2 = mid at *
  refine cw.bind ?_
  unfold Slice.sub
  rw [if_pos (by omega)]
  show cw (vmeter V κ) (Prog.go _ (.ret ()) >>= _) none k _
  refine cw.bind (⟨⟨trivial, ?_⟩, ?_⟩ : cw (vmeter V κ) (Prog.go _ (.ret ())) none k _)
  · show 3 * (h - l).toNat ≤ k; omega
  · show cw (vmeter V κ) (partTwo F s l h pv >>= _) _ (k - 3 * (h - l).toNat) _
    refine (cost_partTwo vmeter_wa (by omega) (by omega)).seq (by omega) fun r k' _ hk' => ?_
    refine cw.bind (p := Prog.recv .ret) ?_
    intro v _
    show cw (vmeter V κ) (if r < mid then gapLow F s pv r (l + v) else gapHigh F s pv r (l + v)) none k' _
    split
    · exact (cost_gapLow vmeter_wa).cw (by omega) fun a k'' ha hk'' => ⟨rfl, by omega⟩
    · exact (cost_gapHigh vmeter_wa).cw (by omega) fun a k'' ha hk'' => ⟨rfl, by omega⟩

theorem cw_sortLoop (hi : 8 < F.maxIns) (hr : 2 * F.maxIns < F.maxRec) (d : Nat) :
    ∀ (f : Nat) (ar : Slice), 2 * (F.maxRec + 1) ≤ ar.len → ∀ n, qv f ar.len ≤ n →
    cw (vmeter V κ) (sortLoop F d f ar) none n fun _ _ _ => True := by
  intro f
  induction f with
  | zero => intro ar _ n _; trivial
  | succ f ih =>
    intro ar hl n hn
    unfold sortLoop
    have hq0 := qv_split (f := f) (n1 := 0) (n2 := ar.len) (n := ar.len) (by omega)
    refine cw.bind ((cw_partCon (by omega) n (by omega)).conseq ?_)
    rintro i J' k ⟨rfl, hk⟩
    refine (cost_splitAt).seq (by omega) ?_
    rintro ⟨aq, ar'⟩ k2 ⟨h1, h2⟩ hk2
    dsimp only at h1 h2 ⊢
    have hq := qv_split (f := f) h1
    have hk1 : n ≤ k2 + 6 * ar.len := by omega
    clear hk hk2
    have rest : ∀ k2, qv f ar'.len ≤ k2 → cw (vmeter V κ) (do
        let stop ← if ar'.len < 2 * (F.maxRec + 1) then pure true else gorFull
        if stop then do
          long F f d ar' true
          let n ← .decGor .ret
          if n ≠ 0 then do
            let _ ← .recv .ret
            pure ()
          else pure ()
        else sortLoop F d f ar') none k2 fun _ _ _ => True := by
      intro k2 hk2
      have long : cw (vmeter V κ) (do
          long F f d ar' true
          let n ← .decGor .ret
          if n ≠ 0 then do
            let _ ← .recv .ret
            pure ()
          else pure ()) none k2 fun _ _ _ => True := by
        refine cw.bind ((cw_long hi hr f d ar' true (by omega) _ hk2).conseq ?_)
        intro _ _ _ _ x
        show cw (vmeter V κ) (if x ≠ 0 then _ else _) _ _ _
        split
        · intro v _; trivial
        · trivial
      by_cases hc : ar'.len < 2 * (F.maxRec + 1)
      · rw [if_pos hc]; exact long
      · rw [if_neg hc]
        intro mg x
        show cw (vmeter V κ) (if decide (x ≥ mg) = true then _ else _) none k2 _
        split
        · exact long
        · exact ih ar' (by omega) k2 hk2
    by_cases hc1 : aq.len > F.maxRec
    · rw [if_pos hc1]
      intro x
      refine ⟨⟨trivial, ?_⟩, ?_⟩
      · show qv f aq.len ≤ k2; omega
      · exact rest (k2 - qv f aq.len) (by omega)
    rw [if_neg hc1]
    by_cases hc2 : aq.len > F.maxIns
    · rw [if_pos hc2]
      exact (cost_short vmeter_wa hi f d aq hc2).seq (by omega) fun _ k2 _ hk2 => rest k2 (by omega)
    · rw [if_neg hc2]
      have := qi_le_qv f aq.len
      exact (cost_insertion vmeter_wa).seq (by omega) fun _ k2 _ hk2 => rest k2 (by omega)

theorem cw_sortV (hi : 8 < F.maxIns) (hr : 2 * F.maxIns < F.maxRec) (d : Nat) {n : Nat} (hn : qv s.len s.len ≤ n) :
    cw (vmeter V κ) (sortV F d s) none n fun _ _ _ => True := by
  unfold sortV
  dsimp only
  have single : cw (vmeter V κ) (if s.len > F.maxRec then long F s.len d s false
      else if s.len > F.maxIns then short F s.len d s
      else insertion F.key F.lt s) none n fun _ _ _ => True := by
    split
    · rename_i h; exact (cw_long hi hr _ _ _ _ h _ hn).conseq fun _ _ _ _ => trivial
    · split
      · rename_i h; exact (cost_short vmeter_wa hi _ _ _ h).cw hn fun _ _ _ _ => trivial
      · exact (cost_insertion vmeter_wa).cw ((qi_le_qv _ _).trans hn) fun _ _ _ _ => trivial
  by_cases hc : s.len < 2 * (F.maxRec + 1)
  · rw [if_pos hc]; exact single
  · rw [if_neg hc]
    intro mg
    show cw (vmeter V κ) (if decide (mg ≤ 1) = true then _ else _) none _ _
    split
    · exact single
    · exact cw_sortLoop hi hr d _ _ (by omega) _ hn

theorem cost_sub {lo hi : Int} : Costs M (s.sub lo hi : Prog V Sp Slice) 0 fun r => r.len ≤ s.len := by
  intro J n _
  unfold Slice.sub
  split
  · exact ⟨rfl, by omega, by dsimp only; omega⟩
  · trivial

theorem cost_nanToEnd {M : Meter Cell Sp} (hM : M.Accs) : Costs M (nanToEnd s : Prog Cell Sp Slice) (4 * s.len) fun r => r.len ≤ s.len := by
  unfold nanToEnd
  refine (Costs.bind (N' := 0) (R := fun _ => True) (Costs.loop (fun _ : Int × Int => True) (fun st : Int × Int => (4 * (st.2 - st.1 + 1)).toNat) ?_ _ _ trivial)
    fun h _ => cost_sub).weaken (by dsimp only; omega) fun _ h => h
  rintro ⟨l, h⟩ _ J n hn
  dsimp only at hn ⊢
  split
  · refine cw_rd1 hM.wa (by omega) fun x => ?_
    split
    · exact ⟨rfl, trivial, by dsimp only; omega⟩
    · refine cw_rd1 hM.wa (by omega) fun y => ?_
      split
      · exact cw_wr1 hM (by omega) (cw_wr1 hM (by omega) ⟨rfl, trivial, by dsimp only; omega⟩)
      · exact ⟨rfl, trivial, by dsimp only; omega⟩
  · exact ⟨rfl, by omega, trivial⟩

theorem cost_nanToStart {M : Meter Cell Sp} (hM : M.Accs) : Costs M (nanToStart s : Prog Cell Sp Slice) (4 * s.len) fun r => r.len ≤ s.len := by
  unfold nanToStart
  refine (Costs.bind (N' := 0) (R := fun _ => True) (Costs.loop (fun _ : Int × Int => True) (fun st : Int × Int => (4 * (st.2 - st.1 + 1)).toNat) ?_ _ _ trivial)
    fun h _ => cost_sub).weaken (by dsimp only; omega) fun _ h => h
  rintro ⟨l, h⟩ _ J n hn
  dsimp only at hn ⊢
  split
  · refine cw_rd1 hM.wa (by omega) fun x => ?_
    split
    · exact ⟨rfl, trivial, by dsimp only; omega⟩
    · refine cw_rd1 hM.wa (by omega) fun y => ?_
      split
      · exact cw_wr1 hM (by omega) (cw_wr1 hM (by omega) ⟨rfl, trivial, by dsimp only; omega⟩)
      · exact ⟨rfl, trivial, by dsimp only; omega⟩
  · exact ⟨rfl, by omega, trivial⟩

theorem qv_mono {n n' : Nat} (h : n ≤ n') : qv n n ≤ qv n' n' := by
  unfold qv
  have := Nat.mul_le_mul h h
  have := Nat.mul_le_mul h (Nat.succ_le_succ h)
  simp only [Nat.succ_eq_add_one] at this
  omega

theorem cw_sortOf {C : Conf} (id : FamId) (hi : 8 < (fam C id).maxIns) (hr : 2 * (fam C id).maxIns < (fam C id).maxRec) :
    cw (vmeter Cell Key) (sortOf C id s) none (s.len * (7 * s.len + 5)) fun _ _ _ => True := by
  have hq : s.len * (7 * s.len + 5) = qv s.len s.len + 4 * s.len := by unfold qv; ring
  rw [hq]
  unfold sortOf
  split
  · have fin : ∀ (a : Slice) (k : Nat), a.len ≤ s.len → qv s.len s.len + 4 * s.len - 4 * s.len ≤ k →
        cw (vmeter Cell Key) (sortV (fam C id) C.depth a) none k fun _ _ _ => True := by
      intro a k ha hk
      have := qv_mono ha
      exact cw_sortV hi hr _ (by omega)
    dsimp only
    split_ifs
    · exact (cost_nanToEnd vmeter_wa).seq (by omega) fin
    · exact (cost_nanToStart vmeter_wa).seq (by omega) fin
    · exact fin s _ le_rfl (by omega)
  · exact cw_sortV hi hr _ (by omega)

theorem call_metered {C : Conf} (hC : C.OK) {id : FamId} {m : Mem Cell} (hd : DepthFor C.depth s.len) (hok : ∀ a ∈ s.rng, Accept C id (m a)) (hl : s.len < 2 ^ 63)
    {M : Nat} {stale : Prop} {c : Cfg Cell (VSp Key)} {n : Nat}
    (h : CSteps ((famCall C id s).par M stale) Prog.accs (start (famCall C id s).main m) c n) : n ≤ s.len * (7 * s.len + 5) := by
  obtain ⟨ts, h0⟩ := call_start hC id (m := m) hd hok M stale
  have hF := famOK hC id
  have hi : 8 < (fam C id).maxIns := by have := hF.ins; unfold nsShort at this; omega
  have hw : Prog.accs = ((vmeter Cell Key).w : Prog Cell (VSp Key) Unit → Nat) := by
    funext p; cases p <;> rfl
  refine Inv.metered_le (call_hyp hC id m hl M stale) ⟨ts, h0, jsOf_start h0⟩ ⟨fun _ => trivial, fun _ _ _ => trivial, fun _ _ _ _ _ _ => trivial⟩ ?_ (fun _ _ _ _ _ => trivial) ?_ (cw_sortOf id hi hF.recOK) (hw ▸ h)
  · funext sp; cases sp <;> rfl
  · intro sp m _ hp
    refine cw_vbody hi hF.recOK _ ?_
    rintro ar f rfl
    exact hp.1

/-! ## IsSorted, IsSortedSlice, IsSortedLen -/

theorem cost_isSortedV (hM : M.wa = 1) : Costs M (isSortedV F s : Prog V Sp Int) (2 * (s.len - 1)) fun _ => True := by
  unfold isSortedV
  refine (Costs.loop (fun _ : Int => True) (fun i : Int => (2 * i).toNat) ?_ _ _ trivial).weaken (by omega) fun _ h => h
  intro i _ J n hn
  split
  · refine cw_rd1 hM (by omega) fun x => cw_rd1 hM (by omega) fun y => ?_
    split
    · exact ⟨rfl, by omega, trivial⟩
    · exact ⟨rfl, trivial, by omega⟩
  · exact ⟨rfl, by omega, trivial⟩

theorem cost_isSortedF {M : Meter Cell Sp} (hM : M.wa = 1) {o : Int} : Costs M (isSortedF o s : Prog Cell Sp Int) (3 * s.len) fun _ => True := by
  have scan : ∀ l h : Int, 0 ≤ l → h ≤ (s.len : Int) - 1 → Costs M (loop (s.len + 1) (fun i : Int =>
      if i > l then do
        let x ← s.rd i
        let y ← s.rd (i - 1)
        if !cellGE x y then pure (.brk i) else pure (.again (i - 1))
      else pure (.brk 0)) h : Prog Cell Sp Int) (2 * s.len) fun _ => True := by
    intro l h h0 h1
    refine (Costs.loop (fun _ : Int => True) (fun i : Int => (2 * (i - l)).toNat) ?_ _ _ trivial).weaken (by omega) fun _ h => h
    intro i _ J n hn
    split
    · refine cw_rd1 hM (by omega) fun x => cw_rd1 hM (by omega) fun y => ?_
      split
      · exact ⟨rfl, by omega, trivial⟩
      · exact ⟨rfl, trivial, by omega⟩
    · exact ⟨rfl, by omega, trivial⟩
  unfold isSortedF
  dsimp only
  split_ifs
  · refine (Costs.bind (N := s.len) (N' := 2 * s.len) (R := fun r : Int × Int => 0 ≤ r.1 ∧ r.2 ≤ (s.len : Int) - 1) ?_ ?_).weaken (by omega) fun _ h => h
    · refine (Costs.loop (fun h : Int => h ≤ (s.len : Int) - 1) (fun i : Int => (i + 1).toNat) ?_ _ _ le_rfl).weaken (by omega) fun _ h => h
      intro i hi J n hn
      split
      · refine cw_rd1 hM (by omega) fun x => ?_
        split
        · exact ⟨rfl, by omega, by omega⟩
        · exact ⟨rfl, by omega, le_rfl, hi⟩
      · exact ⟨rfl, by omega, le_rfl, hi⟩
    · rintro ⟨l, h⟩ ⟨h1, h2⟩; exact scan l h h1 h2
  · refine (Costs.bind (N := s.len) (N' := 2 * s.len) (R := fun r : Int × Int => 0 ≤ r.1 ∧ r.2 ≤ (s.len : Int) - 1) ?_ ?_).weaken (by omega) fun _ h => h
    · refine (Costs.loop (fun l : Int => 0 ≤ l) (fun i : Int => (s.len - i).toNat) ?_ _ _ le_rfl).weaken (by omega) fun _ h => h
      intro i hi J n hn
      split
      · refine cw_rd1 hM (by omega) fun x => ?_
        split
        · exact ⟨rfl, by omega, by omega⟩
        · exact ⟨rfl, by omega, hi, le_rfl⟩
      · exact ⟨rfl, by omega, hi, le_rfl⟩
    · rintro ⟨l, h⟩ ⟨h1, h2⟩; exact scan l h h1 h2
  · exact (scan 0 _ le_rfl le_rfl).weaken (by omega) fun _ h => h

theorem cost_isSortedLsw (hM : M.Asks) {ws : Nat} (hws : ws = 4 ∨ ws = 8) (hl : s.len < 2 ^ (8 * ws - 1)) :
    Costs M (IsSorted ws s.len s : Prog V Sp Int) (2 * (s.len - 1)) fun _ => True := by
  unfold IsSorted
  have hwr : wrapInt ws ((s.len : Int) - 1) = (s.len : Int) - 1 := by
    have hp : (0 : Int) < 2 ^ (8 * ws - 1) := by positivity
    have : ((s.len : Nat) : Int) < 2 ^ (8 * ws - 1) := by exact_mod_cast hl
    exact wrapInt_id hws (by omega) (by omega)
  rw [hwr]
  refine (Costs.loop (fun _ : Int => True) (fun i : Int => (2 * i).toNat) ?_ _ _ trivial).weaken (by omega) fun _ h => h
  intro i _ J n hn
  split
  · refine cw_lsw hM (by omega) fun b => ?_
    cases b with
    | true => exact ⟨rfl, by omega, trivial⟩
    | false => exact ⟨rfl, trivial, by omega⟩
  · exact ⟨rfl, by omega, trivial⟩

theorem looks_scale {V Sp α : Type} (less : Nat → Nat → V → V → Bool) (m : Mem V) (p : Prog V Sp α) :
    p.looks 0 2 less m = 2 * p.looks 0 1 less m := by
  induction p with
  | read i k ih => simp only [Prog.looks, ih]; omega
  | less i j x y k ih => simp only [Prog.looks, ih]; omega
  | _ => simp [Prog.looks]

end Sorty
