import Verif.Proofs.ValCost
import Verif.Proofs.Median
import Mathlib.Tactic.IntervalCases

/-! # The type-specific sorts on ascending input -/

namespace Sorty

open Prog

variable {V κ Sp α : Type} {ρ : Type} [LinearOrder ρ]
variable {F : Fam V κ} {ok : κ → Prop} {rk : κ → ρ} {m0 : Mem V} {s : Slice} {M : Meter V Sp}

/-- the slice is ascending in `m0` -/
structure Asc (F : Fam V κ) (ok : κ → Prop) (rk : κ → ρ) (m0 : Mem V) (s : Slice) : Prop where
  ok : ∀ i : Int, 0 ≤ i → i < s.len → ok (F.key (s.E m0 i))
  asc : ∀ i j : Int, 0 ≤ i → i ≤ j → j < s.len → rk (F.key (s.E m0 i)) ≤ rk (F.key (s.E m0 j))

theorem Asc.sub (h : Asc F ok rk m0 s) {lo hi : Int} (h0 : 0 ≤ lo) (h2 : hi ≤ s.len) :
    Asc F ok rk m0 ⟨s.off + lo.toNat, (hi - lo).toNat⟩ := by
  have e : ∀ i : Int, 0 ≤ i → Slice.E (⟨s.off + lo.toNat, (hi - lo).toNat⟩ : Slice) m0 i = s.E m0 (lo + i) := by
    intro i hi
    unfold Slice.E
    dsimp only
    rw [Nat.add_assoc]
    congr 2
    omega
  constructor
  · intro i i0 i1
    dsimp only at i1
    rw [e i i0]; exact h.ok _ (by omega) (by omega)
  · intro i j i0 ij j1
    dsimp only at j1
    rw [e i i0, e j (by omega)]; exact h.asc _ _ (by omega) (by omega) (by omega)

/-- a meter that knows the memory, which does not change -/
structure Meter.Quiet (M : Meter V Sp) (m0 : Mem V) : Prop where
  wa : M.wa = 1
  rd : ∀ i x, M.rd i x → x = m0 i

theorem cw_rdq (hM : M.Quiet m0) {i : Int} {f : V → Prog V Sp α} {J : Option Sp} {n : Nat} {Q : α → Option Sp → Nat → Prop} (hn : 1 ≤ n)
    (h : 0 ≤ i → i < s.len → cw M (f (s.E m0 i)) J (n - 1) Q) : cw M (s.rd i >>= f) J n Q := by
  refine cw.bind ?_
  unfold Slice.rd
  split_ifs with hi
  · refine ⟨by rw [hM.wa]; omega, fun x hx => ?_⟩
    have hx := hM.rd _ _ hx
    subst hx
    rw [hM.wa]; exact h hi.1 hi.2
  · trivial

/-- what a program that only looks returns, together with its cost -/
theorem cw_swp {cmp : Nat → Nat → V → V → Bool → Prop} {R : Set Nat} (hM : ∀ i x, M.rd i x → x = m0 i)
    (hc : ∀ i j x y b, M.cmp i j x y b → cmp i j x y b) {p : Prog V Sp α} : ∀ {J : Option Sp} {n : Nat}
    {Q : α → Option Sp → Nat → Prop} {Q' : α → Mem V → Prop}, cw M p J n Q → swp cmp ∅ R p m0 Q' →
    cw M p J n fun a J k => Q a J k ∧ Q' a m0 := by
  induction p with
  | ret a => intro J n Q Q' h hs; exact ⟨h, hs⟩
  | read i k ih =>
    intro J n Q Q' h hs
    refine ⟨h.1, fun x hx => ih x (h.2 x hx) ?_⟩
    rw [hM _ _ hx]; exact hs.2
  | write i v k ih => intro J n Q Q' h hs; exact hs.1.elim
  | less i j x y k ih => intro J n Q Q' h hs; exact ⟨h.1, fun b hb => ih b (h.2 b hb) (hs.2 b (hc _ _ _ _ _ hb))⟩
  | _ => intro J n Q Q' h hs; exact hs.elim

theorem Costs.swp {cmp : Nat → Nat → V → V → Bool → Prop} {R : Set Nat} (hM : ∀ i x, M.rd i x → x = m0 i)
    (hc : ∀ i j x y b, M.cmp i j x y b → cmp i j x y b) {p : Prog V Sp α} {N : Nat} {A B : α → Prop} (h : Costs M p N A)
    (hs : swp cmp ∅ R p m0 fun a m => m = m0 ∧ B a) : Costs M p N fun a => A a ∧ B a :=
  fun J n hn => (cw_swp hM hc (h J n hn) hs).conseq fun _ _ _ ⟨⟨h1, h2, h3⟩, _, h4⟩ => ⟨h1, h2, h3, h4⟩

theorem quiet_insertInner (hF : FamOK F ok rk) (hM : M.Quiet m0) (ha : Asc F ok rk m0 s) {h : Int} (h0 : 1 ≤ h) (h1 : h < s.len) :
    Costs M (insertInner F.key F.lt s h (s.E m0 h) : Prog V Sp Unit) 1 fun _ => True := by
  unfold insertInner
  refine Costs.loop (fun l : Int => l = h) (fun l : Int => 1) ?_ _ h rfl
  rintro l rfl J n hn
  refine cw_rdq hM (by omega) fun _ _ => ?_
  rw [if_neg, if_pos rfl]
  · exact ⟨rfl, by omega, trivial⟩
  · rw [hF.lt _ _ (ha.ok _ (by omega) (by omega)) (ha.ok _ (by omega) (by omega)), not_lt]
    exact ha.asc _ _ (by omega) (by omega) (by omega)

theorem quiet_insertion (hF : FamOK F ok rk) (hM : M.Quiet m0) (ha : Asc F ok rk m0 s) :
    Costs M (insertion F.key F.lt s : Prog V Sp Unit) (2 * s.len) fun _ => True := by
  unfold insertion
  refine (Costs.loop (fun h : Int => 1 ≤ h) (fun h : Int => (2 * (s.len - h)).toNat) ?_ _ 1 le_rfl).weaken (by omega) fun _ h => h
  intro h h1 J n hn
  split
  · rename_i hc
    refine cw_rdq hM (by omega) fun _ _ => (quiet_insertInner hF hM ha h1 hc).seq (by omega) fun _ k _ hk => ⟨rfl, by omega, by omega⟩
  · exact ⟨rfl, by omega, trivial⟩

/-- a pivot from the middle half of the slice -/
structure Central (F : Fam V κ) (rk : κ → ρ) (m0 : Mem V) (s : Slice) (pv : κ) : Prop where
  low : ∃ i : Int, 0 ≤ i ∧ i < s.len ∧ s.len ≤ 4 * (i + 1) ∧ rk (F.key (s.E m0 i)) ≤ rk pv
  high : ∃ j : Int, 0 ≤ j ∧ j < s.len ∧ s.len ≤ 4 * (s.len - j) ∧ rk pv ≤ rk (F.key (s.E m0 j))

theorem sublist_high {f : Nat → α} {n L : Nat} {l : List α} (h : l.Sublist ((List.range n).map f)) (hl : L ≤ l.length) (h1 : 1 ≤ L) :
    ∃ j, L - 1 ≤ j ∧ j < n ∧ f j ∈ l := by
  obtain ⟨r, hr, rfl⟩ := List.sublist_map_iff.1 h
  by_contra hc
  push Not at hc
  have hnd : r.Nodup := List.nodup_range.sublist hr
  have hsub : r ⊆ List.range (L - 1) := by
    intro x hx
    by_contra hx'
    exact hc x (by simpa using hx') (List.mem_range.1 (hr.subset hx)) (List.mem_map_of_mem hx)
  have := (List.subperm_of_subset hnd hsub).length_le
  simp at this hl
  omega

theorem sublist_low {f : Nat → α} {n L : Nat} {l : List α} (h : l.Sublist ((List.range n).map f)) (hl : L ≤ l.length) (h1 : 1 ≤ L) :
    ∃ j, j ≤ n - L ∧ j < n ∧ f j ∈ l := by
  obtain ⟨r, hr, rfl⟩ := List.sublist_map_iff.1 h
  by_contra hc
  push Not at hc
  have hnd : r.Nodup := List.nodup_range.sublist hr
  have hsub : r ⊆ List.range' (n - L + 1) (L - 1) := by
    intro x hx
    have hn := List.mem_range.1 (hr.subset hx)
    by_contra hx'
    refine hc x ?_ hn (List.mem_map_of_mem hx)
    simp at hx'
    omega
  have := (List.subperm_of_subset hnd hsub).length_le
  simp at this hl
  omega

theorem sample_mid {slen n : Nat} (hn : 3 ≤ n) (hn' : n ≤ 8) (hs : 2 * n ≤ slen) :
    slen ≤ 4 * ((minMaxSample slen n).1 + ((n + 1) / 2 - 1) * (minMaxSample slen n).2.1 + 1) ∧
    slen ≤ 4 * (slen - ((minMaxSample slen n).1 + (n / 2) * (minMaxSample slen n).2.1)) := by
  unfold minMaxSample
  interval_cases n <;> (dsimp only; split_ifs <;> dsimp only <;> omega)

theorem central_of_half {n : Nat} (hn : 3 ≤ n) (hn' : n ≤ 8) (hs : 2 * n ≤ s.len) {pv : κ}
    (h1 : Half (fun c => rk (F.key c) ≤ rk pv) (picks (s.view m0) (minMaxSample s.len n).1 (minMaxSample s.len n).2.1 n))
    (h2 : Half (fun c => rk pv ≤ rk (F.key c)) (picks (s.view m0) (minMaxSample s.len n).1 (minMaxSample s.len n).2.1 n)) :
    Central F rk m0 s pv := by
  obtain ⟨b1, b2, b3⟩ := minMaxSample_bounds (by omega : 2 ≤ n) hs
  obtain ⟨c1, c2⟩ := sample_mid hn hn' hs
  have hin : ∀ j < n, (minMaxSample s.len n).1 + j * (minMaxSample s.len n).2.1 < s.len := by
    intro j hj
    have : j * (minMaxSample s.len n).2.1 ≤ (n - 1) * (minMaxSample s.len n).2.1 := Nat.mul_le_mul_right _ (by omega)
    omega
  rw [picks_view hin] at h1 h2
  constructor
  · obtain ⟨l, l1, l2, l3⟩ := h1
    simp at l3
    obtain ⟨j, j1, j2, j3⟩ := sublist_high (L := (n + 1) / 2) l1 (by omega) (by omega)
    have := hin j j2
    have hj : ((n + 1) / 2 - 1) * (minMaxSample s.len n).2.1 ≤ j * (minMaxSample s.len n).2.1 := Nat.mul_le_mul_right _ j1
    exact ⟨(((minMaxSample s.len n).1 + j * (minMaxSample s.len n).2.1 : Nat) : Int), by omega, by omega, by omega, l2 _ j3⟩
  · obtain ⟨l, l1, l2, l3⟩ := h2
    simp at l3
    obtain ⟨j, j1, j2, j3⟩ := sublist_low (L := (n + 1) / 2) l1 (by omega) (by omega)
    have := hin j j2
    have hj : j * (minMaxSample s.len n).2.1 ≤ (n / 2) * (minMaxSample s.len n).2.1 := Nat.mul_le_mul_right _ (by omega)
    exact ⟨(((minMaxSample s.len n).1 + j * (minMaxSample s.len n).2.1 : Nat) : Int), by omega, by omega, by omega, l2 _ j3⟩

theorem Asc.mem (ha : Asc F ok rk m0 s) : ∀ a ∈ s.rng, ok (F.key (m0 a)) := by
  intro a h
  obtain ⟨i, i0, i1, rfl⟩ := idx_of_mem h
  exact ha.ok i i0 i1

theorem quiet_pivot (hF : FamOK F ok rk) (hM : M.Quiet m0) (ha : Asc F ok rk m0 s) {n : Nat} (hn : 3 ≤ n) (hn' : n ≤ 8)
    (hodd : F.mean = none ∨ n % 2 = 0) (hs : 2 * n ≤ s.len) :
    Costs M (pivot F s n : Prog V Sp κ) n fun pv => ok pv ∧ Central F rk m0 s pv := by
  have h := pivot_mid (cmp := fun _ _ _ _ _ => True) (W := ∅) (R := s.rng) (Sp := Sp) hF (by simp) (by omega : 2 ≤ n) hs ha.mem
  refine ((cost_pivot hM.wa n).swp hM.rd (fun _ _ _ _ _ _ => trivial) h).weaken le_rfl ?_
  rintro pv ⟨-, h1, σ, s', hm⟩
  obtain ⟨g1, g2⟩ := hm.half (by omega) hs hodd
  exact ⟨h1, central_of_half hn hn' hs g1 g2⟩

theorem quiet_shortPivot (hF : FamOK F ok rk) (hM : M.Quiet m0) (ha : Asc F ok rk m0 s) (hs : 8 ≤ s.len) :
    Costs M (shortPivot F s : Prog V Sp κ) 4 fun pv => ok pv ∧ (F.mean = none ∨ s.len < 2 ^ 32 → Central F rk m0 s pv) := by
  have h : swp (fun _ _ _ _ _ => True) ∅ s.rng (shortPivot F s : Prog V Sp κ) m0 fun pv m => m = m0 ∧ ok pv ∧
      (F.mean = none ∨ s.len < 2 ^ 32 → Central F rk m0 s pv) := by
    by_cases hc : F.mean = none ∨ s.len < 2 ^ 32
    · unfold shortPivot
      cases hf : F.mean with
      | none => exact swp_mono (shortPivot3_half hF (by simp) (by omega) ha.mem) fun pv m ⟨h1, h2, h3, h4⟩ =>
          ⟨h1, h2, fun _ => central_of_half (by omega) (by omega) (by omega) h3 h4⟩
      | some f => exact swp_mono (shortPivot4_half hF (by simp) hf hs (hc.resolve_left (by simp [hf])) ha.mem) fun pv m ⟨h1, h2, h3, h4⟩ =>
          ⟨h1, h2, fun _ => central_of_half (by omega) (by omega) (by omega) h3 h4⟩
    · exact swp_mono (shortPivot_spec hF (by simp) hs ha.mem) fun pv m ⟨h1, h2⟩ => ⟨h1, h2.okp, fun h => absurd h hc⟩
  exact ((cost_shortPivot hM.wa).swp hM.rd (fun _ _ _ _ _ _ => trivial) h).weaken le_rfl fun _ h => h.2

theorem Central.above (ha : Asc F ok rk m0 s) {pv : κ} (h : Central F rk m0 s pv) {l : Int} (h0 : 0 ≤ l)
    (hl : rk pv < rk (F.key (s.E m0 l))) : s.len ≤ 4 * l := by
  obtain ⟨i, i0, i1, i2, i3⟩ := h.low
  by_contra hc
  exact absurd ((ha.asc l i h0 (by omega) i1).trans i3) (not_le.2 hl)

theorem Central.below (ha : Asc F ok rk m0 s) {pv : κ} (h : Central F rk m0 s pv) {l : Int} (h1 : l < s.len)
    (hl : rk (F.key (s.E m0 l)) < rk pv) : s.len ≤ 4 * (s.len - (l + 1)) := by
  obtain ⟨i, i0, i1, i2, i3⟩ := h.high
  by_contra hc
  exact absurd (i3.trans (ha.asc i l i0 (by omega) h1)) (not_le.2 hl)

theorem quiet_partOne (hF : FamOK F ok rk) (hM : M.Quiet m0) (ha : Asc F ok rk m0 s) {pv : κ} (hpv : ok pv) :
    Costs M (partOne F s pv : Prog V Sp Int) s.len fun r => 0 ≤ r ∧ r ≤ s.len ∧
      (Central F rk m0 s pv → 4 ≤ s.len → s.len ≤ 4 * r ∧ s.len ≤ 4 * (s.len - r)) := by
  have hle : ∀ i : Int, 0 ≤ i → i < s.len → (F.le (F.key (s.E m0 i)) pv = true ↔ rk (F.key (s.E m0 i)) ≤ rk pv) := fun i i0 i1 => hF.le _ _ (ha.ok i i0 i1) hpv
  have hle' : ∀ i : Int, 0 ≤ i → i < s.len → (F.le pv (F.key (s.E m0 i)) = true ↔ rk pv ≤ rk (F.key (s.E m0 i))) := fun i i0 i1 => hF.le _ _ hpv (ha.ok i i0 i1)
  have hlt : ∀ i : Int, 0 ≤ i → i < s.len → (F.lt pv (F.key (s.E m0 i)) = true ↔ rk pv < rk (F.key (s.E m0 i))) := fun i i0 i1 => hF.lt _ _ hpv (ha.ok i i0 i1)
  unfold partOne
  refine (Costs.loop
    (fun st : P1 => match st with
      | P1.second l h => 0 ≤ l ∧ l < h ∧ l + h ≤ s.len - 1 ∧ rk pv < rk (F.key (s.E m0 l))
      | P1.swap _ _ => False
      | P1.next l h => 0 ≤ l ∧ l < h ∧ l + h = s.len - 1
      | P1.start l h => 0 ≤ l ∧ l ≤ h + 1 ∧ l + h = s.len - 1
      | P1.scan l h => 0 ≤ l ∧ l < h ∧ s.len - 1 ≤ l + h ∧ h < s.len ∧ rk (F.key (s.E m0 h)) < rk pv
      | P1.last l h => 0 ≤ l ∧ h ≤ l ∧ l ≤ h + 1 ∧ l + h = s.len - 1)
    (fun st : P1 => match st with
      | P1.second l h => (h - l - 1).toNat
      | P1.swap l h => 0
      | P1.next l h => (h - l - 1).toNat
      | P1.start l h => (h - l + 1).toNat
      | P1.scan l h => (h - l).toNat
      | P1.last l h => (h - l + 1).toNat) ?_ _ (P1.start 0 ((s.len : Int) - 1)) (by dsimp only; omega)).weaken (by dsimp only; omega) fun _ h => h
  rintro (⟨l, h⟩ | ⟨l, h⟩ | ⟨l, h⟩ | ⟨l, h⟩ | ⟨l, h⟩ | ⟨l, h⟩) hg J n hn <;> unfold partOneStep <;> dsimp only at hg hn ⊢
  · obtain ⟨g1, g2, g3, g4⟩ := hg
    split
    · refine ⟨rfl, by omega, by omega, by omega, fun hc h4 => ?_⟩
      have := hc.above ha g1 g4
      omega
    · refine cw_rdq hM (by omega) fun i0 i1 => ?_
      rw [if_neg]
      · exact ⟨rfl, ⟨g1, by omega, by omega, g4⟩, by dsimp only; omega⟩
      · rw [hle _ i0 i1, not_le]
        exact g4.trans_le (ha.asc _ _ g1 (by omega) i1)
  · exact ⟨rfl, by dsimp only; omega, by dsimp only; omega⟩
  · obtain ⟨g1, g2, g3⟩ := hg
    split
    · exact ⟨rfl, by dsimp only; omega, by dsimp only; omega⟩
    · refine cw_rdq hM (by omega) fun i0 i1 => ?_
      split
      · refine cw_rdq hM (by omega) fun j0 j1 => ?_
        split
        · rename_i hc
          rw [hlt _ j0 j1] at hc
          exact ⟨rfl, ⟨g1, by omega, by omega, hc⟩, by dsimp only; omega⟩
        · exact ⟨rfl, by dsimp only; omega, by dsimp only; omega⟩
      · rename_i hc
        rw [hle' _ i0 i1, not_le] at hc
        exact ⟨rfl, ⟨g1, by omega, by omega, i1, hc⟩, by dsimp only; omega⟩
  · obtain ⟨g1, g2, g3, g4, g5⟩ := hg
    refine cw_rdq hM (by omega) fun j0 j1 => ?_
    rw [if_neg]
    · split
      · refine ⟨rfl, by omega, by omega, by omega, fun hc h4 => ?_⟩
        have := hc.below ha g4 g5
        omega
      · exact ⟨rfl, ⟨by omega, by omega, by omega, g4, g5⟩, by dsimp only; omega⟩
    · rw [hle' _ j0 j1, not_le]
      exact (ha.asc _ _ g1 g2.le g4).trans_lt g5
  · obtain ⟨g1, g2, g3, g4⟩ := hg
    split
    · refine cw_rdq hM (by omega) fun i0 i1 => ?_
      split <;> exact ⟨rfl, by omega, by omega, by omega, fun _ _ => by omega⟩
    · exact ⟨rfl, by omega, by omega, by omega, fun _ _ => by omega⟩

theorem quiet_partTwo (hF : FamOK F ok rk) (hM : M.Quiet m0) (ha : Asc F ok rk m0 s) {pv : κ} (hpv : ok pv) {l h : Int} (h0 : 0 ≤ l) (hlh : l ≤ h) (h1 : h ≤ s.len) :
    Costs M (partTwo F s l h pv : Prog V Sp Int) (l + (s.len - h)).toNat fun r => r < l ∨ (h ≤ r ∧ r ≤ s.len) := by
  have hle : ∀ i : Int, 0 ≤ i → i < s.len → (F.le (F.key (s.E m0 i)) pv = true ↔ rk (F.key (s.E m0 i)) ≤ rk pv) := fun i i0 i1 => hF.le _ _ (ha.ok i i0 i1) hpv
  have hle' : ∀ i : Int, 0 ≤ i → i < s.len → (F.le pv (F.key (s.E m0 i)) = true ↔ rk pv ≤ rk (F.key (s.E m0 i))) := fun i i0 i1 => hF.le _ _ hpv (ha.ok i i0 i1)
  have hlt : ∀ i : Int, 0 ≤ i → i < s.len → (F.lt pv (F.key (s.E m0 i)) = true ↔ rk pv < rk (F.key (s.E m0 i))) := fun i i0 i1 => hF.lt _ _ hpv (ha.ok i i0 i1)
  unfold partTwo
  dsimp only
  rw [if_neg (by omega)]
  generalize hl' : l = l0 at *
  generalize hh' : h = h0 at *
  refine (Costs.loop
    (fun st : P2 => match st with
      | P2.second l h => 0 ≤ l ∧ l < l0 ∧ h0 ≤ h ∧ h < s.len ∧ rk pv < rk (F.key (s.E m0 l))
      | P2.swap _ _ => False
      | P2.next l h => 0 ≤ l ∧ l < l0 ∧ h0 ≤ h ∧ h < s.len
      | P2.start l h => -1 ≤ l ∧ l < l0 ∧ h0 ≤ h ∧ h ≤ s.len
      | P2.scan l h => 0 ≤ l ∧ l < l0 ∧ h0 ≤ h ∧ h < s.len ∧ rk (F.key (s.E m0 h)) < rk pv)
    (fun st : P2 => match st with
      | P2.second _ h => (s.len - h - 1).toNat
      | P2.swap _ _ => 0
      | P2.next l h => (l + (s.len - h) - 1).toNat
      | P2.start l h => (l + 1 + (s.len - h)).toNat
      | P2.scan l _ => (l + 1).toNat) ?_ _ (P2.start (l0 - 1) h0) (by dsimp only; omega)).weaken (by dsimp only; omega) fun _ h => h
  rintro (⟨l, h⟩ | ⟨l, h⟩ | ⟨l, h⟩ | ⟨l, h⟩ | ⟨l, h⟩) hg J n hn <;> unfold partTwoStep <;> dsimp only at hg hn ⊢
  · obtain ⟨g1, g2, g3, g4, g5⟩ := hg
    split
    · exact ⟨rfl, by omega, by omega⟩
    · refine cw_rdq hM (by omega) fun i0 i1 => ?_
      rw [if_neg]
      · exact ⟨rfl, ⟨g1, by omega, by omega, by omega, g5⟩, by dsimp only; omega⟩
      · rw [hle _ i0 i1, not_le]
        exact g5.trans_le (ha.asc _ _ g1 (by omega) i1)
  · exact ⟨rfl, by dsimp only; omega, by dsimp only; omega⟩
  · obtain ⟨g1, g2, g3, g4⟩ := hg
    split
    · exact ⟨rfl, by omega, by omega⟩
    · split
      · exact ⟨rfl, by omega, by omega⟩
      · refine cw_rdq hM (by omega) fun i0 i1 => ?_
        split
        · refine cw_rdq hM (by omega) fun j0 j1 => ?_
          split
          · rename_i hc
            rw [hlt _ j0 j1] at hc
            exact ⟨rfl, ⟨j0, by omega, by omega, i1, hc⟩, by dsimp only; omega⟩
          · exact ⟨rfl, by dsimp only; omega, by dsimp only; omega⟩
        · rename_i hc
          rw [hle' _ i0 i1, not_le] at hc
          exact ⟨rfl, ⟨by omega, by omega, by omega, i1, hc⟩, by dsimp only; omega⟩
  · obtain ⟨g1, g2, g3, g4, g5⟩ := hg
    refine cw_rdq hM (by omega) fun j0 j1 => ?_
    rw [if_neg]
    · split
      · exact ⟨rfl, by omega, by omega⟩
      · exact ⟨rfl, ⟨by omega, by omega, by omega, g4, g5⟩, by dsimp only; omega⟩
    · rw [hle' _ j0 j1, not_le]
      exact (ha.asc _ _ g1 (by omega) g4).trans_lt g5

theorem quiet_gapLow (hF : FamOK F ok rk) (hM : M.Quiet m0) (ha : Asc F ok rk m0 s) {pv : κ} (hpv : ok pv) {r k : Int}
    (hr : ∀ i : Int, 0 ≤ i → i ≤ r → i < s.len → rk (F.key (s.E m0 i)) ≤ rk pv) :
    Costs M (gapLow F s pv r k : Prog V Sp Int) (r + 1).toNat fun k' => k' = k := by
  unfold gapLow
  refine Costs.loop (fun st : Int × Int => st.1 ≤ r ∧ st.2 = k) (fun st : Int × Int => (st.1 + 1).toNat) ?_ _ (r, k) ⟨le_rfl, rfl⟩
  rintro ⟨i, k'⟩ ⟨h1, h2⟩ J n hn
  dsimp only at h1 h2 hn ⊢
  subst h2
  split
  · refine cw_rdq hM (by omega) fun i0 i1 => ?_
    rw [if_neg]
    · exact ⟨rfl, ⟨by dsimp only; omega, rfl⟩, by dsimp only; omega⟩
    · rw [hF.lt _ _ hpv (ha.ok _ i0 i1), not_lt]; exact hr i i0 h1 i1
  · exact ⟨rfl, by omega, rfl⟩

theorem quiet_gapHigh (hF : FamOK F ok rk) (hM : M.Quiet m0) (ha : Asc F ok rk m0 s) {pv : κ} (hpv : ok pv) {r k : Int}
    (hr : ∀ i : Int, 0 ≤ i → r ≤ i → i < s.len → rk pv ≤ rk (F.key (s.E m0 i))) :
    Costs M (gapHigh F s pv r k : Prog V Sp Int) (s.len - r).toNat fun k' => k' = k := by
  unfold gapHigh
  refine Costs.loop (fun st : Int × Int => r ≤ st.1 ∧ st.2 = k) (fun st : Int × Int => (s.len - st.1).toNat) ?_ _ (r, k) ⟨le_rfl, rfl⟩
  rintro ⟨i, k'⟩ ⟨h1, h2⟩ J n hn
  dsimp only at h1 h2 hn ⊢
  subst h2
  split
  · refine cw_rdq hM (by omega) fun i0 i1 => ?_
    rw [if_neg]
    · exact ⟨rfl, ⟨by dsimp only; omega, rfl⟩, by dsimp only; omega⟩
    · rw [hF.lt _ _ (ha.ok _ i0 i1) hpv, not_lt]; exact hr i i0 h1 i1
  · exact ⟨rfl, by omega, rfl⟩

theorem quiet_splitAt (ha : Asc F ok rk m0 s) {k : Int} : Costs M (splitAt s k : Prog V Sp (Slice × Slice)) 0 fun r =>
    r.1.len + r.2.len = s.len ∧ r.1.len ≤ r.2.len ∧ Asc F ok rk m0 r.1 ∧ Asc F ok rk m0 r.2 ∧
      (21 * (s.len : Int) ≤ 100 * k → 21 * (s.len : Int) ≤ 100 * (s.len - k) → 21 * s.len ≤ 100 * r.1.len) := by
  intro J n _
  unfold splitAt
  split
  · refine cw.bind ?_
    unfold Slice.sub
    split
    · refine cw.bind ?_
      split
      · exact ⟨rfl, by omega, by dsimp only; omega, by dsimp only; omega, ha.sub (by omega) (by omega), ha.sub (by omega) (by omega), fun _ _ => by dsimp only; omega⟩
      · trivial
    · trivial
  · refine cw.bind ?_
    unfold Slice.sub
    split
    · refine cw.bind ?_
      split
      · exact ⟨rfl, by omega, by dsimp only; omega, by dsimp only; omega, ha.sub (by omega) (by omega), ha.sub (by omega) (by omega), fun _ _ => by dsimp only; omega⟩
      · trivial
    · trivial

/-- `T f n` pays for sorting `n` ascending elements with `f` rounds of partitioning left; unless `weak` only if ranges are split evenly -/
structure Budget (weak : Prop) (T : Nat → Nat → Nat) : Prop where
  ins : ∀ f n, 2 * n ≤ T f n
  split : ∀ f n a b, a + b = n → weak ∨ (21 * n ≤ 100 * a ∧ 21 * n ≤ 100 * b) → T f a + T f b + 2 * n ≤ T (f + 1) n

variable {weak : Prop} {T : Nat → Nat → Nat}

/-- the meter for ascending input `m0`: `K` for a store, but there are none -/
def qmeter (F : Fam V κ) (ok : κ → Prop) (rk : κ → ρ) (m0 : Mem V) (T : Nat → Nat → Nat) (K : Nat) : Meter V (VSp κ) where
  wa := 1
  wl := 0
  ww := K
  ρ | .part ar _ => ar.len | .long ar f => T f ar.len
  isPart | .part .. => true | .long .. => false
  ok | .part ar _, v => 0 ≤ v ∧ v ≤ ar.len | .long .., _ => True
  sp | .part ar pv => Asc F ok rk m0 ar ∧ ok pv | .long ar _ => Asc F ok rk m0 ar
  rd := fun i x => x = m0 i
  wr := False

theorem qmeter_quiet {K : Nat} : (qmeter F ok rk m0 T K).Quiet m0 := ⟨rfl, fun _ _ h => h⟩

theorem quiet_short (hF : FamOK F ok rk) (hM : M.Quiet m0) (hT : Budget weak T) (hi : 8 < F.maxIns) :
    ∀ (f d : Nat) (ar : Slice), F.maxIns < ar.len → Asc F ok rk m0 ar → weak ∨ F.mean = none ∨ ar.len < 2 ^ 32 →
    Costs M (short F f d ar : Prog V Sp Unit) (T f ar.len) fun _ => True := by
  intro f
  induction f with
  | zero => intro d ar _ _ _ J n _; trivial
  | succ f ih =>
    intro d ar hl ha h32 J n hn
    unfold short
    have h2 := hT.ins (f + 1) ar.len
    refine (quiet_shortPivot hF hM ha (by omega)).seq (by omega) fun pv k ⟨hpv, hcen⟩ hk => (quiet_partOne hF hM ha hpv).seq (by omega) fun i k' ⟨_, _, hi'⟩ hk' => (quiet_splitAt ha).seq (by omega) ?_
    rintro ⟨aq, ar'⟩ k2 ⟨h1, h2', h3, h4, h5⟩ hk2
    dsimp only at h1 h2' h3 h4 h5 ⊢
    have hq : T f aq.len + T f ar'.len + 2 * ar.len ≤ T (f + 1) ar.len := by
      refine hT.split f _ _ _ h1 ?_
      rcases h32 with h | h
      · exact .inl h
      · have := hi' (hcen h) (by omega)
        have := h5 (by omega) (by omega)
        exact .inr ⟨this, by omega⟩
    have hk1 : n ≤ k2 + 2 * ar.len := by omega
    have w1 : weak ∨ F.mean = none ∨ aq.len < 2 ^ 32 := h32.imp id (.imp id fun h => by omega)
    have w2 : weak ∨ F.mean = none ∨ ar'.len < 2 ^ 32 := h32.imp id (.imp id fun h => by omega)
    clear hk hk' hk2 hi' h5 h32
    split
    · rename_i hc
      cases d with
      | zero => trivial
      | succ d =>
        exact (ih d aq hc h3 w1).seq (by omega) fun _ k3 _ hk3 => (ih (d + 1) ar' (by omega) h4 w2).cw (by omega) fun _ k4 _ hk4 => ⟨rfl, by omega, trivial⟩
    · have e1 := hT.ins f aq.len
      have e2 := hT.ins f ar'.len
      refine cw.bind ((cw.loop (J := J) (Q := fun again J' k => J' = J ∧ n ≤ k + 2 * ar.len + T f aq.len + (if again = true then 0 else T f ar'.len) ∧
          (again = true → F.maxIns < ar'.len))
        (fun st k => (st = aq ∧ n ≤ k + 2 * ar.len) ∨
        (st = ar' ∧ n ≤ k + 2 * ar.len + T f aq.len ∧ ¬ F.maxIns < ar'.len)) ?_ _ _ _ (.inl ⟨rfl, hk1⟩)).conseq ?_)
      · rintro st k (⟨rfl, hk⟩ | ⟨rfl, hk, hno⟩)
        · refine (quiet_insertion hF hM h3).seq (by omega) fun _ k2 _ hk2 => ?_
          by_cases hno : F.maxIns < ar'.len
          · rw [if_pos hno]
            exact ⟨rfl, rfl, by rw [if_pos rfl]; omega, fun _ => hno⟩
          · rw [if_neg hno]
            refine cw.bind ?_
            unfold Slice.addrNe
            split
            · show cw M (if _ then _ else _) J k2 _
              split
              · exact ⟨rfl, .inr ⟨rfl, by omega, hno⟩⟩
              · exact ⟨rfl, rfl, by rw [if_neg (by simp)]; omega, by simp⟩
            · trivial
        · refine (quiet_insertion hF hM h4).seq (by omega) fun _ k2 _ hk2 => ?_
          rw [if_neg hno]
          refine cw.bind ?_
          unfold Slice.addrNe
          split
          · show cw M (if (st.off != st.off) = true then _ else _) J k2 _
            rw [if_neg (by simp)]
            exact ⟨rfl, rfl, by rw [if_neg (by simp)]; omega, by simp⟩
          · trivial
      · rintro again J' k2 ⟨rfl, hk2, hag⟩
        cases again with
        | false =>
          rw [if_neg (by simp)] at hk2
          exact ⟨rfl, by omega, trivial⟩
        | true =>
          rw [if_pos rfl] at hk2
          exact (ih d ar' (hag rfl) h4 w2).cw (by omega) fun _ k3 _ hk3 => ⟨rfl, by omega, trivial⟩

theorem nLong_ok : 3 ≤ F.nLong ∧ F.nLong ≤ 6 ∧ (F.mean = none ∨ F.nLong % 2 = 0) := by
  unfold Fam.nLong nsLong
  cases h : F.mean <;> simp

theorem nConc_ok : 3 ≤ F.nConc ∧ F.nConc ≤ 8 ∧ (F.mean = none ∨ F.nConc % 2 = 0) := by
  unfold Fam.nConc nsConc
  cases h : F.mean <;> simp

variable {K : Nat}

theorem quiet_long (hF : FamOK F ok rk) (hT : Budget weak T) (hi : 8 < F.maxIns) (hr : 2 * F.maxIns < F.maxRec)
    (h32 : weak ∨ F.mean = none ∨ F.maxRec < 2 ^ 32) :
    ∀ (f d : Nat) (ar : Slice) (sv : Bool), F.maxRec < ar.len → Asc F ok rk m0 ar → ∀ n, T f ar.len ≤ n →
    cw (qmeter F ok rk m0 T K) (long F f d ar sv) none n fun _ J' k => J' = none ∧ n ≤ k + T f ar.len := by
  intro f
  induction f with
  | zero => intro d ar sv _ _ n _; trivial
  | succ f ih =>
    intro d ar sv hl ha n hn
    unfold long
    have h2 := hT.ins (f + 1) ar.len
    obtain ⟨n1, n2, n3⟩ := nLong_ok (F := F)
    refine (quiet_pivot hF qmeter_quiet ha n1 (by omega) n3 (by omega)).seq (by omega) fun pv k ⟨hpv, hcen⟩ hk =>
      (quiet_partOne hF qmeter_quiet ha hpv).seq (by omega) fun i k' ⟨_, _, hi'⟩ hk' => (quiet_splitAt ha).seq (by omega) ?_
    rintro ⟨aq, ar'⟩ k2 ⟨h1, h2', h3, h4, h5⟩ hk2
    dsimp only at h1 h2' h3 h4 h5 ⊢
    have hq : T f aq.len + T f ar'.len + 2 * ar.len ≤ T (f + 1) ar.len := by
      refine hT.split f _ _ _ h1 (.inr ?_)
      have := hi' hcen (by omega)
      have := h5 (by omega) (by omega)
      exact ⟨this, by omega⟩
    have hk1 : n ≤ k2 + 2 * ar.len := by omega
    clear hk hk' hk2 hi' h5
    have w : ∀ b : Slice, b.len ≤ F.maxRec → weak ∨ F.mean = none ∨ b.len < 2 ^ 32 := fun b hb => h32.imp id (.imp id fun h => by omega)
    by_cases hc : aq.len ≤ F.maxRec
    · rw [if_pos hc]
      have rest : ∀ k3, n ≤ k3 + 2 * ar.len + T f aq.len →
          cw (qmeter F ok rk m0 T K) (if ar'.len > F.maxRec then long F f d ar' sv
            else match d with
              | 0 => .overflow
              | d + 1 => short F f d ar') none k3 fun _ J' k => J' = none ∧ n ≤ k + T (f + 1) ar.len := by
        intro k2 hk2
        split
        · rename_i hc2
          exact (ih d ar' sv hc2 h4 k2 (by omega)).conseq fun _ J' k3 ⟨h1, h2⟩ => ⟨h1, by omega⟩
        · cases d with
          | zero => trivial
          | succ d =>
            exact (quiet_short hF qmeter_quiet hT hi f d ar' (by omega) h4 (w _ (by omega))).cw (by omega) fun _ k3 _ hk3 => ⟨rfl, by omega⟩
      by_cases hc1 : aq.len > F.maxIns
      · rw [if_pos hc1]
        cases d with
        | zero => trivial
        | succ d => exact (quiet_short hF qmeter_quiet hT hi f d aq hc1 h3 (w _ hc)).seq (by omega) fun _ k3 _ hk3 => rest k3 (by omega)
      · rw [if_neg hc1]
        have := hT.ins f aq.len
        exact (quiet_insertion hF qmeter_quiet h3).seq (by omega) fun _ k3 _ hk3 => rest k3 (by omega)
    · rw [if_neg hc]
      have both : ∀ full : Bool, cw (qmeter F ok rk m0 T K) (if full = true then do
            match d with
            | 0 => .overflow
            | d + 1 => long F f d aq sv
            long F f d ar' sv
          else do
            let _ ← .incGor .ret
            .go (.long ar' f) (.ret ())
            long F f d aq sv) none k2 fun _ J' k => J' = none ∧ n ≤ k + T (f + 1) ar.len := by
        intro full
        split
        · cases d with
          | zero => trivial
          | succ d =>
            refine cw.bind ((ih d aq sv (by omega) h3 k2 (by omega)).conseq ?_)
            rintro _ J' k3 ⟨rfl, hk3⟩
            exact (ih (d + 1) ar' sv (by omega) h4 k3 (by omega)).conseq fun _ J' k3 ⟨h1, h2⟩ => ⟨h1, by omega⟩
        · intro x
          refine ⟨⟨h4, ?_⟩, ?_⟩
          · show T f ar'.len ≤ k2; omega
          · show cw (qmeter F ok rk m0 T K) (long F f d aq sv) none (k2 - T f ar'.len) _
            exact (ih d aq sv (by omega) h3 _ (by omega)).conseq fun _ J' k3 ⟨h1, h2⟩ => ⟨h1, by omega⟩
      cases sv with
      | false => exact both true
      | true => exact fun mg x => both _

theorem quiet_vbody (hF : FamOK F ok rk) (hT : Budget weak T) (hi : 8 < F.maxIns) (hr : 2 * F.maxIns < F.maxRec)
    (h32 : weak ∨ F.mean = none ∨ F.maxRec < 2 ^ 32) (d : Nat) {sp : VSp κ} (hs : (qmeter F ok rk m0 T K).sp sp)
    (hp : ∀ ar f, sp = .long ar f → F.maxRec < ar.len) :
    cw (qmeter F ok rk m0 T K) (vbody F d sp) none ((qmeter F ok rk m0 T K).ρ sp) fun _ _ _ => True := by
  cases sp with
  | part ar pv => exact (quiet_partOne hF qmeter_quiet hs.1 hs.2).seq le_rfl fun k _ _ _ => trivial
  | long ar f =>
    refine cw.bind ((quiet_long hF hT hi hr h32 f d ar true (hp _ _ rfl) hs _ le_rfl).conseq ?_)
    intro _ _ _ _ x
    show cw (qmeter F ok rk m0 T K) (if x = 0 then _ else _) _ _ _
    split <;> trivial

theorem quiet_partCon (hF : FamOK F ok rk) (ha : Asc F ok rk m0 s) (hl : 40 ≤ s.len) (n : Nat) (hn : 2 * s.len ≤ n) :
    cw (qmeter F ok rk m0 T K) (partCon F s) none n fun r J' k => J' = none ∧ n ≤ k + 2 * s.len ∧
      (s.len : Int) ≤ 4 * (r + 1) ∧ (s.len : Int) ≤ 4 * (s.len - r) := by
  unfold partCon
  obtain ⟨n1, n2, n3⟩ := nConc_ok (F := F)
  refine (quiet_pivot hF qmeter_quiet ha n1 (by omega) n3 (by omega)).seq (by omega) fun pv k ⟨hpv, hcen⟩ hk => ?_
  dsimp only
  have hm : (s.len : Int) / 2 / 2 ≤ (s.len : Int) / 2 ∧ 0 ≤ (s.len : Int) / 2 / 2 ∧ (s.len : Int) / 2 ≤ meanI ((s.len : Int) / 2) s.len ∧ meanI ((s.len : Int) / 2) s.len ≤ s.len ∧
      4 * ((s.len : Int) / 2 / 2) ≤ s.len ∧ (s.len : Int) ≤ 4 * ((s.len : Int) / 2 / 2 + 1) ∧ 4 * meanI ((s.len : Int) / 2) s.len ≤ 3 * s.len ∧
      (s.len : Int) * 3 < 4 * (meanI ((s.len : Int) / 2) s.len + 1) := by
    unfold meanI; omega
  have hmid : 2 * ((s.len : Int) / 2) ≤ s.len ∧ s.len ≤ 2 * ((s.len : Int) / 2) + 1 := by omega
  generalize (s.len : Int) / 2 / 2 = l at *
  generalize meanI ((s.len : Int) / 2) s.len = h at *
  generalize (s.len : Int) / 2 = mid at *
  refine cw.bind ?_
  unfold Slice.sub
  rw [if_pos (by omega)]
  show cw (qmeter F ok rk m0 T K) (Prog.go _ (.ret ()) >>= _) none k _
  refine cw.bind (p := Prog.go (VSp.part _ pv) (.ret ())) ?_
  refine ⟨⟨⟨ha.sub (by omega) (by omega), hpv⟩, ?_⟩, ?_⟩
  · show (h - l).toNat ≤ k; omega
  · show cw (qmeter F ok rk m0 T K) (partTwo F s l h pv >>= _) _ (k - (h - l).toNat) _
    refine (quiet_partTwo hF qmeter_quiet ha hpv (by omega) (by omega) (by omega)).seq (by omega) fun r k' hr' hk' => ?_
    refine cw.bind (p := Prog.recv .ret) ?_
    intro v hv
    have hv : 0 ≤ v ∧ v ≤ (h - l).toNat := hv _ rfl
    show cw (qmeter F ok rk m0 T K) (if r < mid then gapLow F s pv r (l + v) else gapHigh F s pv r (l + v)) none k' _
    split
    · refine (quiet_gapLow hF qmeter_quiet ha hpv ?_).cw (by omega) fun a k'' ha hk'' => ⟨rfl, by omega, by omega, by omega⟩
      intro i i0 i1 i2
      by_contra hc
      have := hcen.above ha i0 (not_le.1 hc)
      omega
    · refine (quiet_gapHigh hF qmeter_quiet ha hpv ?_).cw (by omega) fun a k'' ha hk'' => ⟨rfl, by omega, by omega, by omega⟩
      intro i i0 i1 i2
      by_contra hc
      have := hcen.below ha i2 (not_le.1 hc)
      omega

theorem quiet_sortLoop (hF : FamOK F ok rk) (hT : Budget weak T) (hi : 8 < F.maxIns) (hr : 2 * F.maxIns < F.maxRec)
    (h32 : weak ∨ F.mean = none ∨ F.maxRec < 2 ^ 32) (d : Nat) :
    ∀ (f : Nat) (ar : Slice), 2 * (F.maxRec + 1) ≤ ar.len → Asc F ok rk m0 ar → ∀ n, T f ar.len ≤ n →
    cw (qmeter F ok rk m0 T K) (sortLoop F d f ar) none n fun _ _ _ => True := by
  intro f
  induction f with
  | zero => intro ar _ _ n _; trivial
  | succ f ih =>
    intro ar hl ha n hn
    unfold sortLoop
    have h2 := hT.ins (f + 1) ar.len
    refine cw.bind ((quiet_partCon hF ha (by omega) n (by omega)).conseq ?_)
    rintro i J' k ⟨rfl, hk, hi1, hi2⟩
    refine (quiet_splitAt ha).seq (by omega) ?_
    rintro ⟨aq, ar'⟩ k2 ⟨h1, h2', h3, h4, h5⟩ hk2
    dsimp only at h1 h2' h3 h4 h5 ⊢
    have hq : T f aq.len + T f ar'.len + 2 * ar.len ≤ T (f + 1) ar.len := by
      refine hT.split f _ _ _ h1 (.inr ?_)
      have := h5 (by omega) (by omega)
      exact ⟨this, by omega⟩
    have hk1 : n ≤ k2 + 2 * ar.len := by omega
    clear hk hk2 h5
    have w : ∀ b : Slice, b.len ≤ F.maxRec → weak ∨ F.mean = none ∨ b.len < 2 ^ 32 := fun b hb => h32.imp id (.imp id fun h => by omega)
    have rest : ∀ k2, T f ar'.len ≤ k2 → cw (qmeter F ok rk m0 T K) (do
        let stop ← if ar'.len < 2 * (F.maxRec + 1) then pure true else gorFull
        if stop then do
          long F f d ar' true
          let n ← .decGor .ret
          if n ≠ 0 then do
            let _ ← .recv .ret
            pure ()
          else pure ()
        else sortLoop F d f ar') none k2 fun _ _ _ => True := by
      intro k2 hk2
      have long : cw (qmeter F ok rk m0 T K) (do
          long F f d ar' true
          let n ← .decGor .ret
          if n ≠ 0 then do
            let _ ← .recv .ret
            pure ()
          else pure ()) none k2 fun _ _ _ => True := by
        refine cw.bind ((quiet_long hF hT hi hr h32 f d ar' true (by omega) h4 _ hk2).conseq ?_)
        intro _ _ _ _ x
        show cw (qmeter F ok rk m0 T K) (if x ≠ 0 then _ else _) _ _ _
        split
        · intro v _; trivial
        · trivial
      by_cases hc : ar'.len < 2 * (F.maxRec + 1)
      · rw [if_pos hc]; exact long
      · rw [if_neg hc]
        intro mg x
        show cw (qmeter F ok rk m0 T K) (if decide (x ≥ mg) = true then _ else _) none k2 _
        split
        · exact long
        · exact ih ar' (by omega) h4 k2 hk2
    by_cases hc1 : aq.len > F.maxRec
    · rw [if_pos hc1]
      intro x
      refine ⟨⟨h3, ?_⟩, ?_⟩
      · show T f aq.len ≤ k2; omega
      · exact rest (k2 - T f aq.len) (by omega)
    rw [if_neg hc1]
    by_cases hc2 : aq.len > F.maxIns
    · rw [if_pos hc2]
      exact (quiet_short hF qmeter_quiet hT hi f d aq hc2 h3 (w _ (by omega))).seq (by omega) fun _ k2 _ hk2 => rest k2 (by omega)
    · rw [if_neg hc2]
      have := hT.ins f aq.len
      exact (quiet_insertion hF qmeter_quiet h3).seq (by omega) fun _ k2 _ hk2 => rest k2 (by omega)

theorem quiet_sortV (hF : FamOK F ok rk) (hT : Budget weak T) (hi : 8 < F.maxIns) (hr : 2 * F.maxIns < F.maxRec)
    (h32 : weak ∨ F.mean = none ∨ F.maxRec < 2 ^ 32) (d : Nat) (ha : Asc F ok rk m0 s) {n : Nat} (hn : T s.len s.len ≤ n) :
    cw (qmeter F ok rk m0 T K) (sortV F d s) none n fun _ _ _ => True := by
  unfold sortV
  dsimp only
  have single : cw (qmeter F ok rk m0 T K) (if s.len > F.maxRec then long F s.len d s false
      else if s.len > F.maxIns then short F s.len d s
      else insertion F.key F.lt s) none n fun _ _ _ => True := by
    split
    · rename_i h; exact (quiet_long hF hT hi hr h32 _ _ _ _ h ha _ hn).conseq fun _ _ _ _ => trivial
    · split
      · rename_i h
        exact (quiet_short hF qmeter_quiet hT hi _ _ _ h ha (h32.imp id (.imp id fun h => by omega))).cw hn fun _ _ _ _ => trivial
      · exact (quiet_insertion hF qmeter_quiet ha).cw ((hT.ins _ _).trans hn) fun _ _ _ _ => trivial
  by_cases hc : s.len < 2 * (F.maxRec + 1)
  · rw [if_pos hc]; exact single
  · rw [if_neg hc]
    intro mg
    show cw (qmeter F ok rk m0 T K) (if decide (mg ≤ 1) = true then _ else _) none _ _
    split
    · exact single
    · exact quiet_sortLoop hF hT hi hr h32 d _ _ (by omega) ha _ hn

/-! ## NaN handling -/

section
variable {m0 : Mem Cell} {M : Meter Cell Sp}

theorem quiet_nanToEnd (hM : M.Quiet m0) {p : Nat} (hp : p ≤ s.len)
    (hn : ∀ i : Int, 0 ≤ i → i < s.len → (cellNaN (s.E m0 i) = true ↔ (p : Int) ≤ i)) :
    Costs M (nanToEnd s : Prog Cell Sp Slice) (2 * s.len) fun r => r = ⟨s.off, p⟩ := by
  unfold nanToEnd
  refine (Costs.bind (N := 2 * s.len) (N' := 0) (R := fun h => h + 1 = (p : Int))
    ((Costs.loop (fun st : Int × Int => 0 ≤ st.1 ∧ st.1 ≤ p ∧ (p : Int) ≤ st.2 + 1) (fun st : Int × Int => (2 * (st.2 - st.1 + 1)).toNat) ?_ _ _
    ⟨le_rfl, by dsimp only; omega, by dsimp only; omega⟩).weaken (by dsimp only; omega) fun _ h => h)
    fun h hh J n _ => ?_).weaken (by omega) fun _ h => h
  · rintro ⟨l, h⟩ ⟨i1, i2, i3⟩ J n hn'
    dsimp only at i1 i2 i3 hn' ⊢
    split
    · refine cw_rdq hM (by omega) fun h0 h1 => ?_
      have e := hn h h0 h1
      split
      · rename_i hx
        have := e.1 hx
        exact ⟨rfl, ⟨i1, i2, by dsimp only; omega⟩, by dsimp only; omega⟩
      · rename_i hx
        have : ¬ (p : Int) ≤ h := fun h => hx (e.2 h)
        refine cw_rdq hM (by omega) fun h0 h1 => ?_
        have e := hn l h0 h1
        split
        · rename_i hx
          have := e.1 hx
          omega
        · exact ⟨rfl, ⟨by dsimp only; omega, by dsimp only; omega, i3⟩, by dsimp only; omega⟩
    · exact ⟨rfl, by omega, by omega⟩
  · unfold Slice.sub
    split
    · refine ⟨rfl, by omega, ?_⟩
      rw [hh]; simp
    · trivial

theorem quiet_nanToStart (hM : M.Quiet m0) {p : Nat} (hp : p ≤ s.len)
    (hn : ∀ i : Int, 0 ≤ i → i < s.len → (cellNaN (s.E m0 i) = true ↔ i < (p : Int))) :
    Costs M (nanToStart s : Prog Cell Sp Slice) (2 * s.len) fun r => r = ⟨s.off + p, s.len - p⟩ := by
  unfold nanToStart
  refine (Costs.bind (N := 2 * s.len) (N' := 0) (R := fun h => h = (p : Int))
    ((Costs.loop (fun st : Int × Int => 0 ≤ st.1 ∧ st.1 ≤ p ∧ (p : Int) ≤ st.2 + 1) (fun st : Int × Int => (2 * (st.2 - st.1 + 1)).toNat) ?_ _ _
    ⟨le_rfl, by dsimp only; omega, by dsimp only; omega⟩).weaken (by dsimp only; omega) fun _ h => h)
    fun h hh J n _ => ?_).weaken (by omega) fun _ h => h
  · rintro ⟨l, h⟩ ⟨i1, i2, i3⟩ J n hn'
    dsimp only at i1 i2 i3 hn' ⊢
    split
    · refine cw_rdq hM (by omega) fun h0 h1 => ?_
      have e := hn l h0 h1
      split
      · rename_i hx
        have := e.1 hx
        exact ⟨rfl, ⟨by dsimp only; omega, by dsimp only; omega, i3⟩, by dsimp only; omega⟩
      · rename_i hx
        have : ¬ l < (p : Int) := fun h => hx (e.2 h)
        refine cw_rdq hM (by omega) fun h0 h1 => ?_
        have e := hn h h0 h1
        split
        · rename_i hx
          have := e.1 hx
          omega
        · exact ⟨rfl, ⟨i1, i2, by dsimp only; omega⟩, by dsimp only; omega⟩
    · exact ⟨rfl, by omega, by omega⟩
  · unfold Slice.sub
    split
    · refine ⟨rfl, by omega, ?_⟩
      rw [hh]; simp only [Slice.mk.injEq]; omega
    · trivial

end

/-! ## Calls -/

section
variable {C : Conf} {id : FamId} {m : Mem Cell} {c : Cfg Cell (VSp Key)} {B n : Nat} {stale : Prop} {Mx : Nat}

theorem quiet_sortOf (hC : C.OK) (hs : SortedAs C id s m m) (hok : ∀ a ∈ s.rng, Accept C id (m a)) (hT : Budget weak T)
    (h32 : weak ∨ (fam C id).mean = none ∨ (fam C id).maxRec < 2 ^ 32) (hB : ∀ a ≤ s.len, T a a ≤ B) :
    cw (qmeter (fam C id) (okOf id) (rkOf id) m T K) (sortOf C id s) none (B + if id.float = true then 2 * s.len else 0) fun _ _ _ => True := by
  have hF := famOK hC id
  have hi : 8 < (fam C id).maxIns := by have := hF.ins; unfold nsShort at this; omega
  obtain ⟨_, t, t1, t2, t3, t4, t5⟩ := hs
  have key : ∀ i : Int, 0 ≤ i → i < t.len → t.off + i.toNat ∈ t.rng := fun i i0 i1 => by
    simp only [Slice.rng, Set.mem_ofPred_eq]; omega
  have ha : Asc (fam C id) (okOf id) (rkOf id) m t := by
    refine ⟨fun i i0 i1 => t3 _ (key i i0 i1), fun i j i0 ij j1 => ?_⟩
    exact t4.le (by omega) (by omega) (by omega)
  have fin : ∀ k, B ≤ k → cw (qmeter (fam C id) (okOf id) (rkOf id) m T K) (sortV (fam C id) C.depth t) none k fun _ _ _ => True :=
    fun k hk => quiet_sortV hF hT hi hF.recOK h32 _ ha ((hB _ t1).trans hk)
  unfold sortOf
  have hfl : (id = .F4 ∨ id = .F8) ↔ id.float = true := by cases id <;> simp [FamId.float]
  by_cases hf : id.float = true
  · rw [if_pos (hfl.2 hf), if_pos hf]
    have nan : ∀ i : Int, 0 ≤ i → i < s.len → (cellNaN (s.E m i) = true ↔ s.off + i.toNat ∉ t.rng) := by
      intro i i0 i1
      constructor
      · exact fun h hm => nan_not_ok hf h (t3 _ hm)
      · exact fun h => (t5 _ (by simp only [Slice.rng, Set.mem_ofPred_eq]; omega) h).2
    by_cases h1 : C.nanOption = 1
    · rw [if_pos h1]
      rw [if_neg (by omega)] at t2
      refine (quiet_nanToEnd (p := t.len) qmeter_quiet t1 ?_).seq (by omega) ?_
      · intro i i0 i1
        rw [nan i i0 i1]
        simp only [Slice.rng, Set.mem_ofPred_eq]
        omega
      · rintro r k rfl hk
        have : (⟨s.off, t.len⟩ : Slice) = t := by rw [← t2]
        rw [this]; exact fin k (by omega)
    · rw [if_neg h1]
      by_cases h2 : C.nanOption = -1
      · rw [if_pos h2]
        rw [if_pos h2] at t2
        refine (quiet_nanToStart (p := s.len - t.len) qmeter_quiet (by omega) ?_).seq (by omega) ?_
        · intro i i0 i1
          rw [nan i i0 i1]
          simp only [Slice.rng, Set.mem_ofPred_eq]
          omega
        · rintro r k rfl hk
          have : (⟨s.off + (s.len - t.len), s.len - (s.len - t.len)⟩ : Slice) = t := by
            rw [← t2, show s.len - (s.len - t.len) = t.len by omega]
          rw [this]; exact fin k (by omega)
      · rw [if_neg h2]
        rw [if_neg h2] at t2
        have e : t = s := by
          have : t.len = s.len := by
            by_contra hc
            have h := nan t.len (by omega) (by omega)
            have h' := h.2 (by simp only [Slice.rng, Set.mem_ofPred_eq]; omega)
            rcases hok (s.off + t.len) (by simp only [Slice.rng, Set.mem_ofPred_eq]; omega) with h3 | ⟨_, _, h3⟩
            · exact nan_not_ok hf h' h3
            · exact h3.elim h1 h2
          obtain ⟨o, l⟩ := t
          dsimp only at this t2
          rw [this, t2]
        show cw _ (sortV (fam C id) C.depth s) _ _ _
        rw [← e]
        exact fin _ (by omega)
  · rw [if_neg (fun h => hf (hfl.1 h)), if_neg hf]
    have e : t = s := by
      have hl : t.len = s.len := by
        by_contra hc
        have hnot : ∃ a ∈ s.rng, a ∉ t.rng := by
          by_cases ho : t.off = s.off
          · exact ⟨s.off + t.len, by simp only [Slice.rng, Set.mem_ofPred_eq]; omega, by simp only [Slice.rng, Set.mem_ofPred_eq]; omega⟩
          · refine ⟨s.off, by simp only [Slice.rng, Set.mem_ofPred_eq]; omega, ?_⟩
            simp only [Slice.rng, Set.mem_ofPred_eq]
            split at t2 <;> omega
        obtain ⟨a, a1, a2⟩ := hnot
        exact hf (t5 a a1 a2).1
      obtain ⟨o, l⟩ := t
      dsimp only at hl t2
      have : o = s.off := by split at t2 <;> omega
      rw [hl, this]
    rw [← e]
    exact fin _ (by omega)

theorem call_quiet (hC : C.OK) (hd : DepthFor C.depth s.len) (hok : ∀ a ∈ s.rng, Accept C id (m a)) (hl : s.len < 2 ^ 63)
    (hs : SortedAs C id s m m) (hT : Budget weak T) (h32 : weak ∨ (fam C id).mean = none ∨ (fam C id).maxRec < 2 ^ 32)
    (hB : ∀ a ≤ s.len, T a a ≤ B)
    (h : CSteps ((famCall C id s).par Mx stale) (qmeter (fam C id) (okOf id) (rkOf id) m T K).w (start (famCall C id s).main m) c n) :
    n ≤ B + (if id.float = true then 2 * s.len else 0) ∧ c.sh.mem = m := by
  obtain ⟨ts, h0⟩ := call_start hC id (m := m) hd hok Mx stale
  have hF := famOK hC id
  have hi : 8 < (fam C id).maxIns := by have := hF.ins; unfold nsShort at this; omega
  have hpo : ∀ sp m v m', (vspec (fam C id) (okOf id) (rkOf id) C.depth).ppost sp m v m' → (qmeter (fam C id) (okOf id) (rkOf id) m T K).ok sp v := by
    intro sp m v m' hp
    cases sp with
    | part ar pv => obtain ⟨_, _, _, _, hp⟩ := hp; exact ⟨hp.k0, hp.k1⟩
    | long ar f => trivial
  obtain ⟨_, _, _, hI⟩ := Inv.metered (M := qmeter (fam C id) (okOf id) (rkOf id) m T K) (call_hyp hC id m hl Mx stale) ⟨ts, h0, jsOf_start h0⟩
    ⟨fun _ => rfl, fun h => h.elim, fun _ _ _ _ _ _ => trivial⟩ (by funext sp; cases sp <;> rfl) hpo (fun sp m hsp hp => quiet_vbody hF hT hi hF.recOK h32 _ hsp (by rintro ar f rfl; exact hp.1))
    (quiet_sortOf hC hs hok hT h32 hB) h
  exact ⟨by have := hI.sum; omega, funext hI.rd⟩

end

/-! ## Budgets -/

theorem budget_weak : Budget True fun f n => 2 * n * (f + 1) := by
  constructor
  · intro f n; exact Nat.le_mul_of_pos_right _ (by omega)
  · rintro f n a b rfl _; apply le_of_eq; ring

theorem budget_log : Budget False fun _ n => 2 * n * (Nat.log2 (n ^ 3) + 1) := by
  constructor
  · intro f n; exact Nat.le_mul_of_pos_right _ (by omega)
  · rintro f n a b rfl (h | ⟨h1, h2⟩)
    · exact h.elim
    by_cases h0 : a + b = 0
    · have ha : a = 0 := by omega
      have hb : b = 0 := by omega
      subst ha hb; simp
    have lg : ∀ a n : Nat, 0 < a → 100 * a ≤ 79 * n → Nat.log2 (a ^ 3) + 1 ≤ Nat.log2 (n ^ 3) := by
      intro a n ha han
      have hp : 0 < a ^ 3 := by positivity
      have h3 : (100 * a) ^ 3 ≤ (79 * n) ^ 3 := Nat.pow_le_pow_left han 3
      rw [Nat.mul_pow, Nat.mul_pow] at h3
      have h4 : 2 * a ^ 3 ≤ n ^ 3 := by norm_num at h3; omega
      rw [Nat.le_log2 (by omega)]
      have := Nat.log2_self_le (n := a ^ 3) (by omega)
      rw [Nat.pow_succ]; omega
    have e1 := lg a (a + b) (by omega) (by omega)
    have e2 := lg b (a + b) (by omega) (by omega)
    have e3 := Nat.mul_le_mul_left (2 * a) e1
    have e4 := Nat.mul_le_mul_left (2 * b) e2
    have : 2 * (a + b) * (Nat.log2 ((a + b) ^ 3) + 1) = 2 * a * Nat.log2 ((a + b) ^ 3) + 2 * b * Nat.log2 ((a + b) ^ 3) + 2 * (a + b) := by ring
    omega

theorem log2_cube (n : Nat) : Nat.log2 (n ^ 3) ≤ 3 * Nat.log2 n + 2 := by
  by_cases h : n = 0
  · subst h; simp
  have h1 : n ^ 3 < 2 ^ (3 * Nat.log2 n + 3) := by
    have := Nat.lt_log2_self (n := n)
    calc n ^ 3 < (2 ^ (Nat.log2 n + 1)) ^ 3 := Nat.pow_lt_pow_left this (by omega)
      _ = _ := by rw [← Nat.pow_mul]; congr 1; ring
  have := (Nat.log2_lt (by positivity)).2 h1
  omega

end Sorty
