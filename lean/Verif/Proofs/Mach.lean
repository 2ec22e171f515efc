import Verif.Model.Mach
import Verif.Logic.Twin
import Verif.Proofs.LswPivot

/-! # The value sorts on machine words do the same as on unbounded integers -/

namespace Sorty

open Prog Slice

/-- `int` has the values from `-W` to `W - 1`, and `8 * ws` bits -/
structure Word (ws : Nat) (W : Int) : Prop where
  size : ws = 4 ∨ ws = 8
  val : W = 2 ^ (8 * ws - 1)

namespace Word
variable {ws : Nat} {W : Int} (w : Word ws W)
include w

theorem big : 2 ^ 31 ≤ W := by
  rw [w.val]
  rcases w.size with rfl | rfl <;> norm_num

theorem pow : (2 : Int) ^ (8 * ws) = 2 * W := by
  rw [w.val]
  rcases w.size with rfl | rfl <;> norm_num

theorem pow' : ((2 ^ (8 * ws) : Nat) : Int) = 2 * W := by
  rw [← w.pow]; push_cast; rfl

theorem wrap {x : Int} (h0 : -W ≤ x) (h1 : x < W) : wrapInt ws x = x :=
  wrapInt_id w.size (w.val ▸ h0) (w.val ▸ h1)

theorem add {x y : Int} (h0 : -W ≤ x + y) (h1 : x + y < W) : addI ws x y = x + y := w.wrap h0 h1

theorem sub {x y : Int} (h0 : -W ≤ x - y) (h1 : x - y < W) : subI ws x y = x - y := w.wrap h0 h1

theorem addu {x y : Int} (h0 : 0 ≤ x + y) (h1 : x + y < 2 * W) : addU ws x y = x + y := by
  unfold addU
  rw [w.pow]
  exact Int.emod_eq_of_lt h0 h1

theorem ofInt {x : Int} (h0 : -W ≤ x) (h1 : x < W) : (BitVec.ofInt (8 * ws) x).toInt = x := by
  rw [BitVec.toInt_ofInt]
  exact w.wrap h0 h1

theorem mean {x y : Int} (hx : -W ≤ x) (hx' : x < W) (hy : -W ≤ y) (hy' : y < W) : meanIM ws x y = meanI x y := by
  unfold meanIM meanI
  rw [meanBitsS_toInt, w.ofInt hx hx', w.ofInt hy hy']

theorem sample {x : Int} {n : Nat} (hn : 2 ≤ n) (h0 : 2 * n ≤ x) (h1 : x < W) : minMaxSampleM ws x n = minMaxSample x.toNat n := by
  have hp := w.pow'
  have hb := w.big
  have hx : (BitVec.ofInt (8 * ws) x).toNat = x.toNat := by
    rw [BitVec.toNat_ofInt, hp, Int.emod_eq_of_lt (by omega) (by omega)]
  have hn' : (BitVec.ofNat (8 * ws) n).toNat = n := by
    rw [BitVec.toNat_ofNat]
    exact Nat.mod_eq_of_lt (by omega)
  obtain ⟨e1, e2, e3⟩ := minMaxSampleW_toNat (BitVec.ofInt (8 * ws) x) (BitVec.ofNat (8 * ws) n) (by omega) (by omega)
  rw [hx, hn'] at e1 e2 e3
  unfold minMaxSampleM
  dsimp only
  rw [e1, e2, e3]

end Word

section
variable {V κ Sp α : Type} {G : Sp → Prop} {R : Int → Prop}

theorem Twin.rd {s : Slice} {i : Int} : Twin G R (fun _ => 0 ≤ i ∧ i < s.len) (s.rd i : Prog V Sp V) (s.rd i) := by
  unfold Slice.rd
  by_cases h : 0 ≤ i ∧ i < s.len
  · rw [if_pos h]; exact .read _ _ _ fun v => .ret _ h
  · rw [if_neg h]; exact .panic

theorem Twin.wr {s : Slice} {i : Int} {v : V} : Twin G R (fun _ => 0 ≤ i ∧ i < s.len) (s.wr i v : Prog V Sp Unit) (s.wr i v) := by
  unfold Slice.wr
  by_cases h : 0 ≤ i ∧ i < s.len
  · rw [if_pos h]; exact .write _ _ _ _ (.ret _ h)
  · rw [if_neg h]; exact .panic

theorem Twin.swap {s : Slice} {i j : Int} :
    Twin G R (fun _ => (0 ≤ i ∧ i < s.len) ∧ (0 ≤ j ∧ j < s.len)) (s.swap i j : Prog V Sp Unit) (s.swap i j) :=
  Twin.rd.bind fun _ hj => Twin.rd.bind fun _ hi => Twin.wr.bind fun _ _ => Twin.wr.mono fun _ _ => ⟨hi, hj⟩

theorem Twin.sub {s : Slice} {lo hi : Int} :
    Twin G R (fun t : Slice => 0 ≤ lo ∧ lo ≤ hi ∧ hi ≤ s.len ∧ (t.len : Int) = hi - lo) (s.sub lo hi : Prog V Sp Slice) (s.sub lo hi) := by
  unfold Slice.sub
  by_cases h : 0 ≤ lo ∧ lo ≤ hi ∧ hi ≤ s.len
  · rw [if_pos h]; exact .ret _ ⟨h.1, h.2.1, h.2.2, by simp; omega⟩
  · rw [if_neg h]; exact .panic

theorem Twin.addrNe {s t : Slice} : Twin G R (fun _ => True) (s.addrNe t : Prog V Sp Bool) (s.addrNe t) := by
  unfold Slice.addrNe
  split
  · exact .ret _ trivial
  · exact .panic

theorem Twin.evalLocal {Q : α → Prop} {p q : Prog V Sp α} (h : Twin G R Q p q) : ∀ m, p.evalLocal m = q.evalLocal m := by
  induction h with
  | read i k k' _ ih => intro m; exact ih _ _
  | write i v k k' _ ih => intro m; exact ih _
  | _ => intro m; rfl

theorem same_gorFull : Twin G R (fun _ => True) (gorFull : Prog V Sp Bool) gorFull :=
  .maxGor _ _ fun _ => .loadGor _ _ fun _ => .ret _ trivial

variable {ws : Nat} {W : Int} (w : Word ws W)
include w

theorem same_insertInner (key : V → κ) (lt : κ → κ → Bool) {slc : Slice} (hs : slc.len < W) {h : Int} {val : V} (h1 : 1 ≤ h) (h2 : h < slc.len) :
    Twin G R (fun _ => True) (insertInner key lt slc h val : Prog V Sp Unit) (insertInnerM ws key lt slc h val) := by
  have hb := w.big
  refine Twin.loop (I := fun l : Int => 1 ≤ l ∧ l < slc.len) (fun l hl => ?_) _ _ ⟨h1, h2⟩
  dsimp only
  rw [w.sub (x := l) (y := 1) (by omega) (by omega)]
  refine Twin.bind Twin.rd fun pre _ => ?_
  by_cases hc : lt (key val) (key pre) = true
  · simp only [if_pos hc]
    refine Twin.bind Twin.wr fun _ _ => ?_
    by_cases h0 : l - 1 = 0
    · simp only [if_pos h0]
      exact Twin.bind Twin.wr fun _ _ => .ret _ trivial
    · simp only [if_neg h0]
      exact .ret _ (show 1 ≤ l - 1 ∧ l - 1 < slc.len by omega)
  · simp only [if_neg hc]
    by_cases h0 : l = h
    · simp only [if_pos h0]; exact .ret _ trivial
    · simp only [if_neg h0]
      exact Twin.bind Twin.wr fun _ _ => .ret _ trivial

theorem same_insertion (key : V → κ) (lt : κ → κ → Bool) {slc : Slice} (hs : slc.len < W) :
    Twin G R (fun _ => True) (insertion key lt slc : Prog V Sp Unit) (insertionM ws key lt slc) := by
  have hb := w.big
  refine Twin.loop (I := fun h : Int => 1 ≤ h) (fun h hh => ?_) _ _ (le_refl _)
  by_cases hc : h < slc.len
  · simp only [if_pos hc]
    refine Twin.bind Twin.rd fun val _ => Twin.bind (same_insertInner w key lt hs hh hc) fun _ _ => ?_
    rw [w.add (by omega) (by omega)]
    exact .ret _ (show 1 ≤ h + 1 by omega)
  · simp only [if_neg hc]; exact .ret _ trivial

theorem same_pivot (F : Fam V κ) {slc : Slice} (hs : slc.len < W) {n : Nat} (hn : 2 ≤ n) (hn' : 2 * n ≤ slc.len) (hn8 : n ≤ 8) :
    Twin G R (fun _ => True) (pivot F slc n : Prog V Sp κ) (pivotM ws F slc n) := by
  have hb := w.big
  unfold pivot pivotM
  rw [w.sample hn (by omega) hs, Int.toNat_natCast]
  have hm := minMaxSample_bounds (slen := slc.len) (n := n) hn hn'
  rcases hmm : minMaxSample slc.len n with ⟨first, step, last⟩
  rw [hmm] at hm
  dsimp only
  rw [w.sub (by omega) (by omega)]
  refine Twin.bind (Q := fun _ => True) ?_ fun sample _ => ?_
  · refine Twin.loop (I := fun st : Int × Int × Mem κ => -1 ≤ st.1 ∧ st.1 < 8 ∧ 0 ≤ st.2.1) (fun st hst => ?_) _ _ ⟨by dsimp only; omega, by dsimp only; omega, by dsimp only; omega⟩
    obtain ⟨i, f, sm⟩ := st
    obtain ⟨h1, h2, h3⟩ := hst
    dsimp only at h1 h2 h3 ⊢
    by_cases hc : i ≥ 0
    · simp only [if_pos hc]
      refine Twin.bind Twin.rd fun x hx => ?_
      have hst : (step : Int) ≤ slc.len := by
        have : step ≤ slc.len := by
          have h1 : step ≤ (n - 1) * step := Nat.le_mul_of_pos_left _ (by omega)
          simp only at hm; omega
        exact_mod_cast this
      rw [w.sub (by omega) (by omega), w.addu (by omega) (by omega)]
      exact .ret _ (show -1 ≤ i - 1 ∧ i - 1 < 8 ∧ 0 ≤ f + step by omega)
    · simp only [if_neg hc]; exact .ret _ trivial
  · have e : (insertion id F.lt ⟨0, n⟩ : Prog κ Empty Unit).evalLocal sample = (insertionM ws id F.lt ⟨0, n⟩ : Prog κ Empty Unit).evalLocal sample :=
      Twin.evalLocal (G := fun _ => True) (R := fun _ => True) (same_insertion w id F.lt (by show ((n : Nat) : Int) < W; omega)) _
    rw [e]
    cases (insertionM ws id F.lt ⟨0, n⟩ : Prog κ Empty Unit).evalLocal sample with
    | none => exact .panic
    | some r => cases F.mean <;> exact .ret _ trivial

/-- bounds of the indices of `partOne*` -/
def p1ok (n : Int) : P1 → Prop
  | .second l h => 0 ≤ l ∧ l < h ∧ h < n
  | .swap l h => 0 ≤ l ∧ l < h ∧ h < n
  | .next l h => 0 ≤ l ∧ l < h ∧ h < n
  | .start l h => 0 ≤ l ∧ l ≤ h + 1 ∧ h < n
  | .scan l h => 0 ≤ l ∧ l < h ∧ h < n
  | .last l h => 0 ≤ l ∧ l ≤ h + 1 ∧ h < n

theorem same_partOne (F : Fam V κ) {slc : Slice} (hs : slc.len < W) (pv : κ) :
    Twin G R (fun k : Int => 0 ≤ k ∧ k ≤ slc.len) (partOne F slc pv : Prog V Sp Int) (partOneM ws F slc pv) := by
  have hb := w.big
  unfold partOne partOneM
  rw [w.sub (by omega) (by omega)]
  refine Twin.loop (I := p1ok slc.len) (fun st hst => ?_) _ _ (show 0 ≤ (0 : Int) ∧ _ ∧ _ by omega)
  cases st with
  | second l h =>
    obtain ⟨h1, h2, h3⟩ := hst
    unfold partOneStep partOneStepM
    dsimp only
    rw [w.sub (by omega) (by omega)]
    by_cases hc : h - 1 ≤ l
    · simp only [if_pos hc]; exact .ret _ (show 0 ≤ l ∧ l ≤ slc.len by omega)
    · simp only [if_neg hc]
      refine Twin.bind Twin.rd fun x _ => ?_
      split
      · exact .ret _ (show 0 ≤ l ∧ l < h - 1 ∧ h - 1 < slc.len by omega)
      · exact .ret _ (show 0 ≤ l ∧ l < h - 1 ∧ h - 1 < slc.len by omega)
  | swap l h => exact Twin.bind Twin.swap fun _ _ => .ret _ hst
  | next l h =>
    obtain ⟨h1, h2, h3⟩ := hst
    unfold partOneStep partOneStepM
    dsimp only
    rw [w.sub (by omega) (by omega), w.add (by omega) (by omega)]
    exact .ret _ (show 0 ≤ l + 1 ∧ l + 1 ≤ h - 1 + 1 ∧ h - 1 < slc.len by omega)
  | start l h =>
    obtain ⟨h1, h2, h3⟩ := hst
    unfold partOneStep partOneStepM
    by_cases hc : h ≤ l
    · simp only [if_pos hc]; exact .ret _ ⟨h1, h2, h3⟩
    · simp only [if_neg hc]
      have hi : 0 ≤ l ∧ l < h ∧ h < slc.len := by omega
      refine Twin.bind Twin.rd fun x _ => ?_
      split
      · refine Twin.bind Twin.rd fun y _ => ?_
        split
        · exact .ret _ hi
        · exact .ret _ hi
      · exact .ret _ hi
  | scan l h =>
    obtain ⟨h1, h2, h3⟩ := hst
    unfold partOneStep partOneStepM
    refine Twin.bind Twin.rd fun x _ => ?_
    split
    · exact .ret _ ⟨h1, h2, h3⟩
    · dsimp only
      rw [w.add (x := l) (by omega) (by omega)]
      by_cases hc : h ≤ l + 1
      · simp only [if_pos hc]; rw [w.add (by omega) (by omega)]; exact .ret _ (show 0 ≤ l + 1 + 1 ∧ l + 1 + 1 ≤ slc.len by omega)
      · simp only [if_neg hc]; exact .ret _ (show 0 ≤ l + 1 ∧ l + 1 < h ∧ h < slc.len by omega)
  | last l h =>
    obtain ⟨h1, h2, h3⟩ := hst
    unfold partOneStep partOneStepM
    by_cases hc : l = h
    · simp only [if_pos hc]
      refine Twin.bind Twin.rd fun x _ => ?_
      split
      · rw [w.add (by omega) (by omega)]; exact .ret _ (show 0 ≤ l + 1 ∧ l + 1 ≤ slc.len by omega)
      · exact .ret _ (show 0 ≤ l ∧ l ≤ slc.len by omega)
    · simp only [if_neg hc]; exact .ret _ (show 0 ≤ l ∧ l ≤ slc.len by omega)

/-- bounds of the indices of `partTwo*` -/
def p2ok (n : Int) : P2 → Prop
  | .second l h => 0 ≤ l ∧ l < n ∧ 0 ≤ h ∧ h < n
  | .swap l h => 0 ≤ l ∧ l < n ∧ 0 ≤ h ∧ h < n
  | .next l h => 0 ≤ l ∧ l < n ∧ 0 ≤ h ∧ h < n
  | .start l h => -1 ≤ l ∧ l < n ∧ 0 ≤ h ∧ h ≤ n
  | .scan l h => 0 ≤ l ∧ l < n ∧ 0 ≤ h ∧ h < n

theorem same_partTwo (F : Fam V κ) {slc : Slice} (hs : slc.len < W) (pv : κ) {l h : Int} (hl : 0 ≤ l) (hl' : l ≤ slc.len)
    (hh : 0 ≤ h) (hh' : h ≤ slc.len) :
    Twin G R (fun k : Int => -1 ≤ k ∧ k ≤ slc.len) (partTwo F slc l h pv : Prog V Sp Int) (partTwoM ws F slc l h pv) := by
  have hb := w.big
  unfold partTwo partTwoM
  dsimp only
  rw [w.sub (by omega) (by omega)]
  by_cases hc : h ≤ l - 1
  · simp only [if_pos hc]; exact .ret _ (by omega)
  simp only [if_neg hc]
  refine Twin.loop (I := p2ok slc.len) (fun st hst => ?_) _ _ (show -1 ≤ l - 1 ∧ _ ∧ _ ∧ _ by omega)
  clear hl hl' hh hh' hc
  clear l h
  cases st with
  | second l h =>
    obtain ⟨h1, h2, h3, h4⟩ := hst
    unfold partTwoStep partTwoStepM
    dsimp only
    rw [w.add (by omega) (by omega)]
    by_cases hc : h + 1 ≥ slc.len
    · simp only [if_pos hc]; exact .ret _ (show -1 ≤ l ∧ l ≤ slc.len by omega)
    · simp only [if_neg hc]
      have hi : 0 ≤ l ∧ l < slc.len ∧ 0 ≤ h + 1 ∧ h + 1 < slc.len := by omega
      refine Twin.bind Twin.rd fun x _ => ?_
      split
      · exact .ret _ hi
      · exact .ret _ hi
  | swap l h => exact Twin.bind Twin.swap fun _ _ => .ret _ hst
  | next l h =>
    obtain ⟨h1, h2, h3, h4⟩ := hst
    unfold partTwoStep partTwoStepM
    dsimp only
    rw [w.sub (by omega) (by omega), w.add (by omega) (by omega)]
    exact .ret _ (show -1 ≤ l - 1 ∧ l - 1 < slc.len ∧ 0 ≤ h + 1 ∧ h + 1 ≤ slc.len by omega)
  | start l h =>
    obtain ⟨h1, h2, h3, h4⟩ := hst
    unfold partTwoStep partTwoStepM
    by_cases hc : l < 0
    · simp only [if_pos hc]; exact .ret _ (show -1 ≤ h ∧ h ≤ slc.len by omega)
    · simp only [if_neg hc]
      by_cases hc' : h ≥ slc.len
      · simp only [if_pos hc']; exact .ret _ (show -1 ≤ l ∧ l ≤ slc.len by omega)
      · simp only [if_neg hc']
        have hi : 0 ≤ l ∧ l < slc.len ∧ 0 ≤ h ∧ h < slc.len := by omega
        refine Twin.bind Twin.rd fun x _ => ?_
        split
        · refine Twin.bind Twin.rd fun y _ => ?_
          split
          · exact .ret _ hi
          · exact .ret _ hi
        · exact .ret _ hi
  | scan l h =>
    obtain ⟨h1, h2, h3, h4⟩ := hst
    unfold partTwoStep partTwoStepM
    refine Twin.bind Twin.rd fun x _ => ?_
    split
    · exact .ret _ ⟨h1, h2, h3, h4⟩
    · dsimp only
      rw [w.sub (by omega) (by omega)]
      by_cases hc : l - 1 < 0
      · simp only [if_pos hc]; exact .ret _ (show -1 ≤ h ∧ h ≤ slc.len by omega)
      · simp only [if_neg hc]; exact .ret _ (show 0 ≤ l - 1 ∧ l - 1 < slc.len ∧ 0 ≤ h ∧ h < slc.len by omega)

theorem same_gapLow (F : Fam V κ) {slc : Slice} (hs : slc.len < W) (pv : κ) {r k : Int} (hr : r ≤ slc.len) (hr' : -1 ≤ r)
    (hk : 0 ≤ k) (hk' : k < W) :
    Twin G R (fun k => 0 ≤ k ∧ k < W) (gapLow F slc pv r k : Prog V Sp Int) (gapLowM ws F slc pv r k) := by
  have hb := w.big
  refine Twin.loop (I := fun st : Int × Int => (-1 ≤ st.1 ∧ st.1 ≤ slc.len) ∧ 0 ≤ st.2 ∧ st.2 < W) (fun st hst => ?_) _ _ ⟨⟨hr', hr⟩, hk, hk'⟩
  clear hr hr' hk hk'
  clear r k
  obtain ⟨r, k⟩ := st
  obtain ⟨⟨h1, h2⟩, h3, h4⟩ := hst
  dsimp only at h1 h2 h3 h4 ⊢
  by_cases hc : 0 ≤ r
  · simp only [if_pos hc]; rw [w.sub (x := r) (by omega) (by omega), w.sub (x := k) (by omega) (by omega)]
    refine Twin.bind Twin.rd fun x hx => ?_
    split
    · refine Twin.bind Twin.swap fun _ hj => ?_
      exact .ret _ (show (-1 ≤ r - 1 ∧ r - 1 ≤ slc.len) ∧ 0 ≤ k - 1 ∧ k - 1 < W by omega)
    · exact .ret _ (show (-1 ≤ r - 1 ∧ r - 1 ≤ slc.len) ∧ 0 ≤ k ∧ k < W by omega)
  · simp only [if_neg hc]; exact .ret _ ⟨h3, h4⟩

theorem same_gapHigh (F : Fam V κ) {slc : Slice} (hs : slc.len < W) (pv : κ) {r k : Int} (hr : r ≤ slc.len) (hr' : -1 ≤ r)
    (hk : 0 ≤ k) (hk' : k < W) :
    Twin G R (fun k => 0 ≤ k ∧ k < W) (gapHigh F slc pv r k : Prog V Sp Int) (gapHighM ws F slc pv r k) := by
  have hb := w.big
  refine Twin.loop (I := fun st : Int × Int => (-1 ≤ st.1 ∧ st.1 ≤ slc.len) ∧ 0 ≤ st.2 ∧ st.2 < W) (fun st hst => ?_) _ _ ⟨⟨hr', hr⟩, hk, hk'⟩
  clear hr hr' hk hk'
  clear r k
  obtain ⟨r, k⟩ := st
  obtain ⟨⟨h1, h2⟩, h3, h4⟩ := hst
  dsimp only at h1 h2 h3 h4 ⊢
  by_cases hc : r < slc.len
  · simp only [if_pos hc]; rw [w.add (x := r) (by omega) (by omega)]
    refine Twin.bind Twin.rd fun x hx => ?_
    split
    · refine Twin.bind Twin.swap fun _ hj => ?_
      rw [w.add (by omega) (by omega)]
      exact .ret _ (show (-1 ≤ r + 1 ∧ r + 1 ≤ slc.len) ∧ 0 ≤ k + 1 ∧ k + 1 < W by omega)
    · exact .ret _ (show (-1 ≤ r + 1 ∧ r + 1 ≤ slc.len) ∧ 0 ≤ k ∧ k < W by omega)
  · simp only [if_neg hc]; exact .ret _ ⟨h3, h4⟩

theorem same_splitAt {ar : Slice} (hs : ar.len < W) {k : Int} (hk : 0 ≤ k) (hk' : k < W) :
    Twin G R (fun t : Slice × Slice => t.1.len ≤ t.2.len ∧ t.1.len + t.2.len = ar.len) (splitAt ar k : Prog V Sp (Slice × Slice)) (splitAtM ws ar k) := by
  have hb := w.big
  unfold splitAt splitAtM
  rw [w.sub (by omega) (by omega)]
  by_cases hc : k < ar.len - k
  · simp only [if_pos hc]
    exact Twin.bind Twin.sub fun a ha => Twin.bind Twin.sub fun b hb => .ret _ (show a.len ≤ b.len ∧ a.len + b.len = ar.len by omega)
  · simp only [if_neg hc]
    exact Twin.bind Twin.sub fun a ha => Twin.bind Twin.sub fun b hb => .ret _ (show a.len ≤ b.len ∧ a.len + b.len = ar.len by omega)

theorem same_shortPivot (F : Fam V κ) {ar : Slice} (hs : ar.len < W) (hl : 6 ≤ ar.len) :
    Twin G R (fun _ => True) (shortPivot F ar : Prog V Sp κ) (shortPivotM ws F ar) := by
  have hb := w.big
  unfold shortPivot shortPivotM
  cases F.mean with
  | some mean =>
    unfold shortPivot4
    refine Twin.bind Twin.rd fun a _ => Twin.bind Twin.rd fun b _ => Twin.bind Twin.rd fun c _ => Twin.bind Twin.rd fun d _ => ?_
    exact .ret _ trivial
  | none =>
    unfold shortPivot3 shortPivot3M
    rw [w.sample (by omega) (by omega) hs, Int.toNat_natCast]
    have hm := minMaxSample_bounds (slen := ar.len) (n := 3) (by omega) (by omega)
    rcases hmm : minMaxSample ar.len 3 with ⟨first, step, last⟩
    rw [hmm] at hm
    simp only at hm
    dsimp only
    rw [w.addu (by omega) (by omega), ← Nat.cast_add]
    refine Twin.bind Twin.rd fun a _ => Twin.bind Twin.rd fun b _ => Twin.bind Twin.rd fun c _ => ?_
    generalize (if F.lt (F.key b) (F.key a) = true then (F.key a, F.key b) else (F.key b, F.key a)) = t
    obtain ⟨pv, f⟩ := t
    show Twin G R (fun _ => True) (if F.lt (F.key c) pv = true then if F.lt (F.key c) f = true then .ret f else .ret (F.key c) else .ret pv) _
    split
    · split
      · exact .ret _ trivial
      · exact .ret _ trivial
    · exact .ret _ trivial

/-- what the thresholds must satisfy -/
structure FamFits (F : Fam V κ) (W : Int) : Prop where
  ins : 8 < F.maxIns
  rcr : 2 * F.maxIns < F.maxRec
  word : 2 * ((F.maxRec : Int) + 1) < W

theorem same_short {F : Fam V κ} (hF : FamFits F W) : ∀ (f d : Nat) {ar : Slice}, ar.len < W → F.maxIns < ar.len →
    Twin G R (fun _ => True) (short F f d ar : Prog V Sp Unit) (shortM ws F f d ar)
  | 0, _, _, _, _ => .diverge
  | f + 1, d, ar, hs, hl => by
    have h8 := hF.ins
    refine Twin.bind (same_shortPivot w F hs (by omega)) fun pv _ => Twin.bind (same_partOne w F hs pv) fun k hk =>
      Twin.bind (same_splitAt w hs hk.1 (by omega)) fun t ht => ?_
    obtain ⟨aq, ar'⟩ := t
    obtain ⟨h1, h2⟩ := ht
    dsimp only at h1 h2 ⊢
    by_cases hc : aq.len > F.maxIns
    · simp only [if_pos hc]
      cases d with
      | zero => exact Twin.bind (Q := fun _ => True) .overflow fun _ _ => same_short hF f 0 (by omega) (by omega)
      | succ d =>
        exact Twin.bind (same_short hF f d (by omega) (by omega)) fun _ _ => same_short hF f (d + 1) (by omega) (by omega)
    · simp only [if_neg hc]
      refine Twin.bind (Q := fun b => b = true → ar'.len > F.maxIns) ?_ fun again ha => ?_
      · refine Twin.loop (I := fun q : Slice => q.len < W) (fun q hq => ?_) _ _ (by omega)
        refine Twin.bind (same_insertion w F.key F.lt hq) fun _ _ => ?_
        by_cases hr : ar'.len > F.maxIns
        · simp only [if_pos hr]; exact .ret _ (fun _ => hr)
        · simp only [if_neg hr]
          refine Twin.bind Twin.addrNe fun ne _ => ?_
          split
          · exact .ret _ (show (ar'.len : Int) < W by omega)
          · exact .ret _ (by intro h; cases h)
      · cases again with
        | true => exact same_short hF f d (by omega) (ha rfl)
        | false => exact .ret _ trivial

end

section
variable {V κ : Type} {ws : Nat} {W : Int} (w : Word ws W)

/-- goroutines the value sorts start -/
def spawnOK (F : Fam V κ) (W : Int) : VSp κ → Prop
  | .part ar _ => 2 * (ar.len : Int) ≤ W + 2
  | .long ar _ => ar.len < W ∧ F.maxRec < ar.len

/-- messages the value sorts send -/
def msgOK (W : Int) (v : Int) : Prop := 0 ≤ v ∧ 2 * v ≤ W + 2

include w

theorem same_partCon {F : Fam V κ} {slc : Slice} (hs : slc.len < W) (hl : 16 ≤ slc.len) :
    Twin (spawnOK F W) (msgOK W) (fun k => 0 ≤ k ∧ k < W) (partCon F slc : Prog V (VSp κ) Int) (partConM ws F slc) := by
  have hb := w.big
  have hn : 2 ≤ F.nConc ∧ F.nConc ≤ 8 := by
    unfold Fam.nConc nsConc; split <;> omega
  unfold partCon partConM
  refine Twin.bind (same_pivot w F hs hn.1 (by omega) hn.2) fun pv _ => ?_
  dsimp only
  have e : meanIM ws ((slc.len : Int) / 2) slc.len = meanI ((slc.len : Int) / 2) slc.len := w.mean (by omega) (by omega) (by omega) (by omega)
  rw [e]
  have hm : meanI ((slc.len : Int) / 2) slc.len = ((slc.len : Int) / 2 + slc.len) / 2 := rfl
  rw [hm]
  refine Twin.bind Twin.sub fun half hh => ?_
  refine .go _ _ _ (show 2 * (half.len : Int) ≤ W + 2 by omega) ?_
  refine Twin.bind (Q := fun _ => True) (.ret _ trivial) fun _ _ => ?_
  refine Twin.bind (same_partTwo w F hs pv (by omega) (by omega) (by omega) (by omega)) fun r hr => ?_
  refine .recv _ _ fun v hv => ?_
  unfold msgOK at hv
  show Twin _ _ _ (if _ then _ else _) (if _ then gapLowM ws F slc pv r (addI ws _ v) else gapHighM ws F slc pv r (addI ws _ v))
  rw [w.add (by omega) (by omega)]
  split
  · exact same_gapLow w F hs pv (by omega) (by omega) (by omega) (by omega)
  · exact same_gapHigh w F hs pv (by omega) (by omega) (by omega) (by omega)

theorem same_long {F : Fam V κ} (hF : FamFits F W) : ∀ (f d : Nat) {ar : Slice} (sv : Bool), ar.len < W → F.maxRec < ar.len →
    Twin (spawnOK F W) (msgOK W) (fun _ => True) (long F f d ar sv : Prog V (VSp κ) Unit) (longM ws F f d ar sv)
  | 0, _, _, _, _, _ => .diverge
  | f + 1, d, ar, sv, hs, hl => by
    have h8 := hF.ins
    have hr := hF.rcr
    have hn : 2 ≤ F.nLong ∧ F.nLong ≤ 6 := by
      unfold Fam.nLong nsLong; split <;> omega
    refine Twin.bind (same_pivot w F hs hn.1 (by omega) (by omega)) fun pv _ => Twin.bind (same_partOne w F hs pv) fun k hk =>
      Twin.bind (same_splitAt w hs hk.1 (by omega)) fun t ht => ?_
    obtain ⟨aq, ar'⟩ := t
    obtain ⟨h1, h2⟩ := ht
    dsimp only at h1 h2 ⊢
    have both : F.maxRec < aq.len → Twin (spawnOK F W) (msgOK W) (fun _ => True)
        (match d with
          | 0 => do
            overflow
            long F f d ar' sv
          | d' + 1 => do
            long F f d' aq sv
            long F f d ar' sv : Prog V (VSp κ) Unit)
        (match d with
          | 0 => do
            overflow
            longM ws F f d ar' sv
          | d' + 1 => do
            longM ws F f d' aq sv
            longM ws F f d ar' sv) := by
      intro hq
      cases d with
      | zero => exact Twin.bind (Q := fun _ => True) .overflow fun _ _ => same_long hF f 0 sv (by omega) (by omega)
      | succ d =>
        exact Twin.bind (same_long hF f d sv (by omega) (by omega)) fun _ _ => same_long hF f (d + 1) sv (by omega) (by omega)
    have rest : Twin (spawnOK F W) (msgOK W) (fun _ => True)
        (if ar'.len > F.maxRec then long F f d ar' sv else
          match (generalizing := false) d with
          | 0 => overflow
          | d + 1 => short F f d ar' : Prog V (VSp κ) Unit)
        (if ar'.len > F.maxRec then longM ws F f d ar' sv else
          match (generalizing := false) d with
          | 0 => overflow
          | d + 1 => shortM ws F f d ar') := by
      by_cases hi : ar'.len > F.maxRec
      · simp only [if_pos hi]; exact same_long hF f d sv (by omega) hi
      · simp only [if_neg hi]
        cases d with
        | zero => exact .overflow
        | succ d => exact same_short w hF f d (by omega) (by omega)
    by_cases hc : aq.len ≤ F.maxRec
    · simp only [if_pos hc]
      by_cases hi : aq.len > F.maxIns
      · simp only [if_pos hi]
        cases d with
        | zero => exact Twin.bind (Q := fun _ => True) .overflow fun _ _ => rest
        | succ d => exact Twin.bind (same_short w hF f d (by omega) hi) fun _ _ => rest
      · simp only [if_neg hi]; exact Twin.bind (same_insertion w F.key F.lt (by omega)) fun _ _ => rest
    · simp only [if_neg hc]
      cases sv with
      | true =>
        refine Twin.bind same_gorFull fun full _ => ?_
        cases full with
        | true => exact both (by omega)
        | false =>
          refine .incGor _ _ fun _ => .go _ _ _ ⟨?_, ?_⟩ ?_
          · omega
          · omega
          · exact same_long hF f d true (by omega) (by omega)
      | false => exact both (by omega)

theorem same_vbody {F : Fam V κ} (hF : FamFits F W) (d : Nat) (s : VSp κ) (hs : spawnOK F W s) :
    Twin (spawnOK F W) (msgOK W) (fun _ => True) (vbody F d s : Prog V (VSp κ) Unit) (vbodyM ws F d s) := by
  have hb := w.big
  cases s with
  | part ar pv =>
    have hs : 2 * (ar.len : Int) ≤ W + 2 := hs
    exact Twin.bind (same_partOne w F (by omega) pv) fun k hk => .send _ _ _ (show 0 ≤ k ∧ 2 * k ≤ W + 2 by omega) (.ret _ trivial)
  | long ar f =>
    refine Twin.bind (same_long w hF f d true hs.1 hs.2) fun _ _ => .decGor _ _ fun n => ?_
    show Twin _ _ _ (if n = 0 then _ else _) (if n = 0 then _ else _)
    split
    · exact .send _ _ _ (show 0 ≤ (0 : Int) ∧ 2 * (0 : Int) ≤ W + 2 by omega) (.ret _ trivial)
    · exact .ret _ trivial

theorem twoRec {F : Fam V κ} (hF : FamFits F W) (n : Nat) : (n : Int) < twoRecM ws F ↔ n < 2 * (F.maxRec + 1) := by
  have h := hF.word
  unfold twoRecM
  rw [w.add (by omega) (by omega), w.wrap (by omega) (by omega)]
  omega

theorem same_sortLoop {F : Fam V κ} (hF : FamFits F W) (d : Nat) : ∀ (f : Nat) {ar : Slice}, ar.len < W → 2 * (F.maxRec + 1) ≤ ar.len →
    Twin (spawnOK F W) (msgOK W) (fun _ => True) (sortLoop F d f ar : Prog V (VSp κ) Unit) (sortLoopM ws F d f ar)
  | 0, _, _, _ => .diverge
  | f + 1, ar, hs, hl => by
    have h8 := hF.ins
    have hr := hF.rcr
    refine Twin.bind (same_partCon w hs (by omega)) fun k hk => Twin.bind (same_splitAt w hs hk.1 hk.2) fun t ht => ?_
    obtain ⟨aq, ar'⟩ := t
    obtain ⟨h1, h2⟩ := ht
    dsimp only at h1 h2 ⊢
    have stop : ∀ b : Bool, (b = false → 2 * (F.maxRec + 1) ≤ ar'.len) → Twin (spawnOK F W) (msgOK W) (fun _ => True)
        (if b = true then do
            long F f d ar' true
            let n ← decGor ret
            if n ≠ 0 then
              let _ ← recv ret
              pure ()
            else pure ()
          else sortLoop F d f ar' : Prog V (VSp κ) Unit)
        (if b = true then do
            longM ws F f d ar' true
            let n ← decGor ret
            if n ≠ 0 then
              let _ ← recv ret
              pure ()
            else pure ()
          else sortLoopM ws F d f ar') := by
      intro b hst
      cases b with
      | true =>
        refine Twin.bind (same_long w hF f d true (by omega) (by omega)) fun _ _ => .decGor _ _ fun n => ?_
        show Twin _ _ _ (if n ≠ 0 then _ else _) (if n ≠ 0 then _ else _)
        split
        · exact .recv _ _ fun _ _ => .ret _ trivial
        · exact .ret _ trivial
      | false => exact same_sortLoop hF d f (by omega) (hst rfl)
    simp only [twoRec w hF]
    by_cases hc : aq.len > F.maxRec
    · simp only [if_pos hc]
      refine .incGor _ _ fun _ => .go _ _ _ ⟨?_, hc⟩ ?_
      · omega
      · refine Twin.bind (Q := fun _ => True) (.ret _ trivial) fun _ _ => ?_
        by_cases hc : ar'.len < 2 * (F.maxRec + 1)
        · simp only [if_pos hc]; exact stop true (by intro h; cases h)
        · simp only [if_neg hc]; exact Twin.bind same_gorFull fun b _ => stop b fun _ => by omega
    · simp only [if_neg hc]
      by_cases hi : aq.len > F.maxIns
      · simp only [if_pos hi]
        refine Twin.bind (same_short w hF f d (by omega) hi) fun _ _ => ?_
        by_cases hc : ar'.len < 2 * (F.maxRec + 1)
        · simp only [if_pos hc]; exact stop true (by intro h; cases h)
        · simp only [if_neg hc]; exact Twin.bind same_gorFull fun b _ => stop b fun _ => by omega
      · simp only [if_neg hi]
        refine Twin.bind (same_insertion w F.key F.lt (by omega)) fun _ _ => ?_
        by_cases hc : ar'.len < 2 * (F.maxRec + 1)
        · simp only [if_pos hc]; exact stop true (by intro h; cases h)
        · simp only [if_neg hc]; exact Twin.bind same_gorFull fun b _ => stop b fun _ => by omega

theorem same_sortV {F : Fam V κ} (hF : FamFits F W) (d : Nat) {ar : Slice} (hs : ar.len < W) :
    Twin (spawnOK F W) (msgOK W) (fun _ => True) (sortV F d ar : Prog V (VSp κ) Unit) (sortVM ws F d ar) := by
  unfold sortV sortVM
  have tail : ∀ b : Bool, (b = false → 2 * (F.maxRec + 1) ≤ ar.len) → Twin (spawnOK F W) (msgOK W) (fun _ => True)
      (if b = true then
          if ar.len > F.maxRec then long F ar.len d ar false
          else if ar.len > F.maxIns then short F ar.len d ar else insertion F.key F.lt ar
        else do
          (ret ()).mkSync
          sortLoop F d ar.len ar : Prog V (VSp κ) Unit)
      (if b = true then
          if ar.len > F.maxRec then longM ws F ar.len d ar false
          else if ar.len > F.maxIns then shortM ws F ar.len d ar else insertionM ws F.key F.lt ar
        else do
          (ret ()).mkSync
          sortLoopM ws F d (max ar.len 1) ar) := by
    intro b hb
    cases b with
    | true =>
      simp only [if_true]
      by_cases hc : ar.len > F.maxRec
      · simp only [if_pos hc]; exact same_long w hF _ d false hs hc
      · simp only [if_neg hc]
        by_cases hi : ar.len > F.maxIns
        · simp only [if_pos hi]; exact same_short w hF _ d hs hi
        · simp only [if_neg hi]; exact same_insertion w F.key F.lt hs
    | false =>
      have := hb rfl
      rw [Nat.max_eq_left (by omega)]
      exact .mkSync _ _ (same_sortLoop w hF d _ hs (hb rfl))
  simp only [twoRec w hF]
  by_cases hc : ar.len < 2 * (F.maxRec + 1)
  · simp only [if_pos hc]; exact tail true (by intro h; cases h)
  · simp only [if_neg hc]; exact .maxGor _ _ fun mg => tail (decide (mg ≤ 1)) fun _ => by omega

end

section
variable {Sp : Type} {G : Sp → Prop} {R : Int → Prop} {ws : Nat} {W : Int} (w : Word ws W)
include w

theorem same_nanToEnd {ar : Slice} (hs : ar.len < W) :
    Twin G R (fun t : Slice => t.len < W) (nanToEnd ar : Prog Cell Sp Slice) (nanToEndM ws ar) := by
  have hb := w.big
  unfold nanToEnd nanToEndM
  rw [w.sub (by omega) (by omega)]
  refine Twin.bind (Q := fun h : Int => -1 ≤ h ∧ h < ar.len) ?_ fun h hh => ?_
  · refine Twin.loop (I := fun st : Int × Int => 0 ≤ st.1 ∧ st.1 ≤ ar.len ∧ -1 ≤ st.2 ∧ st.2 < ar.len) (fun st hst => ?_) _ _
      (show 0 ≤ (0 : Int) ∧ (0 : Int) ≤ ar.len ∧ -1 ≤ (ar.len : Int) - 1 ∧ (ar.len : Int) - 1 < ar.len by omega)
    obtain ⟨l, h⟩ := st
    dsimp only at hst ⊢
    obtain ⟨h1, h2, h3, h4⟩ := hst
    by_cases hc : l ≤ h
    · simp only [if_pos hc]
      rw [w.sub (by omega) (by omega), w.add (by omega) (by omega)]
      refine Twin.bind Twin.rd fun x _ => ?_
      split
      · exact .ret _ (show 0 ≤ l ∧ l ≤ (ar.len : Int) ∧ -1 ≤ h - 1 ∧ h - 1 < ar.len by omega)
      · refine Twin.bind Twin.rd fun y _ => ?_
        split
        · exact Twin.bind Twin.wr fun _ _ => Twin.bind Twin.wr fun _ _ =>
            .ret _ (show 0 ≤ l + 1 ∧ l + 1 ≤ (ar.len : Int) ∧ -1 ≤ h - 1 ∧ h - 1 < ar.len by omega)
        · exact .ret _ (show 0 ≤ l + 1 ∧ l + 1 ≤ (ar.len : Int) ∧ -1 ≤ h ∧ h < ar.len by omega)
    · simp only [if_neg hc]; exact .ret _ ⟨h3, h4⟩
  · rw [w.add (by omega) (by omega)]
    exact Twin.sub.mono fun t ht => by omega

theorem same_nanToStart {ar : Slice} (hs : ar.len < W) :
    Twin G R (fun t : Slice => t.len < W) (nanToStart ar : Prog Cell Sp Slice) (nanToStartM ws ar) := by
  have hb := w.big
  unfold nanToStart nanToStartM
  rw [w.sub (by omega) (by omega)]
  refine Twin.bind (Q := fun h : Int => 0 ≤ h ∧ h ≤ ar.len) ?_ fun h hh => Twin.sub.mono fun t ht => by omega
  refine Twin.loop (I := fun st : Int × Int => 0 ≤ st.1 ∧ st.1 ≤ ar.len ∧ -1 ≤ st.2 ∧ st.2 < ar.len) (fun st hst => ?_) _ _
    (show 0 ≤ (0 : Int) ∧ (0 : Int) ≤ ar.len ∧ -1 ≤ (ar.len : Int) - 1 ∧ (ar.len : Int) - 1 < ar.len by omega)
  obtain ⟨l, h⟩ := st
  dsimp only at hst ⊢
  obtain ⟨h1, h2, h3, h4⟩ := hst
  by_cases hc : l ≤ h
  · simp only [if_pos hc]
    rw [w.sub (by omega) (by omega), w.add (by omega) (by omega)]
    refine Twin.bind Twin.rd fun x _ => ?_
    split
    · exact .ret _ (show 0 ≤ l + 1 ∧ l + 1 ≤ (ar.len : Int) ∧ -1 ≤ h ∧ h < ar.len by omega)
    · refine Twin.bind Twin.rd fun y _ => ?_
      split
      · exact Twin.bind Twin.wr fun _ _ => Twin.bind Twin.wr fun _ _ =>
          .ret _ (show 0 ≤ l + 1 ∧ l + 1 ≤ (ar.len : Int) ∧ -1 ≤ h - 1 ∧ h - 1 < ar.len by omega)
      · exact .ret _ (show 0 ≤ l ∧ l ≤ (ar.len : Int) ∧ -1 ≤ h - 1 ∧ h - 1 < ar.len by omega)
  · simp only [if_neg hc]; exact .ret _ ⟨h1, h2⟩

theorem same_isSortedV {V κ : Type} (F : Fam V κ) {ar : Slice} (hs : ar.len < W) :
    Twin G R (fun _ => True) (isSortedV F ar : Prog V Sp Int) (isSortedVM ws F ar) := by
  have hb := w.big
  unfold isSortedV isSortedVM
  rw [w.sub (by omega) (by omega)]
  refine Twin.loop (I := fun i : Int => i < ar.len) (fun i hi => ?_) _ _ (by omega)
  by_cases hc : i > 0
  · simp only [if_pos hc]
    rw [w.sub (by omega) (by omega)]
    refine Twin.bind Twin.rd fun x _ => Twin.bind Twin.rd fun y _ => ?_
    split
    · exact .ret _ trivial
    · exact .ret _ (show i - 1 < ar.len by omega)
  · simp only [if_neg hc]; exact .ret _ trivial

theorem same_isSortedF (nanOption : Int) {ar : Slice} (hs : ar.len < W) :
    Twin G R (fun _ => True) (isSortedF nanOption ar : Prog Cell Sp Int) (isSortedFM ws nanOption ar) := by
  have hb := w.big
  have last : ∀ lh : Int × Int, 0 ≤ lh.1 → lh.2 < ar.len → Twin G R (fun _ => True)
      (loop (ar.len + 1) (fun i : Int =>
        if i > lh.1 then do
          let x ← ar.rd i
          let y ← ar.rd (i - 1)
          if !cellGE x y then pure (.brk i) else pure (.again (i - 1))
        else pure (.brk 0)) lh.2 : Prog Cell Sp Int)
      (loop (ar.len + 1) (fun i : Int =>
        if i > lh.1 then do
          let x ← ar.rd i
          let y ← ar.rd (subI ws i 1)
          if !cellGE x y then pure (.brk i) else pure (.again (subI ws i 1))
        else pure (.brk 0)) lh.2) := by
    intro lh h0 h1
    refine Twin.loop (I := fun i : Int => i < ar.len) (fun i hi => ?_) _ _ h1
    by_cases hc : i > lh.1
    · simp only [if_pos hc]
      rw [w.sub (by omega) (by omega)]
      refine Twin.bind Twin.rd fun x _ => Twin.bind Twin.rd fun y _ => ?_
      split
      · exact .ret _ trivial
      · exact .ret _ (show i - 1 < ar.len by omega)
    · simp only [if_neg hc]; exact .ret _ trivial
  unfold isSortedF isSortedFM
  rw [w.sub (by omega) (by omega)]
  split
  · refine Twin.bind (Q := fun lh : Int × Int => 0 ≤ lh.1 ∧ lh.2 < ar.len) ?_ fun lh h => last lh h.1 h.2
    refine Twin.loop (I := fun i : Int => i < ar.len) (fun i hi => ?_) _ _ (by omega)
    by_cases hc : 0 ≤ i
    · simp only [if_pos hc]
      rw [w.sub (by omega) (by omega)]
      refine Twin.bind Twin.rd fun x _ => ?_
      split
      · exact .ret _ (show i - 1 < ar.len by omega)
      · exact .ret _ (show 0 ≤ (0 : Int) ∧ i < ar.len by omega)
    · simp only [if_neg hc]; exact .ret _ (show 0 ≤ (0 : Int) ∧ i < ar.len by omega)
  · split
    · refine Twin.bind (Q := fun lh : Int × Int => 0 ≤ lh.1 ∧ lh.2 < ar.len) ?_ fun lh h => last lh h.1 h.2
      refine Twin.loop (I := fun i : Int => 0 ≤ i ∧ i ≤ ar.len) (fun i hi => ?_) _ _ (by omega)
      by_cases hc : i ≤ (ar.len : Int) - 1
      · simp only [if_pos hc]
        rw [w.add (by omega) (by omega)]
        refine Twin.bind Twin.rd fun x _ => ?_
        split
        · exact .ret _ (show 0 ≤ i + 1 ∧ i + 1 ≤ ar.len by omega)
        · exact .ret _ (show 0 ≤ i ∧ (ar.len : Int) - 1 < ar.len by omega)
      · simp only [if_neg hc]; exact .ret _ (show 0 ≤ i ∧ (ar.len : Int) - 1 < ar.len by omega)
    · exact last (0, (ar.len : Int) - 1) (by simp) (by simp)

theorem search_same {σ : Type} (fn : Int → σ → Bool × σ) : ∀ (fuel : Nat) (l h : Int) (st : σ) (calls : List Int), -W ≤ l → l ≤ h ∨ l < W → h < W →
    searchLoopM ws fn fuel l h st calls = searchLoop fn fuel l h st calls
  | 0, _, _, _, _, _, _, _ => rfl
  | fuel + 1, l, h, st, calls, h0, h1, h2 => by
    have hb := w.big
    unfold searchLoopM searchLoop
    by_cases hc : l < h
    · simp only [if_pos hc]
      rw [w.mean h0 (by omega) (by omega) h2]
      have hm : meanI l h = (l + h) / 2 := rfl
      rw [w.add (by omega) (by omega)]
      split
      · exact search_same fn fuel l _ _ _ h0 (by omega) (by omega)
      · exact search_same fn fuel _ h _ _ (by omega) (by omega) h2
    · simp only [if_neg hc]

theorem Search_same {σ : Type} (fn : Int → σ → Bool × σ) {n : Int} (hn : n < W) (st : σ) : SearchM ws n fn st = Search n fn st :=
  search_same w fn _ _ _ _ _ (by have := w.big; omega) (by have := w.big; omega) hn

end

end Sorty
