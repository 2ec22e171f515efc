import Verif.SpecFloat
import Verif.Proofs.Dispatch
import Mathlib.Tactic.Ring
import Mathlib.Tactic.Positivity
import Mathlib.Tactic.Linarith
import Mathlib.Order.Monotone.Basic

/-! # Sign-magnitude keys order floats by their IEEE values -/

namespace Sorty

/-- the value of magnitude `m` in units of the smallest subnormal -/
def fscale (fb m : Nat) : Nat := if m / 2 ^ fb = 0 then m % 2 ^ fb else (2 ^ fb + m % 2 ^ fb) * 2 ^ (m / 2 ^ fb - 1)

theorem fscale_mono (fb : Nat) : StrictMono (fscale fb) := by
  refine strictMono_nat_of_lt_succ fun m => ?_
  have hB : 0 < 2 ^ fb := by positivity
  have hd := Nat.div_add_mod m (2 ^ fb)
  have hm := Nat.mod_lt m hB
  unfold fscale
  generalize hBe : 2 ^ fb = B at *
  generalize he : m / B = e at *
  generalize hf : m % B = f at *
  subst hd
  by_cases hc : f + 1 < B
  · have h1 : (B * e + f + 1) / B = e := by
      rw [Nat.add_assoc, Nat.mul_add_div hB, Nat.div_eq_of_lt hc, Nat.add_zero]
    have h2 : (B * e + f + 1) % B = f + 1 := by
      rw [Nat.add_assoc, Nat.mul_add_mod, Nat.mod_eq_of_lt hc]
    rw [h1, h2]
    split_ifs
    · omega
    · exact Nat.mul_lt_mul_of_pos_right (by omega) (by positivity)
  · have hfe : f + 1 = B := by omega
    have e1 : B * e + f + 1 = B * (e + 1) := by rw [Nat.mul_add, Nat.mul_one]; omega
    have h1 : (B * e + f + 1) / B = e + 1 := by
      rw [e1, Nat.mul_div_cancel_left _ hB]
    have h2 : (B * e + f + 1) % B = 0 := by
      rw [e1, Nat.mul_mod_right]
    rw [h1, h2, if_neg (by omega : ¬ e + 1 = 0)]
    simp only [Nat.add_sub_cancel, Nat.add_zero]
    split_ifs with h0
    · subst h0; simp; omega
    · obtain ⟨k, rfl⟩ : ∃ k, e = k + 1 := ⟨e - 1, by omega⟩
      simp only [Nat.add_sub_cancel, pow_succ]
      have : 0 < 2 ^ k := by positivity
      calc (B + f) * 2 ^ k < (B * 2) * 2 ^ k := Nat.mul_lt_mul_of_pos_right (by omega) this
        _ = B * (2 ^ k * 2) := by ring

theorem fscale_zero (fb : Nat) : fscale fb 0 = 0 := by simp [fscale]

/-- signed version -/
def fscaleI (fb : Nat) (k : Int) : Int := if k < 0 then -(fscale fb k.natAbs : Int) else fscale fb k.natAbs

theorem fscaleI_mono (fb : Nat) : StrictMono (fscaleI fb) := by
  intro a b h
  have hm := fscale_mono fb
  unfold fscaleI
  by_cases ha : a < 0
  · have h0 : fscale fb 0 < fscale fb a.natAbs := hm (by omega)
    by_cases hb : b < 0
    · have : fscale fb b.natAbs < fscale fb a.natAbs := hm (by omega)
      rw [if_pos ha, if_pos hb]; omega
    · rw [if_pos ha, if_neg hb]; omega
  · have : fscale fb a.natAbs < fscale fb b.natAbs := hm (by omega)
    rw [if_neg ha, if_neg (by omega)]; omega

/-- magnitude of +infinity -/
def infMag (eb fb : Nat) : Nat := (2 ^ eb - 1) * 2 ^ fb

/-- value of a signed magnitude -/
def keyValue (eb fb : Nat) (k : Int) : WithBot (WithTop ℚ) :=
  if k = infMag eb fb then ⊤ else if k = -(infMag eb fb : Int) then ⊥
  else (((fscaleI fb k : ℚ) * 2 ^ (1 - (2 ^ (eb - 1) - 1) - fb : ℤ) : ℚ) : WithTop ℚ)

theorem keyValue_lt {eb fb : Nat} {a b : Int} (ha : -(infMag eb fb : Int) ≤ a) (hb : b ≤ infMag eb fb) (h : a < b) :
    keyValue eb fb a < keyValue eb fb b := by
  unfold keyValue
  rw [if_neg (by omega), if_neg (by omega : ¬ b = -(infMag eb fb : Int))]
  by_cases h1 : a = -(infMag eb fb : Int)
  · rw [if_pos h1]
    split_ifs
    · exact WithBot.bot_lt_coe _
    · exact WithBot.bot_lt_coe _
  · rw [if_neg h1]
    split_ifs
    · exact WithBot.coe_lt_coe.2 (WithTop.coe_lt_top _)
    · refine WithBot.coe_lt_coe.2 (WithTop.coe_lt_coe.2 ?_)
      refine mul_lt_mul_of_pos_right ?_ (zpow_pos (by norm_num) _)
      exact_mod_cast fscaleI_mono fb h

theorem keyValue_le {eb fb : Nat} {a b : Int} (ha : -(infMag eb fb : Int) ≤ a) (ha' : a ≤ infMag eb fb)
    (hb : -(infMag eb fb : Int) ≤ b) (hb' : b ≤ infMag eb fb) : keyValue eb fb a ≤ keyValue eb fb b ↔ a ≤ b := by
  constructor
  · intro h
    by_contra hc
    exact absurd (keyValue_lt hb ha' (not_le.1 hc)) (not_lt.2 h)
  · intro h
    rcases eq_or_lt_of_le h with rfl | h
    · exact le_rfl
    · exact le_of_lt (keyValue_lt ha hb' h)

/-- the value of a pattern by its signed magnitude -/
theorem ieeeValue_eq {eb fb n : Nat} (heb : 1 ≤ eb) (hn : n < 2 ^ (eb + fb + 1)) (hnan : ¬ ieeeNaN eb fb n) :
    ieeeValue eb fb n = keyValue eb fb (if 2 ^ (eb + fb) ≤ n then -((n % 2 ^ (eb + fb) : Nat) : Int) else (n % 2 ^ (eb + fb) : Nat)) ∧
    n % 2 ^ (eb + fb) ≤ infMag eb fb := by
  have hB : 0 < 2 ^ fb := by positivity
  have hE : 1 < 2 ^ eb := Nat.one_lt_two_pow (by omega)
  have hEB : 2 ^ (eb + fb) = 2 ^ eb * 2 ^ fb := pow_add _ _ _
  have he : n % 2 ^ (eb + fb) / 2 ^ fb = ieeeExp eb fb n := by
    unfold ieeeExp
    rw [hEB, mul_comm, Nat.mod_mul_right_div_self]
  have hf : n % 2 ^ (eb + fb) % 2 ^ fb = ieeeFrac fb n := by
    unfold ieeeFrac
    rw [hEB, Nat.mod_mul_left_mod]
  have hneg : ieeeNeg eb fb n ↔ 2 ^ (eb + fb) ≤ n := by
    unfold ieeeNeg
    have hp : 0 < 2 ^ (eb + fb) := by positivity
    rw [pow_succ] at hn
    have hlt : n / 2 ^ (eb + fb) < 2 := (Nat.div_lt_iff_lt_mul hp).2 (by omega)
    rw [Nat.mod_eq_of_lt hlt]
    constructor
    · intro h
      by_contra hc
      rw [Nat.div_eq_of_lt (by omega)] at h
      omega
    · intro h
      have := (Nat.le_div_iff_mul_le hp).2 (by omega : 1 * 2 ^ (eb + fb) ≤ n)
      omega
  have hd := Nat.div_add_mod (n % 2 ^ (eb + fb)) (2 ^ fb)
  have hfl := Nat.mod_lt (n % 2 ^ (eb + fb)) hB
  have hel : ieeeExp eb fb n < 2 ^ eb := Nat.mod_lt _ (by omega)
  rw [he, hf] at hd
  rw [hf] at hfl
  unfold ieeeNaN at hnan
  have hmag : infMag eb fb = 2 ^ fb * (2 ^ eb - 1) := by rw [infMag, mul_comm]
  by_cases hinf : ieeeExp eb fb n = 2 ^ eb - 1
  · have hf0 : ieeeFrac fb n = 0 := by
      by_contra hc
      exact hnan ⟨hinf, hc⟩
    have hm : n % 2 ^ (eb + fb) = infMag eb fb := by rw [← hd, hf0, hinf, hmag, Nat.add_zero]
    refine ⟨?_, by rw [hm]⟩
    have hpos : 0 < infMag eb fb := by rw [hmag]; exact Nat.mul_pos hB (by omega)
    rw [hm]
    unfold ieeeValue keyValue
    rw [if_pos hinf]
    by_cases h : 2 ^ (eb + fb) ≤ n
    · rw [if_pos (hneg.2 h), if_pos h, if_neg (by omega), if_pos rfl]
    · rw [if_neg (mt hneg.1 h), if_neg h, if_pos rfl]
  · have hlt : n % 2 ^ (eb + fb) < infMag eb fb := by
      rw [← hd, hmag]
      have h1 : 2 ^ fb * (ieeeExp eb fb n + 1) ≤ 2 ^ fb * (2 ^ eb - 1) := Nat.mul_le_mul_left _ (by omega)
      rw [Nat.mul_add] at h1
      omega
    refine ⟨?_, hlt.le⟩
    have hq : (if ieeeExp eb fb n = 0 then (ieeeFrac fb n : ℚ) * 2 ^ (1 - (2 ^ (eb - 1) - 1) - fb : ℤ)
        else (2 ^ fb + ieeeFrac fb n) * 2 ^ ((ieeeExp eb fb n : ℤ) - (2 ^ (eb - 1) - 1) - fb)) =
        (fscale fb (n % 2 ^ (eb + fb)) : ℚ) * 2 ^ (1 - (2 ^ (eb - 1) - 1) - fb : ℤ) := by
      unfold fscale
      rw [he, hf]
      split_ifs with h0
      · rfl
      · obtain ⟨k, hk⟩ : ∃ k, ieeeExp eb fb n = k + 1 := ⟨_, (Nat.succ_pred_eq_of_ne_zero h0).symm⟩
        rw [hk]
        push_cast
        rw [show ((k : ℤ) + 1 - (2 ^ (eb - 1) - 1) - fb) = (k : ℤ) + (1 - (2 ^ (eb - 1) - 1) - fb) by ring,
          zpow_add₀ (by norm_num), zpow_natCast]
        ring
    unfold ieeeValue keyValue
    rw [if_neg hinf]
    dsimp only
    rw [hq]
    by_cases h : 2 ^ (eb + fb) ≤ n
    · rw [if_pos (hneg.2 h), if_pos h, if_neg (by omega), if_neg (by omega)]
      congr 2
      unfold fscaleI
      by_cases hz : n % 2 ^ (eb + fb) = 0
      · rw [hz]; simp [fscale_zero]
      · rw [if_pos (by omega), Int.natAbs_neg, Int.natAbs_natCast]
        push_cast
        ring
    · rw [if_neg (mt hneg.1 h), if_neg h, if_neg (by omega), if_neg (by omega)]
      congr 2

theorem ieeeNaN_iff {eb fb n : Nat} (heb : 1 ≤ eb) : ieeeNaN eb fb n ↔ infMag eb fb < n % 2 ^ (eb + fb) := by
  have hB : 0 < 2 ^ fb := by positivity
  have hE : 1 < 2 ^ eb := Nat.one_lt_two_pow (by omega)
  have hEB : 2 ^ (eb + fb) = 2 ^ eb * 2 ^ fb := pow_add _ _ _
  have he : n % 2 ^ (eb + fb) / 2 ^ fb = ieeeExp eb fb n := by
    unfold ieeeExp
    rw [hEB, mul_comm, Nat.mod_mul_right_div_self]
  have hf : n % 2 ^ (eb + fb) % 2 ^ fb = ieeeFrac fb n := by
    unfold ieeeFrac
    rw [hEB, Nat.mod_mul_left_mod]
  have hd := Nat.div_add_mod (n % 2 ^ (eb + fb)) (2 ^ fb)
  have hfl := Nat.mod_lt (n % 2 ^ (eb + fb)) hB
  have hel : ieeeExp eb fb n < 2 ^ eb := Nat.mod_lt _ (by omega)
  rw [he, hf] at hd
  rw [hf] at hfl
  have hmag : infMag eb fb = 2 ^ fb * (2 ^ eb - 1) := by rw [infMag, mul_comm]
  unfold ieeeNaN
  rw [← hd, hmag]
  constructor
  · rintro ⟨h1, h2⟩
    rw [h1]; omega
  · intro h
    have hle : 2 ^ eb - 1 ≤ ieeeExp eb fb n := by
      by_contra hc
      have h1 : 2 ^ fb * (ieeeExp eb fb n + 1) ≤ 2 ^ fb * (2 ^ eb - 1) := Nat.mul_le_mul_left _ (by omega)
      rw [Nat.mul_add] at h1
      omega
    have h2 : ieeeExp eb fb n = 2 ^ eb - 1 := by omega
    rw [h2] at h
    exact ⟨h2, by omega⟩

/-- a width and the matching format -/
structure Fmt (w eb fb : Nat) : Prop where
  width : w = eb + fb + 1
  exp : 1 ≤ eb
  inf : finf w = infMag eb fb

theorem fmt32 : Fmt 32 8 23 := ⟨rfl, by decide, by decide⟩
theorem fmt64 : Fmt 64 11 52 := ⟨rfl, by decide, by decide⟩

theorem Fmt.nan {w eb fb : Nat} (F : Fmt w eb fb) (x : BitVec w) : fnan x = true ↔ ieeeNaN eb fb x.toNat := by
  obtain ⟨rfl, h, i⟩ := F
  rw [ieeeNaN_iff h, fnan, fmag, i, decide_eq_true_iff, Nat.add_sub_cancel]

theorem Fmt.value {w eb fb : Nat} (F : Fmt w eb fb) {x : BitVec w} (hx : fnan x = false) :
    ieeeValue eb fb x.toNat = keyValue eb fb (fkey x) ∧ -(infMag eb fb : Int) ≤ fkey x ∧ fkey x ≤ infMag eb fb := by
  have hl : x.toNat < 2 ^ (eb + fb + 1) := F.width ▸ x.isLt
  have h := ieeeValue_eq F.exp hl (mt (F.nan x).2 (by simp [hx]))
  have e : fkey x = if 2 ^ (eb + fb) ≤ x.toNat then -((x.toNat % 2 ^ (eb + fb) : Nat) : Int) else (x.toNat % 2 ^ (eb + fb) : Nat) := by
    obtain ⟨rfl, -, -⟩ := F
    unfold fkey fsign fmag
    simp only [Nat.add_sub_cancel, decide_eq_true_iff]
  rw [← e] at h
  refine ⟨h.1, ?_⟩
  rw [e]
  split_ifs <;> omega

theorem Fmt.le {w eb fb : Nat} (F : Fmt w eb fb) {x y : BitVec w} (hx : fnan x = false) (hy : fnan y = false) :
    fkey x ≤ fkey y ↔ ieeeValue eb fb x.toNat ≤ ieeeValue eb fb y.toNat := by
  obtain ⟨h1, h2, h3⟩ := F.value hx
  obtain ⟨h4, h5, h6⟩ := F.value hy
  rw [h1, h4, keyValue_le h2 h3 h5 h6]

theorem Fmt.lt {w eb fb : Nat} (F : Fmt w eb fb) {x y : BitVec w} (hx : fnan x = false) (hy : fnan y = false) :
    fkey x < fkey y ↔ ieeeValue eb fb x.toNat < ieeeValue eb fb y.toNat := by
  rw [← not_le, ← not_le, F.le hy hx]

theorem Fmt.flt_iff {w eb fb : Nat} (F : Fmt w eb fb) (x y : BitVec w) : flt x y = true ↔
    ¬ ieeeNaN eb fb x.toNat ∧ ¬ ieeeNaN eb fb y.toNat ∧ ieeeValue eb fb x.toNat < ieeeValue eb fb y.toNat := by
  rw [← F.nan, ← F.nan]
  simp only [flt, Bool.and_eq_true, Bool.not_eq_true', decide_eq_true_iff, Bool.not_eq_true, and_assoc]
  constructor
  · rintro ⟨h1, h2, h3⟩
    exact ⟨h1, h2, (F.lt h1 h2).1 h3⟩
  · rintro ⟨h1, h2, h3⟩
    exact ⟨h1, h2, (F.lt h1 h2).2 h3⟩

theorem Fmt.fle_iff {w eb fb : Nat} (F : Fmt w eb fb) (x y : BitVec w) : fle x y = true ↔
    ¬ ieeeNaN eb fb x.toNat ∧ ¬ ieeeNaN eb fb y.toNat ∧ ieeeValue eb fb x.toNat ≤ ieeeValue eb fb y.toNat := by
  rw [← F.nan, ← F.nan]
  simp only [fle, Bool.and_eq_true, Bool.not_eq_true', decide_eq_true_iff, Bool.not_eq_true, and_assoc]
  constructor
  · rintro ⟨h1, h2, h3⟩
    exact ⟨h1, h2, (F.le h1 h2).1 h3⟩
  · rintro ⟨h1, h2, h3⟩
    exact ⟨h1, h2, (F.le h1 h2).2 h3⟩

theorem isNaN_ieee (c : Cell) : c.isNaN ↔ c.ieeeNaN := by
  cases c
  · exact (isNaN_w32 _).trans (fmt32.nan _)
  · exact (isNaN_w64 _).trans (fmt64.nan _)
  · exact Iff.rfl
  · exact Iff.rfl

theorem fval_le {ws : Nat} {t : GoType} (ht : t.float = true) {x y : Cell} (hx : HasType ws t x) (hy : HasType ws t y)
    (nx : ¬ x.isNaN) (ny : ¬ y.isNaN) : x.fval ≤ y.fval ↔ x.value ≤ y.value := by
  cases t <;> simp [GoType.float] at ht
  · obtain ⟨a, rfl⟩ := hx
    obtain ⟨b, rfl⟩ := hy
    rw [isNaN_w32] at nx ny
    rw [fval_w32, fval_w32]
    exact fmt32.le (Bool.eq_false_iff.2 nx) (Bool.eq_false_iff.2 ny)
  · obtain ⟨a, rfl⟩ := hx
    obtain ⟨b, rfl⟩ := hy
    rw [isNaN_w64] at nx ny
    rw [fval_w64, fval_w64]
    exact fmt64.le (Bool.eq_false_iff.2 nx) (Bool.eq_false_iff.2 ny)

theorem ascFloat_value {ws : Nat} {t : GoType} (ht : t.float = true) {l : List Cell} (hl : ∀ c ∈ l, HasType ws t c) :
    AscFloat l ↔ (∀ c ∈ l, ¬ c.ieeeNaN) ∧ (l.map Cell.value).Pairwise (· ≤ ·) := by
  unfold AscFloat
  simp only [isNaN_ieee, List.pairwise_map]
  refine and_congr_right fun hn => ?_
  refine List.Pairwise.iff_of_mem fun {x y} hx hy => fval_le ht (hl x hx) (hl y hy) ?_ ?_
  · rw [isNaN_ieee]; exact hn x hx
  · rw [isNaN_ieee]; exact hn y hy

theorem fge_value {ws : Nat} {t : GoType} (ht : t.float = true) {x y : Cell} (hx : HasType ws t x) (hy : HasType ws t y) :
    FGe x y ↔ ¬ x.ieeeNaN ∧ ¬ y.ieeeNaN ∧ y.value ≤ x.value := by
  unfold FGe
  rw [← isNaN_ieee, ← isNaN_ieee]
  exact and_congr_right fun hn => and_congr_right fun hm => fval_le ht hy hx hm hn

end Sorty
