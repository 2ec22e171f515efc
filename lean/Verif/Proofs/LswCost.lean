import Verif.Logic.Cost
import Verif.Proofs.LswJob

/-! # The number of calls of `lsw` -/

namespace Sorty

open Prog

/-- twice the bound for a range of `d + 1` elements -/
def qb (d : Nat) : Nat := d * (d + 47)

theorem qb_split {d d1 d2 : Nat} (h : d1 + d2 + 1 = d) : qb d1 + qb d2 + (2 * d + 46) ≤ qb d := by
  subst h
  unfold qb
  have : (d1 + d2 + 1) * (d1 + d2 + 1 + 47) = d1 * (d1 + 47) + d2 * (d2 + 47) + (2 * (d1 + d2 + 1) + 46) + 2 * (d1 * d2) := by ring
  omega

theorem qi_le_qb (d : Nat) : d * (d + 1) ≤ qb d := Nat.mul_le_mul_left _ (by omega)

/-- the meter for calls of `lsw`, in halves -/
def lmeter (V : Type) : Meter V LSp where
  wa := 0
  wl := 2
  ρ | .part l _ h => (2 * (h - l + 1)).toNat | .long lo hi _ => qb (hi - lo).toNat
  isPart | .part .. => true | .long .. => false
  ok | .part l _ h, v => l ≤ v ∧ v ≤ h + 1 | .long .., _ => True

variable {V Sp : Type} {s : Slice} {C : Conf} {M : Meter V Sp}

/-- no charge for memory accesses, two for a comparison -/
structure Meter.Asks (M : Meter V Sp) : Prop where
  wa : M.wa = 0
  wl : M.wl = 2
  ww : M.ww = 0
  wr : M.wr

theorem cw_rd0 {α : Type} (hM : M.Asks) {i : Int} {f : V → Prog V Sp α} {J : Option Sp} {n : Nat} {Q : α → Option Sp → Nat → Prop} (h : ∀ x, cw M (f x) J n Q) :
    cw M (s.rd i >>= f) J n Q := by
  refine cw.bind ?_
  unfold Slice.rd
  split_ifs
  · refine ⟨by rw [hM.wa]; omega, fun x _ => ?_⟩
    rw [hM.wa]; exact h x
  · trivial

theorem cw_wr0 (hM : M.Asks) {i : Int} {v : V} {J : Option Sp} {n : Nat} {Q : Unit → Option Sp → Nat → Prop} (h : Q () J n) :
    cw M (s.wr i v) J n Q := by
  unfold Slice.wr
  split_ifs
  · refine ⟨⟨hM.wr, by rw [hM.ww]; omega⟩, ?_⟩
    rw [hM.ww]; exact h
  · trivial

theorem cw_lsw' (hM : M.Asks) {i k x y : Int} {J : Option Sp} {n : Nat} {Q : Bool → Option Sp → Nat → Prop} (hn : 2 ≤ n)
    (h : ∀ b, Q b J (n - 2)) : cw M (lsw s i k x y : Prog V Sp Bool) J n Q := by
  unfold lsw
  split
  · refine cw_rd0 hM fun a => cw_rd0 hM fun b => cw.bind ⟨by rw [hM.wl]; exact hn, fun c _ => ?_⟩
    rw [hM.wl]
    cases c with
    | false => exact h false
    | true =>
      show cw M (if true = true then _ else _) J (n - 2) Q
      rw [if_pos rfl]
      dsimp only
      split_ifs
      · refine cw.bind (?_ : cw M (s.swap x y) J (n - 2) _)
        unfold Slice.swap
        exact cw_rd0 hM fun _ => cw_rd0 hM fun _ => cw.bind (cw_wr0 hM (cw_wr0 hM (h true)))
      · exact h true
  · trivial

theorem cw_lsw {α : Type} (hM : M.Asks) {i k x y : Int} {f : Bool → Prog V Sp α} {J : Option Sp} {n : Nat} {Q : α → Option Sp → Nat → Prop} (hn : 2 ≤ n)
    (h : ∀ b, cw M (f b) J (n - 2) Q) : cw M (lsw s i k x y >>= f) J n Q :=
  cw.bind (cw_lsw' hM hn h)

theorem cost_lsw (hM : M.Asks) (i k x y : Int) : Costs M (lsw s i k x y : Prog V Sp Bool) 2 fun _ => True :=
  fun _ _ hn => cw_lsw' hM hn fun _ => ⟨rfl, by omega, trivial⟩

theorem cost_lswInner (hM : M.Asks) {b st h : Int} {j : Nat} (hj : 1 ≤ j) (hh : h ≤ b + j * st) :
    Costs M (lswInner s b st h : Prog V Sp Unit) (2 * j) fun _ => True := by
  intro J n hn
  unfold lswInner
  refine cw.loop (J := J) (fun l k => ∃ i : Nat, 1 ≤ i ∧ l ≤ b + i * st ∧ n + 2 * i ≤ k + 2 * j) ?_ _ _ _ ⟨j, hj, hh, le_rfl⟩
  rintro l k ⟨i, hi, hl, hk⟩
  refine cw_lsw hM (by omega) fun c => ?_
  cases c with
  | false => exact ⟨rfl, rfl, by omega, trivial⟩
  | true =>
    show cw M (if true = true then _ else _) J (k - 2) _
    rw [if_pos rfl]
    dsimp only
    split_ifs with hc
    · exact ⟨rfl, rfl, by omega, trivial⟩
    · refine ⟨rfl, i - 1, ?_, ?_, by omega⟩
      · by_contra h1
        have : i = 1 := by omega
        subst this
        simp at hl; omega
      · have : ((i - 1 : Nat) : Int) * st = i * st - st := by
          rw [Nat.cast_sub hi]; push_cast; ring
        omega

theorem cost_lswInsertion (hM : M.Asks) (lo hi : Int) {d : Nat} (hd : (hi - lo).toNat = d) :
    Costs M (lswInsertion s lo hi : Prog V Sp Unit) (d * (d + 1)) fun _ => True := by
  intro J n hn
  unfold lswInsertion
  refine cw.loop (J := J) (fun h k => ∃ e : Nat, h = lo + 1 + e ∧ n ≤ k + e * (e + 1) ∧ e * (e + 1) ≤ d * (d + 1)) ?_ _ _ _ ⟨0, by simp, by simp, by simp⟩
  rintro h k ⟨e, rfl, hk, he⟩
  split_ifs with hc
  · have h1 : (e + 1) * (e + 1 + 1) ≤ d * (d + 1) := Nat.mul_le_mul (by omega) (by omega)
    have h2 : (e + 1) * (e + 1 + 1) = e * (e + 1) + 2 * (e + 1) := by ring
    refine (cost_lswInner hM (j := e + 1) (by omega) (by push_cast; omega)).seq (by omega) fun _ k' _ hk' => ?_
    exact ⟨rfl, e + 1, by push_cast; ring, by omega, h1⟩
  · exact ⟨rfl, rfl, by omega, trivial⟩

theorem cost_lswPivot (hM : M.Asks) {ws : Nat} (hws : ws = 4 ∨ ws = 8) (hfit : FitsInt ws s.len)
    {lo hi : Int} {n t : Nat} (h0 : 0 ≤ lo) (h1 : hi < s.len) (hn : n = 2 * t + 1) (ht : 2 ≤ t) (ht' : t ≤ 3)
    (hl : 2 * (n : Int) ≤ hi + 1 - lo) :
    Costs M (lswPivot ws s lo hi n : Prog V Sp Int) (n * (n - 1) + 4) fun pv => lo + t ≤ pv ∧ pv + t ≤ hi := by
  have hP : 2 ^ 31 ≤ 2 ^ (8 * ws - 1) := by rcases hws with rfl | rfl <;> norm_num
  have hP' : (2 : Int) ^ (8 * ws - 1) = ((2 ^ (8 * ws - 1) : Nat) : Int) := by push_cast; rfl
  have hwrap : ∀ x : Int, 0 ≤ x → x < 2 ^ (8 * ws - 1) → wrapInt ws x = x := fun x a b =>
    wrapInt_id hws (by rw [hP']; omega) b
  unfold FitsInt at hfit
  unfold lswPivot
  have hb := minMaxSample_bounds (slen := (hi + 1 - lo).toNat) (n := n) (by omega) (by omega)
  have hov := minMaxSample_over (slen := (hi + 1 - lo).toNat) (n := n) (by omega) (by omega)
  have hdiv : (hi + 1 - lo).toNat / n ≤ (hi + 1 - lo).toNat / 5 := Nat.div_le_div_left (by omega) (by norm_num)
  rcases hmm : minMaxSample (hi + 1 - lo).toNat n with ⟨f, st, la⟩
  rw [hmm] at hb hov
  obtain ⟨b1, b2, b3⟩ := hb
  dsimp only at b1 b2 b3 hov ⊢
  have e2 : (la : Int) = f + (2 * t : Int) * st := by
    rw [b2, hn]; push_cast; simp
  have hs : (0 : Int) < st := by omega
  have hlt : ∀ j : Int, 0 ≤ j → j ≤ 2 * t → (0 : Int) ≤ j * st ∧ j * st ≤ 2 * t * st := fun j j0 j1 =>
    ⟨mul_nonneg j0 hs.le, mul_le_mul_of_nonneg_right j1 hs.le⟩
  have t1 := hlt t (by omega) (by omega)
  have t2 : (t : Int) * st + t * st = 2 * t * st := by ring
  have t4 : (t : Int) * 1 ≤ t * st := mul_le_mul_of_nonneg_left (by omega) (by omega)
  have hmean : meanI (lo + f) (lo + la) = lo + f + t * st := by unfold meanI; omega
  have hloop : Costs M (loop (n + 1) (fun h : Int =>
      if h ≤ lo + (la : Int) then do
        lswInner s (lo + f) st h
        pure (.again (wrapInt ws (h + st)))
      else pure (.brk ())) (lo + (f : Int) + st) : Prog V Sp Unit) (n * (n - 1)) fun _ => True := by
    intro J k0 hk0
    refine cw.loop (J := J) (fun h k => ∃ e : Nat, h = lo + f + (e + 1 : Int) * st ∧ e + 1 ≤ n ∧ k0 ≤ k + e * (e + 1)) ?_ _ _ _ ⟨0, by simp, by omega, by simp⟩
    rintro h k ⟨e, rfl, he, hk⟩
    split_ifs with hc
    · have he' : (e : Int) + 1 ≤ 2 * t := by
        have : ((e : Int) + 1) * st ≤ 2 * t * st := by omega
        exact le_of_mul_le_mul_right this hs
      have := hlt (e + 1) (by omega) he'
      have h2 : (e + 1) * (e + 1 + 1) = e * (e + 1) + 2 * (e + 1) := by ring
      have h3 : (e + 1) * (e + 1 + 1) ≤ (n - 1) * n := Nat.mul_le_mul (by omega) (by omega)
      rw [Nat.mul_comm] at h3
      have h4 : n * (n - 1) = (n - 1) * n := Nat.mul_comm _ _
      refine (cost_lswInner hM (j := e + 1) (by omega) (by push_cast; omega)).seq (by nlinarith) fun _ k' _ hk' => ?_
      have e3 : lo + (f : Int) + (e + 1) * st + st = lo + f + ((e + 1 : Nat) + 1 : Int) * st := by push_cast; ring
      have e4 : lo + (f : Int) + (e + 1) * st + st < 2 ^ (8 * ws - 1) := by
        rw [hP']; omega
      refine ⟨rfl, e + 1, ?_, by omega, ?_⟩
      · rw [hwrap _ (by omega) e4, e3]
      · omega
    · refine ⟨rfl, rfl, ?_, trivial⟩
      have h3 : e * (e + 1) ≤ (n - 1) * n := Nat.mul_le_mul (by omega) (by omega)
      have h4 : n * (n - 1) = (n - 1) * n := Nat.mul_comm _ _
      omega
  rw [show n * (n - 1) + 4 = n * (n - 1) + (2 + 2) by omega]
  refine hloop.bind fun _ _ => (cost_lsw hM _ _ _ _).bind fun _ _ => ((cost_lsw hM _ _ _ _).bind (N' := 0) fun _ _ => Costs.pure ?_).weaken (by omega) fun _ h => h
  rw [hmean]
  exact ⟨by omega, by omega⟩

theorem cost_lswShortPivot (hM : M.Asks) (lo hi : Int) : Costs M (lswShortPivot s lo hi : Prog V Sp Int) 10 fun _ => True := by
  unfold lswShortPivot
  dsimp only
  intro J n hn
  refine cw_lsw hM (by omega) fun _ => cw_lsw hM (by omega) fun b => ?_
  have fin : ∀ k, n - 6 ≤ k → cw M (do
      let _ ← lsw s (lo + ((minMaxSample (hi + 1 - lo).toNat 3).1 : Int)) lo (lo + ((minMaxSample (hi + 1 - lo).toNat 3).1 : Int)) lo
      let _ ← lsw s hi (lo + ((minMaxSample (hi + 1 - lo).toNat 3).1 : Int) + ((minMaxSample (hi + 1 - lo).toNat 3).2.1 : Int) + ((minMaxSample (hi + 1 - lo).toNat 3).2.1 : Int)) hi
        (lo + ((minMaxSample (hi + 1 - lo).toNat 3).1 : Int) + ((minMaxSample (hi + 1 - lo).toNat 3).2.1 : Int) + ((minMaxSample (hi + 1 - lo).toNat 3).2.1 : Int))
      pure (lo + ((minMaxSample (hi + 1 - lo).toNat 3).1 : Int) + ((minMaxSample (hi + 1 - lo).toNat 3).2.1 : Int)) : Prog V Sp Int) J k
      fun a J' k => J' = J ∧ n - 10 ≤ k ∧ True := by
    intro k hk
    exact cw_lsw hM (by omega) fun _ => cw_lsw hM (by omega) fun _ => ⟨rfl, by omega, trivial⟩
  cases b with
  | false => exact fin _ (by omega)
  | true =>
    refine cw_lsw hM (by omega) fun _ => ?_
    exact fin _ (by omega)

theorem cost_lswPartOne (hM : M.Asks) {l pv h : Int} (hlh : l ≤ h + 1) :
    Costs M (lswPartOne s l pv h : Prog V Sp Int) (2 * (h - l + 1)).toNat fun k => l ≤ k ∧ k ≤ h + 1 := by
  unfold lswPartOne
  refine Costs.loop (fun st => match st with
      | LP1.head a b => l ≤ a ∧ b ≤ h ∧ a ≤ b + 1
      | LP1.scan a b => l ≤ a ∧ b ≤ h ∧ a < b
      | LP1.second a b => l ≤ a ∧ b ≤ h ∧ a < b) (fun st => match st with
      | LP1.head a b => (2 * (b - a + 1)).toNat
      | LP1.scan a b => (2 * (b - a)).toNat
      | LP1.second a b => (2 * (b - a - 1)).toNat) ?_ _ (LP1.head l h) ⟨le_rfl, le_rfl, hlh⟩
  rintro (⟨a, b⟩ | ⟨a, b⟩ | ⟨a, b⟩) ⟨h1, h2, h3⟩ J n hn
  · unfold lswPartOneStep
    dsimp only at hn ⊢
    split_ifs with hc hc
    · refine cw_lsw hM (by omega) fun c => ?_
      cases c with
      | true => exact ⟨rfl, ⟨h1, h2, hc⟩, by dsimp only; omega⟩
      | false =>
        show cw M (lsw s pv a a a >>= _) J _ _
        refine cw_lsw hM (by omega) fun c => ?_
        cases c with
        | true => exact ⟨rfl, ⟨h1, h2, hc⟩, by dsimp only; omega⟩
        | false => exact ⟨rfl, ⟨by omega, by omega, by omega⟩, by dsimp only; omega⟩
    · refine cw_lsw hM (by omega) fun c => ?_
      cases c with
      | true => exact ⟨rfl, by omega, by omega, by omega⟩
      | false => exact ⟨rfl, by omega, by omega, by omega⟩
    · exact ⟨rfl, by omega, by omega, by omega⟩
  · unfold lswPartOneStep
    dsimp only at hn ⊢
    refine cw_lsw hM (by omega) fun c => ?_
    cases c with
    | true => exact ⟨rfl, ⟨by omega, by omega, by omega⟩, by dsimp only; omega⟩
    | false =>
      show cw M (if a + 1 ≥ b then _ else _) J _ _
      split_ifs with hc
      · exact ⟨rfl, by omega, by omega, by omega⟩
      · exact ⟨rfl, ⟨by omega, by omega, by omega⟩, by dsimp only; omega⟩
  · unfold lswPartOneStep
    dsimp only at hn ⊢
    split_ifs with hc
    · exact ⟨rfl, by omega, by omega, by omega⟩
    · refine cw_lsw hM (by omega) fun c => ?_
      cases c with
      | true => exact ⟨rfl, ⟨by omega, by omega, by omega⟩, by dsimp only; omega⟩
      | false => exact ⟨rfl, ⟨by omega, by omega, by omega⟩, by dsimp only; omega⟩

theorem cw_lswPartTwo (hM : M.Asks) {lo l pv h hi : Int} (h1 : lo ≤ l) (h2 : l < pv) (h3 : pv ≤ h) (h4 : h ≤ hi) (J : Option Sp) (n : Nat)
    (hn : (2 * ((l - lo + 1) + (hi - h + 1) + 1)).toNat ≤ n) :
    cw M (lswPartTwo s lo l pv h hi : Prog V Sp Int) J n fun r J' k => J' = J ∧
      n + (if r < pv then (2 * (r - lo + 1)).toNat else (2 * (hi - r + 1)).toNat) ≤ k + (2 * ((l - lo + 1) + (hi - h + 1) + 1)).toNat ∧
      ((r < pv ∧ lo - 1 ≤ r ∧ r ≤ l) ∨ (pv ≤ r ∧ h ≤ r ∧ r ≤ hi + 1)) := by
  unfold lswPartTwo
  have next : ∀ (a b : Int) (k n' : Nat), lo ≤ a → a ≤ l → h ≤ b → b ≤ hi → n' + (2 * ((a - lo + 1) + (hi - b + 1) - 1)).toNat ≤ k →
      match lswPartTwoNext lo hi a b with
      | .again st => (match st with
        | LP2.head a b => lo ≤ a ∧ a ≤ l ∧ h ≤ b ∧ b ≤ hi
        | LP2.scan a b => lo ≤ a ∧ a ≤ l ∧ h ≤ b ∧ b ≤ hi
        | LP2.second a b => lo ≤ a ∧ a ≤ l ∧ h ≤ b ∧ b ≤ hi) ∧ n' + (match st with
        | LP2.head a b => (2 * ((a - lo + 1) + (hi - b + 1) + 1)).toNat
        | LP2.scan a b => (2 * ((a - lo + 1) + (hi - b + 1))).toNat
        | LP2.second a b => (2 * ((a - lo + 1) + (hi - b + 1) - 1)).toNat) ≤ k
      | .brk r => n' + (if r < pv then (2 * (r - lo + 1)).toNat else (2 * (hi - r + 1)).toNat) ≤ k ∧
          ((r < pv ∧ lo - 1 ≤ r ∧ r ≤ l) ∨ (pv ≤ r ∧ h ≤ r ∧ r ≤ hi + 1)) := by
    intro a b k n' ha hal hb hbh hk
    unfold lswPartTwoNext
    dsimp only
    split_ifs with c1 c2
    · dsimp only
      rw [if_neg (by omega)]
      exact ⟨by omega, by omega⟩
    · dsimp only
      rw [if_pos (by omega)]
      exact ⟨by omega, by omega⟩
    · exact ⟨⟨by omega, by omega, by omega, by omega⟩, by dsimp only; omega⟩
  refine cw.potential (fun st => match st with
      | LP2.head a b => lo ≤ a ∧ a ≤ l ∧ h ≤ b ∧ b ≤ hi
      | LP2.scan a b => lo ≤ a ∧ a ≤ l ∧ h ≤ b ∧ b ≤ hi
      | LP2.second a b => lo ≤ a ∧ a ≤ l ∧ h ≤ b ∧ b ≤ hi) (fun st => match st with
      | LP2.head a b => (2 * ((a - lo + 1) + (hi - b + 1) + 1)).toNat
      | LP2.scan a b => (2 * ((a - lo + 1) + (hi - b + 1))).toNat
      | LP2.second a b => (2 * ((a - lo + 1) + (hi - b + 1) - 1)).toNat)
      (fun r => if r < pv then (2 * (r - lo + 1)).toNat else (2 * (hi - r + 1)).toNat) ?_ _ (LP2.head l h) ⟨h1, le_rfl, le_rfl, h4⟩ J n hn
  rintro (⟨a, b⟩ | ⟨a, b⟩ | ⟨a, b⟩) ⟨g1, g2, g3, g4⟩ J n hn
  · unfold lswPartTwoStep
    dsimp only at hn ⊢
    refine cw_lsw hM (by omega) fun c => ?_
    cases c with
    | true => exact ⟨rfl, ⟨g1, g2, g3, g4⟩, by dsimp only; omega⟩
    | false =>
      show cw M (lsw s pv a a a >>= _) J _ _
      refine cw_lsw hM (by omega) fun c => ?_
      cases c with
      | true => exact ⟨rfl, ⟨g1, g2, g3, g4⟩, by dsimp only; omega⟩
      | false =>
        show cw M (pure (lswPartTwoNext lo hi a b)) J _ _
        have := next a b ((n - 2 - 2) + (2 * ((a - lo + 1) + (hi - b + 1) + 1)).toNat) n g1 g2 g3 g4 (by omega)
        refine ⟨rfl, ?_⟩
        generalize lswPartTwoNext lo hi a b = r at *
        cases r with
        | brk r => exact this
        | again st => cases st <;> exact this
  · unfold lswPartTwoStep
    dsimp only at hn ⊢
    refine cw_lsw hM (by omega) fun c => ?_
    cases c with
    | true =>
      show cw M (pure (lswPartTwoNext lo hi a b)) J _ _
      have := next a b ((n - 2) + (2 * ((a - lo + 1) + (hi - b + 1))).toNat) n g1 g2 g3 g4 (by omega)
      refine ⟨rfl, ?_⟩
      generalize lswPartTwoNext lo hi a b = r at *
      cases r with
      | brk r => exact this
      | again st => cases st <;> exact this
    | false =>
      show cw M (if a - 1 < lo then _ else _) J _ _
      split_ifs with hc
      · refine ⟨rfl, ?_, by omega⟩
        rw [if_neg (by omega)]; omega
      · exact ⟨rfl, ⟨by omega, by omega, by omega, by omega⟩, by dsimp only; omega⟩
  · unfold lswPartTwoStep
    dsimp only at hn ⊢
    split_ifs with hc
    · refine ⟨rfl, ?_, by omega⟩
      rw [if_pos (by omega)]; omega
    · refine cw_lsw hM (by omega) fun c => ?_
      cases c with
      | true =>
        show cw M (pure (lswPartTwoNext lo hi a (b + 1))) J _ _
        have := next a (b + 1) ((n - 2) + (2 * ((a - lo + 1) + (hi - b + 1) - 1)).toNat) n g1 g2 (by omega) (by omega) (by omega)
        refine ⟨rfl, ?_⟩
        generalize lswPartTwoNext lo hi a (b + 1) = r at *
        cases r with
        | brk r => exact this
        | again st => cases st <;> exact this
      | false => exact ⟨rfl, ⟨by omega, by omega, by omega, by omega⟩, by dsimp only; omega⟩

theorem cost_lswGapLow (hM : M.Asks) {lo r k pv : Int} (hr : lo - 1 ≤ r) :
    Costs M (lswGapLow s lo r k pv : Prog V Sp Int) (2 * (r - lo + 1)).toNat fun k' => k - (r - lo + 1) ≤ k' ∧ k' ≤ k := by
  unfold lswGapLow
  refine Costs.loop (fun st : Int × Int × Int => lo - 1 ≤ st.1 ∧ st.1 ≤ r ∧ k - (r - st.1) ≤ st.2.1 ∧ st.2.1 ≤ k)
    (fun st : Int × Int × Int => (2 * (st.1 - lo + 1)).toNat) ?_ _ (r, k, pv) ⟨hr, le_rfl, by simp, le_rfl⟩
  rintro ⟨r', k', pv'⟩ ⟨h1, h2, h3, h4⟩ J n hn
  dsimp only at h1 h2 h3 h4 hn ⊢
  split
  · refine cw_lsw hM (by omega) fun c => ?_
    cases c with
    | true => exact ⟨rfl, ⟨by omega, by omega, by dsimp only; omega, by dsimp only; omega⟩, by dsimp only; omega⟩
    | false => exact ⟨rfl, ⟨by omega, by omega, by dsimp only; omega, by dsimp only; omega⟩, by dsimp only; omega⟩
  · exact ⟨rfl, by omega, by omega, by omega⟩

theorem cost_lswGapHigh (hM : M.Asks) {hi r k pv : Int} (hr : r ≤ hi + 1) :
    Costs M (lswGapHigh s hi r k pv : Prog V Sp Int) (2 * (hi - r + 1)).toNat fun k' => k ≤ k' ∧ k' ≤ k + (hi - r + 1) := by
  unfold lswGapHigh
  refine Costs.loop (fun st : Int × Int × Int => r ≤ st.1 ∧ st.1 ≤ hi + 1 ∧ k ≤ st.2.1 ∧ st.2.1 ≤ k + (st.1 - r))
    (fun st : Int × Int × Int => (2 * (hi - st.1 + 1)).toNat) ?_ _ (r, k, pv) ⟨le_rfl, hr, le_rfl, by simp⟩
  rintro ⟨r', k', pv'⟩ ⟨h1, h2, h3, h4⟩ J n hn
  dsimp only at h1 h2 h3 h4 hn ⊢
  split
  · refine cw_lsw hM (by omega) fun c => ?_
    cases c with
    | true => exact ⟨rfl, ⟨by omega, by omega, by dsimp only; omega, by dsimp only; omega⟩, by dsimp only; omega⟩
    | false => exact ⟨rfl, ⟨by omega, by omega, by dsimp only; omega, by dsimp only; omega⟩, by dsimp only; omega⟩
  · exact ⟨rfl, by omega, by omega, by omega⟩

theorem lmeter_asks : (lmeter V).Asks := ⟨rfl, rfl, rfl, trivial⟩

theorem cw_lswPartCon {ws : Nat} (hws : ws = 4 ∨ ws = 8) (hfit : FitsInt ws s.len) {lo hi : Int} (h0 : 0 ≤ lo) (h1 : hi < s.len)
    (hl : 14 ≤ hi + 1 - lo) (n : Nat) (hn : (46 + 2 * (hi - lo)).toNat ≤ n) :
    cw (lmeter V) (lswPartCon ws s lo hi : Prog V LSp Int) none n fun k J' n' => J' = none ∧ lo + 1 ≤ k ∧ k ≤ hi ∧ n ≤ n' + (46 + 2 * (hi - lo)).toNat := by
  unfold lswPartCon
  refine (cost_lswPivot lmeter_asks hws hfit (t := 3) h0 h1 rfl (by omega) (by omega) (by omega)).seq (by omega) ?_
  rintro pv k ⟨p1, p2⟩ hk
  have hk : n ≤ k + 46 := by omega
  dsimp only
  have hml : meanI (lo + 1) pv < pv ∧ lo + 1 ≤ meanI (lo + 1) pv := by unfold meanI; omega
  have hmh : pv ≤ meanI pv (hi - 1) ∧ meanI pv (hi - 1) ≤ hi - 1 := by unfold meanI; omega
  generalize meanI (lo + 1) pv = l at *
  generalize meanI pv (hi - 1) = h at *
  refine cw.bind (⟨⟨trivial, ?_⟩, ?_⟩ : cw (lmeter V) (Prog.go (.part (l + 1) pv (h - 1)) (.ret ())) none k _)
  · show (2 * (h - 1 - (l + 1) + 1)).toNat ≤ k; omega
  · show cw (lmeter V) (lswPartTwo s (lo + 1) l pv h (hi - 1) >>= _) (some (.part (l + 1) pv (h - 1))) (k - (2 * (h - 1 - (l + 1) + 1)).toNat) _
    refine cw.bind ((cw_lswPartTwo lmeter_asks (by omega) (by omega) (by omega) (by omega) _ _ (by omega)).conseq ?_)
    rintro r J' k' ⟨rfl, hk', hr⟩
    refine cw.bind (p := Prog.recv .ret) ?_
    intro v hv
    have hv : l + 1 ≤ v ∧ v ≤ h - 1 + 1 := hv _ rfl
    show cw (lmeter V) (if r < pv then lswGapLow s (lo + 1) r v pv else lswGapHigh s (hi - 1) r v pv) none k' _
    split_ifs with hc
    · rw [if_pos hc] at hk'
      exact (cost_lswGapLow lmeter_asks (by omega)).cw (by omega) fun a k'' ha hk'' => ⟨rfl, by omega, by omega, by omega⟩
    · rw [if_neg hc] at hk'
      exact (cost_lswGapHigh lmeter_asks (by omega)).cw (by omega) fun a k'' ha hk'' => ⟨rfl, by omega, by omega, by omega⟩

/-- the two ranges after a partition -/
theorem lswSplit_len {lo hi k : Int} (h1 : lo + 1 ≤ k) (h2 : k ≤ hi) :
    ∃ l h lo' hi', lswSplit lo hi k = (l, h, lo', hi', h - l, hi' - lo') ∧ lo ≤ l ∧ l ≤ h ∧ h ≤ hi ∧ lo ≤ lo' ∧ lo' ≤ hi' ∧ hi' ≤ hi ∧
      h - l ≤ hi' - lo' ∧ l ≠ lo' ∧ (h - l).toNat + (hi' - lo').toNat + 1 = (hi - lo).toNat := by
  unfold lswSplit
  dsimp only
  split_ifs with hc
  · exact ⟨lo, k - 1, k, hi, rfl, by omega, by omega, by omega, by omega, by omega, by omega, by omega, by omega, by omega⟩
  · exact ⟨k, hi, lo, k - 1, rfl, by omega, by omega, by omega, by omega, by omega, by omega, by omega, by omega, by omega⟩

theorem cost_lswShort (hM : M.Asks) (hC : 0 < C.maxLenInsFC) : ∀ (f d : Nat) (lo hi : Int), lo + 1 ≤ hi →
    Costs M (lswShort C s f d lo hi : Prog V Sp Unit) (qb (hi - lo).toNat) fun _ => True := by
  intro f
  induction f with
  | zero => intro d lo hi _ J n _; trivial
  | succ f ih =>
    intro d lo hi hlt J n hn
    unfold lswShort
    have hq0 : 2 * (hi - lo).toNat + 46 ≤ qb (hi - lo).toNat := by
      have := qb_split (d1 := (hi - lo).toNat - 1) (d2 := 0) (d := (hi - lo).toNat) (by omega)
      omega
    refine (cost_lswShortPivot hM lo hi).seq (by omega) fun pv k _ hk => ?_
    refine (cost_lswPartOne hM (by omega)).seq (by omega) fun i k' hi' hk' => ?_
    obtain ⟨l, h, lo', hi', he, b1, b2, b3, b4, b5, b6, b7, b8, b9⟩ := lswSplit_len (lo := lo) (hi := hi) (k := i) (by omega) (by omega)
    rw [he]
    dsimp only
    have hq := qb_split b9
    have hk1 : n ≤ k' + (2 * (hi - lo).toNat + 46) := by omega
    by_cases hc : h - l ≥ C.maxLenInsFC
    · rw [if_pos hc]
      cases d with
      | zero => trivial
      | succ d =>
        refine (ih d l h (by omega)).seq (by omega) fun _ k2 _ hk2 => ?_
        exact (ih (d + 1) lo' hi' (by omega)).cw (by omega) fun _ k3 _ hk3 => ⟨rfl, by omega, trivial⟩
    · rw [if_neg hc]
      have q1 := qi_le_qb (h - l).toNat
      have q2 := qi_le_qb (hi' - lo').toNat
      refine cw.bind (cw.loop (J := J) (Q := fun again J' k => J' = J ∧ n ≤ k + (2 * (hi - lo).toNat + 46) + qb (h - l).toNat + (if again = true then 0 else qb (hi' - lo').toNat) ∧
          (again = true → hi' - lo' ≥ C.maxLenInsFC))
        (fun st k => (st = (l, h) ∧ n ≤ k + (2 * (hi - lo).toNat + 46)) ∨
        (st = (lo', hi') ∧ n ≤ k + (2 * (hi - lo).toNat + 46) + qb (h - l).toNat ∧ ¬ (hi' - lo' ≥ C.maxLenInsFC))) ?_ _ _ _ (.inl ⟨rfl, hk1⟩) |>.conseq ?_)
      · rintro st k (⟨rfl, hk⟩ | ⟨rfl, hk, hno⟩)
        · refine (cost_lswInsertion hM l h rfl).seq (by omega) fun _ k2 _ hk2 => ?_
          by_cases hno : hi' - lo' ≥ C.maxLenInsFC
          · rw [if_pos hno]
            exact ⟨rfl, rfl, by rw [if_pos rfl]; omega, fun _ => hno⟩
          · rw [if_neg hno, if_pos (Ne.symm b8)]
            exact ⟨rfl, .inr ⟨rfl, by omega, hno⟩⟩
        · refine (cost_lswInsertion hM lo' hi' rfl).seq (by omega) fun _ k2 _ hk2 => ?_
          rw [if_neg hno, if_neg (by simp)]
          exact ⟨rfl, rfl, by rw [if_neg (by simp)]; omega, by simp⟩
      · rintro again J' k2 ⟨rfl, hk2, hag⟩
        cases again with
        | false =>
          rw [if_neg (by simp)] at hk2
          exact ⟨rfl, by omega, trivial⟩
        | true =>
          rw [if_pos rfl] at hk2
          have := hag rfl
          exact (ih d lo' hi' (by omega)).cw (by omega) fun _ k3 _ hk3 => ⟨rfl, by omega, trivial⟩

theorem cw_lswLong (hw : C.wordSize = 4 ∨ C.wordSize = 8) (hfit : FitsInt C.wordSize s.len) (hi8 : 8 < C.maxLenInsFC) (hr : 2 * C.maxLenInsFC < C.maxLenRecFC) :
    ∀ (f d : Nat) (lo hi : Int) (sv : Bool), 0 ≤ lo → hi < s.len → C.maxLenRecFC ≤ hi - lo → ∀ n, qb (hi - lo).toNat ≤ n →
    cw (lmeter V) (lswLong C s f d lo hi sv : Prog V LSp Unit) none n fun _ J' k => J' = none ∧ n ≤ k + qb (hi - lo).toNat := by
  intro f
  induction f with
  | zero => intro d lo hi sv _ _ _ n _; trivial
  | succ f ih =>
    intro d lo hi sv h0 h1 hl n hn
    unfold lswLong
    have hq0 : 2 * (hi - lo).toNat + 46 ≤ qb (hi - lo).toNat := by
      have := qb_split (d1 := (hi - lo).toNat - 1) (d2 := 0) (d := (hi - lo).toNat) (by omega)
      omega
    refine (cost_lswPivot lmeter_asks hw hfit (t := 2) h0 h1 rfl le_rfl (by omega) (by omega)).seq (by omega) ?_
    rintro pv k ⟨p1, p2⟩ hk
    have hk : n ≤ k + 24 := by omega
    refine (cost_lswPartOne lmeter_asks (by omega)).seq (by omega) fun i k' hi' hk' => ?_
    obtain ⟨l, h, lo', hi', he, b1, b2, b3, b4, b5, b6, b7, b8, b9⟩ := lswSplit_len (lo := lo) (hi := hi) (k := i) (by omega) (by omega)
    rw [he]
    dsimp only
    have hq := qb_split b9
    have hk1 : n ≤ k' + (2 * (hi - lo).toNat + 46) := by omega
    clear hk hk'
    by_cases hc : h - l < C.maxLenRecFC
    · rw [if_pos hc]
      have rest : ∀ k2, n ≤ k2 + (2 * (hi - lo).toNat + 46) + qb (h - l).toNat →
          cw (lmeter V) (if hi' - lo' ≥ C.maxLenRecFC then lswLong C s f d lo' hi' sv
            else match d with
              | 0 => .overflow
              | d + 1 => lswShort C s f d lo' hi' : Prog V LSp Unit) none k2 fun _ J' k => J' = none ∧ n ≤ k + qb (hi - lo).toNat := by
        intro k2 hk2
        split_ifs with hc2
        · exact (ih d lo' hi' sv (by omega) (by omega) hc2 k2 (by omega)).conseq fun _ J' k3 ⟨h1, h2⟩ => ⟨h1, by omega⟩
        · cases d with
          | zero => trivial
          | succ d =>
            exact (cost_lswShort lmeter_asks (by omega) f d lo' hi' (by omega)).cw (by omega) fun _ k3 _ hk3 => ⟨rfl, by omega⟩
      by_cases hc1 : h - l ≥ C.maxLenInsFC
      · rw [if_pos hc1]
        cases d with
        | zero => trivial
        | succ d =>
          exact (cost_lswShort lmeter_asks (by omega) f d l h (by omega)).seq (by omega) fun _ k2 _ hk2 => rest k2 (by omega)
      · rw [if_neg hc1]
        have := qi_le_qb (h - l).toNat
        exact (cost_lswInsertion lmeter_asks l h rfl).seq (by omega) fun _ k2 _ hk2 => rest k2 (by omega)
    · rw [if_neg hc]
      have both : ∀ full : Bool, cw (lmeter V) (if full = true then do
            match d with
            | 0 => .overflow
            | d + 1 => lswLong C s f d l h sv
            lswLong C s f d lo' hi' sv
          else do
            let _ ← .incGor .ret
            .go (.long lo' hi' f) (.ret ())
            lswLong C s f d l h sv : Prog V LSp Unit) none k' fun _ J' k => J' = none ∧ n ≤ k + qb (hi - lo).toNat := by
        intro full
        split_ifs with hfull
        · cases d with
          | zero => trivial
          | succ d =>
            refine cw.bind ((ih d l h sv (by omega) (by omega) (by omega) k' (by omega)).conseq ?_)
            rintro _ J' k2 ⟨rfl, hk2⟩
            exact (ih (d + 1) lo' hi' sv (by omega) (by omega) (by omega) k2 (by omega)).conseq fun _ J' k3 ⟨h1, h2⟩ => ⟨h1, by omega⟩
        · intro x
          refine ⟨⟨trivial, ?_⟩, ?_⟩
          · show qb (hi' - lo').toNat ≤ k'; omega
          · show cw (lmeter V) (lswLong C s f d l h sv) none (k' - qb (hi' - lo').toNat) _
            exact (ih d l h sv (by omega) (by omega) (by omega) _ (by omega)).conseq fun _ J' k3 ⟨h1, h2⟩ => ⟨h1, by omega⟩
      cases sv with
      | false => exact both true
      | true => exact fun mg x => both _

theorem cw_lswBody (hw : C.wordSize = 4 ∨ C.wordSize = 8) (hfit : FitsInt C.wordSize s.len) (hi8 : 8 < C.maxLenInsFC) (hr : 2 * C.maxLenInsFC < C.maxLenRecFC)
    {sp : LSp} (hp : match sp with
      | .part l _ h => l ≤ h + 1
      | .long lo hi _ => 0 ≤ lo ∧ hi < s.len ∧ C.maxLenRecFC ≤ hi - lo) :
    cw (lmeter V) (lswBody C s sp : Prog V LSp Unit) none ((lmeter V).ρ sp) fun _ _ _ => True := by
  cases sp with
  | part l pv h =>
    refine (cost_lswPartOne lmeter_asks hp).seq le_rfl fun k _ _ _ => ?_
    trivial
  | long lo hi f =>
    obtain ⟨h0, h1, h2⟩ := hp
    refine cw.bind ((cw_lswLong hw hfit hi8 hr f C.depth lo hi true h0 h1 h2 _ le_rfl).conseq ?_)
    intro _ _ _ _ x
    show cw (lmeter V) (if x = 0 then _ else _) _ _ _
    split_ifs <;> trivial

theorem cw_lswSortLoop (hw : C.wordSize = 4 ∨ C.wordSize = 8) (hfit : FitsInt C.wordSize s.len) (hi8 : 8 < C.maxLenInsFC) (hr : 2 * C.maxLenInsFC < C.maxLenRecFC) :
    ∀ (f : Nat) (lo hi : Int), 0 ≤ lo → hi < s.len → 2 * C.maxLenRecFC < hi - lo → ∀ n, qb (hi - lo).toNat ≤ n →
    cw (lmeter V) (lswSortLoop C s f lo hi : Prog V LSp Unit) none n fun _ _ _ => True := by
  intro f
  induction f with
  | zero => intro lo hi _ _ _ n _; trivial
  | succ f ih =>
    intro lo hi h0 h1 hl n hn
    unfold lswSortLoop
    have hq0 : 2 * (hi - lo).toNat + 46 ≤ qb (hi - lo).toNat := by
      have := qb_split (d1 := (hi - lo).toNat - 1) (d2 := 0) (d := (hi - lo).toNat) (by omega)
      omega
    refine cw.bind ((cw_lswPartCon hw hfit h0 h1 (by omega) n (by omega)).conseq ?_)
    rintro i J' k ⟨rfl, i1, i2, hk⟩
    obtain ⟨l, h, lo', hi', he, b1, b2, b3, b4, b5, b6, b7, b8, b9⟩ := lswSplit_len (lo := lo) (hi := hi) (k := i) (by omega) (by omega)
    rw [he]
    dsimp only
    have hq := qb_split b9
    have rest : ∀ k2, qb (hi' - lo').toNat ≤ k2 → cw (lmeter V) (do
        let stop ← if hi' - lo' ≤ 2 * C.maxLenRecFC then pure true else gorFull
        if stop then do
          lswLong C s f C.depth lo' hi' true
          let n ← .decGor .ret
          if n ≠ 0 then do
            let _ ← .recv .ret
            pure ()
          else pure ()
        else lswSortLoop C s f lo' hi' : Prog V LSp Unit) none k2 fun _ _ _ => True := by
      intro k2 hk2
      have long : cw (lmeter V) (do
          lswLong C s f C.depth lo' hi' true
          let n ← .decGor .ret
          if n ≠ 0 then do
            let _ ← .recv .ret
            pure ()
          else pure () : Prog V LSp Unit) none k2 fun _ _ _ => True := by
        refine cw.bind ((cw_lswLong hw hfit hi8 hr f C.depth lo' hi' true (by omega) (by omega) (by omega) _ hk2).conseq ?_)
        intro _ _ _ _ x
        show cw (lmeter V) (if x ≠ 0 then _ else _) _ _ _
        split_ifs
        · intro v _; trivial
        · trivial
      by_cases hc : hi' - lo' ≤ 2 * C.maxLenRecFC
      · rw [if_pos hc]; exact long
      · rw [if_neg hc]
        intro mg x
        show cw (lmeter V) (if decide (x ≥ mg) = true then _ else _) none k2 _
        split_ifs
        · exact long
        · exact ih lo' hi' (by omega) (by omega) (by omega) k2 hk2
    by_cases hc1 : h - l ≥ C.maxLenRecFC
    · rw [if_pos hc1]
      intro x
      refine ⟨⟨trivial, ?_⟩, ?_⟩
      · show qb (h - l).toNat ≤ k; omega
      · exact rest (k - qb (h - l).toNat) (by omega)
    rw [if_neg hc1]
    by_cases hc2 : h - l ≥ C.maxLenInsFC
    · rw [if_pos hc2]
      exact (cost_lswShort lmeter_asks (by omega) f C.depth l h (by omega)).seq (by omega) fun _ k2 _ hk2 => rest k2 (by omega)
    · rw [if_neg hc2]
      have := qi_le_qb (h - l).toNat
      exact (cost_lswInsertion lmeter_asks l h rfl).seq (by omega) fun _ k2 _ hk2 => rest k2 (by omega)

theorem cw_SortLsw (hw : C.wordSize = 4 ∨ C.wordSize = 8) (hfit : FitsInt C.wordSize s.len) (hi8 : 8 < C.maxLenInsFC) (hr : 2 * C.maxLenInsFC < C.maxLenRecFC) :
    cw (lmeter V) (SortLsw C s.len s : Prog V LSp Unit) none (qb (s.len - 1)) fun _ _ _ => True := by
  unfold SortLsw
  dsimp only
  have hwr : wrapInt C.wordSize ((s.len : Int) - 1) = (s.len : Int) - 1 := by
    have hp : (0 : Int) < 2 ^ (8 * C.wordSize - 1) := by positivity
    have : (11 * ((s.len : Nat) + 8) : Int) ≤ 10 * 2 ^ (8 * C.wordSize - 1) := by exact_mod_cast hfit
    exact wrapInt_id hw (by omega) (by omega)
  rw [hwr]
  have ht : ((s.len : Int) - 1 - 0).toNat = s.len - 1 := by omega
  have single : cw (lmeter V) (if (s.len : Int) - 1 ≥ C.maxLenRecFC then lswLong C s ((s.len : Int) - 1 + 1).toNat C.depth 0 ((s.len : Int) - 1) false
      else if (s.len : Int) - 1 ≥ C.maxLenInsFC then lswShort C s ((s.len : Int) - 1 + 1).toNat C.depth 0 ((s.len : Int) - 1)
      else if (s.len : Int) - 1 > 0 then lswInsertion s 0 ((s.len : Int) - 1)
      else pure () : Prog V LSp Unit) none (qb (s.len - 1)) fun _ _ _ => True := by
    split_ifs with h1 h2 h3
    · exact (cw_lswLong hw hfit hi8 hr _ _ _ _ _ le_rfl (by omega) (by omega) _ (by rw [ht])).conseq fun _ _ _ _ => trivial
    · exact (cost_lswShort lmeter_asks (by omega) _ _ _ _ (by omega)).cw (by rw [ht]) fun _ _ _ _ => trivial
    · have := qi_le_qb (s.len - 1)
      exact (cost_lswInsertion lmeter_asks _ _ rfl).cw (by rw [ht]; exact this) fun _ _ _ _ => trivial
    · trivial
  by_cases hc : (s.len : Int) - 1 ≤ 2 * C.maxLenRecFC
  · rw [if_pos hc]; exact single
  · rw [if_neg hc]
    intro mg
    show cw (lmeter V) (if decide (mg ≤ 1) = true then _ else _) none _ _
    split
    · exact single
    · exact cw_lswSortLoop hw hfit hi8 hr _ 0 _ le_rfl (by omega) (by omega) _ (by rw [ht])

theorem jsOf_start {P : Par V Sp} {S : Spec V Sp} {I : IPar V Sp} {p : Prog V Sp Unit} {m : Mem V} {ts : List (Th V Sp)}
    (h : Inv P S I (start p m) ts) : jsOf ts = [none] := by
  have h1 := h.nosync rfl
  obtain ⟨t, rfl⟩ := List.length_eq_one_iff.1 h1
  have hc : t.2.C = false := h.cflag t (by simp)
  have ok := h.ok t (by simp)
  have hm := (ok.c_false hc)
  have hj : t.2.J = none := by
    by_contra hj
    have := (ok.j hj).2.2.1
    rw [hm.2.2.2] at this; cases this
  show [(t.2.J.map Prod.fst : Option Sp)] = [none]
  rw [hj]; rfl

/-- scaling the meter scales the reading -/
theorem CSteps.scale {P : Par V Sp} {w : Prog V Sp Unit → Nat} {c0 c : Cfg V Sp} {n : Nat} (a : Nat) (h : CSteps P w c0 c n) :
    CSteps P (fun p => a * w p) c0 c (a * n) := by
  induction h with
  | refl => exact .refl
  | tau _ ht ih => rw [Nat.mul_add]; exact ih.tau ht
  | commSR _ hs ih => exact ih.commSR hs
  | commRS _ hs ih => exact ih.commRS hs

theorem sort_metered {ρ : Type} [LinearOrder ρ] {cmp : Cmp V} {r : V → ρ} {any : Bool} (hL : LOKG C s cmp r any) (hd : DepthFor C.depth s.len) {M : Nat} {stale : Prop}
    {m : Mem V} {c : Cfg V LSp} {n : Nat} (h : CSteps (lswPar C s cmp M stale) Prog.asks (start (SortLsw C s.len s) m) c n) :
    2 * n ≤ qb (s.len - 1) := by
  obtain ⟨ts, h0⟩ := lsw_start hL (m := m) hd M stale
  have hw : (fun p : Prog V LSp Unit => 2 * p.asks) = (lmeter V).w := by
    funext p; cases p <;> rfl
  refine Inv.metered_le (lsw_hyp hL m M stale) ⟨ts, h0, jsOf_start h0⟩ ⟨fun _ => trivial, fun _ _ _ => trivial, fun _ _ _ _ _ _ => trivial⟩ ?_ ?_ ?_ (cw_SortLsw hL.word hL.fits hL.ins hL.recOK) (hw ▸ h.scale 2)
  · funext sp; cases sp <;> rfl
  · rintro (⟨l, pv, h⟩ | ⟨lo, hi, f⟩) m v m' hp
    · cases any with
      | false =>
        obtain ⟨_, _, _, _, hp⟩ := hp
        exact ⟨hp.k0, hp.k1⟩
      | true => exact ⟨hp.1, hp.2.1⟩
    · trivial
  · rintro (⟨l, pv, h⟩ | ⟨lo, hi, f⟩) m - hp
    · refine cw_lswBody (sp := .part l pv h) hL.word hL.fits hL.ins hL.recOK ?_
      cases any with
      | false => exact hp.2.1
      | true =>
        have := hp.2.2.1
        have := hp.2.2.2
        show l ≤ h + 1
        omega
    · exact cw_lswBody (sp := .long lo hi f) hL.word hL.fits hL.ins hL.recOK ⟨hp.1, hp.2.1, hp.2.2.1⟩

end Sorty
