import Verif.Proofs.LswCost

/-! # Sort on ascending input -/

namespace Sorty

open Prog

variable {V Sp α : Type} {cmp : Cmp V} {m0 : Mem V} {s : Slice} {C : Conf} {M : Meter V Sp}

/-- no later element is ever said to be less than an earlier one, or than itself -/
def Up (cmp : Cmp V) (m0 : Mem V) (s : Slice) : Prop :=
  ∀ i j : Int, 0 ≤ i → i ≤ j → j < s.len → ¬ cmp j.toNat i.toNat (s.E m0 j) (s.E m0 i) true

/-- a meter for comparisons that knows the memory, which does not change -/
structure Meter.Still (M : Meter V Sp) (cmp : Cmp V) (m0 : Mem V) : Prop where
  wa : M.wa = 0
  wl : M.wl = 1
  rd : ∀ i x, M.rd i x → x = m0 i
  cmp : ∀ i j x y b, M.cmp i j x y b → cmp i j x y b

theorem cw_lswq (hM : M.Still cmp m0) (hu : Up cmp m0 s) {i k x y : Int} {f : Bool → Prog V Sp α} {J : Option Sp} {n : Nat} {Q : α → Option Sp → Nat → Prop}
    (hn : 1 ≤ n) (hxy : k ≤ i ∨ x = y) (hf : cw M (f false) J (n - 1) Q) (ht : i < k → cw M (f true) J (n - 1) Q) :
    cw M (lsw s i k x y >>= f) J n Q := by
  refine cw.bind ?_
  unfold lsw
  split
  · rename_i hb
    have rd : ∀ {β : Type} {i : Int} {g : V → Prog V Sp β} {Q : β → Option Sp → Nat → Prop}, 0 ≤ i ∧ i < s.len → cw M (g (s.E m0 i)) J n Q →
        cw M (s.rd i >>= g) J n Q := by
      intro β i g Q hi h
      refine cw.bind ?_
      unfold Slice.rd
      rw [if_pos hi]
      refine ⟨by rw [hM.wa]; omega, fun x hx => ?_⟩
      have hx := hM.rd _ _ hx
      subst hx
      rw [hM.wa]; exact h
    refine rd hb.1 (rd hb.2.1 (cw.bind ⟨by rw [hM.wl]; exact hn, fun c hc => ?_⟩))
    rw [hM.wl]
    cases c with
    | false => exact hf
    | true =>
      have hik : i < k := by
        by_contra h
        exact hu k i hb.2.1.1 (by omega) hb.1.2 (hM.cmp _ _ _ _ _ hc)
      have : x = y := by omega
      subst this
      simp only [ne_eq, not_true_eq_false, if_false]
      exact ht hik
  · trivial

theorem quiet_lswInner (hM : M.Still cmp m0) (hu : Up cmp m0 s) {b st h : Int} (hs : 0 ≤ st) :
    Costs M (lswInner s b st h : Prog V Sp Unit) 1 fun _ => True := by
  unfold lswInner
  refine Costs.loop (fun _ : Int => True) (fun _ => 1) ?_ _ _ trivial
  intro l _ J n hn
  exact cw_lswq hM hu hn (by omega) ⟨rfl, by omega, trivial⟩ fun h => by omega

theorem quiet_lswInsertion (hM : M.Still cmp m0) (hu : Up cmp m0 s) (lo hi : Int) :
    Costs M (lswInsertion s lo hi : Prog V Sp Unit) (hi - lo).toNat fun _ => True := by
  unfold lswInsertion
  refine (Costs.loop (fun _ : Int => True) (fun h : Int => (hi + 1 - h).toNat) ?_ _ _ trivial).weaken (by omega) fun _ h => h
  intro h _ J n hn
  split
  · exact (quiet_lswInner hM hu (by omega)).seq (by omega) fun _ k _ hk => ⟨rfl, trivial, by omega⟩
  · exact ⟨rfl, by omega, trivial⟩

/-- the samples lie symmetrically -/
theorem minMaxSample_mid {slen n : Nat} (hn : 2 ≤ n) (hs : 2 * n ≤ slen) :
    2 * (minMaxSample slen n).1 + (n - 1) * (minMaxSample slen n).2.1 ≤ slen ∧
    slen ≤ 2 * (minMaxSample slen n).1 + (n - 1) * (minMaxSample slen n).2.1 + 1 := by
  obtain ⟨-, b2, b3⟩ := minMaxSample_bounds hn hs
  revert b2 b3
  unfold minMaxSample
  dsimp only
  split
  · dsimp only
    rw [Nat.mul_add, Nat.mul_one]
    omega
  · dsimp only
    omega

theorem quiet_lswPivot (hM : M.Still cmp m0) (hu : Up cmp m0 s) {ws : Nat} (hws : ws = 4 ∨ ws = 8) (hfit : FitsInt ws s.len)
    {lo hi : Int} {n t : Nat} (h0 : 0 ≤ lo) (h1 : hi < s.len) (hn : n = 2 * t + 1) (ht : 2 ≤ t) (ht' : t ≤ 3)
    (hl : 2 * (n : Int) ≤ hi + 1 - lo) :
    Costs M (lswPivot ws s lo hi n : Prog V Sp Int) (n + 1) fun pv => lo + hi ≤ 2 * pv ∧ 2 * pv ≤ lo + hi + 1 := by
  have hP : 2 ^ 31 ≤ 2 ^ (8 * ws - 1) := by rcases hws with rfl | rfl <;> norm_num
  have hP' : (2 : Int) ^ (8 * ws - 1) = ((2 ^ (8 * ws - 1) : Nat) : Int) := by push_cast; rfl
  have hwrap : ∀ x : Int, 0 ≤ x → x < 2 ^ (8 * ws - 1) → wrapInt ws x = x := fun x a b =>
    wrapInt_id hws (by rw [hP']; omega) b
  unfold FitsInt at hfit
  unfold lswPivot
  have hb := minMaxSample_bounds (slen := (hi + 1 - lo).toNat) (n := n) (by omega) (by omega)
  have hov := minMaxSample_over (slen := (hi + 1 - lo).toNat) (n := n) (by omega) (by omega)
  have hmid := minMaxSample_mid (slen := (hi + 1 - lo).toNat) (n := n) (by omega) (by omega)
  have hdiv : (hi + 1 - lo).toNat / n ≤ (hi + 1 - lo).toNat / 5 := Nat.div_le_div_left (by omega) (by norm_num)
  rcases hmm : minMaxSample (hi + 1 - lo).toNat n with ⟨f, st, la⟩
  rw [hmm] at hb hov hmid
  obtain ⟨b1, b2, b3⟩ := hb
  dsimp only at b1 b2 b3 hov hmid ⊢
  have e2 : (la : Int) = f + (2 * t : Int) * st := by
    rw [b2, hn]; push_cast; simp
  have e3 : ((n - 1) * st : Nat) = la - f := by omega
  rw [e3] at hmid
  have hs : (0 : Int) < st := by omega
  have hlt : ∀ j : Int, 0 ≤ j → j ≤ 2 * t → (0 : Int) ≤ j * st ∧ j * st ≤ 2 * t * st := fun j j0 j1 =>
    ⟨mul_nonneg j0 hs.le, mul_le_mul_of_nonneg_right j1 hs.le⟩
  have t1 := hlt t (by omega) (by omega)
  have t2 : (t : Int) * st + t * st = 2 * t * st := by ring
  have hmean : meanI (lo + f) (lo + la) = lo + f + t * st := by unfold meanI; omega
  have hloop : Costs M (loop (n + 1) (fun h : Int =>
      if h ≤ lo + (la : Int) then do
        lswInner s (lo + f) st h
        pure (.again (wrapInt ws (h + st)))
      else pure (.brk ())) (lo + (f : Int) + st) : Prog V Sp Unit) (n - 1) fun _ => True := by
    intro J k0 hk0
    refine cw.loop (J := J) (fun h k => ∃ e : Nat, h = lo + f + (e + 1 : Int) * st ∧ e + 1 ≤ n ∧ k0 ≤ k + e) ?_ _ _ _ ⟨0, by simp, by omega, by simp⟩
    rintro h k ⟨e, rfl, he, hk⟩
    split_ifs with hc
    · have he' : (e : Int) + 1 ≤ 2 * t := by
        have : ((e : Int) + 1) * st ≤ 2 * t * st := by omega
        exact le_of_mul_le_mul_right this hs
      have := hlt (e + 1) (by omega) he'
      refine (quiet_lswInner hM hu hs.le).seq (by omega) fun _ k' _ hk' => ?_
      have e3 : lo + (f : Int) + (e + 1) * st + st = lo + f + ((e + 1 : Nat) + 1 : Int) * st := by push_cast; ring
      have e4 : lo + (f : Int) + (e + 1) * st + st < 2 ^ (8 * ws - 1) := by
        rw [hP']; omega
      refine ⟨rfl, e + 1, ?_, by omega, by omega⟩
      rw [hwrap _ (by omega) e4, e3]
    · exact ⟨rfl, rfl, by omega, trivial⟩
  intro J k hk
  refine hloop.seq (by omega) fun _ k' _ hk' => ?_
  refine cw_lswq hM hu (by omega) (by omega) ?_ fun h => by omega
  refine cw_lswq hM hu (by omega) (by omega) ?_ fun h => by omega
  refine ⟨rfl, by omega, ?_⟩
  rw [hmean]
  omega

theorem quiet_lswShortPivot (hM : M.Still cmp m0) (hu : Up cmp m0 s) {lo hi : Int} (hl : 6 ≤ hi + 1 - lo) :
    Costs M (lswShortPivot s lo hi : Prog V Sp Int) 4 fun pv => lo + hi ≤ 2 * pv ∧ 2 * pv ≤ lo + hi + 1 := by
  unfold lswShortPivot
  have hb := minMaxSample_bounds (slen := (hi + 1 - lo).toNat) (n := 3) (by omega) (by omega)
  have hmid := minMaxSample_mid (slen := (hi + 1 - lo).toNat) (n := 3) (by omega) (by omega)
  rcases hmm : minMaxSample (hi + 1 - lo).toNat 3 with ⟨f, st, la⟩
  rw [hmm] at hb hmid
  obtain ⟨b1, b2, b3⟩ := hb
  dsimp only at b1 b2 b3 hmid ⊢
  intro J n hn
  refine cw_lswq hM hu (by omega) (by omega) ?_ fun h => by omega
  refine cw_lswq hM hu (by omega) (by omega) ?_ fun h => by omega
  refine cw_lswq hM hu (by omega) (by omega) ?_ fun h => by omega
  refine cw_lswq hM hu (by omega) (by omega) ?_ fun h => by omega
  exact ⟨rfl, by omega, by omega⟩

theorem quiet_lswPartOne (hM : M.Still cmp m0) (hu : Up cmp m0 s) {l pv h : Int} (hlh : l ≤ h + 1) :
    Costs M (lswPartOne s l pv h : Prog V Sp Int) (h - l + 1).toNat fun k => l ≤ k ∧ k ≤ h + 1 ∧
      (l + h ≤ 2 * k ∨ 2 * pv + 2 ≤ 2 * k) ∧ (2 * k ≤ l + h + 2 ∨ k ≤ pv) := by
  unfold lswPartOne
  refine Costs.loop (fun st => match st with
      | LP1.head a b => l ≤ a ∧ b ≤ h ∧ a ≤ b + 1 ∧ a + b = l + h
      | LP1.scan a b => l ≤ a ∧ b ≤ h ∧ a < b ∧ b < pv ∧ l + h < 2 * b
      | LP1.second a b => l ≤ a ∧ b ≤ h ∧ a < b ∧ pv < a ∧ 2 * a < l + h) (fun st => match st with
      | LP1.head a b => (b - a + 1).toNat
      | LP1.scan a b => (b - a).toNat
      | LP1.second a b => (b - a - 1).toNat) ?_ _ (LP1.head l h) ⟨le_rfl, le_rfl, hlh, rfl⟩
  rintro (⟨a, b⟩ | ⟨a, b⟩ | ⟨a, b⟩) hinv J n hn
  · obtain ⟨h1, h2, h3, h4⟩ := hinv
    unfold lswPartOneStep
    dsimp only at hn ⊢
    split_ifs with hc hc
    · refine cw_lswq hM hu (by omega) (.inr rfl) ?_ fun hlt => ?_
      · show cw M (lsw s pv a a a >>= _) J _ _
        refine cw_lswq hM hu (by omega) (.inr rfl) ?_ fun hlt => ?_
        · exact ⟨rfl, ⟨by omega, by omega, by omega, by omega⟩, by dsimp only; omega⟩
        · exact ⟨rfl, ⟨h1, h2, hc, hlt, by omega⟩, by dsimp only; omega⟩
      · exact ⟨rfl, ⟨h1, h2, hc, hlt, by omega⟩, by dsimp only; omega⟩
    · exact cw_lswq hM hu (by omega) (.inr rfl) ⟨rfl, by omega, by omega, by omega, by omega, by omega⟩ fun hlt => ⟨rfl, by omega, by omega, by omega, by omega, by omega⟩
    · exact ⟨rfl, by omega, by omega, by omega, by omega, by omega⟩
  · obtain ⟨h1, h2, h3, h4, h5⟩ := hinv
    unfold lswPartOneStep
    dsimp only at hn ⊢
    refine cw_lswq hM hu (by omega) (.inl (by omega)) ?_ fun h => by omega
    show cw M (if a + 1 ≥ b then _ else _) J _ _
    split_ifs with hc
    · exact ⟨rfl, by omega, by omega, by omega, by omega, by omega⟩
    · exact ⟨rfl, ⟨by omega, by omega, by omega, by omega, by omega⟩, by dsimp only; omega⟩
  · obtain ⟨h1, h2, h3, h4, h5⟩ := hinv
    unfold lswPartOneStep
    dsimp only at hn ⊢
    split_ifs with hc
    · exact ⟨rfl, by omega, by omega, by omega, by omega, by omega⟩
    · refine cw_lswq hM hu (by omega) (.inl (by omega)) ?_ fun h => by omega
      exact ⟨rfl, ⟨by omega, by omega, by omega, by omega, by omega⟩, by dsimp only; omega⟩

theorem quiet_lswPartTwo (hM : M.Still cmp m0) (hu : Up cmp m0 s) {lo l pv h hi : Int} (h1 : lo ≤ l) (h2 : l < pv) (h3 : pv ≤ h) (h4 : h ≤ hi)
    (J : Option Sp) (n : Nat) (hn : ((l - lo + 1) + (hi - h + 1)).toNat ≤ n) :
    cw M (lswPartTwo s lo l pv h hi : Prog V Sp Int) J n fun r J' k => J' = J ∧
      n + (if r < pv then (r - lo + 1).toNat else (hi - r + 1).toNat) ≤ k + ((l - lo + 1) + (hi - h + 1)).toNat ∧
      ((r < pv ∧ lo - 1 ≤ r ∧ r ≤ l) ∨ (pv ≤ r ∧ h ≤ r ∧ r ≤ hi + 1)) := by
  unfold lswPartTwo
  refine cw.potential (fun st => match st with
      | LP2.head a b => lo ≤ a ∧ a ≤ l ∧ h ≤ b ∧ b ≤ hi
      | _ => False) (fun st => match st with
      | LP2.head a b => ((a - lo + 1) + (hi - b + 1)).toNat
      | _ => 0)
      (fun r => if r < pv then (r - lo + 1).toNat else (hi - r + 1).toNat) ?_ _ (LP2.head l h) ⟨h1, le_rfl, le_rfl, h4⟩ J n hn
  rintro (⟨a, b⟩ | ⟨a, b⟩ | ⟨a, b⟩) hg J n hn
  · obtain ⟨g1, g2, g3, g4⟩ := hg
    unfold lswPartTwoStep
    dsimp only at hn ⊢
    refine cw_lswq hM hu (by omega) (.inr rfl) ?_ fun hlt => by omega
    show cw M (lsw s pv a a a >>= _) J _ _
    refine cw_lswq hM hu (by omega) (.inr rfl) ?_ fun hlt => by omega
    show cw M (pure (lswPartTwoNext lo hi a b)) J _ _
    refine ⟨rfl, ?_⟩
    unfold lswPartTwoNext
    dsimp only
    split_ifs with c1 c2
    · dsimp only
      rw [if_neg (by omega)]
      exact ⟨by omega, by omega⟩
    · dsimp only
      rw [if_pos (by omega)]
      exact ⟨by omega, by omega⟩
    · exact ⟨⟨by omega, by omega, by omega, by omega⟩, by dsimp only; omega⟩
  · exact hg.elim
  · exact hg.elim

theorem quiet_lswGapLow (hM : M.Still cmp m0) (hu : Up cmp m0 s) {lo r k pv : Int} (hr : lo - 1 ≤ r) (hp : r ≤ pv) :
    Costs M (lswGapLow s lo r k pv : Prog V Sp Int) (r - lo + 1).toNat fun k' => k' = k := by
  unfold lswGapLow
  refine Costs.loop (fun st : Int × Int × Int => lo - 1 ≤ st.1 ∧ st.1 ≤ pv ∧ st.2.1 = k ∧ st.2.2 = pv)
    (fun st : Int × Int × Int => (st.1 - lo + 1).toNat) ?_ _ (r, k, pv) ⟨hr, hp, rfl, rfl⟩
  rintro ⟨r', k', pv'⟩ ⟨h1, h2, rfl, rfl⟩ J n hn
  dsimp only at h1 h2 hn ⊢
  split
  · exact cw_lswq hM hu (by omega) (.inl (by omega)) ⟨rfl, ⟨by dsimp only; omega, by dsimp only; omega, rfl, rfl⟩, by dsimp only; omega⟩ fun h => by omega
  · exact ⟨rfl, by omega, rfl⟩

theorem quiet_lswGapHigh (hM : M.Still cmp m0) (hu : Up cmp m0 s) {hi r k pv : Int} (hr : r ≤ hi + 1) (hp : pv ≤ r) :
    Costs M (lswGapHigh s hi r k pv : Prog V Sp Int) (hi - r + 1).toNat fun k' => k' = k := by
  unfold lswGapHigh
  refine Costs.loop (fun st : Int × Int × Int => st.1 ≤ hi + 1 ∧ pv ≤ st.1 ∧ st.2.1 = k ∧ st.2.2 = pv)
    (fun st : Int × Int × Int => (hi - st.1 + 1).toNat) ?_ _ (r, k, pv) ⟨hr, hp, rfl, rfl⟩
  rintro ⟨r', k', pv'⟩ ⟨h1, h2, rfl, rfl⟩ J n hn
  dsimp only at h1 h2 hn ⊢
  split
  · exact cw_lswq hM hu (by omega) (.inl (by omega)) ⟨rfl, ⟨by dsimp only; omega, by dsimp only; omega, rfl, rfl⟩, by dsimp only; omega⟩ fun h => by omega
  · exact ⟨rfl, by omega, rfl⟩

/-! ## The bound -/

/-- calls for a range of `d + 1` ascending elements -/
def lt (d : Nat) : Nat := (d + 1) * (Nat.log2 (d - 1) + 2) - 8

theorem log2_half {a n : Nat} (ha : 0 < a) (h : 2 * a ≤ n) : Nat.log2 a + 1 ≤ Nat.log2 n := by
  rw [Nat.le_log2 (by omega)]
  have := Nat.log2_self_le (n := a) (by omega)
  rw [Nat.pow_succ]; omega

theorem log2_mono {a n : Nat} (h : a ≤ n) : Nat.log2 a ≤ Nat.log2 n := by
  by_cases ha : a = 0
  · subst ha; simp
  rw [Nat.le_log2 (by omega)]
  exact (Nat.log2_self_le ha).trans h

theorem lt_split {d d1 d2 : Nat} (h : d1 + d2 + 1 = d) (hd : 9 ≤ d) (h1 : 2 * d1 ≤ d + 1) (h2 : 2 * d2 ≤ d + 1) : lt d1 + lt d2 + (d + 9) ≤ lt d := by
  unfold lt
  have g1 := log2_half (a := d1 - 1) (n := d - 1) (by omega) (by omega)
  have g2 := log2_half (a := d2 - 1) (n := d - 1) (by omega) (by omega)
  have g3 : 1 ≤ Nat.log2 (d1 - 1) := by rw [Nat.le_log2 (by omega)]; omega
  have g4 : 1 ≤ Nat.log2 (d2 - 1) := by rw [Nat.le_log2 (by omega)]; omega
  have e1 := Nat.mul_le_mul_left (d1 + 1) (show Nat.log2 (d1 - 1) + 2 ≤ Nat.log2 (d - 1) + 1 by omega)
  have e2 := Nat.mul_le_mul_left (d2 + 1) (show Nat.log2 (d2 - 1) + 2 ≤ Nat.log2 (d - 1) + 1 by omega)
  have e3 := Nat.mul_le_mul_left (d1 + 1) (show 3 ≤ Nat.log2 (d1 - 1) + 2 by omega)
  have e4 := Nat.mul_le_mul_left (d2 + 1) (show 3 ≤ Nat.log2 (d2 - 1) + 2 by omega)
  have e5 : (d + 1) * (Nat.log2 (d - 1) + 2) = (d1 + 1) * (Nat.log2 (d - 1) + 1) + (d2 + 1) * (Nat.log2 (d - 1) + 1) + (d + 1) := by
    subst h; ring
  omega

theorem le_lt {d : Nat} (hd : 3 ≤ d) : d ≤ lt d := by
  unfold lt
  have g3 : 1 ≤ Nat.log2 (d - 1) := by rw [Nat.le_log2 (by omega)]; omega
  have e3 := Nat.mul_le_mul_left (d + 1) (show 3 ≤ Nat.log2 (d - 1) + 2 by omega)
  omega

/-- the same for the loop of `Sort`, whose ranges may be less balanced -/
def lu (d : Nat) : Nat := (d + 1) * (Nat.log2 (d - 1) + 8)

theorem lt_le_lu (d : Nat) : lt d ≤ lu d := (Nat.sub_le _ _).trans (Nat.mul_le_mul_left _ (by omega))

theorem lu_split {d d1 d2 : Nat} (h : d1 + d2 + 1 = d) (hd : 30 ≤ d) (h2 : 4 * d2 ≤ 3 * d + 4) : lt d1 + lu d2 + (d + 9) ≤ lu d := by
  have g1 := log2_mono (a := d1 - 1) (n := d - 1) (by omega)
  have g2 := log2_mono (a := d2 - 1) (n := d - 1) (by omega)
  have e1 := Nat.mul_le_mul_left (d1 + 1) (show Nat.log2 (d1 - 1) + 2 ≤ Nat.log2 (d - 1) + 2 by omega)
  have e2 := Nat.mul_le_mul_left (d2 + 1) (show Nat.log2 (d2 - 1) + 8 ≤ Nat.log2 (d - 1) + 8 by omega)
  have e5 : (d + 1) * (Nat.log2 (d - 1) + 8) = (d1 + 1) * (Nat.log2 (d - 1) + 2) + (d2 + 1) * (Nat.log2 (d - 1) + 8) + 6 * (d1 + 1) := by
    subst h; ring
  unfold lt lu
  omega

/-- the meter for ascending input `m0`: `K` for a store, but there are none -/
def lqmeter (cmp : Cmp V) (m0 : Mem V) (K : Nat) : Meter V LSp where
  wa := 0
  wl := 1
  ww := K
  ρ | .part l _ h => (h - l + 1).toNat | .long lo hi _ => lt (hi - lo).toNat
  isPart | .part .. => true | .long .. => false
  ok | .part l _ h, v => l ≤ v ∧ v ≤ h + 1 | .long .., _ => True
  rd := fun i x => x = m0 i
  wr := False
  cmp := cmp

variable {K : Nat}

theorem lqmeter_still : (lqmeter cmp m0 K).Still cmp m0 := ⟨rfl, rfl, fun _ _ h => h, fun _ _ _ _ _ h => h⟩

theorem quiet_lswPartCon (hu : Up cmp m0 s) {ws : Nat} (hws : ws = 4 ∨ ws = 8) (hfit : FitsInt ws s.len) {lo hi : Int} (h0 : 0 ≤ lo) (h1 : hi < s.len)
    (hl : 14 ≤ hi + 1 - lo) (n : Nat) (hn : (hi - lo + 9).toNat ≤ n) :
    cw (lqmeter cmp m0 K) (lswPartCon ws s lo hi : Prog V LSp Int) none n fun k J' n' => J' = none ∧ lo + 1 ≤ k ∧ k ≤ hi ∧
      hi - lo ≤ 4 * (k - lo) ∧ hi - lo ≤ 4 * (hi + 1 - k) ∧ n ≤ n' + (hi - lo + 9).toNat := by
  unfold lswPartCon
  refine (quiet_lswPivot lqmeter_still hu hws hfit (t := 3) h0 h1 rfl (by omega) (by omega) (by omega)).seq (by omega) ?_
  rintro pv k ⟨p1, p2⟩ hk
  have hk : n ≤ k + 8 := by omega
  dsimp only
  have hml : meanI (lo + 1) pv < pv ∧ lo + 1 ≤ meanI (lo + 1) pv ∧ lo + pv ≤ 2 * meanI (lo + 1) pv ∧ 2 * meanI (lo + 1) pv ≤ lo + 1 + pv := by
    unfold meanI; omega
  have hmh : pv ≤ meanI pv (hi - 1) ∧ meanI pv (hi - 1) ≤ hi - 1 ∧ pv + hi - 2 ≤ 2 * meanI pv (hi - 1) ∧ 2 * meanI pv (hi - 1) ≤ pv + hi - 1 := by unfold meanI; omega
  generalize meanI (lo + 1) pv = l at *
  generalize meanI pv (hi - 1) = h at *
  refine cw.bind (⟨⟨trivial, ?_⟩, ?_⟩ : cw (lqmeter cmp m0 K) (Prog.go (.part (l + 1) pv (h - 1)) (.ret ())) none k _)
  · show (h - 1 - (l + 1) + 1).toNat ≤ k; omega
  · show cw (lqmeter cmp m0 K) (lswPartTwo s (lo + 1) l pv h (hi - 1) >>= _) (some (.part (l + 1) pv (h - 1))) (k - (h - 1 - (l + 1) + 1).toNat) _
    refine cw.bind ((quiet_lswPartTwo lqmeter_still hu (by omega) (by omega) (by omega) (by omega) _ _ (by omega)).conseq ?_)
    rintro r J' k' ⟨rfl, hk', hr⟩
    refine cw.bind (p := Prog.recv .ret) ?_
    intro v hv
    have hv : l + 1 ≤ v ∧ v ≤ h - 1 + 1 := hv _ rfl
    show cw (lqmeter cmp m0 K) (if r < pv then lswGapLow s (lo + 1) r v pv else lswGapHigh s (hi - 1) r v pv) none k' _
    split_ifs with hc
    · rw [if_pos hc] at hk'
      refine (quiet_lswGapLow lqmeter_still hu (by omega) (by omega)).cw (by omega) ?_
      rintro a k'' rfl hk''
      exact ⟨rfl, by omega, by omega, by omega, by omega, by omega⟩
    · rw [if_neg hc] at hk'
      refine (quiet_lswGapHigh lqmeter_still hu (by omega) (by omega)).cw (by omega) ?_
      rintro a k'' rfl hk''
      exact ⟨rfl, by omega, by omega, by omega, by omega, by omega⟩

/-- the two ranges after an even partition -/
theorem lswSplit_even {lo hi k : Int} (hl : 9 ≤ hi - lo) (h1 : lo + hi ≤ 2 * k) (h2 : 2 * k ≤ lo + hi + 2) :
    ∃ l h lo' hi', lswSplit lo hi k = (l, h, lo', hi', h - l, hi' - lo') ∧ lo ≤ l ∧ l ≤ h ∧ h ≤ hi ∧ lo ≤ lo' ∧ lo' ≤ hi' ∧ hi' ≤ hi ∧
      h - l ≤ hi' - lo' ∧ l ≠ lo' ∧ (h - l).toNat + (hi' - lo').toNat + 1 = (hi - lo).toNat ∧ 3 ≤ (h - l).toNat ∧
      2 * (h - l).toNat ≤ (hi - lo).toNat + 1 ∧ 2 * (hi' - lo').toNat ≤ (hi - lo).toNat + 1 := by
  obtain ⟨l, h, lo', hi', b0, b1, b2, b3, b4, b5, b6, b7, b8, b9⟩ := lswSplit_len (lo := lo) (hi := hi) (k := k) (by omega) (by omega)
  refine ⟨l, h, lo', hi', b0, b1, b2, b3, b4, b5, b6, b7, b8, b9, ?_⟩
  have : hi' - lo' = k - 1 - lo ∨ hi' - lo' = hi - k := by
    unfold lswSplit at b0
    dsimp only at b0
    split_ifs at b0 <;> simp only [Prod.mk.injEq] at b0 <;> omega
  omega

theorem quiet_lswShort (hM : M.Still cmp m0) (hu : Up cmp m0 s) (hC : 8 < C.maxLenInsFC) : ∀ (f d : Nat) (lo hi : Int), C.maxLenInsFC ≤ hi - lo →
    Costs M (lswShort C s f d lo hi : Prog V Sp Unit) (lt (hi - lo).toNat) fun _ => True := by
  intro f
  induction f with
  | zero => intro d lo hi _ J n _; trivial
  | succ f ih =>
    intro d lo hi hlt J n hn
    unfold lswShort
    have hq0 : (hi - lo).toNat + 9 ≤ lt (hi - lo).toNat := by
      have := lt_split (d1 := (hi - lo).toNat / 2) (d2 := (hi - lo).toNat - 1 - (hi - lo).toNat / 2) (d := (hi - lo).toNat) (by omega) (by omega) (by omega) (by omega)
      omega
    refine (quiet_lswShortPivot hM hu (by omega)).seq (by omega) fun pv k hpv hk => ?_
    refine (quiet_lswPartOne hM hu (by omega)).seq (by omega) fun i k' hi' hk' => ?_
    obtain ⟨l, h, lo', hi', he, b1, b2, b3, b4, b5, b6, b7, b8, b9, b10, b11, b12⟩ := lswSplit_even (lo := lo) (hi := hi) (k := i) (by omega) (by omega) (by omega)
    rw [he]
    dsimp only
    have hq := lt_split b9 (by omega) b11 b12
    have hk1 : n ≤ k' + ((hi - lo).toNat + 9) := by omega
    by_cases hc : h - l ≥ C.maxLenInsFC
    · rw [if_pos hc]
      cases d with
      | zero => trivial
      | succ d =>
        refine (ih d l h hc).seq (by omega) fun _ k2 _ hk2 => ?_
        exact (ih (d + 1) lo' hi' (by omega)).cw (by omega) fun _ k3 _ hk3 => ⟨rfl, by omega, trivial⟩
    · rw [if_neg hc]
      have q1 := le_lt b10
      have q2 := le_lt (d := (hi' - lo').toNat) (by omega)
      refine cw.bind (cw.loop (J := J) (Q := fun again J' k => J' = J ∧ n ≤ k + ((hi - lo).toNat + 9) + lt (h - l).toNat + (if again = true then 0 else lt (hi' - lo').toNat) ∧
          (again = true → hi' - lo' ≥ C.maxLenInsFC))
        (fun st k => (st = (l, h) ∧ n ≤ k + ((hi - lo).toNat + 9)) ∨
        (st = (lo', hi') ∧ n ≤ k + ((hi - lo).toNat + 9) + lt (h - l).toNat ∧ ¬ (hi' - lo' ≥ C.maxLenInsFC))) ?_ _ _ _ (.inl ⟨rfl, hk1⟩) |>.conseq ?_)
      · rintro st k (⟨rfl, hk⟩ | ⟨rfl, hk, hno⟩)
        · refine (quiet_lswInsertion hM hu l h).seq (by omega) fun _ k2 _ hk2 => ?_
          by_cases hno : hi' - lo' ≥ C.maxLenInsFC
          · rw [if_pos hno]
            exact ⟨rfl, rfl, by rw [if_pos rfl]; omega, fun _ => hno⟩
          · rw [if_neg hno, if_pos (Ne.symm b8)]
            exact ⟨rfl, .inr ⟨rfl, by omega, hno⟩⟩
        · refine (quiet_lswInsertion hM hu lo' hi').seq (by omega) fun _ k2 _ hk2 => ?_
          rw [if_neg hno, if_neg (by simp)]
          exact ⟨rfl, rfl, by rw [if_neg (by simp)]; omega, by simp⟩
      · rintro again J' k2 ⟨rfl, hk2, hag⟩
        cases again with
        | false =>
          rw [if_neg (by simp)] at hk2
          exact ⟨rfl, by omega, trivial⟩
        | true =>
          rw [if_pos rfl] at hk2
          have := hag rfl
          exact (ih d lo' hi' this).cw (by omega) fun _ k3 _ hk3 => ⟨rfl, by omega, trivial⟩

theorem quiet_lswLong (hu : Up cmp m0 s) (hw : C.wordSize = 4 ∨ C.wordSize = 8) (hfit : FitsInt C.wordSize s.len) (hi8 : 8 < C.maxLenInsFC) (hr : 2 * C.maxLenInsFC < C.maxLenRecFC) :
    ∀ (f d : Nat) (lo hi : Int) (sv : Bool), 0 ≤ lo → hi < s.len → C.maxLenRecFC ≤ hi - lo → ∀ n, lt (hi - lo).toNat ≤ n →
    cw (lqmeter cmp m0 K) (lswLong C s f d lo hi sv : Prog V LSp Unit) none n fun _ J' k => J' = none ∧ n ≤ k + lt (hi - lo).toNat := by
  intro f
  induction f with
  | zero => intro d lo hi sv _ _ _ n _; trivial
  | succ f ih =>
    intro d lo hi sv h0 h1 hl n hn
    unfold lswLong
    have hq0 : (hi - lo).toNat + 9 ≤ lt (hi - lo).toNat := by
      have := lt_split (d1 := (hi - lo).toNat / 2) (d2 := (hi - lo).toNat - 1 - (hi - lo).toNat / 2) (d := (hi - lo).toNat) (by omega) (by omega) (by omega) (by omega)
      omega
    refine (quiet_lswPivot lqmeter_still hu hw hfit (t := 2) h0 h1 rfl le_rfl (by omega) (by omega)).seq (by omega) ?_
    rintro pv k ⟨p1, p2⟩ hk
    have hk : n ≤ k + 6 := by omega
    refine (quiet_lswPartOne lqmeter_still hu (by omega)).seq (by omega) fun i k' hi' hk' => ?_
    obtain ⟨l, h, lo', hi', he, b1, b2, b3, b4, b5, b6, b7, b8, b9, b10, b11, b12⟩ := lswSplit_even (lo := lo) (hi := hi) (k := i) (by omega) (by omega) (by omega)
    rw [he]
    dsimp only
    have hq := lt_split b9 (by omega) b11 b12
    have hk1 : n ≤ k' + ((hi - lo).toNat + 9) := by omega
    clear hk hk'
    by_cases hc : h - l < C.maxLenRecFC
    · rw [if_pos hc]
      have rest : ∀ k2, n ≤ k2 + ((hi - lo).toNat + 9) + lt (h - l).toNat →
          cw (lqmeter cmp m0 K) (if hi' - lo' ≥ C.maxLenRecFC then lswLong C s f d lo' hi' sv
            else match d with
              | 0 => .overflow
              | d + 1 => lswShort C s f d lo' hi' : Prog V LSp Unit) none k2 fun _ J' k => J' = none ∧ n ≤ k + lt (hi - lo).toNat := by
        intro k2 hk2
        split_ifs with hc2
        · exact (ih d lo' hi' sv (by omega) (by omega) hc2 k2 (by omega)).conseq fun _ J' k3 ⟨h1, h2⟩ => ⟨h1, by omega⟩
        · cases d with
          | zero => trivial
          | succ d =>
            exact (quiet_lswShort lqmeter_still hu hi8 f d lo' hi' (by omega)).cw (by omega) fun _ k3 _ hk3 => ⟨rfl, by omega⟩
      by_cases hc1 : h - l ≥ C.maxLenInsFC
      · rw [if_pos hc1]
        cases d with
        | zero => trivial
        | succ d =>
          exact (quiet_lswShort lqmeter_still hu hi8 f d l h hc1).seq (by omega) fun _ k2 _ hk2 => rest k2 (by omega)
      · rw [if_neg hc1]
        have := le_lt b10
        exact (quiet_lswInsertion lqmeter_still hu l h).seq (by omega) fun _ k2 _ hk2 => rest k2 (by omega)
    · rw [if_neg hc]
      have both : ∀ full : Bool, cw (lqmeter cmp m0 K) (if full = true then do
            match d with
            | 0 => .overflow
            | d + 1 => lswLong C s f d l h sv
            lswLong C s f d lo' hi' sv
          else do
            let _ ← .incGor .ret
            .go (.long lo' hi' f) (.ret ())
            lswLong C s f d l h sv : Prog V LSp Unit) none k' fun _ J' k => J' = none ∧ n ≤ k + lt (hi - lo).toNat := by
        intro full
        split_ifs with hfull
        · cases d with
          | zero => trivial
          | succ d =>
            refine cw.bind ((ih d l h sv (by omega) (by omega) (by omega) k' (by omega)).conseq ?_)
            rintro _ J' k2 ⟨rfl, hk2⟩
            exact (ih (d + 1) lo' hi' sv (by omega) (by omega) (by omega) k2 (by omega)).conseq fun _ J' k3 ⟨h1, h2⟩ => ⟨h1, by omega⟩
        · intro x
          refine ⟨⟨trivial, ?_⟩, ?_⟩
          · show lt (hi' - lo').toNat ≤ k'; omega
          · show cw (lqmeter cmp m0 K) (lswLong C s f d l h sv) none (k' - lt (hi' - lo').toNat) _
            exact (ih d l h sv (by omega) (by omega) (by omega) _ (by omega)).conseq fun _ J' k3 ⟨h1, h2⟩ => ⟨h1, by omega⟩
      cases sv with
      | false => exact both true
      | true => exact fun mg x => both _

theorem quiet_lswBody (hu : Up cmp m0 s) (hw : C.wordSize = 4 ∨ C.wordSize = 8) (hfit : FitsInt C.wordSize s.len) (hi8 : 8 < C.maxLenInsFC) (hr : 2 * C.maxLenInsFC < C.maxLenRecFC)
    {sp : LSp} (hp : match sp with
      | .part l _ h => l ≤ h + 1
      | .long lo hi _ => 0 ≤ lo ∧ hi < s.len ∧ C.maxLenRecFC ≤ hi - lo) :
    cw (lqmeter cmp m0 K) (lswBody C s sp : Prog V LSp Unit) none ((lqmeter cmp m0 K).ρ sp) fun _ _ _ => True := by
  cases sp with
  | part l pv h =>
    refine (quiet_lswPartOne lqmeter_still hu hp).seq le_rfl fun k _ _ _ => ?_
    trivial
  | long lo hi f =>
    obtain ⟨h0, h1, h2⟩ := hp
    refine cw.bind ((quiet_lswLong hu hw hfit hi8 hr f C.depth lo hi true h0 h1 h2 _ le_rfl).conseq ?_)
    intro _ _ _ _ x
    show cw (lqmeter cmp m0 K) (if x = 0 then _ else _) _ _ _
    split_ifs <;> trivial

theorem quiet_lswSortLoop (hu : Up cmp m0 s) (hw : C.wordSize = 4 ∨ C.wordSize = 8) (hfit : FitsInt C.wordSize s.len) (hi8 : 8 < C.maxLenInsFC) (hr : 2 * C.maxLenInsFC < C.maxLenRecFC) :
    ∀ (f : Nat) (lo hi : Int), 0 ≤ lo → hi < s.len → 2 * C.maxLenRecFC < hi - lo → ∀ n, lu (hi - lo).toNat ≤ n →
    cw (lqmeter cmp m0 K) (lswSortLoop C s f lo hi : Prog V LSp Unit) none n fun _ _ _ => True := by
  intro f
  induction f with
  | zero => intro lo hi _ _ _ n _; trivial
  | succ f ih =>
    intro lo hi h0 h1 hl n hn
    unfold lswSortLoop
    have hq0 : (hi - lo).toNat + 9 ≤ lu (hi - lo).toNat := by
      have := lu_split (d1 := (hi - lo).toNat / 2) (d2 := (hi - lo).toNat - 1 - (hi - lo).toNat / 2) (d := (hi - lo).toNat) (by omega) (by omega) (by omega)
      omega
    refine cw.bind ((quiet_lswPartCon hu hw hfit h0 h1 (by omega) n (by omega)).conseq ?_)
    rintro i J' k ⟨rfl, i1, i2, i3, i4, hk⟩
    obtain ⟨l, h, lo', hi', he, b1, b2, b3, b4, b5, b6, b7, b8, b9⟩ := lswSplit_len (lo := lo) (hi := hi) (k := i) (by omega) (by omega)
    have hd : hi' - lo' = i - 1 - lo ∨ hi' - lo' = hi - i := by
      unfold lswSplit at he
      dsimp only at he
      split_ifs at he <;> simp only [Prod.mk.injEq] at he <;> omega
    rw [he]
    dsimp only
    have hq := lu_split b9 (by omega) (by omega)
    have hle := lt_le_lu (hi' - lo').toNat
    have rest : ∀ k2, lu (hi' - lo').toNat ≤ k2 → cw (lqmeter cmp m0 K) (do
        let stop ← if hi' - lo' ≤ 2 * C.maxLenRecFC then pure true else gorFull
        if stop then do
          lswLong C s f C.depth lo' hi' true
          let n ← .decGor .ret
          if n ≠ 0 then do
            let _ ← .recv .ret
            pure ()
          else pure ()
        else lswSortLoop C s f lo' hi' : Prog V LSp Unit) none k2 fun _ _ _ => True := by
      intro k2 hk2
      have long : cw (lqmeter cmp m0 K) (do
          lswLong C s f C.depth lo' hi' true
          let n ← .decGor .ret
          if n ≠ 0 then do
            let _ ← .recv .ret
            pure ()
          else pure () : Prog V LSp Unit) none k2 fun _ _ _ => True := by
        refine cw.bind ((quiet_lswLong hu hw hfit hi8 hr f C.depth lo' hi' true (by omega) (by omega) (by omega) _ (hle.trans hk2)).conseq ?_)
        intro _ _ _ _ x
        show cw (lqmeter cmp m0 K) (if x ≠ 0 then _ else _) _ _ _
        split_ifs
        · intro v _; trivial
        · trivial
      by_cases hc : hi' - lo' ≤ 2 * C.maxLenRecFC
      · rw [if_pos hc]; exact long
      · rw [if_neg hc]
        intro mg x
        show cw (lqmeter cmp m0 K) (if decide (x ≥ mg) = true then _ else _) none k2 _
        split_ifs
        · exact long
        · exact ih lo' hi' (by omega) (by omega) (by omega) k2 hk2
    by_cases hc1 : h - l ≥ C.maxLenRecFC
    · rw [if_pos hc1]
      intro x
      refine ⟨⟨trivial, ?_⟩, ?_⟩
      · show lt (h - l).toNat ≤ k; omega
      · exact rest (k - lt (h - l).toNat) (by omega)
    rw [if_neg hc1]
    by_cases hc2 : h - l ≥ C.maxLenInsFC
    · rw [if_pos hc2]
      exact (quiet_lswShort lqmeter_still hu hi8 f C.depth l h hc2).seq (by omega) fun _ k2 _ hk2 => rest k2 (by omega)
    · rw [if_neg hc2]
      have := le_lt (d := (h - l).toNat) (by omega)
      exact (quiet_lswInsertion lqmeter_still hu l h).seq (by omega) fun _ k2 _ hk2 => rest k2 (by omega)

theorem quiet_SortLsw (hu : Up cmp m0 s) (hw : C.wordSize = 4 ∨ C.wordSize = 8) (hfit : FitsInt C.wordSize s.len) (hi8 : 8 < C.maxLenInsFC) (hr : 2 * C.maxLenInsFC < C.maxLenRecFC) :
    cw (lqmeter cmp m0 K) (SortLsw C s.len s : Prog V LSp Unit) none (s.len * (Nat.log2 s.len + 8)) fun _ _ _ => True := by
  unfold SortLsw
  dsimp only
  have hwr : wrapInt C.wordSize ((s.len : Int) - 1) = (s.len : Int) - 1 := by
    have hp : (0 : Int) < 2 ^ (8 * C.wordSize - 1) := by positivity
    have : (11 * ((s.len : Nat) + 8) : Int) ≤ 10 * 2 ^ (8 * C.wordSize - 1) := by exact_mod_cast hfit
    exact wrapInt_id hw (by omega) (by omega)
  rw [hwr]
  have ht : ((s.len : Int) - 1 - 0).toNat = s.len - 1 := by omega
  have hlu : 0 < s.len → lu (s.len - 1) ≤ s.len * (Nat.log2 s.len + 8) := by
    intro h
    unfold lu
    rw [show s.len - 1 + 1 = s.len by omega]
    exact Nat.mul_le_mul_left _ (Nat.add_le_add_right (log2_mono (by omega)) _)
  have hlt := lt_le_lu (s.len - 1)
  have hln : s.len ≤ s.len * (Nat.log2 s.len + 8) := Nat.le_mul_of_pos_right _ (by omega)
  have single : cw (lqmeter cmp m0 K) (if (s.len : Int) - 1 ≥ C.maxLenRecFC then lswLong C s ((s.len : Int) - 1 + 1).toNat C.depth 0 ((s.len : Int) - 1) false
      else if (s.len : Int) - 1 ≥ C.maxLenInsFC then lswShort C s ((s.len : Int) - 1 + 1).toNat C.depth 0 ((s.len : Int) - 1)
      else if (s.len : Int) - 1 > 0 then lswInsertion s 0 ((s.len : Int) - 1)
      else pure () : Prog V LSp Unit) none (s.len * (Nat.log2 s.len + 8)) fun _ _ _ => True := by
    split_ifs with h1 h2 h3
    · refine (quiet_lswLong hu hw hfit hi8 hr _ _ _ _ _ le_rfl (by omega) (by omega) _ ?_).conseq fun _ _ _ _ => trivial
      rw [ht]; exact hlt.trans (hlu (by omega))
    · refine (quiet_lswShort lqmeter_still hu hi8 _ _ _ _ (by omega)).cw ?_ fun _ _ _ _ => trivial
      rw [ht]; exact hlt.trans (hlu (by omega))
    · refine (quiet_lswInsertion lqmeter_still hu _ _).cw ?_ fun _ _ _ _ => trivial
      rw [ht]; omega
    · trivial
  by_cases hc : (s.len : Int) - 1 ≤ 2 * C.maxLenRecFC
  · rw [if_pos hc]; exact single
  · rw [if_neg hc]
    intro mg
    show cw (lqmeter cmp m0 K) (if decide (mg ≤ 1) = true then _ else _) none _ _
    split
    · exact single
    · refine quiet_lswSortLoop hu hw hfit hi8 hr _ 0 _ le_rfl (by omega) (by omega) _ ?_
      rw [ht]; exact hlu (by omega)

theorem sort_quiet {ρ : Type} [LinearOrder ρ] {r : V → ρ} (hL : LOK C s cmp r) (hd : DepthFor C.depth s.len) {M : Nat} {stale : Prop}
    {m : Mem V} (hu : Up cmp m s) {c : Cfg V LSp} {n : Nat}
    (h : CSteps (lswPar C s cmp M stale) (lqmeter cmp m K).w (start (SortLsw C s.len s) m) c n) :
    n ≤ s.len * (Nat.log2 s.len + 8) ∧ c.sh.mem = m := by
  obtain ⟨ts, h0⟩ := lsw_start hL (m := m) hd M stale
  have hpo : ∀ sp m' v m'', (lspec C s cmp r).ppost sp m' v m'' → (lqmeter cmp m K).ok sp v := by
    rintro (⟨l, pv, h⟩ | ⟨lo, hi, f⟩) m v m' hp
    · obtain ⟨_, _, _, _, hp⟩ := hp
      exact ⟨hp.k0, hp.k1⟩
    · trivial
  have hbody : ∀ sp m', (lqmeter cmp m K).sp sp → (lspec C s cmp r).pre sp m' → cw (lqmeter cmp m K) (lswBody C s sp) none ((lqmeter cmp m K).ρ sp) fun _ _ _ => True := by
    rintro (⟨l, pv, h⟩ | ⟨lo, hi, f⟩) m - hp
    · exact quiet_lswBody (sp := .part l pv h) hu hL.word hL.fits hL.ins hL.recOK hp.2.1
    · exact quiet_lswBody (sp := .long lo hi f) hu hL.word hL.fits hL.ins hL.recOK ⟨hp.1, hp.2.1, hp.2.2.1⟩
  obtain ⟨_, _, _, hI⟩ := Inv.metered (M := lqmeter cmp m K) (lsw_hyp hL m M stale) ⟨ts, h0, jsOf_start h0⟩ ⟨fun _ => rfl, fun h => h.elim, fun _ _ _ _ _ h => h⟩
    (by funext sp; cases sp <;> rfl) hpo hbody (quiet_SortLsw hu hL.word hL.fits hL.ins hL.recOK) h
  exact ⟨by have := hI.sum; omega, funext hI.rd⟩

end Sorty
