import Verif.Proofs.Flat
import Verif.Proofs.LswQuiet
import Verif.Proofs.LswSort

/-! # Sort on equivalent elements

Ranges of equivalent elements are halved, without a swap. -/

namespace Sorty

open Prog

variable {V Sp : Type} {m : Mem V} {C : Conf}

/-- the user's comparator may deny that one of two elements of the collection is less -/
def Never (cmp : Nat → Nat → V → V → Bool → Prop) (m : Mem V) (s : Slice) : Prop :=
  ∀ i j, i < s.len → j < s.len → cmp i j (m (s.off + i)) (m (s.off + j)) false

section
variable {P : Par V Sp} {s : Slice} (hs : Never P.cmp m s)
include hs

theorem eval_lsw {i k r q : Int} (hi : 0 ≤ i ∧ i < s.len) (hk : 0 ≤ k ∧ k < s.len) (hr : 0 ≤ r ∧ r < s.len) (hq : 0 ≤ q ∧ q < s.len)
    {β : Type} {f : Bool → Prog V Sp β} {p : Prog V Sp β} (h : Eval P m (f false) p) : Eval P m ((lsw s i k r q).bind f) p := by
  refine Eval.seq (a := false) ?_ h
  rw [lsw, if_pos ⟨hi, hk, hr, hq⟩]
  refine .rd hi.1 hi.2 (.rd hk.1 hk.2 (.less (hs _ _ (by omega) (by omega)) ?_))
  exact .refl _

theorem eval_lswInner {bound step h : Int} (h0 : 0 ≤ step) (h1 : step ≤ h) (h2 : h < s.len) :
    Eval P m (lswInner s bound step h) (.ret ()) := by
  refine .brk (eval_lsw hs ⟨by omega, h2⟩ ⟨by omega, by omega⟩ ⟨by omega, h2⟩ ⟨by omega, by omega⟩ ?_)
  exact .refl _

theorem eval_lswPivot {ws : Nat} (hws : ws = 4 ∨ ws = 8) (hfit : FitsInt ws s.len) {lo hi : Int} {n : Nat} (t : Nat) (h0 : 0 ≤ lo) (h1 : hi < s.len)
    (hn : n = 2 * t + 1) (ht : 2 ≤ t) (ht' : t ≤ 3) (hl : 2 * (n : Int) ≤ hi + 1 - lo) :
    ∃ pv : Int, (hi + lo ≤ 2 * pv ∧ 2 * pv ≤ hi + 1 + lo) ∧ Eval P m (lswPivot ws s lo hi n) (.ret pv) := by
  have hP : 2 ^ 31 ≤ 2 ^ (8 * ws - 1) := by rcases hws with rfl | rfl <;> norm_num
  have hP' : (2 : Int) ^ (8 * ws - 1) = ((2 ^ (8 * ws - 1) : Nat) : Int) := by push_cast; rfl
  have hwrap : ∀ x : Int, 0 ≤ x → x < 2 ^ (8 * ws - 1) → wrapInt ws x = x := fun x a b =>
    wrapInt_id hws (by rw [hP']; omega) b
  unfold FitsInt at hfit
  unfold lswPivot
  have hb := minMaxSample_bounds (slen := (hi + 1 - lo).toNat) (n := n) (by omega) (by omega)
  have hov := minMaxSample_over (slen := (hi + 1 - lo).toNat) (n := n) (by omega) (by omega)
  have hmid := minMaxSample_mid (slen := (hi + 1 - lo).toNat) (n := n) (by omega) (by omega)
  have hdiv : (hi + 1 - lo).toNat / n ≤ (hi + 1 - lo).toNat / 5 := Nat.div_le_div_left (by omega) (by norm_num)
  rcases hmm : minMaxSample (hi + 1 - lo).toNat n with ⟨f, st, la⟩
  rw [hmm] at hb hov hmid
  obtain ⟨b1, b2, b3⟩ := hb
  dsimp only at b1 b2 b3 hov hmid ⊢
  have e2 : (la : Int) = f + ((n : Int) - 1) * st := by
    rw [b2]; push_cast [Nat.cast_sub (show 1 ≤ n by omega)]; ring
  have hs0 : (0 : Int) < st := by omega
  have hfla : f ≤ la := by rw [b2]; omega
  have key : ∀ (k : Nat) (j : Int), 1 ≤ j → j ≤ n → (n : Int) - j < k →
      Eval P m (loop k (fun h : Int =>
        if h ≤ lo + la then do
          lswInner s (lo + f) st h
          pure (.again (wrapInt ws (h + st)))
        else pure (.brk ())) (lo + f + j * st)) (.ret ()) := by
    intro k
    induction k with
    | zero => intro j _ _ h; push_cast at h; omega
    | succ k ih =>
      intro j j1 j2 j3
      have hj : 1 * (st : Int) ≤ j * st := mul_le_mul_of_nonneg_right j1 hs0.le
      by_cases hc : lo + f + j * st ≤ lo + la
      · have hjn : j ≤ (n : Int) - 1 := by
          have : j * (st : Int) ≤ ((n : Int) - 1) * st := by omega
          exact le_of_mul_le_mul_right this hs0
        refine .again (s' := lo + f + (j + 1) * st) ?_ (ih (j + 1) (by omega) (by omega) (by push_cast at j3; omega))
        rw [if_pos hc]
        refine Eval.seq (eval_lswInner hs hs0.le (by omega) (by omega)) ?_
        have e3 : lo + (f : Int) + j * st + st = lo + f + (j + 1) * st := by ring
        rw [hwrap _ (by omega) (by rw [hP']; omega), e3]
        exact .refl _
      · refine .brk ?_
        rw [if_neg hc]
        exact .refl _
  refine ⟨meanI (lo + f) (lo + la), ?_, Eval.seq (a := ()) ?_ ?_⟩
  · have e3 : (n - 1) * st = 2 * (t * st) := by rw [hn, Nat.add_sub_cancel, mul_assoc]
    rw [e3] at b2 hmid
    unfold meanI
    omega
  · have := key (n + 1) 1 le_rfl (by omega) (by push_cast; omega)
    rw [one_mul] at this
    exact this
  · refine eval_lsw hs ⟨by omega, by omega⟩ ⟨by omega, by omega⟩ ⟨by omega, by omega⟩ ⟨by omega, by omega⟩ ?_
    refine eval_lsw hs ⟨by omega, by omega⟩ ⟨by omega, by omega⟩ ⟨by omega, by omega⟩ ⟨by omega, by omega⟩ ?_
    exact .refl _

theorem eval_lswPartOne {l pv h : Int} (h0 : 0 ≤ l) (h1 : h < s.len) (hp : 0 ≤ pv) (hp' : pv < s.len) (hlh : l ≤ h + 1) :
    Eval P m (lswPartOne s l pv h) (.ret ((l + h + 1) / 2)) := by
  have key : ∀ (n : Nat) (l h : Int), 0 ≤ l → h < s.len → l ≤ h + 1 → (h - l + 3) / 2 ≤ n → 
      Eval P m (loop n (lswPartOneStep s pv) (.head l h)) (.ret ((l + h + 1) / 2)) := by
    intro n
    induction n with
    | zero => intro l h _ _ _ h; push_cast at h; omega
    | succ n ih =>
      intro l h h0 h1 h2 h3
      by_cases hl : l < h
      · have e : (l + h + 1) / 2 = (l + 1 + (h - 1) + 1) / 2 := by congr 1; ring
        refine .again (s' := .head (l + 1) (h - 1)) ?_ (e ▸ ih (l + 1) (h - 1) (by omega) (by omega) (by omega) (by push_cast at h3; omega))
        rw [lswPartOneStep, if_pos hl]
        refine eval_lsw hs ⟨by omega, by omega⟩ ⟨by omega, by omega⟩ ⟨by omega, by omega⟩ ⟨by omega, by omega⟩ ?_
        refine eval_lsw hs ⟨by omega, by omega⟩ ⟨by omega, by omega⟩ ⟨by omega, by omega⟩ ⟨by omega, by omega⟩ ?_
        exact .refl _
      · refine .brk ?_
        have e : (l + h + 1) / 2 = l := by omega
        rw [lswPartOneStep, if_neg hl, e]
        split
        · refine eval_lsw hs ⟨by omega, by omega⟩ ⟨by omega, by omega⟩ ⟨by omega, by omega⟩ ⟨by omega, by omega⟩ ?_
          exact .refl _
        · exact .refl _
  exact key _ l h h0 h1 hlh (by push_cast; omega)

theorem eval_lswPartTwo {lo l pv h hi : Int} (h0 : 0 ≤ lo) (h1 : lo ≤ l) (h2 : l ≤ h) (h3 : h ≤ hi) (h4 : hi < s.len) (hp : 0 ≤ pv) (hp' : pv < s.len) :
    ∃ r : Int, (lo ≤ r ∧ r ≤ l ∨ h ≤ r ∧ r ≤ hi + 1) ∧ Eval P m (lswPartTwo s lo l pv h hi) (.ret r) := by
  have key : ∀ (n : Nat) (l' h' : Int), lo ≤ l' → l' ≤ l → h ≤ h' → h' ≤ hi → l' - lo + 1 ≤ n → 
      ∃ r : Int, (lo ≤ r ∧ r ≤ l ∨ h ≤ r ∧ r ≤ hi + 1) ∧ Eval P m (loop n (lswPartTwoStep s lo pv hi) (.head l' h')) (.ret r) := by
    intro n
    induction n with
    | zero => intro l h _ _ _ _ h; push_cast at h; omega
    | succ n ih =>
      intro l' h' g0 g1 g2 g3 g4
      have e : ∀ c, lswPartTwoNext lo hi l' h' = c → Eval P m (lswPartTwoStep s lo pv hi (.head l' h')) (.ret c) := by
        rintro c rfl
        rw [lswPartTwoStep]
        refine eval_lsw hs ⟨by omega, by omega⟩ ⟨by omega, by omega⟩ ⟨by omega, by omega⟩ ⟨by omega, by omega⟩ ?_
        refine eval_lsw hs ⟨by omega, by omega⟩ ⟨by omega, by omega⟩ ⟨by omega, by omega⟩ ⟨by omega, by omega⟩ ?_
        exact .refl _
      by_cases c1 : l' - 1 < lo
      · exact ⟨h' + 1, .inr ⟨by omega, by omega⟩, .brk (e _ (by simp only [lswPartTwoNext, if_pos c1]))⟩
      · by_cases c2 : h' + 1 > hi
        · exact ⟨l' - 1, .inl ⟨by omega, by omega⟩, .brk (e _ (by simp only [lswPartTwoNext, if_neg c1, if_pos c2]))⟩
        · obtain ⟨r, r1, r2⟩ := ih (l' - 1) (h' + 1) (by omega) (by omega) (by omega) (by omega) (by push_cast at g4; omega)
          exact ⟨r, r1, .again (e _ (by simp only [lswPartTwoNext, if_neg c1, if_neg c2])) r2⟩
  exact key _ l h h1 le_rfl le_rfl h3 (by push_cast; omega)

theorem eval_lswGapHigh {hi r k pv : Int} (h0 : 0 ≤ r) (h1 : hi < s.len) (hk : 0 ≤ k ∧ k < s.len) (hp : 0 ≤ pv ∧ pv < s.len) :
    Eval P m (lswGapHigh s hi r k pv) (.ret k) := by
  have key : ∀ (n : Nat) (r : Int), 0 ≤ r → (s.len : Int) + 1 - r ≤ n → 1 ≤ n → Eval P m
      (loop n (fun (st : Int × Int × Int) =>
        let (r, k, pv) := st
        if r ≤ hi then do
          let b ← lsw s r pv r k
          if b then
            let pv := if k = pv then r else pv
            pure (.again (r + 1, k + 1, pv))
          else pure (.again (r + 1, k, pv))
        else pure (.brk k)) (r, k, pv)) (.ret k) := by
    intro n
    induction n with
    | zero => intro r _ _ h; omega
    | succ n ih =>
      intro r h1 h2 _
      by_cases hr : r ≤ hi
      · refine .again (s' := (r + 1, k, pv)) ?_ (ih (r + 1) (by omega) (by push_cast at h2; omega) (by push_cast at h2; omega))
        dsimp only
        rw [if_pos hr]
        refine eval_lsw hs ⟨by omega, by omega⟩ hp ⟨by omega, by omega⟩ hk ?_
        exact .refl _
      · refine .brk ?_
        dsimp only
        rw [if_neg hr]
        exact .refl _
  exact key _ r h0 (by push_cast; omega) (by omega)

theorem eval_lswGapLow {lo r k pv : Int} (h0 : 0 ≤ lo) (h1 : r < s.len) (hk : 1 ≤ k ∧ k ≤ s.len) (hp : 0 ≤ pv ∧ pv < s.len) :
    Eval P m (lswGapLow s lo r k pv) (.ret k) := by
  have key : ∀ (n : Nat) (r : Int), r < s.len → r + 2 ≤ n → 1 ≤ n → Eval P m
      (loop n (fun (st : Int × Int × Int) =>
        let (r, k, pv) := st
        if lo ≤ r then do
          let b ← lsw s pv r (k - 1) r
          if b then
            let k := k - 1
            let pv := if k = pv then r else pv
            pure (.again (r - 1, k, pv))
          else pure (.again (r - 1, k, pv))
        else pure (.brk k)) (r, k, pv)) (.ret k) := by
    intro n
    induction n with
    | zero => intro r _ _ h; omega
    | succ n ih =>
      intro r h1 h2 _
      by_cases hr : lo ≤ r
      · refine .again (s' := (r - 1, k, pv)) ?_ (ih (r - 1) (by omega) (by push_cast at h2; omega) (by push_cast at h2; omega))
        dsimp only
        rw [if_pos hr]
        refine eval_lsw hs hp ⟨by omega, by omega⟩ ⟨by omega, by omega⟩ ⟨by omega, by omega⟩ ?_
        exact .refl _
      · refine .brk ?_
        dsimp only
        rw [if_neg hr]
        exact .refl _
  exact key _ r h1 (by push_cast; omega) (by omega)

end

/-- a range that can be halved `L` times -/
def LHalved (C : Conf) (s : Slice) (L : Nat) (lo hi : Int) : Prop :=
  0 ≤ lo ∧ hi < s.len ∧ ((2 ^ L * (2 * C.maxLenRecFC + 4) : Nat) : Int) ≤ hi + 1 - lo + 2

theorem LHalved.len {L : Nat} {s : Slice} {lo hi : Int} (h : LHalved C s L lo hi) : 2 * (C.maxLenRecFC : Int) + 2 ≤ hi + 1 - lo := by
  have := h.2.2
  have : 2 * C.maxLenRecFC + 4 ≤ 2 ^ L * (2 * C.maxLenRecFC + 4) := Nat.le_mul_of_pos_left _ Nat.one_le_two_pow
  omega

theorem LHalved.half {L : Nat} {s : Slice} {lo hi lo' hi' : Int} (h : LHalved C s (L + 1) lo hi) (h1 : hi + 1 - lo ≤ 2 * (hi' + 1 - lo') + 2)
    (h2 : lo ≤ lo') (h3 : hi' ≤ hi) : LHalved C s L lo' hi' := by
  have := h.2.2
  have := h.1
  have := h.2.1
  rw [pow_succ, mul_right_comm] at *
  exact ⟨by omega, by omega, by omega⟩

theorem LHalved.mono {L : Nat} {s : Slice} {lo hi : Int} (h : LHalved C s (L + 1) lo hi) : LHalved C s L lo hi :=
  ⟨h.1, h.2.1, le_trans (Int.ofNat_le.2 (Nat.mul_le_mul_right _ (Nat.pow_le_pow_right (by norm_num) (by omega)))) h.2.2⟩

/-- a goroutine that is going to sort such a range, or the caller between two rounds -/
def LFlatSorter (C : Conf) (s : Slice) (L : Nat) (p : Prog V LSp Unit) : Prop :=
  ∃ (f : Nat) (lo hi : Int), L ≤ f ∧ LHalved C s L lo hi ∧
    ((∃ d rest, p = (lswLong C s (f + 1) d lo hi true).bind rest) ∨ ∃ g, p = gorFull.bind g ∧ g false = lswSortLoop C s (f + 1) lo hi)

theorem lswSplit_half {lo hi l : Int} (e : Int) (h1 : hi + 1 - lo ≤ 2 * (l - lo) + e) (h2 : 2 * (l - lo) ≤ hi + 1 - lo + e) (h3 : lo ≤ l) (h4 : l ≤ hi + 1) :
    ∃ a b c d : Int, lswSplit lo hi l = (a, b, c, d, b - a, d - c) ∧ (hi + 1 - lo ≤ 2 * (b + 1 - a) + e ∧ lo ≤ a ∧ b ≤ hi) ∧
      (hi + 1 - lo ≤ 2 * (d + 1 - c) + e ∧ lo ≤ c ∧ d ≤ hi) := by
  unfold lswSplit
  dsimp only
  split
  · exact ⟨_, _, _, _, rfl, ⟨by omega, by omega, by omega⟩, ⟨by omega, by omega, by omega⟩⟩
  · exact ⟨_, _, _, _, rfl, ⟨by omega, by omega, by omega⟩, ⟨by omega, by omega, by omega⟩⟩

section
variable {P : Par V LSp} {s : Slice} (hs : Never P.cmp m s) (hb : P.body = lswBody C s) (hws : C.wordSize = 4 ∨ C.wordSize = 8)
  (hfit : FitsInt C.wordSize s.len)
include hs hb hws hfit

/-- concurrent partitioning -/
theorem steps_lswPartCon {lo hi : Int} (h0 : 0 ≤ lo) (h1 : hi < s.len) (hl : 16 ≤ hi + 1 - lo)
    (sh : Sh V) (hm : sh.mem = m) (hsy : sh.sync = true) (f : Int → Prog V LSp Unit) (l₁ l₂ : List (Prog V LSp Unit)) :
    ∃ k : Int, hi + 1 - lo ≤ 2 * (k - lo) + 2 ∧ 2 * (k - lo) ≤ hi + 1 - lo + 2 ∧
      HighSteps P P.M ⟨sh, l₁ ++ (lswPartCon C.wordSize s lo hi).bind f :: l₂⟩ ⟨sh, l₁ ++ f k :: (l₂ ++ [.ret ()])⟩ := by
  subst hm
  obtain ⟨pv, ⟨p1, p2⟩, e0⟩ := eval_lswPivot (n := nsConc - 1) hs hws hfit 3 h0 h1 (by simp [nsConc]) (by norm_num) (by norm_num) (by simp [nsConc]; omega)
  obtain ⟨l, el⟩ : ∃ x : Int, x = meanI (lo + 1) pv := ⟨_, rfl⟩
  obtain ⟨h, eh⟩ : ∃ x : Int, x = meanI pv (hi - 1) := ⟨_, rfl⟩
  have el' : l = (lo + 1 + pv) / 2 := el
  have eh' : h = (pv + (hi - 1)) / 2 := eh
  obtain ⟨r, r1, er⟩ := eval_lswPartTwo hs (lo := lo + 1) (l := l) (pv := pv) (h := h) (hi := hi - 1) (by omega) (by omega) (by omega) (by omega) (by omega)
    (by omega) (by omega)
  obtain ⟨k, ek⟩ : ∃ x : Int, x = (l + 1 + (h - 1) + 1) / 2 := ⟨_, rfl⟩
  refine ⟨k, by omega, by omega, ?_⟩
  have e1 : Eval P sh.mem ((lswPartCon C.wordSize s lo hi).bind f) (.go (.part (l + 1) pv (h - 1)) ((lswPartTwo s (lo + 1) l pv h (hi - 1)).bind fun r => .recv fun k =>
      (if r < pv then lswGapLow s (lo + 1) r k pv else lswGapHigh s (hi - 1) r k pv).bind f)) := by
    have e : Eval P sh.mem (lswPartCon C.wordSize s lo hi) (.go (.part (l + 1) pv (h - 1)) ((lswPartTwo s (lo + 1) l pv h (hi - 1)).bind fun r => .recv fun k =>
        if r < pv then lswGapLow s (lo + 1) r k pv else lswGapHigh s (hi - 1) r k pv)) := by
      unfold lswPartCon
      refine Eval.seq e0 ?_
      dsimp only
      rw [← el, ← eh]
      exact .refl _
    have := e.bind f
    simp only [Prog.bind, Prog.bind_assoc] at this
    exact this
  have e2 : Eval P sh.mem ((lswPartTwo s (lo + 1) l pv h (hi - 1)).bind fun r => .recv fun k =>
      (if r < pv then lswGapLow s (lo + 1) r k pv else lswGapHigh s (hi - 1) r k pv).bind f) (.recv fun k =>
      (if r < pv then lswGapLow s (lo + 1) r k pv else lswGapHigh s (hi - 1) r k pv).bind f) :=
    Eval.seq er (.refl _)
  have e3 : Eval P sh.mem (P.body (.part (l + 1) pv (h - 1))) (.send k (.ret ())) := by
    rw [hb, ek]
    exact Eval.seq (eval_lswPartOne hs (by omega) (by omega) (by omega) (by omega) (by omega)) (.refl _)
  have e4 : Eval P sh.mem ((if r < pv then lswGapLow s (lo + 1) r k pv else lswGapHigh s (hi - 1) r k pv).bind f) (f k) := by
    split
    · exact Eval.seq (eval_lswGapLow hs (by omega) (by omega) ⟨by omega, by omega⟩ ⟨by omega, by omega⟩) (.refl _)
    · exact Eval.seq (eval_lswGapHigh hs (by omega) (by omega) ⟨by omega, by omega⟩ ⟨by omega, by omega⟩) (.refl _)
  have s1 := e1.steps (L := P.M) (sh := sh) l₁ l₂
  have s2 := HighSteps.one (P := P) (L := P.M) l₁ l₂ (TStep.go sh (.part (l + 1) pv (h - 1)) ((lswPartTwo s (lo + 1) l pv h (hi - 1)).bind fun r => .recv fun k =>
      (if r < pv then lswGapLow s (lo + 1) r k pv else lswGapHigh s (hi - 1) r k pv).bind f)) nofun
  have s3 := e2.steps (L := P.M) (sh := sh) l₁ (l₂ ++ [P.body (.part (l + 1) pv (h - 1))])
  have s4 := e3.steps (L := P.M) (sh := sh) (l₁ ++ (.recv fun k =>
      (if r < pv then lswGapLow s (lo + 1) r k pv else lswGapHigh s (hi - 1) r k pv).bind f) :: l₂) []
  have s5 := HighStep.commRS (P := P) (L := P.M) l₁ l₂ [] sh k (.ret ()) (fun k =>
      (if r < pv then lswGapLow s (lo + 1) r k pv else lswGapHigh s (hi - 1) r k pv).bind f) hsy
  have s6 := e4.steps (L := P.M) (sh := sh) l₁ (l₂ ++ [.ret ()])
  simp only [List.append_assoc, List.cons_append] at s1 s2 s3 s4 s5 s6 ⊢
  exact ((((s1.trans s2).trans s3).trans s4).tail s5).trans s6

/-- one round of `Sort`, up to the start of a goroutine -/
theorem steps_lswRound (hr : 16 ≤ C.maxLenRecFC) {L f : Nat} {lo hi : Int} (hh : LHalved C s (L + 1) lo hi)
    (hf : L + 1 ≤ f) (sh : Sh V) (hm : sh.mem = m) (hsy : sh.sync = true) (l₁ l : List (Prog V LSp Unit)) :
    ∃ q, Parked P (LFlatSorter C s L) q ∧
      HighSteps P P.M ⟨sh, l₁ ++ lswSortLoop C s (f + 1) lo hi :: l⟩ ⟨sh, l₁ ++ q :: (l ++ [.ret ()])⟩ := by
  obtain ⟨T, hT, hT'⟩ : ∃ T : Int → Prog V LSp Unit, lswSortLoop C s (f + 1) lo hi = (lswPartCon C.wordSize s lo hi).bind T ∧ ∀ k a b c d,
      lswSplit lo hi k = (a, b, c, d, b - a, d - c) → C.maxLenRecFC ≤ b - a → 2 * C.maxLenRecFC < d - c → ∃ g, g false = lswSortLoop C s f c d ∧
        T k = (.incGor fun _ => .go (.long a b f) (gorFull.bind g)) := by
    refine ⟨_, rfl, fun k a b c d h1 h2 h3 => ⟨
      fun stop => if stop then (lswLong C s f C.depth c d true).bind fun _ => .decGor fun n => if n ≠ 0 then .recv fun _ => .ret () else .ret ()
        else lswSortLoop C s f c d, rfl, ?_⟩⟩
    dsimp only
    rw [h1]
    dsimp only
    rw [if_pos (by omega), if_neg (by omega)]
    rfl
  have hl := hh.len
  obtain ⟨k, k1, k2, s2⟩ := steps_lswPartCon hs hb hws hfit hh.1 hh.2.1 (by omega) sh hm hsy T l₁ l
  obtain ⟨a, b, c, d, h5, ⟨h6, h7, h8⟩, h9, h10, h11⟩ := lswSplit_half 2 k1 k2 (by omega) (by omega)
  have haq := hh.half h6 h7 h8
  have har := hh.half h9 h10 h11
  have := haq.len
  have := har.len
  obtain ⟨g, hg, e1⟩ := hT' k a b c d h5 (by omega) (by omega)
  obtain ⟨f, rfl⟩ : ∃ f', f = f' + 1 := ⟨f - 1, by omega⟩
  refine ⟨.incGor fun _ => .go (.long a b (f + 1)) (gorFull.bind g), ⟨_, _, rfl, ⟨f, c, d, by omega, har, .inr ⟨g, rfl, hg⟩⟩, ?_⟩, ?_⟩
  · rw [hb]
    exact ⟨f, a, b, by omega, haq, .inl ⟨C.depth, _, rfl⟩⟩
  · rw [hT, ← e1]
    exact s2

omit hb in
/-- from the beginning of `long` to the test of the quota -/
theorem eval_lswLong (hr : 16 ≤ C.maxLenRecFC) {f d : Nat} {lo hi : Int} (h0 : 0 ≤ lo) (h1 : hi < s.len) (hl : 2 * (C.maxLenRecFC : Int) + 2 ≤ hi + 1 - lo) :
    ∃ (a b a' b' : Int) (g : Bool → Prog V LSp Unit), (hi + 1 - lo ≤ 2 * (b + 1 - a) + 1 ∧ lo ≤ a ∧ b ≤ hi) ∧
      (hi + 1 - lo ≤ 2 * (b' + 1 - a') + 1 ∧ lo ≤ a' ∧ b' ≤ hi) ∧
      g false = .incGor (fun _ => .go (.long a' b' f) (lswLong C s f d a b true)) ∧
      Eval P m (lswLong C s (f + 1) d lo hi true) (gorFull.bind g) := by
  obtain ⟨pv, ⟨p1, p2⟩, e0⟩ := eval_lswPivot (n := nsLong - 1) hs hws hfit 2 h0 h1 (by simp [nsLong]) (by norm_num) (by norm_num) (by simp [nsLong]; omega)
  obtain ⟨a, b, a', b', h5, h6, h7⟩ := lswSplit_half 1 (lo := lo) (hi := hi) (l := (lo + 1 + (hi - 1) + 1) / 2) (by omega) (by omega) (by omega) (by omega)
  refine ⟨a, b, a', b', fun full => if full then match d with
        | 0 => Prog.overflow.bind fun _ : Unit => lswLong C s f d a' b' true
        | d' + 1 => (lswLong C s f d' a b true).bind fun _ => lswLong C s f d a' b' true
      else .incGor (fun _ => .go (.long a' b' f) (lswLong C s f d a b true)), h6, h7, rfl, ?_⟩
  rw [lswLong]
  refine Eval.seq e0 ?_
  refine Eval.seq (eval_lswPartOne hs (l := lo + 1) (by omega) (by omega) (by omega) (by omega) (by omega)) ?_
  rw [h5]
  dsimp only
  rw [if_neg (by omega)]
  exact .refl _

theorem lflat_splits (hr : 16 ≤ C.maxLenRecFC) : Splits P m (LFlatSorter C s) where
  park := by
    rintro sh L p l₁ l₂ hm hsy hM ⟨f, lo, hi, hf, har, ⟨d, rest, rfl⟩ | ⟨g, rfl, hg⟩⟩
    · obtain ⟨f, rfl⟩ : ∃ f', f = f' + 1 := ⟨f - 1, by omega⟩
      obtain ⟨a, b, a', b', g, ⟨h4, h4', h4''⟩, ⟨h5, h5', h5''⟩, h8, h9⟩ := eval_lswLong hs hws hfit hr (f := f + 1) (d := d) har.1 har.2.1 har.len
      refine ⟨.incGor (fun _ => .go (.long a' b' (f + 1)) ((lswLong C s (f + 1) d a b true).bind rest)), [],
        ⟨_, _, rfl, ⟨f, a, b, by omega, har.half (by omega) h4' h4'', .inl ⟨d, rest, rfl⟩⟩, ?_⟩, ?_⟩
      · rw [hb]
        exact ⟨f, a', b', by omega, har.half (by omega) h5' h5'', .inl ⟨C.depth, _, rfl⟩⟩
      · refine ((hm ▸ h9.bind rest : Eval P sh.mem _ _).steps (sh := sh) l₁ l₂).trans ?_
        rw [Prog.bind_assoc]
        refine (steps_gorFull hsy hM l₁ l₂).trans ?_
        simp only [Prog.bind, h8, List.append_nil]
        exact .refl _
    · obtain ⟨q, h1, h2⟩ := steps_lswRound hs hb hws hfit hr har hf sh hm hsy l₁ l₂
      refine ⟨q, [.ret ()], h1, (steps_gorFull hsy hM l₁ l₂).trans ?_⟩
      rw [hg]
      exact h2
  mono := by
    rintro L p ⟨f, lo, hi, hf, har, h⟩
    exact ⟨f, lo, hi, by omega, har.mono, h⟩
  busy := by
    rintro L p ⟨f, lo, hi, hf, har, ⟨d, rest, rfl⟩ | ⟨g, rfl, hg⟩⟩
    · obtain ⟨_, _, _, _, g, _, _, _, h9⟩ := eval_lswLong hs hws hfit hr (f := f) (d := d) har.1 har.2.1 har.len
      exact (h9.bind rest).busy rfl
    · rfl

/-- the beginning of `Sort`: the first partition -/
theorem steps_SortLsw (hr : 16 ≤ C.maxLenRecFC) (hM : 2 ≤ P.M) {L : Nat} (hh : LHalved C s (L + 1) 0 (s.len - 1)) :
    ∃ p q l, HighSteps P P.M (start (SortLsw C s.len s) m) ⟨⟨m, 2, true⟩, p :: l ++ [q]⟩ ∧ LFlatSorter C s L p ∧ LFlatSorter C s L q := by
  have hl := hh.len
  have hL : L + 1 < 2 ^ (L + 1) := Nat.lt_two_pow_self
  have hL2 : 2 ^ (L + 1) * 4 ≤ 2 ^ (L + 1) * (2 * C.maxLenRecFC + 4) := Nat.mul_le_mul_left _ (by omega)
  have hL3 := hh.2.2
  obtain ⟨f, hf⟩ : ∃ f, s.len = f + 1 := ⟨s.len - 1, by omega⟩
  have hP : 2 ^ 31 ≤ 2 ^ (8 * C.wordSize - 1) := by rcases hws with h | h <;> rw [h] <;> norm_num
  have hP' : (2 : Int) ^ (8 * C.wordSize - 1) = ((2 ^ (8 * C.wordSize - 1) : Nat) : Int) := by push_cast; rfl
  have hw : wrapInt C.wordSize ((s.len : Int) - 1) = (s.len : Int) - 1 := by
    unfold FitsInt at hfit
    exact wrapInt_id hws (by rw [hP']; omega) (by rw [hP']; omega)
  have s1 : HighSteps P P.M (start (SortLsw C s.len s) m) ⟨⟨m, 1, true⟩, [lswSortLoop C s (f + 1) 0 (s.len - 1)]⟩ := by
    unfold SortLsw
    rw [hw]
    dsimp only
    rw [if_neg (by omega)]
    have e : ((s.len : Int) - 1 + 1).toNat = f + 1 := by omega
    rw [e]
    have a1 := HighSteps.max (P := P) [] [] (sh := ⟨m, 0, false⟩) (k := fun mg => (Prog.ret (decide (mg ≤ 1))).bind fun single =>
      if single then (if (s.len : Int) - 1 ≥ C.maxLenRecFC then lswLong C s (f + 1) C.depth 0 (s.len - 1) false
        else if (s.len : Int) - 1 ≥ C.maxLenInsFC then lswShort C s (f + 1) C.depth 0 (s.len - 1)
        else if (s.len : Int) - 1 > 0 then lswInsertion s 0 (s.len - 1) else .ret ())
      else .mkSync (lswSortLoop C s (f + 1) 0 (s.len - 1)))
    have e : decide (P.M ≤ 1) = false := by simp; omega
    simp only [Prog.bind, e, List.nil_append, Bool.false_eq_true, if_false] at a1
    have a2 := HighSteps.one (P := P) (L := P.M) [] [] (TStep.mkSync ⟨m, 0, false⟩ (lswSortLoop C s (f + 1) 0 (s.len - 1))) nofun
    exact a1.trans a2
  obtain ⟨q, hq, s2⟩ := steps_lswRound hs hb hws hfit hr hh (f := f) (by omega) ⟨m, 1, true⟩ rfl rfl [] []
  obtain ⟨q', b, h1, h2, s3⟩ := hq.release ⟨m, 1, true⟩ rfl rfl (by norm_num) [] [.ret ()]
  exact ⟨q', b, [.ret ()], (s1.trans s2).trans s3, h1, h2⟩

end

/-- **many goroutines** on equivalent elements, `MaxGor` being `M` all the time -/
theorem lflat_crowd (hC : C.OK) {s : Slice} {M : Nat} (stale : Prop) {cmp : Cmp V} (hs : Never cmp m s) (hf : FitsInt C.wordSize s.len)
    (hM : 2 ≤ M) (hl : 8 * M * (C.maxLenRecFC + 2) ≤ s.len) :
    ∃ c, HighSteps (lswPar C s cmp M stale) M (start (SortLsw C s.len s) m) c ∧ 2 * (M - 1) ≤ working c := by
  obtain ⟨j, h2, h1⟩ : ∃ j, 2 ^ j < 2 * (M - 1) ∧ 2 * (M - 1) ≤ 2 ^ (j + 1) := by
    have h0 : 2 * (M - 1) - 1 ≠ 0 := by omega
    have := Nat.log2_self_le h0
    have := (Nat.log2_lt h0).1 (Nat.lt_succ_self (2 * (M - 1) - 1).log2)
    exact ⟨(2 * (M - 1) - 1).log2, by omega, by omega⟩
  have hr : 16 ≤ C.maxLenRecFC := by have := conf_ineq hC; simp only [nsShort] at this; omega
  have hMl : 8 * M ≤ s.len := le_trans (Nat.le_mul_of_pos_right _ (by omega)) hl
  have h63 : s.len < 2 ^ 63 := by
    unfold FitsInt at hf
    rcases hC.word with h | h <;> rw [h] at hf <;> norm_num at hf ⊢ <;> omega
  have h3 : LHalved C s (j + 1) 0 (s.len - 1) := by
    refine ⟨le_rfl, by omega, ?_⟩
    have : 2 ^ (j + 1) * (C.maxLenRecFC + 2) ≤ 4 * M * (C.maxLenRecFC + 2) := Nat.mul_le_mul_right _ (by rw [pow_succ]; omega)
    have : 2 ^ (j + 1) * (2 * C.maxLenRecFC + 4) ≤ s.len := by nlinarith
    omega
  obtain ⟨p, q, l, s1, hp, hq⟩ := steps_SortLsw (P := lswPar C s cmp M stale) hs rfl hC.word hf hr hM h3
  have hsp := lflat_splits (P := lswPar C s cmp M stale) hs rfl hC.word hf hr
  classical
  obtain ⟨ths, s2, h4⟩ := hsp.crowd hM (show 2 * (M - 1) < 2 ^ 64 by omega) (sh := ⟨m, 2, true⟩) rfl rfl rfl (ths := p :: l ++ [q]) j 0 (2 * (M - 1)) (by
    simp only [List.cons_append, List.countP_cons, List.countP_append, List.countP_nil]
    have hp' : LFlatSorter C s (0 + j) p := by simpa using hp
    have hq' : LFlatSorter C s (0 + j) q := by simpa using hq
    simp only [hp', hq', decide_true, if_true]
    omega) (by omega) h1 le_rfl
  exact ⟨_, s1.trans s2, le_trans h4 hsp.working⟩

end Sorty
