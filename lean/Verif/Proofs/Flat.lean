import Verif.Logic.Crowd
import Verif.Proofs.Sample
import Verif.Model.Val

/-! # The type-specific sorts on equal elements

Ranges of equal elements are halved, without a store. -/

namespace Sorty

open Prog Slice

variable {V κ Sp : Type} {m : Mem V} {F : Fam V κ} {v : κ}

/-- how the operations of the family behave on the key `v` alone -/
structure FlatKey (F : Fam V κ) (v : κ) : Prop where
  lt : F.lt v v = false
  le : F.le v v = true
  mean : ∀ f, F.mean = some f → f v v = v

/-- all elements of the range have key `v` -/
def FlatOn (key : V → κ) (v : κ) (m : Mem V) (s : Slice) : Prop := ∀ a, s.off ≤ a → a < s.off + s.len → key (m a) = v

theorem FlatOn.at {key : V → κ} {s : Slice} (h : FlatOn key v m s) {i : Int} (h0 : 0 ≤ i) (h1 : i < s.len) :
    key (m (s.off + i.toNat)) = v := h _ (by omega) (by omega)

theorem FlatOn.sub {key : V → κ} {s t : Slice} (h : FlatOn key v m s) (h0 : s.off ≤ t.off) (h1 : t.off + t.len ≤ s.off + s.len) :
    FlatOn key v m t := fun a h2 h3 => h a (by omega) (by omega)

section
variable {P : Par V Sp}

theorem eval_insertInner {key : V → κ} {lt : κ → κ → Bool} (hlt : lt v v = false) {s : Slice} (hs : FlatOn key v m s) {h : Int}
    (h0 : 1 ≤ h) (h1 : h < s.len) {x : V} (hx : key x = v) : Eval P m (insertInner key lt s h x) (.ret ()) := by
  refine .brk (.rd (by omega) (by omega) ?_)
  rw [hx, hs.at (by omega) (by omega), if_neg (by simp [hlt]), if_pos rfl]
  exact .refl _

theorem eval_insertion {key : V → κ} {lt : κ → κ → Bool} (hlt : lt v v = false) {s : Slice} (hs : FlatOn key v m s) :
    Eval P m (insertion key lt s) (.ret ()) := by
  have key : ∀ (n : Nat) (h : Int), 1 ≤ h → (s.len : Int) + 1 - h ≤ n → 1 ≤ n → Eval P m
      (loop n (fun h : Int => if h < s.len then do
          let val ← s.rd h
          insertInner key lt s h val
          pure (.again (h + 1))
        else pure (.brk ())) h) (.ret ()) := by
    intro n
    induction n with
    | zero => intro h _ _ h3; omega
    | succ n ih =>
      intro h h1 h2 _
      by_cases hh : h < s.len
      · refine .again (s' := h + 1) ?_ (ih (h + 1) (by omega) (by push_cast at h2; omega) (by push_cast at h2; omega))
        rw [if_pos hh]
        refine .rd (by omega) hh ?_
        exact .seq (eval_insertInner hlt hs h1 hh (hs.at (by omega) hh)) (.refl _)
      · refine .brk ?_
        rw [if_neg hh]
        exact .refl _
  exact key _ 1 le_rfl (by push_cast; omega) (by omega)

variable (hv : FlatKey F v)
include hv

theorem eval_pivot {s : Slice} (hs : FlatOn F.key v m s) {n : Nat} (hn : 2 ≤ n) (hn' : 2 * n ≤ s.len) :
    Eval P m (pivot F s n) (.ret v) := by
  obtain ⟨h1, h2, h3⟩ := minMaxSample_bounds hn hn'
  unfold pivot
  generalize hmm : minMaxSample s.len n = r at h1 h2 h3
  obtain ⟨first, step, last⟩ := r
  dsimp only at h1 h2 h3 ⊢
  have key : ∀ (k : Nat) (i a : Int) (sample : Mem κ), i + 2 ≤ k → -1 ≤ i → i < n → 0 ≤ a → a + i * step < s.len → (∀ j : Nat, i < j → j < n → sample j = v) →
      ∃ sample', (∀ j < n, sample' j = v) ∧ Eval P m (loop k (fun (st : Int × Int × Mem κ) =>
        if st.1 ≥ 0 then (do
          let x ← s.rd st.2.1
          pure (.again (st.1 - 1, st.2.1 + step, Function.update st.2.2 st.1.toNat (F.key x))) : Prog V Sp _)
        else pure (.brk st.2.2)) (i, a, sample)) (.ret sample') := by
    intro k
    induction k with
    | zero => intro i a _ h4 h5; push_cast at h4; omega
    | succ k ih =>
      intro i a sample h4 h5 h6 h7 h8 h9
      by_cases hi : i ≥ 0
      · have h10 : a < s.len := by nlinarith
        obtain ⟨sample', h11, h12⟩ := ih (i - 1) (a + step) (Function.update sample i.toNat v) (by push_cast at h4; omega) (by omega) (by omega)
          (by omega) (by ring_nf at h8 ⊢; linarith) (by
            intro j hj hj'
            by_cases e : j = i.toNat
            · subst e; simp
            · rw [Function.update_of_ne e]; exact h9 j (by omega) hj')
        refine ⟨sample', h11, .again (s' := (i - 1, a + step, Function.update sample i.toNat v)) ?_ h12⟩
        dsimp only
        rw [if_pos hi]
        refine .rd h7 h10 ?_
        rw [hs.at h7 h10]
        exact .refl _
      · refine ⟨sample, fun j hj => h9 j (by omega) hj, .brk ?_⟩
        dsimp only
        rw [if_neg hi]
        exact .refl _
  obtain ⟨sample', h4, h5⟩ := key (n + 1) ((n : Int) - 1) first (fun _ => F.zero) (by push_cast; omega) (by omega) (by omega) (by omega)
    (by
      have : ((n - 1 : Nat) : Int) = (n : Int) - 1 := by omega
      zify at h2 h3
      rw [this] at h2
      linarith) (by intro j hj hj'; omega)
  refine Eval.seq h5 ?_
  have h6 : (insertion (Sp := Empty) id F.lt ⟨0, n⟩).evalLocal sample' = some ((), sample') := by
    refine Eval.evalLocal (P := ⟨0, False, fun _ _ _ _ _ => False, fun e => e.elim⟩) (by simp) ?_
    exact eval_insertion hv.lt fun a _ ha => h4 a (by simpa using ha)
  rw [h6]
  dsimp only
  have e1 : sample' (n / 2) = v := h4 _ (by omega)
  have e2 : sample' (n / 2 - 1) = v := h4 _ (by omega)
  split
  · rename_i f hf
    rw [e1, e2, hv.mean f hf]
    exact .refl _
  · rw [e1]
    exact .refl _

theorem eval_partOne {s : Slice} (hs : FlatOn F.key v m s) : Eval P m (partOne F s v) (.ret ((s.len / 2 : Nat) : Int)) := by
  have key : ∀ (n : Nat) (l : Int), 0 ≤ l → 2 * l ≤ s.len → 2 * (s.len - 2 * l) + 2 ≤ n →
      Eval P m (loop n (partOneStep F s v) (.start l (s.len - 1 - l))) (.ret ((s.len / 2 : Nat) : Int)) := by
    intro n
    induction n using Nat.strong_induction_on with
    | _ n ih =>
    intro l h0 h1 h2
    obtain ⟨n, rfl⟩ : ∃ n', n = n' + 2 := ⟨n - 2, by omega⟩
    by_cases hl : (s.len : Int) - 1 - l ≤ l
    · refine .again (s' := .last l (s.len - 1 - l)) ?_ (.brk ?_)
      · rw [partOneStep, if_pos hl]; exact .refl _
      · rw [partOneStep]
        have e : ((s.len / 2 : Nat) : Int) = l := by omega
        by_cases h : l = s.len - 1 - l
        · rw [if_pos h]
          refine .rd (by omega) (by omega) ?_
          rw [hs.at (by omega) (by omega), if_neg (by simp [hv.lt]), e]
          exact .refl _
        · rw [if_neg h, e]
          exact .refl _
    · refine .again (s' := .next l (s.len - 1 - l)) ?_ (.again (s' := .start (l + 1) (s.len - 1 - l - 1)) ?_ ?_)
      · rw [partOneStep, if_neg hl]
        refine .rd (by omega) (by omega) ?_
        rw [hs.at (by omega) (by omega), if_pos hv.le]
        refine .rd (by omega) (by omega) ?_
        rw [hs.at (by omega) (by omega), if_neg (by simp [hv.lt])]
        exact .refl _
      · exact .refl _
      · have e : (s.len : Int) - 1 - l - 1 = s.len - 1 - (l + 1) := by ring
        rw [e]
        exact ih n (by omega) (l + 1) (by omega) (by omega) (by push_cast at h2; omega)
  have := key (4 * s.len + 8) 0 le_rfl (by omega) (by push_cast; omega)
  rw [sub_zero] at this
  exact this

end

section
variable {P : Par V Sp} (hv : FlatKey F v)
include hv

theorem eval_partTwo {s : Slice} (hs : FlatOn F.key v m s) {l h : Int} (h0 : 0 ≤ l) (h1 : l ≤ h) (h2 : h + l ≤ s.len) :
    Eval P m (partTwo F s l h v) (.ret (h + l)) := by
  have key : ∀ (n : Nat) (j : Int), 0 ≤ j → j ≤ l → 2 * (l - j) + 1 ≤ n →
      Eval P m (loop n (partTwoStep F s v) (.start (l - 1 - j) (h + j))) (.ret (h + l)) := by
    intro n
    induction n using Nat.strong_induction_on with
    | _ n ih =>
    intro j h3 h4 h5
    obtain ⟨n, rfl⟩ : ∃ n', n = n' + 1 := ⟨n - 1, by omega⟩
    by_cases hl : l - 1 - j < 0
    · refine .brk ?_
      rw [partTwoStep, if_pos hl]
      obtain rfl : j = l := by omega
      exact .refl _
    · obtain ⟨n, rfl⟩ : ∃ n', n = n' + 1 := ⟨n - 1, by push_cast at h5; omega⟩
      refine .again (s' := .next (l - 1 - j) (h + j)) ?_ (.again (s' := .start (l - 1 - j - 1) (h + j + 1)) ?_ ?_)
      · rw [partTwoStep, if_neg hl, if_neg (by omega)]
        refine .rd (by omega) (by omega) ?_
        rw [hs.at (by omega) (by omega), if_pos hv.le]
        refine .rd (by omega) (by omega) ?_
        rw [hs.at (by omega) (by omega), if_neg (by simp [hv.lt])]
        exact .refl _
      · exact .refl _
      · have e : l - 1 - j - 1 = l - 1 - (j + 1) := by ring
        rw [e, add_assoc]
        exact ih n (by omega) (j + 1) (by omega) (by omega) (by push_cast at h5; omega)
  unfold partTwo
  dsimp only
  rw [if_neg (by omega)]
  have := key (4 * s.len + 8) 0 le_rfl h0 (by push_cast; omega)
  rw [sub_zero, add_zero] at this
  exact this

theorem eval_gapHigh {s : Slice} (hs : FlatOn F.key v m s) {r k : Int} (h0 : 0 ≤ r) : Eval P m (gapHigh F s v r k) (.ret k) := by
  have key : ∀ (n : Nat) (r : Int), 0 ≤ r → s.len + 1 - r ≤ n → 1 ≤ n → Eval P m
      (loop n (fun (st : Int × Int) =>
        let (r, k) := st
        if r < s.len then (do
          let x ← s.rd r
          if F.lt (F.key x) v then do
            s.swap r k
            pure (.again (r + 1, k + 1))
          else pure (.again (r + 1, k)) : Prog V Sp _)
        else pure (.brk k)) (r, k)) (.ret k) := by
    intro n
    induction n with
    | zero => intro r _ _ h; omega
    | succ n ih =>
      intro r h1 h2 _
      by_cases hr : r < s.len
      · refine .again (s' := (r + 1, k)) ?_ (ih (r + 1) (by omega) (by push_cast at h2; omega) (by push_cast at h2; omega))
        dsimp only
        rw [if_pos hr]
        refine .rd h1 hr ?_
        rw [hs.at h1 hr, if_neg (by simp [hv.lt])]
        exact .refl _
      · refine .brk ?_
        dsimp only
        rw [if_neg hr]
        exact .refl _
  exact key _ r h0 (by push_cast; omega) (by omega)

end

theorem eval_splitAt {P : Par V Sp} {s : Slice} {k : Int} (h0 : 0 ≤ k) (h1 : k ≤ s.len) :
    ∃ aq ar : Slice, Eval P m (splitAt s k) (.ret (aq, ar)) ∧ min k (s.len - k) ≤ aq.len ∧ min k (s.len - k) ≤ ar.len ∧
      s.off ≤ aq.off ∧ aq.off + aq.len ≤ s.off + s.len ∧ s.off ≤ ar.off ∧ ar.off + ar.len ≤ s.off + s.len := by
  unfold splitAt Slice.sub
  by_cases hk : k < s.len - k
  · simp only [if_pos hk]
    rw [if_pos (by omega), if_pos (by omega)]
    refine ⟨_, _, .refl _, ?_⟩
    dsimp only
    omega
  · simp only [if_neg hk]
    rw [if_pos (by omega), if_pos (by omega)]
    refine ⟨_, _, .refl _, ?_⟩
    dsimp only
    omega

/-- a range of equal elements that can be halved `L` times -/
def Halved (F : Fam V κ) (v : κ) (m : Mem V) (L : Nat) (ar : Slice) : Prop :=
  FlatOn F.key v m ar ∧ 2 ^ L * (2 * F.maxRec + 4) ≤ ar.len + 2

/-- a goroutine that is going to sort such a range, or the caller between two rounds -/
def FlatSorter (F : Fam V κ) (d0 : Nat) (v : κ) (m : Mem V) (L : Nat) (p : Prog V (VSp κ) Unit) : Prop :=
  ∃ (f : Nat) (ar : Slice), L ≤ f ∧ Halved F v m L ar ∧
    ((∃ d rest, p = (long F (f + 1) d ar true).bind rest) ∨ ∃ g, p = gorFull.bind g ∧ g false = sortLoop F d0 (f + 1) ar)

theorem Halved.len {L : Nat} {ar : Slice} (h : Halved F v m L ar) : 2 * F.maxRec + 2 ≤ ar.len := by
  have := h.2
  have : 2 * F.maxRec + 4 ≤ 2 ^ L * (2 * F.maxRec + 4) := Nat.le_mul_of_pos_left _ Nat.one_le_two_pow
  omega

theorem Halved.half {L : Nat} {s t : Slice} (h : Halved F v m (L + 1) s) (h1 : s.len ≤ 2 * t.len + 2) (h2 : s.off ≤ t.off)
    (h3 : t.off + t.len ≤ s.off + s.len) : Halved F v m L t := by
  refine ⟨h.1.sub h2 h3, ?_⟩
  have := h.2
  rw [pow_succ, mul_right_comm] at this
  omega

theorem Halved.mono {L : Nat} {s : Slice} (h : Halved F v m (L + 1) s) : Halved F v m L s :=
  ⟨h.1, le_trans (Nat.mul_le_mul_right _ (Nat.pow_le_pow_right (by norm_num) (by omega))) h.2⟩

theorem nLong_two_six (F : Fam V κ) : 2 ≤ F.nLong ∧ F.nLong ≤ 6 := by
  unfold Fam.nLong nsLong; split <;> omega

theorem nConc_two_eight (F : Fam V κ) : 2 ≤ F.nConc ∧ F.nConc ≤ 8 := by
  unfold Fam.nConc nsConc; split <;> omega

section
variable (hv : FlatKey F v)
include hv

/-- concurrent partitioning -/
theorem steps_partCon {P : Par V (VSp κ)} {d0 : Nat} (hb : P.body = vbody F d0) {s : Slice} (hs : FlatOn F.key v m s) (hl : 16 ≤ s.len)
    (sh : Sh V) (hm : sh.mem = m) (hsy : sh.sync = true) (f : Int → Prog V (VSp κ) Unit) (l₁ l : List (Prog V (VSp κ) Unit)) :
    ∃ k : Int, s.len ≤ 2 * k + 2 ∧ 2 * k ≤ s.len ∧
      HighSteps P P.M ⟨sh, l₁ ++ (partCon F s).bind f :: l⟩ ⟨sh, l₁ ++ f k :: (l ++ [.ret ()])⟩ := by
  subst hm
  have h1 := nConc_two_eight F
  have hh : meanI ((s.len : Int) / 2) s.len = ((s.len : Int) / 2 + s.len) / 2 := rfl
  obtain ⟨low, elow⟩ : ∃ x : Int, x = (s.len : Int) / 2 / 2 := ⟨_, rfl⟩
  obtain ⟨high, ehigh⟩ : ∃ x : Int, x = meanI ((s.len : Int) / 2) s.len := ⟨_, rfl⟩
  have b1 : 0 ≤ low := by omega
  have b2 : low ≤ high := by omega
  have b3 : high + low ≤ s.len := by omega
  obtain ⟨half, ehalf⟩ : ∃ x : Slice, x = ⟨s.off + low.toNat, (high - low).toNat⟩ := ⟨_, rfl⟩
  have hhalf : FlatOn F.key v sh.mem half := hs.sub (by rw [ehalf]; dsimp only; omega) (by rw [ehalf]; dsimp only; omega)
  have elen : (half.len : Int) = high - low := by rw [ehalf]; dsimp only; omega
  refine ⟨low + ((half.len / 2 : Nat) : Int), by omega, by omega, ?_⟩
  have e1 : Eval P sh.mem ((partCon F s).bind f) (.go (.part half v) ((partTwo F s low high v).bind fun r => .recv fun x =>
      (if r < (s.len : Int) / 2 then gapLow F s v r (low + x) else gapHigh F s v r (low + x)).bind f)) := by
    have e : Eval P sh.mem (partCon F s) (.go (.part half v) ((partTwo F s low high v).bind fun r => .recv fun x =>
        if r < (s.len : Int) / 2 then gapLow F s v r (low + x) else gapHigh F s v r (low + x))) := by
      unfold partCon
      refine Eval.seq (eval_pivot hv hs h1.1 (by omega)) ?_
      dsimp only
      rw [← elow, ← ehigh, Slice.sub, if_pos (by omega), ← ehalf]
      exact .refl _
    have := e.bind f
    simp only [Prog.bind, Prog.bind_assoc] at this
    exact this
  have e2 : Eval P sh.mem ((partTwo F s low high v).bind fun r => .recv fun x =>
      (if r < (s.len : Int) / 2 then gapLow F s v r (low + x) else gapHigh F s v r (low + x)).bind f) (.recv fun x =>
      (if high + low < (s.len : Int) / 2 then gapLow F s v (high + low) (low + x) else gapHigh F s v (high + low) (low + x)).bind f) :=
    Eval.seq (eval_partTwo hv hs b1 b2 b3) (.refl _)
  have e3 : Eval P sh.mem (P.body (.part half v)) (.send ((half.len / 2 : Nat) : Int) (.ret ())) := by
    rw [hb]
    exact Eval.seq (eval_partOne hv hhalf) (.refl _)
  have e4 : Eval P sh.mem ((if high + low < (s.len : Int) / 2 then gapLow F s v (high + low) (low + ((half.len / 2 : Nat) : Int))
      else gapHigh F s v (high + low) (low + ((half.len / 2 : Nat) : Int))).bind f) (f (low + ((half.len / 2 : Nat) : Int))) := by
    rw [if_neg (by omega)]
    exact Eval.seq (eval_gapHigh hv hs (by omega)) (.refl _)
  have s1 := e1.steps (L := P.M) (sh := sh) l₁ l
  have s2 := HighSteps.one (P := P) (L := P.M) l₁ l (TStep.go sh (.part half v) ((partTwo F s low high v).bind fun r => .recv fun x =>
      (if r < (s.len : Int) / 2 then gapLow F s v r (low + x) else gapHigh F s v r (low + x)).bind f)) nofun
  have s3 := e2.steps (L := P.M) (sh := sh) l₁ (l ++ [P.body (.part half v)])
  have s4 := e3.steps (L := P.M) (sh := sh) (l₁ ++ (.recv fun x =>
      (if high + low < (s.len : Int) / 2 then gapLow F s v (high + low) (low + x) else gapHigh F s v (high + low) (low + x)).bind f) :: l) []
  have s5 := HighStep.commRS (P := P) (L := P.M) l₁ l [] sh ((half.len / 2 : Nat) : Int) (.ret ()) (fun x =>
      (if high + low < (s.len : Int) / 2 then gapLow F s v (high + low) (low + x) else gapHigh F s v (high + low) (low + x)).bind f) hsy
  have s6 := e4.steps (L := P.M) (sh := sh) l₁ (l ++ [.ret ()])
  simp only [List.append_assoc, List.cons_append] at s1 s2 s3 s4 s5 s6 ⊢
  exact ((((s1.trans s2).trans s3).trans s4).tail s5).trans s6

/-- one round of `sort*`, up to the start of a goroutine -/
theorem steps_round {P : Par V (VSp κ)} {d0 : Nat} (hr : 16 ≤ F.maxRec) (hb : P.body = vbody F d0) {L f : Nat} {s : Slice} (hs : Halved F v m (L + 1) s)
    (hf : L + 1 ≤ f) (sh : Sh V) (hm : sh.mem = m) (hsy : sh.sync = true) (l₁ l : List (Prog V (VSp κ) Unit)) :
    ∃ q, Parked P (FlatSorter F d0 v m L) q ∧
      HighSteps P P.M ⟨sh, l₁ ++ sortLoop F d0 (f + 1) s :: l⟩ ⟨sh, l₁ ++ q :: (l ++ [.ret ()])⟩ := by
  obtain ⟨T, hT, hT'⟩ : ∃ T, sortLoop F d0 (f + 1) s = (partCon F s).bind T ∧ ∀ k aq ar, Eval P m (splitAt s k) (.ret (aq, ar)) → F.maxRec < aq.len →
      2 * (F.maxRec + 1) ≤ ar.len → ∃ g, g false = sortLoop F d0 f ar ∧
        Eval P m (T k) (.incGor fun _ => .go (.long aq f) (gorFull.bind g)) := by
    refine ⟨_, rfl, fun k aq ar h1 h2 h3 => ⟨
      fun stop => if stop then (long F f d0 ar true).bind fun _ => .decGor fun n => if n ≠ 0 then .recv fun _ => .ret () else .ret ()
        else sortLoop F d0 f ar, rfl, Eval.seq h1 ?_⟩⟩
    dsimp only
    rw [if_pos h2, if_neg (by omega)]
    exact .refl _
  have hl := hs.len
  obtain ⟨k, k1, k2, s2⟩ := steps_partCon hv hb hs.1 (by omega) sh hm hsy T l₁ l
  obtain ⟨aq, ar, h5, h6, h7, h8, h9, h10, h11⟩ := eval_splitAt (P := P) (m := m) (s := s) (k := k) (by omega) (by omega)
  have haq := hs.half (t := aq) (by omega) h8 h9
  have har := hs.half (t := ar) (by omega) h10 h11
  have := haq.len
  have := har.len
  obtain ⟨g, hg, e1⟩ := hT' k aq ar h5 (by omega) (by omega)
  obtain ⟨f, rfl⟩ : ∃ f', f = f' + 1 := ⟨f - 1, by omega⟩
  refine ⟨.incGor fun _ => .go (.long aq (f + 1)) (gorFull.bind g), ⟨_, _, rfl, ⟨f, ar, by omega, har, .inr ⟨g, rfl, hg⟩⟩, ?_⟩, ?_⟩
  · rw [hb]
    exact ⟨f, aq, by omega, haq, .inl ⟨d0, _, rfl⟩⟩
  · rw [hT]
    exact s2.trans ((hm ▸ e1 : Eval P sh.mem _ _).steps _ _)

variable (hr : 16 ≤ F.maxRec)
include hr

/-- from the beginning of `long*` to the test of the quota -/
theorem eval_long {P : Par V (VSp κ)} {f d : Nat} {ar : Slice} (hs : FlatOn F.key v m ar) (hl : 2 * F.maxRec + 2 ≤ ar.len) :
    ∃ (aq ar' : Slice) (g : Bool → Prog V (VSp κ) Unit), (ar.len ≤ 2 * aq.len + 1 ∧ ar.off ≤ aq.off ∧ aq.off + aq.len ≤ ar.off + ar.len) ∧
      (ar.len ≤ 2 * ar'.len + 1 ∧ ar.off ≤ ar'.off ∧ ar'.off + ar'.len ≤ ar.off + ar.len) ∧
      g false = .incGor (fun _ => .go (.long ar' f) (long F f d aq true)) ∧
      Eval P m (long F (f + 1) d ar true) (gorFull.bind g) := by
  have h1 := nLong_two_six F
  obtain ⟨aq, ar', h5, h6, h7, h8, h9, h10, h11⟩ := eval_splitAt (P := P) (m := m) (s := ar) (k := ((ar.len / 2 : Nat) : Int)) (by omega) (by omega)
  refine ⟨aq, ar', fun full => if full then match d with
        | 0 => Prog.overflow.bind fun _ : Unit => long F f d ar' true
        | d' + 1 => (long F f d' aq true).bind fun _ => long F f d ar' true
      else .incGor (fun _ => .go (.long ar' f) (long F f d aq true)), ⟨by omega, h8, h9⟩, ⟨by omega, h10, h11⟩, rfl, ?_⟩
  rw [long]
  refine Eval.seq (eval_pivot hv hs h1.1 (by omega)) ?_
  refine Eval.seq (eval_partOne hv hs) ?_
  refine Eval.seq h5 ?_
  dsimp only
  rw [if_neg (by omega)]
  exact .refl _

omit hv hr in
/-- the test of the quota -/
theorem steps_gorFull {P : Par V Sp} {sh : Sh V} (hs : sh.sync = true) (hM : sh.nGor < P.M) {g : Bool → Prog V Sp Unit} (l₁ l₂ : List (Prog V Sp Unit)) :
    HighSteps P P.M ⟨sh, l₁ ++ gorFull.bind g :: l₂⟩ ⟨sh, l₁ ++ g false :: l₂⟩ := by
  have s1 := HighSteps.max (P := P) (sh := sh) (k := fun mg => Prog.loadGor fun n => (Prog.ret (decide (n ≥ mg))).bind g) l₁ l₂
  have s2 := HighSteps.one (P := P) (L := P.M) l₁ l₂ (TStep.loadGor sh (fun n => (Prog.ret (decide (n ≥ P.M))).bind g) sh.nGor hs (.inr rfl)) nofun
  simp only [List.append_nil] at s2
  have e : decide (sh.nGor ≥ P.M) = false := by simpa using hM
  rw [e] at s2
  exact s1.trans s2

theorem flat_splits {P : Par V (VSp κ)} {d0 : Nat} (hb : P.body = vbody F d0) : Splits P m (FlatSorter F d0 v m) where
  park := by
    rintro sh L p l₁ l₂ hm hs hM ⟨f, ar, hf, har, ⟨d, rest, rfl⟩ | ⟨g, rfl, hg⟩⟩
    · obtain ⟨f, rfl⟩ : ∃ f', f = f' + 1 := ⟨f - 1, by omega⟩
      obtain ⟨aq, ar', g, ⟨h4, h4', h4''⟩, ⟨h5, h5', h5''⟩, h8, h9⟩ := eval_long hv hr (P := P) (f := f + 1) (d := d) har.1 har.len
      refine ⟨.incGor (fun _ => .go (.long ar' (f + 1)) ((long F (f + 1) d aq true).bind rest)), [],
        ⟨_, _, rfl, ⟨f, aq, by omega, har.half (by omega) h4' h4'', .inl ⟨d, rest, rfl⟩⟩, ?_⟩, ?_⟩
      · rw [hb]
        exact ⟨f, ar', by omega, har.half (by omega) h5' h5'', .inl ⟨d0, _, rfl⟩⟩
      · refine ((hm ▸ h9.bind rest : Eval P sh.mem _ _).steps (sh := sh) l₁ l₂).trans ?_
        rw [Prog.bind_assoc]
        refine (steps_gorFull hs hM l₁ l₂).trans ?_
        simp only [Prog.bind, h8, List.append_nil]
        exact .refl _
    · obtain ⟨q, h1, h2⟩ := steps_round hv hr hb har hf sh hm hs l₁ l₂
      refine ⟨q, [.ret ()], h1, (steps_gorFull hs hM l₁ l₂).trans ?_⟩
      rw [hg]
      exact h2
  mono := by
    rintro L p ⟨f, ar, hf, har, h⟩
    exact ⟨f, ar, by omega, har.mono, h⟩
  busy := by
    rintro L p ⟨f, ar, hf, har, ⟨d, rest, rfl⟩ | ⟨g, rfl, hg⟩⟩
    · obtain ⟨_, _, g, _, _, _, h9⟩ := eval_long hv hr (P := P) (f := f) (d := d) har.1 har.len
      exact (h9.bind rest).busy rfl
    · rfl

/-- the beginning of `sort*`: the first partition -/
theorem steps_sortV {P : Par V (VSp κ)} {d0 : Nat} (hb : P.body = vbody F d0) (hM : 2 ≤ P.M) {s : Slice} {L : Nat} (hs : Halved F v m (L + 1) s) :
    ∃ p q l, HighSteps P P.M (start (sortV F d0 s) m) ⟨⟨m, 2, true⟩, p :: l ++ [q]⟩ ∧ FlatSorter F d0 v m L p ∧ FlatSorter F d0 v m L q := by
  have hl := hs.len
  have hL : L + 1 < 2 ^ (L + 1) := Nat.lt_two_pow_self
  have hL2 : 2 ^ (L + 1) * 4 ≤ 2 ^ (L + 1) * (2 * F.maxRec + 4) := Nat.mul_le_mul_left _ (by omega)
  have hL3 := hs.2
  obtain ⟨f, hf⟩ : ∃ f, s.len = f + 1 := ⟨s.len - 1, by omega⟩
  have s1 : HighSteps P P.M (start (sortV F d0 s) m) ⟨⟨m, 1, true⟩, [sortLoop F d0 s.len s]⟩ := by
    unfold sortV
    rw [if_neg (by omega)]
    have a1 := HighSteps.max (P := P) [] [] (sh := ⟨m, 0, false⟩) (k := fun mg => (Prog.ret (decide (mg ≤ 1))).bind fun single =>
      if single then (if s.len > F.maxRec then long F s.len d0 s false else if s.len > F.maxIns then short F s.len d0 s else insertion F.key F.lt s)
      else .mkSync (sortLoop F d0 s.len s))
    have e : decide (P.M ≤ 1) = false := by simp; omega
    simp only [Prog.bind, e, List.nil_append, Bool.false_eq_true, if_false] at a1
    have a2 := HighSteps.one (P := P) (L := P.M) [] [] (TStep.mkSync ⟨m, 0, false⟩ (sortLoop F d0 s.len s)) nofun
    exact a1.trans a2
  rw [hf] at s1
  obtain ⟨q, hq, s2⟩ := steps_round hv hr hb hs (f := f) (by omega) ⟨m, 1, true⟩ rfl rfl [] []
  obtain ⟨q', b, h1, h2, s3⟩ := hq.release ⟨m, 1, true⟩ rfl rfl (by norm_num) [] [.ret ()]
  exact ⟨q', b, [.ret ()], (s1.trans s2).trans s3, h1, h2⟩

end

end Sorty
