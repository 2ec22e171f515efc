import Verif.Proofs.LswCon

/-! # The whole of `Sort` -/

namespace Sorty

open Prog

variable {V : Type} {ρ : Type} [LinearOrder ρ]
variable {cmp : Nat → Nat → V → V → Bool → Prop} {r : V → ρ} {C : Conf} {s : Slice} {any : Bool}
variable [Lesswap V] [Lesswap.OK V]

/-- the end of `Sort`: the caller's last range, its decrement and its waiting -/
theorem lswSortEnd_spec (hL : LOKG C s cmp r any) {f : Nat} {lo hi : Int} {g : Gh V LSp} {m : Mem V} (hi0 : Idle g)
    (hr : g.role = .main) (hC : g.C = true) (h0 : 0 ≤ lo) (h1 : hi < s.len) (hW : (s.seg lo hi).rng ⊆ g.W)
    (hl : C.maxLenRecFC ≤ hi - lo) (hf : hi + 1 - lo ≤ f) (hd : 2 * (hi + 1 - lo) < ((2 ^ C.depth : Nat) : Int))
    (hsz : (s.seg lo hi).len / (C.maxLenRecFC + 1) ≤ g.sz)
    (hg : ∀ mf, g.P mf → Agree (g.W \ (s.seg lo hi).rng) m mf → SP r (s.seg lo hi) m mf → g.goal mf) :
    wp (lspecG C s cmp r any) (do
      lswLong C s f C.depth lo hi true
      let n ← .decGor .ret
      if n ≠ 0 then do
        let _ ← .recv .ret
        pure ()
      else pure ()) g m endQ := by
  refine wp_bind (wp_mono (lswLong_spec hL f C.depth lo hi true g m hi0 (fun _ => hC) h0 h1 hW hl hf hd le_rfl hsz) ?_)
  intro _ g1 m1 h1
  have hi1 := hi0.same h1.same
  refine ⟨h1.same.C.trans hC, hi1.ph, hi1.role, hi1.J, hi1.T, ?_, fun n => ?_⟩
  · intro mf hP hag
    rw [h1.same.goal]
    refine hg mf (h1.P mf hP) (h1.mem.trans (hag.mono h1.Wlo)) (h1.done mf hP (hag.mono Set.inter_subset_left))
  · have hr1 : g1.role = .main := h1.same.role.trans hr
    show wp _ (if n ≠ 0 then _ else _) _ _ _
    split_ifs with hn
    · refine .inr ⟨hr1, ?_, fun v => .inl rfl⟩
      simp [afterDec, hn, hr1]
    · push Not at hn
      subst hn
      left
      simp [afterDec, hr1]

theorem lswSortLoop_spec (hL : LOKG C s cmp r any) : ∀ (f : Nat) (lo hi : Int) (g : Gh V LSp) (m : Mem V),
    Idle g → g.role = .main → g.C = true → g.S = true → g.R = ∅ → 0 ≤ lo → hi < s.len → (s.seg lo hi).rng ⊆ g.W →
    2 * (C.maxLenRecFC : Int) < hi - lo →
    hi + 1 - lo ≤ f → 2 * (hi + 1 - lo) < ((2 ^ C.depth : Nat) : Int) → (s.seg lo hi).len / (C.maxLenRecFC + 1) ≤ g.sz →
    (∀ mf, g.P mf → Agree (g.W \ (s.seg lo hi).rng) m mf → SP r (s.seg lo hi) m mf → g.goal mf) →
    wp (lspecG C s cmp r any) (lswSortLoop C s f lo hi) g m endQ := by
  have h8 := hL.ins
  have hrr := hL.recOK
  intro f
  induction f with
  | zero => intro lo hi g m _ _ _ _ _ _ _ _ h1 h2; omega
  | succ f ih =>
    intro lo hi g m hi0 hr hC hS hR h0 h1 hW hl hf hd hsz hg
    unfold lswSortLoop
    refine wp_bind (wp_mono (lswPartCon_spec hL hi0 hr hC hS hR h0 h1 hW (by omega)) ?_)
    rintro k g' m1 ⟨rfl, hc⟩
    obtain ⟨p, pl, ph⟩ := hc.part
    obtain ⟨l, h, lo', hi', he, hsp, b1, b2, b3, b4, b5, b6, b7, b8, b9⟩ := lswSplit_spec h0 hc.k0 hc.k1 hc.rp pl ph
    rw [he]
    dsimp only
    obtain ⟨u1, u2, u3, u4⟩ := hsp.sub
    have hle := hsp.le
    have hpos := hsp.pos
    have hsum := hsp.sum
    have n1 := seg_len (s := s) (lo := l) (hi := h) (by omega)
    have n2 := seg_len (s := s) (lo := lo') (hi := hi') (by omega)
    have n3 := seg_len (s := s) (lo := lo) (hi := hi) (by omega)
    have hu : (s.seg l h).len / (C.maxLenRecFC + 1) + (s.seg lo' hi').len / (C.maxLenRecFC + 1) ≤ (s.seg lo hi).len / (C.maxLenRecFC + 1) := by
      rw [← hsum]; exact div_add_le ..
    have hua : (s.seg l h).len / (C.maxLenRecFC + 1) ≤ (s.seg lo hi).len / (C.maxLenRecFC + 1) := le_trans (Nat.le_add_right ..) hu
    have hub : (s.seg lo' hi').len / (C.maxLenRecFC + 1) ≤ (s.seg lo hi).len / (C.maxLenRecFC + 1) := le_trans (Nat.le_add_left ..) hu
    have hu1 : ∀ {x : Slice}, C.maxLenRecFC < x.len → 0 < x.len / (C.maxLenRecFC + 1) := fun h => Nat.div_pos h (by omega)
    -- the rest, once `[l,h]` is taken care of
    have key : ∀ g1 m2 n, n ≤ (s.seg l h).len / (C.maxLenRecFC + 1) → Reg (s.seg l h).rng (SP r (s.seg l h) m1) n g' m1 g1 m2 →
        wp (lspecG C s cmp r any) (do
          let stop ← if hi' - lo' ≤ 2 * (C.maxLenRecFC : Int) then pure true else gorFull
          if stop then do
            lswLong C s f C.depth lo' hi' true
            let n ← .decGor .ret
            if n ≠ 0 then do
              let _ ← .recv .ret
              pure ()
            else pure ()
          else lswSortLoop C s f lo' hi') g1 m2 endQ := by
      intro g1 m2 n hn h1
      have hs1 := h1.same
      have hi1 := hi0.same hs1
      have hsz1 := h1.sz
      have ag : Agree (s.seg lo' hi').rng m1 m2 := h1.mem.mono fun i hi' => ⟨hW (u2 hi'), Set.disjoint_right.1 u3 hi'⟩
      have hW1 : (s.seg lo' hi').rng ⊆ g1.W := fun i hi' => h1.Wlo ⟨hW (u2 hi'), Set.disjoint_right.1 u3 hi'⟩
      have hg1 : ∀ mf, g1.P mf → Agree (g1.W \ (s.seg lo' hi').rng) m2 mf → SP r (s.seg lo' hi') m2 mf → g1.goal mf := by
        intro mf hP hag hS2
        rw [hs1.goal]
        refine hg mf (h1.P mf hP) ?_ (hsp.glue (h1.done mf hP ?_) (hS2.congr ag.symm (Agree.refl _ _)))
        · rintro i ⟨hi', hn'⟩
          have c1 : i ∉ (s.seg l h).rng := fun hh => hn' (u1 hh)
          have c2 : i ∉ (s.seg lo' _).rng := fun hh => hn' (u2 hh)
          rw [hc.mem i ⟨hi', hn'⟩, h1.mem i ⟨hi', c1⟩]
          exact hag i ⟨h1.Wlo ⟨hi', c1⟩, c2⟩
        · exact hag.mono fun i hi' => ⟨hi'.1, Set.disjoint_left.1 u3 hi'.2⟩
      by_cases hc2 : hi' - lo' ≤ 2 * (C.maxLenRecFC : Int)
      · rw [if_pos hc2]
        exact lswSortEnd_spec hL hi1 (hs1.role.trans hr) (hs1.C.trans hC) (by omega) (by omega) hW1 (by omega) (by omega) (by omega) (by omega) hg1
      · rw [if_neg hc2]
        refine ⟨hi1.ph, fun mg => ⟨hs1.C.trans hC, hi1.ph, hi1.role, hi1.J, fun n => ?_⟩⟩
        show wp (lspecG C s cmp r any) (if decide (n ≥ mg) = true then _ else _) _ _ _
        have hi2 : Idle { g1 with mg := mg, S := decide (n < mg) } := ⟨hi1.ph, hi1.role, hi1.T, hi1.J⟩
        by_cases hn : n < mg
        · rw [if_neg (by simp; omega)]
          exact ih lo' hi' _ m2 hi2 (hs1.role.trans hr) (hs1.C.trans hC) (by simp [hn]) (hs1.R.trans hR) (by omega) (by omega) hW1 (by omega) (by omega)
            (by omega) (by dsimp only; omega) hg1
        · rw [if_pos (by simp; omega)]
          exact lswSortEnd_spec hL hi2 (hs1.role.trans hr) (hs1.C.trans hC) (by omega) (by omega) hW1 (by omega) (by omega) (by omega)
            (by dsimp only; omega) hg1
    by_cases hq : h - l ≥ C.maxLenRecFC
    · rw [if_pos hq]
      refine wp_bind (spawn_wp (S := lspecG C s cmp r any) (s := .long l h f) hi0 hC hS rfl (u1.trans hW) rfl
        ⟨by omega, by omega, hq, by omega, by omega⟩ ?_ ?_ ?_)
      · exact hu1 (by omega)
      · have := hu1 (x := s.seg lo' hi') (by omega)
        show (s.seg l h).len / (C.maxLenRecFC + 1) < g'.sz; omega
      · intro g1 h1 _ _ _
        exact key g1 m1 _ le_rfl h1
    · rw [if_neg hq]
      by_cases hq2 : h - l ≥ C.maxLenInsFC
      · rw [if_pos hq2]
        exact wp_bind (lseq_wp (R := ∅) hi0.ph (u1.trans hW) (by simp) (lswShort_gen hL.weak hL.part h8 f C.depth l h m1 (by omega) (by omega) subset_rfl (by omega) (by omega)
            (by omega)) fun _ m2 h2 => key g' m2 0 (Nat.zero_le _) (Reg.sorted (u1.trans hW) h2))
      · rw [if_neg hq2]
        exact wp_bind (lseq_wp (R := ∅) hi0.ph (u1.trans hW) (by simp) (lswInsertion_spec hL.weak (by omega) (by omega) b2 subset_rfl)
          fun _ m2 h2 => key g' m2 0 (Nat.zero_le _) (Reg.sorted (u1.trans hW) h2))

omit [Lesswap V] [Lesswap.OK V] in
theorem seg_all : s.seg 0 ((s.len : Int) - 1) = s := by
  unfold Slice.seg
  simp

/-- the goroutines keep their contracts -/
theorem lswBody_ok (hL : LOKG C s cmp r any) {P : Par V LSp} (hP : P.body = lswBody C s) : BodyOK P (lspecG C s cmp r any) := by
  rintro (⟨l, pv, h⟩ | ⟨lo, hi, f⟩) m hpre
  · rw [hP]
    cases any with
    | false =>
      obtain ⟨p0, p1, p2, p3⟩ := hpre
      refine wp_bind (lseq_wp (W := s.but l pv h) (R := {s.ad pv}) rfl subset_rfl Set.subset_union_right (lswPartOne_spec hL.ok p0 p1 p2 p3 subset_rfl (.inr rfl)) ?_)
      intro k m' h
      exact .inl ⟨rfl, rfl, ⟨m, m', Agree.refl _ _, Agree.refl _ _, h⟩, .inl rfl⟩
    | true =>
      obtain ⟨p0, p1, p2, p3⟩ := hpre
      refine wp_bind (lseq_wp (W := (s.seg l h).rng) (R := ∅) rfl subset_rfl (by simp) (lswPartOne_any hL.weak p0 p1 p2 p3 subset_rfl) ?_)
      rintro k m' ⟨h1, h2, h3⟩
      exact .inl ⟨rfl, rfl, ⟨h1, h2, h3.on⟩, .inl rfl⟩
  · rw [hP]
    obtain ⟨p0, p1, p2, p3, p4⟩ := hpre
    have n3 := seg_len (s := s) (lo := lo) (hi := hi) (by omega)
    refine wp_bind (wp_mono (lswLong_spec hL f C.depth lo hi true _ m ⟨rfl, by simp [childGh, lspecG], rfl, rfl⟩ (fun _ => rfl) p0 p1 subset_rfl p2 p3 p4 le_rfl ?_) ?_)
    · exact le_rfl
    intro _ g1 m1 h1
    have hs := h1.same
    have hrole : g1.role = .sorter := hs.role
    refine ⟨hs.C, hs.ph, by rw [hrole]; simp, hs.J, hs.T, ?_, fun n => ?_⟩
    · intro mf hP hag
      rw [hs.goal]
      exact h1.done mf hP (hag.mono Set.inter_subset_left)
    · show wp _ (if n = 0 then _ else _) _ _ _
      split_ifs with hn
      · subst hn
        refine .inr ⟨hrole, ?_, rfl, .inl rfl⟩
        simp [afterDec, hrole]
      · left
        simp [afterDec, hrole, hn]

/-- verification parameters of a call of `Sort` -/
def lswIPar (C : Conf) (s : Slice) (r : V → ρ) (m : Mem V) : IPar V LSp :=
  { N := s.len / (C.maxLenRecFC + 1), W0 := s.rng, G := SP r s m, big := decide (2 * (C.maxLenRecFC : Int) < (s.len : Int) - 1) }

omit [Lesswap V] [Lesswap.OK V] in
theorem SP.refl_small {s : Slice} {m m' : Mem V} (hl : s.len ≤ 1) (h : Agree s.rng m m') : SP r s m m' := by
  refine ⟨(RPon.refl _ m).congr (Agree.refl _ _) h, ?_⟩
  intro a b ha hab hb
  have : a = b := by omega
  rw [this]

/-- `Sort` as a whole -/
theorem lswSort_wp (hL : LOKG C s cmp r any) {m : Mem V} (hd : DepthFor C.depth s.len) :
    wp (lspecG C s cmp r any) (SortLsw C s.len s) (mainGh s.rng (SP r s m) (lswIPar C s r m).big (s.len / (C.maxLenRecFC + 1))) m endQ := by
  have h8 := hL.ins
  have hrr := hL.recOK
  have hfit := hL.fits
  unfold FitsInt at hfit
  have hP' : (2 : Int) ^ (8 * C.wordSize - 1) = ((2 ^ (8 * C.wordSize - 1) : Nat) : Int) := by push_cast; rfl
  have hP : 2 ^ 31 ≤ 2 ^ (8 * C.wordSize - 1) := by rcases hL.word with h | h <;> rw [h] <;> norm_num
  have hp := depth_pow hd
  have hwrap : wrapInt C.wordSize ((s.len : Int) - 1) = (s.len : Int) - 1 :=
    wrapInt_id hL.word (by rw [hP']; omega) (by rw [hP']; omega)
  have hn3 : s.seg 0 ((s.len : Int) - 1) = s := seg_all
  unfold SortLsw
  rw [hwrap]
  dsimp only
  have hf : ((s.len : Int) - 1 + 1).toNat = s.len := by omega
  rw [hf]
  have seqEnd : ∀ {k : Nat} {m'}, SP r s m m' →
      endQ () ({ mainGh s.rng (SP r s m) (lswIPar C s r m).big (s.len / (C.maxLenRecFC + 1)) with mg := k } : Gh V LSp) m' := by
    intro k m' h
    refine .inr ⟨rfl, rfl, rfl, fun mf hP hag => ?_⟩
    exact h.congr (Agree.refl _ _) hag
  have single : ∀ k, wp (lspecG C s cmp r any) (if (s.len : Int) - 1 ≥ C.maxLenRecFC then lswLong C s s.len C.depth 0 ((s.len : Int) - 1) false
    else if (s.len : Int) - 1 ≥ C.maxLenInsFC then lswShort C s s.len C.depth 0 ((s.len : Int) - 1)
    else if (s.len : Int) - 1 > 0 then lswInsertion s 0 ((s.len : Int) - 1)
    else pure ()) { mainGh s.rng (SP r s m) (lswIPar C s r m).big (s.len / (C.maxLenRecFC + 1)) with mg := k } m endQ := by
    intro k
    by_cases c1 : (s.len : Int) - 1 ≥ C.maxLenRecFC
    · rw [if_pos c1]
      refine wp_mono (lswLong_spec hL s.len C.depth 0 _ false _ m ⟨rfl, by simp [mainGh], rfl, rfl⟩ (by simp) le_rfl (by omega)
        (by rw [hn3]; exact subset_rfl) (by omega) (by omega) (by omega) le_rfl (by rw [hn3]; exact le_rfl)) ?_
      rw [hn3]
      intro _ g1 m1 h2
      refine .inr ⟨h2.same.role, h2.same.C, h2.same.ph, fun mf hP hag => ?_⟩
      rw [h2.same.goal]
      exact h2.done mf hP (hag.mono Set.inter_subset_left)
    · rw [if_neg c1]
      by_cases c2 : (s.len : Int) - 1 ≥ C.maxLenInsFC
      · rw [if_pos c2]
        refine lseq_wp (W := s.rng) (R := ∅) rfl subset_rfl (by simp) (lswShort_gen hL.weak hL.part h8 s.len C.depth 0 _ m le_rfl (by omega)
          (by rw [hn3]) (by omega) (by omega) (by omega)) ?_
        rw [hn3]
        intro _ m' h
        exact seqEnd (k := k) ⟨h.1.on, h.2⟩
      · rw [if_neg c2]
        by_cases c3 : (s.len : Int) - 1 > 0
        · rw [if_pos c3]
          refine lseq_wp (W := s.rng) (R := ∅) rfl subset_rfl (by simp) (lswInsertion_spec hL.weak le_rfl (by omega) (by omega)
            (by rw [hn3])) ?_
          rw [hn3]
          intro _ m' h
          exact seqEnd (k := k) ⟨h.1.on, h.2⟩
        · rw [if_neg c3]
          exact seqEnd (k := k) (SP.refl_small (by omega) (Agree.refl _ _))
  by_cases hs : (s.len : Int) - 1 ≤ 2 * (C.maxLenRecFC : Int)
  · rw [if_pos hs]
    exact single _
  · rw [if_neg hs]
    refine ⟨rfl, fun mg => ?_⟩
    show wp (lspecG C s cmp r any) (if decide (mg ≤ 1) = true then _ else _) _ _ _
    by_cases hm : mg ≤ 1
    · rw [if_pos (by simp [hm])]
      exact single mg
    · rw [if_neg (by simp; omega)]
      refine ⟨rfl, rfl, rfl, ?_, by dsimp only; omega, ?_, rfl, rfl, ?_⟩
      · simp only [mainGh, lswIPar, decide_eq_true_eq]; omega
      · exact Nat.div_pos (by omega) (by omega)
      · refine lswSortLoop_spec hL s.len 0 _ _ m ⟨rfl, by simp [mainGh], rfl, rfl⟩ rfl rfl rfl rfl le_rfl (by omega)
          (by rw [hn3]; exact subset_rfl) (by omega) (by omega) (by omega) (by rw [hn3]; exact le_rfl) ?_
        rw [hn3]
        intro mf _ _ h
        exact h

theorem lsw_hyp (hL : LOKG C s cmp r any) (m : Mem V) (M : Nat) (stale : Prop) :
    Hyp (lswPar C s cmp M stale) (lspecG C s cmp r any) (lswIPar C s r m) where
  loc := lspec_local
  body := lswBody_ok hL rfl
  N := by
    have hfit := hL.fits
    unfold FitsInt at hfit
    have hP : 2 ^ (8 * C.wordSize - 1) ≤ 2 ^ 63 := by rcases hL.word with h | h <;> rw [h] <;> norm_num
    show s.len / (C.maxLenRecFC + 1) < 2 ^ 64
    have := Nat.div_le_self s.len (C.maxLenRecFC + 1)
    omega
  cmp := fun _ _ _ _ _ h => h
  tot := fun _ _ _ _ => hL.weak.tot _ _ _ _

theorem lsw_start (hL : LOKG C s cmp r any) {m : Mem V} (hd : DepthFor C.depth s.len) (M : Nat) (stale : Prop) :
    ∃ ts, Inv (lswPar C s cmp M stale) (lspecG C s cmp r any) (lswIPar C s r m) (start (SortLsw C s.len s) m) ts :=
  Inv.start (n := s.len / (C.maxLenRecFC + 1)) le_rfl (lswSort_wp hL hd)

end Sorty
