import Verif.Proofs.Short
import Verif.Logic.Safe

/-! # Long ranges and concurrent sorting -/

namespace Sorty

open Prog

section region

variable {V Sp : Type}

/-- ghost states of the same goroutine, between the operations of the spawning protocol -/
structure Same (g g' : Gh V Sp) : Prop where
  role : g'.role = g.role
  ph : g'.ph = g.ph
  R : g'.R = g.R
  goal : g'.goal = g.goal
  pgoal : g'.pgoal = g.pgoal
  C : g'.C = g.C
  big : g'.big = g.big
  T : g'.T = g.T
  J : g'.J = g.J

/-- Between `(g,m)` and `(g',m')` the goroutine took care of region `A`, partly by itself, partly by spawning:
once the spawned sorters have kept their promises, `goal` holds. -/
structure Reg (A : Set Nat) (goal : Mem V → Prop) (used : Nat) (g : Gh V Sp) (m : Mem V) (g' : Gh V Sp) (m' : Mem V) :
    Prop where
  same : Same g g'
  Wlo : g.W \ A ⊆ g'.W
  Whi : g'.W ⊆ g.W
  mem : Agree (g.W \ A) m m'
  P : ∀ mf, g'.P mf → g.P mf
  done : ∀ mf, g'.P mf → Agree (g'.W ∩ A) m' mf → goal mf
  sz : g.sz ≤ g'.sz + used

theorem Same.refl (g : Gh V Sp) : Same g g := ⟨rfl, rfl, rfl, rfl, rfl, rfl, rfl, rfl, rfl⟩

theorem Same.trans {g g' g'' : Gh V Sp} (h : Same g g') (h' : Same g' g'') : Same g g'' :=
  ⟨h'.role.trans h.role, h'.ph.trans h.ph, h'.R.trans h.R, h'.goal.trans h.goal, h'.pgoal.trans h.pgoal,
    h'.C.trans h.C, h'.big.trans h.big, h'.T.trans h.T, h'.J.trans h.J⟩

theorem Reg.weaken {A B : Set Nat} {G G' : Mem V → Prop} {n n' : Nat} {g g' : Gh V Sp} {m m' : Mem V}
    (h : Reg A G n g m g' m') (hA : A ⊆ B) (hG : ∀ mf, G mf → G' mf) (hn : n ≤ n') : Reg B G' n' g m g' m' where
  same := h.same
  Wlo := fun _ hi => h.Wlo ⟨hi.1, fun hh => hi.2 (hA hh)⟩
  Whi := h.Whi
  mem := h.mem.mono fun _ hi => ⟨hi.1, fun hh => hi.2 (hA hh)⟩
  P := h.P
  done := fun mf hP hag => hG _ (h.done mf hP (hag.mono fun _ hi => ⟨hi.1, hA hi.2⟩))
  sz := by have := h.sz; omega

theorem Reg.comp {A B : Set Nat} {G G' : Mem V → Prop} {n n' : Nat} {g g' g'' : Gh V Sp} {m m' m'' : Mem V}
    (hd : Disjoint A B) (h : Reg A G n g m g' m') (h' : Reg B G' n' g' m' g'' m'') :
    Reg (A ∪ B) (fun mf => G mf ∧ G' mf) (n + n') g m g'' m'' where
  same := h.same.trans h'.same
  Wlo := by
    rintro i ⟨hi, hn⟩
    exact h'.Wlo ⟨h.Wlo ⟨hi, fun hh => hn (.inl hh)⟩, fun hh => hn (.inr hh)⟩
  Whi := h'.Whi.trans h.Whi
  mem := by
    rintro i ⟨hi, hn⟩
    have h1 : i ∉ A := fun hh => hn (.inl hh)
    have h2 : i ∉ B := fun hh => hn (.inr hh)
    exact (h.mem i ⟨hi, h1⟩).trans (h'.mem i ⟨h.Wlo ⟨hi, h1⟩, h2⟩)
  P := fun mf hP => h.P mf (h'.P mf hP)
  done := by
    intro mf hP hag
    refine ⟨h.done mf (h'.P mf hP) ?_, h'.done mf hP (hag.mono fun _ hi => ⟨hi.1, .inr hi.2⟩)⟩
    rintro i ⟨hi, hA⟩
    have hB : i ∉ B := Set.disjoint_left.1 hd hA
    exact (h'.mem i ⟨hi, hB⟩).trans (hag i ⟨h'.Wlo ⟨hi, hB⟩, .inl hA⟩)
  sz := by have := h.sz; have := h'.sz; omega

/-- sequential work on a region -/
theorem Reg.seq {A : Set Nat} {G : Mem V → Prop} {g : Gh V Sp} {m m' : Mem V} (hA : A ⊆ g.W)
    (hm : Agree (g.W \ A) m m') (hG : ∀ mf, Agree A m' mf → G mf) : Reg A G 0 g m g m' where
  same := Same.refl g
  Wlo := Set.sdiff_subset
  Whi := subset_rfl
  mem := hm
  P := fun _ h => h
  done := fun mf _ hag => hG mf (hag.mono fun i hi => ⟨hA hi, hi⟩)
  sz := by omega

/-- a sequential prologue on the same region: `m` is rearranged to `m1`, then the parts are taken care of -/
theorem Reg.pre {A : Set Nat} {G : Mem V → Prop} {n : Nat} {g g' : Gh V Sp} {m m1 m' : Mem V}
    (hm : Agree (g.W \ A) m m1) (h : Reg A G n g m1 g' m') : Reg A G n g m g' m' :=
  { h with mem := hm.trans h.mem }

/-- `S`, `mg` of the starting state are irrelevant -/
theorem Reg.of_S {A : Set Nat} {G : Mem V → Prop} {n : Nat} {g g' : Gh V Sp} {m m' : Mem V} {b : Bool} {k : Nat}
    (h : Reg A G n { g with S := b, mg := k } m g' m') : Reg A G n g m g' m' :=
  ⟨⟨h.same.role, h.same.ph, h.same.R, h.same.goal, h.same.pgoal, h.same.C, h.same.big, h.same.T, h.same.J⟩,
    h.Wlo, h.Whi, h.mem, h.P, h.done, h.sz⟩

/-- a goroutine between operations of the spawning protocol -/
structure Idle (g : Gh V Sp) : Prop where
  ph : g.ph = .run
  role : g.role ≠ .part
  T : g.T = false
  J : g.J = none

theorem Idle.same {g g' : Gh V Sp} (h : Idle g) (hs : Same g g') : Idle g' :=
  ⟨hs.ph.trans h.ph, by rw [hs.role]; exact h.role, hs.T.trans h.T, hs.J.trans h.J⟩

theorem Idle.of_S {g g' : Gh V Sp} {b : Bool} {k : Nat} (h : Idle g) (hs : Same { g with S := b, mg := k } g') : Idle g' :=
  Idle.same (g := { g with S := b, mg := k }) ⟨h.ph, h.role, h.T, h.J⟩ hs

/-- spawning a sorter (`atomic.AddUint64(&sv.ngr, 1); go gLong*(…)`) -/
theorem spawn_wp {S : Spec V Sp} {g : Gh V Sp} {m : Mem V} (hi : Idle g) (hC : g.C = true) (hS : g.S = true) {s : Sp}
    (hp : S.isPart s = false) (hW : S.W s ⊆ g.W) (hR : S.R s = ∅) (hpre : S.pre s m) (h0 : 0 < S.sz s)
    (h1 : S.sz s < g.sz) {α : Type} {k : Prog V Sp α} {Q : α → Gh V Sp → Mem V → Prop}
    (hQ : ∀ g', Reg (S.W s) (S.goal s m) (S.sz s) g m g' m → g'.W = g.W \ S.W s → g'.sz = g.sz - S.sz s →
      g'.S = false → wp S k g' m Q) :
    wp S (.incGor fun _ => .go s k) g m Q := by
  refine ⟨hC, hi.ph, hi.role, hi.J, hS, hi.T, by omega, fun n => ?_⟩
  unfold wp
  rw [hp]
  rw [if_neg (by simp)]
  refine ⟨hi.role, hC, hi.ph, hi.J, rfl, hW, hR, hpre, h0, h1, ?_⟩
  refine hQ _ ⟨⟨rfl, rfl, rfl, rfl, rfl, rfl, rfl, hi.T.symm, rfl⟩, subset_rfl, Set.sdiff_subset, Agree.refl _ _,
    fun mf h => h.1, fun mf h _ => h.2, ?_⟩ rfl rfl rfl
  dsimp only; omega

end region

variable {V κ : Type} {ρ : Type} [LinearOrder ρ]
variable {F : Fam V κ} {ok : κ → Prop} {rk : κ → ρ}

/-- contracts of the goroutines of the value sorters -/
def vspec (F : Fam V κ) (ok : κ → Prop) (rk : κ → ρ) (d : Nat) : Spec V (VSp κ) where
  isPart | .part .. => true | .long .. => false
  W | .part ar _ => ar.rng | .long ar _ => ar.rng
  R := fun _ => ∅
  sz | .part .. => 0 | .long ar _ => ar.len / (F.maxRec + 1)
  pre
    | .part ar pv, m => ok pv ∧ ∀ a ∈ ar.rng, ok (F.key (m a))
    | .long ar f, m => F.maxRec < ar.len ∧ ar.len ≤ f ∧ 2 * ar.len < 2 ^ d ∧ ∀ a ∈ ar.rng, ok (F.key (m a))
  goal
    | .part .., _ => fun _ => True
    | .long ar _, m => SP (fun v => rk (F.key v)) ar m
  ppost
    | .part ar pv, m => fun v m' => ∃ m0 m1, Agree ar.rng m m0 ∧ Agree ar.rng m1 m' ∧ P1Post F rk (rk pv) ar m0 v m1
    | .long .., _ => fun _ _ => True
  cmp := fun _ _ _ _ _ => True

theorem vspec_local (d : Nat) : (vspec F ok rk d).Local where
  pre := by
    rintro (⟨ar, pv⟩ | ⟨ar, f⟩) m m' ha h
    · refine ⟨h.1, fun a hm => ?_⟩
      rw [← ha a (.inl hm)]; exact h.2 a hm
    · refine ⟨h.1, h.2.1, h.2.2.1, fun a hm => ?_⟩
      rw [← ha a (.inl hm)]; exact h.2.2.2 a hm
  goal := by
    rintro (⟨ar, pv⟩ | ⟨ar, f⟩) m m' ha
    · rfl
    · funext mf
      have ha' : Agree ar.rng m m' := ha.mono Set.subset_union_left
      exact propext ⟨fun h => h.congr ha' (Agree.refl _ _), fun h => h.congr ha'.symm (Agree.refl _ _)⟩
  ppost := by
    rintro (⟨ar, pv⟩ | ⟨ar, f⟩) m m' ha
    · funext v mf
      have ha' : Agree ar.rng m m' := ha.mono Set.subset_union_left
      refine propext ⟨?_, ?_⟩
      · rintro ⟨m0, m1, h1, h2⟩; exact ⟨m0, m1, ha'.symm.trans h1, h2⟩
      · rintro ⟨m0, m1, h1, h2⟩; exact ⟨m0, m1, ha'.trans h1, h2⟩
    · rfl
  ppost' := by
    rintro (⟨ar, pv⟩ | ⟨ar, f⟩) m v m' m'' ha h
    · obtain ⟨m0, m1, h1, h2, h3⟩ := h
      exact ⟨m0, m1, h1, h2.trans (ha.mono Set.subset_union_left), h3⟩
    · trivial

variable {dd : Nat}

/-- sequential code inside a goroutine -/
theorem seq_wp {α : Type} {g : Gh V (VSp κ)} {m : Mem V} (hph : g.ph = .run) {W : Set Nat} (hW : W ⊆ g.W)
    {p : Prog V (VSp κ) α} {Q : α → Mem V → Prop} {Q' : α → Gh V (VSp κ) → Mem V → Prop}
    (h : swp (fun _ _ _ _ _ => True) W ∅ p m Q) (hQ : ∀ a m', Q a m' → Q' a g m') :
    wp (vspec F ok rk dd) p g m Q' := by
  refine wp_mono (swp_wp (S := vspec F ok rk dd) (fun _ _ _ _ _ h => h) hph hW (by simp) h) ?_
  rintro a g' m' ⟨rfl, hq⟩
  exact hQ a m' hq

theorem RP.agree_sdiff {A W : Set Nat} {m m' : Mem V} (h : RP A m m') : Agree (W \ A) m m' :=
  fun _ hi => (h.out hi.2).symm

/-- sequential sorting of a region -/
theorem Reg.sorted {Sp : Type} {r : V → ρ} {g : Gh V Sp} {m m' : Mem V} {s : Slice} (hW : s.rng ⊆ g.W)
    (h : RP s.rng m m' ∧ SortedOn r m' s.off (s.off + s.len)) : Reg s.rng (SP r s m) 0 g m g m' :=
  Reg.seq hW h.1.agree_sdiff fun _ hag => SP.congr ⟨h.1.on, h.2⟩ (Agree.refl _ _) hag

theorem Agree.keyOK {s : Slice} {m m' : Mem V} (h : Agree s.rng m m') (hok : ∀ a ∈ s.rng, ok (F.key (m a))) :
    ∀ a ∈ s.rng, ok (F.key (m' a)) := fun a ha => by rw [← h a ha]; exact hok a ha

/-- pivot, partition and split of a long range -/
theorem partStep_spec (hF : FamOK F ok rk) {ar : Slice} {m : Mem V} (hl : F.maxRec < ar.len)
    (hok : ∀ a ∈ ar.rng, ok (F.key (m a))) {α : Type} {k : Slice × Slice → Prog V (VSp κ) α} {g : Gh V (VSp κ)}
    (hph : g.ph = .run) (hW : ar.rng ⊆ g.W) {Q : α → Gh V (VSp κ) → Mem V → Prop}
    (hQ : ∀ aq ar' m', RP ar.rng m m' → Split (fun v => rk (F.key v)) ar aq ar' m m' →
      wp (vspec F ok rk dd) (k (aq, ar')) g m' Q) :
    wp (vspec F ok rk dd) (do
      let pv ← pivot F ar F.nLong
      let i ← partOne F ar pv
      let x ← splitAt ar i
      k x) g m Q := by
  have h8 : 8 < F.maxIns := hF.ins
  have hr := hF.recOK
  have hn : 5 ≤ F.nLong ∧ (F.mean ≠ none → 6 ≤ F.nLong) ∧ F.nLong ≤ 6 := by
    unfold Fam.nLong nsLong
    cases F.mean <;> simp
  refine wp_bind (seq_wp hph hW (pivot_spec hF (by simp) hn.1 hn.2.1 (by omega) hok) ?_)
  rintro pv m1 ⟨rfl, hp⟩
  refine wp_bind (seq_wp hph hW (partOne_spec hF subset_rfl hp.okp hok) ?_)
  intro i m2 hk
  obtain ⟨k0, k1⟩ := hk.inner hp.two (by omega)
  refine wp_bind (seq_wp (W := ∅) hph (Set.empty_subset _) (splitAt_spec k0.le k1.le (Q := fun x m' => m' = m2 ∧ Split (fun v => rk (F.key v)) ar x.1 x.2 m1 m2) ?_) ?_)
  · intro aq ar' hle hc
    exact ⟨rfl, split_of hk.rp.on k0 k1 hk.low hk.high hle hc⟩
  · rintro ⟨aq, ar'⟩ m' ⟨rfl, hs⟩
    exact hQ aq ar' m' hk.rp hs

theorem Split.reg {Sp : Type} {r : V → ρ} {s aq ar : Slice} {m0 m : Mem V} {n n' : Nat} {g g1 g2 : Gh V Sp} {m1 m2 : Mem V}
    (h : Split r s aq ar m0 m) (hm : Agree (g.W \ s.rng) m0 m)
    (h1 : Reg aq.rng (SP r aq m) n g m g1 m1) (h2 : Reg ar.rng (SP r ar m1) n' g1 m1 g2 m2)
    (hag : Agree ar.rng m m1) :
    Reg s.rng (SP r s m0) (n + n') g m0 g2 m2 := by
  obtain ⟨u1, u2, u3, u4⟩ := h.sub
  refine Reg.pre hm ?_
  refine (Reg.comp u3 h1 h2).weaken u4.le (fun mf hh => ?_) le_rfl
  exact h.glue hh.1 (hh.2.congr hag.symm (Agree.refl _ _))

theorem Split.reg' {Sp : Type} {r : V → ρ} {s aq ar : Slice} {m0 m : Mem V} {n n' : Nat} {g g1 g2 : Gh V Sp} {m1 m2 : Mem V}
    (h : Split r s aq ar m0 m) (hm : Agree (g.W \ s.rng) m0 m)
    (h1 : Reg ar.rng (SP r ar m) n g m g1 m1) (h2 : Reg aq.rng (SP r aq m1) n' g1 m1 g2 m2)
    (hag : Agree aq.rng m m1) :
    Reg s.rng (SP r s m0) (n + n') g m0 g2 m2 := by
  obtain ⟨u1, u2, u3, u4⟩ := h.sub
  refine Reg.pre hm ?_
  refine (Reg.comp u3.symm h1 h2).weaken (by rw [Set.union_comm]; exact u4.le) (fun mf hh => ?_) le_rfl
  exact h.glue (hh.2.congr hag.symm (Agree.refl _ _)) hh.1

theorem div_add_le (a b c : Nat) : a / c + b / c ≤ (a + b) / c := by
  rcases Nat.eq_zero_or_pos c with rfl | h
  · simp
  rw [Nat.le_div_iff_mul_le h, Nat.add_mul]
  exact Nat.add_le_add (Nat.div_mul_le_self ..) (Nat.div_mul_le_self ..)

theorem long_spec (hF : FamOK F ok rk) : ∀ (f d : Nat) (ar : Slice) (sv : Bool) (g : Gh V (VSp κ)) (m : Mem V),
    Idle g → (sv = true → g.C = true) → ar.rng ⊆ g.W → F.maxRec < ar.len → ar.len ≤ f → 2 * ar.len < 2 ^ d →
    2 ^ d ≤ 2 ^ dd → ar.len / (F.maxRec + 1) ≤ g.sz → (∀ a ∈ ar.rng, ok (F.key (m a))) →
    wp (vspec F ok rk dd) (long F f d ar sv) g m fun _ g' m' =>
      Reg ar.rng (SP (fun v => rk (F.key v)) ar m) (ar.len / (F.maxRec + 1) - 1) g m g' m' := by
  have h8 : 8 < F.maxIns := hF.ins
  have hr := hF.recOK
  intro f
  induction f with
  | zero => intro d ar sv g m _ _ _ h1 h2; omega
  | succ f ih =>
    intro d ar sv g m hi hC hW hl hf hd hdd hsz hok
    unfold long
    refine partStep_spec hF hl hok hi.ph hW ?_
    intro aq ar' m1 hrp hsp
    obtain ⟨u1, u2, u3, u4⟩ := hsp.sub
    have hle := hsp.le
    have hpos := hsp.pos
    have hsum := hsp.sum
    have hu : aq.len / (F.maxRec + 1) + ar'.len / (F.maxRec + 1) ≤ ar.len / (F.maxRec + 1) := by
      rw [← hsum]; exact div_add_le ..
    have hua : aq.len / (F.maxRec + 1) ≤ ar.len / (F.maxRec + 1) := le_trans (Nat.le_add_right ..) hu
    have hub : ar'.len / (F.maxRec + 1) ≤ ar.len / (F.maxRec + 1) := le_trans (Nat.le_add_left ..) hu
    have hu1 : ∀ {x : Slice}, F.maxRec < x.len → 0 < x.len / (F.maxRec + 1) := fun h => Nat.div_pos h (by omega)
    have hu0 := hu1 hl
    have okq := ok_sub (F := F) (ok := ok) hsp.rp u1 hok
    have okr := ok_sub (F := F) (ok := ok) hsp.rp u2 hok
    have hm0 : Agree (g.W \ ar.rng) m m1 := hrp.agree_sdiff
    obtain ⟨d, rfl⟩ : ∃ d', d = d' + 1 := by
      cases d with
      | zero => simp at hd; omega
      | succ d => exact ⟨d, rfl⟩
    rw [pow_succ] at hd hdd
    dsimp only
    by_cases hq : aq.len ≤ F.maxRec
    · rw [if_pos hq]
      -- aq sequentially
      have key : ∀ m2, (RP aq.rng m1 m2 ∧ SortedOn (fun v => rk (F.key v)) m2 aq.off (aq.off + aq.len)) →
          wp (vspec F ok rk dd) (if ar'.len > F.maxRec then long F f (d + 1) ar' sv else short F f d ar') g m2
            fun _ g' m' => Reg ar.rng (SP (fun v => rk (F.key v)) ar m) (ar.len / (F.maxRec + 1) - 1) g m g' m' := by
        intro m2 h2
        have r1 := Reg.sorted (u1.trans hW) h2
        have ag : Agree ar'.rng m1 m2 := h2.1.agree_of_disjoint u3
        by_cases hc : ar'.len > F.maxRec
        · rw [if_pos hc]
          refine wp_mono (ih (d + 1) ar' sv g m2 hi hC (u2.trans hW) hc (by omega) (by rw [pow_succ]; omega)
            (by rw [pow_succ]; omega) (by omega) (ag.keyOK okr)) ?_
          intro _ g' m' h3
          exact (hsp.reg hm0 r1 h3 ag).weaken subset_rfl (fun _ h => h) (by omega)
        · rw [if_neg hc]
          refine seq_wp hi.ph (u2.trans hW) (short_spec hF f d ar' m2 subset_rfl (by omega) (by omega) (by omega)
            (by omega) (ag.keyOK okr)) ?_
          intro _ m3 h3
          exact (hsp.reg hm0 r1 (Reg.sorted (u2.trans hW) h3) ag).weaken subset_rfl (fun _ h => h) (by omega)
      by_cases hq2 : aq.len > F.maxIns
      · rw [if_pos hq2]
        exact wp_bind (seq_wp hi.ph (u1.trans hW) (short_spec hF f d aq m1 subset_rfl (by omega) hq2 hq
            (by omega) okq) fun _ m2 h2 => key m2 h2)
      · rw [if_neg hq2]
        exact wp_bind (seq_wp hi.ph (u1.trans hW) (insertion_spec hF.ltOK subset_rfl okq) fun _ m2 h2 => key m2 h2)
    · rw [if_neg hq]
      have hq1 := hu1 (x := aq) (by omega)
      have hr1 := hu1 (x := ar') (by omega)
      -- both by ourselves
      have both : ∀ b k, wp (vspec F ok rk dd) (do
            long F f d aq sv
            long F f (d + 1) ar' sv) { g with S := b, mg := k } m1
            fun _ g' m' => Reg ar.rng (SP (fun v => rk (F.key v)) ar m) (ar.len / (F.maxRec + 1) - 1) g m g' m' := by
        intro b k
        refine wp_bind (wp_mono (ih d aq sv { g with S := b, mg := k } m1 ⟨hi.ph, hi.role, hi.T, hi.J⟩ hC (u1.trans hW) (by omega) (by omega) (by omega)
          (by omega) (by dsimp only; omega) okq) ?_)
        intro _ g1 m2 h1
        have ag : Agree ar'.rng m1 m2 := h1.mem.mono fun i hi' => ⟨hW (u2 hi'), Set.disjoint_right.1 u3 hi'⟩
        have hs1 := h1.same
        have hsz1 := h1.sz
        dsimp only at hsz1
        refine wp_mono (ih (d + 1) ar' sv g1 m2 (Idle.of_S hi hs1) (fun h => by rw [hs1.C]; exact hC h) ?_ (by omega) (by omega) (by rw [pow_succ]; omega)
            (by rw [pow_succ]; omega) (by omega) (ag.keyOK okr)) ?_
        · intro i hi'
          exact h1.Wlo ⟨hW (u2 hi'), Set.disjoint_right.1 u3 hi'⟩
        · intro _ g2 m3 h2
          exact (hsp.reg hm0 (Reg.of_S h1) h2 ag).weaken subset_rfl (fun _ h => h) (by omega)
      cases sv with
      | false => exact both g.S g.mg
      | true =>
        have hC' := hC rfl
        refine ⟨hi.ph, fun mg => ⟨hC', hi.ph, hi.role, hi.J, fun n => ?_⟩⟩
        dsimp only [Prog.bind]
        show wp (vspec F ok rk dd) (if decide (n ≥ mg) = true then _ else _) _ _ _
        by_cases hn : n < mg
        · rw [if_neg (by simp; omega)]
          refine spawn_wp (S := vspec F ok rk dd) (s := .long ar' f) (g := { g with mg := mg, S := decide (n < mg) })
            ⟨hi.ph, hi.role, hi.T, hi.J⟩ hC' (by simp [hn]) rfl (u2.trans hW) rfl ?_ ?_ ?_ ?_
          · exact ⟨by omega, by omega, by omega, okr⟩
          · exact hr1
          · show ar'.len / (F.maxRec + 1) < g.sz; omega
          · intro g1 h1 hW1 hsz1 hS1
            have hs1 := h1.same
            refine wp_mono (ih (d + 1) aq true g1 m1 (Idle.of_S hi hs1) (fun _ => hs1.C.trans hC') ?_ (by omega) (by omega) (by rw [pow_succ]; omega) (by rw [pow_succ]; omega) ?_ okq) ?_
            · rw [hW1]
              exact fun i hi' => ⟨hW (u1 hi'), Set.disjoint_left.1 u3 hi'⟩
            · rw [hsz1]; show aq.len / (F.maxRec + 1) ≤ g.sz - ar'.len / (F.maxRec + 1); omega
            · intro _ g2 m2 h2
              have h1' : Reg ar'.rng (SP (fun v => rk (F.key v)) ar' m1) (ar'.len / (F.maxRec + 1)) g m1 g1 m1 :=
                Reg.of_S (b := decide (n < mg)) (k := mg) h1
              exact (hsp.reg' hm0 h1' h2 (Agree.refl _ _)).weaken subset_rfl (fun _ h => h) (by omega)
        · rw [if_pos (by simp; omega)]
          exact both _ _

end Sorty
