import Verif.Proofs.Pivot

/-! # Splitting and short ranges -/

namespace Sorty

open Prog

variable {V κ Sp : Type} {ρ : Type} [LinearOrder ρ]
variable {F : Fam V κ} {ok : κ → Prop} {rk : κ → ρ}
variable {cmp : Nat → Nat → V → V → Bool → Prop} {W R : Set Nat}

/-- on the slice, `mf` is a sorted rearrangement of `m` -/
def SP (r : V → ρ) (s : Slice) (m mf : Mem V) : Prop := RPon s.rng m mf ∧ SortedOn r mf s.off (s.off + s.len)

theorem SP.congr {r : V → ρ} {s : Slice} {m mf m' mf' : Mem V} (h : SP r s m mf) (h1 : Agree s.rng m m')
    (h2 : Agree s.rng mf mf') : SP r s m' mf' := by
  refine ⟨h.1.congr h1 h2, fun a b ha hab hb => ?_⟩
  rw [← h2 a (by simp only [Slice.rng, Set.mem_ofPred_eq]; omega), ← h2 b (by simp only [Slice.rng, Set.mem_ofPred_eq]; omega)]
  exact h.2 a b ha hab hb

/-- result of splitting a partitioned slice -/
structure Split (r : V → ρ) (s aq ar : Slice) (m0 m : Mem V) : Prop where
  rp : RPon s.rng m0 m
  le : aq.len ≤ ar.len
  pos : 0 < aq.len
  sum : aq.len + ar.len = s.len
  ord : ∃ lo hi p, ((lo = aq ∧ hi = ar) ∨ (lo = ar ∧ hi = aq)) ∧ lo.off = s.off ∧ hi.off = lo.off + lo.len ∧
    (∀ a ∈ lo.rng, r (m a) ≤ p) ∧ ∀ a ∈ hi.rng, p ≤ r (m a)

theorem Split.sub {r : V → ρ} {s aq ar : Slice} {m0 m : Mem V} (h : Split r s aq ar m0 m) :
    aq.rng ⊆ s.rng ∧ ar.rng ⊆ s.rng ∧ Disjoint aq.rng ar.rng ∧ aq.rng ∪ ar.rng = s.rng := by
  obtain ⟨lo, hi, p, hc, h1, h2, _⟩ := h.ord
  have := h.sum
  have hd : ∀ a, a ∈ aq.rng → a ∈ ar.rng → False := by
    intro a ha hb
    simp only [Slice.rng, Set.mem_ofPred_eq] at ha hb
    rcases hc with ⟨rfl, rfl⟩ | ⟨rfl, rfl⟩ <;> omega
  refine ⟨?_, ?_, Set.disjoint_left.2 fun a ha hb => hd a ha hb, ?_⟩
  · intro a ha
    simp only [Slice.rng, Set.mem_ofPred_eq] at *
    rcases hc with ⟨rfl, rfl⟩ | ⟨rfl, rfl⟩ <;> omega
  · intro a ha
    simp only [Slice.rng, Set.mem_ofPred_eq] at *
    rcases hc with ⟨rfl, rfl⟩ | ⟨rfl, rfl⟩ <;> omega
  · ext a
    simp only [Slice.rng, Set.mem_ofPred_eq, Set.mem_union]
    rcases hc with ⟨rfl, rfl⟩ | ⟨rfl, rfl⟩ <;> omega

theorem Split.off_ne {r : V → ρ} {s aq ar : Slice} {m0 m : Mem V} (h : Split r s aq ar m0 m) : ar.off ≠ aq.off := by
  obtain ⟨lo, hi, p, hc, h1, h2, _⟩ := h.ord
  have := h.pos
  have := h.le
  rcases hc with ⟨rfl, rfl⟩ | ⟨rfl, rfl⟩ <;> omega

/-- sorting the two parts sorts the whole -/
theorem Split.glue {r : V → ρ} {s aq ar : Slice} {m0 m mf : Mem V} (h : Split r s aq ar m0 m)
    (h1 : SP r aq m mf) (h2 : SP r ar m mf) : SP r s m0 mf := by
  obtain ⟨s1, s2, s3, s4⟩ := h.sub
  refine ⟨?_, ?_⟩
  · rw [← s4]
    have := RPon.union s3 h1.1 h2.1
    refine RPon.trans ?_ this
    rw [s4]; exact h.rp
  · obtain ⟨lo, hi, p, hc, e1, e2, l1, l2⟩ := h.ord
    have hsum := h.sum
    have hlo : SP r lo m mf := by rcases hc with ⟨rfl, rfl⟩ | ⟨rfl, rfl⟩ <;> assumption
    have hhi : SP r hi m mf := by rcases hc with ⟨rfl, rfl⟩ | ⟨rfl, rfl⟩ <;> assumption
    have b1 := hlo.1.all (p := fun v => r v ≤ p) l1
    have b2 := hhi.1.all (p := fun v => p ≤ r v) l2
    have hs : lo.len + hi.len = s.len := by rcases hc with ⟨rfl, rfl⟩ | ⟨rfl, rfl⟩ <;> omega
    intro a b ha hab hb
    rcases Nat.lt_or_ge b hi.off with hb' | hb'
    · exact hlo.2 a b (by omega) hab (by omega)
    · rcases Nat.lt_or_ge a hi.off with ha' | ha'
      · exact (b1 a (by simp only [Slice.rng, Set.mem_ofPred_eq]; omega)).trans
          (b2 b (by simp only [Slice.rng, Set.mem_ofPred_eq]; omega))
      · exact hhi.2 a b ha' hab (by omega)

theorem splitAt_spec {slc : Slice} {k : Int} {m : Mem V} (h0 : 0 ≤ k) (h1 : k ≤ slc.len)
    {Q : Slice × Slice → Mem V → Prop}
    (hQ : ∀ aq ar : Slice, aq.len ≤ ar.len →
      ((aq = ⟨slc.off, k.toNat⟩ ∧ ar = ⟨slc.off + k.toNat, slc.len - k.toNat⟩) ∨
       (ar = ⟨slc.off, k.toNat⟩ ∧ aq = ⟨slc.off + k.toNat, slc.len - k.toNat⟩)) → Q (aq, ar) m) :
    swp cmp W R (splitAt slc k : Prog V Sp (Slice × Slice)) m Q := by
  unfold splitAt
  have e1 : (⟨slc.off + (0 : Int).toNat, (k - 0).toNat⟩ : Slice) = ⟨slc.off, k.toNat⟩ := by simp
  have e2 : (⟨slc.off + k.toNat, ((slc.len : Int) - k).toNat⟩ : Slice) = ⟨slc.off + k.toNat, slc.len - k.toNat⟩ := by
    congr 1; omega
  split_ifs with hc
  · refine swp_bind (Slice.swp_sub (le_refl _) h0 h1 (swp_bind (Slice.swp_sub h0 h1 (le_refl _) ?_)))
    rw [e1, e2]
    exact hQ _ _ (by dsimp only; omega) (.inl ⟨rfl, rfl⟩)
  · refine swp_bind (Slice.swp_sub h0 h1 (le_refl _) (swp_bind (Slice.swp_sub (le_refl _) h0 h1 ?_)))
    rw [e1, e2]
    exact hQ _ _ (by dsimp only; omega) (.inr ⟨rfl, rfl⟩)

/-- a partition at `0 < k < len` is a split -/
theorem split_of {r : V → ρ} {slc aq ar : Slice} {k : Int} {m0 m : Mem V} {p : ρ} (hrp : RPon slc.rng m0 m)
    (h0 : 0 < k) (h1 : k < slc.len)
    (hlow : ∀ i : Int, 0 ≤ i → i < k → r (slc.E m i) ≤ p)
    (hhigh : ∀ i : Int, k ≤ i → i < slc.len → p ≤ r (slc.E m i)) (hle : aq.len ≤ ar.len)
    (hc : (aq = ⟨slc.off, k.toNat⟩ ∧ ar = ⟨slc.off + k.toNat, slc.len - k.toNat⟩) ∨
       (ar = ⟨slc.off, k.toNat⟩ ∧ aq = ⟨slc.off + k.toNat, slc.len - k.toNat⟩)) : Split r slc aq ar m0 m := by
  have a1 : ∀ a ∈ (⟨slc.off, k.toNat⟩ : Slice).rng, r (m a) ≤ p := by
    intro a ha
    simp only [Slice.rng, Set.mem_ofPred_eq] at ha
    have := hlow ((a - slc.off : Nat) : Int) (by omega) (by omega)
    unfold Slice.E at this
    rwa [Int.toNat_natCast, show slc.off + (a - slc.off) = a by omega] at this
  have a2 : ∀ a ∈ (⟨slc.off + k.toNat, slc.len - k.toNat⟩ : Slice).rng, p ≤ r (m a) := by
    intro a ha
    simp only [Slice.rng, Set.mem_ofPred_eq] at ha
    have := hhigh ((a - slc.off : Nat) : Int) (by omega) (by omega)
    unfold Slice.E at this
    rwa [Int.toNat_natCast, show slc.off + (a - slc.off) = a by omega] at this
  refine ⟨hrp, hle, ?_, ?_, ?_⟩
  · rcases hc with ⟨rfl, rfl⟩ | ⟨rfl, rfl⟩ <;> dsimp only at * <;> omega
  · rcases hc with ⟨rfl, rfl⟩ | ⟨rfl, rfl⟩ <;> dsimp only at * <;> omega
  · refine ⟨⟨slc.off, k.toNat⟩, ⟨slc.off + k.toNat, slc.len - k.toNat⟩, p, ?_, rfl, rfl, a1, a2⟩
    rcases hc with ⟨rfl, rfl⟩ | ⟨rfl, rfl⟩
    · exact .inl ⟨rfl, rfl⟩
    · exact .inr ⟨rfl, rfl⟩

theorem idx_of_mem {s : Slice} {a : Nat} (h : a ∈ s.rng) : ∃ i : Int, 0 ≤ i ∧ i < s.len ∧ a = s.off + i.toNat := by
  simp only [Slice.rng, Set.mem_ofPred_eq] at h
  exact ⟨((a - s.off : Nat) : Int), by omega, by omega, by omega⟩

/-- with a good pivot both parts are non-empty -/
theorem P1Post.inner {slc : Slice} {m0 m : Mem V} {pv : κ} {k : Int} (h : P1Post F rk (rk pv) slc m0 k m)
    (hp : PivOK2 F ok rk slc m0 pv) (hlen : 2 ≤ slc.len) : 0 < k ∧ k < slc.len := by
  obtain ⟨σ, s1, s2⟩ := h.rp
  have tr : ∀ {q : V → Prop} {a}, a ∈ slc.rng → q (m0 a) → σ.symm a ∈ slc.rng ∧ q (m (σ.symm a)) := by
    intro q a ha hq
    refine ⟨perm_mem (perm_symm s1) ha, ?_⟩
    rw [s2, Equiv.apply_symm_apply]; exact hq
  have := h.k0
  have := h.k1
  constructor
  · by_contra hk
    obtain ⟨hm, hz⟩ := h.zero hlen (by omega)
    rcases hp.le with ⟨a, b, hab, ⟨ha, ha'⟩, hb, hb'⟩ | ⟨a, ha, ha', hle⟩
    swap
    · obtain ⟨i, i0, i1, rfl⟩ := idx_of_mem ha
      have := hz i i0 (by omega)
      rw [hm] at this
      exact absurd hle (not_le.2 this)
    obtain ⟨a1, a2⟩ := tr (q := fun v => rk (F.key v) ≤ rk pv) ha ha'
    obtain ⟨b1, b2⟩ := tr (q := fun v => rk (F.key v) ≤ rk pv) hb hb'
    have hne : σ.symm a ≠ σ.symm b := fun e => hab (σ.symm.injective e)
    obtain ⟨i, i0, i1, i2⟩ := idx_of_mem a1
    obtain ⟨j, j0, j1, j2⟩ := idx_of_mem b1
    rw [i2] at a2; rw [j2] at b2
    have hi : i = slc.len - 1 := by
      by_contra hi
      exact absurd a2 (not_le.2 (hz i i0 (by omega)))
    have hj : j = slc.len - 1 := by
      by_contra hj
      exact absurd b2 (not_le.2 (hz j j0 (by omega)))
    apply hne
    rw [i2, j2, hi, hj]
  · by_contra hk
    have hz := h.full hlen (by omega)
    obtain ⟨a, ha, ha'⟩ := hp.ge
    obtain ⟨a1, a2⟩ := tr (q := fun v => rk pv ≤ rk (F.key v)) ha ha'
    obtain ⟨i, i0, i1, i2⟩ := idx_of_mem a1
    rw [i2] at a2
    exact absurd a2 (not_le.2 (hz i i0 i1))

/-- rearranged cells stay acceptable; sub-slices too -/
theorem ok_sub {s s' : Slice} {m m' : Mem V} (h : RPon s.rng m m') (hs : s'.rng ⊆ s.rng)
    (hok : ∀ a ∈ s.rng, ok (F.key (m a))) : ∀ a ∈ s'.rng, ok (F.key (m' a)) :=
  fun a ha => h.all (p := fun v => ok (F.key v)) hok a (hs ha)

theorem RP.agree_of_disjoint {A B : Set Nat} {m m' : Mem V} (h : RP A m m') (hd : Disjoint A B) : Agree B m m' :=
  fun _ hi => (h.out (Set.disjoint_right.1 hd hi)).symm

theorem short_spec (hF : FamOK F ok rk) : ∀ (f d : Nat) (ar : Slice) (m : Mem V), ar.rng ⊆ W → ar.len ≤ f →
    F.maxIns < ar.len → ar.len ≤ F.maxRec → ar.len < 2 ^ d → (∀ a ∈ ar.rng, ok (F.key (m a))) →
    swp cmp W R (short F f d ar : Prog V Sp Unit) m fun _ m' =>
      RP ar.rng m m' ∧ SortedOn (fun v => rk (F.key v)) m' ar.off (ar.off + ar.len) := by
  have h8 : 8 < F.maxIns := hF.ins
  intro f
  induction f with
  | zero => intro d ar m _ h1 h2; omega
  | succ f ih =>
    intro d ar m hW hf hins hrec hd hok
    have hWR : ar.rng ⊆ W ∪ R := hW.trans Set.subset_union_left
    unfold short
    refine swp_bind (swp_mono (shortPivot_spec hF hWR (by omega) hok) ?_)
    rintro pv m1 ⟨rfl, hp⟩
    refine swp_bind (swp_mono (partOne_spec hF hW hp.okp hok) ?_)
    intro k m2 hk
    obtain ⟨k0, k1⟩ := hk.inner hp (by omega)
    refine swp_bind (splitAt_spec k0.le k1.le ?_)
    intro aq ar' hle hc
    have hsp : Split (fun v => rk (F.key v)) ar aq ar' m1 m2 := split_of hk.rp.on k0 k1 hk.low hk.high hle hc
    obtain ⟨u1, u2, u3, u4⟩ := hsp.sub
    have hpos := hsp.pos
    have hsum := hsp.sum
    have okq := ok_sub (F := F) (ok := ok) hsp.rp u1 hok
    have okr := ok_sub (F := F) (ok := ok) hsp.rp u2 hok
    -- from sorting both parts
    have fin : ∀ m3 m4, RP aq.rng m2 m3 → SortedOn (fun v => rk (F.key v)) m3 aq.off (aq.off + aq.len) →
        RP ar'.rng m3 m4 → SortedOn (fun v => rk (F.key v)) m4 ar'.off (ar'.off + ar'.len) →
        RP ar.rng m1 m4 ∧ SortedOn (fun v => rk (F.key v)) m4 ar.off (ar.off + ar.len) := by
      intro m3 m4 r1 s1 r2 s2
      refine ⟨hk.rp.trans ((r1.mono u1).trans (r2.mono u2)), ?_⟩
      have ag : Agree aq.rng m3 m4 := r2.agree_of_disjoint u3.symm
      have ag2 : Agree ar'.rng m2 m3 := r1.agree_of_disjoint u3
      exact (hsp.glue (SP.congr ⟨r1.on, s1⟩ (Agree.refl _ _) ag)
        (SP.congr ⟨r2.on, s2⟩ ag2.symm (Agree.refl _ _))).2
    dsimp only
    by_cases hq : aq.len > F.maxIns
    · rw [if_pos hq]
      -- recurse on the shorter range
      obtain ⟨d, rfl⟩ : ∃ d', d = d' + 1 := by
        cases d with
        | zero => simp at hd; omega
        | succ d => exact ⟨d, rfl⟩
      rw [pow_succ] at hd
      refine swp_bind (swp_mono (ih d aq m2 (u1.trans hW) (by omega) hq (by omega) (by omega) okq) ?_)
      rintro _ m3 ⟨r1, s1⟩
      have okr' : ∀ a ∈ ar'.rng, ok (F.key (m3 a)) := fun a ha => by
        rw [← (r1.agree_of_disjoint u3) a ha]; exact okr a ha
      refine swp_mono (ih (d + 1) ar' m3 (u2.trans hW) (by omega) (by omega) (by omega) (by rw [pow_succ]; omega) okr') ?_
      rintro _ m4 ⟨r2, s2⟩
      exact fin m3 m4 r1 s1 r2 s2
    · rw [if_neg hq]
      -- insertion sort
      refine swp_bind (swp_mono (Q := fun again m3 =>
        (again = true ∧ F.maxIns < ar'.len ∧ RP aq.rng m2 m3 ∧ SortedOn (fun v => rk (F.key v)) m3 aq.off (aq.off + aq.len)) ∨
        (again = false ∧ RP ar.rng m1 m3 ∧ SortedOn (fun v => rk (F.key v)) m3 ar.off (ar.off + ar.len))) ?_ ?_)
      · have hne : ar' ≠ aq := fun e => hsp.off_ne (by rw [e])
        refine swp_loop _ _ (fun s m3 => (s = aq ∧ m3 = m2) ∨ (s = ar' ∧ ¬ ar'.len > F.maxIns ∧
          RP aq.rng m2 m3 ∧ SortedOn (fun v => rk (F.key v)) m3 aq.off (aq.off + aq.len)))
          (fun s => if s = aq then 1 else 0) ?_ _ _ _ (.inl ⟨rfl, rfl⟩) (by simp)
        rintro s m3 (⟨rfl, rfl⟩ | ⟨rfl, g1, g2, g3⟩)
        · refine swp_bind (swp_mono (insertion_spec hF.ltOK (u1.trans hW) okq) ?_)
          rintro _ m4 ⟨r1, s1⟩
          by_cases hc2 : ar'.len > F.maxIns
          · rw [if_pos hc2]
            exact .inl ⟨rfl, hc2, r1, s1⟩
          · rw [if_neg hc2]
            unfold Slice.addrNe
            rw [if_pos ⟨by omega, by omega⟩]
            have : (ar'.off != s.off) = true := by simp [hsp.off_ne]
            show swp cmp W R (if (ar'.off != s.off) = true then _ else _) m4 _
            rw [if_pos this]
            refine ⟨.inr ⟨rfl, hc2, r1, s1⟩, ?_⟩
            simp [hne]
        · have okr' : ∀ a ∈ s.rng, ok (F.key (m3 a)) := fun a ha => by
            rw [← (g2.agree_of_disjoint u3) a ha]; exact okr a ha
          refine swp_bind (swp_mono (insertion_spec hF.ltOK (u2.trans hW) okr') ?_)
          rintro _ m4 ⟨r1, s1⟩
          rw [if_neg g1]
          unfold Slice.addrNe
          rw [if_pos ⟨by omega, by omega⟩]
          show swp cmp W R (if (s.off != s.off) = true then _ else _) m4 _
          rw [if_neg (by simp)]
          exact .inr ⟨rfl, fin m3 m4 g2 g3 r1 s1⟩
      · rintro again m3 (⟨rfl, g1, r1, s1⟩ | ⟨rfl, g⟩)
        · rw [if_pos rfl]
          have okr' : ∀ a ∈ ar'.rng, ok (F.key (m3 a)) := fun a ha => by
            rw [← (r1.agree_of_disjoint u3) a ha]; exact okr a ha
          refine swp_mono (ih d ar' m3 (u2.trans hW) (by omega) g1 (by omega) (by omega) okr') ?_
          rintro _ m4 ⟨r2, s2⟩
          exact fin m3 m4 r1 s1 r2 s2
        · rw [if_neg (by simp)]
          exact g

end Sorty
