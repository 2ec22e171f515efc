import Verif.Proofs.Names
import Verif.Proofs.Sort
import Verif.Proofs.FewKeys

/-! # Concurrent partitioning depends only on the side of the pivot each element is on -/

namespace Sorty

open Prog

variable {V κ Sp : Type} {ρ : Type} [LinearOrder ρ]
variable {F : Fam V κ} {ok : κ → Prop} {rk : κ → ρ}

/-- `π` tells the sides of the elements in `N` -/
structure Told (F : Fam V κ) (ok : κ → Prop) (rk : κ → ρ) (pv : κ) (N : Set Nat) (π : Nat → Int) (m : Mem V) : Prop where
  ok : ∀ a ∈ N, ok (F.key (m a))
  side : ∀ a ∈ N, π a = side (rk pv) (rk (F.key (m a)))

theorem Told.mono {pv : κ} {N N' : Set Nat} {π : Nat → Int} {m : Mem V} (h : Told F ok rk pv N π m) (hN : N' ⊆ N) : Told F ok rk pv N' π m :=
  ⟨fun a ha => h.ok a (hN ha), fun a ha => h.side a (hN ha)⟩

/-- comparing with the pivot and comparing sides -/
structure SameCmp (F : Fam V κ) (pv : κ) (N : Set Nat) (π : Nat → Int) (m : Mem V) : Prop where
  le : ∀ x ∈ N, (nameFam π).le ((nameFam π).key x) 0 = F.le (F.key (m x)) pv
  ge : ∀ x ∈ N, (nameFam π).le 0 ((nameFam π).key x) = F.le pv (F.key (m x))
  lt : ∀ x ∈ N, (nameFam π).lt ((nameFam π).key x) 0 = F.lt (F.key (m x)) pv
  gt : ∀ x ∈ N, (nameFam π).lt 0 ((nameFam π).key x) = F.lt pv (F.key (m x))

theorem Told.cmp (hF : FamOK F ok rk) {pv : κ} (hpv : ok pv) {N : Set Nat} {π : Nat → Int} {m : Mem V} (h : Told F ok rk pv N π m) : SameCmp F pv N π m := by
  obtain ⟨hok, hπ⟩ := h
  refine ⟨fun x hx => ?_, fun x hx => ?_, fun x hx => ?_, fun x hx => ?_⟩
  · rw [Bool.eq_iff_iff, hF.le _ _ (hok x hx) hpv, ← side_le, ← hπ x hx]
    exact decide_eq_true_iff
  · rw [Bool.eq_iff_iff, hF.le _ _ hpv (hok x hx), ← le_side, ← hπ x hx]
    exact decide_eq_true_iff
  · rw [Bool.eq_iff_iff, hF.lt _ _ (hok x hx) hpv, ← not_le, ← le_side, ← hπ x hx, not_le]
    exact decide_eq_true_iff
  · rw [Bool.eq_iff_iff, hF.lt _ _ hpv (hok x hx), ← not_le, ← side_le, ← hπ x hx, not_le]
    exact decide_eq_true_iff

theorem partTwo_sim {s : Slice} {l h : Int} {pv : κ} {m : Mem V} {N : Set Nat} {π : Nat → Int} (e : SameCmp F pv N π m) :
    NSim m N (partTwo (nameFam π) s l h 0 : Prog Nat Sp Int) (partTwo F s l h pv) := by
  unfold partTwo
  dsimp only
  split_ifs
  · exact .ret _
  refine NSim.loop ?_ _ _
  rintro (⟨l, h⟩ | ⟨l, h⟩ | ⟨l, h⟩ | ⟨l, h⟩ | ⟨l, h⟩) <;> simp only [partTwoStep]
  · split_ifs
    · exact .ret _
    · refine NSim.rd fun x hx => ?_
      rw [e.le x hx]
      split_ifs <;> exact .ret _
  · exact NSim.bind NSim.swap fun _ => .ret _
  · exact .ret _
  · split_ifs
    · exact .ret _
    · exact .ret _
    · refine NSim.rd fun x hx => ?_
      rw [e.ge x hx]
      split_ifs
      · refine NSim.rd fun y hy => ?_
        rw [e.gt y hy]
        split_ifs <;> exact .ret _
      · exact .ret _
  · refine NSim.rd fun x hx => ?_
    rw [e.ge x hx]
    split_ifs <;> exact .ret _

theorem gapLow_sim {s : Slice} {r k : Int} {pv : κ} {m : Mem V} {N : Set Nat} {π : Nat → Int} (e : SameCmp F pv N π m) :
    NSim m N (gapLow (nameFam π) s 0 r k : Prog Nat Sp Int) (gapLow F s pv r k) := by
  unfold gapLow
  refine NSim.loop ?_ _ _
  rintro ⟨r, k⟩
  dsimp only
  split_ifs
  · refine NSim.rd fun x hx => ?_
    rw [e.gt x hx]
    split_ifs
    · exact NSim.bind NSim.swap fun _ => .ret _
    · exact .ret _
  · exact .ret _

theorem gapHigh_sim {s : Slice} {r k : Int} {pv : κ} {m : Mem V} {N : Set Nat} {π : Nat → Int} (e : SameCmp F pv N π m) :
    NSim m N (gapHigh (nameFam π) s 0 r k : Prog Nat Sp Int) (gapHigh F s pv r k) := by
  unfold gapHigh
  refine NSim.loop ?_ _ _
  rintro ⟨r, k⟩
  dsimp only
  split_ifs
  · refine NSim.rd fun x hx => ?_
    rw [e.lt x hx]
    split_ifs
    · exact NSim.bind NSim.swap fun _ => .ret _
    · exact .ret _
  · exact .ret _

/-- what partitioning a range does, given the sides -/
structure OneBy (Sp : Type) (s : Slice) (π : Nat → Int) (x : Nat × Int × Equiv.Perm Nat) : Prop where
  fix : ∀ i, i ∉ s.rng → x.2.2 i = i
  post : P1Post (nameFam π) id 0 s id x.2.1 x.2.2
  cost : x.1 ≤ 3 * s.len
  run : ∀ {V κ ρ : Type} [LinearOrder ρ] {F : Fam V κ} {ok : κ → Prop} {rk : κ → ρ}, FamOK F ok rk → ∀ {pv : κ}, ok pv → ∀ {m : Mem V},
      Told F ok rk pv s.rng π m → TIn s.rng (partOne F s pv : Prog V (VSp Sp) Int) m x.1 x.2.1 (m ∘ x.2.2)

theorem one_by (Sp : Type) (s : Slice) (π : Nat → Int) : ∃ x, OneBy Sp s π x := by
  obtain ⟨c, k, l, e, h⟩ := tin_of (fun _ _ _ _ _ h => h) (partOne_spec (Sp := VSp Sp) (cmp := fun _ _ _ _ _ => False) (W := s.rng) (R := ∅)
    (nameFam_ok π) subset_rfl (pv := 0) trivial (m0 := id) fun _ _ => trivial)
  obtain ⟨τ, h1, h2⟩ := h.rp
  have hl : l = ⇑τ := funext h2
  subst hl
  exact ⟨(c, k, τ), h1, h, paid e.runs (cost_partOne vmeter_wa), fun hF _ hpv _ ht => NSim.runs e (fun i hi => hi) (partOne_sim hF hpv ht.ok ht.side)⟩

/-- the accesses, the result and the rearrangement of partitioning a range -/
noncomputable def pOne (Sp : Type) (s : Slice) (π : Nat → Int) : Nat × Int × Equiv.Perm Nat := (one_by Sp s π).choose

theorem pOne_by (Sp : Type) (s : Slice) (π : Nat → Int) : OneBy Sp s π (pOne Sp s π) := (one_by Sp s π).choose_spec

/-- the middle half -/
def halfOf (s : Slice) : Slice := ⟨s.off + s.len / 2 / 2, (s.len / 2 + s.len) / 2 - s.len / 2 / 2⟩

open Classical in
/-- the sides of elements of a range only -/
noncomputable def cut (s : Slice) (π : Nat → Int) : Nat → Int := fun a => if a ∈ s.rng then π a else 0

theorem cut_eq {s : Slice} {π : Nat → Int} {a : Nat} (ha : a ∈ s.rng) : cut s π a = π a := by
  unfold cut
  rw [if_pos ha]

/-- closing the gap -/
def gapOf (F : Fam V κ) (s : Slice) (pv : κ) (r k : Int) : Prog V Sp Int :=
  if r < (s.len : Int) / 2 then gapLow F s pv r k else gapHigh F s pv r k

/-- the parts of concurrent partitioning that run in the calling goroutine, and the result -/
structure ConBy (Sp : Type) (s : Slice) (π : Nat → Int) (c2 : Nat) (r : Int) (τ2 : Equiv.Perm Nat) (c3 : Nat) (k : Int) (τ : Equiv.Perm Nat) : Prop where
  fix2 : ∀ i, i ∉ outRng s (s.len / 2 / 2 : Nat) ((s.len / 2 + s.len) / 2 : Nat) → τ2 i = i
  fix : ∀ i, i ∉ s.rng → τ i = i
  k0 : 0 ≤ k
  k1 : k ≤ s.len
  low : ∀ a, s.off ≤ a → a < s.off + k.toNat → π (τ a) ≤ 0
  high : ∀ a, s.off + k.toNat ≤ a → a < s.off + s.len → 0 ≤ π (τ a)
  cost : c2 + c3 + 3 * (halfOf s).len ≤ 3 * s.len + 5 * ((s.len + 3) / 4)
  run2 : ∀ {V κ ρ : Type} [LinearOrder ρ] {F : Fam V κ} {ok : κ → Prop} {rk : κ → ρ}, FamOK F ok rk → ∀ {pv : κ}, ok pv → ∀ {m : Mem V},
      Told F ok rk pv (outRng s (s.len / 2 / 2 : Nat) ((s.len / 2 + s.len) / 2 : Nat)) π m →
      TIn (outRng s (s.len / 2 / 2 : Nat) ((s.len / 2 + s.len) / 2 : Nat)) (partTwo F s (s.len / 2 / 2 : Nat) ((s.len / 2 + s.len) / 2 : Nat) pv : Prog V (VSp Sp) Int) m c2 r (m ∘ τ2)
  run3 : ∀ {V κ ρ : Type} [LinearOrder ρ] {F : Fam V κ} {ok : κ → Prop} {rk : κ → ρ}, FamOK F ok rk → ∀ {pv : κ}, ok pv → ∀ {m : Mem V},
      Told F ok rk pv s.rng π m →
      TIn s.rng (gapOf F s pv r ((s.len / 2 / 2 : Nat) + (pOne Sp (halfOf s) (cut (halfOf s) π)).2.1) : Prog V (VSp Sp) Int)
        (m ∘ ((pOne Sp (halfOf s) (cut (halfOf s) π)).2.2 * τ2 : Equiv.Perm Nat)) c3 k (m ∘ τ)

theorem con_by (Sp : Type) {s : Slice} (hl : 8 ≤ s.len) (π : Nat → Int) : ∃ c2 r τ2 c3 k τ, ConBy Sp s π c2 r τ2 c3 k τ := by
  have hP := pOne_by Sp (halfOf s) (cut (halfOf s) π)
  generalize hx : pOne Sp (halfOf s) (cut (halfOf s) π) = x1 at hP
  obtain ⟨c1, v, τ1⟩ := x1
  obtain ⟨hfix1, hp1, -, -⟩ := hP
  dsimp only at hfix1 hp1
  generalize hlo : s.len / 2 / 2 = l
  generalize hhi : (s.len / 2 + s.len) / 2 = h
  have a1 : 2 ≤ l := by omega
  have a2 : l + 2 ≤ s.len / 2 := by omega
  have a3 : s.len / 2 ≤ h := by omega
  have a4 : h + 2 ≤ s.len := by omega
  have hoff : (halfOf s).off = s.off + l := by rw [← hlo]; rfl
  have hlen : (halfOf s).len = h - l := by rw [← hlo, ← hhi]; rfl
  generalize hh : halfOf s = half at *
  have hsub : half.rng ⊆ s.rng := by
    intro a ha
    simp only [Slice.rng, Set.mem_ofPred_eq] at *
    omega
  have hout : ∀ a ∈ outRng s l h, a ∈ s.rng ∧ a ∉ half.rng := by
    intro a ha
    simp only [outRng, Slice.rng, Set.mem_ofPred_eq] at *
    omega
  obtain ⟨c2, r, l2, e2, h2⟩ := tin_of (A := outRng s l h) (fun _ _ _ _ _ h => h) (partTwo_spec (Sp := VSp Sp) (cmp := fun _ _ _ _ _ => False)
    (W := outRng s l h) (R := ∅) (nameFam_ok π) (slc := s) (l0 := l) (h0 := h) (by omega) (by omega) (by omega) subset_rfl (pv := 0) trivial (m0 := id) fun _ _ => trivial)
  obtain ⟨τ2, fix2, f2⟩ := h2.rp
  have hl2 : l2 = ⇑τ2 := funext f2
  subst hl2
  have b2 := paid e2.runs (cost_partTwo vmeter_wa (by omega) (by omega))
  have hE : ∀ (mm : Mem Nat) (i : Int), (l : Int) ≤ i → s.E mm i = half.E mm (i - l) := by
    intro mm i h0
    unfold Slice.E
    rw [hoff]
    congr 1
    omega
  have fix12 : ∀ i, i ∉ s.rng → (τ1 * τ2) i = i := by
    intro i hi
    rw [Equiv.Perm.mul_apply, fix2 i fun hh => hi (hout i hh).1, hfix1 i fun hh => hi (hsub hh)]
  have eO : ∀ i : Int, 0 ≤ i → i < s.len → (i < l ∨ (h : Int) ≤ i) → s.E (τ1 * τ2 : Equiv.Perm Nat) i = s.E τ2 i := by
    intro i i0 i1 i2
    unfold Slice.E
    rw [Equiv.Perm.mul_apply]
    exact hfix1 _ (hout _ (perm_mem fix2 (mem_out i0 i1 i2))).2
  have eH : ∀ i : Int, (l : Int) ≤ i → i < h → s.E (τ1 * τ2 : Equiv.Perm Nat) i = half.E τ1 (i - l) := by
    intro i i0 i1
    rw [hE _ i i0]
    unfold Slice.E
    rw [Equiv.Perm.mul_apply, fix2]
    intro hh
    exact (hout _ hh).2 (Slice.mem_rng (by omega) (by omega))
  have kH : ∀ i : Int, 0 ≤ i → i < half.len → cut half π (half.E τ1 i) = π (half.E τ1 i) := fun i i0 i1 =>
    cut_eq (perm_mem hfix1 (Slice.mem_rng i0 i1))
  have q0 := hp1.k0
  have q1 := hp1.k1
  have qlow : ∀ i : Int, 0 ≤ i → i < v → π (half.E τ1 i) ≤ 0 := fun i i0 i1 => by
    rw [← kH i i0 (by omega)]; exact hp1.low i i0 i1
  have qhigh : ∀ i : Int, v ≤ i → i < half.len → 0 ≤ π (half.E τ1 i) := fun i i0 i1 => by
    rw [← kH i (by omega) i1]; exact hp1.high i i0 i1
  have hmid : ((s.len : Int) / 2) = ((s.len / 2 : Nat) : Int) := by omega
  have fin : ∀ {c3 : Nat} {k : Int} {l3 : Mem Nat}, TIn s.rng (gapOf (nameFam π) s 0 r (l + v) : Prog Nat (VSp Sp) Int) (τ1 * τ2 : Equiv.Perm Nat) c3 k l3 →
      0 ≤ k → k ≤ s.len → RP s.rng (τ1 * τ2 : Equiv.Perm Nat) l3 → (∀ i : Int, 0 ≤ i → i < k → π (s.E l3 i) ≤ 0) →
      (∀ i : Int, k ≤ i → i < s.len → 0 ≤ π (s.E l3 i)) → c3 ≤ 5 * ((s.len + 3) / 4) →
      ∃ (c2 : Nat) (r : Int) (τ2 : Equiv.Perm Nat) (c3 : Nat) (k : Int) (τ : Equiv.Perm Nat), (∀ i, i ∉ outRng s l h → τ2 i = i) ∧ (∀ i, i ∉ s.rng → τ i = i) ∧ 0 ≤ k ∧ k ≤ s.len ∧
        (∀ a, s.off ≤ a → a < s.off + k.toNat → π (τ a) ≤ 0) ∧ (∀ a, s.off + k.toNat ≤ a → a < s.off + s.len → 0 ≤ π (τ a)) ∧
        c2 + c3 + 3 * half.len ≤ 3 * s.len + 5 * ((s.len + 3) / 4) ∧
        (∀ {V κ ρ : Type} [LinearOrder ρ] {F : Fam V κ} {ok : κ → Prop} {rk : κ → ρ}, FamOK F ok rk → ∀ {pv : κ}, ok pv → ∀ {m : Mem V},
          Told F ok rk pv (outRng s l h) π m → TIn (outRng s l h) (partTwo F s l h pv : Prog V (VSp Sp) Int) m c2 r (m ∘ τ2)) ∧
        (∀ {V κ ρ : Type} [LinearOrder ρ] {F : Fam V κ} {ok : κ → Prop} {rk : κ → ρ}, FamOK F ok rk → ∀ {pv : κ}, ok pv → ∀ {m : Mem V},
          Told F ok rk pv s.rng π m → TIn s.rng (gapOf F s pv r (l + v) : Prog V (VSp Sp) Int) (m ∘ (τ1 * τ2 : Equiv.Perm Nat)) c3 k (m ∘ τ)) := by
    intro c3 k l3 e3 k0 k1 hrp hlow hhigh hc
    obtain ⟨σ, g1, g2⟩ := hrp
    have el : l3 = ⇑(τ1 * τ2 * σ) := funext g2
    subst el
    refine ⟨c2, r, τ2, c3, k, τ1 * τ2 * σ, fix2, ?_, k0, k1, ?_, ?_, by omega, ?_, ?_⟩
    · intro i hi
      rw [Equiv.Perm.mul_apply, g1 i hi, fix12 i hi]
    · intro a ha ha'
      have := hlow ((a - s.off : Nat) : Int) (by omega) (by omega)
      unfold Slice.E at this
      rwa [Int.toNat_natCast, show s.off + (a - s.off) = a by omega] at this
    · intro a ha ha'
      have := hhigh ((a - s.off : Nat) : Int) (by omega) (by omega)
      unfold Slice.E at this
      rwa [Int.toNat_natCast, show s.off + (a - s.off) = a by omega] at this
    · intro V κ ρ _ F ok rk hF pv hpv m ht
      exact NSim.runs e2 (fun i hi => hi) (partTwo_sim (ht.cmp hF hpv))
    · intro V κ ρ _ F ok rk hF pv hpv m ht
      refine NSim.runs (g := m) (N := s.rng) e3 (fun i hi => perm_mem fix12 hi) ?_
      unfold gapOf
      split_ifs
      · exact gapLow_sim (ht.cmp hF hpv)
      · exact gapHigh_sim (ht.cmp hF hpv)
  have done : ∃ (c2 : Nat) (r : Int) (τ2 : Equiv.Perm Nat) (c3 : Nat) (k : Int) (τ : Equiv.Perm Nat), (∀ i, i ∉ outRng s l h → τ2 i = i) ∧ (∀ i, i ∉ s.rng → τ i = i) ∧ 0 ≤ k ∧ k ≤ s.len ∧
        (∀ a, s.off ≤ a → a < s.off + k.toNat → π (τ a) ≤ 0) ∧ (∀ a, s.off + k.toNat ≤ a → a < s.off + s.len → 0 ≤ π (τ a)) ∧
        c2 + c3 + 3 * half.len ≤ 3 * s.len + 5 * ((s.len + 3) / 4) ∧
        (∀ {V κ ρ : Type} [LinearOrder ρ] {F : Fam V κ} {ok : κ → Prop} {rk : κ → ρ}, FamOK F ok rk → ∀ {pv : κ}, ok pv → ∀ {m : Mem V},
          Told F ok rk pv (outRng s l h) π m → TIn (outRng s l h) (partTwo F s l h pv : Prog V (VSp Sp) Int) m c2 r (m ∘ τ2)) ∧
        (∀ {V κ ρ : Type} [LinearOrder ρ] {F : Fam V κ} {ok : κ → Prop} {rk : κ → ρ}, FamOK F ok rk → ∀ {pv : κ}, ok pv → ∀ {m : Mem V},
          Told F ok rk pv s.rng π m → TIn s.rng (gapOf F s pv r (l + v) : Prog V (VSp Sp) Int) (m ∘ (τ1 * τ2 : Equiv.Perm Nat)) c3 k (m ∘ τ)) := by
    have hg : (gapOf (nameFam π) s 0 r (l + v) : Prog Nat (VSp Sp) Int) =
        if r < ((s.len / 2 : Nat) : Int) then gapLow (nameFam π) s 0 r (l + v) else gapHigh (nameFam π) s 0 r (l + v) := by
      unfold gapOf
      rw [hmid]
    rcases h2.cases with ⟨r0, r1, r2, r3, r4⟩ | ⟨r0, r1, r2, r3, r4⟩
    · rw [if_pos (by omega)] at hg
      obtain ⟨c3, k, l3, e3, k0, k1, k2, k3, k4, -⟩ := tin_of (A := s.rng) (fun _ _ _ _ _ h => h) (gapLow_spec (Sp := VSp Sp) (cmp := fun _ _ _ _ _ => False)
        (W := s.rng) (R := ∅) (nameFam_ok π) (slc := s) (pv := 0) (m0 := (τ1 * τ2 : Equiv.Perm Nat)) (r0 := r) (k0 := l + v) subset_rfl trivial (fun _ _ => trivial)
        (x := h - 1) (y := h) r0 (by omega) (by omega) (by
          intro i c0 c1
          by_cases c2 : i < l
          · rw [eO i (by omega) (by omega) (.inl c2)]; exact r2 i c0 c2
          · rw [eH i (by omega) (by omega)]; exact qlow _ (by omega) (by omega)) (by
          intro i c0 c1
          by_cases c2 : i < h
          · rw [eH i (by omega) c2]; exact qhigh _ (by omega) (by omega)
          · rw [eO i (by omega) c1 (.inr (by omega))]; exact r3 i (by omega) c1) (by
          intro c i c0 c1 c2 c3
          by_cases c4 : i < h
          · rw [eH i (by omega) c4]
            have := (hp1.zero (by omega) (by omega)).2 (i - l) (by omega) (by omega)
            change 0 < cut half π _ at this
            rw [kH _ (by omega) (by omega)] at this
            exact this
          · rw [eO i (by omega) c1 (.inr (by omega))]; exact r4 (by omega) i (by omega) c1))
      have b3 := paid e3.runs (cost_gapLow vmeter_wa)
      rw [← hg] at e3
      exact fin e3 k0 (by omega) k2 k3 k4 (by omega)
    · rw [if_neg (by omega)] at hg
      obtain ⟨c3, k, l3, e3, k0, k1, k2, k3, k4, -⟩ := tin_of (A := s.rng) (fun _ _ _ _ _ h => h) (gapHigh_spec (Sp := VSp Sp) (cmp := fun _ _ _ _ _ => False)
        (W := s.rng) (R := ∅) (nameFam_ok π) (slc := s) (pv := 0) (m0 := (τ1 * τ2 : Equiv.Perm Nat)) (r0 := r) (k0 := l + v) subset_rfl trivial (fun _ _ => trivial)
        (by omega) (by omega) r1 (by
          intro i c0 c1
          by_cases c2 : i < l
          · rw [eO i (by omega) (by omega) (.inl c2)]; exact r2 i c0 c2
          · rw [eH i (by omega) (by omega)]; exact qlow _ (by omega) (by omega)) (by
          intro i c0 c1
          by_cases c2 : i < h
          · rw [eH i (by omega) c2]; exact qhigh _ (by omega) (by omega)
          · rw [eO i (by omega) (by omega) (.inr (by omega))]; exact r3 i (by omega) c1) (by
          intro c i c0 c1
          by_cases c4 : i < l
          · rw [eO i (by omega) (by omega) (.inl c4)]; exact r4 (by omega) i (by omega) c4
          · rw [eH i (by omega) (by omega)]
            have := hp1.full (by omega) (by omega) (i - l) (by omega) (by omega)
            change cut half π _ < 0 at this
            rw [kH _ (by omega) (by omega)] at this
            exact this))
      have b3 := paid e3.runs (cost_gapHigh vmeter_wa)
      rw [← hg] at e3
      exact fin e3 (by omega) k1 k2 k3 k4 (by omega)
  obtain ⟨c2, r, τ2, c3, k, τ, g1, g2, g3, g4, g5, g6, g7, g8, g9⟩ := done
  subst hlo hhi hh
  refine ⟨c2, r, τ2, c3, k, τ, g1, g2, g3, g4, g5, g6, g7, g8, ?_⟩
  rw [hx]
  exact g9

end Sorty
