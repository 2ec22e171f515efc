import Verif.Proofs.Part
import Verif.Proofs.Sample

/-! # Pivot selection -/

namespace Sorty

open Prog

variable {V κ Sp : Type} {ρ : Type} [LinearOrder ρ]
variable {F : Fam V κ} {ok : κ → Prop} {rk : κ → ρ}
variable {cmp : Nat → Nat → V → V → Bool → Prop} {W R : Set Nat}

/-- `pv` is an acceptable pivot with three elements at most it and one at least it -/
structure PivOK (F : Fam V κ) (ok : κ → Prop) (rk : κ → ρ) (slc : Slice) (m : Mem V) (pv : κ) : Prop where
  okp : ok pv
  le : Three fun a => a ∈ slc.rng ∧ rk (F.key (m a)) ≤ rk pv
  ge : ∃ a ∈ slc.rng, rk pv ≤ rk (F.key (m a))

/-- `pv` is an acceptable pivot with two elements at most it, or one of them that is not the last, and one at least it -/
structure PivOK2 (F : Fam V κ) (ok : κ → Prop) (rk : κ → ρ) (slc : Slice) (m : Mem V) (pv : κ) : Prop where
  okp : ok pv
  le : (∃ a b, a ≠ b ∧ (a ∈ slc.rng ∧ rk (F.key (m a)) ≤ rk pv) ∧ b ∈ slc.rng ∧ rk (F.key (m b)) ≤ rk pv) ∨
    ∃ a ∈ slc.rng, a + 1 < slc.off + slc.len ∧ rk (F.key (m a)) ≤ rk pv
  ge : ∃ a ∈ slc.rng, rk pv ≤ rk (F.key (m a))

theorem PivOK.two {slc : Slice} {m : Mem V} {pv : κ} (h : PivOK F ok rk slc m pv) : PivOK2 F ok rk slc m pv := by
  obtain ⟨a, b, _, hab, _, _, ha, hb, _⟩ := h.le
  exact ⟨h.okp, .inl ⟨a, b, hab, ha, hb⟩, h.ge⟩

/-- address of the `j`-th of `n` samples, counted from the end as `pivot` fills its array -/
def sampAddr (slc : Slice) (n j : Nat) : Nat :=
  slc.off + ((minMaxSample slc.len n).1 + (n - 1 - j) * (minMaxSample slc.len n).2.1)

/-- how `pivot` makes its result from the two middle samples -/
def Fam.pick (F : Fam V κ) (a b : κ) : κ :=
  match F.mean with
  | some f => f a b
  | none => b

/-- `pv` lies between the two middle samples of the sorted samples `s'` (and is the upper one if there is no mean) -/
structure PivMid (F : Fam V κ) (rk : κ → ρ) (slc : Slice) (n : Nat) (m : Mem V) (pv : κ) (σ : Equiv.Perm Nat) (s' : Nat → κ) : Prop where
  dom : ∀ i, i < n → σ i < n
  val : ∀ i, i < n → s' i = F.key (m (sampAddr slc n (σ i)))
  sorted : ∀ i j, i ≤ j → j < n → rk (s' i) ≤ rk (s' j)
  ge : rk (s' (n / 2 - 1)) ≤ rk pv
  le : rk pv ≤ rk (s' (n / 2))
  eq : F.mean = none → pv = s' (n / 2)
  pick : pv = F.pick (s' (n / 2 - 1)) (s' (n / 2))

theorem sampAddr_inj {slc : Slice} {n : Nat} (hn : 2 ≤ n) (hlen : 2 * n ≤ slc.len) {i j : Nat} (hi : i < n) (hj : j < n)
    (he : sampAddr slc n i = sampAddr slc n j) : i = j := by
  obtain ⟨b1, b2, b3⟩ := minMaxSample_bounds hn hlen
  unfold sampAddr at he
  have : (n - 1 - i) * (minMaxSample slc.len n).2.1 = (n - 1 - j) * (minMaxSample slc.len n).2.1 := by omega
  have := Nat.eq_of_mul_eq_mul_right (by omega) this
  omega

theorem sampAddr_mem {slc : Slice} {n : Nat} (hn : 2 ≤ n) (hlen : 2 * n ≤ slc.len) {j : Nat} (hj : j < n) :
    sampAddr slc n j ∈ slc.rng := by
  obtain ⟨b1, b2, b3⟩ := minMaxSample_bounds hn hlen
  have : (n - 1 - j) * (minMaxSample slc.len n).2.1 ≤ (n - 1) * (minMaxSample slc.len n).2.1 := Nat.mul_le_mul_right _ (by omega)
  simp only [Slice.rng, Set.mem_ofPred_eq, sampAddr]
  omega

theorem pivot_mid (hF : FamOK F ok rk) {slc : Slice} (hW : slc.rng ⊆ W ∪ R) {n : Nat} (hn : 2 ≤ n) (hlen : 2 * n ≤ slc.len)
    {m0 : Mem V} (hok : ∀ a ∈ slc.rng, ok (F.key (m0 a))) :
    swp cmp W R (pivot F slc n : Prog V Sp κ) m0 fun pv m => m = m0 ∧ ok pv ∧ ∃ σ s', PivMid F rk slc n m0 pv σ s' := by
  obtain ⟨b1, b2, b3⟩ := minMaxSample_bounds (by omega : 2 ≤ n) hlen
  unfold pivot
  generalize hf0 : (minMaxSample slc.len n).1 = f0 at *
  generalize hst : (minMaxSample slc.len n).2.1 = st at *
  have hidx : ∀ j : Nat, j < n → f0 + (n - 1 - j) * st < slc.len := by
    intro j hj
    have : (n - 1 - j) * st ≤ (n - 1) * st := Nat.mul_le_mul_right _ (by omega)
    omega
  have hmm : minMaxSample slc.len n = (f0, st, (minMaxSample slc.len n).2.2) := by rw [← hf0, ← hst]
  rw [hmm]
  dsimp only
  -- the address of sample j
  let ad : Nat → Nat := fun j => slc.off + (f0 + (n - 1 - j) * st)
  have hade : ∀ j, sampAddr slc n j = ad j := fun j => by simp only [sampAddr, ad, hf0, hst]
  have had : ∀ j, j < n → ad j ∈ slc.rng := fun j hj => by
    have := hidx j hj
    simp only [Slice.rng, Set.mem_ofPred_eq, ad]; omega
  refine swp_bind (swp_mono (Q := fun sample m => m = m0 ∧ ∀ j, j < n → sample j = F.key (m0 (ad j))) ?_ ?_)
  · refine swp_loop _ _ (fun (s : Int × Int × Mem κ) m => m = m0 ∧ -1 ≤ s.1 ∧ s.1 < n ∧
      (0 ≤ s.1 → s.2.1 = ((f0 + (n - 1 - s.1.toNat) * st : Nat) : Int)) ∧
      ∀ j : Nat, s.1 < j → j < n → s.2.2 j = F.key (m0 (ad j))) (fun s => (s.1 + 1).toNat) ?_ _ _ _ ?_ ?_
    · rintro ⟨i, first, sample⟩ m ⟨rfl, h1, h2, h3, h4⟩
      dsimp only at *
      split_ifs with hc
      · have h3 := h3 (by omega)
        have hi := hidx i.toNat (by omega)
        refine swp_bind (Slice.swp_rd (by omega) (by omega) hW ?_)
        refine ⟨⟨rfl, by omega, by omega, ?_, ?_⟩, by omega⟩
        · intro hi0
          dsimp only at hi0
          dsimp only
          rw [h3]
          have : n - 1 - (i - 1).toNat = (n - 1 - i.toNat) + 1 := by omega
          rw [this, Nat.add_mul]
          push_cast; ring
        · intro j hj hj'
          dsimp only at hj ⊢
          by_cases hji : j = i.toNat
          · subst hji
            rw [Function.update_self]
            unfold Slice.E
            rw [h3, Int.toNat_natCast]
          · rw [Function.update_of_ne hji]
            exact h4 j (by omega) hj'
      · exact ⟨rfl, fun j hj => h4 j (by omega) hj⟩
    · refine ⟨rfl, by dsimp only; omega, by dsimp only; omega, ?_, fun j h1 h2 => by dsimp only at h1; omega⟩
      intro _
      dsimp only
      have : n - 1 - ((n : Int) - 1).toNat = 0 := by omega
      rw [this]; simp
    · dsimp only; omega
  · rintro sample m ⟨rfl, hs⟩
    have hloc := insertion_spec (V := κ) (κ := κ) (Sp := Empty) (cmp := fun _ _ _ _ _ => False) (R := ∅) (key := id) (lt := F.lt)
      (ok := ok) (r := rk) (fun x y hx hy => hF.lt x y hx hy) (slc := ⟨0, n⟩) (W := Slice.rng ⟨0, n⟩) (le_refl _) (m := sample) ?_
    · obtain ⟨u, s', he, hrp, hsort⟩ := swp_evalLocal hloc
      rw [he]
      obtain ⟨σ, hσ1, hσ2⟩ := hrp
      have hσ : ∀ i, i < n → σ i < n := by
        intro i hi
        have := perm_mem hσ1 (i := i) (by simp [Slice.rng]; omega)
        simpa [Slice.rng] using this
      have hval : ∀ i, i < n → s' i = F.key (m (ad (σ i))) := fun i hi => by rw [hσ2, hs _ (hσ i hi)]
      have hoks : ∀ i, i < n → ok (s' i) := fun i hi => by rw [hval i hi]; exact hok _ (had _ (hσ i hi))
      have hle : ∀ i j, i ≤ j → j < n → rk (s' i) ≤ rk (s' j) := fun i j hij hj =>
        hsort.le (by simp) hij (by simpa using hj)
      dsimp only
      cases hmean : F.mean with
      | some f =>
        obtain ⟨o1, o2, o3⟩ := hF.mean f hmean _ _ (hoks (n / 2 - 1) (by omega)) (hoks (n / 2) (by omega))
        rw [min_eq_left (hle _ _ (by omega) (by omega))] at o2
        rw [max_eq_right (hle _ _ (by omega) (by omega))] at o3
        exact ⟨rfl, o1, σ, s', hσ, fun i hi => by rw [hade]; exact hval i hi, hle, o2, o3, fun h => (by rw [hmean] at h; cases h), by unfold Fam.pick; rw [hmean]⟩
      | none =>
        exact ⟨rfl, hoks _ (by omega), σ, s', hσ, fun i hi => by rw [hade]; exact hval i hi, hle, hle _ _ (by omega) (by omega), le_refl _, fun _ => rfl, by unfold Fam.pick; rw [hmean]⟩
    · intro a ha
      simp only [Slice.rng, Set.mem_ofPred_eq] at ha
      rw [hs a (by omega)]
      exact hok _ (had _ (by omega))

theorem pivot_spec (hF : FamOK F ok rk) {slc : Slice} (hW : slc.rng ⊆ W ∪ R) {n : Nat} (hn : 5 ≤ n)
    (hn6 : F.mean ≠ none → 6 ≤ n) (hlen : 2 * n ≤ slc.len)
    {m0 : Mem V} (hok : ∀ a ∈ slc.rng, ok (F.key (m0 a))) :
    swp cmp W R (pivot F slc n : Prog V Sp κ) m0 fun pv m => m = m0 ∧ PivOK F ok rk slc m0 pv := by
  refine swp_mono (pivot_mid hF hW (by omega) hlen hok) ?_
  rintro pv m ⟨rfl, hp, σ, s', h⟩
  have hσ := h.dom
  have hin := fun i hi => sampAddr_mem (slc := slc) (by omega : 2 ≤ n) hlen (hσ i hi)
  have hinj := fun i j (hi : i < n) (hj : j < n) (hij : i ≠ j) (he : sampAddr slc n (σ i) = sampAddr slc n (σ j)) =>
    hij (σ.injective (sampAddr_inj (by omega : 2 ≤ n) hlen (hσ i hi) (hσ j hj) he))
  have h1 : rk (s' 2) ≤ rk pv := by
    cases hmean : F.mean with
    | some f =>
      have h6 := hn6 (by simp [hmean])
      exact (h.sorted _ _ (by omega) (by omega)).trans h.ge
    | none => rw [h.eq hmean]; exact h.sorted _ _ (by omega) (by omega)
  refine ⟨rfl, hp, ⟨sampAddr slc n (σ 0), sampAddr slc n (σ 1), sampAddr slc n (σ 2), hinj _ _ (by omega) (by omega) (by omega),
    hinj _ _ (by omega) (by omega) (by omega), hinj _ _ (by omega) (by omega) (by omega), ⟨hin _ (by omega), ?_⟩, ⟨hin _ (by omega), ?_⟩,
    ⟨hin _ (by omega), ?_⟩⟩, sampAddr slc n (σ (n - 1)), hin _ (by omega), ?_⟩
  · rw [← h.val 0 (by omega)]; exact (h.sorted 0 2 (by omega) (by omega)).trans h1
  · rw [← h.val 1 (by omega)]; exact (h.sorted 1 2 (by omega) (by omega)).trans h1
  · rw [← h.val 2 (by omega)]; exact h1
  · rw [← h.val (n - 1) (by omega)]; exact h.le.trans (h.sorted _ _ (by omega) (by omega))

/-- the four-sample network leaves the two middle samples in `b`,`c` in some order -/
theorem shortPivot4_spec (hF : FamOK F ok rk) {slc : Slice} (hW : slc.rng ⊆ W ∪ R) {f : κ → κ → κ} (hf : F.mean = some f)
    (hlen : 8 ≤ slc.len) (h32 : slc.len < 2 ^ 32) {m0 : Mem V} (hok : ∀ a ∈ slc.rng, ok (F.key (m0 a))) :
    swp cmp W R (shortPivot4 F f slc : Prog V Sp κ) m0 fun pv m => m = m0 ∧ PivOK2 F ok rk slc m0 pv := by
  obtain ⟨b1, b2⟩ := minMaxFour_bounds hlen h32
  obtain ⟨e1, e2, e3⟩ := minMaxFour_idx hlen h32
  unfold shortPivot4
  generalize hx : (minMaxFour (UInt32.ofNat slc.len)).1 = first at *
  generalize hy : (minMaxFour (UInt32.ofNat slc.len)).2 = step at *
  have hmm : minMaxFour (UInt32.ofNat slc.len) = (first, step) := by rw [← hx, ← hy]
  rw [hmm]
  dsimp only
  rw [e1, e2, e3]
  refine swp_bind (Slice.swp_rd (by omega) (by omega) hW ?_)
  refine swp_bind (Slice.swp_rd (by omega) (by omega) hW ?_)
  refine swp_bind (Slice.swp_rd (by omega) (by omega) hW ?_)
  refine swp_bind (Slice.swp_rd (by omega) (by omega) hW ?_)
  have mA := Slice.mem_rng (s := slc) (i := (first.toNat : Int)) (by omega) (by omega)
  have mB := Slice.mem_rng (s := slc) (i := ((first.toNat + step.toNat : Nat) : Int)) (by omega) (by omega)
  have mC := Slice.mem_rng (s := slc) (i := ((first.toNat + 2 * step.toNat : Nat) : Int)) (by omega) (by omega)
  have mD := Slice.mem_rng (s := slc) (i := ((first.toNat + 3 * step.toNat : Nat) : Int)) (by omega) (by omega)
  have oA := hok _ mA
  have oB := hok _ mB
  have oC := hok _ mC
  have oD := hok _ mD
  have key : ∀ pv, ok pv → (∃ x y : Nat, x ∈ [slc.off + first.toNat, slc.off + (first.toNat + step.toNat), slc.off + (first.toNat + 2 * step.toNat), slc.off + (first.toNat + 3 * step.toNat)] ∧ y ∈ [slc.off + first.toNat, slc.off + (first.toNat + step.toNat), slc.off + (first.toNat + 2 * step.toNat), slc.off + (first.toNat + 3 * step.toNat)] ∧ x ≠ y ∧ rk (F.key (m0 x)) ≤ rk pv ∧ rk (F.key (m0 y)) ≤ rk pv) → (∃ x : Nat, x ∈ [slc.off + first.toNat, slc.off + (first.toNat + step.toNat), slc.off + (first.toNat + 2 * step.toNat), slc.off + (first.toNat + 3 * step.toNat)] ∧ rk pv ≤ rk (F.key (m0 x))) →
      PivOK2 F ok rk slc m0 pv := by
    rintro pv hp ⟨x, y, hx, hy, hxy, h1, h2⟩ ⟨z, hz, h3⟩
    have hm : ∀ x : Nat, x ∈ [slc.off + first.toNat, slc.off + (first.toNat + step.toNat), slc.off + (first.toNat + 2 * step.toNat), slc.off + (first.toNat + 3 * step.toNat)] → x ∈ slc.rng := by
      intro x hx
      simp only [List.mem_cons, List.not_mem_nil, or_false] at hx
      simp only [Slice.rng, Set.mem_ofPred_eq]
      omega
    exact ⟨hp, .inl ⟨x, y, hxy, ⟨hm x hx, h1⟩, hm y hy, h2⟩, z, hm z hz, h3⟩
  unfold Slice.E
  simp only [Int.toNat_natCast] at *
  -- abbreviations
  have nAB : slc.off + first.toNat ≠ slc.off + (first.toNat + step.toNat) := by omega
  have nAC : slc.off + first.toNat ≠ slc.off + (first.toNat + 2 * step.toNat) := by omega
  have nAD : slc.off + first.toNat ≠ slc.off + (first.toNat + 3 * step.toNat) := by omega
  have nBC : slc.off + (first.toNat + step.toNat) ≠ slc.off + (first.toNat + 2 * step.toNat) := by omega
  have nBD : slc.off + (first.toNat + step.toNat) ≠ slc.off + (first.toNat + 3 * step.toNat) := by omega
  have nCD : slc.off + (first.toNat + 2 * step.toNat) ≠ slc.off + (first.toNat + 3 * step.toNat) := by omega
  generalize slc.off + first.toNat = A at *
  generalize slc.off + (first.toNat + step.toNat) = B at *
  generalize slc.off + (first.toNat + 2 * step.toNat) = C at *
  generalize slc.off + (first.toNat + 3 * step.toNat) = D at *
  clear b1 b2 e1 e2 e3 hmm hx hy hlen h32 mA mB mC mD
  have net : ∃ a b c d : Nat, a ∈ [A, B, C, D] ∧ b ∈ [A, B, C, D] ∧ c ∈ [A, B, C, D] ∧ d ∈ [A, B, C, D] ∧ True := ⟨A, A, A, A, by simp⟩
  -- the first two exchanges
  have ex : ∀ x y : Nat, ok (F.key (m0 x)) → ok (F.key (m0 y)) →
      ∃ x' y', ((x' = x ∧ y' = y) ∨ (x' = y ∧ y' = x)) ∧ rk (F.key (m0 y')) ≤ rk (F.key (m0 x')) ∧
      (if F.lt (F.key (m0 x)) (F.key (m0 y)) = true then (F.key (m0 y), F.key (m0 x)) else (F.key (m0 x), F.key (m0 y))) =
        (F.key (m0 x'), F.key (m0 y')) := by
    intro x y hx hy
    have := hF.lt _ _ hx hy
    split_ifs with h
    · exact ⟨y, x, .inr ⟨rfl, rfl⟩, (this.1 h).le, rfl⟩
    · exact ⟨x, y, .inl ⟨rfl, rfl⟩, not_lt.1 fun h' => h (this.2 h'), rfl⟩
  obtain ⟨d', b', hdb, hle1, he1⟩ := ex D B oD oB
  obtain ⟨c', a', hca, hle2, he2⟩ := ex C A oC oA
  rw [he1, he2]
  dsimp only
  have oks : ok (F.key (m0 a')) ∧ ok (F.key (m0 b')) ∧ ok (F.key (m0 c')) ∧ ok (F.key (m0 d')) := by
    rcases hdb with ⟨rfl, rfl⟩ | ⟨rfl, rfl⟩ <;> rcases hca with ⟨rfl, rfl⟩ | ⟨rfl, rfl⟩ <;>
      exact ⟨by assumption, by assumption, by assumption, by assumption⟩
  have dist : a' ≠ b' ∧ a' ≠ c' ∧ a' ≠ d' ∧ b' ≠ c' ∧ b' ≠ d' ∧ c' ≠ d' := by
    rcases hdb with ⟨rfl, rfl⟩ | ⟨rfl, rfl⟩ <;> rcases hca with ⟨rfl, rfl⟩ | ⟨rfl, rfl⟩ <;>
      refine ⟨?_, ?_, ?_, ?_, ?_, ?_⟩ <;> first | assumption | (apply Ne.symm; assumption)
  have mems : a' ∈ [A, B, C, D] ∧ b' ∈ [A, B, C, D] ∧ c' ∈ [A, B, C, D] ∧ d' ∈ [A, B, C, D] := by
    rcases hdb with ⟨rfl, rfl⟩ | ⟨rfl, rfl⟩ <;> rcases hca with ⟨rfl, rfl⟩ | ⟨rfl, rfl⟩ <;> simp
  obtain ⟨oa, ob, oc, od⟩ := oks
  obtain ⟨ma, mb, mc, md⟩ := mems
  have hdc := hF.lt _ _ od oc
  have hba := hF.lt _ _ ob oa
  split_ifs with h2 h1 h1
  · -- c := d, b := a : a' ≥ b', d' < c'
    rw [hdc] at h1; rw [hba] at h2
    obtain ⟨p1, p2, p3⟩ := hF.mean f hf _ _ oa od
    refine ⟨rfl, key _ p1 ?_ ?_⟩
    · rcases le_total (rk (F.key (m0 a'))) (rk (F.key (m0 d'))) with hh | hh
      · rw [min_eq_left hh] at p2
        exact ⟨a', b', ma, mb, dist.1, p2, h2.le.trans p2⟩
      · rw [min_eq_right hh] at p2
        exact ⟨d', b', md, mb, Ne.symm dist.2.2.2.2.1, p2, hle1.trans p2⟩
    · rcases le_total (rk (F.key (m0 a'))) (rk (F.key (m0 d'))) with hh | hh
      · rw [max_eq_right hh] at p3; exact ⟨d', md, p3⟩
      · rw [max_eq_left hh] at p3; exact ⟨a', ma, p3⟩
  · -- c, b := a
    rw [hdc, not_lt] at h1; rw [hba] at h2
    obtain ⟨p1, p2, p3⟩ := hF.mean f hf _ _ oa oc
    refine ⟨rfl, key _ p1 ?_ ?_⟩
    · rw [min_eq_left hle2] at p2
      exact ⟨a', b', ma, mb, dist.1, p2, h2.le.trans p2⟩
    · rw [max_eq_right hle2] at p3; exact ⟨c', mc, p3⟩
  · -- c := d, b
    rw [hdc] at h1; rw [hba, not_lt] at h2
    obtain ⟨p1, p2, p3⟩ := hF.mean f hf _ _ ob od
    refine ⟨rfl, key _ p1 ?_ ?_⟩
    · rw [min_eq_left hle1] at p2
      exact ⟨a', b', ma, mb, dist.1, h2.trans p2, p2⟩
    · rw [max_eq_right hle1] at p3; exact ⟨d', md, p3⟩
  · -- c, b
    rw [hdc, not_lt] at h1; rw [hba, not_lt] at h2
    obtain ⟨p1, p2, p3⟩ := hF.mean f hf _ _ ob oc
    refine ⟨rfl, key _ p1 ?_ ?_⟩
    · rcases le_total (rk (F.key (m0 b'))) (rk (F.key (m0 c'))) with hh | hh
      · rw [min_eq_left hh] at p2
        exact ⟨a', b', ma, mb, dist.1, h2.trans p2, p2⟩
      · rw [min_eq_right hh] at p2
        exact ⟨a', c', ma, mc, dist.2.1, hle2.trans p2, p2⟩
    · rcases le_total (rk (F.key (m0 b'))) (rk (F.key (m0 c'))) with hh | hh
      · rw [max_eq_right hh] at p3; exact ⟨c', mc, p3⟩
      · rw [max_eq_left hh] at p3; exact ⟨b', mb, p3⟩

/-- on slices of 2^32 elements or more (which only a tuned `MaxLenRec` lets through) `uint32(len)` loses bits, so the
four indices may coincide; they are still in range, none is the last, and the pivot still lies between two samples -/
theorem shortPivot4_big (hF : FamOK F ok rk) {slc : Slice} (hW : slc.rng ⊆ W ∪ R) {f : κ → κ → κ} (hf : F.mean = some f)
    (h32 : 2 ^ 32 ≤ slc.len) {m0 : Mem V} (hok : ∀ a ∈ slc.rng, ok (F.key (m0 a))) :
    swp cmp W R (shortPivot4 F f slc : Prog V Sp κ) m0 fun pv m => m = m0 ∧ PivOK2 F ok rk slc m0 pv := by
  have hlt := minMaxFour_big h32
  dsimp only at hlt
  unfold shortPivot4
  generalize hx : (minMaxFour (UInt32.ofNat slc.len)).1 = first at *
  generalize hy : (minMaxFour (UInt32.ofNat slc.len)).2 = step at *
  have hmm : minMaxFour (UInt32.ofNat slc.len) = (first, step) := by rw [← hx, ← hy]
  rw [hmm]
  dsimp only
  obtain ⟨l1, l2, l3, l4⟩ := hlt
  refine swp_bind (Slice.swp_rd (by omega) (by omega) hW ?_)
  refine swp_bind (Slice.swp_rd (by omega) (by omega) hW ?_)
  refine swp_bind (Slice.swp_rd (by omega) (by omega) hW ?_)
  refine swp_bind (Slice.swp_rd (by omega) (by omega) hW ?_)
  unfold Slice.E
  simp only [Int.toNat_natCast] at *
  generalize first.toNat = A at *
  generalize (first + step).toNat = B at *
  generalize (first + 2 * step).toNat = C at *
  generalize (first + 3 * step).toNat = D at *
  -- every value the exchanges can produce is a sample
  have samp : ∀ v : κ, (v = F.key (m0 (slc.off + A)) ∨ v = F.key (m0 (slc.off + B)) ∨ v = F.key (m0 (slc.off + C)) ∨
      v = F.key (m0 (slc.off + D))) → ∃ a ∈ slc.rng, a + 1 < slc.off + slc.len ∧ v = F.key (m0 a) := by
    rintro v (h | h | h | h)
    · exact ⟨slc.off + A, by simp only [Slice.rng, Set.mem_ofPred_eq]; omega, by omega, h⟩
    · exact ⟨slc.off + B, by simp only [Slice.rng, Set.mem_ofPred_eq]; omega, by omega, h⟩
    · exact ⟨slc.off + C, by simp only [Slice.rng, Set.mem_ofPred_eq]; omega, by omega, h⟩
    · exact ⟨slc.off + D, by simp only [Slice.rng, Set.mem_ofPred_eq]; omega, by omega, h⟩
  have key : ∀ x y : κ, (∃ a ∈ slc.rng, a + 1 < slc.off + slc.len ∧ x = F.key (m0 a)) →
      (∃ a ∈ slc.rng, a + 1 < slc.off + slc.len ∧ y = F.key (m0 a)) → PivOK2 F ok rk slc m0 (f x y) := by
    rintro x y ⟨a, ha, ha', rfl⟩ ⟨b, hb, hb', rfl⟩
    obtain ⟨p1, p2, p3⟩ := hF.mean f hf _ _ (hok a ha) (hok b hb)
    refine ⟨p1, .inr ?_, ?_⟩
    · rcases le_total (rk (F.key (m0 a))) (rk (F.key (m0 b))) with hh | hh
      · rw [min_eq_left hh] at p2; exact ⟨a, ha, ha', p2⟩
      · rw [min_eq_right hh] at p2; exact ⟨b, hb, hb', p2⟩
    · rcases le_total (rk (F.key (m0 a))) (rk (F.key (m0 b))) with hh | hh
      · rw [max_eq_right hh] at p3; exact ⟨b, hb, p3⟩
      · rw [max_eq_left hh] at p3; exact ⟨a, ha, p3⟩
  generalize F.key (m0 (slc.off + A)) = a at *
  generalize F.key (m0 (slc.off + B)) = b at *
  generalize F.key (m0 (slc.off + C)) = c at *
  generalize F.key (m0 (slc.off + D)) = d at *
  refine ⟨rfl, key _ _ (samp _ ?_) (samp _ ?_)⟩ <;> split_ifs <;> simp

theorem shortPivot3_spec (hF : FamOK F ok rk) {slc : Slice} (hW : slc.rng ⊆ W ∪ R)
    (hlen : 6 ≤ slc.len) {m0 : Mem V} (hok : ∀ a ∈ slc.rng, ok (F.key (m0 a))) :
    swp cmp W R (shortPivot3 F slc : Prog V Sp κ) m0 fun pv m => m = m0 ∧ PivOK2 F ok rk slc m0 pv := by
  obtain ⟨b1, b2, b3⟩ := minMaxSample_bounds (by omega : 2 ≤ 3) hlen
  unfold shortPivot3
  generalize hf0 : (minMaxSample slc.len 3).1 = f0 at *
  generalize hst : (minMaxSample slc.len 3).2.1 = st at *
  generalize hla : (minMaxSample slc.len 3).2.2 = la at *
  have hmm : minMaxSample slc.len 3 = (f0, st, la) := by rw [← hf0, ← hst, ← hla]
  rw [hmm]
  dsimp only
  refine swp_bind (Slice.swp_rd (by omega) (by omega) hW ?_)
  refine swp_bind (Slice.swp_rd (by omega) (by omega) hW ?_)
  refine swp_bind (Slice.swp_rd (by omega) (by omega) hW ?_)
  have mA := Slice.mem_rng (s := slc) (i := (f0 : Int)) (by omega) (by omega)
  have mB := Slice.mem_rng (s := slc) (i := ((f0 + st : Nat) : Int)) (by omega) (by omega)
  have mC := Slice.mem_rng (s := slc) (i := (la : Int)) (by omega) (by omega)
  unfold Slice.E
  simp only [Int.toNat_natCast] at *
  have nAB : slc.off + f0 ≠ slc.off + (f0 + st) := by omega
  have nAC : slc.off + f0 ≠ slc.off + la := by omega
  have nBC : slc.off + (f0 + st) ≠ slc.off + la := by omega
  generalize slc.off + f0 = A at *
  generalize slc.off + (f0 + st) = B at *
  generalize slc.off + la = C at *
  have oA := hok _ mA
  have oB := hok _ mB
  have oC := hok _ mC
  have ex : ∃ x y, ((x = A ∧ y = B) ∨ (x = B ∧ y = A)) ∧ rk (F.key (m0 x)) ≤ rk (F.key (m0 y)) ∧
      (if F.lt (F.key (m0 B)) (F.key (m0 A)) = true then (F.key (m0 A), F.key (m0 B)) else (F.key (m0 B), F.key (m0 A))) =
        (F.key (m0 y), F.key (m0 x)) := by
    have := hF.lt _ _ oB oA
    split_ifs with h
    · exact ⟨B, A, .inr ⟨rfl, rfl⟩, (this.1 h).le, rfl⟩
    · exact ⟨A, B, .inl ⟨rfl, rfl⟩, not_lt.1 fun h' => h (this.2 h'), rfl⟩
  obtain ⟨x, y, hxy, hle, he⟩ := ex
  rw [he]
  dsimp only
  have h1 : x ∈ slc.rng ∧ y ∈ slc.rng ∧ x ≠ y ∧ x ≠ C ∧ y ≠ C := by
    rcases hxy with ⟨rfl, rfl⟩ | ⟨rfl, rfl⟩
    · exact ⟨mA, mB, nAB, nAC, nBC⟩
    · exact ⟨mB, mA, nAB.symm, nBC, nAC⟩
  obtain ⟨mx, my, nxy, nxC, nyC⟩ := h1
  have oX := hok _ mx
  have oY := hok _ my
  have k1 := hF.lt _ _ oC oY
  have k2 := hF.lt _ _ oC oX
  split_ifs with c1 c2
  · rw [k1] at c1; rw [k2] at c2
    exact ⟨rfl, oX, .inl ⟨x, C, nxC, ⟨mx, le_refl _⟩, mC, c2.le⟩, y, my, hle⟩
  · rw [k1] at c1; rw [k2, not_lt] at c2
    exact ⟨rfl, oC, .inl ⟨x, C, nxC, ⟨mx, c2⟩, mC, le_refl _⟩, y, my, c1.le⟩
  · rw [k1, not_lt] at c1
    exact ⟨rfl, oY, .inl ⟨x, y, nxy, ⟨mx, hle⟩, my, le_refl _⟩, C, mC, c1⟩

theorem shortPivot_spec (hF : FamOK F ok rk) {slc : Slice} (hW : slc.rng ⊆ W ∪ R)
    (hlen : 8 ≤ slc.len) {m0 : Mem V} (hok : ∀ a ∈ slc.rng, ok (F.key (m0 a))) :
    swp cmp W R (shortPivot F slc : Prog V Sp κ) m0 fun pv m => m = m0 ∧ PivOK2 F ok rk slc m0 pv := by
  unfold shortPivot
  cases hm : F.mean with
  | some f =>
    rcases Nat.lt_or_ge slc.len (2 ^ 32) with h32 | h32
    · exact shortPivot4_spec hF hW hm hlen h32 hok
    · exact shortPivot4_big hF hW hm h32 hok
  | none => exact shortPivot3_spec hF hW (by omega) hok

end Sorty
