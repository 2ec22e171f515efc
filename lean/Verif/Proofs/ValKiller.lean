import Mathlib.Data.List.Induction
import Mathlib.Logic.Equiv.Basic
import Mathlib.Data.List.Nodup
import Mathlib.Data.List.Perm.Subperm
import Verif.Logic.Touch
import Verif.Proofs.Short

/-! # Arrangements that make SortSlice and SortLen slow

One round of `long*` loads every element of its range. Its pivot lies between the two middle ones of five or six samples. If the lower
samples are the least elements of the range, only a few elements end up on the lower side. Which of the elements that are left are
where does not matter before the next round, so it can still be chosen then.

Elements are named by numbers. A permutation `r` gives the rank of each name, and `e` the element of each rank. -/

namespace Sorty

open Prog

variable {V κ Sp : Type}

/-- `partOne` loads every element -/
theorem aw_partOne {F : Fam V κ} {slc : Slice} {pv : κ} {m : Mem V} {n : Nat} :
    aw (partOne F slc pv : Prog V Sp Int) m n fun _ _ n' => n + slc.len ≤ n' := by
  unfold partOne
  refine aw_loop (fun st _ n' =>
    match st with
    | .start l h => (slc.len : Int) - (h - l + 1) ≤ (n' : Int) - n
    | .second l h => (slc.len : Int) - (h - l + 1) + 2 ≤ (n' : Int) - n
    | .swap l h => (slc.len : Int) - (h - l + 1) + 2 ≤ (n' : Int) - n
    | .next l h => (slc.len : Int) - (h - l + 1) + 2 ≤ (n' : Int) - n
    | .scan l h => (slc.len : Int) - (h - l + 1) + 1 ≤ (n' : Int) - n
    | .last l h => (slc.len : Int) - (h - l + 1) ≤ (n' : Int) - n ∧ h ≤ l) ?_ _ _ _ _ (by dsimp only; omega)
  rintro (⟨l, h⟩ | ⟨l, h⟩ | ⟨l, h⟩ | ⟨l, h⟩ | ⟨l, h⟩ | ⟨l, h⟩) m n' hI <;> dsimp only at hI <;> simp only [partOneStep]
  · by_cases hc : h - 1 ≤ l
    · rw [if_pos hc]
      show n + slc.len ≤ n'
      omega
    · rw [if_neg hc]
      refine aw_bind (aw_rd fun _ => ?_)
      split_ifs
      · show (slc.len : Int) - (h - 1 - l + 1) + 2 ≤ ((n' + 1 : Nat) : Int) - n
        push_cast; omega
      · show (slc.len : Int) - (h - 1 - l + 1) + 2 ≤ ((n' + 1 : Nat) : Int) - n
        push_cast; omega
  · refine aw_bind (aw_swap fun _ => ?_)
    show (slc.len : Int) - (h - l + 1) + 2 ≤ ((n' + 4 : Nat) : Int) - n
    push_cast; omega
  · show (slc.len : Int) - (h - 1 - (l + 1) + 1) ≤ (n' : Int) - n
    omega
  · by_cases hc : h ≤ l
    · rw [if_pos hc]; exact ⟨hI, hc⟩
    · rw [if_neg hc]
      refine aw_bind (aw_rd fun _ => ?_)
      by_cases hx : F.le pv (F.key (slc.E m h)) = true
      · rw [if_pos hx]
        refine aw_bind (aw_rd fun _ => ?_)
        split_ifs
        · show (slc.len : Int) - (h - l + 1) + 2 ≤ ((n' + 1 + 1 : Nat) : Int) - n
          push_cast; omega
        · show (slc.len : Int) - (h - l + 1) + 2 ≤ ((n' + 1 + 1 : Nat) : Int) - n
          push_cast; omega
      · rw [if_neg hx]
        show (slc.len : Int) - (h - l + 1) + 1 ≤ ((n' + 1 : Nat) : Int) - n
        push_cast; omega
  · refine aw_bind (aw_rd fun _ => ?_)
    by_cases hx : F.le pv (F.key (slc.E m l)) = true
    · rw [if_pos hx]
      show (slc.len : Int) - (h - l + 1) + 2 ≤ ((n' + 1 : Nat) : Int) - n
      push_cast; omega
    · rw [if_neg hx]
      by_cases hc : h ≤ l + 1
      · rw [if_pos hc]
        show n + slc.len ≤ n' + 1
        omega
      · rw [if_neg hc]
        show (slc.len : Int) - (h - (l + 1) + 1) + 1 ≤ ((n' + 1 : Nat) : Int) - n
        push_cast; omega
  · by_cases hc : l = h
    · rw [if_pos hc]
      refine aw_bind (aw_rd fun _ => ?_)
      split_ifs
      · show n + slc.len ≤ n' + 1
        omega
      · show n + slc.len ≤ n' + 1
        omega
    · rw [if_neg hc]
      show n + slc.len ≤ n'
      omega

/-! ## Names -/

/-- the family of names of elements -/
def Fam.via {V' : Type} (F : Fam V κ) (g : V' → V) : Fam V' κ where
  key x := F.key (g x)
  lt := F.lt
  le := F.le
  zero := F.zero
  maxIns := F.maxIns
  maxRec := F.maxRec
  mean := F.mean

theorem img_partOne {V' : Type} (F : Fam V κ) (g : V' → V) (slc : Slice) (pv : κ) :
    Img g (partOne (F.via g) slc pv : Prog V' Sp Int) (partOne F slc pv) := by
  refine Img.loop (fun st => ?_) _ _
  rcases st with ⟨l, h⟩ | ⟨l, h⟩ | ⟨l, h⟩ | ⟨l, h⟩ | ⟨l, h⟩ | ⟨l, h⟩ <;> simp only [partOneStep]
  · split_ifs
    · exact .ret _
    · refine Img.rd fun x => ?_
      show Img g (if F.le (F.key (g x)) pv = true then _ else _) (if F.le (F.key (g x)) pv = true then _ else _)
      split_ifs <;> exact .ret _
  · refine Img.bind ?_ fun _ => .ret _
    unfold Slice.swap
    exact Img.rd fun x => Img.rd fun y => Img.bind Img.wr fun _ => Img.wr
  · exact .ret _
  · split_ifs
    · exact .ret _
    · refine Img.rd fun x => ?_
      show Img g (if F.le pv (F.key (g x)) = true then _ else _) (if F.le pv (F.key (g x)) = true then _ else _)
      split_ifs
      · refine Img.rd fun y => ?_
        show Img g (if F.lt pv (F.key (g y)) = true then _ else _) (if F.lt pv (F.key (g y)) = true then _ else _)
        split_ifs <;> exact .ret _
      · exact .ret _
  · refine Img.rd fun y => ?_
    show Img g (if F.le pv (F.key (g y)) = true then _ else _) (if F.le pv (F.key (g y)) = true then _ else _)
    split_ifs <;> exact .ret _
  · split_ifs
    · refine Img.rd fun x => ?_
      show Img g (if F.lt (F.key (g x)) pv = true then _ else _) (if F.lt (F.key (g x)) pv = true then _ else _)
      split_ifs <;> exact .ret _
    · exact .ret _

/-- `partOne` depends only on how elements compare with the pivot -/
theorem partOne_congr {V' : Type} {F : Fam V κ} {g g' : V' → V} {slc : Slice} {pv : κ}
    (h1 : ∀ x, F.le (F.key (g x)) pv = F.le (F.key (g' x)) pv) (h2 : ∀ x, F.le pv (F.key (g x)) = F.le pv (F.key (g' x)))
    (h3 : ∀ x, F.lt (F.key (g x)) pv = F.lt (F.key (g' x)) pv) (h4 : ∀ x, F.lt pv (F.key (g x)) = F.lt pv (F.key (g' x))) :
    (partOne (F.via g) slc pv : Prog V' Sp Int) = partOne (F.via g') slc pv := by
  unfold partOne
  have : (partOneStep (F.via g) slc pv : P1 → Prog V' Sp (Ctl P1 Int)) = partOneStep (F.via g') slc pv := by
    funext st
    cases st <;> simp only [partOneStep, Fam.via, h1, h2, h3, h4] <;> rfl
  rw [this]

/-! ## Ranks -/

/-- `r'` gives the ranks below `N` to the same names as `r` -/
def Refines (N : Nat) (r r' : Equiv.Perm Nat) : Prop := ∀ x, r x < N → r' x = r x

theorem Refines.lt_iff {N : Nat} {r r' : Equiv.Perm Nat} (h : Refines N r r') (x : Nat) : r' x < N ↔ r x < N := by
  refine ⟨fun hx => ?_, fun hx => by rw [h x hx]; exact hx⟩
  have h1 : r (r.symm (r' x)) = r' x := Equiv.apply_symm_apply _ _
  have h2 := h (r.symm (r' x)) (by rw [h1]; exact hx)
  rw [h1] at h2
  rw [r'.injective h2] at h1
  rw [h1]; exact hx

theorem Refines.trans {N N' : Nat} {r r1 r2 : Equiv.Perm Nat} (h : Refines N r r1) (h' : Refines N' r1 r2) (hN : N ≤ N') : Refines N r r2 := by
  intro x hx
  have h1 := h x hx
  rw [h' x (by omega), h1]

/-- ranks of `n` names -/
def Ranks (n : Nat) (r : Equiv.Perm Nat) : Prop := ∀ i, n ≤ i → r i = i

theorem Ranks.lt {n : Nat} {r : Equiv.Perm Nat} (h : Ranks n r) {x : Nat} (hx : x < n) : r x < n := by
  by_contra hh
  have := r.injective (h (r x) (by omega))
  omega

/-- the next ranks can be given to any names that have none yet -/
theorem exists_assign {n N0 : Nat} {r0 : Equiv.Perm Nat} (h0 : Ranks n r0) : ∀ (S : List Nat), S.Nodup → (∀ x ∈ S, x < n ∧ N0 ≤ r0 x) →
    ∃ r1, Ranks n r1 ∧ Refines N0 r0 r1 ∧ ∀ i (h : i < S.length), r1 S[i] = N0 + i := by
  intro S
  induction S using List.reverseRecOn with
  | nil => intro _ _; exact ⟨r0, h0, fun _ _ => rfl, fun i h => by simp at h⟩
  | append_singleton S x ih =>
    intro hn hS
    rw [List.nodup_append] at hn
    obtain ⟨r1, a1, a2, a3⟩ := ih hn.1 fun y hy => hS y (by simp [hy])
    obtain ⟨hx1, hx2⟩ := hS x (by simp)
    have hxS : x ∉ S := fun h => hn.2.2 x h x (by simp) rfl
    have hge : N0 + S.length ≤ r1 x := by
      by_contra hh
      by_cases h1 : r1 x < N0
      · have := (a2.lt_iff x).1 h1; omega
      · have := a3 (r1 x - N0) (by omega)
        rw [show N0 + (r1 x - N0) = r1 x by omega] at this
        exact hxS (by rw [← r1.injective this]; exact List.getElem_mem _)
    have hlt := a1.lt hx1
    refine ⟨r1.trans (Equiv.swap (r1 x) (N0 + S.length)), ?_, ?_, ?_⟩
    · intro i hi
      rw [Equiv.trans_apply, a1 i hi, Equiv.swap_apply_of_ne_of_ne (by omega) (by omega)]
    · intro y hy
      rw [Equiv.trans_apply, a2 y hy, Equiv.swap_apply_of_ne_of_ne (by omega) (by omega)]
    · intro i hi
      rw [List.length_append, List.length_singleton] at hi
      rw [Equiv.trans_apply]
      by_cases hc : i < S.length
      · rw [List.getElem_append_left hc, a3 i hc, Equiv.swap_apply_of_ne_of_ne (by omega) (by omega)]
      · obtain rfl : i = S.length := by omega
        rw [List.getElem_append_right le_rfl]
        simp

/-- two ascending lists with the same least elements -/
theorem least_eq {q u N : Nat} {f g : Nat → Nat} (hf : ∀ i j, i < j → j < q → f i < f j) (hg : ∀ i j, i < j → j < q → g i < g j)
    (hu : u < q) (hN : g u < N) (hfg : ∀ i < q, f i < N → ∃ j < q, g j = f i) (hgf : ∀ i < q, g i < N → ∃ j < q, f j = g i) :
    ∀ i ≤ u, f i = g i := by
  intro i
  induction i using Nat.strong_induction_on with
  | _ i ih =>
    intro hi
    have hgi : g i < N := by
      rcases eq_or_lt_of_le hi with rfl | h
      · exact hN
      · exact (hg i u h hu).trans hN
    obtain ⟨j, hj, e⟩ := hgf i (by omega) hgi
    have hij : i ≤ j := by
      by_contra hh
      have := ih j (by omega) (by omega)
      have := hg j i (by omega) (by omega)
      omega
    have h1 : f i ≤ g i := by
      rw [← e]
      rcases eq_or_lt_of_le hij with rfl | h
      · exact le_rfl
      · exact (hf i j h hj).le
    obtain ⟨j', hj', e'⟩ := hfg i (by omega) (by omega)
    have hij' : i ≤ j' := by
      by_contra hh
      have := ih j' (by omega) (by omega)
      have := hf j' i (by omega) (by omega)
      omega
    have h2 : g i ≤ f i := by
      rw [← e']
      rcases eq_or_lt_of_le hij' with rfl | h
      · exact le_rfl
      · exact (hg i j' h hj').le
    omega

/-- a run depends only on the part of memory it uses -/
theorem TRuns.local {α : Type} {cmp : Nat → Nat → V → V → Bool → Prop} {W R : Set Nat} {p : Prog V Sp α} {m m' : Mem V} {n : Nat} {a : α}
    (hr : TRuns p m n a m') : ∀ {K : α → Mem V → Prop} {m0 : Mem V}, swp cmp W R p m K → Agree (W ∪ R) m m0 →
      ∃ m0', TRuns p m0 n a m0' ∧ Agree (W ∪ R) m' m0' := by
  induction hr with
  | ret a m => intro K m0 _ h; exact ⟨m0, .ret _ _, h⟩
  | @read i k m n a m' _ ih =>
    intro K m0 hs h
    obtain ⟨m0', h1, h2⟩ := ih hs.2 h
    have := h i hs.1
    rw [this] at h1
    exact ⟨m0', .read h1, h2⟩
  | @write i v k m n a m' _ ih =>
    intro K m0 hs h
    obtain ⟨m0', h1, h2⟩ := ih (m0 := Function.update m0 i v) hs.2 (by
      intro b hb
      simp only [Function.update_apply]
      split_ifs
      · rfl
      · exact h b hb)
    exact ⟨m0', .write h1, h2⟩

/-! ## One round -/

section
variable {ρ : Type} [LinearOrder ρ] {F : Fam V κ} {ok : κ → Prop} {rk : κ → ρ} {e : Nat → V} {n : Nat}

theorem FamOK.via {V' : Type} (hF : FamOK F ok rk) (g : V' → V) : FamOK (F.via g) ok rk :=
  ⟨hF.lt, hF.le, hF.mean, hF.ins, hF.recOK⟩

/-- elements that are acceptable and in ascending order -/
structure Ladder (F : Fam V κ) (ok : κ → Prop) (rk : κ → ρ) (e : Nat → V) (n : Nat) : Prop where
  ok : ∀ i < n, ok (F.key (e i))
  lt : ∀ i j, i < j → j < n → rk (F.key (e i)) < rk (F.key (e j))

theorem Ladder.le (h : Ladder F ok rk e n) {i j : Nat} (hi : i < n) : rk (F.key (e i)) ≤ rk (F.key (e j)) → i ≤ j := by
  intro hh
  by_contra hc
  exact absurd (h.lt j i (by omega) hi) (not_lt.2 hh)

theorem surj_below {q : Nat} {σ : Equiv.Perm Nat} (h : ∀ i < q, σ i < q) : ∀ j < q, ∃ i < q, σ i = j := by
  have hn : ((List.range q).map σ).Nodup := List.Nodup.map σ.injective List.nodup_range
  have hp := (List.subperm_of_subset hn (l₂ := List.range q) (by
    intro x hx
    obtain ⟨i, hi, rfl⟩ := List.mem_map.1 hx
    exact List.mem_range.2 (h i (List.mem_range.1 hi)))).perm_of_length_le (by simp)
  intro j hj
  obtain ⟨i, hi, e⟩ := List.mem_map.1 (hp.mem_iff.2 (List.mem_range.2 hj))
  exact ⟨i, List.mem_range.1 hi, e⟩

/-- what a round of `long` does with samples `T` -/
structure Sampled (F : Fam V κ) (rk : κ → ρ) (e : Nat → V) (ar : Slice) (q : Nat) (lab : Mem Nat) (r : Equiv.Perm Nat) (pv : κ) (T : Nat → Nat) : Prop where
  pick : pv = F.pick (F.key (e (r (T (q / 2 - 1))))) (F.key (e (r (T (q / 2)))))
  ge : rk (F.key (e (r (T (q / 2 - 1))))) ≤ rk pv
  le : rk pv ≤ rk (F.key (e (r (T (q / 2)))))
  mem : ∀ i < q, ∃ j < q, T i = lab (sampAddr ar q j)
  surj : ∀ j < q, ∃ i < q, T i = lab (sampAddr ar q j)
  asc : ∀ i j, i < j → j < q → r (T i) < r (T j)

theorem sampled (hF : FamOK F ok rk) (he : Ladder F ok rk e n) {ar : Slice} {q : Nat} (hq : 2 ≤ q) (hlen : 2 * q ≤ ar.len)
    {lab : Mem Nat} (hinj : ∀ a ∈ ar.rng, ∀ b ∈ ar.rng, lab a = lab b → a = b) (hlab : ∀ a ∈ ar.rng, lab a < n)
    {r : Equiv.Perm Nat} (hr : Ranks n r) :
    ∃ c pv T, TRuns (pivot F ar q : Prog V Sp κ) (e ∘ r ∘ lab) c pv (e ∘ r ∘ lab) ∧ ok pv ∧ Sampled F rk e ar q lab r pv T := by
  have hs := pivot_mid (Sp := Sp) (cmp := fun _ _ _ _ _ => False) (W := ar.rng) (R := ∅) hF (slc := ar) (by simp) hq hlen (m0 := e ∘ r ∘ lab)
    (fun a ha => he.ok _ (hr.lt (hlab a ha)))
  obtain ⟨c, pv, m', hrun, ⟨rfl, hok, σ, s', h⟩, -⟩ := runs_of (fun _ _ _ _ _ h => h) (n := 0) hs aw_true
  have hs' : ∀ i < q, s' i = F.key (e (r (lab (sampAddr ar q (σ i))))) := h.val
  refine ⟨c, pv, fun i => lab (sampAddr ar q (σ i)), hrun, hok, ?_, ?_, ?_, ?_, ?_, ?_⟩
  · rw [← hs' _ (by omega), ← hs' _ (by omega)]; exact h.pick
  · rw [← hs' _ (by omega)]; exact h.ge
  · rw [← hs' _ (by omega)]; exact h.le
  · intro i hi; exact ⟨σ i, h.dom i hi, rfl⟩
  · intro j hj
    obtain ⟨i, hi, rfl⟩ := surj_below h.dom j hj
    exact ⟨i, hi, rfl⟩
  · intro i j hij hj
    have h1 := h.sorted i j hij.le hj
    rw [hs' i (by omega), hs' j hj] at h1
    have m1 := sampAddr_mem hq hlen (h.dom i (by omega))
    have m2 := sampAddr_mem hq hlen (h.dom j hj)
    have h2 := he.le (hr.lt (hlab _ m1)) h1
    rcases eq_or_lt_of_le h2 with e1 | e1
    · have := σ.injective (sampAddr_inj hq hlen (h.dom i (by omega)) (h.dom j hj) (hinj _ m1 _ m2 (r.injective e1)))
      omega
    · exact e1

theorem Sampled.agree {ar : Slice} {q : Nat} {lab : Mem Nat} {r1 r : Equiv.Perm Nat} {pv pv' : κ} {T T' : Nat → Nat} (hq : 2 ≤ q)
    (h1 : Sampled F rk e ar q lab r1 pv T) (h2 : Sampled F rk e ar q lab r pv' T') (hr : Refines (r1 (T (q / 2)) + 1) r1 r) : pv' = pv := by
  have key : ∀ i ≤ q / 2, r (T' i) = r1 (T i) := by
    refine least_eq (q := q) (N := r1 (T (q / 2)) + 1) h2.asc h1.asc (by omega) (by omega) ?_ ?_
    · intro i hi hlt
      obtain ⟨j, hj, ej⟩ := h2.mem i hi
      obtain ⟨i', hi', ei'⟩ := h1.surj j hj
      refine ⟨i', hi', ?_⟩
      rw [ei', ← ej]
      exact (hr _ ((hr.lt_iff _).1 hlt)).symm
    · intro i hi hlt
      obtain ⟨j, hj, ej⟩ := h1.mem i hi
      obtain ⟨i', hi', ei'⟩ := h2.surj j hj
      refine ⟨i', hi', ?_⟩
      rw [ei', ← ej]
      exact hr _ hlt
  rw [h2.pick, h1.pick, key _ (by omega), key _ le_rfl]

theorem vround (hF : FamOK F ok rk) (he : Ladder F ok rk e n) {ar : Slice} {q : Nat} (hq : 4 ≤ q) (hq6 : q ≤ 7) (hlen : 2 * q ≤ ar.len)
    {lab : Mem Nat} (hinj : ∀ a ∈ ar.rng, ∀ b ∈ ar.rng, lab a = lab b → a = b) (hlab : ∀ a ∈ ar.rng, lab a < n)
    {r0 : Equiv.Perm Nat} (h0 : Ranks n r0) {N0 : Nat} {L : List Nat} (hL : L.length ≤ 2) (hK : ∀ a ∈ ar.rng, r0 (lab a) < N0 → lab a ∈ L) :
    ∃ (r1 : Equiv.Perm Nat) (N1 : Nat) (L1 : List Nat) (pv : κ) (k : Nat) (lab1 : Mem Nat) (c : Nat),
      Ranks n r1 ∧ Refines N0 r0 r1 ∧ N0 ≤ N1 ∧ L1.length ≤ 2 ∧ 0 < k ∧ k ≤ 6 ∧ RP ar.rng lab lab1 ∧
      (∀ a, ar.off + k ≤ a → a < ar.off + ar.len → r1 (lab1 a) < N1 → lab1 a ∈ L1) ∧ ar.len ≤ c ∧
      ∀ r, Ranks n r → Refines N1 r1 r → (∃ c0, TRuns (pivot F ar q : Prog V Sp κ) (e ∘ r ∘ lab) c0 pv (e ∘ r ∘ lab)) ∧
        TRuns (partOne F ar pv : Prog V Sp Int) (e ∘ r ∘ lab) c k (e ∘ r ∘ lab1) := by
  -- ranks of the samples
  let S : List Nat := ((List.range q).map fun j => lab (sampAddr ar q j)).filter fun x => decide (N0 ≤ r0 x)
  have hsm : ∀ j < q, sampAddr ar q j ∈ ar.rng := fun j hj => sampAddr_mem (by omega) hlen hj
  have hSn : S.Nodup := by
    refine List.Nodup.filter _ (List.Nodup.map_on ?_ List.nodup_range)
    intro i hi j hj h
    rw [List.mem_range] at hi hj
    exact sampAddr_inj (by omega) hlen hi hj (hinj _ (hsm i hi) _ (hsm j hj) h)
  have hSm : ∀ x ∈ S, (∃ j < q, x = lab (sampAddr ar q j)) ∧ N0 ≤ r0 x := by
    intro x hx
    obtain ⟨h1, h2⟩ := List.mem_filter.1 hx
    obtain ⟨j, hj, rfl⟩ := List.mem_map.1 h1
    exact ⟨⟨j, List.mem_range.1 hj, rfl⟩, of_decide_eq_true h2⟩
  obtain ⟨r1, a1, a2, a3⟩ := exists_assign (N0 := N0) h0 S hSn (by
    intro x hx
    obtain ⟨⟨j, hj, rfl⟩, h⟩ := hSm x hx
    exact ⟨hlab _ (hsm j hj), h⟩)
  obtain ⟨c0, pv, T, hrun, hpv, hT⟩ := sampled (Sp := Sp) hF he (ar := ar) (q := q) (by omega) hlen hinj hlab a1
  obtain ⟨u, hu⟩ : ∃ u, q / 2 = u := ⟨_, rfl⟩
  have hTge := hT.ge
  have hTpv := hT.le
  rw [hu] at hTge hTpv
  have hTr : ∀ i < q, ∃ a ∈ ar.rng, T i = lab a := by
    intro i hi
    obtain ⟨j, hj, h⟩ := hT.mem i hi
    exact ⟨_, hsm j hj, h⟩
  have hTlt : ∀ i < q, T i < n := by
    intro i hi
    obtain ⟨a, ha, h⟩ := hTr i hi
    rw [h]; exact hlab a ha
  have hTle : ∀ i j, i ≤ j → j < q → r1 (T i) ≤ r1 (T j) := by
    intro i j hij hj
    rcases eq_or_lt_of_le hij with rfl | h
    · exact le_rfl
    · exact (hT.asc i j h hj).le
  have hTne : ∀ i j, i < q → j < q → T i = T j → i = j := by
    intro i j hi hj h
    by_contra hne
    rcases Nat.lt_or_gt_of_ne hne with h1 | h1
    · have := hT.asc i j h1 hj; rw [h] at this; omega
    · have := hT.asc j i h1 hi; rw [h] at this; omega
  have hKnown : ∀ a ∈ ar.rng, r1 (lab a) < N0 → lab a ∈ L := fun a ha h => hK a ha ((a2.lt_iff _).1 h)
  have hTK : ∀ i < q, r1 (T i) < N0 → T i ∈ L := by
    intro i hi h
    obtain ⟨a, ha, e1⟩ := hTr i hi
    rw [e1] at h ⊢
    exact hKnown a ha h
  have hTu : N0 ≤ r1 (T u) := by
    by_contra hh
    have hnd : [T 0, T 1, T 2].Nodup := by
      have b1 : T 0 ≠ T 1 := fun h => by have := hTne 0 1 (by omega) (by omega) h; omega
      have b2 : T 0 ≠ T 2 := fun h => by have := hTne 0 2 (by omega) (by omega) h; omega
      have b3 : T 1 ≠ T 2 := fun h => by have := hTne 1 2 (by omega) (by omega) h; omega
      simp [b1, b2, b3]
    have hss : [T 0, T 1, T 2] ⊆ L := by
      intro y hy
      simp only [List.mem_cons, List.not_mem_nil, or_false] at hy
      rcases hy with rfl | rfl | rfl
      · exact hTK 0 (by omega) (by have := hTle 0 u (by omega) (by omega); omega)
      · exact hTK 1 (by omega) (by have := hTle 1 u (by omega) (by omega); omega)
      · exact hTK 2 (by omega) (by have := hTle 2 u (by omega) (by omega); omega)
    have := (List.subperm_of_subset hnd hss).length_le
    simp at this
    omega
  -- the elements up to the pivot
  have hA : ∀ x, (∃ a ∈ ar.rng, x = lab a) → r1 x ≤ r1 (T u) → x ∈ L ∧ r1 x < N0 ∨ ∃ j ≤ u, x = T j := by
    rintro x ⟨a, ha, rfl⟩ hx
    by_cases hx0 : r1 (lab a) < N0
    · exact .inl ⟨hKnown a ha hx0, hx0⟩
    · right
      have hTS : T u ∈ S := by
        obtain ⟨j, hj, h⟩ := hT.mem u (by omega)
        refine List.mem_filter.2 ⟨List.mem_map.2 ⟨j, List.mem_range.2 hj, h.symm⟩, decide_eq_true ?_⟩
        by_contra hh
        have := a2 (T u) (by omega)
        omega
      obtain ⟨i, hi, e1⟩ := List.getElem_of_mem hTS
      have h1 := a3 i hi
      rw [e1] at h1
      have h2 := a3 (r1 (lab a) - N0) (by omega)
      rw [show N0 + (r1 (lab a) - N0) = r1 (lab a) by omega] at h2
      have h3 := r1.injective h2
      obtain ⟨⟨j, hj, h4⟩, -⟩ := hSm _ (List.getElem_mem (l := S) (n := r1 (lab a) - N0) (by omega))
      obtain ⟨i', hi', h5⟩ := hT.surj j hj
      have h6 : lab a = T i' := by rw [h5, ← h4, h3]
      refine ⟨i', ?_, h6⟩
      by_contra hh
      have := hT.asc u i' (by omega) hi'
      rw [h6] at hx
      omega
  -- the partition
  have hsp := partOne_spec (Sp := Sp) (cmp := fun _ _ _ _ _ => False) (W := ar.rng) (R := ∅) (hF.via (e ∘ r1)) (slc := ar) subset_rfl hpv (m0 := lab)
    (fun a ha => he.ok _ (a1.lt (hlab a ha)))
  obtain ⟨c, k, lab1, hrun1, hp, hc⟩ := runs_of (fun _ _ _ _ _ h => h) (n := 0) hsp aw_partOne
  have hkey : ∀ x, (F.via (e ∘ r1)).key x = F.key (e (r1 x)) := fun _ => rfl
  obtain ⟨σ, s1, s2⟩ := hp.rp
  have hl1 : ∀ a ∈ ar.rng, ∃ b ∈ ar.rng, lab1 a = lab b := fun a ha => ⟨σ a, perm_mem s1 ha, s2 a⟩
  have hinj1 : ∀ a ∈ ar.rng, ∀ b ∈ ar.rng, lab1 a = lab1 b → a = b := by
    intro a ha b hb h
    rw [s2, s2] at h
    exact σ.injective (hinj _ (perm_mem s1 ha) _ (perm_mem s1 hb) h)
  have hlab1 : ∀ a ∈ ar.rng, lab1 a < n := by
    intro a ha
    obtain ⟨b, hb, h⟩ := hl1 a ha
    rw [h]; exact hlab b hb
  have hk0 := hp.k0; have hk1 := hp.k1
  have hmemE : ∀ i : Nat, i < ar.len → ar.off + i ∈ ar.rng := fun i hi => by simp only [Slice.rng, Set.mem_ofPred_eq]; omega
  have hE : ∀ (m : Mem Nat) (i : Nat), ar.E m (i : Int) = m (ar.off + i) := fun m i => rfl
  have hkpos : 0 < k := by
    by_contra hh
    obtain ⟨-, hz⟩ := hp.zero (by omega) (by omega)
    have hz' : ∀ a ∈ ar.rng, lab1 a = T 0 ∨ lab1 a = T 1 → a = ar.off + (ar.len - 1) := by
      intro a ha hT01
      simp only [Slice.rng, Set.mem_ofPred_eq] at ha
      by_contra hne
      have := hz ((a - ar.off : Nat) : Int) (by omega) (by omega)
      rw [hE, show ar.off + (a - ar.off) = a by omega, hkey] at this
      refine absurd this (not_lt.2 (le_trans ?_ hTge))
      rcases hT01 with h | h
      · rw [h]
        exact (he.lt _ _ (hT.asc 0 _ (by omega) (by omega)) (a1.lt (hTlt _ (by omega)))).le
      · rw [h]
        have := hTle 1 (u - 1) (by omega) (by omega)
        rcases eq_or_lt_of_le this with e1 | e1
        · rw [e1]
        · exact (he.lt _ _ e1 (a1.lt (hTlt _ (by omega)))).le
    obtain ⟨b0, hb0, e0⟩ := hTr 0 (by omega)
    obtain ⟨b1, hb1, e1⟩ := hTr 1 (by omega)
    have f0 := hz' (σ.symm b0) (perm_mem (perm_symm s1) hb0) (.inl (by rw [s2, Equiv.apply_symm_apply, e0]))
    have f1 := hz' (σ.symm b1) (perm_mem (perm_symm s1) hb1) (.inr (by rw [s2, Equiv.apply_symm_apply, e1]))
    have := σ.symm.injective (f0.trans f1.symm)
    rw [this] at e0
    have := hTne 0 1 (by omega) (by omega) (e0.trans e1.symm)
    omega
  obtain ⟨k, rfl⟩ : ∃ j : Nat, k = j := ⟨k.toNat, by omega⟩
  have hlow : ∀ i, i < k → r1 (lab1 (ar.off + i)) ≤ r1 (T u) := by
    intro i hi
    have := hp.low i (by omega) (by omega)
    rw [hE, hkey] at this
    exact he.le (a1.lt (hlab1 _ (hmemE i (by omega)))) (this.trans hTpv)
  refine ⟨r1, r1 (T u) + 1, [T (u - 1), T u], pv, k, lab1, c, a1, a2, by omega, le_rfl, by omega, ?_, hp.rp, ?_, by omega, ?_⟩
  · have hnd : ((List.range k).map fun i => lab1 (ar.off + i)).Nodup := by
      refine List.Nodup.map_on ?_ List.nodup_range
      intro i hi j hj h
      rw [List.mem_range] at hi hj
      have := hinj1 _ (hmemE i (by omega)) _ (hmemE j (by omega)) h
      omega
    have hss : ((List.range k).map fun i => lab1 (ar.off + i)) ⊆ L ++ (List.range (u + 1)).map T := by
      intro x hx
      obtain ⟨i, hi, rfl⟩ := List.mem_map.1 hx
      rw [List.mem_range] at hi
      rw [List.mem_append]
      rcases hA _ (hl1 _ (hmemE i (by omega))) (hlow i hi) with h | ⟨j, hj, h⟩
      · exact .inl h.1
      · exact .inr (List.mem_map.2 ⟨j, List.mem_range.2 (by omega), h.symm⟩)
    have := (List.subperm_of_subset hnd hss).length_le
    simp at this
    omega
  · intro a ha1 ha2 ha
    have hm : a ∈ ar.rng := by simp only [Slice.rng, Set.mem_ofPred_eq]; omega
    have hge : r1 (T (u - 1)) ≤ r1 (lab1 a) := by
      have := hp.high ((a - ar.off : Nat) : Int) (by omega) (by omega)
      rw [hE, show ar.off + (a - ar.off) = a by omega, hkey] at this
      exact he.le (a1.lt (hTlt _ (by omega))) (hTge.trans this)
    rcases hA _ (hl1 a hm) (by omega) with ⟨h1, h2⟩ | ⟨j, hj, h⟩
    · by_cases hx : lab1 a = T (u - 1)
      · rw [hx]; simp
      · exfalso
        have hlt : r1 (T (u - 1)) < r1 (lab1 a) := lt_of_le_of_ne hge fun h => hx (r1.injective h.symm)
        have hl0 := hTle 0 (u - 1) (by omega) (by omega)
        have hl1' := hTle 1 (u - 1) (by omega) (by omega)
        have b1 : T 0 ≠ T 1 := fun h => by have := hTne 0 1 (by omega) (by omega) h; omega
        have b2 : T 0 ≠ lab1 a := fun h => by rw [h] at hl0; omega
        have b3 : T 1 ≠ lab1 a := fun h => by rw [h] at hl1'; omega
        have hnd : [T 0, T 1, lab1 a].Nodup := by simp [b1, b2, b3]
        have hss : [T 0, T 1, lab1 a] ⊆ L := by
          intro y hy
          simp only [List.mem_cons, List.not_mem_nil, or_false] at hy
          rcases hy with rfl | rfl | rfl
          · exact hTK 0 (by omega) (by omega)
          · exact hTK 1 (by omega) (by omega)
          · exact h1
        have := (List.subperm_of_subset hnd hss).length_le
        simp at this
        omega
    · rw [h] at hge ⊢
      by_cases hju : j = u
      · rw [hju]; simp
      · by_cases hju' : j = u - 1
        · rw [hju']; simp
        · have := hT.asc j (u - 1) (by omega) (by omega)
          omega
  · intro r hr hrf
    obtain ⟨c1, pv', T', hrun', -, hT'⟩ := sampled (Sp := Sp) hF he (ar := ar) (q := q) (by omega) hlen hinj hlab hr
    have hpe : pv' = pv := Sampled.agree (by omega) hT hT' (by rw [hu]; exact hrf)
    rw [hpe] at hrun'
    refine ⟨⟨c1, hrun'⟩, ?_⟩
    -- the same comparisons
    have hbig : ∀ x, r1 x = r x ∨ (ok (F.key (e (r1 x))) ∧ rk pv < rk (F.key (e (r1 x)))) ∧ ok (F.key (e (r x))) ∧ rk pv < rk (F.key (e (r x))) := by
      intro x
      by_cases hx : r1 x < r1 (T u) + 1
      · exact .inl (hrf x hx).symm
      · by_cases hxn : x < n
        · right
          have hx' : ¬ r x < r1 (T u) + 1 := fun h => hx ((hrf.lt_iff x).1 h)
          exact ⟨⟨he.ok _ (a1.lt hxn), lt_of_le_of_lt hTpv (he.lt _ _ (by omega) (a1.lt hxn))⟩,
            he.ok _ (hr.lt hxn), lt_of_le_of_lt hTpv (he.lt _ _ (by omega) (hr.lt hxn))⟩
        · left; rw [a1 x (by omega), hr x (by omega)]
    have hcong := partOne_congr (Sp := Sp) (F := F) (slc := ar) (pv := pv) (g := e ∘ r1) (g' := e ∘ r) (fun x => by
        simp only [Function.comp_apply]
        rcases hbig x with h | ⟨⟨h1, h2⟩, h3, h4⟩
        · rw [h]
        · rw [Bool.eq_iff_iff, hF.le _ _ h1 hpv, hF.le _ _ h3 hpv]
          exact iff_of_false (not_le.2 h2) (not_le.2 h4)) (fun x => by
        simp only [Function.comp_apply]
        rcases hbig x with h | ⟨⟨h1, h2⟩, h3, h4⟩
        · rw [h]
        · rw [Bool.eq_iff_iff, hF.le _ _ hpv h1, hF.le _ _ hpv h3]
          exact iff_of_true h2.le h4.le) (fun x => by
        simp only [Function.comp_apply]
        rcases hbig x with h | ⟨⟨h1, h2⟩, h3, h4⟩
        · rw [h]
        · rw [Bool.eq_iff_iff, hF.lt _ _ h1 hpv, hF.lt _ _ h3 hpv]
          exact iff_of_false (not_lt.2 h2.le) (not_lt.2 h4.le)) (fun x => by
        simp only [Function.comp_apply]
        rcases hbig x with h | ⟨⟨h1, h2⟩, h3, h4⟩
        · rw [h]
        · rw [Bool.eq_iff_iff, hF.lt _ _ hpv h1, hF.lt _ _ hpv h3]
          exact iff_of_true h2 h4)
    rw [hcong] at hrun1
    exact Img.runs (g := e ∘ r) hrun1 (img_partOne F (e ∘ r) ar pv)

theorem nLong_bounds : 5 ≤ F.nLong ∧ F.nLong ≤ 6 := by
  unfold Fam.nLong nsLong
  split_ifs <;> omega

theorem sq_step {a l c c1 M : Nat} (h1 : a - 6 ≤ l) (h2 : 6 ≤ a) (h3 : l ^ 2 ≤ 12 * c + M) (h4 : a ≤ c1) : a ^ 2 ≤ 12 * (c1 + c) + M := by
  obtain ⟨x, rfl⟩ : ∃ x, a = x + 6 := ⟨a - 6, by omega⟩
  rw [Nat.add_sub_cancel] at h1
  have := Nat.pow_le_pow_left h1 2
  nlinarith

/-- ranks with which `long` is slow -/
theorem vkiller (hF : FamOK F ok rk) (he : Ladder F ok rk e n) : ∀ (f d : Nat) (ar : Slice) (sv : Bool) (lab : Mem Nat) (r0 : Equiv.Perm Nat) (N0 : Nat)
    (L : List Nat), F.maxRec < ar.len → ar.len ≤ f → (∀ a ∈ ar.rng, ∀ b ∈ ar.rng, lab a = lab b → a = b) → (∀ a ∈ ar.rng, lab a < n) →
    Ranks n r0 → L.length ≤ 2 → (∀ a ∈ ar.rng, r0 (lab a) < N0 → lab a ∈ L) →
    ∃ r, Ranks n r ∧ Refines N0 r0 r ∧ ∃ c, ar.len ^ 2 ≤ 12 * c + F.maxRec ^ 2 ∧
      ∀ m, Agree ar.rng (e ∘ r ∘ lab) m → (long F f d ar sv).touches m c := by
  have hins := hF.ins
  have hrec := hF.recOK
  have hns : nsShort = 4 := rfl
  obtain ⟨hq5, hq6⟩ := nLong_bounds (F := F)
  intro f
  induction f with
  | zero => intro d ar sv lab r0 N0 L h1 h2; omega
  | succ f ih =>
    intro d ar sv lab r0 N0 L hlen hf hinj hlab h0 hL hK
    obtain ⟨r1, N1, L1, pv, k, lab1, c1, a1, a2, a3, a4, a5, a6, a7, a8, a9, a10⟩ :=
      vround (Sp := VSp κ) hF he (ar := ar) (q := F.nLong) (by omega) (by omega) (by omega) hinj hlab h0 hL hK
    obtain ⟨σ, s1, s2⟩ := id a7
    let aq : Slice := ⟨ar.off, k⟩
    let ar' : Slice := ⟨ar.off + k, ar.len - k⟩
    have hsub : ar'.rng ⊆ ar.rng := by
      intro a ha
      simp only [Slice.rng, Set.mem_ofPred_eq, ar'] at ha ⊢
      omega
    have hsubq : aq.rng ⊆ ar.rng := by
      intro a ha
      simp only [Slice.rng, Set.mem_ofPred_eq, aq] at ha ⊢
      omega
    have hdis : Disjoint aq.rng ar'.rng := by
      rw [Set.disjoint_left]
      intro a ha hb
      simp only [Slice.rng, Set.mem_ofPred_eq, aq, ar'] at ha hb
      omega
    -- what is left
    have key : ∃ r, Ranks n r ∧ Refines N1 r1 r ∧ ∃ c, ar.len ^ 2 ≤ 12 * (c1 + c) + F.maxRec ^ 2 ∧
        ∀ m, Agree ar'.rng (e ∘ r ∘ lab1) m → (if ar'.len > F.maxRec then long F f d ar' sv
          else match d with
            | 0 => .overflow
            | d + 1 => short F f d ar' : Prog V (VSp κ) Unit).touches m c := by
      by_cases hc : ar'.len > F.maxRec
      · obtain ⟨r, q1, q2, c, q3, q4⟩ := ih d ar' sv lab1 r1 N1 L1 hc (by show ar.len - k ≤ f; omega) (by
            intro a ha b hb h
            rw [s2, s2] at h
            exact σ.injective (hinj _ (perm_mem s1 (hsub ha)) _ (perm_mem s1 (hsub hb)) h)) (by
            intro a ha
            rw [s2]; exact hlab _ (perm_mem s1 (hsub ha))) a1 a4 (by
            intro a ha
            simp only [Slice.rng, Set.mem_ofPred_eq, ar'] at ha
            exact a8 a (by omega) (by omega))
        refine ⟨r, q1, q2, c, ?_, fun m hm => by rw [if_pos hc]; exact q4 m hm⟩
        exact sq_step (by show ar.len - 6 ≤ ar.len - k; omega) (by omega) q3 a9
      · refine ⟨r1, a1, fun _ _ => rfl, 0, ?_, fun m _ => touches_zero⟩
        exact sq_step (l := F.maxRec) (by
          have : ar'.len = ar.len - k := rfl
          omega) (by omega) (by omega) a9
    obtain ⟨r, q1, q2, c, q3, q4⟩ := key
    obtain ⟨⟨c0, x1⟩, x2⟩ := a10 r q1 q2
    refine ⟨r, q1, a2.trans q2 a3, c1 + c, q3, fun m hm => ?_⟩
    -- the same with `m`
    have hokr : ∀ l : Mem Nat, (∀ a ∈ ar.rng, l a < n) → ∀ a ∈ ar.rng, ok (F.key ((e ∘ r ∘ l) a)) :=
      fun l hl a ha => he.ok _ (q1.lt (hl a ha))
    have hlab1 : ∀ a ∈ ar.rng, lab1 a < n := fun a ha => by rw [s2]; exact hlab _ (perm_mem s1 ha)
    obtain ⟨m1, y1, z1⟩ := x1.local (cmp := fun _ _ _ _ _ => False) (W := ar.rng) (R := ∅) (m0 := m)
      (pivot_mid hF (by simp) (by omega) (by omega) (hokr lab hlab)) (by simpa using hm)
    have hpvok : ok pv := by
      obtain ⟨k', b, m', y, ⟨-, y3, -⟩, -⟩ := runs_of (fun _ _ _ _ _ h => h) (n := 0)
        (pivot_mid (Sp := VSp κ) (cmp := fun _ _ _ _ _ => False) (W := ar.rng) (R := ∅) hF (by simp) (by omega : 2 ≤ F.nLong) (by omega)
          (hokr lab hlab)) aw_true
      rwa [(x1.det y).2.1]
    obtain ⟨m2, y2, z2⟩ := x2.local (cmp := fun _ _ _ _ _ => False) (W := ar.rng) (R := ∅) (m0 := m1)
      (partOne_spec hF subset_rfl hpvok (hokr lab hlab)) z1
    rw [Set.union_empty] at z2
    have hins : swp (fun _ _ _ _ _ => False) ar.rng ∅ (insertion F.key F.lt aq : Prog V (VSp κ) Unit) m2 fun _ m' =>
        RP aq.rng m2 m' ∧ SortedOn (fun v => rk (F.key v)) m' aq.off (aq.off + aq.len) := insertion_spec hF.ltOK hsubq (by
      intro a ha
      rw [← z2 a (hsubq ha)]
      exact hokr lab1 hlab1 a (hsubq ha))
    obtain ⟨c3, b, m3, y3, ⟨z3, -⟩, -⟩ := runs_of (fun _ _ _ _ _ h => h) (n := 0) hins aw_true
    have hfin := q4 m3 fun a ha => (z2 a (hsub ha)).trans (z3.agree_of_disjoint hdis a ha)
    have hsplit : (splitAt ar (k : Int) : Prog V (VSp κ) (Slice × Slice)) = pure (aq, ar') := by
      unfold splitAt
      rw [if_pos (by omega)]
      have h1 : (ar.sub 0 (k : Int) : Prog V (VSp κ) Slice) = pure aq := by
        unfold Slice.sub
        rw [if_pos (by omega)]
        show (Prog.ret (⟨ar.off + 0, _⟩ : Slice) : Prog V (VSp κ) Slice) = .ret aq
        congr 2
      have h2 : (ar.sub (k : Int) ar.len : Prog V (VSp κ) Slice) = pure ar' := by
        unfold Slice.sub
        rw [if_pos (by omega)]
        show (Prog.ret (⟨ar.off + k, _⟩ : Slice) : Prog V (VSp κ) Slice) = .ret ar'
        congr 2; omega
      rw [h1, h2]
      rfl
    refine touches_le (n := c0 + (c1 + (c3 + c))) ?_ (by omega)
    unfold long
    refine y1.touches (y2.touches ?_)
    rw [hsplit]
    show (if aq.len ≤ F.maxRec then _ else _ : Prog V (VSp κ) Unit).touches m2 (c3 + c)
    rw [if_pos (by show k ≤ F.maxRec; omega), if_neg (by show ¬ k > F.maxIns; omega)]
    exact y3.touches hfin

end

end Sorty
