import Verif.SpecMedian
import Verif.Proofs.Pivot
import Verif.Proofs.SampleOpt
import Verif.Proofs.Observe

/-! # Pivots are medians of their samples -/

namespace Sorty

open Prog

variable {V κ Sp α : Type} {ρ : Type} [LinearOrder ρ]
variable {F : Fam V κ} {ok : κ → Prop} {rk : κ → ρ}
variable {cmp : Nat → Nat → V → V → Bool → Prop} {W R : Set Nat}

theorem Half.of_perm {A : α → Prop} {l l' : List α} (h : Half A l) (hp : l.Perm l') : Half A l' := by
  obtain ⟨k, h1, h2, h3⟩ := h
  obtain ⟨k', p, h4⟩ : k.Subperm l' := (List.Subperm.refl _ |>.trans h1.subperm).trans hp.subperm
  exact ⟨k', h4, fun x hx => h2 x (p.mem_iff.1 hx), by rw [← hp.length_eq, p.length_eq]; exact h3⟩

theorem Half.mono {A B : α → Prop} {l : List α} (h : Half A l) (hAB : ∀ x ∈ l, A x → B x) : Half B l := by
  obtain ⟨k, h1, h2, h3⟩ := h
  exact ⟨k, h1, fun x hx => hAB x (h1.subset hx) (h2 x hx), h3⟩

/-- samples in order of position -/
theorem picks_view {s : Slice} {m : Mem V} {first step n : Nat} (h : ∀ j < n, first + j * step < s.len) :
    picks (s.view m) first step n = (List.range n).map fun j => m (s.off + (first + j * step)) := by
  unfold picks
  rw [← List.filterMap_eq_map]
  refine List.filterMap_congr fun j hj => ?_
  have := h j (List.mem_range.1 hj)
  simp [Slice.view, this]

theorem map_range_perm {n : Nat} {f : Nat → Nat} (h1 : ∀ i < n, f i < n) (h2 : ∀ i < n, ∀ j < n, f i = f j → i = j) :
    ((List.range n).map f).Perm (List.range n) := by
  have hn : ((List.range n).map f).Nodup := by
    refine List.Nodup.map_on (fun i hi j hj h => h2 i (List.mem_range.1 hi) j (List.mem_range.1 hj) h) List.nodup_range
  refine (List.subperm_of_subset hn fun x hx => ?_).perm_of_length_le (by simp)
  obtain ⟨i, hi, rfl⟩ := List.mem_map.1 hx
  exact List.mem_range.2 (h1 i (List.mem_range.1 hi))

/-- both halves, for the pivots of `pivot*` -/
theorem PivMid.half {slc : Slice} {n : Nat} (hn : 2 ≤ n) (hlen : 2 * n ≤ slc.len) (hodd : F.mean = none ∨ n % 2 = 0) {m : Mem V} {pv : κ}
    {σ : Equiv.Perm Nat} {s' : Nat → κ} (h : PivMid F rk slc n m pv σ s') :
    Half (fun c => rk (F.key c) ≤ rk pv) (picks (slc.view m) (minMaxSample slc.len n).1 (minMaxSample slc.len n).2.1 n) ∧
    Half (fun c => rk pv ≤ rk (F.key c)) (picks (slc.view m) (minMaxSample slc.len n).1 (minMaxSample slc.len n).2.1 n) := by
  obtain ⟨b1, b2, b3⟩ := minMaxSample_bounds hn hlen
  have hin : ∀ j < n, (minMaxSample slc.len n).1 + j * (minMaxSample slc.len n).2.1 < slc.len := by
    intro j hj
    have : j * (minMaxSample slc.len n).2.1 ≤ (n - 1) * (minMaxSample slc.len n).2.1 := Nat.mul_le_mul_right _ (by omega)
    omega
  rw [picks_view hin]
  have hp : ((List.range n).map fun i => m (sampAddr slc n (σ i))).Perm
      ((List.range n).map fun j => m (slc.off + ((minMaxSample slc.len n).1 + j * (minMaxSample slc.len n).2.1))) := by
    have := (map_range_perm (n := n) (f := fun i => n - 1 - σ i) (fun i hi => by omega) (fun i hi j hj e => by
      have := h.dom i hi; have := h.dom j hj
      exact σ.injective (by omega))).map fun j => m (slc.off + ((minMaxSample slc.len n).1 + j * (minMaxSample slc.len n).2.1))
    rw [List.map_map] at this
    exact this
  constructor
  · refine Half.of_perm ?_ hp
    refine ⟨((List.range n).map fun i => m (sampAddr slc n (σ i))).take ((n + 1) / 2), List.take_sublist _ _, ?_, ?_⟩
    · intro x hx
      rw [← List.map_take, List.take_range] at hx
      obtain ⟨i, hi, rfl⟩ := List.mem_map.1 hx
      have hi := List.mem_range.1 hi
      rw [← h.val i (by omega)]
      rcases hodd with hm | hm
      · rw [h.eq hm]; exact h.sorted _ _ (by omega) (by omega)
      · exact (h.sorted _ _ (by omega) (by omega)).trans h.ge
    · simp; omega
  · refine Half.of_perm ?_ hp
    refine ⟨((List.range n).map fun i => m (sampAddr slc n (σ i))).drop (n / 2), List.drop_sublist _ _, ?_, ?_⟩
    · intro x hx
      obtain ⟨i, hi, rfl⟩ := List.mem_iff_getElem.1 hx
      simp only [List.length_drop, List.length_map, List.length_range] at hi
      simp only [List.getElem_drop, List.getElem_map, List.getElem_range]
      rw [← h.val _ (by omega)]
      exact h.le.trans (h.sorted _ _ (by omega) (by omega))
    · simp; omega

theorem wellSpread {slen n : Nat} (hn : 2 ≤ n) (hs : 2 * n ≤ slen) :
    WellSpread slen n (minMaxSample slen n).1 (minMaxSample slen n).2.1 := by
  obtain ⟨b1, b2, b3⟩ := minMaxSample_bounds hn hs
  exact ⟨by omega, sample_optimal hn hs⟩

theorem picks_length {slc : Slice} {m : Mem V} {n : Nat} (hn : 2 ≤ n) (hs : 2 * n ≤ slc.len) :
    (picks (slc.view m) (minMaxSample slc.len n).1 (minMaxSample slc.len n).2.1 n).length = n := by
  obtain ⟨b1, b2, b3⟩ := minMaxSample_bounds hn hs
  rw [picks_view]
  · simp
  · intro j hj
    have : j * (minMaxSample slc.len n).2.1 ≤ (n - 1) * (minMaxSample slc.len n).2.1 := Nat.mul_le_mul_right _ (by omega)
    omega

theorem half4 {A : α → Prop} {a b c d : α} (h : (A a ∧ A b) ∨ (A a ∧ A c) ∨ (A a ∧ A d) ∨ (A b ∧ A c) ∨ (A b ∧ A d) ∨ (A c ∧ A d)) :
    Half A [a, b, c, d] := by
  rcases h with h | h | h | h | h | h
  · exact ⟨[a, b], by simp, by simpa using h, by simp⟩
  · exact ⟨[a, c], by simp [List.sublist_cons_iff], by simpa using h, by simp⟩
  · exact ⟨[a, d], by simp [List.sublist_cons_iff], by simpa using h, by simp⟩
  · exact ⟨[b, c], by simp [List.sublist_cons_iff], by simpa using h, by simp⟩
  · exact ⟨[b, d], by simp [List.sublist_cons_iff], by simpa using h, by simp⟩
  · exact ⟨[c, d], by simp, by simpa using h, by simp⟩

theorem half3 {A : α → Prop} {a b c : α} (h : (A a ∧ A b) ∨ (A a ∧ A c) ∨ (A b ∧ A c)) : Half A [a, b, c] := by
  rcases h with h | h | h
  · exact ⟨[a, b], by simp, by simpa using h, by simp⟩
  · exact ⟨[a, c], by simp [List.sublist_cons_iff], by simpa using h, by simp⟩
  · exact ⟨[b, c], by simp, by simpa using h, by simp⟩

structure Mid4 (F : Fam V κ) (ok : κ → Prop) (rk : κ → ρ) (l : List V) (pv : κ) : Prop where
  okp : ok pv
  low : Half (fun c => rk (F.key c) ≤ rk pv) l
  high : Half (fun c => rk pv ≤ rk (F.key c)) l

theorem Mid4.imp_perm {l l' : List V} {pv : κ} {P : Prop} (h : Mid4 F ok rk l pv) (hP : P) (hp : l.Perm l') :
    P ∧ ok pv ∧ Half (fun c => rk (F.key c) ≤ rk pv) l' ∧ Half (fun c => rk pv ≤ rk (F.key c)) l' :=
  ⟨hP, h.okp, h.low.of_perm hp, h.high.of_perm hp⟩

theorem perm4 (a b c d : α) : [c, d, a, b].Perm [a, b, c, d] ∧ [a, d, c, b].Perm [a, b, c, d] ∧ [c, b, a, d].Perm [a, b, c, d] := by
  have h3 : ∀ x y z : α, [z, y, x].Perm [x, y, z] := fun x y z => List.reverse_perm [x, y, z]
  refine ⟨?_, (h3 b c d).cons a, ?_⟩
  · exact List.perm_append_comm (l₁ := [c, d]) (l₂ := [a, b])
  · exact (h3 a b c).append (.refl [d])

/-- the last two exchanges of the four-sample network -/
theorem net4 (hF : FamOK F ok rk) {f : κ → κ → κ} (hf : F.mean = some f) {a b c d : V} (oa : ok (F.key a)) (ob : ok (F.key b))
    (oc : ok (F.key c)) (od : ok (F.key d)) (hac : rk (F.key a) ≤ rk (F.key c)) (hbd : rk (F.key b) ≤ rk (F.key d)) :
    Mid4 F ok rk [a, b, c, d] (f (if F.lt (F.key b) (F.key a) = true then F.key a else F.key b)
      (if F.lt (F.key d) (F.key c) = true then F.key d else F.key c)) := by
  have hdc := hF.lt _ _ od oc
  have hba := hF.lt _ _ ob oa
  split_ifs with h2 h1 h1
  · rw [hdc] at h1; rw [hba] at h2
    obtain ⟨p1, p2, p3⟩ := hF.mean f hf _ _ oa od
    rcases le_total (rk (F.key a)) (rk (F.key d)) with hh | hh
    · rw [min_eq_left hh] at p2; rw [max_eq_right hh] at p3
      exact ⟨p1, half4 (.inl ⟨p2, h2.le.trans p2⟩), half4 (by simp [p3, p3.trans h1.le])⟩
    · rw [min_eq_right hh] at p2; rw [max_eq_left hh] at p3
      exact ⟨p1, half4 (by simp [p2, hbd.trans p2]), half4 (by simp [p3, p3.trans hac])⟩
  · rw [hdc, not_lt] at h1; rw [hba] at h2
    obtain ⟨p1, p2, p3⟩ := hF.mean f hf _ _ oa oc
    rw [min_eq_left hac] at p2; rw [max_eq_right hac] at p3
    exact ⟨p1, half4 (.inl ⟨p2, h2.le.trans p2⟩), half4 (by simp [p3, p3.trans h1])⟩
  · rw [hdc] at h1; rw [hba, not_lt] at h2
    obtain ⟨p1, p2, p3⟩ := hF.mean f hf _ _ ob od
    rw [min_eq_left hbd] at p2; rw [max_eq_right hbd] at p3
    exact ⟨p1, half4 (.inl ⟨h2.trans p2, p2⟩), half4 (by simp [p3, p3.trans h1.le])⟩
  · rw [hdc, not_lt] at h1; rw [hba, not_lt] at h2
    obtain ⟨p1, p2, p3⟩ := hF.mean f hf _ _ ob oc
    rcases le_total (rk (F.key b)) (rk (F.key c)) with hh | hh
    · rw [min_eq_left hh] at p2; rw [max_eq_right hh] at p3
      exact ⟨p1, half4 (.inl ⟨h2.trans p2, p2⟩), half4 (by simp [p3, p3.trans h1])⟩
    · rw [min_eq_right hh] at p2; rw [max_eq_left hh] at p3
      exact ⟨p1, half4 (by simp [p2, hac.trans p2]), half4 (by simp [p3, p3.trans hbd])⟩

/-- both halves, for four samples -/
theorem shortPivot4_half (hF : FamOK F ok rk) {slc : Slice} (hW : slc.rng ⊆ W ∪ R) {f : κ → κ → κ} (hf : F.mean = some f)
    (hlen : 8 ≤ slc.len) (h32 : slc.len < 2 ^ 32) {m0 : Mem V} (hok : ∀ a ∈ slc.rng, ok (F.key (m0 a))) :
    swp cmp W R (shortPivot4 F f slc : Prog V Sp κ) m0 fun pv m => m = m0 ∧ ok pv ∧
      Half (fun c => rk (F.key c) ≤ rk pv) (picks (slc.view m0) (minMaxSample slc.len 4).1 (minMaxSample slc.len 4).2.1 4) ∧
      Half (fun c => rk pv ≤ rk (F.key c)) (picks (slc.view m0) (minMaxSample slc.len 4).1 (minMaxSample slc.len 4).2.1 4) := by
  obtain ⟨b1, b2⟩ := minMaxFour_bounds hlen h32
  obtain ⟨e1, e2, e3⟩ := minMaxFour_idx hlen h32
  obtain ⟨q1, q2⟩ := minMaxFour_eq hlen h32
  rw [← q1, ← q2]
  unfold shortPivot4
  generalize hx : (minMaxFour (UInt32.ofNat slc.len)).1 = first at *
  generalize hy : (minMaxFour (UInt32.ofNat slc.len)).2 = step at *
  have hmm : minMaxFour (UInt32.ofNat slc.len) = (first, step) := by rw [← hx, ← hy]
  rw [hmm]
  dsimp only
  rw [e1, e2, e3]
  refine swp_bind (Slice.swp_rd (by omega) (by omega) hW ?_)
  refine swp_bind (Slice.swp_rd (by omega) (by omega) hW ?_)
  refine swp_bind (Slice.swp_rd (by omega) (by omega) hW ?_)
  refine swp_bind (Slice.swp_rd (by omega) (by omega) hW ?_)
  have oA := hok _ (Slice.mem_rng (s := slc) (i := (first.toNat : Int)) (by omega) (by omega))
  have oB := hok _ (Slice.mem_rng (s := slc) (i := ((first.toNat + step.toNat : Nat) : Int)) (by omega) (by omega))
  have oC := hok _ (Slice.mem_rng (s := slc) (i := ((first.toNat + 2 * step.toNat : Nat) : Int)) (by omega) (by omega))
  have oD := hok _ (Slice.mem_rng (s := slc) (i := ((first.toNat + 3 * step.toNat : Nat) : Int)) (by omega) (by omega))
  rw [picks_view (fun j hj => by
    have : j * step.toNat ≤ 3 * step.toNat := Nat.mul_le_mul_right _ (by omega)
    omega)]
  have hl : (List.range 4).map (fun j => m0 (slc.off + (first.toNat + j * step.toNat))) =
      [m0 (slc.off + first.toNat), m0 (slc.off + (first.toNat + step.toNat)), m0 (slc.off + (first.toNat + 2 * step.toNat)),
        m0 (slc.off + (first.toNat + 3 * step.toNat))] := by simp [List.range_succ]
  rw [hl]
  unfold Slice.E
  simp only [Int.toNat_natCast] at *
  generalize m0 (slc.off + first.toNat) = A at *
  generalize m0 (slc.off + (first.toNat + step.toNat)) = B at *
  generalize m0 (slc.off + (first.toNat + 2 * step.toNat)) = C at *
  generalize m0 (slc.off + (first.toNat + 3 * step.toNat)) = D at *
  clear hl b1 b2 e1 e2 e3 q1 q2 hx hy hmm
  have kDB := hF.lt _ _ oD oB
  have kCA := hF.lt _ _ oC oA
  by_cases h1 : F.lt (F.key D) (F.key B) = true <;> by_cases h2 : F.lt (F.key C) (F.key A) = true
  · simp only [h1, h2, if_true]
    rw [kDB] at h1; rw [kCA] at h2
    exact (net4 hF hf oC oD oA oB h2.le h1.le).imp_perm rfl (perm4 A B C D).1
  · simp only [h1, h2, if_true, if_false, Bool.false_eq_true]
    rw [kDB] at h1; rw [kCA, not_lt] at h2
    exact (net4 hF hf oA oD oC oB h2 h1.le).imp_perm rfl (perm4 A B C D).2.1
  · simp only [h1, h2, if_true, if_false, Bool.false_eq_true]
    rw [kDB, not_lt] at h1; rw [kCA] at h2
    exact (net4 hF hf oC oB oA oD h2.le h1).imp_perm rfl (perm4 A B C D).2.2
  · simp only [h1, h2, if_false, Bool.false_eq_true]
    rw [kDB, not_lt] at h1; rw [kCA, not_lt] at h2
    exact (net4 hF hf oA oB oC oD h2 h1).imp_perm rfl (.refl _)

theorem shortPivot3_half (hF : FamOK F ok rk) {slc : Slice} (hW : slc.rng ⊆ W ∪ R)
    (hlen : 6 ≤ slc.len) {m0 : Mem V} (hok : ∀ a ∈ slc.rng, ok (F.key (m0 a))) :
    swp cmp W R (shortPivot3 F slc : Prog V Sp κ) m0 fun pv m => m = m0 ∧ ok pv ∧
      Half (fun c => rk (F.key c) ≤ rk pv) (picks (slc.view m0) (minMaxSample slc.len 3).1 (minMaxSample slc.len 3).2.1 3) ∧
      Half (fun c => rk pv ≤ rk (F.key c)) (picks (slc.view m0) (minMaxSample slc.len 3).1 (minMaxSample slc.len 3).2.1 3) := by
  obtain ⟨b1, b2, b3⟩ := minMaxSample_bounds (by omega : 2 ≤ 3) hlen
  unfold shortPivot3
  generalize hf0 : (minMaxSample slc.len 3).1 = f0 at *
  generalize hst : (minMaxSample slc.len 3).2.1 = st at *
  generalize hla : (minMaxSample slc.len 3).2.2 = la at *
  have hmm : minMaxSample slc.len 3 = (f0, st, la) := by rw [← hf0, ← hst, ← hla]
  rw [hmm]
  dsimp only
  have b2' : la = f0 + 2 * st := by omega
  subst b2'
  refine swp_bind (Slice.swp_rd (by omega) (by omega) hW ?_)
  refine swp_bind (Slice.swp_rd (by omega) (by omega) hW ?_)
  refine swp_bind (Slice.swp_rd (by omega) (by omega) hW ?_)
  have oA := hok _ (Slice.mem_rng (s := slc) (i := (f0 : Int)) (by omega) (by omega))
  have oB := hok _ (Slice.mem_rng (s := slc) (i := ((f0 + st : Nat) : Int)) (by omega) (by omega))
  have oC := hok _ (Slice.mem_rng (s := slc) (i := ((f0 + 2 * st : Nat) : Int)) (by omega) (by omega))
  rw [picks_view (fun j hj => by
    have : j * st ≤ 2 * st := Nat.mul_le_mul_right _ (by omega)
    omega)]
  have hl : (List.range 3).map (fun j => m0 (slc.off + (f0 + j * st))) =
      [m0 (slc.off + f0), m0 (slc.off + (f0 + st)), m0 (slc.off + (f0 + 2 * st))] := by simp [List.range_succ]
  rw [hl]
  unfold Slice.E
  simp only [Int.toNat_natCast] at *
  generalize m0 (slc.off + f0) = A at *
  generalize m0 (slc.off + (f0 + st)) = B at *
  generalize m0 (slc.off + (f0 + 2 * st)) = C at *
  clear hl hmm hf0 hst hla
  have fin : ∀ x, ok x → ((rk (F.key A) ≤ rk x ∧ rk (F.key B) ≤ rk x) ∨ (rk (F.key A) ≤ rk x ∧ rk (F.key C) ≤ rk x) ∨ (rk (F.key B) ≤ rk x ∧ rk (F.key C) ≤ rk x)) →
      ((rk x ≤ rk (F.key A) ∧ rk x ≤ rk (F.key B)) ∨ (rk x ≤ rk (F.key A) ∧ rk x ≤ rk (F.key C)) ∨ (rk x ≤ rk (F.key B) ∧ rk x ≤ rk (F.key C))) →
      m0 = m0 ∧ ok x ∧ Half (fun c => rk (F.key c) ≤ rk x) [A, B, C] ∧ Half (fun c => rk x ≤ rk (F.key c)) [A, B, C] :=
    fun x ox h1 h2 => ⟨rfl, ox, half3 h1, half3 h2⟩
  have kBA := hF.lt _ _ oB oA
  have kCA := hF.lt _ _ oC oA
  have kCB := hF.lt _ _ oC oB
  by_cases h1 : F.lt (F.key B) (F.key A) = true
  · simp only [h1, if_true]
    rw [kBA] at h1
    split_ifs with h3 h4
    · rw [kCA] at h3; rw [kCB] at h4
      exact fin _ oB (.inr (.inr ⟨le_rfl, h4.le⟩)) (.inl ⟨h1.le, le_rfl⟩)
    · rw [kCA] at h3; rw [kCB, not_lt] at h4
      exact fin _ oC (.inr (.inr ⟨h4, le_rfl⟩)) (.inr (.inl ⟨h3.le, le_rfl⟩))
    · rw [kCA, not_lt] at h3
      exact fin _ oA (.inl ⟨le_rfl, h1.le⟩) (.inr (.inl ⟨le_rfl, h3⟩))
  · simp only [h1, if_false, Bool.false_eq_true]
    rw [kBA, not_lt] at h1
    split_ifs with h3 h4
    · rw [kCB] at h3; rw [kCA] at h4
      exact fin _ oA (.inr (.inl ⟨le_rfl, h4.le⟩)) (.inl ⟨le_rfl, h1⟩)
    · rw [kCB] at h3; rw [kCA, not_lt] at h4
      exact fin _ oC (.inr (.inl ⟨h4, le_rfl⟩)) (.inr (.inr ⟨h3.le, le_rfl⟩))
    · rw [kCB, not_lt] at h3
      exact fin _ oB (.inl ⟨h1, le_rfl⟩) (.inr (.inr ⟨le_rfl, h3⟩))

end Sorty
