import Verif.Proofs.Observe
import Verif.Proofs.JobProps

/-! # Answers of IsSortedSlice and IsSortedLen -/

namespace Sorty

open Prog

variable {C : Conf} {s : Slice} {m : Mem Cell}

theorem scan_pair {R : Cell → Cell → Prop} {l h i : Int} (hp : ScanPost (fun j => R (s.E m j) (s.E m (j - 1))) l h i)
    (hl : 0 ≤ l) (hh : h < s.len) (hi : i ≠ 0) : PairAt (s.view m) i R := by
  rcases hp with ⟨h1, _⟩ | ⟨h1, h2, h3, _⟩
  · exact absurd h1 hi
  · refine ⟨by omega, _, _, view_get s m _ (by omega), view_get s m _ (by omega), ?_⟩
    simpa [Slice.E, show (i - 1).toNat = i.toNat - 1 by omega] using h3

theorem PairAt.imp {l : List Cell} {i : Int} {r r' : Cell → Cell → Prop} (h : PairAt l i r)
    (hr : ∀ x ∈ l, ∀ y ∈ l, r x y → r' x y) : PairAt l i r' := by
  obtain ⟨h0, x, y, h1, h2, h3⟩ := h
  exact ⟨h0, x, y, h1, h2, hr x (List.mem_of_getElem? h1) y (List.mem_of_getElem? h2) h3⟩

/-- a list sorted by rank has no adjacent pair out of order -/
theorem PairAt.not_sorted {ρ : Type} [LinearOrder ρ] {rk : Cell → ρ} {i : Int}
    (h : PairAt (s.view m) i fun x y => rk x < rk y) : ¬ SortedOn rk m s.off (s.off + s.len) := by
  obtain ⟨h0, x, y, h1, h2, h3⟩ := h
  intro hs
  have hi : i.toNat < s.len := by
    by_contra hc
    rw [List.getElem?_eq_none (by rw [view_length]; omega)] at h1
    simp at h1
  rw [view_get s m _ (by omega)] at h1 h2
  simp only [Option.some.injEq] at h1 h2
  subst h1 h2
  have := hs (s.off + (i.toNat - 1)) (s.off + i.toNat) (by omega) (by omega) (by omega)
  exact absurd h3 (not_lt.2 this)

/-- answers of the families other than floats -/
theorem isSortedOf_answers (hC : C.OK) {id : FamId} (hf : id.float = false) (hok : ∀ a ∈ s.rng, cok C id (m a)) :
    ∃ i, Answers (isSortedOf C id s) m i ∧ (i = 0 ↔ SortedOn (crk C id) m s.off (s.off + s.len)) ∧
      (i ≠ 0 → PairAt (s.view m) i fun x y => crk C id x < crk C id y) := by
  have hne : ¬ (id = .F4 ∨ id = .F8) := by rintro (rfl | rfl) <;> simp [FamId.float] at hf
  unfold isSortedOf
  rw [if_neg hne]
  obtain ⟨i, h1, -, h2⟩ := swp_answers (cmp := fun _ _ _ _ _ => False) (R := s.rng) (fun _ _ _ _ _ h => h)
    (isSortedV_spec (W := ∅) (Sp := VSp Key) (ar := s) (fam C id) (by simp) m)
  have hlt : ∀ x y, x ∈ s.view m → y ∈ s.view m → ((fam C id).lt ((fam C id).key x) ((fam C id).key y) = true ↔ crk C id x < crk C id y) :=
    fun x y hx hy => (famOK hC id).lt _ _ (view_all.2 hok x hx) (view_all.2 hok y hy)
  have hpair : i ≠ 0 → PairAt (s.view m) i fun x y => crk C id x < crk C id y := fun hi =>
    (scan_pair (R := fun x y => (fam C id).lt ((fam C id).key x) ((fam C id).key y) = true) h2 le_rfl (by omega) hi).imp
      fun x hx y hy h => (hlt x y hx hy).1 h
  refine ⟨i, h1, ⟨fun h0 => ?_, fun hs => ?_⟩, hpair⟩
  · refine SortedOn.of_adj fun a ha hb => ?_
    rcases h2 with ⟨_, h3⟩ | ⟨h3, _⟩
    swap
    · omega
    have h4 := h3 ((a + 1 - s.off : Nat) : Int) (by omega) (by omega)
    have e1 : s.E m ((a + 1 - s.off : Nat) : Int) = m (a + 1) := by
      simp only [Slice.E]; congr 1; omega
    have e2 : s.E m (((a + 1 - s.off : Nat) : Int) - 1) = m a := by
      simp only [Slice.E]; congr 1; omega
    dsimp only at h4
    rw [e1, e2] at h4
    have h5 := (famOK hC id).lt _ _ (hok (a + 1) ⟨by omega, by omega⟩) (hok a ⟨by omega, by omega⟩)
    rw [h5] at h4
    exact not_lt.1 h4
  · by_contra hi
    exact (hpair hi).not_sorted hs

/-- `FGe` is the test the code makes -/
theorem cellGE_iff {t : GoType} (ht : t.float = true) {x y : Cell} (hx : HasType C.wordSize t x) (hy : HasType C.wordSize t y) :
    cellGE x y = true ↔ FGe x y := by
  cases t <;> simp [GoType.float] at ht
  all_goals
    obtain ⟨a, rfl⟩ := hx
    obtain ⟨b, rfl⟩ := hy
    simp [cellGE, FGe, fle, isNaN_w32, isNaN_w64, fval_w32, fval_w64]
    tauto

/-- answers for floats -/
theorem isSortedF_answers {t : GoType} (ht : t.float = true) (hs : SliceOf C.wordSize t s m) :
    ∃ i, Answers (isSortedF C.nanOption s) m i ∧ (i ≠ 0 → PairAt (s.view m) i fun x y => ¬ FGe x y) ∧ ∃ l h : Int,
      0 ≤ l ∧ l ≤ h + 1 ∧ h < s.len ∧ (C.nanOption ≠ -1 → l = 0) ∧ (C.nanOption ≠ 1 → h = s.len - 1) ∧
      (C.nanOption = 1 → (∀ j : Int, h < j → j < s.len → (s.E m j).isNaN) ∧ (0 ≤ h → ¬ (s.E m h).isNaN)) ∧
      (C.nanOption = -1 → (∀ j : Int, 0 ≤ j → j < l → (s.E m j).isNaN) ∧ (l < s.len → ¬ (s.E m l).isNaN)) ∧
      (i = 0 ↔ ∀ j, l < j → j ≤ h → FGe (s.E m j) (s.E m (j - 1))) := by
  obtain ⟨i, h1, -, l, h, h2, h3, h4, h5, h6, h7, h8, h9⟩ := swp_answers (cmp := fun _ _ _ _ _ => False) (R := s.rng)
    (fun _ _ _ _ _ h => h) (isSortedF_spec (W := ∅) (Sp := VSp Key) (ar := s) C.nanOption (by simp) m)
  have hE : ∀ j : Int, 0 ≤ j → j < s.len → HasType C.wordSize t (s.E m j) := fun j h1 h2 =>
    view_all.1 hs.elems _ (by simp only [Slice.rng, Set.mem_ofPred_eq]; omega)
  have hge : ∀ j : Int, 0 < j → j < s.len → (cellGE (s.E m j) (s.E m (j - 1)) = true ↔ FGe (s.E m j) (s.E m (j - 1))) := fun j h1 h2 =>
    cellGE_iff ht (hE j (by omega) h2) (hE (j - 1) (by omega) (by omega))
  refine ⟨i, h1, fun hi => ?_, l, h, h2, h3, h4, h5, h6, ?_, ?_, ?_⟩
  · refine (scan_pair (R := fun x y => cellGE x y = false) h9 h2 h4 hi).imp fun x hx y hy hxy hF => ?_
    rw [(cellGE_iff ht (hs.elems x hx) (hs.elems y hy)).2 hF] at hxy
    simp at hxy
  · intro ho
    obtain ⟨a, b⟩ := h7 ho
    refine ⟨fun j h1 h2 => cellNaN_iff.1 (a j h1 h2), fun h1 h2 => ?_⟩
    rw [cellNaN_iff.2 h2] at b
    simp at b; omega
  · intro ho
    obtain ⟨a, b⟩ := h8 ho
    refine ⟨fun j h1 h2 => cellNaN_iff.1 (a j h1 h2), fun h1 h2 => ?_⟩
    rw [cellNaN_iff.2 h2] at b
    simp at b; omega
  · rcases h9 with ⟨h10, h11⟩ | ⟨h10, h11, h12, -⟩
    · refine ⟨fun _ j h1 h2 => (hge j (by omega) (by omega)).1 (by simpa using h11 j h1 h2), fun _ => h10⟩
    · refine ⟨fun h => by omega, fun hj => ?_⟩
      have := (hge i (by omega) (by omega)).2 (hj i h10 h11)
      rw [h12] at this; simp at this

/-- ascending floats, element by element -/
theorem ascFloat_iff {q : Slice} : AscFloat (q.view m) ↔
    (∀ j : Int, 0 ≤ j → j < q.len → ¬ (q.E m j).isNaN) ∧ ∀ j : Int, 0 < j → j < q.len → (q.E m (j - 1)).fval ≤ (q.E m j).fval := by
  have hE : ∀ a, q.off ≤ a → q.E m ((a - q.off : Nat) : Int) = m a := fun a ha => by
    simp only [Slice.E]; congr 1; omega
  unfold AscFloat
  rw [view_all, List.pairwise_map, ← view_sorted (r := Cell.fval)]
  constructor
  · rintro ⟨h1, h2⟩
    refine ⟨fun j h3 h4 => h1 _ ⟨by omega, by omega⟩, fun j h3 h4 => h2 _ _ (by omega) (by omega) (by omega)⟩
  · rintro ⟨h1, h2⟩
    refine ⟨fun a ha => ?_, SortedOn.of_adj fun a ha hb => ?_⟩
    · have := h1 ((a - q.off : Nat) : Int) (by omega) (by have := ha.1; have := ha.2; omega)
      rwa [hE a ha.1] at this
    · have := h2 ((a + 1 - q.off : Nat) : Int) (by omega) (by omega)
      rw [hE _ (by omega), show ((a + 1 - q.off : Nat) : Int) - 1 = ((a - q.off : Nat) : Int) by omega, hE _ ha] at this
      exact this

end Sorty
