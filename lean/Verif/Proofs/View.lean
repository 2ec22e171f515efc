import Verif.Proofs.Short
import Mathlib.Data.List.Perm.Basic
import Mathlib.Data.List.Nodup

/-! # From addresses to lists of elements -/

namespace Sorty

variable {V : Type} {ρ : Type} [LinearOrder ρ]

/-- addresses of a slice, in order -/
def Slice.addrs (s : Slice) : List Nat := (List.range s.len).map (s.off + ·)

theorem Slice.view_eq (s : Slice) (m : Mem V) : s.view m = s.addrs.map m := by
  simp [Slice.view, Slice.addrs]

theorem Slice.addrs_nodup (s : Slice) : s.addrs.Nodup :=
  List.Nodup.map (fun a b h => by simpa using h) List.nodup_range

theorem Slice.mem_addrs {s : Slice} {a : Nat} : a ∈ s.addrs ↔ a ∈ s.rng := by
  simp only [Slice.addrs, List.mem_map, List.mem_range, Slice.rng, Set.mem_ofPred_eq]
  constructor
  · rintro ⟨i, hi, rfl⟩; omega
  · intro h; exact ⟨a - s.off, by omega, by omega⟩

theorem view_perm {s : Slice} {m m' : Mem V} (h : RPon s.rng m m') : (s.view m').Perm (s.view m) := by
  obtain ⟨σ, s1, s2⟩ := h
  rw [Slice.view_eq, Slice.view_eq]
  have e : s.addrs.map m' = (s.addrs.map σ).map m := by
    rw [List.map_map]
    refine List.map_congr_left fun a ha => ?_
    exact s2 a (Slice.mem_addrs.1 ha)
  rw [e]
  refine List.Perm.map m ?_
  refine (List.perm_ext_iff_of_nodup (s.addrs_nodup.map σ.injective) s.addrs_nodup).2 fun a => ?_
  rw [List.mem_map]
  constructor
  · rintro ⟨b, hb, rfl⟩
    exact Slice.mem_addrs.2 (perm_mem s1 (Slice.mem_addrs.1 hb))
  · intro ha
    exact ⟨σ.symm a, Slice.mem_addrs.2 (perm_mem (perm_symm s1) (Slice.mem_addrs.1 ha)), by simp⟩

theorem view_sorted {r : V → ρ} {s : Slice} {m : Mem V} :
    SortedOn r m s.off (s.off + s.len) ↔ (s.view m).Pairwise (fun x y => r x ≤ r y) := by
  simp only [Slice.view, List.pairwise_map]
  rw [List.pairwise_iff_getElem]
  simp only [List.getElem_range, List.length_range]
  constructor
  · intro h i j hi hj hij
    exact h _ _ (by omega) (by omega) (by omega)
  · intro h a b ha hab hb
    rcases Nat.lt_or_ge a b with hlt | hge
    swap
    · obtain rfl : a = b := by omega
      exact le_refl (r (m a))
    · have := h (a - s.off) (b - s.off) (by omega) (by omega) (by omega)
      rwa [show s.off + (a - s.off) = a by omega, show s.off + (b - s.off) = b by omega] at this

theorem view_all {s : Slice} {m : Mem V} {p : V → Prop} : (∀ c ∈ s.view m, p c) ↔ ∀ a ∈ s.rng, p (m a) := by
  rw [Slice.view_eq]
  simp only [List.mem_map, forall_exists_index, and_imp, forall_apply_eq_imp_iff₂, Slice.mem_addrs]

theorem view_split (s : Slice) (m : Mem V) (k : Nat) (hk : k ≤ s.len) :
    s.view m = (⟨s.off, k⟩ : Slice).view m ++ (⟨s.off + k, s.len - k⟩ : Slice).view m := by
  simp only [Slice.view]
  have : s.len = k + (s.len - k) := by omega
  rw [this, List.range_add, List.map_append, List.map_map]
  congr 1
  rw [show k + (s.len - k) - k = s.len - k by omega]
  refine List.map_congr_left fun i _ => ?_
  simp [Nat.add_assoc]

theorem view_take (s : Slice) (m : Mem V) (k : Nat) (hk : k ≤ s.len) :
    (s.view m).take k = (⟨s.off, k⟩ : Slice).view m := by
  rw [view_split s m k hk, List.take_left' (by simp [Slice.view])]

theorem view_drop (s : Slice) (m : Mem V) (k : Nat) (hk : k ≤ s.len) :
    (s.view m).drop k = (⟨s.off + k, s.len - k⟩ : Slice).view m := by
  rw [view_split s m k hk, List.drop_left' (by simp [Slice.view])]

theorem view_length (s : Slice) (m : Mem V) : (s.view m).length = s.len := by simp [Slice.view]

theorem view_get (s : Slice) (m : Mem V) (i : Nat) (h : i < s.len) : (s.view m)[i]? = some (m (s.off + i)) := by
  simp [Slice.view, h]

theorem view_congr {s : Slice} {m m' : Mem V} (h : Agree s.rng m m') : s.view m = s.view m' := by
  rw [Slice.view_eq, Slice.view_eq]
  exact List.map_congr_left fun a ha => h a (Slice.mem_addrs.1 ha)

theorem view_inj {s : Slice} {m m' : Mem V} (h : s.view m = s.view m') : Agree s.rng m m' := by
  intro a ha
  rw [Slice.view_eq, Slice.view_eq] at h
  exact List.map_inj_left.1 h a (Slice.mem_addrs.2 ha)

end Sorty
