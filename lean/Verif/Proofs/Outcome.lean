import Verif.Proofs.Job
import Verif.Proofs.Mean

/-! # Outcomes as lists -/

namespace Sorty

variable {C : Conf} {s : Slice} {m mf : Mem Cell} {id : FamId}

/-- without NaNs the whole slice is sorted -/
theorem SortedAs.full (h : SortedAs C id s m mf) (hn : id.float = false ∨ ∀ a ∈ s.rng, cellNaN (m a) = false) :
    SortedOn (crk C id) mf s.off (s.off + s.len) := by
  obtain ⟨h1, t, h2, h3, h4, h5, h6⟩ := h
  have hsub : s.rng ⊆ t.rng := by
    intro a ha
    by_contra hc
    obtain ⟨h7, h8⟩ := h6 a ha hc
    rcases hn with hn | hn
    · simp [hn] at h7
    · have := h1.all (p := fun c => cellNaN c = false) hn a ha
      simp [h8] at this
  have hlen : t.len = s.len := by
    by_contra hne
    have hlt : t.len < s.len := by omega
    by_cases ho : C.nanOption = -1
    · have := hsub (a := s.off) ⟨le_rfl, by omega⟩
      rw [if_pos ho] at h3
      simp only [Slice.rng, Set.mem_ofPred_eq] at this; omega
    · have := hsub (a := s.off + s.len - 1) ⟨by omega, by omega⟩
      rw [if_neg ho] at h3
      simp only [Slice.rng, Set.mem_ofPred_eq] at this; omega
  have hoff : t.off = s.off := by
    rw [h3, hlen]; simp
  rw [hlen, hoff] at h5
  exact h5

theorem SortedAs.perm (h : SortedAs C id s m mf) : (s.view mf).Perm (s.view m) := view_perm h.1

theorem SliceOf.of_perm {ws : Nat} {t : GoType} (hs : SliceOf ws t s m) (h : (s.view mf).Perm (s.view m)) : SliceOf ws t s mf :=
  ⟨fun c hc => hs.elems c (h.mem_iff.1 hc), hs.len⟩

theorem pairwise_map_of {α β γ : Type} {R : β → β → Prop} {S : γ → γ → Prop} {f : α → β} {g : α → γ} {l : List α}
    (h : ∀ x ∈ l, ∀ y ∈ l, R (f x) (f y) → S (g x) (g y)) (hp : l.Pairwise fun x y => R (f x) (f y)) : (l.map g).Pairwise S := by
  rw [List.pairwise_map]
  exact hp.imp_of_mem fun {a b} ha hb hr => h a ha b hb hr

theorem ascNum_of {t : GoType} (h : famOf C.wordSize t = some id) (ht : t.signed = true ∨ t.unsigned = true)
    (hs : SliceOf C.wordSize t s m) : SortedOn (crk C id) m s.off (s.off + s.len) ↔ AscNum t.signed (s.view m) := by
  rw [view_sorted, AscNum, List.pairwise_map]
  refine List.Pairwise.iff_of_mem ?_ 
  intro x y hx hy
  rw [crk_num h ht (hs.elems x hx), crk_num h ht (hs.elems y hy), rkNum_le]

theorem ascBytes_of {t : GoType} (h : famOf C.wordSize t = some id) (ht : t.bytes = true)
    (hs : SliceOf C.wordSize t s m) : SortedOn (crk C id) m s.off (s.off + s.len) ↔ AscBytes (s.view m) := by
  rw [view_sorted, AscBytes, List.pairwise_map]
  refine List.Pairwise.iff_of_mem ?_ 
  intro x y hx hy
  rw [crk_bytes h ht (hs.elems x hx), crk_bytes h ht (hs.elems y hy), rkStr_le, bytes_lt_map, not_lt]

theorem ascLen_of {t : GoType} (h : lfamOf t = some id)
    (hs : SliceOf C.wordSize t s m) : SortedOn (crk C id) m s.off (s.off + s.len) ↔ AscLen (s.view m) := by
  rw [view_sorted, AscLen, List.pairwise_map]
  refine List.Pairwise.iff_of_mem ?_ 
  intro x y hx hy
  rw [crk_len h (hs.elems x hx), crk_len h (hs.elems y hy), rkNum_le]
  exact Int.ofNat_le

theorem ascFloat_of {t : GoType} (h : famOf C.wordSize t = some id) (ht : t.float = true) {q : Slice}
    (hs : ∀ a ∈ q.rng, HasType C.wordSize t (m a)) (hok : ∀ a ∈ q.rng, cok C id (m a))
    (hso : SortedOn (crk C id) m q.off (q.off + q.len)) : AscFloat (q.view m) := by
  refine ⟨view_all.2 fun a ha hn => ?_, ?_⟩
  · exact nan_not_ok (by rw [famOf_float h]; exact ht) (cellNaN_iff.2 hn) (hok a ha)
  · rw [view_sorted] at hso
    rw [List.pairwise_map]
    refine hso.imp_of_mem fun {x y} hx hy hr => ?_
    have hs' := (view_all (s := q) (m := m) (p := HasType C.wordSize t)).2 hs
    rw [crk_float h ht (hs' x hx), crk_float h ht (hs' y hy), rkNum_le] at hr
    exact hr

theorem floats_of {t : GoType} (h : famOf C.wordSize t = some id) (ht : t.float = true)
    (hs : SliceOf C.wordSize t s m) (ho : SortedAs C id s m mf) :
    ∃ q : Slice, q.len ≤ s.len ∧ q.off = (if C.nanOption = -1 then s.off + (s.len - q.len) else s.off) ∧ AscFloat (q.view mf) ∧
      ∀ a ∈ s.rng, a ∉ q.rng → (mf a).isNaN := by
  have hs' := hs.of_perm ho.perm
  obtain ⟨h1, q, h2, h3, h4, h5, h6⟩ := ho
  have hsub : q.rng ⊆ s.rng := by
    intro a ha
    simp only [Slice.rng, Set.mem_ofPred_eq] at *
    split_ifs at h3 <;> omega
  exact ⟨q, h2, h3, ascFloat_of h ht (fun a ha => view_all.1 hs'.elems a (hsub ha)) h4 h5,
    fun a ha hn => cellNaN_iff.1 (h6 a ha hn).2⟩

end Sorty
