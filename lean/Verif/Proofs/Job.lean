import Verif.Proofs.Dispatch

/-! # What the invariant gives for calls of SortSlice and SortLen -/

namespace Sorty

open Prog

variable {C : Conf} {s : Slice} {m : Mem Cell} {call : Call} {M : Nat} {stale : Prop} {c : Cfg Cell (VSp Key)}

theorem famOf_of_sortable {ws : Nat} {t : GoType} (h : t.sortable = true) : ∃ id, famOf ws t = some id := by
  cases t <;> simp [GoType.sortable, GoType.signed, GoType.unsigned, GoType.float, GoType.bytes] at h <;> try simp [famOf]
  rename_i t
  cases t <;> simp at h
  simp

theorem lfamOf_of_hasLen {t : GoType} (h : t.hasLen = true) : ∃ id, lfamOf t = some id := by
  cases t <;> simp [GoType.hasLen] at h <;> simp [lfamOf]

theorem accept_slice {t : GoType} {id : FamId} (h : famOf C.wordSize t = some id) (hs : SliceOf C.wordSize t s m)
    (hn : NaNSafe C t (s.view m)) : ∀ a ∈ s.rng, Accept C id (m a) := by
  intro a ha
  have hc := view_all.1 hs.elems a ha
  by_cases hf : id.float = true ∧ cellNaN (m a) = true
  · rcases hn (by rw [← famOf_float h]; exact hf.1) with h1 | h1 | h1
    · exact .inr ⟨hf.1, hf.2, .inl h1⟩
    · exact .inr ⟨hf.1, hf.2, .inr h1⟩
    · exact absurd (cellNaN_iff.1 hf.2) (view_all.1 h1 a ha)
  · left
    refine cok_of_type h hc fun h1 => ?_
    simp only [not_and, h1] at hf
    simpa using hf

theorem SortJob.fam {sorted : List Cell → Prop} (J : SortJob C s m call sorted) (hC : C.OK) :
    ∃ id, call = famCall C id s ∧ (∀ a ∈ s.rng, Accept C id (m a)) ∧ s.len < 2 ^ 63 := by
  cases J with
  | slice t ht hs hn =>
    obtain ⟨id, h⟩ := famOf_of_sortable (ws := C.wordSize) ht
    exact ⟨id, sortSlice_eq hC h s, accept_slice h hs hn, hs.len⟩
  | len t ht hs =>
    obtain ⟨id, h⟩ := lfamOf_of_hasLen ht
    exact ⟨id, sortLen_eq hC h s, fun a ha => .inl (cok_of_len h (view_all.1 hs.elems a ha)), hs.len⟩

theorem Call.Reaches.toE (h : call.Reaches M stale m c) : call.EReaches M stale s m c := Steps.toE h

/-- the invariant holds throughout -/
theorem call_reach (hC : C.OK) {id : FamId} (hl : s.len < 2 ^ 63) (hd : DepthFor C.depth s.len)
    (hok : ∀ a ∈ s.rng, Accept C id (m a)) (h : (famCall C id s).EReaches M stale s m c) :
    ∃ ts, Inv ((famCall C id s).par M stale) (vspec (fam C id) (okOf id) (rkOf id) C.depth) (callPar C id s m) c ts :=
  Inv.esteps (call_hyp hC id m hl M stale) (call_start hC id hd hok M stale) h

/-- the outcome -/
theorem call_sorted (hC : C.OK) {id : FamId} (hl : s.len < 2 ^ 63) (hd : DepthFor C.depth s.len)
    (hok : ∀ a ∈ s.rng, Accept C id (m a)) (h : (famCall C id s).EReaches M stale s m c) (hr : Returned c) :
    SortedAs C id s m c.sh.mem := by
  obtain ⟨ts, hi⟩ := call_reach hC hl hd hok h
  exact (hi.returned hr).2

theorem call_frame (hC : C.OK) {id : FamId} (hl : s.len < 2 ^ 63) (hd : DepthFor C.depth s.len)
    (hok : ∀ a ∈ s.rng, Accept C id (m a)) (h : (famCall C id s).Reaches M stale m c) :
    ∀ a, a ∉ s.rng → c.sh.mem a = m a := by
  unfold Call.Reaches Reach at h
  generalize hc0 : start (famCall C id s).main m = c0 at h
  induction h with
  | refl => subst hc0; intro a _; rfl
  | tail h1 h2 ih =>
    subst hc0
    intro a ha
    obtain ⟨ts, hi⟩ := call_reach hC hl hd hok (Call.Reaches.toE (s := s) h1)
    rw [hi.frame h2 a ha]
    exact ih a ha

theorem spB_sortOf (C : Conf) (id : FamId) (s : Slice) : ∃ n, SpB vrank n (sortOf C id s) := by
  have hV : ∀ n (s : Slice), s.len < n → SpB vrank n (sortV (fam C id) C.depth s) := fun n s h =>
    (spB_sortV _ _ _).mono h
  by_cases hf : id = .F4 ∨ id = .F8
  · refine ⟨s.len + 1, ?_⟩
    unfold sortOf
    rw [if_pos hf]
    -- the part handed on is not longer
    by_cases h1 : C.nanOption = 1
    · rw [if_pos h1]
      exact (spB_nanToEnd s).bind' (RetAll.bind (fun _ => retAll_sub s _ _) _) fun t ht => hV _ _ (by omega)
    · rw [if_neg h1]
      by_cases h2 : C.nanOption = -1
      · rw [if_pos h2]
        exact (spB_nanToStart s).bind' (RetAll.bind (fun _ => retAll_sub s _ _) _) fun t ht => hV _ _ (by omega)
      · rw [if_neg h2]
        exact hV _ _ (by omega)
  · refine ⟨s.len + 1, ?_⟩
    unfold sortOf
    rw [if_neg hf]
    exact hV _ _ (by omega)

theorem call_acc (C : Conf) (id : FamId) (s : Slice) (m : Mem Cell) (M : Nat) (stale : Prop) :
    Acc (fun c' c => Step ((famCall C id s).par M stale) c c') (start (famCall C id s).main m) := by
  obtain ⟨n, hn⟩ := spB_sortOf C id s
  exact acc_start (fun s => spB_vbody (fam C id) C.depth s) hn m

/-- from an accessible state where the invariant holds, some execution returns -/
theorem exists_return {V Sp : Type} {P : Par V Sp} {S : Spec V Sp} {I : IPar V Sp} (H : Hyp P S I) {c0 : Cfg V Sp}
    (hacc : Acc (fun c' c => Step P c c') c0) : (∃ ts, Inv P S I c0 ts) → ∃ c, Steps P c0 c ∧ Returned c := by
  induction hacc with
  | intro c _ ih =>
    rintro ⟨ts, hi⟩
    rcases hi.progress H with ⟨c', hs⟩ | hall
    · obtain ⟨d, h1, h2⟩ := ih c' hs (hi.step H hs)
      refine ⟨d, ?_, h2⟩
      clear ih h2 hi
      induction h1 with
      | refl => exact .tail (.refl _) hs
      | tail _ h3 ih => exact .tail ih h3
    · refine ⟨c, .refl _, ?_⟩
      have hths := hi.ths
      have hroles := hi.roles
      obtain ⟨rs, hr, _⟩ := hroles
      cases h : c.ths with
      | nil =>
        have h1 : ts = [] := by rw [h] at hths; simpa using hths.symm
        subst h1; simp at hr
      | cons p l => exact ⟨l, by rw [h, hall p (by simp [h])]⟩

end Sorty
