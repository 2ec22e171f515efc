import Verif.Proofs.ValQuiet
import Verif.Proofs.LswQuiet
import Verif.Proofs.JobProps

/-! # Ascending input in terms of the specification -/

namespace Sorty

variable {C : Conf} {s : Slice} {m : Mem Cell} {id : FamId}

/-- a heavier meter shows more -/
theorem CSteps.reweigh {V Sp : Type} {P : Par V Sp} {w w' : Prog V Sp Unit → Nat} {c0 c : Cfg V Sp} {n : Nat} (K : Nat) (hw : ∀ p, K * w p ≤ w' p)
    (h : CSteps P w c0 c n) : ∃ n', CSteps P w' c0 c n' ∧ K * n ≤ n' := by
  induction h with
  | refl => exact ⟨0, .refl, by simp⟩
  | tau _ ht ih =>
    obtain ⟨n', h1, h2⟩ := ih
    refine ⟨_, h1.tau ht, ?_⟩
    rw [Nat.mul_add]
    exact Nat.add_le_add h2 (hw _)
  | commSR _ hs ih => obtain ⟨n', h1, h2⟩ := ih; exact ⟨n', h1.commSR hs, h2⟩
  | commRS _ hs ih => obtain ⟨n', h1, h2⟩ := ih; exact ⟨n', h1.commRS hs, h2⟩

theorem of_ascFloat {t : GoType} (h : famOf C.wordSize t = some id) (ht : t.float = true) {q : Slice}
    (hs : ∀ a ∈ q.rng, HasType C.wordSize t (m a)) (ha : AscFloat (q.view m)) :
    (∀ a ∈ q.rng, cok C id (m a)) ∧ SortedOn (crk C id) m q.off (q.off + q.len) := by
  have hn := view_all.1 ha.1
  refine ⟨fun a haq => cok_of_type h (hs a haq) fun _ => ?_, ?_⟩
  · have := hn a haq
    rw [← cellNaN_iff] at this
    simpa using this
  · rw [view_sorted]
    have hp := List.pairwise_map.1 ha.2
    have hs' := (view_all (s := q) (m := m) (p := HasType C.wordSize t)).2 hs
    refine hp.imp_of_mem fun {x y} hx hy hr => ?_
    rw [crk_float h ht (hs' x hx), crk_float h ht (hs' y hy), rkNum_le]
    exact hr

theorem sortedAs_full (hok : ∀ a ∈ s.rng, cok C id (m a)) (h : SortedOn (crk C id) m s.off (s.off + s.len)) : SortedAs C id s m m :=
  ⟨RPon.refl _ _, s, le_rfl, by simp, hok, h, fun _ ha hn => absurd ha hn⟩

/-- sorted in the sense of the specification is sorted in the sense of the proofs -/
theorem sortedAs_of {t : GoType} (h : famOf C.wordSize t = some id) (ht : t.sortable = true)
    (hs : SliceOf C.wordSize t s m) (ho : SortedFor C t (s.view m)) : SortedAs C id s m m := by
  have hty := view_all.1 hs.elems
  unfold SortedFor at ho
  by_cases hf : t.float = true
  · rw [if_pos hf] at ho
    have hff : id.float = true := by rw [famOf_float h]; exact hf
    by_cases o1 : C.nanOption = 1
    · rw [if_pos o1] at ho
      obtain ⟨k, h1, h2, h3⟩ := ho
      rw [view_length] at h1
      rw [view_take s _ _ h1] at h2
      rw [view_drop s _ _ h1] at h3
      have hsub : ∀ a ∈ (⟨s.off, k⟩ : Slice).rng, a ∈ s.rng := fun a ha => by simp only [Slice.rng, Set.mem_ofPred_eq] at *; omega
      obtain ⟨h4, h5⟩ := of_ascFloat h hf (fun a ha => hty a (hsub a ha)) h2
      refine ⟨RPon.refl _ _, ⟨s.off, k⟩, h1, by rw [if_neg (by omega)], h4, h5, fun a ha hna => ⟨hff, ?_⟩⟩
      refine cellNaN_iff.2 (view_all.1 h3 a ?_)
      simp only [Slice.rng, Set.mem_ofPred_eq] at *; omega
    · rw [if_neg o1] at ho
      by_cases o2 : C.nanOption = -1
      · rw [if_pos o2] at ho
        obtain ⟨k, h1, h3, h2⟩ := ho
        rw [view_length] at h1
        rw [view_take s _ _ h1] at h3
        rw [view_drop s _ _ h1] at h2
        have hsub : ∀ a ∈ (⟨s.off + k, s.len - k⟩ : Slice).rng, a ∈ s.rng := fun a ha => by simp only [Slice.rng, Set.mem_ofPred_eq] at *; omega
        obtain ⟨h4, h5⟩ := of_ascFloat h hf (fun a ha => hty a (hsub a ha)) h2
        refine ⟨RPon.refl _ _, ⟨s.off + k, s.len - k⟩, Nat.sub_le _ _, by rw [if_pos o2]; show s.off + k = s.off + (s.len - (s.len - k)); omega, h4, h5, fun a ha hna => ⟨hff, ?_⟩⟩
        refine cellNaN_iff.2 (view_all.1 h3 a ?_)
        simp only [Slice.rng, Set.mem_ofPred_eq] at *; omega
      · rw [if_neg o2] at ho
        obtain ⟨h4, h5⟩ := of_ascFloat h hf hty ho
        exact sortedAs_full h4 h5
  · rw [if_neg hf] at ho
    have hok : ∀ a ∈ s.rng, cok C id (m a) := fun a ha => cok_of_type h (hty a ha) fun hh => absurd (famOf_float h ▸ hh) hf
    by_cases hb : t.bytes = true
    · rw [if_pos hb] at ho
      exact sortedAs_full hok ((ascBytes_of h hb hs).2 ho)
    · rw [if_neg hb] at ho
      refine sortedAs_full hok ((ascNum_of h ?_ hs).2 ho)
      simp [GoType.sortable, hf, hb] at ht
      exact ht

variable {call : Call} {sorted : List Cell → Prop} {c : Cfg Cell (VSp Key)} {M : Nat} {stale : Prop} {n : Nat}

theorem SortJob.ascending (hC : C.OK) (J : SortJob C s m call sorted) (hs : sorted (s.view m)) :
    ∃ id, call = famCall C id s ∧ (∀ a ∈ s.rng, Accept C id (m a)) ∧ s.len < 2 ^ 63 ∧ SortedAs C id s m m := by
  cases J with
  | slice t ht hs' hn =>
    obtain ⟨id, h⟩ := famOf_of_sortable (ws := C.wordSize) ht
    exact ⟨id, sortSlice_eq hC h s, accept_slice h hs' hn, hs'.len, sortedAs_of h ht hs' hs⟩
  | len t ht hs' =>
    obtain ⟨id, h⟩ := lfamOf_of_hasLen ht
    have hok : ∀ a ∈ s.rng, cok C id (m a) := fun a ha => cok_of_len h (view_all.1 hs'.elems a ha)
    exact ⟨id, sortLen_eq hC h s, fun a ha => .inl (hok a ha), hs'.len, sortedAs_full hok ((ascLen_of h hs').2 hs)⟩

theorem job_stores (hC : C.OK) (J : SortJob C s m call sorted) (hs : sorted (s.view m)) (hd : DepthFor C.depth s.len)
    (h : CSteps (call.par M stale) Prog.stores (start call.main m) c n) : n = 0 ∧ c.sh.mem = m := by
  obtain ⟨id, rfl, hok, hl, hso⟩ := J.ascending hC hs
  let B := 2 * s.len * (s.len + 1)
  let F := (if id.float = true then 2 * s.len else 0)
  obtain ⟨n', h1, h2⟩ := h.reweigh (w' := (qmeter (fam C id) (okOf id) (rkOf id) m (fun f n => 2 * n * (f + 1)) (B + F + 1)).w) (B + F + 1)
    (fun p => by cases p <;> simp [Prog.stores, Meter.w, qmeter])
  obtain ⟨h3, h4⟩ := call_quiet (B := B) hC hd hok hl hso budget_weak (.inl trivial)
    (fun a ha => Nat.mul_le_mul (Nat.mul_le_mul_left 2 ha) (Nat.succ_le_succ ha)) h1
  refine ⟨?_, h4⟩
  have h5 : (B + F + 1) * n ≤ B + F := h2.trans h3
  rcases Nat.eq_zero_or_pos n with h0 | h0
  · exact h0
  · have := Nat.le_mul_of_pos_right (B + F + 1) h0
    omega

theorem job_accs (hC : C.OK) (hr : C.maxLenRec < 2 ^ 32) (J : SortJob C s m call sorted) (hs : sorted (s.view m)) (hd : DepthFor C.depth s.len)
    (h : CSteps (call.par M stale) Prog.accs (start call.main m) c n) : n ≤ 2 * s.len * (3 * Nat.log2 s.len + 4) := by
  obtain ⟨id, rfl, hok, hl, hso⟩ := J.ascending hC hs
  have hw : Prog.accs = (qmeter (fam C id) (okOf id) (rkOf id) m (fun _ n => 2 * n * (Nat.log2 (n ^ 3) + 1)) 1).w := by
    funext p; cases p <;> rfl
  have hi := conf_ineq hC
  obtain ⟨h3, -⟩ := call_quiet (B := 2 * s.len * (3 * Nat.log2 s.len + 3)) hC hd hok hl hso budget_log
    (.inr (.inr (by cases id <;> simp only [fam] <;> omega)))
    (fun a ha => Nat.mul_le_mul (Nat.mul_le_mul_left 2 ha) (by
      have := log2_cube a
      have := log2_mono ha
      omega)) (hw ▸ h)
  have e : 2 * s.len * (3 * Nat.log2 s.len + 4) = 2 * s.len * (3 * Nat.log2 s.len + 3) + 2 * s.len := by ring
  split at h3 <;> omega

section
variable {V : Type} {less : V → V → Prop} {mv : Mem V} {c : Cfg V LSp}

theorem up_of (hw : StrictWeak less) (ha : Ascending less (s.view mv)) : Up (byLess less) mv s := by
  intro i j hi hij hj
  rcases eq_or_lt_of_le hij with rfl | hlt
  · intro h
    have h : (true = true) ↔ less (s.E mv i) (s.E mv i) := h
    exact hw.irrefl _ (h.1 rfl)
  · intro h
    have h : (true = true) ↔ less (s.E mv j) (s.E mv i) := h
    have hp := List.pairwise_iff_getElem.1 ha i.toNat j.toNat (by rw [view_length]; omega) (by rw [view_length]; omega) (by omega)
    simp only [Slice.view, List.getElem_map, List.getElem_range] at hp
    exact hp (h.1 rfl)

end

end Sorty
