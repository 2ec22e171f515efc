import Verif.Proofs.Outcome
import Verif.Logic.Label

/-! # Facts about all states of a call, in the vocabulary of the specification -/

namespace Sorty

variable {C : Conf} {s : Slice} {m : Mem Cell} {call : Call} {sorted : List Cell → Prop} {M : Nat} {stale : Prop}
  {c : Cfg Cell (VSp Key)}

theorem mem_rng {a : Nat} : a ∈ s.rng ↔ s.off ≤ a ∧ a < s.off + s.len := Iff.rfl

theorem sortedFor_of {t : GoType} {id : FamId} {mf : Mem Cell} (h : famOf C.wordSize t = some id) (ht : t.sortable = true)
    (hs : SliceOf C.wordSize t s m) (hn : NaNSafe C t (s.view m)) (ho : SortedAs C id s m mf) :
    SortedFor C t (s.view mf) := by
  unfold SortedFor
  by_cases hf : t.float = true
  · rw [if_pos hf]
    obtain ⟨q, h1, h2, h3, h4⟩ := floats_of h hf hs ho
    by_cases o1 : C.nanOption = 1
    · rw [if_pos o1]
      rw [if_neg (by omega)] at h2
      refine ⟨q.len, by rwa [view_length], ?_, ?_⟩
      · rw [view_take s _ _ h1]
        rwa [show q = ⟨s.off, q.len⟩ by rw [← h2]] at h3
      · rw [view_drop s _ _ h1]
        refine view_all.2 fun a ha => h4 a ?_ ?_ <;> simp only [Slice.rng, Set.mem_ofPred_eq] at ha ⊢ <;> omega
    · rw [if_neg o1]
      by_cases o2 : C.nanOption = -1
      · rw [if_pos o2]
        rw [if_pos o2] at h2
        refine ⟨s.len - q.len, by rw [view_length]; omega, ?_, ?_⟩
        · rw [view_take s _ _ (by omega)]
          refine view_all.2 fun a ha => h4 a ?_ ?_ <;> simp only [Slice.rng, Set.mem_ofPred_eq] at ha ⊢ <;> omega
        · rw [view_drop s _ _ (by omega), show s.len - (s.len - q.len) = q.len by omega, ← h2]
          exact h3
      · rw [if_neg o2]
        have hnn : ∀ c ∈ s.view m, ¬ c.isNaN := by
          rcases hn hf with h | h | h
          · exact absurd h o1
          · exact absurd h o2
          · exact h
        have hnn' := view_all.1 hnn
        have hnf : ∀ a ∈ s.rng, cellNaN (m a) = false := by
          intro a ha
          cases hh : cellNaN (m a) with
          | false => rfl
          | true => exact absurd (cellNaN_iff.1 hh) (hnn' a ha)
        refine ascFloat_of h hf (view_all.1 (hs.of_perm ho.perm).elems) ?_ (ho.full (.inr hnf))
        intro a ha
        have hmf : cellNaN (mf a) = false := ho.1.all (p := fun c => cellNaN c = false) hnf a ha
        exact cok_of_type h (view_all.1 (hs.of_perm ho.perm).elems a ha) fun _ => hmf
  · rw [if_neg hf]
    have hfull := ho.full (.inl (by rw [famOf_float h]; simpa using hf))
    by_cases hb : t.bytes = true
    · rw [if_pos hb]; exact (ascBytes_of h hb (hs.of_perm ho.perm)).1 hfull
    · rw [if_neg hb]
      refine (ascNum_of h ?_ (hs.of_perm ho.perm)).1 hfull
      simp [GoType.sortable, hf, hb] at ht
      exact ht

/-- outcome of a documented call, even with interference outside the slice -/
theorem job_outcome (hC : C.OK) (J : SortJob C s m call sorted) (hd : DepthFor C.depth s.len)
    (h : call.EReaches M stale s m c) (hr : Returned c) :
    sorted (s.view c.sh.mem) ∧ (s.view c.sh.mem).Perm (s.view m) := by
  cases J with
  | slice t ht hs hn =>
    obtain ⟨id, hid⟩ := famOf_of_sortable (ws := C.wordSize) ht
    rw [sortSlice_eq hC hid] at h
    have ho := call_sorted hC hs.len hd (accept_slice hid hs hn) h hr
    exact ⟨sortedFor_of hid ht hs hn ho, ho.perm⟩
  | len t ht hs =>
    obtain ⟨id, hid⟩ := lfamOf_of_hasLen ht
    rw [sortLen_eq hC hid] at h
    have ho := call_sorted hC hs.len hd (fun a ha => .inl (cok_of_len hid (view_all.1 hs.elems a ha))) h hr
    exact ⟨(ascLen_of hid (hs.of_perm ho.perm)).1 (ho.full (.inl (lfamOf_float hid))), ho.perm⟩

/-- the invariant of a documented call -/
theorem job_inv (hC : C.OK) (J : SortJob C s m call sorted) (hd : DepthFor C.depth s.len)
    (h : call.EReaches M stale s m c) :
    ∃ (S : Spec Cell (VSp Key)) (I : IPar Cell (VSp Key)), Hyp (call.par M stale) S I ∧ (I.W0 = s.rng ∧ S.racy = ∅) ∧
      ∃ ts, Inv (call.par M stale) S I c ts := by
  obtain ⟨id, rfl, hok, hl⟩ := J.fam hC
  exact ⟨_, _, call_hyp hC id m hl M stale, ⟨rfl, rfl⟩, call_reach hC hl hd hok h⟩

theorem job_acc (hC : C.OK) (J : SortJob C s m call sorted) (M : Nat) (stale : Prop) :
    Acc (fun c' c => RStep (call.par M stale) c c') (start call.main m) := by
  obtain ⟨id, rfl, hok, hl⟩ := J.fam hC
  obtain ⟨n, hn⟩ := spB_sortOf C id s
  exact acc_rstart (fun s => spB_vbody (fam C id) C.depth s) hn m

theorem no_step_ret {V Sp : Type} {P : Par V Sp} {c c' : Cfg V Sp} (h : ∀ p ∈ c.ths, p = .ret ()) : ¬ Step P c c' := by
  intro hs
  cases hs with
  | tau l₁ l₂ sh p sh' p' new ht =>
    have := h p (by simp)
    subst this
    cases ht
  | commSR l₁ l₂ l₃ sh v k k' => have := h (.send v k) (by simp); cases this
  | commRS l₁ l₂ l₃ sh v k k' => have := h (.send v k) (by simp); cases this

theorem returned_of_all {V Sp : Type} {P : Par V Sp} {S : Spec V Sp} {I : IPar V Sp} {c : Cfg V Sp} {ts} (h : Inv P S I c ts)
    (h1 : ∀ p ∈ c.ths, p = .ret ()) : Returned c := by
  have hths := h.ths
  obtain ⟨rs, hr, _⟩ := h.roles
  cases hc : c.ths with
  | nil =>
    have : ts = [] := by rw [hc] at hths; simpa using hths.symm
    subst this; simp at hr
  | cons p l => exact ⟨l, by rw [hc, h1 p (by simp [hc])]⟩

theorem fam_maxRec {t : GoType} {id : FamId} (h : famOf C.wordSize t = some id) :
    (fam C id).maxRec = if t.bytes then C.maxLenRecFC else C.maxLenRec := by
  cases t <;> simp only [famOf, Option.some.injEq, reduceCtorEq] at h
  case slice t => cases t <;> simp at h; subst h; rfl
  all_goals (try split_ifs at h) <;> subst h <;> rfl

theorem lfam_maxRec {t : GoType} {id : FamId} (h : lfamOf t = some id) : (fam C id).maxRec = C.maxLenRec := by
  cases t <;> simp only [lfamOf, Option.some.injEq, reduceCtorEq] at h <;> subst h <;> rfl

theorem filter_two {α : Type} {q : α → Bool} {l : List α} (h : (l.filter q).length ≤ 1) {i j : Nat} {x y : α}
    (hi : l[i]? = some x) (hj : l[j]? = some y) (hx : q x = true) (hy : q y = true) : i = j := by
  induction l generalizing i j with
  | nil => simp at hi
  | cons z l ih =>
    have key : ∀ {j : Nat} {y : α}, l[j]? = some y → q y = true → q z = true → False := by
      intro j y hj hy hz
      have : y ∈ l.filter q := List.mem_filter.2 ⟨List.mem_of_getElem? hj, hy⟩
      have := List.length_pos_of_mem this
      rw [List.filter_cons_of_pos hz, List.length_cons] at h
      omega
    cases i with
    | zero =>
      cases j with
      | zero => rfl
      | succ j =>
        simp only [List.getElem?_cons_zero, Option.some.injEq, List.getElem?_cons_succ] at hi hj
        subst hi
        exact (key hj hy hx).elim
    | succ i =>
      cases j with
      | zero =>
        simp only [List.getElem?_cons_zero, Option.some.injEq, List.getElem?_cons_succ] at hi hj
        subst hj
        exact (key hi hx hy).elim
      | succ j =>
        simp only [List.getElem?_cons_succ] at hi hj
        have : (l.filter q).length ≤ 1 := by
          refine le_trans (List.Sublist.length_le (List.Sublist.filter q (List.sublist_cons_self z l))) h
        rw [ih this hi hj]

end Sorty
