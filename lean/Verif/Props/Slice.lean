import Verif.Props.Demo

/-! # Properties of SortSlice and SortLen: what they leave in memory -/

namespace Sorty

variable {C : Conf} {t : GoType} {s : Slice} {m : Mem Cell} {M : Nat} {stale : Prop} {c : Cfg Cell (VSp Key)}

/-- **C01.** When SortSlice returns on a slice of integers (or pointers), the slice is ascending. -/
theorem C01_sortSlice_ints_ascending (hC : C.OK) (ht : t.signed = true ∨ t.unsigned = true)
    (hs : SliceOf C.wordSize t s m) (hd : DepthFor C.depth s.len)
    (hr : (SortSlice C (.slice t s)).Reaches M stale m c) (hret : Returned c) :
    AscNum t.signed (s.view c.sh.mem) := by
  obtain ⟨id, h⟩ := famOf_of_sortable (ws := C.wordSize) (t := t) (by rcases ht with h | h <;> simp [GoType.sortable, h])
  have hf : t.float = false := by
    rcases ht with h | h <;> cases t <;> simp [GoType.signed, GoType.unsigned] at h <;> rfl
  rw [sortSlice_eq hC h] at hr
  have ho := call_sorted hC hs.len hd (accept_slice h hs (by simp [NaNSafe, hf])) hr.toE hret
  exact (ascNum_of h ht (hs.of_perm ho.perm)).1 (ho.full (.inl (by rw [famOf_float h, hf])))

/-- every documented call returns in some execution (see C12 for: in every execution) -/
theorem sortJob_returns {call : Call} {sorted : List Cell → Prop} (hC : C.OK) (J : SortJob C s m call sorted) (hd : DepthFor C.depth s.len)
    (M : Nat) (stale : Prop) : ∃ c, call.Reaches M stale m c ∧ Returned c := by
  obtain ⟨id, rfl, hok, hl⟩ := J.fam hC
  exact exists_return (call_hyp hC id m hl M stale) (call_acc C id s m M stale) (call_start hC id hd hok M stale)

theorem demoInts_job : SortJob demoC demoS demoInts (SortSlice demoC (.slice .int64 demoS)) (SortedFor demoC .int64) :=
  .slice .int64 rfl demoInts_typed (by simp [NaNSafe, GoType.float])

theorem demoStrs_job : SortJob demoC demoS demoStrs (SortSlice demoC (.slice .string demoS)) (SortedFor demoC .string) :=
  .slice .string rfl demoStrs_typed (by simp [NaNSafe, GoType.float])

theorem demoLens_job : SortJob demoC demoS demoStrs (SortLen demoC (.slice .string demoS)) AscLen :=
  .len .string rfl demoStrs_typed

/-- C01 applies to 3000 descending integers sorted with up to 5 goroutines -/
example : ∃ c, (SortSlice demoC (.slice .int64 demoS)).Reaches 5 False demoInts c ∧ Returned c ∧
    AscNum (GoType.signed .int64) (demoS.view c.sh.mem) := by
  obtain ⟨c, h1, h2⟩ := sortJob_returns demoC_ok demoInts_job demo_depth 5 False
  exact ⟨c, h1, h2, C01_sortSlice_ints_ascending demoC_ok (.inl rfl) demoInts_typed demo_depth h1 h2⟩

/-- **C02.** When SortSlice returns, the slice holds exactly the elements it held before, and at no time has any
address outside of it been changed. -/
theorem C02_sortSlice_permutes (hC : C.OK) (ht : t.sortable = true) (hs : SliceOf C.wordSize t s m)
    (hn : NaNSafe C t (s.view m)) (hd : DepthFor C.depth s.len) (hr : (SortSlice C (.slice t s)).Reaches M stale m c) :
    (Returned c → (s.view c.sh.mem).Perm (s.view m)) ∧ ∀ a, a < s.off ∨ s.off + s.len ≤ a → c.sh.mem a = m a := by
  obtain ⟨id, h⟩ := famOf_of_sortable (ws := C.wordSize) ht
  rw [sortSlice_eq hC h] at hr
  have hok := accept_slice h hs hn
  refine ⟨fun hret => (call_sorted hC hs.len hd hok hr.toE hret).perm, fun a ha => call_frame hC hs.len hd hok hr a ?_⟩
  simp only [Slice.rng, Set.mem_ofPred_eq]; omega

example : ∃ c, (SortSlice demoC (.slice .string demoS)).Reaches 5 False demoStrs c ∧ Returned c ∧
    (demoS.view c.sh.mem).Perm (demoS.view demoStrs) := by
  obtain ⟨c, h1, h2⟩ := sortJob_returns demoC_ok demoStrs_job demo_depth 5 False
  exact ⟨c, h1, h2, (C02_sortSlice_permutes demoC_ok rfl demoStrs_typed (by simp [NaNSafe, GoType.float]) demo_depth h1).1 h2⟩

/-- **C03.** When SortSlice returns on strings or byte slices, they are in lexicographic order and a permutation of
the originals. -/
theorem C03_sortSlice_bytes_ascending (hC : C.OK) (ht : t.bytes = true) (hs : SliceOf C.wordSize t s m)
    (hd : DepthFor C.depth s.len) (hr : (SortSlice C (.slice t s)).Reaches M stale m c) (hret : Returned c) :
    AscBytes (s.view c.sh.mem) ∧ (s.view c.sh.mem).Perm (s.view m) := by
  obtain ⟨id, h⟩ := famOf_of_sortable (ws := C.wordSize) (t := t) (by simp [GoType.sortable, ht])
  have hf : t.float = false := by cases t <;> simp [GoType.bytes] at ht <;> rfl
  rw [sortSlice_eq hC h] at hr
  have ho := call_sorted hC hs.len hd (accept_slice h hs (by simp [NaNSafe, hf])) hr.toE hret
  exact ⟨(ascBytes_of h ht (hs.of_perm ho.perm)).1 (ho.full (.inl (by rw [famOf_float h, hf]))), ho.perm⟩

example : ∃ c, (SortSlice demoC (.slice .string demoS)).Reaches 5 False demoStrs c ∧ Returned c ∧
    AscBytes (demoS.view c.sh.mem) := by
  obtain ⟨c, h1, h2⟩ := sortJob_returns demoC_ok demoStrs_job demo_depth 5 False
  exact ⟨c, h1, h2, (C03_sortSlice_bytes_ascending demoC_ok rfl demoStrs_typed demo_depth h1 h2).1⟩

/-- **C04.** With NaNlarge, SortSlice on floats leaves ascending numbers followed by all the NaNs, and the same
elements (bit patterns) as before. -/
theorem C04_sortSlice_NaNlarge (hC : C.OK) (ht : t.float = true) (ho : C.nanOption = 1) (hs : SliceOf C.wordSize t s m)
    (hd : DepthFor C.depth s.len) (hr : (SortSlice C (.slice t s)).Reaches M stale m c) (hret : Returned c) :
    (∃ k ≤ s.len, AscFloat ((s.view c.sh.mem).take k) ∧ AllNaN ((s.view c.sh.mem).drop k)) ∧
      (s.view c.sh.mem).Perm (s.view m) := by
  obtain ⟨id, h⟩ := famOf_of_sortable (ws := C.wordSize) (t := t) (by simp [GoType.sortable, ht])
  rw [sortSlice_eq hC h] at hr
  have hso := call_sorted hC hs.len hd (accept_slice h hs (fun _ => .inl ho)) hr.toE hret
  refine ⟨?_, hso.perm⟩
  obtain ⟨q, h1, h2, h3, h4⟩ := floats_of h ht hs hso
  rw [if_neg (by omega)] at h2
  refine ⟨q.len, h1, ?_, ?_⟩
  · rw [view_take s _ _ h1]
    rwa [show q = ⟨s.off, q.len⟩ by rw [← h2]] at h3
  · rw [view_drop s _ _ h1]
    refine view_all.2 fun a ha => h4 a ?_ ?_ <;> simp only [Slice.rng, Set.mem_ofPred_eq] at ha ⊢ <;> omega

theorem demoFloats_job (o : Int) (ho : o = 1 ∨ o = -1) : SortJob { demoC with nanOption := o } demoS demoFloats
    (SortSlice { demoC with nanOption := o } (.slice .float64 demoS)) (SortedFor { demoC with nanOption := o } .float64) :=
  .slice .float64 rfl (demoFloats_typed o) (fun _ => by rcases ho with rfl | rfl <;> simp)

theorem demoC_ok' (o : Int) : ({ demoC with nanOption := o } : Conf).OK := ⟨demoC_ok.sixb, demoC_ok.init, demoC_ok.word⟩

example : ∃ c, (SortSlice { demoC with nanOption := 1 } (.slice .float64 demoS)).Reaches 5 False demoFloats c ∧ Returned c ∧
    ∃ k ≤ 3000, AscFloat ((demoS.view c.sh.mem).take k) ∧ AllNaN ((demoS.view c.sh.mem).drop k) := by
  obtain ⟨c, h1, h2⟩ := sortJob_returns (demoC_ok' 1) (demoFloats_job 1 (.inl rfl)) (demo_depth' 1) 5 False
  exact ⟨c, h1, h2, (C04_sortSlice_NaNlarge (demoC_ok' 1) rfl rfl (demoFloats_typed 1) (demo_depth' 1) h1 h2).1⟩

/-- **C05.** With NaNsmall, SortSlice on floats leaves all the NaNs followed by ascending numbers, and the same
elements (bit patterns) as before. -/
theorem C05_sortSlice_NaNsmall (hC : C.OK) (ht : t.float = true) (ho : C.nanOption = -1) (hs : SliceOf C.wordSize t s m)
    (hd : DepthFor C.depth s.len) (hr : (SortSlice C (.slice t s)).Reaches M stale m c) (hret : Returned c) :
    (∃ k ≤ s.len, AllNaN ((s.view c.sh.mem).take k) ∧ AscFloat ((s.view c.sh.mem).drop k)) ∧
      (s.view c.sh.mem).Perm (s.view m) := by
  obtain ⟨id, h⟩ := famOf_of_sortable (ws := C.wordSize) (t := t) (by simp [GoType.sortable, ht])
  rw [sortSlice_eq hC h] at hr
  have hso := call_sorted hC hs.len hd (accept_slice h hs (fun _ => .inr (.inl ho))) hr.toE hret
  refine ⟨?_, hso.perm⟩
  obtain ⟨q, h1, h2, h3, h4⟩ := floats_of h ht hs hso
  rw [if_pos ho] at h2
  refine ⟨s.len - q.len, by omega, ?_, ?_⟩
  · rw [view_take s _ _ (by omega)]
    refine view_all.2 fun a ha => h4 a ?_ ?_ <;> simp only [Slice.rng, Set.mem_ofPred_eq] at ha ⊢ <;> omega
  · rw [view_drop s _ _ (by omega), show s.len - (s.len - q.len) = q.len by omega, ← h2]
    exact h3

example : ∃ c, (SortSlice { demoC with nanOption := -1 } (.slice .float64 demoS)).Reaches 5 False demoFloats c ∧ Returned c ∧
    ∃ k ≤ 3000, AllNaN ((demoS.view c.sh.mem).take k) ∧ AscFloat ((demoS.view c.sh.mem).drop k) := by
  obtain ⟨c, h1, h2⟩ := sortJob_returns (demoC_ok' (-1)) (demoFloats_job (-1) (.inr rfl)) (demo_depth' (-1)) 5 False
  exact ⟨c, h1, h2, (C05_sortSlice_NaNsmall (demoC_ok' (-1)) rfl rfl (demoFloats_typed (-1)) (demo_depth' (-1)) h1 h2).1⟩

/-- **C06.** When SortLen returns, lengths are ascending, the elements are a permutation of the originals and
nothing outside the slice has changed. -/
theorem C06_sortLen (hC : C.OK) (ht : t.hasLen = true) (hs : SliceOf C.wordSize t s m) (hd : DepthFor C.depth s.len)
    (hr : (SortLen C (.slice t s)).Reaches M stale m c) (hret : Returned c) :
    AscLen (s.view c.sh.mem) ∧ (s.view c.sh.mem).Perm (s.view m) ∧
      ∀ a, a < s.off ∨ s.off + s.len ≤ a → c.sh.mem a = m a := by
  obtain ⟨id, h⟩ := lfamOf_of_hasLen ht
  rw [sortLen_eq hC h] at hr
  have hok : ∀ a ∈ s.rng, Accept C id (m a) := fun a ha => .inl (cok_of_len h (view_all.1 hs.elems a ha))
  have ho := call_sorted hC hs.len hd hok hr.toE hret
  refine ⟨(ascLen_of h (hs.of_perm ho.perm)).1 (ho.full (.inl (lfamOf_float h))), ho.perm, fun a ha =>
    call_frame hC hs.len hd hok hr a ?_⟩
  simp only [Slice.rng, Set.mem_ofPred_eq]; omega

example : ∃ c, (SortLen demoC (.slice .string demoS)).Reaches 5 False demoStrs c ∧ Returned c ∧
    AscLen (demoS.view c.sh.mem) := by
  obtain ⟨c, h1, h2⟩ := sortJob_returns demoC_ok demoLens_job demo_depth 5 False
  exact ⟨c, h1, h2, (C06_sortLen demoC_ok rfl demoStrs_typed demo_depth h1 h2).1⟩

/-- **C35.** With NaNignore (or any other option value), SortSlice on floats without NaNs leaves an ascending
permutation. -/
theorem C35_sortSlice_no_NaN (hC : C.OK) (ht : t.float = true) (hn : ∀ e ∈ s.view m, ¬ e.isNaN) (hs : SliceOf C.wordSize t s m)
    (hd : DepthFor C.depth s.len) (hr : (SortSlice C (.slice t s)).Reaches M stale m c) (hret : Returned c) :
    AscFloat (s.view c.sh.mem) ∧ (s.view c.sh.mem).Perm (s.view m) := by
  obtain ⟨id, h⟩ := famOf_of_sortable (ws := C.wordSize) (t := t) (by simp [GoType.sortable, ht])
  rw [sortSlice_eq hC h] at hr
  have hnf : ∀ a ∈ s.rng, cellNaN (m a) = false := fun a ha => by
    have := view_all.1 hn a ha
    rw [← cellNaN_iff] at this; simpa using this
  have hso := call_sorted hC hs.len hd (accept_slice h hs (fun _ => .inr (.inr hn))) hr.toE hret
  have hs' := hs.of_perm hso.perm
  refine ⟨ascFloat_of h ht (view_all.1 hs'.elems) ?_ (hso.full (.inr hnf)), hso.perm⟩
  exact hso.1.all fun a ha => cok_of_type h (view_all.1 hs.elems a ha) fun _ => hnf a ha

theorem demoNums_noNaN : ∀ e ∈ demoS.view demoNums, ¬ e.isNaN := by
  refine demo_view_all fun a => ?_
  have h : a % 1000 < 1000 := Nat.mod_lt _ (by decide)
  refine mt (isNaN_w64 _).1 ?_
  have e : (BitVec.ofNat 64 (5000 - a % 1000)).toNat = 5000 - a % 1000 := by
    rw [BitVec.toNat_ofNat]; omega
  simp only [fnan, fmag, e, finf]
  simp; omega

example : ∃ c, (SortSlice { demoC with nanOption := 0 } (.slice .float64 demoS)).Reaches 5 False demoNums c ∧ Returned c ∧
    AscFloat (demoS.view c.sh.mem) := by
  obtain ⟨c, h1, h2⟩ := sortJob_returns (demoC_ok' 0)
    (.slice .float64 rfl (demoNums_typed 0) (fun _ => .inr (.inr demoNums_noNaN))) (demo_depth' 0) 5 False
  exact ⟨c, h1, h2, (C35_sortSlice_no_NaN (demoC_ok' 0) rfl demoNums_noNaN (demoNums_typed 0) (demo_depth' 0) h1 h2).1⟩

end Sorty
