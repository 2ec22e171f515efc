import Verif.Props.Float
import Verif.Props.Unique

/-! # What SortSlice makes of floats is determined, up to the bits of NaNs and the signs of zeros -/

namespace Sorty

variable {C : Conf} {t : GoType} {s : Slice} {m : Mem Cell} {M : Nat} {stale : Prop} {c : Cfg Cell (VSp Key)}

theorem reading_num {l : List Cell} (h : ∀ e ∈ l, ¬ e.ieeeNaN) : l.map Cell.reading = l.map fun e => some e.value :=
  List.map_congr_left fun e he => by simp [Cell.reading, h e he]

theorem reading_nan {l : List Cell} (h : ∀ e ∈ l, e.ieeeNaN) : l.map Cell.reading = l.map fun _ => none :=
  List.map_congr_left fun e he => by simp [Cell.reading, h e he]

/-- at most, where NaNs count as larger than everything -/
def leLarge : Option (WithBot (WithTop ℚ)) → Option (WithBot (WithTop ℚ)) → Prop
  | _, none => True
  | none, some _ => False
  | some x, some y => x ≤ y

/-- at most, where NaNs count as smaller than everything -/
def leSmall : Option (WithBot (WithTop ℚ)) → Option (WithBot (WithTop ℚ)) → Prop
  | none, _ => True
  | some _, none => False
  | some x, some y => x ≤ y

theorem leLarge_antisymm : ∀ {x y}, leLarge x y → leLarge y x → x = y
  | none, none, _, _ => rfl
  | some _, some _, h, h' => congrArg some (le_antisymm h h')

theorem leSmall_antisymm : ∀ {x y}, leSmall x y → leSmall y x → x = y
  | none, none, _, _ => rfl
  | some _, some _, h, h' => congrArg some (le_antisymm h h')

/-- numbers, then NaNs: ascending if NaNs count as larger than everything -/
theorem reading_large {l : List Cell} {k : Nat} (h1 : ∀ e ∈ l.take k, ¬ e.ieeeNaN)
    (h2 : ((l.take k).map Cell.value).Pairwise (· ≤ ·)) (h3 : ∀ e ∈ l.drop k, e.ieeeNaN) :
    (l.map Cell.reading).Pairwise leLarge := by
  rw [← List.take_append_drop k l, List.map_append, reading_num h1, reading_nan h3, List.pairwise_append]
  refine ⟨?_, ?_, ?_⟩
  · rw [List.pairwise_map] at h2 ⊢
    exact h2
  · rw [List.pairwise_map]
    exact List.pairwise_of_forall fun _ _ => trivial
  · intro x _ y hy
    simp only [List.mem_map] at hy
    obtain ⟨_, -, rfl⟩ := hy
    cases x <;> trivial

/-- NaNs, then numbers: ascending if NaNs count as smaller than everything -/
theorem reading_small {l : List Cell} {k : Nat} (h1 : ∀ e ∈ l.take k, e.ieeeNaN) (h2 : ∀ e ∈ l.drop k, ¬ e.ieeeNaN)
    (h3 : ((l.drop k).map Cell.value).Pairwise (· ≤ ·)) : (l.map Cell.reading).Pairwise leSmall := by
  rw [← List.take_append_drop k l, List.map_append, reading_nan h1, reading_num h2, List.pairwise_append]
  refine ⟨?_, ?_, ?_⟩
  · rw [List.pairwise_map]
    exact List.pairwise_of_forall fun _ _ => trivial
  · rw [List.pairwise_map] at h3 ⊢
    exact h3
  · intro x hx y _
    simp only [List.mem_map] at hx
    obtain ⟨_, -, rfl⟩ := hx
    cases y <;> trivial

/-- floats in the order SortSlice is to put them in read the same as any permutation of them in that order -/
theorem reading_unique {l l' : List Cell} {ws : Nat} (ht : t.float = true) (hl : ∀ e ∈ l, HasType ws t e) (hp : l'.Perm l)
    (h : SortedFor C t l) (h' : SortedFor C t l') : l'.map Cell.reading = l.map Cell.reading := by
  have hl' : ∀ e ∈ l', HasType ws t e := fun e he => hl e (hp.mem_iff.1 he)
  simp only [SortedFor, ht, if_true] at h h'
  split_ifs at h h' with h1 h2
  · obtain ⟨k, -, a, n⟩ := h
    obtain ⟨k', -, a', n'⟩ := h'
    have a := (ascFloat_value ht fun e he => hl e (List.mem_of_mem_take he)).1 a
    have a' := (ascFloat_value ht fun e he => hl' e (List.mem_of_mem_take he)).1 a'
    exact List.Perm.eq_of_pairwise (fun _ _ _ _ => leLarge_antisymm)
      (reading_large a'.1 a'.2 fun e he => (isNaN_ieee e).1 (n' e he)) (reading_large a.1 a.2 fun e he => (isNaN_ieee e).1 (n e he))
      (hp.map _)
  · obtain ⟨k, -, n, a⟩ := h
    obtain ⟨k', -, n', a'⟩ := h'
    have a := (ascFloat_value ht fun e he => hl e (List.mem_of_mem_drop he)).1 a
    have a' := (ascFloat_value ht fun e he => hl' e (List.mem_of_mem_drop he)).1 a'
    exact List.Perm.eq_of_pairwise (fun _ _ _ _ => leSmall_antisymm)
      (reading_small (fun e he => (isNaN_ieee e).1 (n' e he)) a'.1 a'.2) (reading_small (fun e he => (isNaN_ieee e).1 (n e he)) a.1 a.2)
      (hp.map _)
  · have a := (ascFloat_value ht hl).1 h
    have a' := (ascFloat_value ht hl').1 h'
    rw [reading_num a.1, reading_num a'.1]
    have : l'.map Cell.value = l.map Cell.value := (hp.map _).eq_of_pairwise' a'.2 a.2
    have := congrArg (List.map some) this
    simpa [Function.comp_def] using this

/-- **C28** for floats: which number, or that a NaN, stands at each place of the result is determined by the input, for
every schedule and number of goroutines. (Which of -0 and +0, and which NaN, is not.) -/
theorem C28_floats_unique (hC : C.OK) (ht : t.float = true) (hs : SliceOf C.wordSize t s m) (hn : NaNSafe C t (s.view m))
    (hd : DepthFor C.depth s.len) (hr : (SortSlice C (.slice t s)).Reaches M stale m c) (hret : Returned c) :
    (∀ l : List Cell, l.Perm (s.view m) → SortedFor C t l → (s.view c.sh.mem).map Cell.reading = l.map Cell.reading) ∧
    ∀ M' stale' c', (SortSlice C (.slice t s)).Reaches M' stale' m c' → Returned c' →
      (s.view c'.sh.mem).map Cell.reading = (s.view c.sh.mem).map Cell.reading := by
  have J : SortJob C s m _ _ := .slice t (by simp [GoType.sortable, ht]) hs hn
  obtain ⟨a, p⟩ := job_outcome hC J hd hr.toE hret
  refine ⟨fun l hl hal => reading_unique ht (fun e he => hs.elems e (hl.mem_iff.1 he)) (p.trans hl.symm) hal a,
    fun M' stale' c' hr' hret' => ?_⟩
  obtain ⟨a', p'⟩ := job_outcome hC J hd hr'.toE hret'
  exact reading_unique ht (fun e he => hs.elems e (p.mem_iff.1 he)) (p'.trans p.symm) a a'

/-- 3000 floats, many of them NaNs -/
example : ∃ c c', (SortSlice { demoC with nanOption := 1 } (.slice .float64 demoS)).Reaches 1 False demoFloats c ∧ Returned c ∧
    (SortSlice { demoC with nanOption := 1 } (.slice .float64 demoS)).Reaches 8 True demoFloats c' ∧ Returned c' ∧
    (demoS.view c'.sh.mem).map Cell.reading = (demoS.view c.sh.mem).map Cell.reading := by
  obtain ⟨c, h1, h2⟩ := sortJob_returns (demoC_ok' 1) (demoFloats_job 1 (.inl rfl)) (demo_depth' 1) 1 False
  obtain ⟨c', h3, h4⟩ := sortJob_returns (demoC_ok' 1) (demoFloats_job 1 (.inl rfl)) (demo_depth' 1) 8 True
  exact ⟨c, c', h1, h2, h3, h4,
    (C28_floats_unique (demoC_ok' 1) rfl (demoFloats_typed 1) (fun _ => .inl rfl) (demo_depth' 1) h1 h2).2 8 True c' h3 h4⟩

/-- a NaN, whatever its payload, reads as a NaN, and -0 as +0 -/
example : Cell.reading (.w64 0x7ff8000000000001#64) = none ∧ Cell.reading (.w64 0xfff0000000000001#64) = none ∧
    Cell.reading (.w64 0x8000000000000000#64) = Cell.reading (.w64 0#64) := by
  have h1 : Sorty.ieeeNaN 11 52 (0x7ff8000000000001#64).toNat := (fmt64.nan _).1 (by decide)
  have h2 : Sorty.ieeeNaN 11 52 (0xfff0000000000001#64).toNat := (fmt64.nan _).1 (by decide)
  have h3 : ¬ Sorty.ieeeNaN 11 52 (0x8000000000000000#64).toNat := mt (fmt64.nan _).2 (by decide)
  have h4 : ¬ Sorty.ieeeNaN 11 52 (0#64).toNat := mt (fmt64.nan _).2 (by decide)
  refine ⟨if_pos h1, if_pos h2, ?_⟩
  refine (if_neg h3).trans (Eq.trans ?_ (if_neg h4).symm)
  congr 1
  exact le_antisymm (((fmt64.fle_iff _ _).1 (by decide)).2.2) (((fmt64.fle_iff _ _).1 (by decide)).2.2)

/-- **C33** for floats: sorting again floats that are in order changes no number and moves no NaN past a number. -/
theorem C33_floats_idempotent (hC : C.OK) (ht : t.float = true) (hs : SliceOf C.wordSize t s m) (hn : NaNSafe C t (s.view m))
    (hd : DepthFor C.depth s.len) (hr : (SortSlice C (.slice t s)).Reaches M stale m c) (hret : Returned c) :
    (SortedFor C t (s.view m) → (s.view c.sh.mem).map Cell.reading = (s.view m).map Cell.reading) ∧
    ∀ M' stale' c', (SortSlice C (.slice t s)).Reaches M' stale' c.sh.mem c' → Returned c' →
      (s.view c'.sh.mem).map Cell.reading = (s.view c.sh.mem).map Cell.reading := by
  have J : SortJob C s m _ _ := .slice t (by simp [GoType.sortable, ht]) hs hn
  obtain ⟨a, p⟩ := job_outcome hC J hd hr.toE hret
  have hn' : NaNSafe C t (s.view c.sh.mem) := fun h => (hn h).imp_right fun h => h.imp_right fun h e he => h e (p.mem_iff.1 he)
  exact ⟨fun h => (C28_floats_unique hC ht hs hn hd hr hret).1 _ (.refl _) h, fun M' stale' c' hr' hret' =>
    (C28_floats_unique hC ht (hs.of_perm p) hn' hd hr' hret').1 _ (.refl _) a⟩

example : ∃ c, (SortSlice { demoC with nanOption := -1 } (.slice .float64 demoS)).Reaches 5 False demoFloats c ∧ Returned c ∧
    ∀ M' stale' c', (SortSlice { demoC with nanOption := -1 } (.slice .float64 demoS)).Reaches M' stale' c.sh.mem c' → Returned c' →
      (demoS.view c'.sh.mem).map Cell.reading = (demoS.view c.sh.mem).map Cell.reading := by
  obtain ⟨c, h1, h2⟩ := sortJob_returns (demoC_ok' (-1)) (demoFloats_job (-1) (.inr rfl)) (demo_depth' (-1)) 5 False
  exact ⟨c, h1, h2, (C33_floats_idempotent (demoC_ok' (-1)) rfl (demoFloats_typed (-1)) (fun _ => .inr (.inl rfl)) (demo_depth' (-1)) h1 h2).2⟩

/-- **C33** for SortLen: sorting again what is ascending by length changes no length. -/
theorem C33_lengths_idempotent (hC : C.OK) (ht : t.hasLen = true) (hs : SliceOf C.wordSize t s m)
    (hd : DepthFor C.depth s.len) (hr : (SortLen C (.slice t s)).Reaches M stale m c) (hret : Returned c) :
    (AscLen (s.view m) → (s.view c.sh.mem).map Cell.length = (s.view m).map Cell.length) ∧
    ∀ M' stale' c', (SortLen C (.slice t s)).Reaches M' stale' c.sh.mem c' → Returned c' →
      (s.view c'.sh.mem).map Cell.length = (s.view c.sh.mem).map Cell.length := by
  obtain ⟨a, p, -⟩ := C06_sortLen hC ht hs hd hr hret
  exact ⟨fun h => C28_lengths_unique hC ht hs hd hr hret _ (.refl _) h, fun M' stale' c' hr' hret' =>
    C28_lengths_unique hC ht (hs.of_perm p) hd hr' hret' _ (.refl _) a⟩

example : ∃ c, (SortLen demoC (.slice .string demoS)).Reaches 5 False demoStrs c ∧ Returned c ∧
    ∀ M' stale' c', (SortLen demoC (.slice .string demoS)).Reaches M' stale' c.sh.mem c' → Returned c' →
      (demoS.view c'.sh.mem).map Cell.length = (demoS.view c.sh.mem).map Cell.length := by
  obtain ⟨c, h1, h2⟩ := sortJob_returns demoC_ok demoLens_job demo_depth 5 False
  exact ⟨c, h1, h2, (C33_lengths_idempotent demoC_ok rfl demoStrs_typed demo_depth h1 h2).2⟩

end Sorty
