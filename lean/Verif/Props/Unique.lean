import Verif.Props.Check
import Mathlib.Data.List.Sort

/-! # The result is determined by the input; which arguments are accepted -/

namespace Sorty

open Prog

variable {C : Conf} {t : GoType} {s : Slice} {m : Mem Cell} {M M' : Nat} {stale stale' : Prop} {c c' : Cfg Cell (VSp Key)}

theorem map_inj_mem {α β : Type} {f : α → β} : ∀ {l l' : List α}, (∀ x ∈ l, ∀ y ∈ l', f x = f y → x = y) →
    l.map f = l'.map f → l = l'
  | [], [], _, _ => rfl
  | [], _ :: _, _, h => by simp at h
  | _ :: _, [], _, h => by simp at h
  | x :: l, y :: l', hi, h => by
    simp only [List.map_cons, List.cons.injEq] at h
    rw [hi x (by simp) y (by simp) h.1, map_inj_mem (fun x hx y hy => hi x (by simp [hx]) y (by simp [hy])) h.2]

/-- a typed integer is determined by its value -/
theorem num_inj {ws : Nat} (ht : t.signed = true ∨ t.unsigned = true) {x y : Cell} (hx : HasType ws t x) (hy : HasType ws t y)
    (h : x.num t.signed = y.num t.signed) : x = y := by
  have key : (∃ a b, x = .w32 a ∧ y = .w32 b) ∨ (∃ a b, x = .w64 a ∧ y = .w64 b) := by
    cases t <;> simp [GoType.signed, GoType.unsigned] at ht <;> simp only [HasType] at hx hy <;> (try split_ifs at hx hy) <;>
      (obtain ⟨a, rfl⟩ := hx; obtain ⟨b, rfl⟩ := hy; simp)
  rcases key with ⟨a, b, rfl, rfl⟩ | ⟨a, b, rfl, rfl⟩ <;> simp only [Cell.num] at h <;> congr 1
  all_goals
    split_ifs at h
    · exact BitVec.eq_of_toInt_eq h
    · exact BitVec.eq_of_toNat_eq (by exact_mod_cast h)

theorem bytes_antisymm {x y : List UInt8} (h1 : ¬ y < x) (h2 : ¬ x < y) : x = y := by
  rw [bytes_lt_map] at h1 h2
  have := le_antisymm (not_lt.1 h1) (not_lt.1 h2)
  exact List.map_injective_iff.2 (fun a b h => UInt8.toNat_inj.1 h) this

theorem ascNum_unique {l l' : List Cell} {ws : Nat} (ht : t.signed = true ∨ t.unsigned = true) (hl : ∀ x ∈ l, HasType ws t x)
    (hp : l'.Perm l) (h : AscNum t.signed l) (h' : AscNum t.signed l') : l' = l :=
  map_inj_mem (fun x hx y hy => num_inj ht (hl x (hp.mem_iff.1 hx)) (hl y hy)) ((hp.map _).eq_of_pairwise' h' h)

theorem ascBytes_unique {l l' : List Cell} (hp : l'.Perm l) (h : AscBytes l) (h' : AscBytes l') :
    l'.map Cell.bytes = l.map Cell.bytes :=
  (hp.map _).eq_of_pairwise (fun _ _ _ _ => bytes_antisymm) h' h

/-- **C28.** The slice of integers SortSlice leaves is the only ascending permutation of the input: the same for every
schedule, every number of goroutines. -/
theorem C28_ints_unique (hC : C.OK) (ht : t.signed = true ∨ t.unsigned = true) (hs : SliceOf C.wordSize t s m)
    (hd : DepthFor C.depth s.len) (hr : (SortSlice C (.slice t s)).Reaches M stale m c) (hret : Returned c) :
    (∀ l : List Cell, l.Perm (s.view m) → AscNum t.signed l → s.view c.sh.mem = l) ∧
    ∀ M' stale' c', (SortSlice C (.slice t s)).Reaches M' stale' m c' → Returned c' → s.view c'.sh.mem = s.view c.sh.mem := by
  have hf : t.float = false := by
    rcases ht with h | h <;> cases t <;> simp [GoType.signed, GoType.unsigned] at h <;> rfl
  have hso : t.sortable = true := by rcases ht with h | h <;> simp [GoType.sortable, h]
  have p := (C02_sortSlice_permutes hC hso hs (by simp [NaNSafe, hf]) hd hr).1 hret
  have a := C01_sortSlice_ints_ascending hC ht hs hd hr hret
  refine ⟨fun l hl hal => ?_, fun M' stale' c' hr' hret' => ?_⟩
  · exact ascNum_unique ht (fun x hx => hs.elems x (hl.mem_iff.1 hx)) (p.trans hl.symm) hal a
  · have p' := (C02_sortSlice_permutes hC hso hs (by simp [NaNSafe, hf]) hd hr').1 hret'
    have a' := C01_sortSlice_ints_ascending hC ht hs hd hr' hret'
    exact ascNum_unique ht (fun x hx => hs.elems x (p.mem_iff.1 hx)) (p'.trans p.symm) a a'

example : ∃ c c', (SortSlice demoC (.slice .int64 demoS)).Reaches 1 False demoInts c ∧ Returned c ∧
    (SortSlice demoC (.slice .int64 demoS)).Reaches 8 True demoInts c' ∧ Returned c' ∧ demoS.view c'.sh.mem = demoS.view c.sh.mem := by
  obtain ⟨c, h1, h2⟩ := sortJob_returns demoC_ok demoInts_job demo_depth 1 False
  obtain ⟨c', h3, h4⟩ := sortJob_returns demoC_ok demoInts_job demo_depth 8 True
  exact ⟨c, c', h1, h2, h3, h4, (C28_ints_unique demoC_ok (.inl rfl) demoInts_typed demo_depth h1 h2).2 8 True c' h3 h4⟩

/-- **C28** for strings and byte slices, as byte contents. -/
theorem C28_bytes_unique (hC : C.OK) (ht : t.bytes = true) (hs : SliceOf C.wordSize t s m)
    (hd : DepthFor C.depth s.len) (hr : (SortSlice C (.slice t s)).Reaches M stale m c) (hret : Returned c) :
    (∀ l : List Cell, l.Perm (s.view m) → AscBytes l → (s.view c.sh.mem).map Cell.bytes = l.map Cell.bytes) ∧
    ∀ M' stale' c', (SortSlice C (.slice t s)).Reaches M' stale' m c' → Returned c' →
      (s.view c'.sh.mem).map Cell.bytes = (s.view c.sh.mem).map Cell.bytes := by
  obtain ⟨a, p⟩ := C03_sortSlice_bytes_ascending hC ht hs hd hr hret
  refine ⟨fun l hl hal => ascBytes_unique (p.trans hl.symm) hal a, fun M' stale' c' hr' hret' => ?_⟩
  obtain ⟨a', p'⟩ := C03_sortSlice_bytes_ascending hC ht hs hd hr' hret'
  exact ascBytes_unique (p'.trans p.symm) a a'

example : ∃ c c', (SortSlice demoC (.slice .string demoS)).Reaches 1 False demoStrs c ∧ Returned c ∧
    (SortSlice demoC (.slice .string demoS)).Reaches 8 True demoStrs c' ∧ Returned c' ∧
    (demoS.view c'.sh.mem).map Cell.bytes = (demoS.view c.sh.mem).map Cell.bytes := by
  obtain ⟨c, h1, h2⟩ := sortJob_returns demoC_ok demoStrs_job demo_depth 1 False
  obtain ⟨c', h3, h4⟩ := sortJob_returns demoC_ok demoStrs_job demo_depth 8 True
  exact ⟨c, c', h1, h2, h3, h4, (C28_bytes_unique demoC_ok rfl demoStrs_typed demo_depth h1 h2).2 8 True c' h3 h4⟩

/-- **C28**, as far as SortLen goes: the sequence of lengths is determined. -/
theorem C28_lengths_unique (hC : C.OK) (ht : t.hasLen = true) (hs : SliceOf C.wordSize t s m)
    (hd : DepthFor C.depth s.len) (hr : (SortLen C (.slice t s)).Reaches M stale m c) (hret : Returned c) :
    ∀ l : List Cell, l.Perm (s.view m) → AscLen l → (s.view c.sh.mem).map Cell.length = l.map Cell.length := by
  obtain ⟨a, p, -⟩ := C06_sortLen hC ht hs hd hr hret
  intro l hl hal
  exact ((p.trans hl.symm).map _).eq_of_pairwise' a hal

example : ∃ c, (SortLen demoC (.slice .string demoS)).Reaches 5 False demoStrs c ∧
    ∀ l : List Cell, l.Perm (demoS.view demoStrs) → AscLen l → (demoS.view c.sh.mem).map Cell.length = l.map Cell.length := by
  obtain ⟨c, h1, h2⟩ := sortJob_returns demoC_ok demoLens_job demo_depth 5 False
  exact ⟨c, h1, C28_lengths_unique demoC_ok rfl demoStrs_typed demo_depth h1 h2⟩

/-- **C33.** Sorting ascending integers changes nothing; sorting again what SortSlice has sorted changes nothing. -/
theorem C33_ints_idempotent (hC : C.OK) (ht : t.signed = true ∨ t.unsigned = true) (hs : SliceOf C.wordSize t s m)
    (hd : DepthFor C.depth s.len) (hr : (SortSlice C (.slice t s)).Reaches M stale m c) (hret : Returned c) :
    (AscNum t.signed (s.view m) → s.view c.sh.mem = s.view m) ∧
    ∀ M' stale' c', (SortSlice C (.slice t s)).Reaches M' stale' c.sh.mem c' → Returned c' → s.view c'.sh.mem = s.view c.sh.mem := by
  have hf : t.float = false := by
    rcases ht with h | h <;> cases t <;> simp [GoType.signed, GoType.unsigned] at h <;> rfl
  have hso : t.sortable = true := by rcases ht with h | h <;> simp [GoType.sortable, h]
  have p := (C02_sortSlice_permutes hC hso hs (by simp [NaNSafe, hf]) hd hr).1 hret
  have a := C01_sortSlice_ints_ascending hC ht hs hd hr hret
  refine ⟨fun h => (C28_ints_unique hC ht hs hd hr hret).1 _ (.refl _) h, fun M' stale' c' hr' hret' => ?_⟩
  exact (C28_ints_unique hC ht (hs.of_perm p) hd hr' hret').1 _ (.refl _) a

example : ∃ c c', (SortSlice demoC (.slice .int64 demoS)).Reaches 5 False demoInts c ∧ Returned c ∧
    (SortSlice demoC (.slice .int64 demoS)).Reaches 5 False c.sh.mem c' ∧ Returned c' ∧ demoS.view c'.sh.mem = demoS.view c.sh.mem := by
  obtain ⟨c, h1, h2⟩ := sortJob_returns demoC_ok demoInts_job demo_depth 5 False
  have p := (C02_sortSlice_permutes demoC_ok rfl demoInts_typed (by simp [NaNSafe, GoType.float]) demo_depth h1).1 h2
  obtain ⟨c', h3, h4⟩ := sortJob_returns demoC_ok
    (.slice .int64 rfl (demoInts_typed.of_perm p) (by simp [NaNSafe, GoType.float])) demo_depth 5 False
  exact ⟨c, c', h1, h2, h3, h4, (C33_ints_idempotent demoC_ok (.inl rfl) demoInts_typed demo_depth h1 h2).2 5 False c' h3 h4⟩

/-- **C33** for strings and byte slices, as byte contents. -/
theorem C33_bytes_idempotent (hC : C.OK) (ht : t.bytes = true) (hs : SliceOf C.wordSize t s m)
    (hd : DepthFor C.depth s.len) (hr : (SortSlice C (.slice t s)).Reaches M stale m c) (hret : Returned c) :
    (AscBytes (s.view m) → (s.view c.sh.mem).map Cell.bytes = (s.view m).map Cell.bytes) ∧
    ∀ M' stale' c', (SortSlice C (.slice t s)).Reaches M' stale' c.sh.mem c' → Returned c' →
      (s.view c'.sh.mem).map Cell.bytes = (s.view c.sh.mem).map Cell.bytes := by
  obtain ⟨a, p⟩ := C03_sortSlice_bytes_ascending hC ht hs hd hr hret
  exact ⟨fun h => (C28_bytes_unique hC ht hs hd hr hret).1 _ (.refl _) h, fun M' stale' c' hr' hret' =>
    (C28_bytes_unique hC ht (hs.of_perm p) hd hr' hret').1 _ (.refl _) a⟩

example : ∃ c, (SortSlice demoC (.slice .string demoS)).Reaches 5 False demoStrs c ∧ Returned c ∧
    ∀ M' stale' c', (SortSlice demoC (.slice .string demoS)).Reaches M' stale' c.sh.mem c' → Returned c' →
      (demoS.view c'.sh.mem).map Cell.bytes = (demoS.view c.sh.mem).map Cell.bytes := by
  obtain ⟨c, h1, h2⟩ := sortJob_returns demoC_ok demoStrs_job demo_depth 5 False
  exact ⟨c, h1, h2, (C33_bytes_idempotent demoC_ok rfl demoStrs_typed demo_depth h1 h2).2⟩

/-- **C29.** An argument that is not a slice of a documented element type makes SortSlice and IsSortedSlice (SortLen and
IsSortedLen) panic at once, in every execution, before any access to memory. -/
theorem C29_others_panic (hC : C.OK) (ar : GoAny) :
    ((∀ t s, ar = .slice t s → t.sortable = false) → (SortSlice C ar).main = .panic ∧ IsSortedSlice C ar = (.panic : Prog Cell (VSp Key) Int)) ∧
    ((∀ t s, ar = .slice t s → t.hasLen = false) → (SortLen C ar).main = .panic ∧ IsSortedLen C ar = (.panic : Prog Cell (VSp Key) Int)) := by
  have hz : sliceFam 0 = none ∧ lenFam 0 = none := by decide
  cases ar with
  | nil => simp [SortSlice, SortLen, IsSortedSlice, IsSortedLen, sortCall, isSortedCall, extractSK]
  | other t => simp [SortSlice, SortLen, IsSortedSlice, IsSortedLen, sortCall, isSortedCall, extractSK, hz]
  | slice t s =>
    refine ⟨fun h => ?_, fun h => ?_⟩
    · have ht := h t s rfl
      have : famOf C.wordSize t = none := by
        cases t <;> simp [GoType.sortable, GoType.signed, GoType.unsigned, GoType.float, GoType.bytes] at ht <;> try rfl
        rename_i t
        cases t <;> simp at ht <;> rfl
      simp [SortSlice, IsSortedSlice, sortCall, isSortedCall, extractSK, sliceFam_elemKind hC.word, this]
    · have ht := h t s rfl
      have : lfamOf t = none := by cases t <;> simp [GoType.hasLen] at ht <;> rfl
      simp [SortLen, IsSortedLen, sortCall, isSortedCall, extractSK, lenFam_elemKind hC.word, this]

example : (SortSlice demoC (.slice .int8 demoS)).main = .panic ∧ (SortLen demoC (.slice .int64 demoS)).main = .panic ∧
    (SortSlice demoC .nil).main = .panic ∧ (SortSlice demoC (.other .string)).main = .panic ∧
    (SortSlice demoC (.slice (.slice .int) demoS)).main = .panic :=
  ⟨((C29_others_panic demoC_ok _).1 (by rintro t s ⟨⟩; rfl)).1, ((C29_others_panic demoC_ok _).2 (by rintro t s ⟨⟩; rfl)).1,
    ((C29_others_panic demoC_ok _).1 (by rintro t s ⟨⟩)).1, ((C29_others_panic demoC_ok _).1 (by rintro t s ⟨⟩)).1,
    ((C29_others_panic demoC_ok _).1 (by rintro t s ⟨⟩; rfl)).1⟩

/-- **C29**, the other direction: a slice of any documented element type is accepted. SortSlice and SortLen return in
every execution (C12) without panic, IsSortedSlice and IsSortedLen answer, and all compare as the element's own type,
signedness and width say: `SortedFor` and `AscLen` know only the Go type. -/
theorem C29_documented_accepted (hC : C.OK) (hs : SliceOf C.wordSize t s m) (hd : DepthFor C.depth s.len) :
    (t.sortable = true → NaNSafe C t (s.view m) →
      (∀ M stale c, (SortSlice C (.slice t s)).Reaches M stale m c → ¬ Wrong c ∧ (Returned c → SortedFor C t (s.view c.sh.mem))) ∧
      (∀ M stale, ∃ c, (SortSlice C (.slice t s)).Reaches M stale m c ∧ Returned c) ∧
      ∃ i, Answers (IsSortedSlice C (.slice t s)) m i) ∧
    (t.hasLen = true →
      (∀ M stale c, (SortLen C (.slice t s)).Reaches M stale m c → ¬ Wrong c ∧ (Returned c → AscLen (s.view c.sh.mem))) ∧
      (∀ M stale, ∃ c, (SortLen C (.slice t s)).Reaches M stale m c ∧ Returned c) ∧
      ∃ i, Answers (IsSortedLen C (.slice t s)) m i) := by
  refine ⟨fun ht hn => ?_, fun ht => ?_⟩
  · have J : SortJob C s m _ _ := .slice t ht hs hn
    refine ⟨fun M stale c hr => ?_, fun M stale => sortJob_returns hC J hd M stale, (C19_isSorted_no_panic hC hs).1 ht⟩
    obtain ⟨S, I, _, _, ts, h⟩ := job_inv hC J hd hr.toE
    exact ⟨h.not_wrong, fun hret => (job_outcome hC J hd hr.toE hret).1⟩
  · have J : SortJob C s m _ _ := .len t ht hs
    refine ⟨fun M stale c hr => ?_, fun M stale => sortJob_returns hC J hd M stale, (C19_isSorted_no_panic hC hs).2 ht⟩
    obtain ⟨S, I, _, _, ts, h⟩ := job_inv hC J hd hr.toE
    exact ⟨h.not_wrong, fun hret => (job_outcome hC J hd hr.toE hret).1⟩

/-- on a 32-bit platform `int` is a 4-byte word, and is accepted -/
example : ∃ c, (SortSlice { demoC with wordSize := 4 } (.slice .int ⟨0, 700⟩)).Reaches 4 False (fun a => .w32 (BitVec.ofNat 32 (7 * a))) c ∧ Returned c := by
  refine ((C29_documented_accepted (C := { demoC with wordSize := 4 }) (t := .int) ⟨demoC_ok.sixb, demoC_ok.init, .inl rfl⟩ ⟨?_, by decide⟩ ?_).1 rfl (by simp [NaNSafe, GoType.float])).2.1 4 False
  · exact demo_view_all fun a => by simp [HasType]
  · show Nat.log2 700 + 2 ≤ 64
    decide

end Sorty
