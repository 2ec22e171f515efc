import Verif.Props.Conc
import Verif.Props.Lsw
import Verif.Logic.Count

/-! # How many goroutines a call starts in total

`LSteps … c ds` is an execution to `c` in which the goroutines were started, in this order, as `ds` says: `.long` to sort
a range, `.part` to partition one.
-/

namespace Sorty

variable {C : Conf} {t : GoType} {s : Slice} {m : Mem Cell} {M : Nat} {stale : Prop} {c : Cfg Cell (VSp Key)}

/-- Is the goroutine one that sorts a range (and not one that partitions)? -/
def VSp.sorts {κ : Type} : VSp κ → Bool
  | .long .. => true
  | .part .. => false

/-- Is the goroutine one that sorts a range (and not one that partitions)? -/
def LSp.sorts : LSp → Bool
  | .long .. => true
  | .part .. => false

theorem rng_sub_le {a b : Slice} (h : a.rng ⊆ b.rng) (ha : 0 < a.len) : b.off ≤ a.off ∧ a.off + a.len ≤ b.off + b.len := by
  have h1 := h (show a.off ∈ a.rng from ⟨le_rfl, by omega⟩)
  have h2 := h (show a.off + a.len - 1 ∈ a.rng from ⟨by omega, by omega⟩)
  have h1' : b.off ≤ a.off ∧ a.off < b.off + b.len := h1
  have h2' : b.off ≤ a.off + a.len - 1 ∧ a.off + a.len - 1 < b.off + b.len := h2
  omega

theorem fam_count {C : Conf} (hC : C.OK) {id : FamId} (hl : s.len < 2 ^ 63) (hd : DepthFor C.depth s.len)
    (hok : ∀ a ∈ s.rng, Accept C id (m a)) {ds : List (VSp Key)}
    (hr : LSteps ((famCall C id s).par M stale) (start (famCall C id s).main m) c ds) :
    (ds ≠ [] → ((ds.filter VSp.sorts).length + 1) * ((fam C id).maxRec + 1) ≤ s.len) ∧
    ∀ ar f, .long ar f ∈ ds → (fam C id).maxRec < ar.len ∧ s.off ≤ ar.off ∧ ar.off + ar.len ≤ s.off + s.len := by
  have H := call_hyp hC id m hl M stale
  have h0 := call_start hC id hd hok M stale
  obtain ⟨ts, h, hroles⟩ := Inv.label H hr h0
  constructor
  · intro hne
    have hs : c.sh.sync = true := by
      by_contra hn
      have h1 := h.nosync (by simpa using hn)
      have h2 := congrArg List.length hroles
      simp only [rolesOf, List.length_map, List.length_cons, h1] at h2
      exact hne (List.eq_nil_of_length_eq_zero (by omega))
    have h1 := h.sorters hroles hs
    have e : (ds.filter fun d => !(vspec (fam C id) (okOf id) (rkOf id) C.depth).isPart d) = ds.filter VSp.sorts :=
      List.filter_congr fun d _ => by cases d <;> rfl
    rw [e] at h1
    exact (Nat.le_div_iff_mul_le (by omega)).1 h1
  · intro ar f hm
    obtain ⟨⟨m', h1, _⟩, h2, _⟩ := Inv.started H hr h0 _ hm
    exact ⟨h1, rng_sub_le h2 (by omega)⟩

/-- **C44.** SortSlice starts, in total over the whole execution, fewer than len/(MaxLenRec+1) goroutines to sort ranges
(MaxLenRecFC for strings and byte slices), whatever `MaxGor` does; and each of them gets a range inside the slice with
more than MaxLenRec elements. -/
theorem C44_started_goroutines (hC : C.OK) (ht : t.sortable = true) (hs : SliceOf C.wordSize t s m)
    (hn : NaNSafe C t (s.view m)) (hd : DepthFor C.depth s.len) {ds : List (VSp Key)}
    (hr : LSteps ((SortSlice C (.slice t s)).par M stale) (start (SortSlice C (.slice t s)).main m) c ds) :
    (ds ≠ [] → ((ds.filter VSp.sorts).length + 1) * ((if t.bytes then C.maxLenRecFC else C.maxLenRec) + 1) ≤ s.len) ∧
    ∀ ar f, .long ar f ∈ ds → (if t.bytes then C.maxLenRecFC else C.maxLenRec) < ar.len ∧
      s.off ≤ ar.off ∧ ar.off + ar.len ≤ s.off + s.len := by
  obtain ⟨id, h⟩ := famOf_of_sortable (ws := C.wordSize) ht
  rw [sortSlice_eq hC h] at hr
  have := fam_count hC hs.len hd (accept_slice h hs hn) hr
  rwa [fam_maxRec (C := C) h] at this

/-- **C44.** The same for SortLen. -/
theorem C44_sortLen_started_goroutines (hC : C.OK) (ht : t.hasLen = true) (hs : SliceOf C.wordSize t s m)
    (hd : DepthFor C.depth s.len) {ds : List (VSp Key)}
    (hr : LSteps ((SortLen C (.slice t s)).par M stale) (start (SortLen C (.slice t s)).main m) c ds) :
    (ds ≠ [] → ((ds.filter VSp.sorts).length + 1) * (C.maxLenRec + 1) ≤ s.len) ∧
    ∀ ar f, .long ar f ∈ ds → C.maxLenRec < ar.len ∧ s.off ≤ ar.off ∧ ar.off + ar.len ≤ s.off + s.len := by
  obtain ⟨id, h⟩ := lfamOf_of_hasLen ht
  rw [sortLen_eq hC h] at hr
  have := fam_count hC hs.len hd (fun a ha => .inl (cok_of_len h (view_all.1 hs.elems a ha))) hr
  rwa [lfam_maxRec (C := C) h] at this

/-- C44 applies to an execution in which at least three goroutines are started -/
example : ∃ c ds, LSteps (witCall.par 3 False) (start witCall.main witM) c ds ∧ 3 ≤ ds.length ∧
    (ds.filter VSp.sorts).length ≤ 3 := by
  obtain ⟨c, h1, h2⟩ := wit_reaches
  obtain ⟨ds, h3⟩ := Steps.label h1
  have hl := h3.length
  have h4 : accessing c ≤ c.ths.length := List.length_filter_le ..
  simp only [Sorty.start, List.length_cons, List.length_nil] at hl
  have h5 := (C44_started_goroutines demoC_ok rfl witS_typed (by simp [NaNSafe, GoType.float]) wit_depth h3).1
    (by rintro rfl; simp at hl; omega)
  refine ⟨c, ds, h3, by omega, ?_⟩
  have e : (if GoType.int64.bytes then demoC.maxLenRecFC else demoC.maxLenRec) + 1 = 601 := by decide
  have e' : witS.len = 2404 := rfl
  rw [e, e'] at h5
  omega

/-- C44 for strings: of the 3000 demo strings fewer than five goroutines sort ranges -/
example : ∃ c ds, LSteps ((SortLen demoC (.slice .string demoS)).par 7 False) (start (SortLen demoC (.slice .string demoS)).main demoStrs) c ds ∧
    Returned c ∧ (ds.filter VSp.sorts).length < 5 := by
  obtain ⟨c, h1, h2⟩ := sortJob_returns demoC_ok (.len .string rfl demoStrs_typed) demo_depth 7 False
  obtain ⟨ds, h3⟩ := Steps.label h1
  refine ⟨c, ds, h3, h2, ?_⟩
  by_cases hd : ds = []
  · subst hd; simp
  · have h5 := (C44_sortLen_started_goroutines demoC_ok rfl demoStrs_typed demo_depth h3).1 hd
    have e : demoC.maxLenRec + 1 = 601 := by decide
    have e' : demoS.len = 3000 := rfl
    rw [e, e'] at h5
    omega

section Lsw
variable {V : Type} {s : Slice} {m : Mem V} {c : Cfg V LSp} {cmp : Nat → Nat → V → V → Bool → Prop}

/-- **C44** for Sort: fewer than n/(MaxLenRecFC+1) goroutines in total that sort ranges; each gets a range inside 0..n-1
with more than MaxLenRecFC elements. -/
theorem C44_sort_started_goroutines (hC : C.OK) (hcmp : Tame cmp) (hf : FitsInt C.wordSize s.len)
    (hd : DepthFor C.depth s.len) {ds : List LSp} (hr : LSteps (lswPar C s cmp M stale) (start (SortLsw C s.len s) m) c ds) :
    (ds ≠ [] → ((ds.filter LSp.sorts).length + 1) * (C.maxLenRecFC + 1) ≤ s.len) ∧
    ∀ (lo hi : Int) f, .long lo hi f ∈ ds → C.maxLenRecFC < hi + 1 - lo ∧ 0 ≤ lo ∧ hi < s.len := by
  have hL := lok (s := s) hC hcmp.ok hf
  have H := lsw_hyp hL m M stale
  have h0 := lsw_start (m := m) hL hd M stale
  obtain ⟨ts, h, hroles⟩ := Inv.label H hr h0
  constructor
  · intro hne
    have hs : c.sh.sync = true := by
      by_contra hn
      have h1 := h.nosync (by simpa using hn)
      have h2 := congrArg List.length hroles
      simp only [rolesOf, List.length_map, List.length_cons, h1] at h2
      exact hne (List.eq_nil_of_length_eq_zero (by omega))
    have h1 := h.sorters hroles hs
    rw [show (ds.filter fun d => !(lspec C s _ _).isPart d) = ds.filter LSp.sorts from
      List.filter_congr fun d _ => by cases d <;> rfl] at h1
    exact (Nat.le_div_iff_mul_le (by omega)).1 h1
  · intro lo hi f hm
    obtain ⟨⟨m', h1, h2, h3, _⟩, _⟩ := Inv.started H hr h0 _ hm
    exact ⟨by omega, h1, h2⟩

/-- C44 applies to an execution in which at least three goroutines are started; at most three of them sort -/
example : ∃ c ds, LSteps (lswPar demoC lwitS ltCmp 3 False) (start (SortLsw demoC lwitS.len lwitS) lwitM) c ds ∧
    3 ≤ ds.length ∧ (ds.filter LSp.sorts).length ≤ 3 := by
  obtain ⟨c, h1, h2⟩ := lwit_reaches
  obtain ⟨ds, h3⟩ := Steps.label h1
  have hl := h3.length
  have h4 : accessing c ≤ c.ths.length := List.length_filter_le ..
  simp only [Sorty.start, List.length_cons, List.length_nil] at hl
  have h5 := (C44_sort_started_goroutines demoC_ok lt_strictWeak.tame lwit_fits lwit_depth h3).1
    (by rintro rfl; simp at hl; omega)
  refine ⟨c, ds, h3, by omega, ?_⟩
  have e : demoC.maxLenRecFC + 1 = 301 := by decide
  have e' : lwitS.len = 1204 := rfl
  rw [e, e'] at h5
  omega

end Lsw

end Sorty
