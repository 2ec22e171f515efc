import Verif.Props.LswAny
import Verif.Props.Count
import Verif.Props.Counter
import Verif.Props.Steps
import Verif.Props.Calm

/-! # What holds of Sort for a comparator of which nothing is known

The other files state properties of Sort for comparators that never say that an index is less than itself. Those that have to do
with goroutines, the channel and the amount of work need not even that: the comparator may answer anything, as in C66. -/

namespace Sorty

open Prog

variable {V : Type} {C : Conf} {s : Slice} {m : Mem V} {M M' : Nat} {stale : Prop} {cmp : Cmp V} {c c' : Cfg V LSp} {tr : List Ev} {n k : Nat}

/-- **C11** for Sort, whatever the comparator answers. -/
theorem C11_any_comparator (hC : C.OK) (hcmp : ∀ i k x y, ∃ b, cmp i k x y b) (hf : FitsInt C.wordSize s.len) (hd : DepthFor C.depth s.len)
    (hr : SortReaches C s cmp M stale m c) (hn : ¬ Returned c) : ∃ c', Step (lswPar C s cmp M stale) c c' := by
  obtain ⟨ts, h⟩ := lsw_reach (lokAny hC hcmp hf) hd hr.toE
  rcases h.progress (lsw_hyp (lokAny hC hcmp hf) m M stale) with h1 | h1
  · exact h1
  · exact absurd (returned_of_all h h1) hn

/-- **C12** for Sort, whatever the comparator answers. -/
theorem C12_any_comparator (hC : C.OK) (hcmp : ∀ i k x y, ∃ b, cmp i k x y b) (hf : FitsInt C.wordSize s.len) (hd : DepthFor C.depth s.len)
    (m : Mem V) (M : Nat) (stale : Prop) :
    (¬ ∃ f : Nat → Cfg V LSp, f 0 = start (SortLsw C s.len s) m ∧ ∀ n, Step (lswPar C s cmp M stale) (f n) (f (n + 1))) ∧
    (∀ c, SortReaches C s cmp M stale m c → (∀ c', ¬ Step (lswPar C s cmp M stale) c c') → Returned c) ∧
    ∃ c, SortReaches C s cmp M stale m c ∧ Returned c :=
  ⟨(C66_sort_unrestricted_comparator hC hcmp hf hd m M stale).1,
    fun c hr => ((C66_sort_unrestricted_comparator hC hcmp hf hd m M stale).2 c hr).1, any_returns hC hcmp hf hd m M stale⟩

/-- **C13** for Sort, whatever the comparator answers. -/
theorem C13_any_comparator (hC : C.OK) (hcmp : ∀ i k x y, ∃ b, cmp i k x y b) (hf : FitsInt C.wordSize s.len)
    (hd : DepthFor C.depth s.len) (hr : SortReaches C s cmp M stale m c) (hret : Returned c) :
    (∀ p ∈ c.ths, p = .ret ()) ∧ ∀ c', ¬ Step (lswPar C s cmp M stale) c c' := by
  obtain ⟨ts, h⟩ := lsw_reach (lokAny hC hcmp hf) hd hr.toE
  have := (h.returned hret).1
  exact ⟨this, fun c' => no_step_ret this⟩

/-- **C14** for Sort, whatever the comparator answers; see `C14_channel_not_mixed`. -/
theorem C14_any_comparator (hC : C.OK) (hcmp : ∀ i k x y, ∃ b, cmp i k x y b) (hf : FitsInt C.wordSize s.len)
    (hd : DepthFor C.depth s.len) {ds : List LSp} (hr : LSteps (lswPar C s cmp M stale) (start (SortLsw C s.len s) m) c ds) :
    (∀ (i : Nat) k, c.ths[i]? = some (.recv k) → i = 0) ∧
    (∀ (i j : Nat) v v' k k', c.ths[i]? = some (Prog.send v k) → c.ths[j]? = some (Prog.send v' k') → i = j) ∧
    (∀ (i j : Nat) l pv h l' pv' h' p p', ds[i]? = some (.part l pv h) → ds[j]? = some (.part l' pv' h') →
      c.ths[i + 1]? = some p → c.ths[j + 1]? = some p' → p ≠ .ret () → p' ≠ .ret () → i = j) ∧
    (∀ k (i : Nat) v k' d, c.ths[0]? = some (.recv k) → c.ths[i + 1]? = some (.send v k') → ds[i]? = some d →
      ((∃ l pv h, d = .part l pv h) ↔ k v ≠ .ret ())) := by
  have hL := lokAny (s := s) hC hcmp hf
  obtain ⟨ts, h, hroles⟩ := Inv.label (lsw_hyp hL m M stale) hr (lsw_start hL hd M stale)
  refine ⟨fun i k hi => h.recv_main hi, fun i j v v' k k' hi hj => ?_, ?_, ?_⟩
  · exact filter_two h.one_sender hi hj rfl rfl
  · intro i j l pv hh l' pv' hh' p p' h1 h2 h3 h4 h5 h6
    exact h.one_part hroles h1 h2 rfl rfl h3 h4 h5 h6
  · intro k i v k' d h1 h2 h3
    rw [← h.channel hroles k i d v k' h1 h2 h3]
    cases d <;> simp [lspecG]

/-- **C15** and **C16** for Sort, whatever the comparator answers. -/
theorem C15_any_comparator (hC : C.OK) (hcmp : ∀ i k x y, ∃ b, cmp i k x y b) (hf : FitsInt C.wordSize s.len)
    (hd : DepthFor C.depth s.len) (hM : M ≤ 1) (hr : SortReaches C s cmp M stale m c) : c.sh.sync = false ∧ c.ths.length = 1 := by
  obtain ⟨ts, h⟩ := lsw_reach (lokAny hC hcmp hf) hd hr.toE
  exact h.nosync_of (.inl hM)

theorem C16_any_comparator (hC : C.OK) (hcmp : ∀ i k x y, ∃ b, cmp i k x y b) (hf : FitsInt C.wordSize s.len)
    (hd : DepthFor C.depth s.len) (hl : s.len < 2 * (C.maxLenRecFC + 1)) (hr : SortReaches C s cmp M stale m c) :
    c.sh.sync = false ∧ c.ths.length = 1 := by
  obtain ⟨ts, h⟩ := lsw_reach (lokAny hC hcmp hf) hd hr.toE
  refine h.nosync_of (.inr ?_)
  simp only [lswIPar, decide_eq_false_iff_not, not_lt]
  omega

/-- **C17, what does hold**, for Sort, whatever the comparator answers. -/
theorem C17_any_comparator_partial (hC : C.OK) (hcmp : ∀ i k x y, ∃ b, cmp i k x y b) (hf : FitsInt C.wordSize s.len)
    (hd : DepthFor C.depth s.len) (hst : ¬ stale) (hr : SortReaches C s cmp M stale m c) :
    working c ≤ max 1 (2 * (M - 1)) ∧ live c ≤ max 1 (2 * M - 1) ∧ (M ≤ 2 → working c ≤ max 1 M) := by
  obtain ⟨ts, h⟩ := lsw_reach (lokAny hC hcmp hf) hd hr.toE
  have hb := h.bounds (P := lswPar C s cmp M stale) hst
  have e : (lswPar C s cmp M stale).M = M := rfl
  rw [e] at hb
  exact ⟨hb.1, hb.2, fun _ => by omega⟩

/-- **C20** for Sort, whatever the comparator answers. -/
theorem C20_any_comparator (hC : C.OK) (hcmp : ∀ i k x y, ∃ b, cmp i k x y b) (hf : FitsInt C.wordSize s.len)
    (hd : C.depth = Nat.log2 s.len + 2) (hr : SortReaches C s cmp M stale m c) : .overflow ∉ c.ths := by
  obtain ⟨ts, h⟩ := lsw_reach (lokAny hC hcmp hf) (by unfold DepthFor; omega) hr.toE
  exact fun hp => h.not_wrong (.inr (.inl hp))

/-- **C43** for Sort, whatever the comparator answers. -/
theorem C43_any_comparator (hC : C.OK) (hcmp : ∀ i k x y, ∃ b, cmp i k x y b) (hf : FitsInt C.wordSize s.len) (hd : DepthFor C.depth s.len)
    (h : Trace (lswPar C s cmp M stale) (start (SortLsw C s.len s) m) tr c) :
    (∀ x ∈ tr, ∃ a w, x = .acc 0 a w) ∨
    ∃ tr₁ tr₂, tr = tr₁ ++ .make 0 :: tr₂ ∧ (∀ x ∈ tr₁, ∃ a w, x = .acc 0 a w) ∧ ∀ x ∈ tr₂, ∀ t, x ≠ .make t := by
  have := Inv.make (lsw_hyp (lokAny hC hcmp hf) m M stale) (lsw_start (lokAny hC hcmp hf) hd M stale) h
  cases hs : c.sh.sync with
  | false => exact .inl (this.before hs)
  | true => exact .inr (this.one hs)

/-- **C44** for Sort, whatever the comparator answers. -/
theorem C44_any_comparator (hC : C.OK) (hcmp : ∀ i k x y, ∃ b, cmp i k x y b) (hf : FitsInt C.wordSize s.len)
    (hd : DepthFor C.depth s.len) {ds : List LSp} (hr : LSteps (lswPar C s cmp M stale) (start (SortLsw C s.len s) m) c ds) :
    (ds ≠ [] → ((ds.filter LSp.sorts).length + 1) * (C.maxLenRecFC + 1) ≤ s.len) ∧
    ∀ (lo hi : Int) f, .long lo hi f ∈ ds → C.maxLenRecFC < hi + 1 - lo ∧ 0 ≤ lo ∧ hi < s.len := by
  have hL := lokAny (s := s) hC hcmp hf
  have H := lsw_hyp hL m M stale
  have h0 := lsw_start (m := m) hL hd M stale
  obtain ⟨ts, h, hroles⟩ := Inv.label H hr h0
  constructor
  · intro hne
    have hs : c.sh.sync = true := by
      by_contra hn
      have h1 := h.nosync (by simpa using hn)
      have h2 := congrArg List.length hroles
      simp only [rolesOf, List.length_map, List.length_cons, h1] at h2
      exact hne (List.eq_nil_of_length_eq_zero (by omega))
    have h1 := h.sorters hroles hs
    rw [show (ds.filter fun d => !(lspecG C s _ _ _).isPart d) = ds.filter LSp.sorts from
      List.filter_congr fun d _ => by cases d <;> rfl] at h1
    exact (Nat.le_div_iff_mul_le (by omega)).1 h1
  · intro lo hi f hm
    obtain ⟨⟨m', h1, h2, h3, _⟩, _⟩ := Inv.started H hr h0 _ hm
    exact ⟨by omega, h1, h2⟩

/-- **C46** for Sort, whatever the comparator answers. -/
theorem C46_any_comparator (hC : C.OK) (hcmp : ∀ i k x y, ∃ b, cmp i k x y b) (hf : FitsInt C.wordSize s.len) (hd : DepthFor C.depth s.len)
    (h : CSteps (lswPar C s cmp M stale) Prog.asks (start (SortLsw C s.len s) m) c n) :
    2 * n ≤ (s.len - 1) * (s.len + 46) := by
  have h1 := sort_metered (lokAny hC hcmp hf) hd h
  unfold qb at h1
  cases hs : s.len with
  | zero => simpa [hs] using h1
  | succ k => rw [hs] at h1; exact h1

/-- **C54** for Sort, whatever the comparator answers. -/
theorem C54_any_comparator (hC : C.OK) (hcmp : ∀ i k x y, ∃ b, cmp i k x y b) (hf : FitsInt C.wordSize s.len) (hd : DepthFor C.depth s.len)
    (h : Trace (lswPar C s cmp M stale) (start (SortLsw C s.len s) m) tr c) {t : Nat} {p : Prog V LSp Unit} (ht : c.ths[t]? = some p)
    (hp : p.usesSync) : ∃ i, tr[i]? = some (.make 0) ∧ KnownTo tr (.gor t) i :=
  Inv.counter (lsw_hyp (lokAny hC hcmp hf) m M stale) (lsw_start (lokAny hC hcmp hf) hd M stale) h ht hp

/-- **C57** for Sort, whatever the comparator answers. -/
theorem C57_any_comparator (hC : C.OK) (hcmp : ∀ i k x y, ∃ b, cmp i k x y b) (hf : FitsInt C.wordSize s.len)
    (hd : DepthFor C.depth s.len) (hst : ¬ stale) (hr : SortReaches C s cmp M stale m c) (hM : M' ≤ 1)
    (h : Steps (lswPar C s cmp M' stale) c c') : c'.ths.length ≤ c.ths.length + live c + 1 := by
  refine calm_bound (P := lswPar C s cmp M stale) (M := M) (fun d hd' => ?_) hst (fun sp => calm_lswBody sp)
    (fun sp => alw_lswBody sp) (alw_sortLsw _) hr hM h
  obtain ⟨ts, hi⟩ := lsw_reach (lokAny hC hcmp hf) hd (SortReaches.toE hd')
  exact ⟨_, _, ts, hi⟩

/-- **C68** for Sort, whatever the comparator answers. -/
theorem C68_any_comparator (hC : C.OK) (hcmp : ∀ i k x y, ∃ b, cmp i k x y b) (hf : FitsInt C.wordSize s.len) (hd : DepthFor C.depth s.len)
    (h : WSteps (lswPar C s cmp M stale) Prog.asks (start (SortLsw C s.len s) m) c n k) :
    n ≤ 17 * k + 4 ∧ 2 * n ≤ 17 * ((s.len - 1) * (s.len + 46)) + 8 := by
  obtain ⟨ts, _, _, h1⟩ := gap_steps (acc := false) (K := 16) (g := 2) (b0 := 4)
    ((leaves_SortLsw C le_rfl (by omega) s.len s 4 le_rfl).mono fun _ _ _ => trivial)
    (fun sp => (leaves_lswBody C le_rfl (by omega) s sp 2 le_rfl).mono fun _ _ _ => trivial) h
  have h2 := C46_any_comparator hC hcmp hf hd h.metered
  exact ⟨by omega, by omega⟩

theorem le_race_reached : ∃ c, SortReaches demoC lwitS leCmp 3 False lwitM c ∧ c.ths.length = 2 ∧ accessing c = 2 ∧ Race c := by
  have h : (run (lswBody demoC lwitS) 3 leAns leSched (start (SortLsw demoC lwitS.len lwitS) lwitM)).map
      (fun c => (c.ths.length, accessing c, nextTwo c)) = some (2, 2, some (602, false), some (602, true)) := by
    decide +kernel
  simp only [Option.map_eq_some_iff, Prod.mk.injEq] at h
  obtain ⟨c, h1, h2, h3, h4⟩ := h
  refine ⟨c, run_sound (P := lswPar demoC lwitS leCmp 3 False) (le_refl 3) (leAns_ok _ _ _) _ h1, h2, h3, ?_⟩
  unfold nextTwo at h4
  simp only [Prod.mk.injEq, Option.bind_eq_some_iff] at h4
  obtain ⟨⟨p, hp, hpa⟩, q, hq, hqa⟩ := h4
  exact ⟨0, 1, p, q, 602, false, true, by decide, hp, hq, hpa, hqa, .inr rfl⟩

/-- All of this applies to `<=` in a state in which two goroutines race. -/
example : ∃ c n k tr ds, SortReaches demoC lwitS leCmp 3 False lwitM c ∧ Race c ∧ (∃ c', Step (lswPar demoC lwitS leCmp 3 False) c c') ∧
    LSteps (lswPar demoC lwitS leCmp 3 False) (start (SortLsw demoC lwitS.len lwitS) lwitM) c ds ∧
    (∀ (i : Nat) k, c.ths[i]? = some (.recv k) → i = 0) ∧ (ds.filter LSp.sorts).length ≤ 3 ∧ working c ≤ 4 ∧
    WSteps (lswPar demoC lwitS leCmp 3 False) Prog.asks (start (SortLsw demoC lwitS.len lwitS) lwitM) c n k ∧ n ≤ 17 * k + 4 ∧
    2 * k ≤ 1203 * 1250 ∧ Trace (lswPar demoC lwitS leCmp 3 False) (start (SortLsw demoC lwitS.len lwitS) lwitM) tr c ∧
    ∃ tr₁ tr₂, tr = tr₁ ++ .make 0 :: tr₂ ∧ (∀ x ∈ tr₁, ∃ a w, x = .acc 0 a w) ∧ ∀ x ∈ tr₂, ∀ t, x ≠ .make t := by
  obtain ⟨c, h1, h2, h3, h4⟩ := le_race_reached
  obtain ⟨n, k, h5⟩ := Steps.counted Prog.asks h1
  obtain ⟨tr, h6⟩ := Steps.trace h1
  obtain ⟨ds, h7⟩ := Steps.label h1
  have hw := (C17_any_comparator_partial demoC_ok le_answers lwit_fits lwit_depth (by simp) h1).1
  have hnr : ¬ Returned c := fun hr => by
    have := (C13_any_comparator demoC_ok le_answers lwit_fits lwit_depth h1 hr).1
    unfold accessing at h3
    rw [List.filter_eq_nil_iff.2 fun p hp => by rw [this p hp]; simp [Prog.access]] at h3
    simp at h3
  refine ⟨c, n, k, tr, ds, h1, h4, C11_any_comparator demoC_ok le_answers lwit_fits lwit_depth h1 hnr, h7,
    (C14_any_comparator demoC_ok le_answers lwit_fits lwit_depth h7).1, ?_, by omega, h5,
    (C68_any_comparator demoC_ok le_answers lwit_fits lwit_depth h5).1, C46_any_comparator demoC_ok le_answers lwit_fits lwit_depth h5.metered, h6,
    (C43_any_comparator demoC_ok le_answers lwit_fits lwit_depth h6).resolve_left fun h => ?_⟩
  · by_cases hd : ds = []
    · subst hd; simp
    · have h8 := (C44_any_comparator demoC_ok le_answers lwit_fits lwit_depth h7).1 hd
      have e : demoC.maxLenRecFC + 1 = 301 := by decide
      have e' : lwitS.len = 1204 := rfl
      rw [e, e'] at h8
      omega
  · have h8 := h6.count
    rw [List.filter_eq_nil_iff.2] at h8
    · simp at h8; omega
    · intro x hx; obtain ⟨a, w, rfl⟩ := h x hx; simp [Ev.isGo]

/-- An execution with `<=` returns: no goroutine is left, and with `MaxGor` = 1 or few elements there never was one. -/
example : (∃ c, SortReaches demoC demoS leCmp 7 True demoDesc c ∧ Returned c ∧ ∀ p ∈ c.ths, p = .ret ()) ∧
    ∃ c, SortReaches demoC demoS leCmp 1 False demoDesc c ∧ Returned c ∧ c.ths.length = 1 := by
  obtain ⟨c, h1, h2⟩ := (C12_any_comparator demoC_ok le_answers demoS_fits demo_depth demoDesc 7 True).2.2
  obtain ⟨c', h3, h4⟩ := (C12_any_comparator demoC_ok le_answers demoS_fits demo_depth demoDesc 1 False).2.2
  exact ⟨⟨c, h1, h2, (C13_any_comparator demoC_ok le_answers demoS_fits demo_depth h1 h2).1⟩, c', h3, h4,
    (C15_any_comparator demoC_ok le_answers demoS_fits demo_depth le_rfl h3).2⟩

end Sorty
