import Verif.Proofs.Search
import Verif.Proofs.SampleOpt
import Verif.Proofs.Mean
import Verif.Props.Conc

/-! # Properties of Search, of sample selection, of means and of the start-up check -/

namespace Sorty

/-- **C26.** `p` monotone on [0,n): `Search` returns the lowest `k` in [0,n) with `p k`, or `n` if there is none. -/
theorem C26_search_boundary (n : Int) (hn : 0 ≤ n) (p : Int → Bool)
    (hp : ∀ k, 0 ≤ k → k + 1 < n → p k = true → p (k + 1) = true) :
    ∃ k calls, Search n (fun k (_ : Unit) => (p k, ())) () = some (k, (), calls) ∧
      (((∃ j, 0 ≤ j ∧ j < n ∧ p j = true) → 0 ≤ k ∧ k < n ∧ p k = true ∧ ∀ j, 0 ≤ j → j < n → p j = true → k ≤ j) ∧
       ((∀ j, 0 ≤ j → j < n → p j = false) → k = n)) := by
  have hp' : ∀ j k, 0 ≤ j → j ≤ k → k < n → p j = true → p k = true := by
    intro j k h0 h1 h2 h3
    obtain ⟨d, rfl⟩ : ∃ d : Nat, k = j + d := ⟨(k - j).toNat, by omega⟩
    induction d with
    | zero => simpa using h3
    | succ d ih =>
      have := hp (j + d) (by omega) (by push_cast at h2; omega) (ih (by omega) (by push_cast at h2; omega))
      rwa [Nat.cast_succ, ← add_assoc]
  obtain ⟨k, calls, e, k0, k1, k2, k3⟩ := searchLoop_bound p n hp' (n.toNat + 1) 0 n [] (by omega) le_rfl hn le_rfl
    (fun j h1 h2 => by omega) (fun h => by omega)
  refine ⟨k, calls, e, ?_, ?_⟩
  · rintro ⟨j, j0, j1, j2⟩
    have hle : ∀ j, 0 ≤ j → j < n → p j = true → k ≤ j := by
      intro j j0 j1 j2
      by_contra hc
      have := k2 j j0 (by omega)
      rw [this] at j2; cases j2
    have := hle j j0 j1 j2
    exact ⟨k0, by omega, k3 (by omega), hle⟩
  · intro h
    by_contra hc
    have := h k k0 (by omega)
    rw [k3 (by omega)] at this
    cases this

/-- C26 applies: squares from 10^9 on, first at 31623 -/
example : ∃ k calls, Search (2 ^ 62) (fun k (_ : Unit) => (decide (1000000000 ≤ k * k), ())) () = some (k, (), calls) ∧ k = 31623 := by
  obtain ⟨k, calls, e, h, _⟩ := C26_search_boundary (2 ^ 62) (by norm_num) (fun k => decide (1000000000 ≤ k * k)) (by
    intro k h0 _ h
    simp only [decide_eq_true_eq] at *
    nlinarith)
  obtain ⟨h1, h2, h3, h4⟩ := h ⟨31623, by norm_num⟩
  refine ⟨k, calls, e, ?_⟩
  have := h4 31623 (by norm_num) (by norm_num) (by norm_num)
  simp only [decide_eq_true_eq] at h3
  nlinarith

/-- **C27.** Whatever `fn` answers (it may have state `σ` and effects on it), `Search` returns; it calls `fn` only with
arguments in [0,n), never twice with the same, at most log2(n)+1 times; the result is in [0,n]. For `n` ≤ 0 it calls
nothing and returns 0. -/
theorem C27_search_safe {σ : Type} (n : Int) (fn : Int → σ → Bool × σ) (st : σ) :
    ∃ k st' calls, Search n fn st = some (k, st', calls) ∧
      (0 ≤ n → 0 ≤ k ∧ k ≤ n) ∧ (∀ a ∈ calls, 0 ≤ a ∧ a < n) ∧ calls.Nodup ∧
      (0 < n → calls.length ≤ Nat.log2 n.toNat + 1) ∧ (n ≤ 0 → calls = [] ∧ k = 0 ∧ st' = st) := by
  obtain ⟨k, st', cs, e, h1, h2, h3, h4, h5, h6⟩ := searchLoop_safe fn (n.toNat + 1) 0 n st [] (by omega)
  refine ⟨k, st', cs, e, fun h => ⟨h1, h2 h⟩, h4, h5, fun h => ?_, fun h => ?_⟩
  · simpa using h6 h
  · obtain ⟨a, b, c⟩ := h3 h; exact ⟨b, a, c⟩

/-- C27 applies to a callback with answers that alternate with each call -/
example : ∃ k st' calls, Search 1000 (fun _ (b : Bool) => (b, !b)) true = some (k, st', calls) ∧ calls.length ≤ 10 ∧ 0 < calls.length := by
  obtain ⟨k, st', calls, e, h1, h2, h3, h4, h5⟩ := C27_search_safe 1000 (fun _ (b : Bool) => (b, !b)) true
  refine ⟨k, st', calls, e, (h4 (by norm_num)).trans (by decide), ?_⟩
  have : Search 1000 (fun _ (b : Bool) => (b, !b)) true = some (335, true, [500, 250, 375, 313, 344, 329, 337, 333, 335, 334]) := by decide
  rw [this] at e
  simp only [Option.some.injEq, Prod.mk.injEq] at e
  rw [← e.2.2]; decide

/-- **C27, the calls are those the callback sees.** A callback that records its arguments in its own state has recorded
exactly the list of calls of `C27_search_safe`. -/
theorem C27_calls_are_observable {τ : Type} (n : Int) (f : Int → τ → Bool × τ) (st : τ) {k : Int} {st' : τ × List Int}
    {calls : List Int}
    (h : Search n (fun k (s : τ × List Int) => ((f k s.1).1, (f k s.1).2, s.2 ++ [k])) (st, []) = some (k, st', calls)) :
    st'.2 = calls := searchLoop_log f _ _ _ _ _ _ _ _ h

example : ∃ k st' calls, Search 1000 (fun k (s : Bool × List Int) => (s.1, !s.1, s.2 ++ [k])) (true, []) = some (k, st', calls) ∧
    st'.2 = calls := by
  obtain ⟨k, st', calls, e, _⟩ := C27_search_safe 1000 (fun k (s : Bool × List Int) => (s.1, !s.1, s.2 ++ [k])) (true, [])
  exact ⟨k, st', calls, e, C27_calls_are_observable 1000 (fun _ (b : Bool) => (b, !b)) true e⟩

/-- **C30.** `n` ≥ 2 samples of at least 2n elements: the positions first, first+step, ..., last are in range, step ≥ 2,
the tails differ by at most one, no other choice of `n` equidistant positions covers the range with a smaller maximal
distance, and computing with machine words of any width gives the same numbers (nothing wraps). -/
theorem C30_samples_optimal {w : Nat} (slen n : BitVec w) (hn : 2 ≤ n.toNat) (hs : 2 * n.toNat ≤ slen.toNat) :
    ∃ first step last : Nat, (minMaxSampleW slen n).1.toNat = first ∧ (minMaxSampleW slen n).2.1.toNat = step ∧
      (minMaxSampleW slen n).2.2.toNat = last ∧
      last = first + (n.toNat - 1) * step ∧ last < slen.toNat ∧ 2 ≤ step ∧
      (first = slen.toNat - 1 - last ∨ first = slen.toNat - 1 - last + 1) ∧
      ∀ a t D, a + (n.toNat - 1) * t < slen.toNat → Covers slen.toNat n.toNat a t D →
        Covers slen.toNat n.toNat first step D := by
  obtain ⟨e1, e2, e3⟩ := minMaxSampleW_toNat slen n hn hs
  obtain ⟨b1, b2, b3⟩ := minMaxSample_bounds hn hs
  obtain ⟨r1, r2, r3⟩ := sample_radius hn hs
  exact ⟨_, _, _, e1, e2, e3, b2, b3, b1, by omega, sample_optimal hn hs⟩

/-- C30 applies: seven of a million positions, 64-bit words; every position is within 71429 of a sample -/
example : (minMaxSampleW (1000000 : BitVec 64) 7).1.toNat = 71429 ∧ (minMaxSampleW (1000000 : BitVec 64) 7).2.1.toNat = 142857 ∧
    (minMaxSampleW (1000000 : BitVec 64) 7).2.2.toNat < 1000000 := by
  obtain ⟨f, st, l, e1, e2, e3, h1, h2, _⟩ := C30_samples_optimal (1000000 : BitVec 64) 7 (by decide) (by decide)
  exact ⟨by decide, by decide, by rw [e3]; exact h2⟩

/-- **C31.** For every 32-bit length from 8 on, the four-sample shortcut gives the same first position and step as the
general selection, and its last position is in range. -/
theorem C31_four_samples (slen : UInt32) (h : 8 ≤ slen.toNat) :
    (minMaxFour slen).1.toNat = (minMaxSampleW slen.toBitVec 4).1.toNat ∧
    (minMaxFour slen).2.toNat = (minMaxSampleW slen.toBitVec 4).2.1.toNat ∧
    (minMaxFour slen).1.toNat + 3 * (minMaxFour slen).2.toNat < slen.toNat := by
  have e := minMaxSampleW_toNat slen.toBitVec 4 (by decide) (by simpa using h)
  have hlt := slen.toNat_lt
  have h4 := minMaxFour_eq h hlt
  have hb := minMaxFour_bounds h hlt
  rw [UInt32.ofNat_toNat] at h4 hb
  exact ⟨h4.1.trans e.1.symm, h4.2.trans e.2.1.symm, hb.2⟩

/-- C31 at a length where the table entry wraps (599 % 8 = 7 does not, 602 % 8 = 2 does) -/
example : (minMaxFour 602).1.toNat = 74 ∧ (minMaxFour 602).2.toNat = 151 := by
  obtain ⟨h1, h2, _⟩ := C31_four_samples 602 (by decide)
  rw [h1, h2]; decide

/-- **C38.** `x&y + (x^y)>>1` on machine words of any width is the floor of the exact mean, hence between `x` and `y`,
for signed and for unsigned numbers. -/
theorem C38_means {w : Nat} (x y : BitVec w) :
    (meanBitsS x y).toInt = (x.toInt + y.toInt) / 2 ∧ (meanBitsU x y).toNat = (x.toNat + y.toNat) / 2 ∧
    min x.toInt y.toInt ≤ (meanBitsS x y).toInt ∧ (meanBitsS x y).toInt ≤ max x.toInt y.toInt ∧
    min x.toNat y.toNat ≤ (meanBitsU x y).toNat ∧ (meanBitsU x y).toNat ≤ max x.toNat y.toNat := by
  rw [meanBitsS_toInt, meanBitsU_toNat]
  omega

/-- C38 where `x + y` overflows -/
example : (meanBitsS (0x7fffffff : BitVec 32) 0x7ffffffd).toInt = 0x7ffffffe := by
  rw [(C38_means _ _).1]; decide

/-- **C37, defaults.** The default thresholds pass the start-up check for every `MaxGor` from 1 to 4096. -/
theorem C37_default_tuning_accepted (maxGor : Nat) (h1 : 0 < maxGor) (h2 : maxGor < 4097) (E : Sixb) (d : Nat) :
    initOK maxGor (Conf.default E d).maxLenRec (Conf.default E d).maxLenRecFC (Conf.default E d).maxLenIns
      (Conf.default E d).maxLenInsFC = true := by
  have : nsShort = 4 := rfl
  simp [initOK, Conf.default]
  omega

example : initOK 3 (Conf.default Sixb.bits 64).maxLenRec 300 60 30 = true := C37_default_tuning_accepted 3 (by decide) (by decide) Sixb.bits 64

/-- **C37, index arithmetic on unbounded integers.** Whatever thresholds pass the start-up check (whatever `NaNoption` is, on
32-bit and 64-bit platforms), a documented call of SortSlice or SortLen has no infinite execution, never panics, runs out of stack or races, gets stuck
only by returning, and then the slice is sorted and has the original elements. Missing from the full property:
`2*(MaxLenRec+1)` may be no `int`, see `C37_every_accepted_tuning_partial` and `C37_huge_tuning_violated`. -/
theorem C37_exact_arithmetic_partial (E : Sixb) (hE : E.OK) (maxGor maxLenIns maxLenInsFC maxLenRec maxLenRecFC : Nat)
    (hinit : initOK maxGor maxLenRec maxLenRecFC maxLenIns maxLenInsFC = true) (nanOption : Int) (ws depth : Nat)
    (hw : ws = 4 ∨ ws = 8) {s : Slice} {m : Mem Cell} {call : Call} {sorted : List Cell → Prop}
    (J : SortJob ⟨E, maxLenIns, maxLenInsFC, maxLenRec, maxLenRecFC, nanOption, ws, depth⟩ s m call sorted)
    (hd : DepthFor depth s.len) (M : Nat) (stale : Prop) :
    (¬ ∃ f : Nat → Cfg Cell (VSp Key), f 0 = start call.main m ∧ ∀ n, Step (call.par M stale) (f n) (f (n + 1))) ∧
    ∀ c, call.Reaches M stale m c → ¬ Race c ∧ .panic ∉ c.ths ∧ .overflow ∉ c.ths ∧
      ((∀ c', ¬ Step (call.par M stale) c c') → Returned c) ∧
      (Returned c → sorted (s.view c.sh.mem) ∧ (s.view c.sh.mem).Perm (s.view m)) := by
  have hC : (⟨E, maxLenIns, maxLenInsFC, maxLenRec, maxLenRecFC, nanOption, ws, depth⟩ : Conf).OK := ⟨hE, ⟨_, hinit⟩, hw⟩
  have ht := C12_terminates hC J hd M stale
  refine ⟨ht.1, fun c hr => ⟨C09_no_race hC J hd hr, (C19_no_panic hC J hd hr).1, ?_, ht.2.1 c hr,
    fun hret => job_outcome hC J hd hr.toE hret⟩⟩
  obtain ⟨S, I, _, _, ts, h⟩ := job_inv hC J hd hr.toE
  exact fun hp => h.not_wrong (.inr (.inl hp))

/-- C37 applies to 3000 integers with the smallest accepted thresholds -/
example : ∃ c, (SortSlice ⟨demoC.sixb, 10, 9, 22, 21, 0, 8, 64⟩ (.slice .int64 demoS)).Reaches 3 True demoInts c ∧ Returned c ∧
    AscNum (GoType.signed .int64) (demoS.view c.sh.mem) := by
  have J : SortJob ⟨demoC.sixb, 10, 9, 22, 21, 0, 8, 64⟩ demoS demoInts _ _ :=
    .slice .int64 rfl ⟨demoInts_typed.1, demoInts_typed.2⟩ (by simp [NaNSafe, GoType.float])
  obtain ⟨c, h1, h2⟩ := sortJob_returns (C := ⟨demoC.sixb, 10, 9, 22, 21, 0, 8, 64⟩) ⟨demoC_ok.sixb, ⟨1, by decide⟩, .inr rfl⟩ J demo_depth 3 True
  exact ⟨c, h1, h2, (((C37_exact_arithmetic_partial demoC.sixb demoC_ok.sixb 1 10 9 22 21 (by decide) 0 8 64 (.inr rfl) J demo_depth 3 True).2 c
    h1).2.2.2.2 h2).1⟩

/-- C37 applies with the smallest accepted thresholds and with a huge recursion threshold -/
example : initOK 1 22 21 10 9 = true ∧ initOK 1 (2 ^ 40) 21 10 9 = true := by decide

end Sorty
