import Verif.Logic.Eval

/-! # Many goroutines at once

If goroutines with long ranges can be halted between the test of the quota and the start of a goroutine, all of them can pass the
test before any of them starts a goroutine. -/

namespace Sorty

open Prog Classical

variable {V Sp : Type} {P : Par V Sp} {m : Mem V}

/-- about to be counted and to start a goroutine, after which it and the new goroutine satisfy `S` -/
def Parked (P : Par V Sp) (S : Prog V Sp Unit → Prop) (p : Prog V Sp Unit) : Prop :=
  ∃ sp q, p = .incGor (fun _ => .go sp q) ∧ S q ∧ S (P.body sp)

/-- `S L p`: goroutine `p` has a range that can be halved `L` times -/
structure Splits (P : Par V Sp) (m : Mem V) (S : Nat → Prog V Sp Unit → Prop) : Prop where
  park : ∀ (sh : Sh V) L p l₁ l₂, sh.mem = m → sh.sync = true → sh.nGor < P.M → S (L + 1) p →
    ∃ q e, Parked P (S L) q ∧ HighSteps P P.M ⟨sh, l₁ ++ p :: l₂⟩ ⟨sh, l₁ ++ q :: (l₂ ++ e)⟩
  mono : ∀ L p, S (L + 1) p → S L p
  busy : ∀ L p, S L p → (!p.isRet && !p.isRecv) = true

variable {S : Nat → Prog V Sp Unit → Prop}

theorem Parked.release {T : Prog V Sp Unit → Prop} {q : Prog V Sp Unit} (h : Parked P T q) (sh : Sh V) (hs : sh.sync = true) {t : Nat} (ht : sh.nGor = t)
    (h64 : t + 1 < 2 ^ 64) (l₁ l₂ : List (Prog V Sp Unit)) :
    ∃ q' b, T q' ∧ T b ∧ HighSteps P P.M ⟨sh, l₁ ++ q :: l₂⟩ ⟨{ sh with nGor := t + 1 }, l₁ ++ q' :: (l₂ ++ [b])⟩ := by
  obtain ⟨sp, q', rfl, h1, h2⟩ := h
  refine ⟨q', P.body sp, h1, h2, ?_⟩
  have h3 := HighSteps.one (L := P.M) l₁ l₂ (TStep.incGor (P := P) sh (fun _ => .go sp q') hs) nofun
  have e : (sh.nGor + 1) % 2 ^ 64 = t + 1 := by rw [ht]; exact Nat.mod_eq_of_lt h64
  rw [e] at h3
  have h4 := HighSteps.one (P := P) (L := P.M) l₁ l₂ (.go { sh with nGor := t + 1 } sp q') nofun
  simp only [List.append_nil] at h3
  have h5 := h3.trans h4
  simpa using h5

theorem Splits.round (h : Splits P m S) (sh : Sh V) (hm : sh.mem = m) (hs : sh.sync = true) {t L : Nat} (ht : sh.nGor = t) (hM : t < P.M)
    (l₂ : List (Prog V Sp Unit)) : ∀ (l₁ e : List (Prog V Sp Unit)) (u : Nat), u ≤ l₂.countP (fun p => S (L + 1) p) → t + u < 2 ^ 64 →
      ∃ l₃, HighSteps P P.M ⟨sh, l₁ ++ l₂ ++ e⟩ ⟨{ sh with nGor := t + u }, l₁ ++ l₃⟩ ∧
        l₂.countP (fun p => S (L + 1) p) + u ≤ l₃.countP (fun p => S L p) := by
  have e0 : { sh with nGor := t + 0 } = sh := by subst ht; rfl
  induction l₂ with
  | nil =>
    intro l₁ e u hu _
    obtain rfl : u = 0 := by simpa using hu
    refine ⟨e, ?_, by simp⟩
    rw [e0, List.append_nil]
    exact .refl _
  | cons p l₂ ih =>
    intro l₁ e u hu h64
    by_cases hp : S (L + 1) p
    · rcases Nat.eq_zero_or_pos u with rfl | hu0
      · obtain ⟨l₃, h1, h2⟩ := ih (l₁ ++ [p]) e 0 (Nat.zero_le _) h64
        refine ⟨p :: l₃, by simpa using h1, ?_⟩
        simp only [List.countP_cons, hp, h.mono L p hp, decide_true, if_true]
        omega
      · obtain ⟨u, rfl⟩ : ∃ u', u = u' + 1 := ⟨u - 1, by omega⟩
        obtain ⟨q, e', hq, h3⟩ := h.park sh L p l₁ (l₂ ++ e) hm hs (by omega) hp
        obtain ⟨l₃, h1, h2⟩ := ih (l₁ ++ [q]) (e ++ e') u (by simpa [List.countP_cons, hp] using hu) (by omega)
        obtain ⟨q', b, h4, h5, h6⟩ := hq.release { sh with nGor := t + u } hs rfl (by omega) l₁ l₃
        refine ⟨q' :: (l₃ ++ [b]), HighSteps.trans (by simpa using h3) (HighSteps.trans (by simpa using h1) h6), ?_⟩
        simp only [List.countP_cons, List.countP_append, List.countP_nil, hp, h4, h5, decide_true, if_true]
        omega
    · have e2 : List.countP (fun p => decide (S (L + 1) p)) (p :: l₂) = List.countP (fun p => decide (S (L + 1) p)) l₂ := by
        simp [hp]
      rw [e2] at hu ⊢
      obtain ⟨l₃, h1, h2⟩ := ih (l₁ ++ [p]) e u hu h64
      refine ⟨p :: l₃, by simpa using h1, ?_⟩
      rw [List.countP_cons]
      omega

theorem Splits.mono' (h : Splits P m S) {L j : Nat} {p : Prog V Sp Unit} (hp : S (L + j) p) : S L p := by
  induction j with
  | zero => exact hp
  | succ j ih => exact ih (h.mono _ _ hp)

/-- from two goroutines to `t` -/
theorem Splits.crowd (h : Splits P m S) (hM2 : 2 ≤ P.M) (h64 : 2 * (P.M - 1) < 2 ^ 64) {sh : Sh V} (hm : sh.mem = m) (hs : sh.sync = true) (h2 : sh.nGor = 2)
    {ths : List (Prog V Sp Unit)} : ∀ (j L t : Nat), 2 ≤ ths.countP (fun p => S (L + j) p) → 2 ≤ t → t ≤ 2 ^ (j + 1) → t ≤ 2 * (P.M - 1) →
      ∃ ths', HighSteps P P.M ⟨sh, ths⟩ ⟨{ sh with nGor := t }, ths'⟩ ∧ t ≤ ths'.countP (fun p => S L p) := by
  intro j
  induction j with
  | zero =>
    intro L t h3 h4 h5 _
    obtain rfl : t = 2 := by omega
    refine ⟨ths, ?_, by simpa using h3⟩
    rw [← h2]
    exact .refl _
  | succ j ih =>
    intro L t h3 h4 h5 h6
    rcases Nat.eq_or_lt_of_le h4 with rfl | h4
    · refine ⟨ths, ?_, Nat.le_trans h3 (List.countP_mono_left fun p _ hp => ?_)⟩
      · rw [← h2]
        exact .refl _
      · simp only [decide_eq_true_eq] at hp ⊢
        exact h.mono' hp
    · have e : L + 1 + j = L + (j + 1) := by omega
      obtain ⟨l, h7, h8⟩ := ih (L + 1) ((t + 1) / 2) (by rw [e]; exact h3) (by omega) (by rw [Nat.pow_succ] at h5; omega) (by omega)
      obtain ⟨l', h9, h10⟩ := h.round { sh with nGor := (t + 1) / 2 } hm hs (t := (t + 1) / 2) (L := L) rfl (by omega) l [] [] (t - (t + 1) / 2) (by omega) (by omega)
      have e2 : (t + 1) / 2 + (t - (t + 1) / 2) = t := by omega
      rw [e2] at h9
      exact ⟨l', h7.trans (by simpa using h9), by omega⟩

theorem Splits.working (h : Splits P m S) {sh : Sh V} {ths : List (Prog V Sp Unit)} {L : Nat} :
    ths.countP (fun p => S L p) ≤ working ⟨sh, ths⟩ := by
  rw [Sorty.working, ← List.countP_eq_length_filter]
  exact List.countP_mono_left fun p _ hp => h.busy L p (by simpa using hp)

end Sorty
