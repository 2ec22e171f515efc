import Verif.Proofs.LswPivot
import Verif.Proofs.LswJob

/-! # Calls of `Sort` that cannot but panic -/

namespace Sorty

open Prog

variable {V Sp α β : Type} {ρ : Type} [LinearOrder ρ]
variable {cmp : Nat → Nat → V → V → Bool → Prop} {W R : Set Nat} {r : V → ρ} {M : Nat}

/-- whatever the comparator answers and `MaxGor` is, `p` gets to a panic -/
def Dies (cmp : Nat → Nat → V → V → Bool → Prop) (M : Nat) : Prog V Sp α → Mem V → Prop
  | .read i k, m => Dies cmp M (k (m i)) m
  | .write i v k, m => Dies cmp M k (Function.update m i v)
  | .less i j x y k, m => (∃ b, cmp i j x y b) ∧ ∀ b, cmp i j x y b → Dies cmp M (k b) m
  | .maxGor k, m => ∀ n ≤ M, Dies cmp M (k n) m
  | .mkSync k, m => Dies cmp M k m
  | .panic, _ => True
  | _, _ => False

theorem Dies.bind {p : Prog V Sp α} {f : α → Prog V Sp β} : ∀ {m}, Dies cmp M p m → Dies cmp M (p >>= f) m := by
  show ∀ {m}, Dies cmp M p m → Dies cmp M (p.bind f) m
  induction p with
  | read i k ih => intro m h; exact ih _ h
  | write i v k ih => intro m h; exact ih h
  | less i j x y k ih => intro m h; exact ⟨h.1, fun b hb => ih b (h.2 b hb)⟩
  | maxGor k ih => intro m h; exact fun n hn => ih n (h n hn)
  | mkSync k ih => intro m h; exact ih h
  | panic => intro m _; trivial
  | _ => intro m h; exact h.elim

theorem Dies.seq {p : Prog V Sp α} {f : α → Prog V Sp β} : ∀ {m} {Q : α → Mem V → Prop}, swp cmp W R p m Q →
    (∀ a m', Q a m' → Dies cmp M (f a) m') → Dies cmp M (p >>= f) m := by
  show ∀ {m} {Q : α → Mem V → Prop}, swp cmp W R p m Q → (∀ a m', Q a m' → Dies cmp M (f a) m') → Dies cmp M (p.bind f) m
  induction p with
  | ret a => intro m Q h hf; exact hf _ _ h
  | read i k ih => intro m Q h hf; exact ih _ h.2 hf
  | write i v k ih => intro m Q h hf; exact ih h.2 hf
  | less i j x y k ih => intro m Q h hf; exact ⟨h.1, fun b hb => ih b (h.2 b hb) hf⟩
  | _ => intro m Q h; exact h.elim

/-- a doomed single goroutine stays doomed -/
theorem Dies.step {P : Par V Sp} {p : Prog V Sp Unit} {sh : Sh V} {c : Cfg V Sp} (h : Dies P.cmp P.M p sh.mem) (hs : Step P ⟨sh, [p]⟩ c) :
    ∃ sh' p', c = ⟨sh', [p']⟩ ∧ Dies P.cmp P.M p' sh'.mem := by
  generalize hc : (⟨sh, [p]⟩ : Cfg V Sp) = c0 at hs
  cases hs with
  | tau l₁ l₂ sh0 q sh' q' new ht =>
    simp only [Cfg.mk.injEq] at hc
    obtain ⟨rfl, e⟩ := hc
    obtain ⟨rfl, rfl, rfl⟩ : l₁ = [] ∧ q = p ∧ l₂ = [] := by
      cases l₁ with
      | nil => simp at e; exact ⟨rfl, e.1.symm, e.2⟩
      | cons a l => simp at e
    cases ht with
    | read => exact ⟨_, _, rfl, h⟩
    | write => exact ⟨_, _, rfl, h⟩
    | less _ _ _ _ _ b hb => exact ⟨_, _, rfl, h.2 b hb⟩
    | maxGor _ n hn => exact ⟨_, _, rfl, h n hn⟩
    | mkSync => exact ⟨_, _, rfl, h⟩
    | _ => exact h.elim
  | commSR l₁ l₂ l₃ sh0 v k k' _ =>
    simp only [Cfg.mk.injEq] at hc
    have := congrArg List.length hc.2
    simp at this
    omega
  | commRS l₁ l₂ l₃ sh0 v k k' _ =>
    simp only [Cfg.mk.injEq] at hc
    have := congrArg List.length hc.2
    simp at this
    omega

theorem Dies.steps {P : Par V Sp} {p : Prog V Sp Unit} {sh : Sh V} {c : Cfg V Sp} (h : Dies P.cmp P.M p sh.mem) (hs : Steps P ⟨sh, [p]⟩ c) :
    ∃ sh' p', c = ⟨sh', [p']⟩ ∧ Dies P.cmp P.M p' sh'.mem := by
  induction hs with
  | refl => exact ⟨_, _, rfl, h⟩
  | tail _ h2 ih =>
    obtain ⟨sh', p', rfl, h'⟩ := ih
    exact h'.step h2

theorem Steps.head {P : Par V Sp} {c c' c'' : Cfg V Sp} (h : Step P c c') (h' : Steps P c' c'') : Steps P c c'' := by
  induction h' with
  | refl => exact .tail (.refl _) h
  | tail _ h2 ih => exact .tail ih h2

theorem Dies.panics {P : Par V Sp} {p : Prog V Sp Unit} : ∀ {sh : Sh V}, Dies P.cmp P.M p sh.mem → ∃ c, Steps P ⟨sh, [p]⟩ c ∧ .panic ∈ c.ths := by
  induction p with
  | read i k ih =>
    intro sh h
    obtain ⟨c, h1, h2⟩ := ih _ (sh := sh) h
    exact ⟨c, .head (.tau [] [] _ _ _ _ [] (.read ..)) h1, h2⟩
  | write i v k ih =>
    intro sh h
    obtain ⟨c, h1, h2⟩ := ih (sh := { sh with mem := Function.update sh.mem i v }) h
    exact ⟨c, .head (.tau [] [] _ _ _ _ [] (.write ..)) h1, h2⟩
  | less i j x y k ih =>
    intro sh h
    obtain ⟨b, hb⟩ := h.1
    obtain ⟨c, h1, h2⟩ := ih b (sh := sh) (h.2 b hb)
    exact ⟨c, .head (.tau [] [] _ _ _ _ [] (.less _ _ _ _ _ _ _ hb)) h1, h2⟩
  | maxGor k ih =>
    intro sh h
    obtain ⟨c, h1, h2⟩ := ih 0 (sh := sh) (h 0 (by omega))
    exact ⟨c, .head (.tau [] [] _ _ _ _ [] (.maxGor _ _ _ (by omega))) h1, h2⟩
  | mkSync k ih =>
    intro sh h
    obtain ⟨c, h1, h2⟩ := ih (sh := { sh with nGor := 1, sync := true }) h
    exact ⟨c, .head (.tau [] [] _ _ _ _ [] (.mkSync ..)) h1, h2⟩
  | panic => intro sh _; exact ⟨_, .refl _, by simp⟩
  | _ => intro sh h; exact h.elim

/-- where the sample after the last one would be, from below -/
theorem minMaxSample_over_ge {slen n : Nat} (hn : 2 ≤ n) (hs : 2 * n ≤ slen) :
    slen + slen / n / 2 ≤ (minMaxSample slen n).2.2 + (minMaxSample slen n).2.1 + n := by
  have hq : 2 ≤ slen / n := (Nat.le_div_iff_mul_le (by omega)).2 hs
  have hd : n * (slen / n) + slen % n = slen := Nat.div_add_mod slen n
  have hm : n * (slen / n) = (n - 1) * (slen / n) + slen / n := by
    obtain ⟨k, rfl⟩ : ∃ k, n = k + 1 := ⟨n - 1, by omega⟩
    simp; ring
  have he : slen % n < n := Nat.mod_lt _ (by omega)
  unfold minMaxSample
  generalize slen / n = q at *
  generalize slen % n = e at *
  generalize hsp : (n - 1) * q = sp at *
  dsimp only
  split_ifs with hc
  · dsimp only; omega
  · dsimp only; omega

theorem lswPivot_dies (hc : CmpOK cmp r) {ws : Nat} (hws : ws = 4 ∨ ws = 8) {s : Slice} (hlen : s.len < 2 ^ (8 * ws - 1))
    {n : Nat} {m : Mem V} (hn : 2 ≤ n) (hl : 2 * n ≤ s.len)
    (hov : 2 ^ (8 * ws - 1) ≤ (minMaxSample s.len n).2.2 + (minMaxSample s.len n).2.1) :
    Dies cmp M (lswPivot ws s 0 ((s.len : Int) - 1) n : Prog V Sp Int) m := by
  have hP' : (2 : Int) ^ (8 * ws - 1) = ((2 ^ (8 * ws - 1) : Nat) : Int) := by push_cast; rfl
  have hb := minMaxSample_bounds (slen := s.len) hn hl
  unfold lswPivot
  rw [show ((s.len : Int) - 1 + 1 - 0).toNat = s.len by omega]
  rcases hmm : minMaxSample s.len n with ⟨f, st, la⟩
  rw [hmm] at hb hov
  obtain ⟨b1, b2, b3⟩ := hb
  dsimp only at b1 b2 b3 hov ⊢
  have hs : (0 : Int) < st := by omega
  refine Dies.bind ?_
  have key : ∀ (k : Nat) (m : Mem V), k ≤ n - 1 → (∀ i j : Int, 0 ≤ i → i < j → j < (n - k : Nat) →
      r (s.E m ((0 : Int) + f + i * st)) ≤ r (s.E m ((0 : Int) + f + j * st))) →
      Dies cmp M (loop (k + 2) (fun h : Int =>
        if h ≤ (0 : Int) + la then do
          lswInner s ((0 : Int) + f) st h
          pure (.again (wrapInt ws (h + st)))
        else pure (.brk ())) (wrapInt ws ((0 : Int) + f + ((n - k : Nat) : Int) * st)) : Prog V Sp Unit) m := by
    intro k
    induction k with
    | zero =>
      intro m _ _
      have e : (0 : Int) + f + ((n - 0 : Nat) : Int) * st = ((la + st : Nat) : Int) := by
        obtain ⟨q, rfl⟩ : ∃ q, n = q + 1 := ⟨n - 1, by omega⟩
        rw [b2]; simp; ring
      have hw : wrapInt ws ((0 : Int) + f + ((n - 0 : Nat) : Int) * st) < 0 := by
        rw [e]
        have hlt : la + st < 2 ^ (8 * ws - 1) + 2 ^ (8 * ws - 1) := by
          have : st ≤ la + 1 := by
            have : 1 * st ≤ (n - 1) * st := Nat.mul_le_mul_right _ (by omega)
            omega
          omega
        unfold wrapInt
        rcases hws with rfl | rfl
        · norm_num at hlt hov ⊢
          rw [Int.bmod_def]; split_ifs <;> omega
        · norm_num at hlt hov ⊢
          rw [Int.bmod_def]; split_ifs <;> omega
      refine Dies.bind (p := if wrapInt ws ((0 : Int) + f + ((n - 0 : Nat) : Int) * st) ≤ (0 : Int) + la then _ else _) ?_
      rw [if_pos (by omega)]
      refine Dies.bind (Dies.bind (Dies.bind ?_))
      rw [call_documented]
      unfold lsw
      rw [if_neg (by omega)]
      trivial
    | succ k ih =>
      intro m hk hsort
      have hj : ((n - (k + 1) : Nat) : Int) * st ≤ ((n - 1 : Nat) : Int) * st := mul_le_mul_of_nonneg_right (by omega) hs.le
      have hj0 : 0 ≤ ((n - (k + 1) : Nat) : Int) * st := mul_nonneg (by omega) hs.le
      have e2 : (la : Int) = f + ((n - 1 : Nat) : Int) * st := by rw [b2]; push_cast; ring
      have hw : wrapInt ws ((0 : Int) + f + ((n - (k + 1) : Nat) : Int) * st) = (0 : Int) + f + ((n - (k + 1) : Nat) : Int) * st :=
        wrapInt_id hws (by rw [hP']; omega) (by rw [hP']; omega)
      have hok : swp cmp Set.univ ∅ (lswInner s ((0 : Int) + f) st ((0 : Int) + f + ((n - (k + 1) : Nat) : Int) * st) : Prog V Sp Unit) m _ :=
        lswInner_spec hc.toCmpW (A := Set.univ) hs (by omega) (by omega) (by omega) (fun _ _ _ => trivial) (Set.subset_univ _) hsort
      rw [hw]
      refine Dies.seq (W := Set.univ) (R := ∅) (p := if (0 : Int) + f + ((n - (k + 1) : Nat) : Int) * st ≤ (0 : Int) + la then _ else _)
        (Q := fun c m' => c = .again (wrapInt ws ((0 : Int) + f + ((n - k : Nat) : Int) * st)) ∧
          ∀ i j : Int, 0 ≤ i → i < j → j < (n - k : Nat) →
            r (s.E m' ((0 : Int) + f + i * st)) ≤ r (s.E m' ((0 : Int) + f + j * st))) ?_ ?_
      · rw [if_pos (by omega)]
        refine swp_bind (swp_mono hok ?_)
        rintro _ m' ⟨_, q⟩
        refine ⟨?_, fun i j i0 ij hj' => q i j i0 ij (by omega)⟩
        have : ((n - k : Nat) : Int) = ((n - (k + 1) : Nat) : Int) + 1 := by omega
        rw [this]
        congr 2
        ring
      · rintro _ m' ⟨rfl, q⟩
        exact ih m' (by omega) q
  have hst := key (n - 1) m le_rfl (fun i j _ _ hj => by omega)
  have e1 : wrapInt ws ((0 : Int) + f + ((n - (n - 1) : Nat) : Int) * st) = (0 : Int) + f + st := by
    have : ((n - (n - 1) : Nat) : Int) = 1 := by omega
    have h1 : 1 * st ≤ (n - 1) * st := Nat.mul_le_mul_right _ (by omega)
    rw [this, one_mul]
    exact wrapInt_id hws (by rw [hP']; omega) (by rw [hP']; omega)
  rw [e1, show n - 1 + 2 = n + 1 by omega] at hst
  exact hst

theorem lswLong_dies {C : Conf} (hc : CmpOK cmp r) (hC : C.OK) {s : Slice} (hlen : s.len < 2 ^ (8 * C.wordSize - 1)) {f d : Nat} {sv : Bool} {m : Mem V}
    (h : 10 * 2 ^ (8 * C.wordSize - 1) + 70 ≤ 11 * s.len) :
    Dies cmp M (lswLong C s (f + 1) d 0 ((s.len : Int) - 1) sv) m := by
  have hP : 2 ^ 31 ≤ 2 ^ (8 * C.wordSize - 1) := by rcases hC.word with h | h <;> norm_num [h]
  unfold lswLong
  refine Dies.bind (lswPivot_dies hc hC.word hlen (by decide) ?_ ?_)
  · have : nsLong - 1 = 5 := rfl
    omega
  · have e : nsLong - 1 = 5 := rfl
    have := minMaxSample_over_ge (slen := s.len) (n := 5) (by omega) (by omega)
    rw [e]
    omega

theorem lswSortLoop_dies {C : Conf} (hc : CmpOK cmp r) (hC : C.OK) {s : Slice} (hlen : s.len < 2 ^ (8 * C.wordSize - 1)) {f : Nat} {m : Mem V}
    (h : 14 * 2 ^ (8 * C.wordSize - 1) + 130 ≤ 15 * s.len) :
    Dies cmp M (lswSortLoop C s (f + 1) 0 ((s.len : Int) - 1)) m := by
  have hP : 2 ^ 31 ≤ 2 ^ (8 * C.wordSize - 1) := by rcases hC.word with h | h <;> norm_num [h]
  unfold lswSortLoop lswPartCon
  refine Dies.bind (Dies.bind (lswPivot_dies hc hC.word hlen (by decide) ?_ ?_))
  · have : nsConc - 1 = 7 := rfl
    omega
  · have e : nsConc - 1 = 7 := rfl
    have := minMaxSample_over_ge (slen := s.len) (n := 7) (by omega) (by omega)
    rw [e]
    omega

theorem sortLsw_dies {C : Conf} (hc : CmpOK cmp r) (hC : C.OK) {s : Slice} (hlen : s.len < 2 ^ (8 * C.wordSize - 1)) (hrec : C.maxLenRecFC < s.len)
    {m : Mem V} (h : (M ≤ 1 ∧ 10 * 2 ^ (8 * C.wordSize - 1) + 70 ≤ 11 * s.len) ∨ 14 * 2 ^ (8 * C.wordSize - 1) + 130 ≤ 15 * s.len) :
    Dies cmp M (SortLsw C s.len s) m := by
  have hP : 2 ^ 31 ≤ 2 ^ (8 * C.wordSize - 1) := by rcases hC.word with h | h <;> norm_num [h]
  have hP' : (2 : Int) ^ (8 * C.wordSize - 1) = ((2 ^ (8 * C.wordSize - 1) : Nat) : Int) := by push_cast; rfl
  have h5 : 10 * 2 ^ (8 * C.wordSize - 1) + 70 ≤ 11 * s.len := by omega
  have hw : wrapInt C.wordSize ((s.len : Int) - 1) = (s.len : Int) - 1 := wrapInt_id hC.word (by rw [hP']; omega) (by rw [hP']; omega)
  obtain ⟨q, hq⟩ : ∃ q, ((s.len : Int) - 1 + 1).toNat = q + 1 := ⟨s.len - 1, by omega⟩
  unfold SortLsw
  rw [hw]
  dsimp only
  rw [hq]
  have single : Dies cmp M (if (s.len : Int) - 1 ≥ C.maxLenRecFC then lswLong C s (q + 1) C.depth 0 ((s.len : Int) - 1) false
      else if (s.len : Int) - 1 ≥ C.maxLenInsFC then lswShort C s (q + 1) C.depth 0 ((s.len : Int) - 1)
      else if (s.len : Int) - 1 > 0 then lswInsertion s 0 ((s.len : Int) - 1) else pure ()) m := by
    rw [if_pos (by omega)]
    exact lswLong_dies hc hC hlen h5
  by_cases h2 : (s.len : Int) - 1 ≤ 2 * C.maxLenRecFC
  · rw [if_pos h2]; exact single
  · rw [if_neg h2]
    intro n hn
    show Dies cmp M (if decide (n ≤ 1) = true then _ else _) m
    by_cases h1 : n ≤ 1
    · rw [if_pos (by simpa using h1)]; exact single
    · rw [if_neg (by simpa using h1)]
      exact lswSortLoop_dies hc hC hlen (h.resolve_left fun h => by omega)

end Sorty
