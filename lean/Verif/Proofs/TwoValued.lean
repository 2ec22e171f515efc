import Verif.Proofs.Killer

/-! # `Sort` on elements of two kinds

`partOne` swaps two elements only if one is less than the pivot and the other one greater. With two kinds of elements that never happens, so a partition moves
nothing: it finds the range of one kind at one end of its range, and what is left is as disordered as before, but for the few elements that
pivot selection moves. -/

namespace Sorty

open Prog

/-! ## Disorder -/

/-- number of `j < k` with `true` at `lo + j` and `false` right after it -/
def dr (β : Int → Bool) (lo : Int) : Nat → Nat
  | 0 => 0
  | k + 1 => dr β lo k + if β (lo + k) = true ∧ β (lo + k + 1) = false then 1 else 0

section
variable {β β' : Int → Bool} {lo : Int}

theorem dr_le_aux : ∀ k, 2 * dr β lo k ≤ k + if β (lo + k) = false then 1 else 0 := by
  intro k
  induction k with
  | zero => simp [dr]
  | succ k ih =>
    simp only [dr]
    push_cast
    rw [show lo + ((k : Int) + 1) = lo + k + 1 by ring]
    split_ifs at ih ⊢ <;> simp_all <;> omega

theorem dr_le (k : Nat) : 2 * dr β lo k ≤ k + 1 := by
  have := dr_le_aux (β := β) (lo := lo) k
  split_ifs at this <;> omega

theorem dr_congr : ∀ k : Nat, (∀ i, lo ≤ i → i ≤ lo + k → β i = β' i) → dr β lo k = dr β' lo k := by
  intro k
  induction k with
  | zero => intro _; rfl
  | succ k ih =>
    intro h
    simp only [dr]
    rw [ih fun i i0 i1 => h i i0 (by push_cast; omega), h (lo + k) (by omega) (by push_cast; omega),
      h (lo + k + 1) (by omega) (by push_cast; omega)]

theorem dr_add (a : Nat) : ∀ k, dr β lo (a + k) = dr β lo a + dr β (lo + a) k := by
  intro k
  induction k with
  | zero => rfl
  | succ k ih =>
    rw [← Nat.add_assoc]
    simp only [dr]
    rw [ih, Nat.add_assoc]
    push_cast
    rw [show lo + ((a : Int) + k) = lo + a + k by ring]

/-- nothing but `false` until the last one -/
theorem dr_false : ∀ k : Nat, (∀ i, lo ≤ i → i < lo + k → β i = false) → dr β lo k = 0 := by
  intro k
  induction k with
  | zero => intro _; rfl
  | succ k ih =>
    intro h
    simp only [dr]
    rw [ih fun i i0 i1 => h i i0 (by push_cast; omega), h (lo + k) (by omega) (by push_cast; omega)]
    simp

/-- nothing but `true` after the first one -/
theorem dr_true : ∀ k : Nat, (∀ i, lo < i → i ≤ lo + k → β i = true) → dr β lo k = 0 := by
  intro k
  induction k with
  | zero => intro _; rfl
  | succ k ih =>
    intro h
    simp only [dr]
    rw [ih fun i i0 i1 => h i i0 (by push_cast; omega), h (lo + k + 1) (by omega) (by push_cast; omega)]
    simp

/-- one change -/
theorem dr_one (x : Int) : ∀ k : Nat, (∀ i, lo ≤ i → i ≤ lo + k → i ≠ x → β i = β' i) →
    dr β lo k + (if x = lo + k ∧ β x = true then 1 else 0) ≤ dr β' lo k + (if x ≤ lo + k then 1 else 0) := by
  intro k
  induction k with
  | zero =>
    intro _
    simp only [dr]
    split_ifs <;> simp_all
  | succ k ih =>
    intro h
    have ih := ih fun i i0 i1 => h i i0 (by push_cast; omega)
    simp only [dr]
    push_cast
    rw [show lo + ((k : Int) + 1) = lo + k + 1 by ring]
    rcases (by omega : x < lo + k ∨ x = lo + k ∨ x = lo + k + 1 ∨ lo + k + 1 < x) with hx | hx | hx | hx
    · rw [← h (lo + k) (by omega) (by push_cast; omega) (by omega), ← h (lo + k + 1) (by omega) (by push_cast; omega) (by omega)]
      rw [if_neg (by omega), if_pos (by omega)] at ih
      rw [if_neg (by omega : ¬ (x = lo + k + 1 ∧ _)), if_pos (by omega : x ≤ lo + k + 1)]
      omega
    · rw [if_pos (by omega : x ≤ lo + k + 1), if_neg (by omega : ¬ (x = lo + k + 1 ∧ _))]
      rw [if_pos (by omega : x ≤ lo + k)] at ih
      by_cases hb : β x = true
      · rw [if_pos ⟨hx, hb⟩] at ih
        split_ifs <;> omega
      · rw [if_neg (by simp [hb])] at ih
        rw [if_neg (by rw [← hx]; simp [hb])]
        omega
    · rw [if_pos (by omega : x ≤ lo + k + 1)]
      rw [if_neg (by omega), if_neg (by omega)] at ih
      by_cases hb : β x = true
      · rw [if_neg (by rw [← hx]; simp [hb]), if_pos ⟨hx, hb⟩]
        omega
      · rw [if_neg (fun h => hb h.2 : ¬ (x = lo + k + 1 ∧ _))]
        split_ifs <;> omega
    · rw [← h (lo + k) (by omega) (by push_cast; omega) (by omega), ← h (lo + k + 1) (by omega) (by push_cast; omega) (by omega)]
      rw [if_neg (by omega), if_neg (by omega)] at ih
      rw [if_neg (by omega : ¬ (x = lo + k + 1 ∧ _)), if_neg (by omega : ¬ x ≤ lo + k + 1)]
      omega

/-- several changes -/
theorem dr_change (k : Nat) : ∀ (L : List Int) (β : Int → Bool), (∀ i, lo ≤ i → i ≤ lo + k → i ∉ L → β i = β' i) →
    dr β lo k ≤ dr β' lo k + L.length := by
  intro L
  induction L with
  | nil => intro β h; rw [dr_congr k fun i i0 i1 => h i i0 i1 (by simp)]; simp
  | cons x L ih =>
    intro β h
    have h1 := ih (fun i => if i = x then β' x else β i) (by
      intro i i0 i1 i2
      split_ifs with hc
      · rw [hc]
      · exact h i i0 i1 (by simp [hc, i2]))
    have h2 := dr_one (β := β) (β' := fun i => if i = x then β' x else β i) (lo := lo) x k (fun i _ _ hx => by rw [if_neg hx])
    rw [List.length_cons]
    split_ifs at h2 <;> omega

end

variable {V Sp : Type} {s : Slice} {b : V → Bool}

/-- the rank of the two kinds -/
def kind (b : V → Bool) (x : V) : Nat := if b x then 1 else 0

theorem kind_lt {x y : V} : ltOf (kind b) x y = true ↔ b x = false ∧ b y = true := by
  unfold ltOf kind
  cases b x <;> cases b y <;> simp

/-! ## Running the code -/

theorem qw_true {less : V → V → Bool} {α : Type} {p : Prog V Sp α} : ∀ {m n}, qw less (fun _ _ => True) p m n fun _ _ _ => True := by
  induction p with
  | ret a => intros; trivial
  | read i k ih => intro m n; exact ih _
  | write i v k ih => intro m n; exact ih
  | less i j x y k ih => intro m n; exact ⟨trivial, ih _⟩
  | _ => intros; trivial

theorem atLeast_bind {less : V → V → Bool} {α β : Type} {p : Prog V Sp α} {f : α → Prog V Sp β} : ∀ {m : Mem V} {n : Nat},
    p.atLeast less m n → (p >>= f).atLeast less m n := by
  simp only [Prog.bind_def]
  induction p with
  | read i k ih => intro m n h; cases n with
    | zero => exact atLeast_zero
    | succ n => exact ih _ (n := n + 1) h
  | write i v k ih => intro m n h; cases n with
    | zero => exact atLeast_zero
    | succ n => exact ih (n := n + 1) h
  | less i j x y k ih => intro m n h; cases n with
    | zero => exact atLeast_zero
    | succ n => exact ih _ (n := n) h
  | maxGor k ih => intro m n h; cases n with
    | zero => exact atLeast_zero
    | succ n => exact fun g hg => ih g (n := n + 1) (h g hg)
  | _ => intro m n h; cases n with
    | zero => exact atLeast_zero
    | succ n => exact h.elim

/-- a partition compares the pivot with all elements and moves none -/
theorem qw_partTwoKinds {l0 pv h0 : Int} {m : Mem V} {n : Nat} :
    qw (ltOf (kind b)) (fun _ _ => True) (lswPartOne s l0 pv h0 : Prog V Sp Int) m n fun _ m' n' => m' = m ∧ h0 - l0 ≤ (n' : Int) - n := by
  unfold lswPartOne
  refine qw_loop (fun st m' n' => m' = m ∧ match st with
    | .head l h => h0 - l0 ≤ (n' : Int) - n + (h - l)
    | .scan l h => h0 - l0 ≤ (n' : Int) - n + (h - l) - 1 ∧ b (s.E m pv) = true
    | .second l h => h0 - l0 ≤ (n' : Int) - n + (h - l) - 2 ∧ b (s.E m pv) = false) ?_ _ _ _ _ ⟨rfl, by omega⟩
  rintro (⟨l, h⟩ | ⟨l, h⟩ | ⟨l, h⟩) m' n' ⟨rfl, hI⟩
  · dsimp only at hI
    simp only [lswPartOneStep]
    by_cases hc : l < h
    · rw [if_pos hc]
      refine qw_bind (qw_lsw fun _ _ _ _ => ⟨trivial, fun hb => ?_, fun hb => ?_⟩)
      · rw [if_pos rfl, swapM_self]
        exact ⟨rfl, by push_cast; omega, (kind_lt.1 hb).2⟩
      · rw [if_neg (by simp)]
        refine qw_bind (qw_lsw fun _ _ _ _ => ⟨trivial, fun hb => ?_, fun hb => ?_⟩)
        · rw [if_pos rfl, swapM_self]
          exact ⟨rfl, by push_cast; omega, (kind_lt.1 hb).1⟩
        · rw [if_neg (by simp)]
          exact ⟨rfl, by push_cast; omega⟩
    · rw [if_neg hc]
      by_cases hc2 : l = h ∧ h ≠ pv
      · rw [if_pos hc2]
        refine qw_bind (qw_lsw fun _ _ _ _ => ⟨trivial, fun hb => ?_, fun hb => ?_⟩)
        · rw [if_pos rfl, swapM_self]
          exact ⟨rfl, by push_cast; omega⟩
        · rw [if_neg (by simp)]
          exact ⟨rfl, by push_cast; omega⟩
      · rw [if_neg hc2]
        exact ⟨rfl, by omega⟩
  · obtain ⟨hI, hh⟩ := hI
    simp only [lswPartOneStep]
    refine qw_bind (qw_lsw fun k1 k2 k3 _ => ⟨trivial, fun hb => ?_, fun hb => ?_⟩)
    · rw [(kind_lt.1 hb).1] at hh; cases hh
    · rw [if_neg (by simp)]
      by_cases hc : l + 1 ≥ h
      · rw [if_pos hc]
        exact ⟨rfl, by push_cast; omega⟩
      · rw [if_neg hc]
        exact ⟨rfl, by push_cast; omega, hh⟩
  · obtain ⟨hI, hh⟩ := hI
    simp only [lswPartOneStep]
    by_cases hc : l ≥ h - 1
    · rw [if_pos hc]
      exact ⟨rfl, by omega⟩
    · rw [if_neg hc]
      refine qw_bind (qw_lsw fun k1 k2 k3 k4 => ⟨trivial, fun hb => ?_, fun hb => ?_⟩)
      · rw [(kind_lt.1 hb).2] at hh; cases hh
      · rw [if_neg (by simp)]
        exact ⟨rfl, by push_cast; omega, hh⟩

variable {C : Conf}

/-- `long` without goroutines sorts its range -/
theorem lswLong_alone {ρ : Type} [LinearOrder ρ] {cmp : Nat → Nat → V → V → Bool → Prop} {W R : Set Nat} {r : V → ρ} (hL : LOK C s cmp r) :
    ∀ (f d : Nat) (lo hi : Int) (m : Mem V), 0 ≤ lo → hi < s.len → (s.seg lo hi).rng ⊆ W → C.maxLenRecFC ≤ hi - lo →
    hi + 1 - lo ≤ f → 2 * (hi + 1 - lo) < ((2 ^ d : Nat) : Int) →
    swp cmp W R (lswLong C s f d lo hi false : Prog V LSp Unit) m fun _ m' => RP (s.seg lo hi).rng m m' := by
  have h8 := hL.ins
  have hr := hL.recOK
  intro f
  induction f with
  | zero => intro d lo hi m _ _ _ h1 h2; omega
  | succ f ih =>
    intro d lo hi m h0 h1 hW hl hf hd
    unfold lswLong
    refine swp_bind (swp_mono (lswPivot_spec hL.weak hL.word hL.fits (t := 2) h0 h1 rfl le_rfl (by omega) (by unfold nsLong; omega) hW) ?_)
    rintro pv m1 ⟨hp, -, -⟩
    have := hp.lt; have := hp.gt
    refine swp_bind (swp_mono (lswPartOne_spec hL.ok (by omega) (by omega) (by omega) ⟨by omega, by omega⟩ (but_sub h0 hW)
      (.inl (hW (ad_mem_seg h0 hp.lt.le hp.gt.le)))) ?_)
    intro k m2 hk
    obtain ⟨k0, k1, hrp, hlow, hhigh⟩ := hp.part h0 hk
    obtain ⟨l, h, lo', hi', he, hsp, b1, b2, b3, b4, b5, b6, b7, b8, b9⟩ := lswSplit_spec h0 k0 k1 hrp.on hlow hhigh
    rw [he]
    dsimp only
    obtain ⟨u1, u2, u3, u4⟩ := hsp.sub
    obtain ⟨d, rfl⟩ : ∃ d', d = d' + 1 := by
      cases d with
      | zero => simp at hd; omega
      | succ d => exact ⟨d, rfl⟩
    rw [pow_succ] at hd
    by_cases hq : h - l < C.maxLenRecFC
    · rw [if_pos hq]
      have key : ∀ m3, RP (s.seg l h).rng m2 m3 → swp cmp W R (if hi' - lo' ≥ C.maxLenRecFC then lswLong C s f (d + 1) lo' hi' false
          else lswShort C s f d lo' hi' : Prog V LSp Unit) m3 fun _ m' => RP (s.seg lo hi).rng m m' := by
        intro m3 r1
        by_cases hc : hi' - lo' ≥ C.maxLenRecFC
        · rw [if_pos hc]
          exact swp_mono (ih (d + 1) lo' hi' m3 (by omega) (by omega) (u2.trans hW) hc (by omega) (by rw [pow_succ]; omega))
            fun _ m4 r2 => hrp.trans ((r1.mono u1).trans (r2.mono u2))
        · rw [if_neg hc]
          exact swp_mono (lswShort_spec hL.ok h8 f d lo' hi' m3 (by omega) (by omega) (u2.trans hW) (by omega) (by omega) (by omega))
            fun _ m4 r2 => hrp.trans ((r1.mono u1).trans (r2.1.mono u2))
      by_cases hq2 : h - l ≥ C.maxLenInsFC
      · rw [if_pos hq2]
        exact swp_bind (swp_mono (lswShort_spec hL.ok h8 f d l h m2 (by omega) (by omega) (u1.trans hW) (by omega) (by omega) (by omega))
          fun _ m3 r1 => key m3 r1.1)
      · rw [if_neg hq2]
        exact swp_bind (swp_mono (lswInsertion_spec hL.weak (by omega) (by omega) b2 (u1.trans hW)) fun _ m3 r1 => key m3 r1.1)
    · rw [if_neg hq]
      show swp cmp W R (do
        lswLong C s f d l h false
        lswLong C s f (d + 1) lo' hi' false : Prog V LSp Unit) m2 _
      refine swp_bind (swp_mono (ih d l h m2 (by omega) (by omega) (u1.trans hW) (by omega) (by omega) (by omega)) fun _ m3 r1 => ?_)
      exact swp_mono (ih (d + 1) lo' hi' m3 (by omega) (by omega) (u2.trans hW) (by omega) (by omega) (by rw [pow_succ]; omega))
        fun _ m4 r2 => hrp.trans ((r1.mono u1).trans (r2.mono u2))

/-- disorder of the range `[lo,hi]` -/
def dis (b : V → Bool) (s : Slice) (m : Mem V) (lo hi : Int) : Nat := dr (fun i => b (s.E m i)) lo (hi - lo).toNat

theorem dis_le {m : Mem V} {lo hi : Int} (h : lo ≤ hi) : 2 * (dis b s m lo hi : Int) ≤ hi - lo + 1 := by
  have := dr_le (β := fun i => b (s.E m i)) (lo := lo) (hi - lo).toNat
  unfold dis
  omega

theorem dis_frame {m m' : Mem V} {A : Set Nat} {lo hi : Int} (h0 : 0 ≤ lo) (hle : lo ≤ hi) (h : RP A m m') (hd : Disjoint A (s.seg lo hi).rng) :
    dis b s m' lo hi = dis b s m lo hi := by
  refine dr_congr _ fun i i0 i1 => ?_
  rw [h.E_out (Set.disjoint_right.1 hd (ad_mem_seg h0 i0 (by omega)))]

/-- pivot selection reduces the disorder by little -/
theorem dis_pivot {m m' m1 : Mem V} {lo hi pv first step : Int} {t : Nat} (h0 : 0 ≤ lo)
    (h : LPivMid (kind b) s first step t m pv m' m1) (hf : 0 ≤ first) (hs : 0 ≤ step) : dis b s m lo hi ≤ dis b s m' lo hi + (2 * t + 3) := by
  obtain ⟨x, y, hxy⟩ := h.out
  have := dr_change (β' := fun i => b (s.E m' i)) (lo := lo) (hi - lo).toNat (x :: y :: (List.range (2 * t + 1)).map fun j : Nat => first + (j : Int) * step)
    (fun i => b (s.E m i)) (by
      intro i i0 i1 i2
      simp only [List.mem_cons, List.mem_map, List.mem_range, not_or, not_exists, not_and] at i2
      obtain ⟨n1, n2, n3⟩ := i2
      have n4 : ∀ j : Int, 0 ≤ j → j < 2 * t + 1 → i ≠ first + j * step := by
        intro j j0 j1 e
        obtain ⟨j, rfl⟩ : ∃ k : Nat, j = k := ⟨j.toNat, by omega⟩
        exact n3 j (by omega) e.symm
      rw [hxy i (by omega) n1 n2 n4, h.rp.E_out]
      rintro ⟨j, j0, j1, e⟩
      exact n4 j j0 (by push_cast at j1; omega) (ad_inj (by omega) (by have := mul_nonneg j0 hs; omega) e))
  simp only [List.length_cons, List.length_map, List.length_range] at this
  unfold dis
  omega

/-- all disorder is on one side of a partition -/
theorem dis_part {m : Mem V} {lo hi k : Int} {p : V} (k0 : lo < k) (k1 : k ≤ hi) (hlow : ∀ i, lo ≤ i → i < k → kind b (s.E m i) ≤ kind b p)
    (hhigh : ∀ i, k ≤ i → i ≤ hi → kind b p ≤ kind b (s.E m i)) :
    dis b s m lo hi = dis b s m lo (k - 1) ∨ dis b s m lo hi = dis b s m k hi := by
  unfold dis
  cases hp : b p with
  | false =>
    right
    have e : (hi - lo).toNat = (k - lo).toNat + (hi - k).toNat := by omega
    rw [e, dr_add, dr_false, show lo + ((k - lo).toNat : Int) = k by omega, Nat.zero_add]
    intro i i0 i1
    have := hlow i i0 (by omega)
    simp only [kind, hp] at this
    cases hb : b (s.E m i)
    · rfl
    · simp [hb] at this
  | true =>
    left
    have e : (hi - lo).toNat = (k - 1 - lo).toNat + (hi - k + 1).toNat := by omega
    rw [e, dr_add, dr_true (hi - k + 1).toNat, Nat.add_zero]
    intro i i0 i1
    have := hhigh i (by omega) (by omega)
    simp only [kind, hp] at this
    cases hb : b (s.E m i)
    · simp [hb] at this
    · rfl

/-- the arithmetic of a round -/
theorem two_round {D D' n w M t : Int} (hD : 0 ≤ D) (hD' : 0 ≤ D') (h1 : D ≤ D' + t) (ht : t ≤ 7) (h2 : 2 * D ≤ w + 1) (h3 : 6 ≤ w)
    (h4 : 4 * D' ^ 2 ≤ 28 * n + M) : 4 * D ^ 2 ≤ 28 * (w - 2 + n) + M := by
  by_cases hc : 7 ≤ D
  · have : (D - 7) ^ 2 ≤ D' ^ 2 := by nlinarith
    nlinarith
  · have : D * D ≤ 6 * D := mul_le_mul_of_nonneg_right (by omega) hD
    nlinarith [sq_nonneg D']

/-- what is shown of a range and the rest of the code -/
def Slow (C : Conf) (b : V → Bool) {α : Type} (p : Prog V Sp α) (m : Mem V) (D : Nat) : Prop :=
  ∃ n, p.atLeast (ltOf (kind b)) m n ∧ 4 * (D : Int) ^ 2 ≤ 28 * n + (C.maxLenInsFC : Int) ^ 2

theorem Slow.bind {α β : Type} {p : Prog V Sp α} {f : α → Prog V Sp β} {m : Mem V} {D : Nat} (h : Slow C b p m D) : Slow C b (p >>= f) m D := by
  obtain ⟨n, h1, h2⟩ := h
  exact ⟨n, atLeast_bind h1, h2⟩

theorem Slow.after {W R : Set Nat} {α β : Type}
    {p : Prog V Sp α} {f : α → Prog V Sp β} {m : Mem V} {D : Nat} {Q : α → Mem V → Prop} (hp : swp (fun _ _ x y b' => b' = ltOf (kind b) x y) W R p m Q)
    (h : ∀ a m', Q a m' → Slow C b (f a) m' D) : Slow C b (p >>= f) m D := by
  obtain ⟨k, a, m', e, q, -⟩ := ex_of (n := 0) (cmp := fun _ _ x y b' => b' = ltOf (kind b) x y) (fun _ _ _ _ => rfl) hp (qw_true (less := ltOf (kind b)))
  obtain ⟨n, h1, h2⟩ := h a m' q
  exact ⟨k + n, e.atLeast h1, by push_cast; omega⟩

theorem Slow.small {α : Type} {p : Prog V Sp α} {m : Mem V} {D : Nat} (h : 2 * D ≤ C.maxLenInsFC) : Slow C b p m D := by
  refine ⟨0, atLeast_zero, ?_⟩
  have : (2 * (D : Int)) ^ 2 ≤ (C.maxLenInsFC : Int) ^ 2 := by
    have h : 2 * (D : Int) ≤ C.maxLenInsFC := by exact_mod_cast h
    exact pow_le_pow_left₀ (by omega) h 2
  push_cast
  nlinarith

/-- pivot and partition, with their effect on disorder -/
theorem slow_round {lo hi : Int} {m : Mem V} {α : Type} {choose : Prog V Sp Int} {f : Int → Prog V Sp α} {t : Nat} {first step : Int} (t1 : t ≤ 2)
    (h0 : 0 ≤ lo) (h1 : hi < s.len) (hl : 6 ≤ hi - lo) (hf : 0 ≤ first) (hs : 0 ≤ step)
    (hch : swp (fun _ _ x y b' => b' = ltOf (kind b) x y) (s.seg lo hi).rng ∅ choose m fun pv m' =>
      LPivOK (kind b) s lo hi m pv m' ∧ ∃ m1, LPivMid (kind b) s first step t m pv m' m1)
    (hk : ∀ k m2 (p : Nat), lo < k → k ≤ hi → RP (s.seg lo hi).rng m m2 → (∀ i, lo ≤ i → i < k → kind b (s.E m2 i) ≤ p) →
      (∀ i, k ≤ i → i ≤ hi → p ≤ kind b (s.E m2 i)) →
      (dis b s m2 lo hi = dis b s m2 lo (k - 1) ∨ dis b s m2 lo hi = dis b s m2 k hi) → Slow C b (f k) m2 (dis b s m2 lo hi)) :
    Slow C b (do
      let pv ← choose
      let l ← lswPartOne s (lo + 1) pv (hi - 1)
      f l) m (dis b s m lo hi) := by
  obtain ⟨k1, pv, m1, e1, ⟨hp, m1', hm⟩, -⟩ := ex_of (n := 0) (cmp := fun _ _ x y b' => b' = ltOf (kind b) x y) (fun _ _ _ _ => rfl) hch (qw_true (less := ltOf (kind b)))
  have := hp.lt; have := hp.gt
  obtain ⟨k2, k, m2, e2, hk2, rfl, hn⟩ := ex_of (n := 0) (cmp := fun _ _ x y b' => b' = ltOf (kind b) x y) (fun _ _ _ _ => rfl)
    (lswPartOne_spec (Sp := Sp) (R := ∅) (W := (s.seg lo hi).rng) (s := s) (m0 := m1) (l0 := lo + 1) (pv := pv) (h0 := hi - 1) (ltOf_ok (kind b)) (by omega) (by omega)
      (by omega) ⟨by omega, by omega⟩ (but_sub h0 le_rfl) (.inl (ad_mem_seg h0 hp.lt.le hp.gt.le))) (qw_partTwoKinds (b := b) (s := s))
  obtain ⟨k0, k1', hrp, hlow, hhigh⟩ := hp.part h0 hk2
  have hdp := dis_pivot (hi := hi) h0 hm hf hs
  obtain ⟨n, h3, h4⟩ := hk k m2 _ k0 k1' hrp hlow hhigh (dis_part k0 k1' hlow hhigh)
  refine ⟨k1 + (k2 + n), e1.atLeast (e2.atLeast h3), ?_⟩
  have := two_round (D := dis b s m lo hi) (t := 2 * t + 3) (by omega) (by omega) (by exact_mod_cast hdp) (by omega)
    (dis_le (by omega)) hl h4
  push_cast
  omega

theorem slow_insertion {l h : Int} (hle : l ≤ h) (hs : h - l < C.maxLenInsFC) {m : Mem V} {α : Type} {p : Prog V Sp α} : Slow C b p m (dis b s m l h) := by
  refine Slow.small ?_
  have := dis_le (b := b) (s := s) (m := m) hle
  omega

theorem slow_short (h8 : 8 < C.maxLenInsFC) : ∀ (f d : Nat) (lo hi : Int) (m : Mem V),
    0 ≤ lo → hi < s.len → hi + 1 - lo ≤ f → C.maxLenInsFC ≤ hi - lo → hi + 1 - lo < ((2 ^ d : Nat) : Int) →
    Slow C b (lswShort C s f d lo hi : Prog V Sp Unit) m (dis b s m lo hi) := by
  intro f
  induction f with
  | zero => intro d lo hi m _ _ h1 h2; omega
  | succ f ih =>
    intro d lo hi m h0 h1 hf hins hd
    unfold lswShort
    refine slow_round (t := 1) (by omega) h0 h1 (by omega) ?_ ?_ (lswShortPivot_mid (ltOf_ok (kind b)).toCmpW h0 h1 (by omega) le_rfl) ?_
    · omega
    · omega
    intro k m2 p k0 k1 hrp hlow hhigh hpart
    obtain ⟨l, h, lo', hi', he, hsp, b1, b2, b3, b4, b5, b6, b7, b8, b9⟩ := lswSplit_spec h0 k0 k1 hrp.on hlow hhigh
    have hpart : dis b s m2 lo hi = dis b s m2 l h ∨ dis b s m2 lo hi = dis b s m2 lo' hi' := by
      unfold lswSplit at he
      dsimp only at he
      split_ifs at he <;> simp only [Prod.mk.injEq] at he <;> obtain ⟨rfl, rfl, rfl, rfl, -⟩ := he
      · exact hpart
      · exact hpart.symm
    rw [he]
    dsimp only
    obtain ⟨u1, u2, u3, u4⟩ := hsp.sub
    by_cases hq : h - l ≥ C.maxLenInsFC
    · rw [if_pos hq]
      obtain ⟨d, rfl⟩ : ∃ d', d = d' + 1 := by
        cases d with
        | zero => simp at hd; omega
        | succ d => exact ⟨d, rfl⟩
      rw [pow_succ] at hd
      rcases hpart with e | e
      · rw [e]
        exact (ih d l h m2 (by omega) (by omega) (by omega) (by omega) (by omega)).bind
      · rw [e]
        refine Slow.after (lswShort_spec (R := ∅) (ltOf_ok (kind b)) h8 f d l h m2 (by omega) (by omega) le_rfl (by omega) (by omega) (by omega)) ?_
        rintro _ m3 ⟨r1, -⟩
        rw [← dis_frame (by omega) b5 r1 u3]
        exact ih (d + 1) lo' hi' m3 (by omega) (by omega) (by omega) (by omega) (by rw [pow_succ]; omega)
    · rw [if_neg hq]
      by_cases hq2 : hi' - lo' ≥ C.maxLenInsFC
      · rcases hpart with e | e
        · rw [e]
          exact slow_insertion b2 (by omega)
        · rw [e]
          refine Slow.after (Q := fun again m3 => again = true ∧ RP (s.seg l h).rng m2 m3) (R := ∅) (W := (s.seg l h).rng) ?_ ?_
          · refine swp_loop _ _ (fun (st : Int × Int) m3 => st = (l, h) ∧ m3 = m2) (fun st => 0) ?_ _ _ _ ⟨rfl, rfl⟩ (by simp)
            rintro st m3 ⟨rfl, rfl⟩
            refine swp_bind (swp_mono (lswInsertion_spec (ltOf_ok (kind b)).toCmpW (by omega) (by omega) b2 le_rfl) ?_)
            rintro _ m4 ⟨r1, s1⟩
            rw [if_pos hq2]
            exact ⟨rfl, r1⟩
          · rintro again m3 ⟨rfl, r1⟩
            rw [if_pos rfl, ← dis_frame (by omega) b5 r1 u3]
            exact ih d lo' hi' m3 (by omega) (by omega) (by omega) (by omega) (by omega)
      · rcases hpart with e | e
        · rw [e]
          exact slow_insertion b2 (by omega)
        · rw [e]
          exact slow_insertion b5 (by omega)

theorem slow_long (hL : LOK C s (fun _ _ x y b' => b' = ltOf (kind b) x y) (kind b)) : ∀ (f d : Nat) (lo hi : Int) (m : Mem V),
    0 ≤ lo → hi < s.len → C.maxLenRecFC ≤ hi - lo → hi + 1 - lo ≤ f → 2 * (hi + 1 - lo) < ((2 ^ d : Nat) : Int) →
    Slow C b (lswLong C s f d lo hi false : Prog V LSp Unit) m (dis b s m lo hi) := by
  have h8 := hL.ins
  have hr := hL.recOK
  intro f
  induction f with
  | zero => intro d lo hi m _ _ h1 h2; omega
  | succ f ih =>
    intro d lo hi m h0 h1 hl hf hd
    unfold lswLong
    refine slow_round (t := 2) (by omega) h0 h1 (by omega) ?_ ?_ (swp_mono (lswPivot_mid hL.weak hL.word hL.fits (t := 2) h0 h1 rfl le_rfl (by omega)
      (by unfold nsLong; omega) le_rfl) fun _ _ h => ⟨h.1.1, h.2⟩) ?_
    · omega
    · omega
    intro k m2 p k0 k1 hrp hlow hhigh hpart
    obtain ⟨l, h, lo', hi', he, hsp, b1, b2, b3, b4, b5, b6, b7, b8, b9⟩ := lswSplit_spec h0 k0 k1 hrp.on hlow hhigh
    have hpart : dis b s m2 lo hi = dis b s m2 l h ∨ dis b s m2 lo hi = dis b s m2 lo' hi' := by
      unfold lswSplit at he
      dsimp only at he
      split_ifs at he <;> simp only [Prod.mk.injEq] at he <;> obtain ⟨rfl, rfl, rfl, rfl, -⟩ := he
      · exact hpart
      · exact hpart.symm
    rw [he]
    dsimp only
    obtain ⟨u1, u2, u3, u4⟩ := hsp.sub
    obtain ⟨d, rfl⟩ : ∃ d', d = d' + 1 := by
      cases d with
      | zero => simp at hd; omega
      | succ d => exact ⟨d, rfl⟩
    rw [pow_succ] at hd
    by_cases hq : h - l < C.maxLenRecFC
    · rw [if_pos hq]
      have key : ∀ m3, RP (s.seg l h).rng m2 m3 → Slow C b (if hi' - lo' ≥ C.maxLenRecFC then lswLong C s f (d + 1) lo' hi' false
          else lswShort C s f d lo' hi' : Prog V LSp Unit) m3 (dis b s m2 lo' hi') := by
        intro m3 r1
        rw [← dis_frame (by omega) b5 r1 u3]
        by_cases hc : hi' - lo' ≥ C.maxLenRecFC
        · rw [if_pos hc]
          exact ih (d + 1) lo' hi' m3 (by omega) (by omega) hc (by omega) (by rw [pow_succ]; omega)
        · rw [if_neg hc]
          exact slow_short h8 f d lo' hi' m3 (by omega) (by omega) (by omega) (by omega) (by omega)
      by_cases hq2 : h - l ≥ C.maxLenInsFC
      · rw [if_pos hq2]
        rcases hpart with e | e
        · rw [e]
          exact (slow_short h8 f d l h m2 (by omega) (by omega) (by omega) (by omega) (by omega)).bind
        · rw [e]
          exact Slow.after (lswShort_spec (R := ∅) hL.ok h8 f d l h m2 (by omega) (by omega) le_rfl (by omega) (by omega) (by omega))
            fun _ m3 r1 => key m3 r1.1
      · rw [if_neg hq2]
        rcases hpart with e | e
        · rw [e]
          exact slow_insertion b2 (by omega)
        · rw [e]
          exact Slow.after (lswInsertion_spec (R := ∅) hL.weak (by omega) (by omega) b2 le_rfl) fun _ m3 r1 => key m3 r1.1
    · rw [if_neg hq]
      show Slow C b (do
        lswLong C s f d l h false
        lswLong C s f (d + 1) lo' hi' false : Prog V LSp Unit) m2 _
      rcases hpart with e | e
      · rw [e]
        exact (ih d l h m2 (by omega) (by omega) (by omega) (by omega) (by omega)).bind
      · rw [e]
        refine Slow.after (lswLong_alone (R := ∅) hL f d l h m2 (by omega) (by omega) le_rfl (by omega) (by omega) (by omega)) fun _ m3 r1 => ?_
        rw [← dis_frame (by omega) b5 r1 u3]
        exact ih (d + 1) lo' hi' m3 (by omega) (by omega) (by omega) (by omega) (by rw [pow_succ]; omega)

end Sorty
