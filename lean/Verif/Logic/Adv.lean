import Verif.Logic.Swp
import Verif.SemCost
import Verif.Proofs.LswBase

/-! # Runs of sequential code under a comparator that is only partly known

`Ex less Q p m n a m'`: with answers from `less`, `p` runs from `m` to its result `a` and memory `m'`, consulting the
comparator `n` times, each time about a pair in `Q`. If `less'` agrees with `less` on `Q`, `p` runs in the same way under `less'`. -/

namespace Sorty

open Prog

variable {V Sp α β : Type}

inductive Ex (less : V → V → Bool) (Q : V → V → Prop) : Prog V Sp α → Mem V → Nat → α → Mem V → Prop
  | ret (a m) : Ex less Q (.ret a) m 0 a m
  | read {i k m n a m'} : Ex less Q (k (m i)) m n a m' → Ex less Q (.read i k) m n a m'
  | write {i v k m n a m'} : Ex less Q k (Function.update m i v) n a m' → Ex less Q (.write i v k) m n a m'
  | less {i j x y k m n a m'} : Q x y → Ex less Q (k (less x y)) m n a m' → Ex less Q (.less i j x y k) m (n + 1) a m'

/-- what `p` may assume when it ends, if it ends, having consulted the comparator about pairs in `Q` only; the counter goes up -/
def qw (less : V → V → Bool) (Q : V → V → Prop) : Prog V Sp α → Mem V → Nat → (α → Mem V → Nat → Prop) → Prop
  | .ret a, m, n, K => K a m n
  | .read i k, m, n, K => qw less Q (k (m i)) m n K
  | .write i v k, m, n, K => qw less Q k (Function.update m i v) n K
  | .less _ _ x y k, m, n, K => Q x y ∧ qw less Q (k (less x y)) m (n + 1) K
  | _, _, _, _ => True

/-- with answers from `less`, and if `MaxGor` is at most 1, `p` consults the comparator at least `n` times -/
def Prog.atLeast (less : V → V → Bool) : Prog V Sp α → Mem V → Nat → Prop
  | .read i k, m, n + 1 => (k (m i)).atLeast less m (n + 1)
  | .write i v k, m, n + 1 => k.atLeast less (Function.update m i v) (n + 1)
  | .less _ _ x y k, m, n + 1 => (k (less x y)).atLeast less m n
  | .maxGor k, m, n + 1 => ∀ g ≤ 1, (k g).atLeast less m (n + 1)
  | _, _, 0 => True
  | _, _, _ + 1 => False

variable {less less' : V → V → Bool} {Q : V → V → Prop}

theorem qw_mono {p : Prog V Sp α} : ∀ {m n} {K K' : α → Mem V → Nat → Prop},
    qw less Q p m n K → (∀ a m n, K a m n → K' a m n) → qw less Q p m n K' := by
  induction p with
  | ret a => intro m n K K' h hK; exact hK _ _ _ h
  | read i k ih => intro m n K K' h hK; exact ih _ h hK
  | write i v k ih => intro m n K K' h hK; exact ih h hK
  | less i j x y k ih => intro m n K K' h hK; exact ⟨h.1, ih _ h.2 hK⟩
  | _ => intros; trivial

theorem qw_bind {p : Prog V Sp α} {f : α → Prog V Sp β} : ∀ {m n} {K : β → Mem V → Nat → Prop},
    qw less Q p m n (fun a m n => qw less Q (f a) m n K) → qw less Q (p >>= f) m n K := by
  simp only [Prog.bind_def]
  induction p with
  | ret a => intro m n K h; exact h
  | read i k ih => intro m n K h; exact ih _ h
  | write i v k ih => intro m n K h; exact ih h
  | less i j x y k ih => intro m n K h; exact ⟨h.1, ih _ h.2⟩
  | _ => intros; trivial

theorem qw_loop {σ : Type} {body : σ → Prog V Sp (Prog.Ctl σ α)} {K : α → Mem V → Nat → Prop} (I : σ → Mem V → Nat → Prop)
    (hstep : ∀ s m n, I s m n → qw less Q (body s) m n fun c m n =>
      match c with
      | .again s' => I s' m n
      | .brk a => K a m n) : ∀ f s m n, I s m n → qw less Q (Prog.loop f body s) m n K := by
  intro f
  induction f with
  | zero => intros; trivial
  | succ f ih =>
    intro s m n hI
    apply qw_bind
    refine qw_mono (hstep s m n hI) ?_
    rintro (s' | a) m n h
    · exact ih s' m n h
    · exact h

theorem qw_rd {s : Slice} {i : Int} {m : Mem V} {n : Nat} {K : V → Mem V → Nat → Prop} (h : s.ok i → K (s.E m i) m n) :
    qw less Q (s.rd i : Prog V Sp V) m n K := by
  unfold Slice.rd
  split_ifs with h1
  · exact h h1
  · trivial

theorem qw_wr {s : Slice} {i : Int} {v : V} {m : Mem V} {n : Nat} {K : Unit → Mem V → Nat → Prop}
    (h : K () (Function.update m (s.off + i.toNat) v) n) : qw less Q (s.wr i v : Prog V Sp Unit) m n K := by
  unfold Slice.wr
  split_ifs with h1
  · exact h
  · trivial

theorem qw_lsw {s : Slice} {i k x y : Int} {m : Mem V} {n : Nat} {K : Bool → Mem V → Nat → Prop}
    (h : s.ok i → s.ok k → s.ok x → s.ok y → Q (s.E m i) (s.E m k) ∧
      (less (s.E m i) (s.E m k) = true → K true (s.swapM m x y) (n + 1)) ∧
      (less (s.E m i) (s.E m k) = false → K false m (n + 1))) : qw less Q (lsw s i k x y : Prog V Sp Bool) m n K := by
  unfold lsw
  by_cases h1 : (0 ≤ i ∧ i < s.len) ∧ (0 ≤ k ∧ k < s.len) ∧ (0 ≤ x ∧ x < s.len) ∧ (0 ≤ y ∧ y < s.len)
  swap
  · rw [if_neg h1]; trivial
  rw [if_pos h1]
  obtain ⟨hq, ht, hf⟩ := h h1.1 h1.2.1 h1.2.2.1 h1.2.2.2
  refine qw_bind (qw_rd fun _ => qw_bind (qw_rd fun _ => qw_bind ⟨hq, ?_⟩))
  cases hb : less (s.E m i) (s.E m k) with
  | false => exact hf hb
  | true =>
    show qw less Q (if true = true then _ else _) m (n + 1) K
    rw [if_pos rfl]
    dsimp only
    have ht := ht hb
    by_cases hxy : x = y
    · subst hxy
      rw [if_neg (by simp)]
      rw [swapM_self] at ht
      exact ht
    · rw [if_pos hxy]
      unfold Slice.swap
      exact qw_bind (qw_bind (qw_rd fun _ => qw_bind (qw_rd fun _ => qw_bind (qw_wr (qw_wr ht)))))

/-- a run from the two logics -/
theorem ex_of {cmp : Nat → Nat → V → V → Bool → Prop} {W R : Set Nat} (hc : ∀ i j x y, cmp i j x y (less x y))
    {p : Prog V Sp α} : ∀ {m n} {K1 : α → Mem V → Prop} {K2 : α → Mem V → Nat → Prop},
    swp cmp W R p m K1 → qw less Q p m n K2 → ∃ k a m', Ex less Q p m k a m' ∧ K1 a m' ∧ K2 a m' (n + k) := by
  induction p with
  | ret a => intro m n K1 K2 h1 h2; exact ⟨0, a, m, .ret _ _, h1, h2⟩
  | read i k ih =>
    intro m n K1 K2 h1 h2
    obtain ⟨j, a, m', e, h3, h4⟩ := ih _ h1.2 h2
    exact ⟨j, a, m', .read e, h3, h4⟩
  | write i v k ih =>
    intro m n K1 K2 h1 h2
    obtain ⟨j, a, m', e, h3, h4⟩ := ih h1.2 h2
    exact ⟨j, a, m', .write e, h3, h4⟩
  | less i j x y k ih =>
    intro m n K1 K2 h1 h2
    obtain ⟨j, a, m', e, h3, h4⟩ := ih _ (h1.2 _ (hc _ _ _ _)) h2.2
    exact ⟨j + 1, a, m', .less h2.1 e, h3, by rwa [show n + (j + 1) = n + 1 + j by omega]⟩
  | _ => intro m n K1 K2 h1; exact h1.elim

/-- a run is determined by the answers on `Q` -/
theorem Ex.agree {p : Prog V Sp α} {m m' : Mem V} {n : Nat} {a : α} (h : Ex less Q p m n a m')
    (ha : ∀ x y, Q x y → less' x y = less x y) : Ex less' (fun _ _ => True) p m n a m' := by
  induction h with
  | ret a m => exact .ret a m
  | read _ ih => exact .read ih
  | write _ ih => exact .write ih
  | less hq _ ih => rw [← ha _ _ hq] at ih; exact .less trivial ih

theorem atLeast_zero {p : Prog V Sp α} {m : Mem V} : p.atLeast less m 0 := by
  cases p <;> trivial

theorem Ex.atLeast {p : Prog V Sp α} {f : α → Prog V Sp β} {m m' : Mem V} {n k : Nat} {a : α} (h : Ex less Q p m n a m')
    (hk : (f a).atLeast less m' k) : (p >>= f).atLeast less m (n + k) := by
  simp only [Prog.bind_def]
  induction h with
  | ret a m => rw [Nat.zero_add]; exact hk
  | @read i k' m n a m' _ ih =>
    cases hn : n + k with
    | zero => exact atLeast_zero
    | succ j => have := ih hk; rw [hn] at this; exact this
  | @write i v k' m n a m' _ ih =>
    cases hn : n + k with
    | zero => exact atLeast_zero
    | succ j => have := ih hk; rw [hn] at this; exact this
  | @less i j x y k' m n a m' _ _ ih =>
    rw [show n + 1 + k = n + k + 1 by omega]
    exact ih hk

/-- an execution of at least `n` calls -/
theorem atLeast_steps {P : Par V Sp} (hP : ∀ i j x y, P.cmp i j x y (less x y)) {c0 : Cfg V Sp} {p : Prog V Sp Unit} :
    ∀ {sh : Sh V} {n k : Nat}, p.atLeast less sh.mem n → CSteps P Prog.asks c0 ⟨sh, [p]⟩ k →
      ∃ c, CSteps P Prog.asks c0 c (k + n) := by
  induction p with
  | read i f ih =>
    intro sh n k h hs
    cases n with
    | zero => exact ⟨_, hs⟩
    | succ n => exact ih _ (n := n + 1) h (CSteps.tau (l₁ := []) (l₂ := []) hs (.read _ _ _))
  | write i v f ih =>
    intro sh n k h hs
    cases n with
    | zero => exact ⟨_, hs⟩
    | succ n => exact ih (n := n + 1) (sh := { sh with mem := Function.update sh.mem i v }) h (CSteps.tau (l₁ := []) (l₂ := []) hs (.write _ _ _ _))
  | less i j x y f ih =>
    intro sh n k h hs
    cases n with
    | zero => exact ⟨_, hs⟩
    | succ n =>
      have := ih _ (n := n) h (CSteps.tau (l₁ := []) (l₂ := []) hs (.less _ _ _ _ _ _ _ (hP _ _ _ _)))
      rwa [show k + Prog.asks (.less i j x y f) + n = k + (n + 1) by simp only [Prog.asks]; omega] at this
  | maxGor f ih =>
    intro sh n k h hs
    cases n with
    | zero => exact ⟨_, hs⟩
    | succ n => exact ih 0 (n := n + 1) (h 0 (Nat.zero_le _)) (CSteps.tau (l₁ := []) (l₂ := []) hs (.maxGor _ _ 0 (Nat.zero_le _)))
  | _ =>
    intro sh n k h hs
    cases n with
    | zero => exact ⟨_, hs⟩
    | succ n => exact h.elim

/-- the meter runs on -/
theorem CSteps.continue {P : Par V Sp} {w : Prog V Sp Unit → Nat} {c0 c d : Cfg V Sp} {n : Nat} (h : CSteps P w c0 c n)
    (hs : Steps P c d) : ∃ k, CSteps P w c0 d (n + k) := by
  induction hs with
  | refl => exact ⟨0, h⟩
  | tail _ hs ih =>
    obtain ⟨k, ih⟩ := ih
    cases hs with
    | tau l₁ l₂ sh p sh' p' new ht => exact ⟨k + w p, by rw [← Nat.add_assoc]; exact ih.tau ht⟩
    | commSR l₁ l₂ l₃ sh v k k' hs => exact ⟨_, ih.commSR hs⟩
    | commRS l₁ l₂ l₃ sh v k k' hs => exact ⟨_, ih.commRS hs⟩

theorem acc_of_steps {P : Par V Sp} {c d : Cfg V Sp} (ha : Acc (fun c' c => Step P c c') c) (hs : Steps P c d) :
    Acc (fun c' c => Step P c c') d := by
  induction hs with
  | refl => exact ha
  | tail _ h ih => exact ih.inv h

/-- In every execution of a program that is bound to ask `k` times, alone and answered by `less`, either it has asked that often or it is
still going to. -/
theorem atLeast_all {P : Par V Sp} (hM : P.M ≤ 1) (hP : ∀ i j x y b, P.cmp i j x y b → b = less x y) {c0 : Cfg V Sp} {sh0 : Sh V} {p0 : Prog V Sp Unit} {k : Nat}
    (h0 : c0 = ⟨sh0, [p0]⟩) (hk : p0.atLeast less sh0.mem k) {c : Cfg V Sp} {n : Nat} (h : CSteps P Prog.asks c0 c n) :
    k ≤ n ∨ ∃ (sh : Sh V) (p : Prog V Sp Unit) (j : Nat), c = ⟨sh, [p]⟩ ∧ k = n + (j + 1) ∧ p.atLeast less sh.mem (j + 1) := by
  induction h with
  | refl =>
    cases k with
    | zero => exact .inl le_rfl
    | succ j => exact .inr ⟨sh0, p0, j, h0, by omega, hk⟩
  | @tau n l₁ l₂ sh p sh' p' new _ ht ih =>
    rcases ih with h | ⟨sh1, p1, j, hc, hj, hp⟩
    · exact .inl (by omega)
    · obtain ⟨rfl, hl⟩ := Cfg.mk.inj hc
      obtain ⟨rfl, rfl, rfl⟩ : l₁ = [] ∧ p = p1 ∧ l₂ = [] := by
        cases l₁ with
        | nil => simpa using hl
        | cons a l => simp at hl
      cases ht with
      | read i k => exact .inr ⟨_, _, j, rfl, by simpa [Prog.asks] using hj, hp⟩
      | write i v k => exact .inr ⟨_, _, j, rfl, by simpa [Prog.asks] using hj, hp⟩
      | less i j' x y k b hb =>
        rw [hP _ _ _ _ _ hb]
        cases j with
        | zero => left; simp only [Prog.asks]; omega
        | succ j => exact .inr ⟨_, _, j, rfl, by simp only [Prog.asks]; omega, hp⟩
      | maxGor k g hg => exact .inr ⟨_, _, j, rfl, by simpa [Prog.asks] using hj, hp g (hg.trans hM)⟩
      | _ => exact hp.elim
  | @commSR n l₁ l₂ l₃ sh v k k' _ _ ih =>
    rcases ih with h | ⟨sh1, p1, j, hc, hj, hp⟩
    · exact .inl h
    · have := congrArg List.length (Cfg.mk.inj hc).2
      simp at this
      omega
  | @commRS n l₁ l₂ l₃ sh v k k' _ _ ih =>
    rcases ih with h | ⟨sh1, p1, j, hc, hj, hp⟩
    · exact .inl h
    · have := congrArg List.length (Cfg.mk.inj hc).2
      simp at this
      omega

end Sorty
