import Verif.Logic.Adv

/-! # Counting the accesses of sequential code

`TRuns p m n a m'`: `p` runs from `m` to its result `a` and memory `m'`, with `n` loads and stores. `Prog.touches p m n`: alone, and if
`MaxGor` is at most 1, `p` is bound to do at least `n` of them. -/

namespace Sorty

open Prog

variable {V V' Sp α β : Type}

inductive TRuns : Prog V Sp α → Mem V → Nat → α → Mem V → Prop
  | ret (a m) : TRuns (.ret a) m 0 a m
  | read {i k m n a m'} : TRuns (k (m i)) m n a m' → TRuns (.read i k) m (n + 1) a m'
  | write {i v k m n a m'} : TRuns k (Function.update m i v) n a m' → TRuns (.write i v k) m (n + 1) a m'

/-- what holds when `p` ends, if it ends; the counter goes up -/
def aw : Prog V Sp α → Mem V → Nat → (α → Mem V → Nat → Prop) → Prop
  | .ret a, m, n, K => K a m n
  | .read i k, m, n, K => aw (k (m i)) m (n + 1) K
  | .write i v k, m, n, K => aw k (Function.update m i v) (n + 1) K
  | _, _, _, _ => True

/-- if `MaxGor` is at most 1, `p` loads and stores at least `n` times -/
def Prog.touches : Prog V Sp α → Mem V → Nat → Prop
  | .read i k, m, n + 1 => (k (m i)).touches m n
  | .write i v k, m, n + 1 => k.touches (Function.update m i v) n
  | .maxGor k, m, n + 1 => ∀ g ≤ 1, (k g).touches m (n + 1)
  | _, _, 0 => True
  | _, _, _ + 1 => False

theorem aw_mono {p : Prog V Sp α} : ∀ {m n} {K K' : α → Mem V → Nat → Prop},
    aw p m n K → (∀ a m n, K a m n → K' a m n) → aw p m n K' := by
  induction p with
  | ret a => intro m n K K' h hK; exact hK _ _ _ h
  | read i k ih => intro m n K K' h hK; exact ih _ h hK
  | write i v k ih => intro m n K K' h hK; exact ih h hK
  | _ => intros; trivial

theorem aw_bind {p : Prog V Sp α} {f : α → Prog V Sp β} : ∀ {m n} {K : β → Mem V → Nat → Prop},
    aw p m n (fun a m n => aw (f a) m n K) → aw (p >>= f) m n K := by
  simp only [Prog.bind_def]
  induction p with
  | ret a => intro m n K h; exact h
  | read i k ih => intro m n K h; exact ih _ h
  | write i v k ih => intro m n K h; exact ih h
  | _ => intros; trivial

theorem aw_loop {σ : Type} {body : σ → Prog V Sp (Prog.Ctl σ α)} {K : α → Mem V → Nat → Prop} (I : σ → Mem V → Nat → Prop)
    (hstep : ∀ s m n, I s m n → aw (body s) m n fun c m n =>
      match c with
      | .again s' => I s' m n
      | .brk a => K a m n) : ∀ f s m n, I s m n → aw (Prog.loop f body s) m n K := by
  intro f
  induction f with
  | zero => intros; trivial
  | succ f ih =>
    intro s m n hI
    apply aw_bind
    refine aw_mono (hstep s m n hI) ?_
    rintro (s' | a) m n h
    · exact ih s' m n h
    · exact h

theorem aw_rd {s : Slice} {i : Int} {m : Mem V} {n : Nat} {K : V → Mem V → Nat → Prop} (h : s.ok i → K (s.E m i) m (n + 1)) :
    aw (s.rd i : Prog V Sp V) m n K := by
  unfold Slice.rd
  split_ifs with h1
  · exact h h1
  · trivial

theorem aw_wr {s : Slice} {i : Int} {v : V} {m : Mem V} {n : Nat} {K : Unit → Mem V → Nat → Prop}
    (h : K () (Function.update m (s.off + i.toNat) v) (n + 1)) : aw (s.wr i v : Prog V Sp Unit) m n K := by
  unfold Slice.wr
  split_ifs with h1
  · exact h
  · trivial

theorem aw_swap {s : Slice} {i j : Int} {m : Mem V} {n : Nat} {K : Unit → Mem V → Nat → Prop}
    (h : ∀ m, K () m (n + 4)) : aw (s.swap i j : Prog V Sp Unit) m n K := by
  unfold Slice.swap
  exact aw_bind (aw_rd fun _ => aw_bind (aw_rd fun _ => aw_bind (aw_wr (aw_wr (h _)))))

/-- a run from the two logics -/
theorem runs_of {cmp : Nat → Nat → V → V → Bool → Prop} (hc : ∀ i j x y b, ¬ cmp i j x y b) {W R : Set Nat} {p : Prog V Sp α} :
    ∀ {m n} {K1 : α → Mem V → Prop} {K2 : α → Mem V → Nat → Prop},
    swp cmp W R p m K1 → aw p m n K2 → ∃ k a m', TRuns p m k a m' ∧ K1 a m' ∧ K2 a m' (n + k) := by
  induction p with
  | ret a => intro m n K1 K2 h1 h2; exact ⟨0, a, m, .ret _ _, h1, h2⟩
  | read i k ih =>
    intro m n K1 K2 h1 h2
    obtain ⟨j, a, m', e, h3, h4⟩ := ih _ h1.2 h2
    exact ⟨j + 1, a, m', .read e, h3, by rwa [show n + (j + 1) = n + 1 + j by omega]⟩
  | write i v k ih =>
    intro m n K1 K2 h1 h2
    obtain ⟨j, a, m', e, h3, h4⟩ := ih h1.2 h2
    exact ⟨j + 1, a, m', .write e, h3, by rwa [show n + (j + 1) = n + 1 + j by omega]⟩
  | less i j x y k ih =>
    intro m n K1 K2 h1
    obtain ⟨b, hb⟩ := h1.1
    exact absurd hb (hc _ _ _ _ _)
  | _ => intro m n K1 K2 h1; exact h1.elim

theorem aw_true {p : Prog V Sp α} : ∀ {m n}, aw p m n fun _ _ _ => True := by
  induction p with
  | ret a => intros; trivial
  | read i k ih => intro m n; exact ih _
  | write i v k ih => intro m n; exact ih
  | _ => intros; trivial

theorem TRuns.det {p : Prog V Sp α} {m m1 m2 : Mem V} {n1 n2 : Nat} {a1 a2 : α} (h1 : TRuns p m n1 a1 m1) :
    TRuns p m n2 a2 m2 → n1 = n2 ∧ a1 = a2 ∧ m1 = m2 := by
  induction h1 generalizing n2 with
  | ret a m => intro h; cases h; exact ⟨rfl, rfl, rfl⟩
  | read _ ih =>
    intro h
    cases h with
    | read h => obtain ⟨rfl, rfl, rfl⟩ := ih h; exact ⟨rfl, rfl, rfl⟩
  | write _ ih =>
    intro h
    cases h with
    | write h => obtain ⟨rfl, rfl, rfl⟩ := ih h; exact ⟨rfl, rfl, rfl⟩

theorem touches_zero {p : Prog V Sp α} {m : Mem V} : p.touches m 0 := by
  cases p <;> trivial

theorem touches_le {p : Prog V Sp α} : ∀ {m : Mem V} {n k : Nat}, p.touches m n → k ≤ n → p.touches m k := by
  induction p with
  | read i f ih =>
    intro m n k h hk
    cases k with
    | zero => trivial
    | succ k =>
      obtain ⟨n, rfl⟩ : ∃ j, n = j + 1 := ⟨n - 1, by omega⟩
      exact ih _ (n := n) h (by omega)
  | write i v f ih =>
    intro m n k h hk
    cases k with
    | zero => trivial
    | succ k =>
      obtain ⟨n, rfl⟩ : ∃ j, n = j + 1 := ⟨n - 1, by omega⟩
      exact ih (n := n) h (by omega)
  | maxGor f ih =>
    intro m n k h hk
    cases k with
    | zero => trivial
    | succ k =>
      obtain ⟨n, rfl⟩ : ∃ j, n = j + 1 := ⟨n - 1, by omega⟩
      exact fun g hg => ih g (h g hg) hk
  | _ =>
    intro m n k h hk
    cases k with
    | zero => trivial
    | succ k =>
      obtain ⟨n, rfl⟩ : ∃ j, n = j + 1 := ⟨n - 1, by omega⟩
      exact h.elim

theorem TRuns.touches {p : Prog V Sp α} {f : α → Prog V Sp β} {m m' : Mem V} {n k : Nat} {a : α} (h : TRuns p m n a m')
    (hk : (f a).touches m' k) : (p >>= f).touches m (n + k) := by
  simp only [Prog.bind_def]
  induction h with
  | ret a m => rw [Nat.zero_add]; exact hk
  | @read i k' m n a m' _ ih =>
    rw [show n + 1 + k = n + k + 1 by omega]
    exact ih hk
  | @write i v k' m n a m' _ ih =>
    rw [show n + 1 + k = n + k + 1 by omega]
    exact ih hk

/-- an execution of at least `n` accesses -/
theorem touches_steps {P : Par V Sp} {c0 : Cfg V Sp} {p : Prog V Sp Unit} :
    ∀ {sh : Sh V} {n k : Nat}, p.touches sh.mem n → CSteps P Prog.accs c0 ⟨sh, [p]⟩ k →
      ∃ c, CSteps P Prog.accs c0 c (k + n) := by
  induction p with
  | read i f ih =>
    intro sh n k h hs
    cases n with
    | zero => exact ⟨_, hs⟩
    | succ n =>
      have := ih _ (n := n) h (CSteps.tau (l₁ := []) (l₂ := []) hs (.read _ _ _))
      rwa [show k + Prog.accs (.read i f) + n = k + (n + 1) by simp only [Prog.accs]; omega] at this
  | write i v f ih =>
    intro sh n k h hs
    cases n with
    | zero => exact ⟨_, hs⟩
    | succ n =>
      have := ih (n := n) (sh := { sh with mem := Function.update sh.mem i v }) h (CSteps.tau (l₁ := []) (l₂ := []) hs (.write _ _ _ _))
      rwa [show k + Prog.accs (.write i v f) + n = k + (n + 1) by simp only [Prog.accs]; omega] at this
  | maxGor f ih =>
    intro sh n k h hs
    cases n with
    | zero => exact ⟨_, hs⟩
    | succ n => exact ih 0 (n := n + 1) (h 0 (Nat.zero_le _)) (CSteps.tau (l₁ := []) (l₂ := []) hs (.maxGor _ _ 0 (Nat.zero_le _)))
  | _ =>
    intro sh n k h hs
    cases n with
    | zero => exact ⟨_, hs⟩
    | succ n => exact h.elim

/-- In every execution of a program that is bound to do `k` accesses, alone, either it has done them or it is still going to. -/
theorem touches_all {P : Par V Sp} (hM : P.M ≤ 1) {c0 : Cfg V Sp} {sh0 : Sh V} {p0 : Prog V Sp Unit} {k : Nat}
    (h0 : c0 = ⟨sh0, [p0]⟩) (hk : p0.touches sh0.mem k) {c : Cfg V Sp} {n : Nat} (h : CSteps P Prog.accs c0 c n) :
    k ≤ n ∨ ∃ (sh : Sh V) (p : Prog V Sp Unit) (j : Nat), c = ⟨sh, [p]⟩ ∧ k = n + (j + 1) ∧ p.touches sh.mem (j + 1) := by
  induction h with
  | refl =>
    cases k with
    | zero => exact .inl le_rfl
    | succ j => exact .inr ⟨sh0, p0, j, h0, by omega, hk⟩
  | @tau n l₁ l₂ sh p sh' p' new _ ht ih =>
    rcases ih with h | ⟨sh1, p1, j, hc, hj, hp⟩
    · exact .inl (by omega)
    · obtain ⟨rfl, hl⟩ := Cfg.mk.inj hc
      obtain ⟨rfl, rfl, rfl⟩ : l₁ = [] ∧ p = p1 ∧ l₂ = [] := by
        cases l₁ with
        | nil => simpa using hl
        | cons a l => simp at hl
      cases ht with
      | read i k =>
        cases j with
        | zero => left; simp only [Prog.accs]; omega
        | succ j => exact .inr ⟨_, _, j, rfl, by simp only [Prog.accs]; omega, hp⟩
      | write i v k =>
        cases j with
        | zero => left; simp only [Prog.accs]; omega
        | succ j => exact .inr ⟨_, _, j, rfl, by simp only [Prog.accs]; omega, hp⟩
      | maxGor k g hg => exact .inr ⟨_, _, j, rfl, by simpa [Prog.accs] using hj, hp g (hg.trans hM)⟩
      | _ => exact hp.elim
  | @commSR n l₁ l₂ l₃ sh v k k' _ _ ih =>
    rcases ih with h | ⟨sh1, p1, j, hc, hj, hp⟩
    · exact .inl h
    · have := congrArg List.length (Cfg.mk.inj hc).2
      simp at this
      omega
  | @commRS n l₁ l₂ l₃ sh v k k' _ _ ih =>
    rcases ih with h | ⟨sh1, p1, j, hc, hj, hp⟩
    · exact .inl h
    · have := congrArg List.length (Cfg.mk.inj hc).2
      simp at this
      omega

/-! ## The same code on elements and on names of elements -/

/-- `p` does on elements what `p'` does on their names, `g` giving the element of a name -/
inductive Img (g : V' → V) : Prog V' Sp α → Prog V Sp α → Prop
  | ret (a) : Img g (.ret a) (.ret a)
  | read {i k' k} : (∀ x, Img g (k' x) (k (g x))) → Img g (.read i k') (.read i k)
  | write {i x k' k} : Img g k' k → Img g (.write i x k') (.write i (g x) k)
  | panic : Img g .panic .panic
  | diverge : Img g .diverge .diverge

variable {g : V' → V}

theorem Img.bind {p' : Prog V' Sp α} {p : Prog V Sp α} {f' : α → Prog V' Sp β} {f : α → Prog V Sp β} (h : Img g p' p)
    (hf : ∀ a, Img g (f' a) (f a)) : Img g (p' >>= f') (p >>= f) := by
  simp only [Prog.bind_def]
  induction h with
  | ret a => exact hf a
  | read _ ih => exact .read ih
  | write _ ih => exact .write ih
  | panic => exact .panic
  | diverge => exact .diverge

theorem Img.loop {σ : Type} {body' : σ → Prog V' Sp (Ctl σ α)} {body : σ → Prog V Sp (Ctl σ α)} (h : ∀ s, Img g (body' s) (body s)) :
    ∀ n s, Img g (Prog.loop n body' s) (Prog.loop n body s) := by
  intro n
  induction n with
  | zero => intro s; exact .diverge
  | succ n ih =>
    intro s
    refine Img.bind (h s) ?_
    rintro (s' | a)
    · exact ih s'
    · exact .ret a

theorem Img.rd {s : Slice} {i : Int} {f' : V' → Prog V' Sp β} {f : V → Prog V Sp β} (hf : ∀ x, Img g (f' x) (f (g x))) :
    Img g (s.rd i >>= f') (s.rd i >>= f) := by
  unfold Slice.rd
  split_ifs
  · exact .read hf
  · exact .panic

theorem Img.wr {s : Slice} {i : Int} {x : V'} : Img g (s.wr i x : Prog V' Sp Unit) (s.wr i (g x)) := by
  unfold Slice.wr
  split_ifs
  · exact .write (.ret _)
  · exact .panic

theorem Img.runs {p' : Prog V' Sp α} {p : Prog V Sp α} {l l' : Mem V'} {n : Nat} {a : α} (hr : TRuns p' l n a l') :
    Img g p' p → TRuns p (g ∘ l) n a (g ∘ l') := by
  induction hr generalizing p with
  | ret a m => intro h; cases h; exact .ret _ _
  | read _ ih =>
    intro h
    cases h with
    | read h => exact .read (ih (h _))
  | write _ ih =>
    intro h
    cases h with
    | write h =>
      have := ih h
      rw [Function.comp_update] at this
      exact .write this

end Sorty
