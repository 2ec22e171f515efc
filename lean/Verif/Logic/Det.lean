import Verif.SpecLsw

/-! # Sequential programs that do the same

`Sim` relates two programs that use no synchronisation and do the same on two ranges of memory, wherever these lie.
Complete executions of them leave the same contents in the two ranges. -/

namespace Sorty

variable {V Sp α β α' β' : Type}

/-- two ranges of `w` addresses, from `o` and from `o'` on; bounds `B`, `B'` of `MaxGor`; whether comparators are used -/
structure SimPar where
  o : Nat
  o' : Nat
  w : Nat
  B : Nat
  B' : Nat
  L : Prop

/-- the programs do the same, the first on the first range and the second on the second; their results are related by `R` -/
inductive Sim (X : SimPar) {α α' : Type} (R : α → α' → Prop) : Prog V Sp α → Prog V Sp α' → Prop
  | ret {a a'} : R a a' → Sim X R (.ret a) (.ret a')
  | read {j k k'} : j < X.w → (∀ x, Sim X R (k x) (k' x)) → Sim X R (.read (X.o + j) k) (.read (X.o' + j) k')
  | write {j v k k'} : j < X.w → Sim X R k k' → Sim X R (.write (X.o + j) v k) (.write (X.o' + j) v k')
  | less {i j x y k k'} : X.L → (∀ b, Sim X R (k b) (k' b)) → Sim X R (.less i j x y k) (.less i j x y k')
  | maxGor {k k'} : (∀ a b, a ≤ X.B → b ≤ X.B' → Sim X R (k a) (k' b)) → Sim X R (.maxGor k) (.maxGor k')
  | panic : Sim X R .panic .panic
  | overflow : Sim X R .overflow .overflow
  | diverge : Sim X R .diverge .diverge

variable {X : SimPar}

theorem Sim.bind {R : α → α' → Prop} {Q : β → β' → Prop} {p : Prog V Sp α} {p' : Prog V Sp α'} {f : α → Prog V Sp β}
    {f' : α' → Prog V Sp β'} (h : Sim X R p p') (hf : ∀ a a', R a a' → Sim X Q (f a) (f' a')) :
    Sim X Q (p >>= f) (p' >>= f') := by
  show Sim X Q (Prog.bind p f) (Prog.bind p' f')
  induction h with
  | ret h => exact hf _ _ h
  | read h _ ih => exact .read h ih
  | write h _ ih => exact .write h ih
  | less h _ ih => exact .less h ih
  | maxGor _ ih => exact .maxGor ih
  | panic => exact .panic
  | overflow => exact .overflow
  | diverge => exact .diverge

/-- relation of loop outcomes: states by `S`, results by `R` -/
inductive CtlR {σ σ' : Type} (S : σ → σ' → Prop) (R : α → α' → Prop) : Prog.Ctl σ α → Prog.Ctl σ' α' → Prop
  | again {s s'} : S s s' → CtlR S R (.again s) (.again s')
  | brk {a a'} : R a a' → CtlR S R (.brk a) (.brk a')

theorem Sim.loop {σ σ' : Type} {S : σ → σ' → Prop} {R : α → α' → Prop} {body : σ → Prog V Sp (Prog.Ctl σ α)}
    {body' : σ' → Prog V Sp (Prog.Ctl σ' α')} (h : ∀ s s', S s s' → Sim X (CtlR S R) (body s) (body' s')) :
    ∀ (N : Nat) {s s'}, S s s' → Sim X R (Prog.loop N body s) (Prog.loop N body' s') := by
  intro N
  induction N with
  | zero => intro s s' _; exact .diverge
  | succ N ih =>
    intro s s' hs
    refine Sim.bind (h s s' hs) fun r r' hr => ?_
    cases hr with
    | again h => exact ih h
    | brk h => exact .ret h

theorem Sim.ite {R : α → α' → Prop} {p q : Prog V Sp α} {p' q' : Prog V Sp α'} {b : Prop} [Decidable b]
    (h1 : b → Sim X R p p') (h2 : ¬ b → Sim X R q q') : Sim X R (if b then p else q) (if b then p' else q') := by
  by_cases h : b
  · rw [if_pos h, if_pos h]; exact h1 h
  · rw [if_neg h, if_neg h]; exact h2 h

/-- `n` steps -/
inductive NSteps (P : Par V Sp) : Nat → Cfg V Sp → Cfg V Sp → Prop
  | refl (c) : NSteps P 0 c c
  | head {n c c' c''} : Step P c c' → NSteps P n c' c'' → NSteps P (n + 1) c c''

variable {P P' : Par V Sp}

theorem NSteps.tail {n : Nat} {c c' c'' : Cfg V Sp} (h : NSteps P n c c') (hs : Step P c' c'') : NSteps P (n + 1) c c'' := by
  induction h with
  | refl c => exact .head hs (.refl _)
  | head h _ ih => exact .head h (ih hs)

theorem Steps.count {c c' : Cfg V Sp} (h : Steps P c c') : ∃ n, NSteps P n c c' := by
  induction h with
  | refl => exact ⟨0, .refl _⟩
  | tail _ hs ih => obtain ⟨n, h⟩ := ih; exact ⟨n + 1, h.tail hs⟩

theorem step_one {sh : Sh V} {p : Prog V Sp Unit} {c : Cfg V Sp} (h : Step P ⟨sh, [p]⟩ c) :
    ∃ sh' p' new, TStep P sh p sh' p' new ∧ c = ⟨sh', p' :: new⟩ := by
  generalize hc : (⟨sh, [p]⟩ : Cfg V Sp) = c0 at h
  cases h with
  | tau l₁ l₂ sh0 q sh' q' new ht =>
    injection hc with h1 h2
    subst h1
    cases l₁ with
    | nil =>
      injection h2 with h3 h4
      subst h3; subst h4
      exact ⟨_, _, _, ht, rfl⟩
    | cons a l₁ => simp at h2
  | commSR l₁ l₂ l₃ sh0 v k k' _ =>
    injection hc with _ h2
    have := congrArg List.length h2
    simp at this
    omega
  | commRS l₁ l₂ l₃ sh0 v k k' _ =>
    injection hc with _ h2
    have := congrArg List.length h2
    simp at this
    omega

/-- equal contents of the two ranges -/
def SimPar.Same (X : SimPar) (m m' : Mem V) : Prop := ∀ j < X.w, m (X.o + j) = m' (X.o' + j)

theorem tstep_sim (hB : P.M ≤ X.B) (hB' : P'.M ≤ X.B') (hc : X.L → Repeatable P.cmp ∧ P'.cmp = P.cmp) {sh s1 sh' s2 : Sh V}
    {p p1 p' p2 : Prog V Sp Unit} {n1 n2} (h1 : TStep P sh p s1 p1 n1) (h2 : TStep P' sh' p' s2 p2 n2)
    {R : Unit → Unit → Prop} (hp : Sim X R p p') (hm : X.Same sh.mem sh'.mem) :
    n1 = [] ∧ n2 = [] ∧ Sim X R p1 p2 ∧ X.Same s1.mem s2.mem := by
  cases hp with
  | ret _ => cases h1
  | read hj hk =>
    cases h1; cases h2
    rw [hm _ hj]
    exact ⟨rfl, rfl, hk _, hm⟩
  | @write j v k k' hj hk =>
    cases h1; cases h2
    refine ⟨rfl, rfl, hk, fun j' hj' => ?_⟩
    by_cases e : j' = j
    · subst e; simp
    · simp only [Function.update_apply]
      rw [if_neg (by omega), if_neg (by omega)]
      exact hm _ hj'
  | less hL hk =>
    obtain ⟨hr, he⟩ := hc hL
    cases h1 with
    | less _ _ _ _ _ b hb =>
    cases h2 with
    | less _ _ _ _ _ b' hb' =>
    rw [he] at hb'
    rw [hr _ _ _ _ _ _ hb hb']
    exact ⟨rfl, rfl, hk _, hm⟩
  | maxGor hk =>
    cases h1 with
    | maxGor _ a ha =>
    cases h2 with
    | maxGor _ b hb =>
    exact ⟨rfl, rfl, hk _ _ (by omega) (by omega), hm⟩
  | panic => cases h1
  | overflow => cases h1
  | diverge => cases h1

theorem Sim.ret_left {R : Unit → Unit → Prop} {p : Prog V Sp Unit} (h : Sim X R (.ret ()) p) : p = .ret () := by
  cases h; rfl

theorem Sim.ret_right {R : Unit → Unit → Prop} {p : Prog V Sp Unit} (h : Sim X R p (.ret ())) : p = .ret () := by
  cases h; rfl

theorem NSteps.sim (hB : P.M ≤ X.B) (hB' : P'.M ≤ X.B') (hc : X.L → Repeatable P.cmp ∧ P'.cmp = P.cmp)
    {R : Unit → Unit → Prop} {n : Nat} : ∀ {n' : Nat} {sh sh' : Sh V} {p p' : Prog V Sp Unit} {c c' : Cfg V Sp},
    NSteps P n ⟨sh, [p]⟩ c → NSteps P' n' ⟨sh', [p']⟩ c' → Sim X R p p' → X.Same sh.mem sh'.mem →
    Returned c → Returned c' → X.Same c.sh.mem c'.sh.mem := by
  induction n with
  | zero =>
    intro n' sh sh' p p' c c' h h' hp hm hr hr'
    cases h
    obtain ⟨l, hl⟩ := hr
    injection hl with h1 h2
    subst h1
    have := hp.ret_left
    subst this
    cases h' with
    | refl => exact hm
    | head hs _ =>
      obtain ⟨_, _, _, ht, _⟩ := step_one hs
      cases ht
  | succ n ih =>
    intro n' sh sh' p p' c c' h h' hp hm hr hr'
    cases h with
    | head hs hn =>
    obtain ⟨s1, p1, new, ht, rfl⟩ := step_one hs
    cases h' with
    | refl =>
      obtain ⟨l, hl⟩ := hr'
      injection hl with h1 h2
      subst h1
      have := hp.ret_right
      subst this
      cases ht
    | head hs' hn' =>
      obtain ⟨s2, p2, new', ht', rfl⟩ := step_one hs'
      obtain ⟨rfl, rfl, h1, h2⟩ := tstep_sim hB hB' hc ht ht' hp hm
      exact ih hn hn' h1 h2 hr hr'

/-- complete executions of two programs that do the same leave the same contents in the two ranges -/
theorem sim_result (hB : P.M ≤ X.B) (hB' : P'.M ≤ X.B') (hc : X.L → Repeatable P.cmp ∧ P'.cmp = P.cmp)
    {R : Unit → Unit → Prop} {p p' : Prog V Sp Unit} {m m' : Mem V} {c c' : Cfg V Sp} (hp : Sim X R p p') (hm : X.Same m m')
    (h : Reach P p m c) (h' : Reach P' p' m' c') (hr : Returned c) (hr' : Returned c') : X.Same c.sh.mem c'.sh.mem := by
  obtain ⟨n, hn⟩ := Steps.count h
  obtain ⟨n', hn'⟩ := Steps.count h'
  exact hn.sim hB hB' hc hn' hp hm hr hr'

end Sorty
