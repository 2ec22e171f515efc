import Verif.Sem
import Mathlib.Data.Set.Basic
import Mathlib.Tactic.Linarith

/-! # Program logic

`wp p g m Q`: started with ghost state `g` in memory `m`, the goroutine `p` respects the protocol recorded in
`g` at every step, whatever the other goroutines do within theirs, and ends with `Q`.
-/

namespace Sorty

/-- Contracts of spawned goroutines. -/
structure Spec (V Sp : Type) where
  /-- is it a partition goroutine (`gPartOne*`) or a sorter (`gLong*`)? -/
  isPart : Sp → Bool
  /-- addresses it may write -/
  W : Sp → Set Nat
  /-- addresses it may only read -/
  R : Sp → Set Nat
  /-- number of elements it is responsible for -/
  sz : Sp → Nat
  /-- what must hold when it starts -/
  pre : Sp → Mem V → Prop
  /-- sorter: what holds at its end, as a relation of initial and final memory -/
  goal : Sp → Mem V → Mem V → Prop
  /-- partitioner: what holds of the value it sends -/
  ppost : Sp → Mem V → Int → Mem V → Prop
  /-- comparator answers assumed -/
  cmp : Nat → Nat → V → V → Bool → Prop
  /-- addresses any goroutine may read at any time, without knowing what is there -/
  racy : Set Nat := ∅

/-- Two memories agree on a set of addresses. -/
def Agree {V : Type} (A : Set Nat) (m m' : Mem V) : Prop := ∀ i ∈ A, m i = m' i

/-- The contracts depend only on the declared addresses. -/
structure Spec.Local {V Sp : Type} (S : Spec V Sp) : Prop where
  pre : ∀ s m m', Agree (S.W s ∪ S.R s) m m' → S.pre s m → S.pre s m'
  goal : ∀ s m m', Agree (S.W s ∪ S.R s) m m' → S.goal s m = S.goal s m'
  ppost : ∀ s m m', Agree (S.W s ∪ S.R s) m m' → S.ppost s m = S.ppost s m'
  ppost' : ∀ s m v m' m'', Agree (S.W s ∪ S.R s) m' m'' → S.ppost s m v m' → S.ppost s m v m''

inductive Role where
  | main | sorter | part
  deriving DecidableEq

inductive Phase where
  /-- working -/
  | run
  /-- sorter that has brought `nGor` to 0 and owes the end signal -/
  | last
  /-- caller waiting for the end signal -/
  | wait
  | done
  deriving DecidableEq

/-- Ghost state of a goroutine. -/
structure Gh (V Sp : Type) where
  role : Role
  ph : Phase
  W : Set Nat
  R : Set Nat
  /-- what the sorters spawned by this goroutine will have achieved at the end of the call -/
  P : Mem V → Prop
  /-- what this goroutine (with its descendants) must have achieved at the end of the call -/
  goal : Mem V → Prop
  /-- partitioner: what it must send -/
  pgoal : Int → Mem V → Prop
  /-- outstanding partition goroutine -/
  J : Option (Sp × (Int → Mem V → Prop))
  /-- `nGor` has been increased for a goroutine not yet spawned -/
  T : Bool
  /-- permission to spawn -/
  S : Bool
  /-- last value read from `MaxGor` -/
  mg : Nat
  /-- `syncVar` exists -/
  C : Bool
  /-- may a `syncVar` be created? -/
  big : Bool
  /-- number of elements this goroutine is responsible for -/
  sz : Nat

variable {V Sp α β : Type}

/-- phase of a sorter or caller after its final decrement yielded `n` -/
def afterDec (r : Role) (n : Nat) : Phase :=
  if n = 0 then (if r = .main then .done else .last) else (if r = .main then .wait else .done)

/-- The weakest precondition. After its final decrement a goroutine keeps its region read-only (`R := g.W`), which
records that nobody changes it any more. -/
def wp (S : Spec V Sp) : Prog V Sp α → Gh V Sp → Mem V → (α → Gh V Sp → Mem V → Prop) → Prop
  | .ret a, g, m, Q => Q a g m
  | .read i k, g, m, Q => (g.ph = .run ∧ ((i ∈ g.W ∨ i ∈ g.R) ∨ i ∈ S.racy)) ∧
      ∀ v, (i ∈ g.W ∪ g.R → v = m i) → wp S (k v) g m Q
  | .write i v k, g, m, Q => (g.ph = .run ∧ i ∈ g.W) ∧ wp S k g (Function.update m i v) Q
  | .less i j x y k, g, m, Q => g.ph = .run ∧ ∀ b, S.cmp i j x y b → wp S (k b) g m Q
  | .maxGor k, g, m, Q => g.ph = .run ∧ ∀ n, wp S (k n) { g with mg := n } m Q
  | .loadGor k, g, m, Q => g.C = true ∧ g.ph = .run ∧ g.role ≠ .part ∧ g.J = none ∧
      ∀ n, wp S (k n) { g with S := decide (n < g.mg) } m Q
  | .incGor k, g, m, Q => g.C = true ∧ g.ph = .run ∧ g.role ≠ .part ∧ g.J = none ∧ g.S = true ∧ g.T = false ∧
      2 ≤ g.sz ∧ ∀ n, wp S (k n) { g with S := false, T := true } m Q
  | .decGor k, g, m, Q => g.C = true ∧ g.ph = .run ∧ g.role ≠ .part ∧ g.J = none ∧ g.T = false ∧
      (∀ mf, g.P mf → Agree g.W m mf → g.goal mf) ∧
      ∀ n, wp S (k n) { g with W := ∅, R := g.W, S := false, ph := afterDec g.role n } m Q
  | .mkSync k, g, m, Q => g.role = .main ∧ g.ph = .run ∧ g.C = false ∧ g.big = true ∧ 1 < g.mg ∧ 0 < g.sz ∧
      g.T = false ∧ g.J = none ∧ wp S k { g with C := true, S := true } m Q
  | .go s k, g, m, Q =>
      if S.isPart s = true then
        g.role = .main ∧ g.C = true ∧ g.ph = .run ∧ g.J = none ∧ g.T = false ∧ g.S = true ∧ g.R = ∅ ∧
        S.W s ⊆ g.W ∧ S.R s ⊆ g.W ∧ Disjoint (S.W s) (S.R s) ∧ S.pre s m ∧
        wp S k { g with W := g.W \ (S.W s ∪ S.R s), R := S.R s, J := some (s, S.ppost s m) } m Q
      else
        g.role ≠ .part ∧ g.C = true ∧ g.ph = .run ∧ g.J = none ∧ g.T = true ∧ S.W s ⊆ g.W ∧ S.R s = ∅ ∧
        S.pre s m ∧ 0 < S.sz s ∧ S.sz s < g.sz ∧
        wp S k { g with W := g.W \ S.W s, T := false, sz := g.sz - S.sz s,
                        P := fun mf => g.P mf ∧ S.goal s m mf } m Q
  | .send v k, g, m, Q =>
      (g.role = .part ∧ g.ph = .run ∧ g.pgoal v m ∧ wp S k { g with W := ∅, R := ∅, ph := .done } m Q) ∨
      (g.role = .sorter ∧ g.ph = .last ∧ v = 0 ∧ wp S k { g with ph := .done } m Q)
  | .recv k, g, m, Q =>
      (g.role = .main ∧ g.ph = .run ∧ ∃ s post, g.J = some (s, post) ∧
        ∀ v m', Agree (g.W ∪ g.R) m m' → post v m' →
          wp S (k v) { g with W := g.W ∪ (S.W s ∪ S.R s), R := ∅, J := none } m' Q) ∨
      (g.role = .main ∧ g.ph = .wait ∧ ∀ v, wp S (k v) { g with ph := .done } m Q)
  | .panic, _, _, _ => False
  | .overflow, _, _, _ => False
  | .diverge, _, _, _ => False

theorem Agree.mono {A B : Set Nat} {m m' : Mem V} (h : Agree B m m') (hs : A ⊆ B) : Agree A m m' :=
  fun i hi => h i (hs hi)

theorem Agree.symm {A : Set Nat} {m m' : Mem V} (h : Agree A m m') : Agree A m' m := fun i hi => (h i hi).symm

theorem Agree.trans {A : Set Nat} {m m' m'' : Mem V} (h : Agree A m m') (h' : Agree A m' m'') : Agree A m m'' :=
  fun i hi => (h i hi).trans (h' i hi)

theorem Agree.refl (A : Set Nat) (m : Mem V) : Agree A m m := fun _ _ => rfl

theorem wp_mono {S : Spec V Sp} {p : Prog V Sp α} : ∀ {g m} {Q Q' : α → Gh V Sp → Mem V → Prop},
    wp S p g m Q → (∀ a g m, Q a g m → Q' a g m) → wp S p g m Q' := by
  induction p with
  | ret a => intro g m Q Q' h hQ; exact hQ _ _ _ h
  | read i k ih => intro g m Q Q' h hQ; exact ⟨h.1, fun v hv => ih _ (h.2 v hv) hQ⟩
  | write i v k ih => intro g m Q Q' h hQ; exact ⟨h.1, ih h.2 hQ⟩
  | less i j x y k ih => intro g m Q Q' h hQ; exact ⟨h.1, fun b hb => ih _ (h.2 b hb) hQ⟩
  | maxGor k ih => intro g m Q Q' h hQ; exact ⟨h.1, fun n => ih _ (h.2 n) hQ⟩
  | loadGor k ih => intro g m Q Q' h hQ; exact ⟨h.1, h.2.1, h.2.2.1, h.2.2.2.1, fun n => ih _ (h.2.2.2.2 n) hQ⟩
  | incGor k ih =>
    intro g m Q Q' h hQ
    obtain ⟨h1, h2, h3, h4, h5, h6, h7, h8⟩ := h
    exact ⟨h1, h2, h3, h4, h5, h6, h7, fun n => ih _ (h8 n) hQ⟩
  | decGor k ih =>
    intro g m Q Q' h hQ
    obtain ⟨h1, h2, h3, h4, h5, h6, h7⟩ := h
    exact ⟨h1, h2, h3, h4, h5, h6, fun n => ih _ (h7 n) hQ⟩
  | mkSync k ih =>
    intro g m Q Q' h hQ
    obtain ⟨h1, h2, h3, h4, h5, h6, h7, h8, h9⟩ := h
    exact ⟨h1, h2, h3, h4, h5, h6, h7, h8, ih h9 hQ⟩
  | go s k ih =>
    intro g m Q Q' h hQ
    unfold wp at h ⊢
    split_ifs at h ⊢ with hp
    · obtain ⟨h1, h2, h3, h4, h5, h6, h7, h8, h9, h10, h11, h12⟩ := h
      exact ⟨h1, h2, h3, h4, h5, h6, h7, h8, h9, h10, h11, ih h12 hQ⟩
    · obtain ⟨h1, h2, h3, h4, h5, h6, h7, h8, h9, h10, h11⟩ := h
      exact ⟨h1, h2, h3, h4, h5, h6, h7, h8, h9, h10, ih h11 hQ⟩
  | send v k ih =>
    intro g m Q Q' h hQ
    rcases h with ⟨h1, h2, h3, h4⟩ | ⟨h1, h2, h3, h4⟩
    · exact .inl ⟨h1, h2, h3, ih h4 hQ⟩
    · exact .inr ⟨h1, h2, h3, ih h4 hQ⟩
  | recv k ih =>
    intro g m Q Q' h hQ
    rcases h with ⟨h1, h2, s, post, h3, h4⟩ | ⟨h1, h2, h3⟩
    · exact .inl ⟨h1, h2, s, post, h3, fun v m' ha hp => ih _ (h4 v m' ha hp) hQ⟩
    · exact .inr ⟨h1, h2, fun v => ih _ (h3 v) hQ⟩
  | panic => intro g m Q Q' h; exact h.elim
  | overflow => intro g m Q Q' h; exact h.elim
  | diverge => intro g m Q Q' h; exact h.elim

theorem wp_bind {S : Spec V Sp} {p : Prog V Sp α} {f : α → Prog V Sp β} : ∀ {g m} {Q : β → Gh V Sp → Mem V → Prop},
    wp S p g m (fun a g m => wp S (f a) g m Q) → wp S (p.bind f) g m Q := by
  induction p with
  | ret a => intro g m Q h; exact h
  | read i k ih => intro g m Q h; exact ⟨h.1, fun v hv => ih _ (h.2 v hv)⟩
  | write i v k ih => intro g m Q h; exact ⟨h.1, ih h.2⟩
  | less i j x y k ih => intro g m Q h; exact ⟨h.1, fun b hb => ih _ (h.2 b hb)⟩
  | maxGor k ih => intro g m Q h; exact ⟨h.1, fun n => ih _ (h.2 n)⟩
  | loadGor k ih => intro g m Q h; exact ⟨h.1, h.2.1, h.2.2.1, h.2.2.2.1, fun n => ih _ (h.2.2.2.2 n)⟩
  | incGor k ih =>
    intro g m Q h
    obtain ⟨h1, h2, h3, h4, h5, h6, h7, h8⟩ := h
    exact ⟨h1, h2, h3, h4, h5, h6, h7, fun n => ih _ (h8 n)⟩
  | decGor k ih =>
    intro g m Q h
    obtain ⟨h1, h2, h3, h4, h5, h6, h7⟩ := h
    exact ⟨h1, h2, h3, h4, h5, h6, fun n => ih _ (h7 n)⟩
  | mkSync k ih =>
    intro g m Q h
    obtain ⟨h1, h2, h3, h4, h5, h6, h7, h8, h9⟩ := h
    exact ⟨h1, h2, h3, h4, h5, h6, h7, h8, ih h9⟩
  | go s k ih =>
    intro g m Q h
    unfold Prog.bind
    unfold wp at h ⊢
    split_ifs at h ⊢ with hp
    · obtain ⟨h1, h2, h3, h4, h5, h6, h7, h8, h9, h10, h11, h12⟩ := h
      exact ⟨h1, h2, h3, h4, h5, h6, h7, h8, h9, h10, h11, ih h12⟩
    · obtain ⟨h1, h2, h3, h4, h5, h6, h7, h8, h9, h10, h11⟩ := h
      exact ⟨h1, h2, h3, h4, h5, h6, h7, h8, h9, h10, ih h11⟩
  | send v k ih =>
    intro g m Q h
    rcases h with ⟨h1, h2, h3, h4⟩ | ⟨h1, h2, h3, h4⟩
    · exact .inl ⟨h1, h2, h3, ih h4⟩
    · exact .inr ⟨h1, h2, h3, ih h4⟩
  | recv k ih =>
    intro g m Q h
    rcases h with ⟨h1, h2, s, post, h3, h4⟩ | ⟨h1, h2, h3⟩
    · exact .inl ⟨h1, h2, s, post, h3, fun v m' ha hp => ih _ (h4 v m' ha hp)⟩
    · exact .inr ⟨h1, h2, fun v => ih _ (h3 v)⟩
  | panic => intro g m Q h; exact h.elim
  | overflow => intro g m Q h; exact h.elim
  | diverge => intro g m Q h; exact h.elim

/-- A goroutine's wp depends only on the memory it may access. -/
theorem wp_agree {S : Spec V Sp} (hS : S.Local) {p : Prog V Sp α} : ∀ {g m m'} {Q : α → Gh V Sp → Mem V → Prop},
    (∀ a g m m', Agree (g.W ∪ g.R) m m' → Q a g m → Q a g m') →
    Agree (g.W ∪ g.R) m m' → (g.role = .part → ∀ v m m', Agree (g.W ∪ g.R) m m' → g.ph = .run → g.pgoal v m → g.pgoal v m') →
    wp S p g m Q → wp S p g m' Q := by
  induction p with
  | ret a => intro g m m' Q hQ ha _ h; exact hQ _ _ _ _ ha h
  | read i k ih =>
    intro g m m' Q hQ ha hp h
    exact ⟨h.1, fun v hv => ih _ hQ ha hp (h.2 v fun hi => (hv hi).trans (ha i hi).symm)⟩
  | write i v k ih =>
    intro g m m' Q hQ ha hp h
    refine ⟨h.1, ih hQ ?_ hp h.2⟩
    intro j hj
    by_cases hji : j = i
    · subst hji; simp
    · simp [hji, ha j hj]
  | less i j x y k ih => intro g m m' Q hQ ha hp h; exact ⟨h.1, fun b hb => ih _ hQ ha hp (h.2 b hb)⟩
  | maxGor k ih => intro g m m' Q hQ ha hp h; exact ⟨h.1, fun n => ih _ hQ ha hp (h.2 n)⟩
  | loadGor k ih =>
    intro g m m' Q hQ ha hp h
    exact ⟨h.1, h.2.1, h.2.2.1, h.2.2.2.1, fun n => ih _ hQ ha hp (h.2.2.2.2 n)⟩
  | incGor k ih =>
    intro g m m' Q hQ ha hp h
    obtain ⟨h1, h2, h3, h4, h5, h6, h7, h8⟩ := h
    exact ⟨h1, h2, h3, h4, h5, h6, h7, fun n => ih _ hQ ha hp (h8 n)⟩
  | decGor k ih =>
    intro g m m' Q hQ ha hp h
    obtain ⟨h1, h2, h3, h4, h5, h6, h7⟩ := h
    refine ⟨h1, h2, h3, h4, h5, fun mf hP hA => h6 mf hP ?_, fun n => ih _ hQ ?_ ?_ (h7 n)⟩
    · exact (ha.mono Set.subset_union_left).trans hA
    · intro i hi; exact ha i (.inl (by simpa using hi))
    · intro hr; exact absurd hr h3
  | mkSync k ih =>
    intro g m m' Q hQ ha hp h
    obtain ⟨h1, h2, h3, h4, h5, h6, h7, h8, h9⟩ := h
    exact ⟨h1, h2, h3, h4, h5, h6, h7, h8, ih hQ ha hp h9⟩
  | go s k ih =>
    intro g m m' Q hQ ha hp h
    unfold wp at h ⊢
    split_ifs at h ⊢ with hpt
    · obtain ⟨h1, h2, h3, h4, h5, h6, h7, h8, h9, h10, h11, h12⟩ := h
      have hag : Agree (S.W s ∪ S.R s) m m' :=
        ha.mono ((Set.union_subset h8 h9).trans Set.subset_union_left)
      refine ⟨h1, h2, h3, h4, h5, h6, h7, h8, h9, h10, hS.pre _ _ _ hag h11, ?_⟩
      rw [← hS.ppost s m m' hag]
      refine ih hQ ?_ ?_ h12
      · refine ha.mono ?_
        rintro i (hi | hi)
        · exact .inl hi.1
        · exact .inl (h9 hi)
      · intro hr; rw [h1] at hr; cases hr
    · obtain ⟨h1, h2, h3, h4, h5, h6, h7, h8, h9, h10, h11⟩ := h
      have hag : Agree (S.W s ∪ S.R s) m m' := by
        rw [h7, Set.union_empty]; exact ha.mono (h6.trans Set.subset_union_left)
      refine ⟨h1, h2, h3, h4, h5, h6, h7, hS.pre _ _ _ hag h8, h9, h10, ?_⟩
      rw [← hS.goal s m m' hag]
      refine ih hQ ?_ ?_ h11
      · refine ha.mono ?_
        rintro i (hi | hi)
        · exact .inl hi.1
        · exact .inr hi
      · intro hr; exact absurd hr h1
  | send v k ih =>
    intro g m m' Q hQ ha hp h
    rcases h with ⟨h1, h2, h3, h4⟩ | ⟨h1, h2, h3, h4⟩
    · refine .inl ⟨h1, h2, hp h1 _ _ _ ha h2 h3, ih hQ ?_ ?_ h4⟩
      · intro i hi; simp at hi
      · intro _ _ _ _ _ hph; cases hph
    · exact .inr ⟨h1, h2, h3, ih hQ ha (by intro hr; rw [h1] at hr; cases hr) h4⟩
  | recv k ih =>
    intro g m m' Q hQ ha hp h
    rcases h with ⟨h1, h2, s, post, h3, h4⟩ | ⟨h1, h2, h3⟩
    · exact .inl ⟨h1, h2, s, post, h3, fun v m'' ha' hp' => h4 v m'' (ha.trans ha') hp'⟩
    · exact .inr ⟨h1, h2, fun v => ih _ hQ ha (by intro hr; rw [h1] at hr; cases hr) (h3 v)⟩
  | panic => intro g m m' Q _ _ _ h; exact h.elim
  | overflow => intro g m m' Q _ _ _ h; exact h.elim
  | diverge => intro g m m' Q _ _ _ h; exact h.elim

/-- Loop rule: invariant `I` with a measure `μ` that decreases, started below the fuel. -/
theorem wp_loop {S : Spec V Sp} {σ : Type} (body : σ → Prog V Sp (Prog.Ctl σ α)) (Q : α → Gh V Sp → Mem V → Prop)
    (I : σ → Gh V Sp → Mem V → Prop) (μ : σ → Nat)
    (hstep : ∀ s g m, I s g m → wp S (body s) g m fun c g m =>
      match c with
      | .again s' => I s' g m ∧ μ s' < μ s
      | .brk a => Q a g m) :
    ∀ n s g m, I s g m → μ s < n → wp S (Prog.loop n body s) g m Q := by
  intro n
  induction n with
  | zero => intro s g m _ h; omega
  | succ n ih =>
    intro s g m hI hμ
    apply wp_bind
    refine wp_mono (hstep s g m hI) ?_
    rintro (s' | a) g m h
    · exact ih s' g m h.1 (by have := h.2; omega)
    · exact h

end Sorty
