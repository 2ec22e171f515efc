import Verif.Sem
import Mathlib.Logic.Hydra

/-! # Termination of all schedules

Every goroutine is a well-founded tree of effects and every spawned goroutine has a smaller rank than its creator,
so no execution is infinite, whatever the schedule and the answers of the environment are. -/

namespace Sorty

variable {V Sp α β : Type}

/-- every goroutine spawned by `p` has rank below `n` -/
def SpB (ρ : Sp → Nat) (n : Nat) : Prog V Sp α → Prop
  | .ret _ => True
  | .read _ k => ∀ x, SpB ρ n (k x)
  | .write _ _ k => SpB ρ n k
  | .less _ _ _ _ k => ∀ b, SpB ρ n (k b)
  | .maxGor k => ∀ x, SpB ρ n (k x)
  | .loadGor k => ∀ x, SpB ρ n (k x)
  | .incGor k => ∀ x, SpB ρ n (k x)
  | .decGor k => ∀ x, SpB ρ n (k x)
  | .mkSync k => SpB ρ n k
  | .go s k => ρ s < n ∧ SpB ρ n k
  | .send _ k => SpB ρ n k
  | .recv k => ∀ x, SpB ρ n (k x)
  | .panic => True
  | .overflow => True
  | .diverge => True

theorem SpB.bind {ρ : Sp → Nat} {n : Nat} {p : Prog V Sp α} {f : α → Prog V Sp β}
    (h : SpB ρ n p) (hf : ∀ a, SpB ρ n (f a)) : SpB ρ n (p >>= f) := by
  show SpB ρ n (Prog.bind p f)
  induction p with
  | ret a => exact hf a
  | read i k ih => intro x; exact ih _ (h x)
  | write i v k ih => exact ih h
  | less i j x y k ih => intro b; exact ih _ (h b)
  | maxGor k ih => intro x; exact ih _ (h x)
  | loadGor k ih => intro x; exact ih _ (h x)
  | incGor k ih => intro x; exact ih _ (h x)
  | decGor k ih => intro x; exact ih _ (h x)
  | mkSync k ih => exact ih h
  | go s k ih => exact ⟨h.1, ih h.2⟩
  | send v k ih => exact ih h
  | recv k ih => intro x; exact ih _ (h x)
  | panic => trivial
  | overflow => trivial
  | diverge => trivial

theorem SpB.mono {ρ : Sp → Nat} {n n' : Nat} (hn : n ≤ n') {p : Prog V Sp α} (h : SpB ρ n p) : SpB ρ n' p := by
  induction p with
  | ret a => trivial
  | read i k ih => intro x; exact ih _ (h x)
  | write i v k ih => exact ih h
  | less i j x y k ih => intro b; exact ih _ (h b)
  | maxGor k ih => intro x; exact ih _ (h x)
  | loadGor k ih => intro x; exact ih _ (h x)
  | incGor k ih => intro x; exact ih _ (h x)
  | decGor k ih => intro x; exact ih _ (h x)
  | mkSync k ih => exact ih h
  | go s k ih => exact ⟨lt_of_lt_of_le h.1 hn, ih h.2⟩
  | send v k ih => exact ih h
  | recv k ih => intro x; exact ih _ (h x)
  | panic => trivial
  | overflow => trivial
  | diverge => trivial

theorem SpB.loop {ρ : Sp → Nat} {n : Nat} {σ : Type} {body : σ → Prog V Sp (Prog.Ctl σ α)}
    (h : ∀ s, SpB ρ n (body s)) : ∀ N s, SpB ρ n (Prog.loop N body s) := by
  intro N
  induction N with
  | zero => intro s; trivial
  | succ N ih =>
    intro s
    refine SpB.bind (h s) fun r => ?_
    cases r with
    | again s' => exact ih s'
    | brk a => trivial

/-- `q` may be what `p` becomes, or what `p` spawns, in one step -/
inductive Child (P : Par V Sp) : Prog V Sp Unit → Prog V Sp Unit → Prop
  | read (i k x) : Child P (k x) (.read i k)
  | write (i v k) : Child P k (.write i v k)
  | less (i j x y k b) : Child P (k b) (.less i j x y k)
  | maxGor (k x) : Child P (k x) (.maxGor k)
  | loadGor (k x) : Child P (k x) (.loadGor k)
  | incGor (k x) : Child P (k x) (.incGor k)
  | decGor (k x) : Child P (k x) (.decGor k)
  | loadNil (k) : Child P .panic (.loadGor k)
  | incNil (k) : Child P .panic (.incGor k)
  | decNil (k) : Child P .panic (.decGor k)
  | mkSync (k) : Child P k (.mkSync k)
  | go (s k) : Child P k (.go s k)
  | spawn (s k) : Child P (P.body s) (.go s k)
  | send (v k) : Child P k (.send v k)
  | recv (k x) : Child P (k x) (.recv k)

variable {P : Par V Sp}

theorem acc_panic : Acc (Child P) .panic := ⟨_, fun q h => by cases h⟩

theorem acc_of_spB {ρ : Sp → Nat} {n : Nat} (hb : ∀ s, ρ s < n → Acc (Child P) (P.body s))
    {p : Prog V Sp Unit} (h : SpB ρ n p) : Acc (Child P) p := by
  induction p with
  | ret a => exact ⟨_, fun q h => by cases h⟩
  | read i k ih => refine ⟨_, fun q hq => ?_⟩; cases hq; exact ih _ (h _)
  | write i v k ih => refine ⟨_, fun q hq => ?_⟩; cases hq; exact ih h
  | less i j x y k ih => refine ⟨_, fun q hq => ?_⟩; cases hq; exact ih _ (h _)
  | maxGor k ih => refine ⟨_, fun q hq => ?_⟩; cases hq; exact ih _ (h _)
  | loadGor k ih =>
    refine ⟨_, fun q hq => ?_⟩
    cases hq
    · exact ih _ (h _)
    · exact acc_panic
  | incGor k ih =>
    refine ⟨_, fun q hq => ?_⟩
    cases hq
    · exact ih _ (h _)
    · exact acc_panic
  | decGor k ih =>
    refine ⟨_, fun q hq => ?_⟩
    cases hq
    · exact ih _ (h _)
    · exact acc_panic
  | mkSync k ih => refine ⟨_, fun q hq => ?_⟩; cases hq; exact ih h
  | go s k ih =>
    refine ⟨_, fun q hq => ?_⟩
    cases hq
    · exact ih h.2
    · exact hb s h.1
  | send v k ih => refine ⟨_, fun q hq => ?_⟩; cases hq; exact ih h
  | recv k ih => refine ⟨_, fun q hq => ?_⟩; cases hq; exact ih _ (h _)
  | panic => exact acc_panic
  | overflow => exact ⟨_, fun q h => by cases h⟩
  | diverge => exact ⟨_, fun q h => by cases h⟩

theorem acc_body {ρ : Sp → Nat} (hb : ∀ s, SpB ρ (ρ s) (P.body s)) : ∀ n s, ρ s < n → Acc (Child P) (P.body s) := by
  intro n
  induction n with
  | zero => intro s hs; omega
  | succ n ih =>
    intro s hs
    exact acc_of_spB (fun s' hs' => ih s' (by omega)) (hb s)

/-- the child relation between accessible programs -/
def AChild (P : Par V Sp) (q p : Prog V Sp Unit) : Prop := Child P q p ∧ Acc (Child P) p

instance : Std.Irrefl (AChild P) := ⟨fun p h => by
  obtain ⟨h1, h2⟩ := h
  induction h2 with
  | intro p _ ih => exact ih p h1 h1⟩

theorem acc_achild {p : Prog V Sp Unit} (h : Acc (Child P) p) : Acc (AChild P) p := by
  induction h with
  | intro p _ ih => exact ⟨_, fun q hq => ih q hq.1⟩

theorem tstep_child {sh p sh' p' new} (ht : TStep P sh p sh' p' new) : ∀ q ∈ p' :: new, Child P q p := by
  cases ht with
  | read i k => simp only [List.mem_singleton, forall_eq]; exact .read _ _ _
  | write i v k => simp only [List.mem_singleton, forall_eq]; exact .write _ _ _
  | less i j x y k b hb => simp only [List.mem_singleton, forall_eq]; exact .less _ _ _ _ _ _
  | maxGor k n hn => simp only [List.mem_singleton, forall_eq]; exact .maxGor _ _
  | loadGor k n h1 h2 => simp only [List.mem_singleton, forall_eq]; exact .loadGor _ _
  | loadNil k h1 => simp only [List.mem_singleton, forall_eq]; exact .loadNil _
  | incGor k h1 => simp only [List.mem_singleton, forall_eq]; exact .incGor _ _
  | incNil k h1 => simp only [List.mem_singleton, forall_eq]; exact .incNil _
  | decGor k h1 => simp only [List.mem_singleton, forall_eq]; exact .decGor _ _
  | decNil k h1 => simp only [List.mem_singleton, forall_eq]; exact .decNil _
  | mkSync k => simp only [List.mem_singleton, forall_eq]; exact .mkSync _
  | go s k =>
    intro q hq
    simp only [List.mem_cons, List.not_mem_nil, or_false] at hq
    rcases hq with rfl | rfl
    · exact .go _ _
    · exact .spawn _ _

open Relation in
theorem step_cut {c c' : Cfg V Sp} (h : Step P c c') (ha : ∀ p ∈ c.ths, Acc (Child P) p) :
    TransGen (CutExpand (AChild P)) (c'.ths : Multiset (Prog V Sp Unit)) c.ths := by
  have key : ∀ (l₁ l₂ : List (Prog V Sp Unit)) p t, Acc (Child P) p → (∀ q ∈ t, Child P q p) →
      CutExpand (AChild P) ((l₁ ++ t ++ l₂ : List _) : Multiset (Prog V Sp Unit)) ((l₁ ++ p :: l₂ : List _) : Multiset _) := by
    intro l₁ l₂ p t hp ht
    refine ⟨(t : Multiset _), p, fun q hq => ⟨ht q (by simpa using hq), hp⟩, ?_⟩
    have : ({p} : Multiset (Prog V Sp Unit)) = ((([p] : List _)) : Multiset _) := rfl
    rw [this, Multiset.coe_add, Multiset.coe_add, Multiset.coe_eq_coe]
    simp only [List.append_assoc, List.perm_append_left_iff, List.cons_append]
    calc t ++ (l₂ ++ [p]) = (t ++ l₂) ++ [p] := by simp
      _ |>.Perm ([p] ++ (t ++ l₂)) := List.perm_append_comm
      _ |>.Perm ([p] ++ (l₂ ++ t)) := List.Perm.append_left _ List.perm_append_comm
      _ = p :: (l₂ ++ t) := rfl
  cases h with
  | tau l₁ l₂ sh p sh' p' new ht =>
    have hp : Acc (Child P) p := ha p (by simp)
    have hc := tstep_child ht
    have h1 := key l₁ l₂ p (p' :: new) hp hc
    have h2 : ((l₁ ++ p' :: l₂ ++ new : List _) : Multiset (Prog V Sp Unit)) = ((l₁ ++ (p' :: new) ++ l₂ : List _) : Multiset _) := by
      rw [Multiset.coe_eq_coe]
      simp only [List.append_assoc, List.cons_append, List.perm_append_left_iff, List.perm_cons]
      exact List.perm_append_comm
    simp only
    rw [h2]
    exact .single h1
  | commSR l₁ l₂ l₃ sh v k k' hs =>
    have h1 := key l₁ (l₂ ++ .recv k' :: l₃) (.send v k) [k] (ha _ (by simp)) (by simp; exact .send _ _)
    have h2 := key (l₁ ++ k :: l₂) l₃ (.recv k') [k' v] (ha _ (by simp)) (by simp; exact .recv _ _)
    refine .tail (.single (by simpa using h2)) ?_
    simpa using h1
  | commRS l₁ l₂ l₃ sh v k k' hs =>
    have h1 := key l₁ (l₂ ++ .send v k :: l₃) (.recv k') [k' v] (ha _ (by simp)) (by simp; exact .recv _ _)
    have h2 := key (l₁ ++ k' v :: l₂) l₃ (.send v k) [k] (ha _ (by simp)) (by simp; exact .send _ _)
    refine .tail (.single (by simpa using h2)) ?_
    simpa using h1

theorem child_ths {c c' : Cfg V Sp} (h : Step P c c') (ha : ∀ p ∈ c.ths, Acc (Child P) p) :
    ∀ p ∈ c'.ths, Acc (Child P) p := by
  cases h with
  | tau l₁ l₂ sh p sh' p' new ht =>
    intro q hq
    simp only [List.append_assoc, List.cons_append, List.mem_append, List.mem_cons] at hq
    have hp : Acc (Child P) p := ha p (by simp)
    have hnew : q = p' ∨ q ∈ new → Acc (Child P) q := fun hq => hp.inv (tstep_child ht q (by simpa using hq))
    rcases hq with hq | hq | hq | hq
    · exact ha q (by simp [hq])
    · exact hnew (.inl hq)
    · exact ha q (by simp [hq])
    · exact hnew (.inr hq)
  | commSR l₁ l₂ l₃ sh v k k' hs =>
    intro q hq
    simp only [List.append_assoc, List.cons_append, List.mem_append, List.mem_cons] at hq
    rcases hq with hq | rfl | hq | rfl | hq
    · exact ha q (by simp [hq])
    · exact (ha (.send v q) (by simp)).inv (.send _ _)
    · exact ha q (by simp [hq])
    · exact (ha (.recv k') (by simp)).inv (.recv _ _)
    · exact ha q (by simp [hq])
  | commRS l₁ l₂ l₃ sh v k k' hs =>
    intro q hq
    simp only [List.append_assoc, List.cons_append, List.mem_append, List.mem_cons] at hq
    rcases hq with hq | rfl | hq | rfl | hq
    · exact ha q (by simp [hq])
    · exact (ha (.recv k') (by simp)).inv (.recv _ _)
    · exact ha q (by simp [hq])
    · exact (ha (.send v q) (by simp)).inv (.send _ _)
    · exact ha q (by simp [hq])

open Relation in
/-- no infinite execution -/
theorem acc_step {c : Cfg V Sp} (ha : ∀ p ∈ c.ths, Acc (Child P) p) : Acc (fun c' c => Step P c c') c := by
  have h0 : Acc (TransGen (CutExpand (AChild P))) (c.ths : Multiset (Prog V Sp Unit)) := by
    refine Acc.transGen (acc_of_singleton fun p hp => ?_)
    exact Acc.cutExpand (acc_achild (ha p (by simpa using hp)))
  generalize hm : (c.ths : Multiset (Prog V Sp Unit)) = m at h0
  induction h0 generalizing c with
  | intro m _ ih =>
    subst hm
    refine ⟨_, fun c' hc => ?_⟩
    exact ih _ (step_cut hc ha) (child_ths hc ha) rfl

/-- the same if other code changes memory before each step -/
def RStep (P : Par V Sp) (c c' : Cfg V Sp) : Prop := ∃ m', Step P ⟨{ c.sh with mem := m' }, c.ths⟩ c'

open Relation in
theorem acc_rstep {c : Cfg V Sp} (ha : ∀ p ∈ c.ths, Acc (Child P) p) : Acc (fun c' c => RStep P c c') c := by
  have h0 : Acc (TransGen (CutExpand (AChild P))) (c.ths : Multiset (Prog V Sp Unit)) := by
    refine Acc.transGen (acc_of_singleton fun p hp => ?_)
    exact Acc.cutExpand (acc_achild (ha p (by simpa using hp)))
  generalize hm : (c.ths : Multiset (Prog V Sp Unit)) = m at h0
  induction h0 generalizing c with
  | intro m _ ih =>
    subst hm
    refine ⟨_, fun c' hc => ?_⟩
    obtain ⟨m', hc⟩ := hc
    exact ih _ (step_cut (c := ⟨{ c.sh with mem := m' }, c.ths⟩) hc ha)
      (child_ths (c := ⟨{ c.sh with mem := m' }, c.ths⟩) hc ha) rfl

theorem acc_rstart {ρ : Sp → Nat} (hb : ∀ s, SpB ρ (ρ s) (P.body s)) {n : Nat} {p : Prog V Sp Unit} (hp : SpB ρ n p)
    (m : Mem V) : Acc (fun c' c => RStep P c c') (start p m) := by
  refine acc_rstep fun q hq => ?_
  simp only [start, List.mem_singleton] at hq
  subst hq
  exact acc_of_spB (acc_body hb n) hp

theorem no_rinfinite {c : Cfg V Sp} (h : Acc (fun c' c => RStep P c c') c) :
    ¬ ∃ f : Nat → Cfg V Sp, f 0 = c ∧ ∀ n, RStep P (f n) (f (n + 1)) := by
  induction h with
  | intro c _ ih =>
    rintro ⟨f, rfl, hf⟩
    exact ih _ (hf 0) ⟨fun n => f (n + 1), rfl, fun n => hf (n + 1)⟩

/-- termination of a call -/
theorem acc_start {ρ : Sp → Nat} (hb : ∀ s, SpB ρ (ρ s) (P.body s)) {n : Nat} {p : Prog V Sp Unit} (hp : SpB ρ n p)
    (m : Mem V) : Acc (fun c' c => Step P c c') (start p m) := by
  refine acc_step fun q hq => ?_
  simp only [start, List.mem_singleton] at hq
  subst hq
  exact acc_of_spB (acc_body hb n) hp

/-- an accessible state starts no infinite execution -/
theorem no_infinite {c : Cfg V Sp} (h : Acc (fun c' c => Step P c c') c) :
    ¬ ∃ f : Nat → Cfg V Sp, f 0 = c ∧ ∀ n, Step P (f n) (f (n + 1)) := by
  induction h with
  | intro c _ ih =>
    rintro ⟨f, rfl, hf⟩
    exact ih _ (hf 0) ⟨fun n => f (n + 1), rfl, fun n => hf (n + 1)⟩

end Sorty
