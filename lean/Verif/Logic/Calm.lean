import Verif.Logic.Run
import Verif.Logic.Safe

/-! # How many goroutines are still started once MaxGor is 1 -/

namespace Sorty

open Prog

variable {V Sp α β : Type}

/-- the program uses no goroutines, channels, counters or `MaxGor` -/
inductive Prog.Plain : Prog V Sp α → Prop
  | ret (a) : Plain (.ret a)
  | read (i k) : (∀ v, Plain (k v)) → Plain (.read i k)
  | write (i v k) : Plain k → Plain (.write i v k)
  | less (i j x y k) : (∀ b, Plain (k b)) → Plain (.less i j x y k)
  | panic : Plain .panic
  | overflow : Plain .overflow
  | diverge : Plain .diverge

theorem Prog.Plain.bind {p : Prog V Sp α} {f : α → Prog V Sp β} (h : p.Plain) (hf : ∀ a, (f a).Plain) : (p.bind f).Plain := by
  induction h with
  | ret a => exact hf a
  | read i k _ ih => exact .read _ _ ih
  | write i v k _ ih => exact .write _ _ _ ih
  | less i j x y k _ ih => exact .less _ _ _ _ _ ih
  | panic => exact .panic
  | overflow => exact .overflow
  | diverge => exact .diverge

theorem Prog.Plain.loop {σ : Type} {body : σ → Prog V Sp (Ctl σ α)} (h : ∀ s, (body s).Plain) :
    ∀ n s, (Prog.loop n body s : Prog V Sp α).Plain
  | 0, _ => .diverge
  | n + 1, s => by
    unfold Prog.loop
    refine (h s).bind fun c => ?_
    cases c with
    | again s' => exact Prog.Plain.loop h n s'
    | brk a => exact .ret a

/-- the program starts at most `n` goroutines if it reads `MaxGor` as at most 1 and the counter as at least 1 -/
def Prog.Calm : Prog V Sp α → Nat → Prop
  | .ret _, _ => True
  | .read _ k, n => ∀ v, (k v).Calm n
  | .write _ _ k, n => k.Calm n
  | .less _ _ _ _ k, n => ∀ b, (k b).Calm n
  | .maxGor k, n => ∀ x ≤ 1, (k x).Calm n
  | .loadGor k, n => ∀ x, 1 ≤ x → (k x).Calm n
  | .incGor k, n => ∀ x, (k x).Calm n
  | .decGor k, n => ∀ x, (k x).Calm n
  | .mkSync k, n => k.Calm n
  | .go _ _, 0 => False
  | .go _ k, n + 1 => k.Calm n
  | .send _ k, n => k.Calm n
  | .recv k, n => ∀ v, (k v).Calm n
  | .panic, _ => True
  | .overflow, _ => True
  | .diverge, _ => True

/-- wherever the program has got to, `Calm n` holds of the rest of it -/
def Prog.Alw : Prog V Sp α → Nat → Prop
  | .ret _, _ => True
  | .read i k, n => (Prog.read i k).Calm n ∧ ∀ v, (k v).Alw n
  | .write i v k, n => (Prog.write i v k).Calm n ∧ k.Alw n
  | .less i j x y k, n => (Prog.less i j x y k).Calm n ∧ ∀ b, (k b).Alw n
  | .maxGor k, n => (Prog.maxGor k).Calm n ∧ ∀ x, (k x).Alw n
  | .loadGor k, n => (Prog.loadGor k).Calm n ∧ ∀ x, (k x).Alw n
  | .incGor k, n => (Prog.incGor k).Calm n ∧ ∀ x, (k x).Alw n
  | .decGor k, n => (Prog.decGor k).Calm n ∧ ∀ x, (k x).Alw n
  | .mkSync k, n => (Prog.mkSync k).Calm n ∧ k.Alw n
  | .go s k, n => (Prog.go s k).Calm n ∧ k.Alw n
  | .send v k, n => (Prog.send v k).Calm n ∧ k.Alw n
  | .recv k, n => (Prog.recv k).Calm n ∧ ∀ v, (k v).Alw n
  | .panic, _ => True
  | .overflow, _ => True
  | .diverge, _ => True

theorem Prog.Alw.calm {p : Prog V Sp α} {n : Nat} (h : p.Alw n) : p.Calm n := by
  cases p <;> first | exact h.1 | trivial

theorem Prog.Calm.mono {p : Prog V Sp α} : ∀ {n n' : Nat}, p.Calm n → n ≤ n' → p.Calm n' := by
  induction p with
  | ret a => intros; trivial
  | read i k ih => intro n n' h hn v; exact ih v (h v) hn
  | write i v k ih => intro n n' h hn; exact ih (n := n) h hn
  | less i j x y k ih => intro n n' h hn b; exact ih b (h b) hn
  | maxGor k ih => intro n n' h hn x hx; exact ih x (h x hx) hn
  | loadGor k ih => intro n n' h hn x hx; exact ih x (h x hx) hn
  | incGor k ih => intro n n' h hn x; exact ih x (h x) hn
  | decGor k ih => intro n n' h hn x; exact ih x (h x) hn
  | mkSync k ih => intro n n' h hn; exact ih (n := n) h hn
  | go s k ih =>
    intro n n' h hn
    cases n with
    | zero => exact h.elim
    | succ n =>
      cases n' with
      | zero => omega
      | succ n' => exact ih (n := n) h (by omega)
  | send v k ih => intro n n' h hn; exact ih (n := n) h hn
  | recv k ih => intro n n' h hn v; exact ih v (h v) hn
  | panic => intros; trivial
  | overflow => intros; trivial
  | diverge => intros; trivial

theorem Prog.Alw.mono {p : Prog V Sp α} {n n' : Nat} (h : p.Alw n) (hn : n ≤ n') : p.Alw n' := by
  induction p with
  | ret a => trivial
  | read i k ih => exact ⟨h.1.mono hn, fun v => ih v (h.2 v)⟩
  | write i v k ih => exact ⟨h.1.mono hn, ih h.2⟩
  | less i j x y k ih => exact ⟨h.1.mono hn, fun v => ih v (h.2 v)⟩
  | maxGor k ih => exact ⟨h.1.mono hn, fun v => ih v (h.2 v)⟩
  | loadGor k ih => exact ⟨h.1.mono hn, fun v => ih v (h.2 v)⟩
  | incGor k ih => exact ⟨h.1.mono hn, fun v => ih v (h.2 v)⟩
  | decGor k ih => exact ⟨h.1.mono hn, fun v => ih v (h.2 v)⟩
  | mkSync k ih => exact ⟨h.1.mono hn, ih h.2⟩
  | go s k ih => exact ⟨h.1.mono hn, ih h.2⟩
  | send v k ih => exact ⟨h.1.mono hn, ih h.2⟩
  | recv k ih => exact ⟨h.1.mono hn, fun v => ih v (h.2 v)⟩
  | panic => trivial
  | overflow => trivial
  | diverge => trivial

theorem Prog.Calm.bind {p : Prog V Sp α} {f : α → Prog V Sp β} {k : Nat} : ∀ {n : Nat}, p.Calm n → (∀ a, (f a).Calm k) →
    (p.bind f).Calm (n + k) := by
  induction p with
  | ret a => intro n _ hf; exact (hf a).mono (by omega)
  | read i k ih => intro n h hf v; exact ih v (h v) hf
  | write i v k ih => intro n h hf; exact ih (n := n) h hf
  | less i j x y k ih => intro n h hf b; exact ih b (h b) hf
  | maxGor k ih => intro n h hf x hx; exact ih x (h x hx) hf
  | loadGor k ih => intro n h hf x hx; exact ih x (h x hx) hf
  | incGor k ih => intro n h hf x; exact ih x (h x) hf
  | decGor k ih => intro n h hf x; exact ih x (h x) hf
  | mkSync k ih => intro n h hf; exact ih (n := n) h hf
  | go s k' ih =>
    intro n h hf
    cases n with
    | zero => exact h.elim
    | succ n =>
      have := ih (n := n) h hf
      rw [Nat.add_right_comm]
      exact this
  | send v k ih => intro n h hf; exact ih (n := n) h hf
  | recv k ih => intro n h hf v; exact ih v (h v) hf
  | panic => intros; trivial
  | overflow => intros; trivial
  | diverge => intros; trivial

theorem Prog.Alw.bind {p : Prog V Sp α} {f : α → Prog V Sp β} {n k : Nat} (h : p.Alw n) (hf : ∀ a, (f a).Calm k)
    (hf' : ∀ a, (f a).Alw (n + k)) : (p.bind f).Alw (n + k) := by
  induction p with
  | ret a => exact hf' a
  | read i k ih => exact ⟨h.calm.bind hf, fun v => ih v (h.2 v)⟩
  | write i v k ih => exact ⟨h.calm.bind hf, ih h.2⟩
  | less i j x y k ih => exact ⟨h.calm.bind hf, fun v => ih v (h.2 v)⟩
  | maxGor k ih => exact ⟨h.calm.bind hf, fun v => ih v (h.2 v)⟩
  | loadGor k ih => exact ⟨h.calm.bind hf, fun v => ih v (h.2 v)⟩
  | incGor k ih => exact ⟨h.calm.bind hf, fun v => ih v (h.2 v)⟩
  | decGor k ih => exact ⟨h.calm.bind hf, fun v => ih v (h.2 v)⟩
  | mkSync k ih => exact ⟨h.calm.bind hf, ih h.2⟩
  | go s k ih => exact ⟨h.calm.bind hf, ih h.2⟩
  | send v k ih => exact ⟨h.calm.bind hf, ih h.2⟩
  | recv k ih => exact ⟨h.calm.bind hf, fun v => ih v (h.2 v)⟩
  | panic => trivial
  | overflow => trivial
  | diverge => trivial

theorem Prog.Plain.calm {p : Prog V Sp α} (h : p.Plain) (n : Nat) : p.Calm n := by
  induction h with
  | ret a => trivial
  | read i k _ ih => exact ih
  | write i v k _ ih => exact ih
  | less i j x y k _ ih => exact ih
  | panic => trivial
  | overflow => trivial
  | diverge => trivial

theorem Prog.Plain.alw {p : Prog V Sp α} (h : p.Plain) (n : Nat) : p.Alw n := by
  induction h with
  | ret a => trivial
  | read i k hk ih => exact ⟨fun v => (hk v).calm n, ih⟩
  | write i v k hk ih => exact ⟨hk.calm n, ih⟩
  | less i j x y k hk ih => exact ⟨fun v => (hk v).calm n, ih⟩
  | panic => trivial
  | overflow => trivial
  | diverge => trivial

/-- after a plain part -/
theorem Prog.Plain.calm_bind {p : Prog V Sp α} {f : α → Prog V Sp β} (h : p.Plain) {n : Nat} (hf : ∀ a, (f a).Calm n) :
    (p.bind f).Calm n := by
  have := (h.calm 0).bind hf
  rwa [Nat.zero_add] at this

theorem Prog.Plain.alw_bind {p : Prog V Sp α} {f : α → Prog V Sp β} (h : p.Plain) {n : Nat} (hf : ∀ a, (f a).Alw n) :
    (p.bind f).Alw n := by
  have := (h.alw 0).bind (fun a => (hf a).calm) (fun a => (hf a).mono (by omega))
  rwa [Nat.zero_add] at this

variable {P : Par V Sp} {S : Spec V Sp} {I : IPar V Sp}

theorem alw_tstep {sh sh' : Sh V} {p p' : Prog V Sp Unit} {new : List (Prog V Sp Unit)} {n : Nat} (h : p.Alw n)
    (ht : TStep P sh p sh' p' new) : p'.Alw n := by
  cases ht <;> first | exact h.2 | exact h.2 _ | trivial

/-- every goroutine but the caller is always about to start at most one more, the caller at most two -/
def Quota (ths : List (Prog V Sp Unit)) : Prop := ∃ q L, ths = q :: L ∧ q.Alw 2 ∧ ∀ p ∈ L, p.Alw 1

theorem Quota.upd {l₁ l₂ new : List (Prog V Sp Unit)} {p p' : Prog V Sp Unit} (h : Quota (l₁ ++ p :: l₂))
    (hp : ∀ n, p.Alw n → p'.Alw n) (hn : ∀ q ∈ new, q.Alw 1) : Quota (l₁ ++ p' :: l₂ ++ new) := by
  obtain ⟨q, L, e, h1, h2⟩ := h
  cases l₁ with
  | nil =>
    simp only [List.nil_append, List.cons.injEq] at e
    obtain ⟨rfl, rfl⟩ := e
    refine ⟨p', l₂ ++ new, by simp, hp _ h1, fun r hr => ?_⟩
    rcases List.mem_append.1 hr with hr | hr
    · exact h2 r hr
    · exact hn r hr
  | cons a l₁ =>
    simp only [List.cons_append, List.cons.injEq] at e
    obtain ⟨rfl, rfl⟩ := e
    refine ⟨a, l₁ ++ p' :: l₂ ++ new, by simp, h1, fun r hr => ?_⟩
    simp only [List.mem_append, List.mem_cons] at hr h2
    rcases hr with (hr | rfl | hr) | hr
    · exact h2 r (.inl hr)
    · exact hp _ (h2 p (.inr (.inl rfl)))
    · exact h2 r (.inr (.inr hr))
    · exact hn r hr

theorem Quota.step {c c' : Cfg V Sp} (hb : ∀ s, (P.body s).Alw 1) (h : Quota c.ths) (hs : Step P c c') : Quota c'.ths := by
  cases hs with
  | tau l₁ l₂ sh p sh' p' new ht =>
    refine h.upd (fun n hn => alw_tstep hn ht) ?_
    cases ht <;> simp [hb]
  | commSR l₁ l₂ l₃ sh v k k' hs =>
    have h1 := Quota.upd (new := []) (p := .send v k) (p' := k) (l₁ := l₁) (l₂ := l₂ ++ .recv k' :: l₃) (by simpa using h) (fun n hn => hn.2) (by simp)
    have h2 := Quota.upd (new := []) (p' := k' v) (l₁ := l₁ ++ k :: l₂) (l₂ := l₃) (p := .recv k') (by simpa using h1) (fun n hn => hn.2 v) (by simp)
    simpa using h2
  | commRS l₁ l₂ l₃ sh v k k' hs =>
    have h1 := Quota.upd (new := []) (p := .recv k') (p' := k' v) (l₁ := l₁) (l₂ := l₂ ++ .send v k :: l₃) (by simpa using h) (fun n hn => hn.2 v) (by simp)
    have h2 := Quota.upd (new := []) (p' := k) (l₁ := l₁ ++ k' v :: l₂) (l₂ := l₃) (p := .send v k) (by simpa using h1) (fun n hn => hn.2) (by simp)
    simpa using h2

theorem Quota.reach {p : Prog V Sp Unit} {m : Mem V} {c : Cfg V Sp} (hb : ∀ s, (P.body s).Alw 1) (hp : p.Alw 2)
    (h : Steps P (start p m) c) : Quota c.ths := by
  induction h with
  | refl => exact ⟨p, [], rfl, hp, by simp⟩
  | tail _ hs ih => exact ih.step hb hs

/-- the goroutines start at most `n` more if they read `MaxGor` as at most 1 and the counter as at least 1 -/
def StartBudget : List (Prog V Sp Unit) → Nat → Prop
  | [], _ => True
  | p :: L, n => ∃ a b, a + b ≤ n ∧ p.Calm a ∧ StartBudget L b

theorem StartBudget.mono {l : List (Prog V Sp Unit)} {n n' : Nat} (h : StartBudget l n) (hn : n ≤ n') : StartBudget l n' := by
  cases l with
  | nil => trivial
  | cons p l => obtain ⟨a, b, h1, h2, h3⟩ := h; exact ⟨a, b, by omega, h2, h3⟩

theorem budget_append {l l' : List (Prog V Sp Unit)} : ∀ {n : Nat}, StartBudget (l ++ l') n ↔ ∃ a b, a + b ≤ n ∧ StartBudget l a ∧ StartBudget l' b := by
  induction l with
  | nil =>
    intro n
    constructor
    · intro h; exact ⟨0, n, by omega, trivial, h⟩
    · rintro ⟨a, b, h, -, h'⟩; exact h'.mono (by omega)
  | cons p l ih =>
    intro n
    constructor
    · rintro ⟨a, b, h1, h2, h3⟩
      obtain ⟨a', b', h4, h5, h6⟩ := ih.1 h3
      exact ⟨a + a', b', by omega, ⟨a, a', le_rfl, h2, h5⟩, h6⟩
    · rintro ⟨a, b, h1, ⟨a', b', h2, h3, h4⟩, h5⟩
      exact ⟨a', b' + b, by omega, h3, ih.2 ⟨b', b, le_rfl, h4, h5⟩⟩

theorem StartBudget.upd {l₁ l₂ : List (Prog V Sp Unit)} {p p' : Prog V Sp Unit} {n : Nat} (h : StartBudget (l₁ ++ p :: l₂) n)
    (hp : ∀ n, p.Calm n → p'.Calm n) : StartBudget (l₁ ++ p' :: l₂) n := by
  obtain ⟨a, b, h1, h2, x, y, h3, h4, h5⟩ := budget_append.1 h
  exact budget_append.2 ⟨a, b, h1, h2, x, y, h3, hp _ h4, h5⟩

/-- goroutines that will read `MaxGor` as at most 1 keep to their budget -/
theorem StartBudget.step {c c' : Cfg V Sp} {n : Nat} (hM : P.M ≤ 1) (hst : ¬ P.stale) (hb : ∀ s, (P.body s).Calm 0)
    (hg : ∀ k, .loadGor k ∈ c.ths → c.sh.sync = true → 1 ≤ c.sh.nGor) (h : StartBudget c.ths n) (hs : Step P c c') :
    ∃ n', StartBudget c'.ths n' ∧ c'.ths.length + n' ≤ c.ths.length + n := by
  cases hs with
  | tau l₁ l₂ sh p sh' p' new ht =>
    have hmem : p ∈ l₁ ++ p :: l₂ := by simp
    cases ht with
    | go s k =>
      obtain ⟨a, b, h1, h2, x, y, h3, h4, h5⟩ := budget_append.1 h
      cases x with
      | zero => exact h4.elim
      | succ x =>
        refine ⟨n - 1, ?_, by simp; omega⟩
        refine budget_append.2 ⟨n - 1, 0, by omega, budget_append.2 ⟨a, b - 1, by omega, h2, x, y, by omega, h4, h5⟩, ?_⟩
        exact ⟨0, 0, le_rfl, hb s, trivial⟩
    | maxGor k x hx => exact ⟨n, by rw [List.append_nil]; exact h.upd fun n hn => hn x (by omega), by simp⟩
    | loadGor k x h1 h2 =>
      have := hg k hmem h1
      have e : x = sh.nGor := h2.resolve_left hst
      exact ⟨n, by rw [List.append_nil]; exact h.upd fun n hn => hn x (by rw [e]; exact this), by simp⟩
    | read i k => exact ⟨n, by rw [List.append_nil]; exact h.upd fun n hn => hn _, by simp⟩
    | write i v k => exact ⟨n, by rw [List.append_nil]; exact h.upd fun n hn => hn, by simp⟩
    | less i j x y k b hc => exact ⟨n, by rw [List.append_nil]; exact h.upd fun n hn => hn _, by simp⟩
    | loadNil k h1 => exact ⟨n, by rw [List.append_nil]; exact h.upd fun n hn => trivial, by simp⟩
    | incGor k h1 => exact ⟨n, by rw [List.append_nil]; exact h.upd fun n hn => hn _, by simp⟩
    | incNil k h1 => exact ⟨n, by rw [List.append_nil]; exact h.upd fun n hn => trivial, by simp⟩
    | decGor k h1 => exact ⟨n, by rw [List.append_nil]; exact h.upd fun n hn => hn _, by simp⟩
    | decNil k h1 => exact ⟨n, by rw [List.append_nil]; exact h.upd fun n hn => trivial, by simp⟩
    | mkSync k => exact ⟨n, by rw [List.append_nil]; exact h.upd fun n hn => hn, by simp⟩
  | commSR l₁ l₂ l₃ sh v k k' hs =>
    have h1 := StartBudget.upd (p := .send v k) (p' := k) (l₁ := l₁) (l₂ := l₂ ++ .recv k' :: l₃) (by simpa using h) (fun n hn => hn)
    have h2 := StartBudget.upd (p' := k' v) (l₁ := l₁ ++ k :: l₂) (l₂ := l₃) (p := .recv k') (by simpa using h1) (fun n hn => hn v)
    exact ⟨n, h2, by simp⟩
  | commRS l₁ l₂ l₃ sh v k k' hs =>
    have h1 := StartBudget.upd (p := .recv k') (p' := k' v) (l₁ := l₁) (l₂ := l₂ ++ .send v k :: l₃) (by simpa using h) (fun n hn => hn v)
    have h2 := StartBudget.upd (p' := k) (l₁ := l₁ ++ k' v :: l₂) (l₂ := l₃) (p := .send v k) (by simpa using h1) (fun n hn => hn)
    exact ⟨n, h2, by simp⟩

/-- the budget of goroutines in any state of an execution -/
theorem Quota.budget {c : Cfg V Sp} (h : Quota c.ths) : StartBudget c.ths (live c + 1) := by
  have key : ∀ L : List (Prog V Sp Unit), (∀ p ∈ L, p.Alw 1) → StartBudget L (L.filter fun p => !p.isRet).length := by
    intro L
    induction L with
    | nil => intro _; trivial
    | cons p L ih =>
      intro h
      have hL := ih fun q hq => h q (by simp [hq])
      rw [List.filter_cons]
      split_ifs with hr
      · exact ⟨1, _, by simp; omega, (h p (by simp)).calm, hL⟩
      · refine ⟨0, _, by simp, ?_, hL⟩
        cases p <;> simp [Prog.isRet] at hr
        trivial
  obtain ⟨q, L, e, h1, h2⟩ := h
  unfold live
  rw [e, List.filter_cons]
  split_ifs with hr
  · exact ⟨2, _, by simp; omega, h1.calm, key L h2⟩
  · refine ⟨0, _, by simp, ?_, key L h2⟩
    cases q <;> simp [Prog.isRet] at hr
    trivial

/-- executions with fewer values of `MaxGor` are executions -/
theorem Step.lower {M M' : Nat} (hM : M' ≤ M) {c c' : Cfg V Sp} (h : Step { P with M := M' } c c') : Step { P with M := M } c c' := by
  cases h with
  | tau l₁ l₂ sh p sh' p' new ht =>
    refine .tau _ _ _ _ _ _ _ ?_
    cases ht with
    | read i k => exact .read ..
    | write i v k => exact .write ..
    | less i j x y k b h => exact .less _ _ _ _ _ _ _ h
    | maxGor k n h => exact .maxGor _ _ _ (le_trans h hM)
    | loadGor k n h1 h2 => exact .loadGor _ _ _ h1 h2
    | loadNil k h1 => exact .loadNil _ _ h1
    | incGor k h1 => exact .incGor _ _ h1
    | incNil k h1 => exact .incNil _ _ h1
    | decGor k h1 => exact .decGor _ _ h1
    | decNil k h1 => exact .decNil _ _ h1
    | mkSync k => exact .mkSync ..
    | go s k => exact .go ..
  | commSR l₁ l₂ l₃ sh v k k' hs => exact .commSR _ _ _ _ _ _ _ hs
  | commRS l₁ l₂ l₃ sh v k k' hs => exact .commRS _ _ _ _ _ _ _ hs

theorem Steps.lower {M M' : Nat} (hM : M' ≤ M) {c c' : Cfg V Sp} (h : Steps { P with M := M' } c c') : Steps { P with M := M } c c' := by
  induction h with
  | refl => exact .refl _
  | tail _ hs ih => exact ih.tail (hs.lower hM)

/-- a goroutine that reads the counter is counted -/
theorem Inv.counted {c : Cfg V Sp} {ts} (h : Inv P S I c ts) {k} (hk : .loadGor k ∈ c.ths) (hs : c.sh.sync = true) : 1 ≤ c.sh.nGor := by
  rw [h.ths] at hk
  obtain ⟨t, ht, e⟩ := List.mem_map.1 hk
  have hw := h.wps t ht
  rw [e] at hw
  have h1 := le_sumOf (f := cntG) ht
  rw [h.cnt hs]
  refine le_trans ?_ h1
  unfold cntG
  rw [if_pos ⟨hw.2.2.1, hw.2.1⟩]
  omega

/-- Once reads of `MaxGor` yield at most 1, at most one goroutine more than there are unfinished ones is started. -/
theorem calm_bound {M M' : Nat} {p : Prog V Sp Unit} {m : Mem V} {c c' : Cfg V Sp}
    (hI : ∀ d, Steps { P with M := max M M' } (start p m) d → ∃ S I ts, Inv { P with M := max M M' } S I d ts)
    (hst : ¬ P.stale) (hc : ∀ s, (P.body s).Calm 0) (hb : ∀ s, (P.body s).Alw 1) (hp : p.Alw 2)
    (hr : Steps { P with M := M } (start p m) c) (hM : M' ≤ 1) (h : Steps { P with M := M' } c c') :
    c'.ths.length ≤ c.ths.length + live c + 1 := by
  have hr' : Steps { P with M := max M M' } (start p m) c := hr.lower (le_max_left _ _)
  suffices hh : ∃ n', StartBudget c'.ths n' ∧ c'.ths.length + n' ≤ c.ths.length + (live c + 1) by
    obtain ⟨n', _, h2⟩ := hh
    omega
  induction h with
  | refl => exact ⟨_, (Quota.reach (P := { P with M := M }) hb hp hr).budget, le_rfl⟩
  | tail h1 hs ih =>
    obtain ⟨n', h2, h3⟩ := ih
    obtain ⟨S, I, ts, hi⟩ := hI _ (hr'.trans (h1.lower (le_max_right _ _)))
    obtain ⟨n'', h4, h5⟩ := h2.step (P := { P with M := M' }) hM hst hc (fun k hk hs => hi.counted hk hs) hs
    exact ⟨n'', h4, by omega⟩

/-- steps that read nothing larger than `M'` are possible whenever any are -/
theorem Step.low {M' : Nat} {c c' : Cfg V Sp} (h : Step P c c') : ∃ c'', Step { P with M := M' } c c'' := by
  cases h with
  | commSR l₁ l₂ l₃ sh v k k' h => exact ⟨_, .commSR _ _ _ _ _ _ _ h⟩
  | commRS l₁ l₂ l₃ sh v k k' h => exact ⟨_, .commRS _ _ _ _ _ _ _ h⟩
  | tau l₁ l₂ sh p sh' p' new h =>
    by_cases hp : ∃ k, p = .maxGor k
    · obtain ⟨k, rfl⟩ := hp
      exact ⟨_, .tau l₁ l₂ sh _ _ _ _ (.maxGor sh k 0 (Nat.zero_le _))⟩
    · refine ⟨⟨sh', l₁ ++ p' :: l₂ ++ new⟩, .tau _ _ _ _ _ _ _ ?_⟩
      cases h with
      | read i k => exact .read ..
      | write i v k => exact .write ..
      | less i j x y k b hb => exact .less _ _ _ _ _ _ _ hb
      | maxGor k n hn => exact (hp ⟨k, rfl⟩).elim
      | loadGor k n hs hn => exact .loadGor _ _ _ hs hn
      | loadNil k hs => exact .loadNil _ _ hs
      | incGor k hs => exact .incGor _ _ hs
      | incNil k hs => exact .incNil _ _ hs
      | decGor k hs => exact .decGor _ _ hs
      | decNil k hs => exact .decNil _ _ hs
      | mkSync k => exact .mkSync ..
      | go s k => exact .go ..

/-- and so every reached state can be continued to the end with a lower `MaxGor` -/
theorem exists_low_return {M' : Nat} (H : Hyp P S I) (hM : M' ≤ P.M) {c0 : Cfg V Sp}
    (hacc : Acc (fun c' c => Step P c c') c0) : (∃ ts, Inv P S I c0 ts) → ∃ c, Steps { P with M := M' } c0 c ∧ Returned c := by
  induction hacc with
  | intro c _ ih =>
    rintro ⟨ts, hi⟩
    rcases hi.progress H with ⟨c', hs⟩ | hall
    · obtain ⟨c', hs⟩ := hs.low (M' := M')
      have hs' : Step P c c' := hs.lower (M := P.M) hM
      obtain ⟨d, h1, h2⟩ := ih c' hs' (hi.step H hs')
      exact ⟨d, Steps.trans (.tail (.refl _) hs) h1, h2⟩
    · refine ⟨c, .refl _, ?_⟩
      have hths := hi.ths
      obtain ⟨rs, hr, _⟩ := hi.roles
      cases h : c.ths with
      | nil =>
        have h1 : ts = [] := by rw [h] at hths; simpa using hths.symm
        subst h1; simp at hr
      | cons p l => exact ⟨l, by rw [h, hall p (by simp [h])]⟩

end Sorty
