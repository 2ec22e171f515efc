import Verif.Logic.Label
import Verif.SemCost
import Verif.Logic.Run

/-! # Bounds on metered executions

Credits: every goroutine holds enough to pay for the rest of its own work and for the goroutines it starts. -/

namespace Sorty

variable {V Sp α β : Type}

/-- what is charged, what spawned goroutines are given, and what is known of the memory -/
structure Meter (V Sp : Type) where
  /-- charge for a load -/
  wa : Nat
  /-- charge for a call of the comparator -/
  wl : Nat
  /-- credit of a spawned goroutine -/
  ρ : Sp → Nat
  isPart : Sp → Bool
  /-- what is known of the value a partitioner sends -/
  ok : Sp → Int → Prop
  /-- charge for a store -/
  ww : Nat := wa
  /-- what is known of a spawned goroutine -/
  sp : Sp → Prop := fun _ => True
  /-- what a load from an address may yield -/
  rd : Nat → V → Prop := fun _ _ => True
  /-- are there stores? -/
  wr : Prop := True
  /-- what the comparator may answer -/
  cmp : Nat → Nat → V → V → Bool → Prop := fun _ _ _ _ _ => True

/-- nothing is known of the loads unless there are no stores -/
structure Meter.Fits (M : Meter V Sp) (P : Par V Sp) (m : Mem V) : Prop where
  rd : ∀ i, M.rd i (m i)
  wr : M.wr → ∀ i x, M.rd i x
  cmp : ∀ i j x y b, P.cmp i j x y b → M.cmp i j x y b

def Meter.w (M : Meter V Sp) : Prog V Sp Unit → Nat
  | .read .. => M.wa
  | .write .. => M.ww
  | .less .. => M.wl
  | _ => 0

/-- `p` with credit `n` pays for all it does and leaves `Q`; `J` is the outstanding partitioner -/
def cw (M : Meter V Sp) : Prog V Sp α → Option Sp → Nat → (α → Option Sp → Nat → Prop) → Prop
  | .ret a, J, n, Q => Q a J n
  | .read i k, J, n, Q => M.wa ≤ n ∧ ∀ x, M.rd i x → cw M (k x) J (n - M.wa) Q
  | .write _ _ k, J, n, Q => (M.wr ∧ M.ww ≤ n) ∧ cw M k J (n - M.ww) Q
  | .less i j x y k, J, n, Q => M.wl ≤ n ∧ ∀ b, M.cmp i j x y b → cw M (k b) J (n - M.wl) Q
  | .maxGor k, J, n, Q => ∀ x, cw M (k x) J n Q
  | .loadGor k, J, n, Q => ∀ x, cw M (k x) J n Q
  | .incGor k, J, n, Q => ∀ x, cw M (k x) J n Q
  | .decGor k, _J, n, Q => ∀ x, cw M (k x) none n Q
  | .mkSync k, J, n, Q => cw M k J n Q
  | .go s k, _J, n, Q => (M.sp s ∧ M.ρ s ≤ n) ∧ cw M k (if M.isPart s = true then some s else none) (n - M.ρ s) Q
  | .send _ k, J, n, Q => cw M k J n Q
  | .recv k, J, n, Q => ∀ v, (∀ s, J = some s → M.ok s v) → cw M (k v) none n Q
  | .panic, _, _, _ => True
  | .overflow, _, _, _ => True
  | .diverge, _, _, _ => True

variable {M : Meter V Sp}

theorem cw_mono {p : Prog V Sp α} {J : Option Sp} {n n' : Nat} {Q Q' : α → Option Sp → Nat → Prop} (h : cw M p J n Q) (hn : n ≤ n')
    (hQ : ∀ a J k k', k ≤ k' → Q a J k → Q' a J k') : cw M p J n' Q' := by
  induction p generalizing J n n' with
  | ret a => exact hQ _ _ _ _ hn h
  | read i k ih => exact ⟨h.1.trans hn, fun x hx => ih _ (h.2 x hx) (Nat.sub_le_sub_right hn _)⟩
  | write i v k ih => exact ⟨⟨h.1.1, h.1.2.trans hn⟩, ih h.2 (Nat.sub_le_sub_right hn _)⟩
  | less i j x y k ih => exact ⟨h.1.trans hn, fun x hx => ih _ (h.2 x hx) (Nat.sub_le_sub_right hn _)⟩
  | maxGor k ih => exact fun x => ih _ (h x) hn
  | loadGor k ih => exact fun x => ih _ (h x) hn
  | incGor k ih => exact fun x => ih _ (h x) hn
  | decGor k ih => exact fun x => ih _ (h x) hn
  | mkSync k ih => exact ih h hn
  | go s k ih => exact ⟨⟨h.1.1, h.1.2.trans hn⟩, ih h.2 (Nat.sub_le_sub_right hn _)⟩
  | send v k ih => exact ih h hn
  | recv k ih => exact fun v hv => ih _ (h v hv) hn
  | panic => trivial
  | overflow => trivial
  | diverge => trivial

theorem cw.bind {p : Prog V Sp α} {f : α → Prog V Sp β} {J : Option Sp} {n : Nat} {Q : β → Option Sp → Nat → Prop}
    (h : cw M p J n fun a J n => cw M (f a) J n Q) : cw M (p >>= f) J n Q := by
  show cw M (Prog.bind p f) J n Q
  induction p generalizing J n with
  | ret a => exact h
  | read i k ih => exact ⟨h.1, fun x hx => ih _ (h.2 x hx)⟩
  | write i v k ih => exact ⟨h.1, ih h.2⟩
  | less i j x y k ih => exact ⟨h.1, fun x hx => ih _ (h.2 x hx)⟩
  | maxGor k ih => exact fun x => ih _ (h x)
  | loadGor k ih => exact fun x => ih _ (h x)
  | incGor k ih => exact fun x => ih _ (h x)
  | decGor k ih => exact fun x => ih _ (h x)
  | mkSync k ih => exact ih h
  | go s k ih => exact ⟨h.1, ih h.2⟩
  | send v k ih => exact ih h
  | recv k ih => exact fun v hv => ih _ (h v hv)
  | panic => trivial
  | overflow => trivial
  | diverge => trivial

theorem cw.conseq {p : Prog V Sp α} {J : Option Sp} {n : Nat} {Q Q' : α → Option Sp → Nat → Prop} (h : cw M p J n Q)
    (hQ : ∀ a J k, Q a J k → Q' a J k) : cw M p J n Q' := by
  induction p generalizing J n with
  | ret a => exact hQ _ _ _ h
  | read i k ih => exact ⟨h.1, fun x hx => ih _ (h.2 x hx)⟩
  | write i v k ih => exact ⟨h.1, ih h.2⟩
  | less i j x y k ih => exact ⟨h.1, fun x hx => ih _ (h.2 x hx)⟩
  | maxGor k ih => exact fun x => ih _ (h x)
  | loadGor k ih => exact fun x => ih _ (h x)
  | incGor k ih => exact fun x => ih _ (h x)
  | decGor k ih => exact fun x => ih _ (h x)
  | mkSync k ih => exact ih h
  | go s k ih => exact ⟨h.1, ih h.2⟩
  | send v k ih => exact ih h
  | recv k ih => exact fun v hv => ih _ (h v hv)
  | panic => trivial
  | overflow => trivial
  | diverge => trivial

theorem cw.loop {σ : Type} {body : σ → Prog V Sp (Prog.Ctl σ α)} {Q : α → Option Sp → Nat → Prop} {J : Option Sp} (Φ : σ → Nat → Prop)
    (hΦ : ∀ s n, Φ s n → cw M (body s) J n fun r J' n' => J' = J ∧ match r with
      | .again s' => Φ s' n'
      | .brk a => Q a J n') : ∀ N s n, Φ s n → cw M (Prog.loop N body s) J n Q := by
  intro N
  induction N with
  | zero => intro s n h; trivial
  | succ N ih =>
    intro s n h
    refine cw.bind (p := body s) (cw.conseq (hΦ s n h) ?_)
    rintro r J' k ⟨rfl, hr⟩
    cases r with
    | again s' => exact ih s' k hr
    | brk a => exact hr

/-- sequential `p` costs at most `N` and its result satisfies `R` -/
def Costs (M : Meter V Sp) (p : Prog V Sp α) (N : Nat) (R : α → Prop) : Prop :=
  ∀ J n, N ≤ n → cw M p J n fun a J' k => J' = J ∧ n - N ≤ k ∧ R a

theorem Costs.cw {p : Prog V Sp α} {N : Nat} {R : α → Prop} {J : Option Sp} {n : Nat} {Q : α → Option Sp → Nat → Prop} (h : Costs M p N R)
    (hN : N ≤ n) (hQ : ∀ a k, R a → n - N ≤ k → Q a J k) : Sorty.cw M p J n Q :=
  (h J n hN).conseq fun a J' k ⟨h1, h2, h3⟩ => by subst h1; exact hQ a k h3 h2

theorem Costs.seq {p : Prog V Sp α} {f : α → Prog V Sp β} {N : Nat} {R : α → Prop} {J : Option Sp} {n : Nat} {Q : β → Option Sp → Nat → Prop}
    (h : Costs M p N R) (hN : N ≤ n) (hf : ∀ a k, R a → n - N ≤ k → Sorty.cw M (f a) J k Q) : Sorty.cw M (p >>= f) J n Q :=
  (h.cw hN hf).bind

theorem Costs.bind {p : Prog V Sp α} {f : α → Prog V Sp β} {N N' : Nat} {R : α → Prop} {R' : β → Prop}
    (h : Costs M p N R) (hf : ∀ a, R a → Costs M (f a) N' R') : Costs M (p >>= f) (N + N') R' := by
  intro J n hn
  exact h.seq (by omega) fun a k ha hk => (hf a ha).cw (by omega) fun b k' hb hk' => ⟨rfl, by omega, hb⟩

theorem Costs.weaken {p : Prog V Sp α} {N N' : Nat} {R R' : α → Prop} (h : Costs M p N R) (hN : N ≤ N') (hR : ∀ a, R a → R' a) :
    Costs M p N' R' :=
  fun _ _ hn => h.cw (by omega) fun a _ ha hk => ⟨rfl, by omega, hR a ha⟩

theorem Costs.ret {a : α} {N : Nat} {R : α → Prop} (h : R a) : Costs M (.ret a : Prog V Sp α) N R :=
  fun _ _ _ => ⟨rfl, by omega, h⟩

theorem Costs.pure {a : α} {N : Nat} {R : α → Prop} (h : R a) : Costs M (pure a : Prog V Sp α) N R := Costs.ret h

/-- a loop with a potential and a refund that depends on its result -/
theorem cw.potential {σ : Type} {body : σ → Prog V Sp (Prog.Ctl σ α)} {R : α → Prop} (Φ : σ → Prop) (pot : σ → Nat) (ref : α → Nat)
    (hΦ : ∀ s, Φ s → ∀ J n, pot s ≤ n → Sorty.cw M (body s) J n fun r J' k => J' = J ∧ match r with
      | .again s' => Φ s' ∧ n + pot s' ≤ k + pot s
      | .brk a => n + ref a ≤ k + pot s ∧ R a) (N : Nat) (s : σ) (h : Φ s) (J : Option Sp) (n : Nat) (hn : pot s ≤ n) :
    Sorty.cw M (Prog.loop N body s) J n fun a J' k => J' = J ∧ n + ref a ≤ k + pot s ∧ R a := by
  refine cw.loop (J := J) (fun s' k => Φ s' ∧ n + pot s' ≤ k + pot s) ?_ N s n ⟨h, le_rfl⟩
  rintro s' k ⟨hs, hk⟩
  refine (hΦ s' hs J k (by omega)).conseq ?_
  rintro r J' k' ⟨rfl, hr⟩
  refine ⟨rfl, ?_⟩
  cases r with
  | again s'' => exact ⟨hr.1, by have := hr.2; omega⟩
  | brk a => exact ⟨rfl, by have := hr.1; omega, hr.2⟩

/-- a loop with a potential -/
theorem Costs.loop {σ : Type} {body : σ → Prog V Sp (Prog.Ctl σ α)} {R : α → Prop} (Φ : σ → Prop) (pot : σ → Nat)
    (hΦ : ∀ s, Φ s → ∀ J n, pot s ≤ n → Sorty.cw M (body s) J n fun r J' k => J' = J ∧ match r with
      | .again s' => Φ s' ∧ n + pot s' ≤ k + pot s
      | .brk a => n ≤ k + pot s ∧ R a) (N : Nat) (s : σ) (h : Φ s) : Costs M (Prog.loop N body s) (pot s) R := by
  intro J n hn
  refine (cw.potential Φ pot (fun _ => 0) ?_ N s h J n hn).conseq fun a J' k ⟨h1, h2, h3⟩ => ⟨h1, by omega, h3⟩
  intro s hs J n hn
  refine (hΦ s hs J n hn).conseq ?_
  rintro r J' k ⟨rfl, hr⟩
  refine ⟨rfl, ?_⟩
  cases r with
  | again s'' => exact hr
  | brk a => exact hr

variable {P : Par V Sp} {S : Spec V Sp} {I : IPar V Sp}

/-- a goroutine, its outstanding partitioner and its credit -/
abbrev Paid (V Sp : Type) := Prog V Sp Unit × Option Sp × Nat

/-- the credits in circulation -/
structure CI (M : Meter V Sp) (B : Nat) (c : Cfg V Sp) (Js : List (Option Sp)) (n : Nat) (xs : List (Paid V Sp)) : Prop where
  rd : ∀ i, M.rd i (c.sh.mem i)
  ths : xs.map (fun x => x.1) = c.ths
  js : xs.map (fun x => x.2.1) = Js
  paid : ∀ x ∈ xs, cw M x.1 x.2.1 x.2.2 fun _ _ _ => True
  sum : n + (xs.map fun x => x.2.2).sum ≤ B

theorem split_paid {l₁ l₂ : List (Prog V Sp Unit)} {p} {xs : List (Paid V Sp)} (h : xs.map (fun x => x.1) = l₁ ++ p :: l₂) :
    ∃ L₁ J n L₂, xs = L₁ ++ (p, J, n) :: L₂ ∧ L₁.map (fun x => x.1) = l₁ ∧ L₂.map (fun x => x.1) = l₂ := by
  obtain ⟨L₁, L', h1, h2, h3⟩ := List.map_eq_append_iff.1 h
  obtain ⟨t, L₂, h4, h5, h6⟩ := List.map_eq_cons_iff.1 h3
  subst h1 h4
  exact ⟨L₁, t.2.1, t.2.2, L₂, by rw [← h5], h2, h6⟩

def jsOf (ts : List (Th V Sp)) : List (Option Sp) := (ownsOf ts).map Own.J

/-- metered executions stay within the initial credit -/
theorem Inv.metered (H : Hyp P S I) {p : Prog V Sp Unit} {m : Mem V} (h0 : ∃ ts, Inv P S I (Sorty.start p m) ts ∧ jsOf ts = [none])
    (hfit : M.Fits P m) (hpart : M.isPart = S.isPart) (hpo : ∀ s m v m', S.ppost s m v m' → M.ok s v)
    (hbody : ∀ s m, M.sp s → S.pre s m → cw M (P.body s) none (M.ρ s) fun _ _ _ => True) {B : Nat} (hp : cw M p none B fun _ _ _ => True)
    {c : Cfg V Sp} {n : Nat} (h : CSteps P M.w (Sorty.start p m) c n) :
    ∃ ts, Inv P S I c ts ∧ ∃ xs, CI M B c (jsOf ts) n xs := by
  induction h with
  | refl =>
    obtain ⟨ts, h, hj⟩ := h0
    refine ⟨ts, h, [(p, none, B)], ⟨hfit.rd, rfl, by rw [hj]; rfl, ?_, by simp⟩⟩
    intro x hx
    simp only [List.mem_singleton] at hx
    subst hx; exact hp
  | @tau n l₁ l₂ sh p sh' p' new _ ht ih =>
    obtain ⟨ts, h, xs, hI⟩ := ih
    obtain ⟨L₁, g, L₂, rfl, rfl, rfl⟩ := split_ths h.ths
    have hg0 : (p, g) ∈ L₁ ++ (p, g) :: L₂ := by simp
    have hok : GhOK S g := h.ok _ hg0
    have hmg : g.mg ≤ P.M := h.mg _ hg0
    have hcf : g.C = sh.sync := h.cflag _ hg0
    have hw : wp S p g sh.mem endQ := h.wps _ hg0
    have hsame : g.S = true → g.ph = .run ∧ g.role ≠ .part ∧ g.C = true := by
      intro hS
      refine ⟨(hok.s_run hS).1, (hok.s_run hS).2, ?_⟩
      cases hC : g.C with
      | true => rfl
      | false => have := (hok.c_false hC).2.2.2; simp_all
    have hb : ¬ P.stale → sh.sync = true → g.S = true → sG g = 1 ∨ sh.nGor < P.M := by
      intro _ _ hS; left; simp [sG, hS]
    obtain ⟨X₁, J, k0, X₂, rfl, e1, e2⟩ := split_paid hI.ths
    have hJ : J = g.J.map Prod.fst ∧ X₁.map (fun x => x.2.1) = jsOf L₁ ∧ X₂.map (fun x => x.2.1) = jsOf L₂ := by
      have := hI.js
      simp only [jsOf, ownsOf, List.map_append, List.map_cons, List.map_map] at this
      have hl : (X₁.map fun x => x.2.1).length = (L₁.map (Own.J ∘ fun t => t.2.own)).length := by
        have := congrArg List.length e1; simpa using this
      obtain ⟨a, b⟩ := List.append_inj this hl
      simp only [List.cons.injEq] at b
      exact ⟨b.1, by simpa [jsOf, ownsOf] using a, by simpa [jsOf, ownsOf] using b.2⟩
    obtain ⟨hJ, hJ1, hJ2⟩ := hJ
    have hpay : cw M p J k0 fun _ _ _ => True := hI.paid (p, J, k0) (by simp)
    have hsum := hI.sum
    -- the credits after a step that spawns nothing
    have key : ∀ (p' : Prog V Sp Unit) (J' : Option Sp) (k' wt : Nat) (Js : List (Option Sp)) (sh' : Sh V), (∀ i, M.rd i (sh'.mem i)) →
        Js = jsOf L₁ ++ J' :: jsOf L₂ → k' + wt ≤ k0 → cw M p' J' k' (fun _ _ _ => True) →
        ∃ xs, CI M B ⟨sh', L₁.map Prod.fst ++ p' :: L₂.map Prod.fst ++ []⟩ Js (n + wt) xs := by
      intro p' J' k' wt Js sh' hrd hJs hk hc
      refine ⟨X₁ ++ (p', J', k') :: X₂, hrd, by simp [e1, e2], by rw [hJs]; simp [hJ1, hJ2], ?_, ?_⟩
      · intro x hx
        simp only [List.mem_append, List.mem_cons] at hx
        rcases hx with hx | rfl | hx
        · exact hI.paid x (by simp [hx])
        · exact hc
        · exact hI.paid x (by simp [hx])
      · simp at hsum ⊢; omega
    have hjs : jsOf (L₁ ++ (p, g) :: L₂) = jsOf L₁ ++ J :: jsOf L₂ := by simp [jsOf, ownsOf, Gh.own, hJ]
    cases ht with
    | read i k =>
      refine ⟨_, by simpa using h.upd H.loc sh.mem (k (sh.mem i)) g.S g.mg (fun _ _ => rfl) (hw.2 _ fun _ => rfl) hsame (fun hj => (hok.j hj).2.2.1) hmg hb, ?_⟩
      exact key (k (sh.mem i)) J (k0 - M.wa) M.wa _ sh hI.rd (by simpa [jsOf, ownsOf, Gh.own] using hjs) (by have := hpay.1; omega) (hpay.2 _ (hI.rd i))
    | write i v k =>
      have hm : ∀ j ∉ g.W, sh.mem j = Function.update sh.mem i v j := by
        intro j hj
        have : j ≠ i := by rintro rfl; exact hj hw.1.2
        simp [this]
      refine ⟨_, by simpa using h.upd H.loc (Function.update sh.mem i v) p' g.S g.mg hm hw.2 hsame (fun hj => (hok.j hj).2.2.1) hmg hb, ?_⟩
      exact key p' J (k0 - M.ww) M.ww _ _ (fun j => hfit.wr hpay.1.1 j _) (by simpa [jsOf, ownsOf, Gh.own] using hjs) (by have := hpay.1.2; omega) hpay.2
    | less i j x y k b hbb =>
      refine ⟨_, by simpa using h.upd H.loc sh.mem (k b) g.S g.mg (fun _ _ => rfl) (hw.2 b (H.cmp _ _ _ _ _ hbb)) hsame (fun hj => (hok.j hj).2.2.1) hmg hb, ?_⟩
      exact key (k b) J (k0 - M.wl) M.wl _ sh hI.rd (by simpa [jsOf, ownsOf, Gh.own] using hjs) (by have := hpay.1; omega) (hpay.2 _ (hfit.cmp _ _ _ _ _ hbb))
    | maxGor k n hn =>
      refine ⟨_, by simpa using h.upd H.loc sh.mem (k n) g.S n (fun _ _ => rfl) (hw.2 n) hsame (fun hj => (hok.j hj).2.2.1) hn hb, ?_⟩
      exact key (k n) J k0 0 _ sh hI.rd (by simpa [jsOf, ownsOf, Gh.own] using hjs) (by omega) (hpay _)
    | loadGor k n hsy hn =>
      obtain ⟨h1, h2, h3, h4, h5⟩ := hw
      have hb' : ¬ P.stale → sh.sync = true → decide (n < g.mg) = true → sG g = 1 ∨ sh.nGor < P.M := by
        intro hst _ hS
        right
        have hS : n < g.mg := by simpa using hS
        rcases hn with hn | hn
        · exact absurd hn hst
        · omega
      refine ⟨_, by simpa using h.upd H.loc sh.mem (k n) (decide (n < g.mg)) g.mg (fun _ _ => rfl) (h5 n) (fun _ => ⟨h2, h3, h1⟩) (fun hj => absurd h4 hj) hmg hb', ?_⟩
      exact key (k n) J k0 0 _ sh hI.rd (by simpa [jsOf, ownsOf, Gh.own] using hjs) (by omega) (hpay _)
    | loadNil k hsy =>
      have hw1 := hw.1
      simp [hcf] at hw1; simp [hw1] at hsy
    | incGor k hsy =>
      obtain ⟨ts', h1, _, h2⟩ := h.inc H.loc H.N
      refine ⟨ts', by simpa using h1, ?_⟩
      exact key (k _) J k0 0 (jsOf ts') { sh with nGor := (sh.nGor + 1) % 2 ^ 64 } hI.rd (by rw [jsOf, h2]; exact hjs) (by omega) (hpay _)
    | incNil k hsy =>
      have hw1 := hw.1
      simp [hcf] at hw1; simp [hw1] at hsy
    | decGor k hsy =>
      obtain ⟨ts', h1, _, nn, h2⟩ := h.dec H.loc H.N
      refine ⟨ts', by rw [List.append_nil]; exact h1, ?_⟩
      exact key (k ((sh.nGor + (2 ^ 64 - 1)) % 2 ^ 64)) none k0 0 (jsOf ts') { sh with nGor := (sh.nGor + (2 ^ 64 - 1)) % 2 ^ 64 } hI.rd (by rw [jsOf, h2]; simp [jsOf]) (by omega) (hpay _)
    | decNil k hsy =>
      have hw1 := hw.1
      simp [hcf] at hw1; simp [hw1] at hsy
    | mkSync k =>
      obtain ⟨ts', h1, _, h2⟩ := h.mkSync H.loc
      refine ⟨ts', by simpa using h1, ?_⟩
      exact key p' J k0 0 (jsOf ts') _ hI.rd (by rw [jsOf, h2]; exact hjs) (by omega) hpay
    | go s k =>
      obtain ⟨ts', h1, _, h2⟩ := h.go H.loc H.body
      have hpre : S.pre s sh.mem := by
        unfold wp at hw
        split_ifs at hw with hp
        · exact hw.2.2.2.2.2.2.2.2.2.2.1
        · exact hw.2.2.2.2.2.2.2.1
      refine ⟨ts', by simpa using h1, X₁ ++ (p', (if M.isPart s = true then some s else none), k0 - M.ρ s) :: X₂ ++ [(P.body s, none, M.ρ s)], ?_⟩
      refine ⟨hI.rd, by simp [e1, e2], ?_, ?_, ?_⟩
      · rw [jsOf, h2, hpart]
        have hch : (childGh S s sh.mem).own.J = none := by unfold childGh; split_ifs <;> rfl
        by_cases hp : S.isPart s = true
        · simp [hp, hJ1, hJ2, jsOf, hch]
        · simp [hp, hJ1, hJ2, jsOf, hch]
      · intro x hx
        simp only [List.append_assoc, List.cons_append, List.mem_append, List.mem_cons, List.not_mem_nil, or_false] at hx
        rcases hx with hx | rfl | hx | rfl
        · exact hI.paid x (by simp [hx])
        · exact hpay.2
        · exact hI.paid x (by simp [hx])
        · exact hbody s _ hpay.1.1 hpre
      · have := hpay.1.2
        simp [Meter.w] at hsum ⊢; omega
  | @commSR n l₁ l₂ l₃ sh v k k' _ hsy ih =>
    exfalso
    obtain ⟨ts, h, _, hI⟩ := ih
    have hths : (l₁ ++ .send v k :: l₂) ++ .recv k' :: l₃ = ts.map Prod.fst := by simpa using h.ths
    obtain ⟨L₁, g, L₂, rfl, h1, h2⟩ := split_ths hths
    have := h.recv_main (i := (l₁ ++ .send v k :: l₂).length) (k := k') (by simp)
    simp at this
  | @commRS n l₁ l₂ l₃ sh v k k' _ hsy ih =>
    obtain ⟨ts, h, xs, hI⟩ := ih
    have h0 := h.recv_main (i := l₁.length) (k := k') (by simp)
    have hl₁ : l₁ = [] := List.eq_nil_of_length_eq_zero h0
    subst hl₁
    have hths : [] ++ .recv k' :: (l₂ ++ .send v k :: l₃) = ts.map Prod.fst := by simpa using h.ths
    obtain ⟨L₁, g, L', rfl, h1, h2⟩ := split_ths hths
    have hL₁ : L₁ = [] := by simpa using h1
    subst hL₁
    obtain ⟨L₂, gs, L₃, rfl, h3, h4⟩ := split_ths h2.symm
    subst h3 h4
    simp only [List.nil_append] at h hI
    obtain ⟨ts', h1, _, h2⟩ := h.commMain hsy
    have hth := hI.ths
    have hth' : xs.map (fun x => x.1) = [] ++ Prog.recv k' :: (L₂.map Prod.fst ++ Prog.send v k :: L₃.map Prod.fst) := by simpa using hth
    obtain ⟨X₁, J, k0, X', rfl, e1, e2⟩ := split_paid hth'
    have hX₁ : X₁ = [] := by simpa using e1
    subst hX₁
    obtain ⟨X₂, J', k1, X₃, rfl, e3, e4⟩ := split_paid e2
    have hjs := hI.js
    simp only [jsOf, ownsOf, List.nil_append, List.map_append, List.map_cons, List.map_map, List.cons.injEq] at hjs
    obtain ⟨hJ, hjs⟩ := hjs
    have hl : (X₂.map fun x => x.2.1).length = (L₂.map (Own.J ∘ fun t => t.2.own)).length := by
      have := congrArg List.length e3; simpa using this
    obtain ⟨ja, jb⟩ := List.append_inj hjs hl
    simp only [List.cons.injEq] at jb
    have hp0 := hI.paid (Prog.recv k', J, k0) (by simp)
    have hp1 := hI.paid (Prog.send v k, J', k1) (by simp)
    have hJs : gs.J = none := by
      cases hJ : gs.J with
      | none => rfl
      | some x =>
        have := ((h.ok (Prog.send v k, gs) (by simp)).j (by simp [hJ])).1
        exact absurd this ((h.head).2 (Prog.send v k, gs) (by simp))
    have hJ' : J' = none := by rw [jb.1]; simp [Gh.own, hJs]
    subst hJ'
    have hsum := hI.sum
    refine ⟨ts', by simpa using h1, (k' v, none, k0) :: (X₂ ++ (k, none, k1) :: X₃), ⟨hI.rd, by simp [e3, e4], ?_, ?_, ?_⟩⟩
    · rcases h2 with ⟨s, post, a1, a2, a3, a4, a5, _, a6⟩ | ⟨a1, a2, a3, a4, a5⟩
      · rw [jsOf, a6]; simp [ownsOf, ja, jb.2]
      · rw [jsOf, a5]; simp [ownsOf, ja, jb.2]
    · intro x hx
      simp only [List.mem_append, List.mem_cons] at hx
      rcases hx with rfl | hx | rfl | hx
      · refine hp0 v fun s hs => ?_
        have hs : J = some s := hs
        rcases h2 with ⟨s', post, a1, a2, a3, a4, a5, ⟨m, m', hm⟩, a6⟩ | ⟨a1, a2, a3, a4, a5⟩
        · rw [hJ] at hs
          simp [Gh.own, a1] at hs
          subst hs
          exact hpo _ _ _ _ hm
        · exfalso
          rw [hJ] at hs
          have : g.J ≠ none := by intro hn; simp [Gh.own, hn] at hs
          have := ((h.ok (Prog.recv k', g) (by simp)).j this).2.1
          rw [a2] at this; cases this
      · exact hI.paid x (by simp [hx])
      · exact hp1
      · exact hI.paid x (by simp [hx])
    · simp at hsum ⊢; omega

/-- a bound for every execution -/
theorem Inv.metered_le (H : Hyp P S I) {p : Prog V Sp Unit} {m : Mem V} (h0 : ∃ ts, Inv P S I (Sorty.start p m) ts ∧ jsOf ts = [none])
    (hfit : M.Fits P m) (hpart : M.isPart = S.isPart) (hpo : ∀ s m v m', S.ppost s m v m' → M.ok s v)
    (hbody : ∀ s m, M.sp s → S.pre s m → cw M (P.body s) none (M.ρ s) fun _ _ _ => True) {B : Nat} (hp : cw M p none B fun _ _ _ => True)
    {c : Cfg V Sp} {n : Nat} (h : CSteps P M.w (Sorty.start p m) c n) : n ≤ B := by
  obtain ⟨_, _, _, hI⟩ := Inv.metered H h0 hfit hpart hpo hbody hp h
  have := hI.sum
  omega

theorem cw.looks {p : Prog V Sp α} {J : Option Sp} {n : Nat} {Q : α → Option Sp → Nat → Prop} (h : Sorty.cw M p J n Q)
    (less : Nat → Nat → V → V → Bool) (m : Mem V) (hr : ∀ i, M.rd i (m i)) (hl : ∀ i j x y, M.cmp i j x y (less i j x y)) : p.looks M.wa M.wl less m ≤ n := by
  induction p generalizing J n with
  | read i k ih => have := h.1; have := ih _ (h.2 (m i) (hr i)); simp only [Prog.looks]; omega
  | less i j x y k ih => have := h.1; have := ih _ (h.2 (less i j x y) (hl _ _ _ _)); simp only [Prog.looks]; omega
  | _ => simp [Prog.looks]

/-- `n` steps of the only goroutine, with a meter -/
def mrun (body : Sp → Prog V Sp Unit) (mg : Nat) (ans : Nat → Nat → V → V → Option Bool) (w : Prog V Sp Unit → Nat) :
    Nat → Sh V → Prog V Sp Unit → Nat → Option (Sh V × Prog V Sp Unit × Nat)
  | 0, sh, p, k => some (sh, p, k)
  | n + 1, sh, p, k =>
    match tstep body mg ans sh p with
    | some (sh', p', []) => mrun body mg ans w n sh' p' (k + w p)
    | _ => none

theorem mrun_sound {mg : Nat} {ans : Nat → Nat → V → V → Option Bool} {w : Prog V Sp Unit → Nat} (hm : mg ≤ P.M)
    (ha : ∀ i j x y b, ans i j x y = some b → P.cmp i j x y b) {c0 : Cfg V Sp} : ∀ (n : Nat) {sh sh' : Sh V} {p p' : Prog V Sp Unit} {k k' : Nat},
    CSteps P w c0 ⟨sh, [p]⟩ k → mrun P.body mg ans w n sh p k = some (sh', p', k') → CSteps P w c0 ⟨sh', [p']⟩ k' := by
  intro n
  induction n with
  | zero =>
    intro sh sh' p p' k k' h0 h
    simp only [mrun, Option.some.injEq, Prod.mk.injEq] at h
    obtain ⟨rfl, rfl, rfl⟩ := h
    exact h0
  | succ n ih =>
    intro sh sh' p p' k k' h0 h
    unfold mrun at h
    split at h
    · rename_i sh1 p1 h1
      exact ih (CSteps.tau (l₁ := []) (l₂ := []) (new := []) h0 (tstep_sound hm ha h1)) h
    · cases h

end Sorty
