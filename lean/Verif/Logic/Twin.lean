import Verif.Sem
import Mathlib.Data.List.Forall2

/-! # Programs that behave alike

`Twin G R Q p q`: `p` and `q` do the same effects and end with equal results, of which `Q` holds; they start only goroutines
that satisfy `G` and send only messages that satisfy `R`, and need to agree only after receiving such messages. -/

namespace Sorty

variable {V Sp α β : Type}

inductive Twin (G : Sp → Prop) (R : Int → Prop) (Q : α → Prop) : Prog V Sp α → Prog V Sp α → Prop
  | ret (a) : Q a → Twin G R Q (.ret a) (.ret a)
  | read (i k k') : (∀ v, Twin G R Q (k v) (k' v)) → Twin G R Q (.read i k) (.read i k')
  | write (i v k k') : Twin G R Q k k' → Twin G R Q (.write i v k) (.write i v k')
  | less (i j x y k k') : (∀ b, Twin G R Q (k b) (k' b)) → Twin G R Q (.less i j x y k) (.less i j x y k')
  | maxGor (k k') : (∀ n, Twin G R Q (k n) (k' n)) → Twin G R Q (.maxGor k) (.maxGor k')
  | loadGor (k k') : (∀ n, Twin G R Q (k n) (k' n)) → Twin G R Q (.loadGor k) (.loadGor k')
  | incGor (k k') : (∀ n, Twin G R Q (k n) (k' n)) → Twin G R Q (.incGor k) (.incGor k')
  | decGor (k k') : (∀ n, Twin G R Q (k n) (k' n)) → Twin G R Q (.decGor k) (.decGor k')
  | mkSync (k k') : Twin G R Q k k' → Twin G R Q (.mkSync k) (.mkSync k')
  | go (s k k') : G s → Twin G R Q k k' → Twin G R Q (.go s k) (.go s k')
  | send (v k k') : R v → Twin G R Q k k' → Twin G R Q (.send v k) (.send v k')
  | recv (k k') : (∀ v, R v → Twin G R Q (k v) (k' v)) → Twin G R Q (.recv k) (.recv k')
  | panic : Twin G R Q .panic .panic
  | overflow : Twin G R Q .overflow .overflow
  | diverge : Twin G R Q .diverge .diverge

namespace Twin

variable {G : Sp → Prop} {R : Int → Prop} {Q Q' : α → Prop}

theorem symm {p q : Prog V Sp α} (h : Twin G R Q p q) : Twin G R Q q p := by
  induction h with
  | ret a h => exact .ret a h
  | read i k k' _ ih => exact .read _ _ _ ih
  | write i v k k' _ ih => exact .write _ _ _ _ ih
  | less i j x y k k' _ ih => exact .less _ _ _ _ _ _ ih
  | maxGor k k' _ ih => exact .maxGor _ _ ih
  | loadGor k k' _ ih => exact .loadGor _ _ ih
  | incGor k k' _ ih => exact .incGor _ _ ih
  | decGor k k' _ ih => exact .decGor _ _ ih
  | mkSync k k' _ ih => exact .mkSync _ _ ih
  | go s k k' h _ ih => exact .go _ _ _ h ih
  | send v k k' h _ ih => exact .send _ _ _ h ih
  | recv k k' _ ih => exact .recv _ _ ih
  | panic => exact .panic
  | overflow => exact .overflow
  | diverge => exact .diverge

theorem bind {Q' : β → Prop} {p q : Prog V Sp α} {f g : α → Prog V Sp β} (h : Twin G R Q p q)
    (hf : ∀ a, Q a → Twin G R Q' (f a) (g a)) : Twin G R Q' (p.bind f) (q.bind g) := by
  induction h with
  | ret a h => exact hf a h
  | read i k k' _ ih => exact .read _ _ _ ih
  | write i v k k' _ ih => exact .write _ _ _ _ ih
  | less i j x y k k' _ ih => exact .less _ _ _ _ _ _ ih
  | maxGor k k' _ ih => exact .maxGor _ _ ih
  | loadGor k k' _ ih => exact .loadGor _ _ ih
  | incGor k k' _ ih => exact .incGor _ _ ih
  | decGor k k' _ ih => exact .decGor _ _ ih
  | mkSync k k' _ ih => exact .mkSync _ _ ih
  | go s k k' h _ ih => exact .go _ _ _ h ih
  | send v k k' h _ ih => exact .send _ _ _ h ih
  | recv k k' _ ih => exact .recv _ _ ih
  | panic => exact .panic
  | overflow => exact .overflow
  | diverge => exact .diverge

theorem mono {p q : Prog V Sp α} (h : Twin G R Q p q) (hQ : ∀ a, Q a → Q' a) : Twin G R Q' p q := by
  induction h with
  | ret a h => exact .ret a (hQ a h)
  | read i k k' _ ih => exact .read _ _ _ ih
  | write i v k k' _ ih => exact .write _ _ _ _ ih
  | less i j x y k k' _ ih => exact .less _ _ _ _ _ _ ih
  | maxGor k k' _ ih => exact .maxGor _ _ ih
  | loadGor k k' _ ih => exact .loadGor _ _ ih
  | incGor k k' _ ih => exact .incGor _ _ ih
  | decGor k k' _ ih => exact .decGor _ _ ih
  | mkSync k k' _ ih => exact .mkSync _ _ ih
  | go s k k' h _ ih => exact .go _ _ _ h ih
  | send v k k' h _ ih => exact .send _ _ _ h ih
  | recv k k' _ ih => exact .recv _ _ ih
  | panic => exact .panic
  | overflow => exact .overflow
  | diverge => exact .diverge

/-- what a round of a loop must preserve -/
def ctl {σ : Type} (I : σ → Prop) (Q : α → Prop) : Prog.Ctl σ α → Prop
  | .again s => I s
  | .brk a => Q a

theorem loop {σ : Type} {I : σ → Prop} {f g : σ → Prog V Sp (Prog.Ctl σ α)}
    (h : ∀ s, I s → Twin G R (ctl I Q) (f s) (g s)) : ∀ (n : Nat) (s : σ), I s → Twin G R Q (Prog.loop n f s) (Prog.loop n g s)
  | 0, _, _ => .diverge
  | n + 1, s, hs => (h s hs).bind fun c hc => by
      cases c with
      | again s' => exact loop h n s' hc
      | brk a => exact .ret _ hc

end Twin

open Twin

theorem forall₂_append_left {A B : Type} {r : A → B → Prop} : ∀ {l₁ l₂ : List A} {u : List B}, List.Forall₂ r (l₁ ++ l₂) u →
    ∃ m₁ m₂, List.Forall₂ r l₁ m₁ ∧ List.Forall₂ r l₂ m₂ ∧ u = m₁ ++ m₂
  | [], _, u, h => ⟨[], u, .nil, h, rfl⟩
  | _ :: l₁, _, _, .cons h1 h2 => by
    obtain ⟨m₁, m₂, h3, h4, rfl⟩ := forall₂_append_left (l₁ := l₁) h2
    exact ⟨_ :: m₁, m₂, .cons h1 h3, h4, rfl⟩

/-- configurations with the same shared state and goroutines that behave alike -/
def TwinCfg (G : Sp → Prop) (R : Int → Prop) (c d : Cfg V Sp) : Prop :=
  c.sh = d.sh ∧ List.Forall₂ (Twin G R fun _ => True) c.ths d.ths

variable {G : Sp → Prop} {R : Int → Prop}

theorem TwinCfg.symm {c d : Cfg V Sp} (h : TwinCfg G R c d) : TwinCfg G R d c :=
  ⟨h.1.symm, h.2.flip.imp fun _ _ h => h.symm⟩

/-- environments that differ only in the programs of goroutines, which behave alike -/
structure TwinPar (G : Sp → Prop) (R : Int → Prop) (P P' : Par V Sp) : Prop where
  M : P.M = P'.M
  stale : P.stale ↔ P'.stale
  cmp : P.cmp = P'.cmp
  body : ∀ s, G s → Twin G R (fun _ => True) (P.body s) (P'.body s)

theorem TwinPar.symm {P P' : Par V Sp} (h : TwinPar G R P P') : TwinPar G R P' P :=
  ⟨h.M.symm, h.stale.symm, h.cmp.symm, fun s hs => (h.body s hs).symm⟩

theorem Twin.tstep {P P' : Par V Sp} (hP : TwinPar G R P P') {sh sh' : Sh V} {p p' q : Prog V Sp Unit} {new : List (Prog V Sp Unit)}
    (h : TStep P sh p sh' p' new) (hs : Twin G R (fun _ => True) p q) :
    ∃ q' new', TStep P' sh q sh' q' new' ∧ Twin G R (fun _ => True) p' q' ∧ List.Forall₂ (Twin G R fun _ => True) new new' := by
  cases h with
  | read i k => cases hs with | read _ _ k' h => exact ⟨_, _, .read _ _ _, h _, .nil⟩
  | write i v => cases hs with | write _ _ _ k' h => exact ⟨_, _, .write _ _ _ _, h, .nil⟩
  | less i j x y k b hb =>
    cases hs with | less _ _ _ _ _ k' h => exact ⟨_, _, .less _ _ _ _ _ _ b (hP.cmp ▸ hb), h _, .nil⟩
  | maxGor k n hn => cases hs with | maxGor _ k' h => exact ⟨_, _, .maxGor _ _ n (hP.M ▸ hn), h _, .nil⟩
  | loadGor k n h1 h2 =>
    cases hs with | loadGor _ k' h => exact ⟨_, _, .loadGor _ _ n h1 (h2.imp hP.stale.1 id), h _, .nil⟩
  | loadNil k h1 => cases hs with | loadGor _ k' h => exact ⟨_, _, .loadNil _ _ h1, .panic, .nil⟩
  | incGor k h1 => cases hs with | incGor _ k' h => exact ⟨_, _, .incGor _ _ h1, h _, .nil⟩
  | incNil k h1 => cases hs with | incGor _ k' h => exact ⟨_, _, .incNil _ _ h1, .panic, .nil⟩
  | decGor k h1 => cases hs with | decGor _ k' h => exact ⟨_, _, .decGor _ _ h1, h _, .nil⟩
  | decNil k h1 => cases hs with | decGor _ k' h => exact ⟨_, _, .decNil _ _ h1, .panic, .nil⟩
  | mkSync => cases hs with | mkSync _ k' h => exact ⟨_, _, .mkSync _ _, h, .nil⟩
  | go s => cases hs with | go _ _ k' hg h => exact ⟨_, _, .go _ _ _, h, .cons (hP.body _ hg) .nil⟩

theorem Twin.step {P P' : Par V Sp} (hP : TwinPar G R P P') {c c' d : Cfg V Sp} (h : Step P c c') (hs : TwinCfg G R c d) :
    ∃ d', Step P' d d' ∧ TwinCfg G R c' d' := by
  obtain ⟨dsh, dths⟩ := d
  obtain ⟨e, hf⟩ := hs
  cases h with
  | tau l₁ l₂ sh p sh' p' new h =>
    simp only at e hf; subst e
    obtain ⟨m₁, r, f1, f2, rfl⟩ := forall₂_append_left hf
    obtain ⟨q, m₂, f3, f4, rfl⟩ := List.forall₂_cons_left_iff.1 f2
    obtain ⟨q', new', h1, h2, h3⟩ := Twin.tstep hP h f3
    exact ⟨_, .tau _ _ _ _ _ _ _ h1, rfl, by
      simp only [List.append_assoc, List.cons_append]
      exact List.rel_append f1 (.cons h2 (List.rel_append f4 h3))⟩
  | commSR l₁ l₂ l₃ sh v k k' h =>
    simp only [List.append_assoc, List.cons_append] at e hf; subst e
    obtain ⟨m₁, r, f1, f2, rfl⟩ := forall₂_append_left hf
    obtain ⟨q, r, f3, f4, rfl⟩ := List.forall₂_cons_left_iff.1 f2
    obtain ⟨m₂, r', f5, f6, rfl⟩ := forall₂_append_left f4
    obtain ⟨q', m₃, f7, f8, rfl⟩ := List.forall₂_cons_left_iff.1 f6
    cases f3 with
    | send _ _ j hr hj =>
      cases f7 with
      | recv _ j' hj' =>
        refine ⟨⟨sh, m₁ ++ j :: m₂ ++ j' v :: m₃⟩, ?_, rfl, ?_⟩
        · have := Step.commSR (P := P') m₁ m₂ m₃ sh v j j' h
          simpa only [List.append_assoc, List.cons_append] using this
        · simp only [List.append_assoc, List.cons_append]
          exact List.rel_append f1 (.cons hj (List.rel_append f5 (.cons (hj' v hr) f8)))
  | commRS l₁ l₂ l₃ sh v k k' h =>
    simp only [List.append_assoc, List.cons_append] at e hf; subst e
    obtain ⟨m₁, r, f1, f2, rfl⟩ := forall₂_append_left hf
    obtain ⟨q, r, f3, f4, rfl⟩ := List.forall₂_cons_left_iff.1 f2
    obtain ⟨m₂, r', f5, f6, rfl⟩ := forall₂_append_left f4
    obtain ⟨q', m₃, f7, f8, rfl⟩ := List.forall₂_cons_left_iff.1 f6
    cases f7 with
    | send _ _ j hr hj =>
      cases f3 with
      | recv _ j' hj' =>
        refine ⟨⟨sh, m₁ ++ j' v :: m₂ ++ j :: m₃⟩, ?_, rfl, ?_⟩
        · have := Step.commRS (P := P') m₁ m₂ m₃ sh v j j' h
          simpa only [List.append_assoc, List.cons_append] using this
        · simp only [List.append_assoc, List.cons_append]
          exact List.rel_append f1 (.cons (hj' v hr) (List.rel_append f5 (.cons hj f8)))

theorem Twin.steps {P P' : Par V Sp} (hP : TwinPar G R P P') {c c' d : Cfg V Sp} (h : Steps P c c') (hs : TwinCfg G R c d) :
    ∃ d', Steps P' d d' ∧ TwinCfg G R c' d' := by
  induction h with
  | refl => exact ⟨d, .refl _, hs⟩
  | tail _ h ih =>
    obtain ⟨d', h1, h2⟩ := ih
    obtain ⟨d'', h3, h4⟩ := Twin.step hP h h2
    exact ⟨d'', h1.tail h3, h4⟩

theorem Twin.start {p q : Prog V Sp Unit} (h : Twin G R (fun _ => True) p q) (m : Mem V) : TwinCfg G R (start p m) (start q m) :=
  ⟨rfl, .cons h .nil⟩

end Sorty
