import Verif.Logic.HBTrace
import Verif.SpecCounter

/-! # Creation of the counter and channel happens before their uses -/

namespace Sorty

open Prog

variable {V Sp : Type} {P : Par V Sp} {S : Spec V Sp} {I : IPar V Sp}

/-- the goroutine whose action it is -/
def Ev.actor : Ev → Nat
  | .acc t _ _ => t
  | .go t _ => t
  | .atom t => t
  | .comm s _ => s
  | .make t => t

theorem Ev.actor_who (x : Ev) : .gor x.actor ∈ x.who := by cases x <;> simp [Ev.actor, Ev.who]

/-- goroutine `t` is the caller or was started before position `j` -/
def Born (tr : List Ev) (j t : Nat) : Prop := t = 0 ∨ ∃ k p, k < j ∧ tr[k]? = some (.go p t)

theorem Born.append {tr tr' : List Ev} {j t : Nat} (h : Born tr j t) : Born (tr ++ tr') j t := by
  rcases h with h | ⟨k, p, h1, h2⟩
  · exact .inl h
  · exact .inr ⟨k, p, h1, by rw [List.getElem?_append_left (List.getElem?_eq_some_iff.1 h2).1]; exact h2⟩

theorem Born.mono {tr : List Ev} {j j' t : Nat} (h : Born tr j t) (hj : j ≤ j') : Born tr j' t := by
  rcases h with h | ⟨k, p, h1, h2⟩
  · exact .inl h
  · exact .inr ⟨k, p, by omega, h2⟩

structure BI (tr : List Ev) (n : Nat) : Prop where
  ths : ∀ t < n, Born tr tr.length t
  evs : ∀ j x, tr[j]? = some x → Born tr j x.actor

theorem BI.snoc {tr : List Ev} {n n' : Nat} {x : Ev} (h : BI tr n) (hx : x.actor < n) (hn : ∀ t < n', t < n ∨ ∃ p, x = .go p t) :
    BI (tr ++ [x]) n' := by
  constructor
  · intro t ht
    rcases hn t ht with h1 | ⟨p, rfl⟩
    · exact (h.ths t h1).append.mono (by simp)
    · exact .inr ⟨tr.length, p, by simp, by simp⟩
  · intro j y hj
    by_cases h1 : j < tr.length
    · rw [List.getElem?_append_left h1] at hj
      exact (h.evs j y hj).append
    · have h2 := (List.getElem?_eq_some_iff.1 hj).1
      simp only [List.length_append, List.length_singleton] at h2
      have h3 : j = tr.length := by omega
      subst h3
      simp at hj
      subst hj
      exact (h.ths _ hx).append

theorem Trace.born {p : Prog V Sp Unit} {m : Mem V} {c : Cfg V Sp} {tr} (h : Trace P (Sorty.start p m) tr c) : BI tr c.ths.length := by
  induction h with
  | refl => exact ⟨fun t ht => .inl (by simpa [Sorty.start] using ht), by simp⟩
  | @tau tr l₁ l₂ sh p sh' p' new hT ht ih =>
    cases ht with
    | go s =>
      refine ih.snoc (x := .go _ _) (by simp [Ev.actor]) fun t ht => ?_
      simp only [List.length_append, List.length_cons, List.length_nil] at ht ⊢
      by_cases h1 : t < l₁.length + (l₂.length + 1)
      · exact .inl h1
      · exact .inr ⟨_, congrArg _ (by omega)⟩
    | read i k => exact ih.snoc (x := .acc _ _ _) (by simp [Ev.actor]) fun t ht => .inl (by simpa using ht)
    | write i v => exact ih.snoc (x := .acc _ _ _) (by simp [Ev.actor]) fun t ht => .inl (by simpa using ht)
    | incGor k hs => exact ih.snoc (x := .atom _) (by simp [Ev.actor]) fun t ht => .inl (by simpa using ht)
    | incNil k hs => exact ih.snoc (x := .atom _) (by simp [Ev.actor]) fun t ht => .inl (by simpa using ht)
    | decGor k hs => exact ih.snoc (x := .atom _) (by simp [Ev.actor]) fun t ht => .inl (by simpa using ht)
    | decNil k hs => exact ih.snoc (x := .atom _) (by simp [Ev.actor]) fun t ht => .inl (by simpa using ht)
    | mkSync => exact ih.snoc (x := .make _) (by simp [Ev.actor]) fun t ht => .inl (by simpa using ht)
    | _ => simpa [Prog.act] using ih
  | commSR _ hs ih => exact ih.snoc (by simp [Ev.actor]) fun t ht => .inl (by simpa using ht)
  | commRS _ hs ih => exact ih.snoc (by simp [Ev.actor]) fun t ht => .inl (by simpa using ht)

/-- what is done before any goroutine is started is known to all goroutines -/
theorem BI.known {tr₁ tr₂ : List Ev} {x : Ev} {n : Nat} (h : BI (tr₁ ++ x :: tr₂) n) (hx : x.actor = 0) (h0 : ∀ y ∈ tr₁, ∃ a w, y = .acc 0 a w)
    (hg : ∀ p t, x ≠ .go p t) {t : Nat} (ht : t < n) : KnownTo (tr₁ ++ x :: tr₂) (.gor t) tr₁.length := by
  have hi : (tr₁ ++ x :: tr₂)[tr₁.length]? = some x := by simp
  have late : ∀ {k p t}, (tr₁ ++ x :: tr₂)[k]? = some (.go p t) → tr₁.length < k := by
    intro k p t hk
    by_contra hlt
    by_cases he : k = tr₁.length
    · rw [he, hi] at hk; exact hg p t (by simpa using hk)
    · rw [List.getElem?_append_left (by omega)] at hk
      obtain ⟨a, w, h1⟩ := h0 _ (List.mem_of_getElem? hk)
      cases h1
  have key : ∀ j y, tr₁.length < j → (tr₁ ++ x :: tr₂)[j]? = some y → HB (tr₁ ++ x :: tr₂) tr₁.length j := by
    intro j
    induction j using Nat.strong_induction_on with
    | _ j ih =>
      intro y hj hy
      rcases h.evs j y hy with h1 | ⟨k, p, h1, h2⟩
      · exact .edge hj hi hy (hx ▸ x.actor_who) (h1 ▸ y.actor_who)
      · exact .trans (ih k h1 _ (late h2) h2) (.edge h1 h2 hy (w := .gor y.actor) (by simp [Ev.who]) y.actor_who)
  rcases h.ths t ht with rfl | ⟨k, p, h1, h2⟩
  · exact ⟨_, x, hi, hx ▸ x.actor_who, .inl rfl⟩
  · exact ⟨k, _, h2, by simp [Ev.who], .inr (key k _ (late h2) h2)⟩

theorem Inv.usesSync (H : Hyp P S I) {c : Cfg V Sp} {ts} (h : Inv P S I c ts) {i : Nat} {p : Prog V Sp Unit} (hi : c.ths[i]? = some p)
    (hp : p.usesSync) : c.sh.sync = true := by
  by_contra hs'
  have hs : c.sh.sync = false := by simpa using hs'
  have hl : c.ths.length = 1 := by rw [h.ths, List.length_map]; exact h.nosync hs
  obtain ⟨q, hq⟩ := List.length_eq_one_iff.1 hl
  have hpq : p = q := by
    have := List.mem_of_getElem? hi
    rw [hq] at this
    simpa using this
  subst hpq
  obtain ⟨t, ht⟩ : ∃ t, t ∈ ts ∧ t.1 = p := by
    have := List.mem_of_getElem? hi
    rw [h.ths, List.mem_map] at this
    exact this
  have hw := h.wps t ht.1
  have hC : t.2.C = false := (h.cflag t ht.1).trans hs
  rw [ht.2] at hw
  have hno : ∀ c', Step P c c' → (∀ v k, p ≠ .send v k) ∧ ∀ k, p ≠ .recv k := by
    intro c' hstep
    obtain ⟨sh, ths⟩ := c
    simp only at hq hs
    subst hq
    generalize hc : (⟨sh, [p]⟩ : Cfg V Sp) = c0 at hstep
    cases hstep with
    | tau l₁ l₂ sh0 q sh' q' new hst =>
      simp only [Cfg.mk.injEq] at hc
      obtain ⟨rfl, e⟩ := hc
      obtain ⟨rfl, rfl, rfl⟩ : l₁ = [] ∧ q = p ∧ l₂ = [] := by
        cases l₁ with
        | nil => simp at e; exact ⟨rfl, e.1.symm, e.2⟩
        | cons a l => simp at e
      cases hst <;> simp
    | commSR l₁ l₂ l₃ sh0 v k k' h1 => simp only [Cfg.mk.injEq] at hc; rw [← hc.1, hs] at h1; cases h1
    | commRS l₁ l₂ l₃ sh0 v k k' h1 => simp only [Cfg.mk.injEq] at hc; rw [← hc.1, hs] at h1; cases h1
  have hstuck : (∃ v k, p = .send v k) ∨ (∃ k, p = .recv k) → False := by
    intro hx
    rcases h.progress H with ⟨c', h1⟩ | h1
    · obtain ⟨h2, h3⟩ := hno c' h1
      rcases hx with ⟨v, k, e⟩ | ⟨k, e⟩
      · exact h2 v k e
      · exact h3 k e
    · have := h1 p (by rw [hq]; simp)
      rcases hx with ⟨v, k, e⟩ | ⟨k, e⟩ <;> rw [e] at this <;> cases this
  cases p with
  | loadGor k => have := hw.1; simp [hC] at this
  | incGor k => have := hw.1; simp [hC] at this
  | decGor k => have := hw.1; simp [hC] at this
  | send v k => exact hstuck (.inl ⟨v, k, rfl⟩)
  | recv k => exact hstuck (.inr ⟨k, rfl⟩)
  | _ => exact hp

theorem Inv.counter (H : Hyp P S I) {p : Prog V Sp Unit} {m : Mem V} {c : Cfg V Sp} {tr} (h0 : ∃ ts, Inv P S I (Sorty.start p m) ts)
    (h : Trace P (Sorty.start p m) tr c) {t : Nat} {q : Prog V Sp Unit} (hq : c.ths[t]? = some q) (hu : q.usesSync) :
    ∃ i, tr[i]? = some (.make 0) ∧ KnownTo tr (.gor t) i := by
  obtain ⟨ts, hI⟩ := Inv.esteps H h0 h.steps.toE
  obtain ⟨tr₁, tr₂, rfl, h1, h2⟩ := (Inv.make H h0 h).one (hI.usesSync H hq hu)
  exact ⟨tr₁.length, by simp, h.born.known rfl h1 (by simp) (List.getElem?_eq_some_iff.1 hq).1⟩

end Sorty
