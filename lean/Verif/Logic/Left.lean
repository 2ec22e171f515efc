import Verif.Logic.Term

/-! # Executions without the caller

What the other goroutines do after the caller has left they can also do while the caller is not scheduled. -/

namespace Sorty

variable {V Sp : Type} {P : Par V Sp}

theorem Step.without {sh : Sh V} {l : List (Prog V Sp Unit)} {c' : Cfg V Sp} (hs : Step P ⟨sh, .ret () :: l⟩ c') :
    ∃ l', c'.ths = .ret () :: l' ∧ ∀ p, Step P ⟨sh, p :: l⟩ ⟨c'.sh, p :: l'⟩ := by
  generalize hc : (⟨sh, .ret () :: l⟩ : Cfg V Sp) = c at hs
  cases hs with
  | tau l₁ l₂ sh₁ p sh' p' new ht =>
    obtain ⟨rfl, h⟩ := Cfg.mk.inj hc
    cases l₁ with
    | nil =>
      obtain ⟨rfl, _⟩ := List.cons.inj h
      cases ht
    | cons q l₁ =>
      obtain ⟨rfl, rfl⟩ := List.cons.inj h
      exact ⟨l₁ ++ p' :: l₂ ++ new, rfl, fun p₀ => Step.tau (p₀ :: l₁) l₂ _ p sh' p' new ht⟩
  | commSR l₁ l₂ l₃ sh₁ v k k' hs =>
    obtain ⟨rfl, h⟩ := Cfg.mk.inj hc
    cases l₁ with
    | nil => cases (List.cons.inj h).1
    | cons q l₁ =>
      obtain ⟨rfl, rfl⟩ := List.cons.inj h
      exact ⟨l₁ ++ k :: l₂ ++ k' v :: l₃, rfl, fun p₀ => Step.commSR (p₀ :: l₁) l₂ l₃ _ v k k' hs⟩
  | commRS l₁ l₂ l₃ sh₁ v k k' hs =>
    obtain ⟨rfl, h⟩ := Cfg.mk.inj hc
    cases l₁ with
    | nil => cases (List.cons.inj h).1
    | cons q l₁ =>
      obtain ⟨rfl, rfl⟩ := List.cons.inj h
      exact ⟨l₁ ++ k' v :: l₂ ++ k :: l₃, rfl, fun p₀ => Step.commRS (p₀ :: l₁) l₂ l₃ _ v k k' hs⟩

theorem Steps.without {sh : Sh V} {l : List (Prog V Sp Unit)} {c' : Cfg V Sp} (hs : Steps P ⟨sh, .ret () :: l⟩ c') (p : Prog V Sp Unit) :
    ∃ l', c'.ths = .ret () :: l' ∧ Steps P ⟨sh, p :: l⟩ ⟨c'.sh, p :: l'⟩ := by
  generalize hc : (⟨sh, .ret () :: l⟩ : Cfg V Sp) = c at hs
  induction hs with
  | refl => subst hc; exact ⟨l, rfl, .refl _⟩
  | tail _ h2 ih =>
    rename_i c₁ c₂ _
    obtain ⟨l', h3, h4⟩ := ih
    obtain ⟨sh₁, ths₁⟩ := c₁
    dsimp only at h3
    subst h3
    obtain ⟨l₂, h5, h6⟩ := h2.without
    exact ⟨l₂, h5, h4.tail (h6 p)⟩

theorem Acc.without {sh : Sh V} {l : List (Prog V Sp Unit)} {p : Prog V Sp Unit} (h : Acc (fun c' c => Step P c c') ⟨sh, p :: l⟩) :
    Acc (fun c' c => Step P c c') ⟨sh, .ret () :: l⟩ := by
  generalize hc : (⟨sh, p :: l⟩ : Cfg V Sp) = c at h
  induction h generalizing sh l with
  | intro c _ ih =>
    subst hc
    refine ⟨_, fun c' hs => ?_⟩
    obtain ⟨l', h1, h2⟩ := hs.without
    have := ih _ (h2 p) rfl
    rw [← h1] at this
    exact this

theorem Steps.acc {c c' : Cfg V Sp} (hs : Steps P c c') (h : Acc (fun c' c => Step P c c') c) : Acc (fun c' c => Step P c c') c' := by
  induction hs with
  | refl => exact h
  | tail _ h2 ih => exact ih.inv h2

/-- a goroutine that cannot move waits for the channel, has finished, or something is wrong -/
theorem stuck_of_no_step {c : Cfg V Sp} (hcmp : ∀ i j x y, ∃ b, P.cmp i j x y b) (hno : ∀ c', ¬ Step P c c') {p : Prog V Sp Unit} (hp : p ∈ c.ths)
    (hw : ¬ Wrong c) : p = .ret () ∨ (∃ v k, p = .send v k) ∨ ∃ k, p = .recv k := by
  have htau : ∀ sh' p' new, ¬ TStep P c.sh p sh' p' new := by
    intro sh' p' new ht
    obtain ⟨sh, ths⟩ := c
    obtain ⟨l₁, l₂, rfl⟩ := List.append_of_mem hp
    exact hno _ (.tau l₁ l₂ sh p sh' p' new ht)
  have hsyn : c.sh.sync = true ∨ c.sh.sync = false := by cases c.sh.sync <;> simp
  cases p with
  | ret a => exact .inl rfl
  | send v k => exact .inr (.inl ⟨_, _, rfl⟩)
  | recv k => exact .inr (.inr ⟨_, rfl⟩)
  | panic => exact (hw (.inl hp)).elim
  | overflow => exact (hw (.inr (.inl hp))).elim
  | diverge => exact (hw (.inr (.inr hp))).elim
  | read i k => exact (htau _ _ _ (.read _ i k)).elim
  | write i v k => exact (htau _ _ _ (.write _ i v k)).elim
  | less i j x y k =>
    obtain ⟨b, hb⟩ := hcmp i j x y
    exact (htau _ _ _ (.less _ i j x y k b hb)).elim
  | maxGor k => exact (htau _ _ _ (.maxGor _ k 0 (Nat.zero_le _))).elim
  | loadGor k =>
    rcases hsyn with hs | hs
    · exact (htau _ _ _ (.loadGor _ k _ hs (.inr rfl))).elim
    · exact (htau _ _ _ (.loadNil _ k hs)).elim
  | incGor k =>
    rcases hsyn with hs | hs
    · exact (htau _ _ _ (.incGor _ k hs)).elim
    · exact (htau _ _ _ (.incNil _ k hs)).elim
  | decGor k =>
    rcases hsyn with hs | hs
    · exact (htau _ _ _ (.decGor _ k hs)).elim
    · exact (htau _ _ _ (.decNil _ k hs)).elim
  | mkSync k => exact (htau _ _ _ (.mkSync _ k)).elim
  | go s k => exact (htau _ _ _ (.go _ s k)).elim

end Sorty
