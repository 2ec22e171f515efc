import Verif.Proofs.View
import Verif.Proofs.LswJob
import Verif.SpecStable

/-! # Insertion sort is stable -/

namespace Sorty

open Prog

variable {V κ Sp : Type} {cmp : Nat → Nat → V → V → Bool → Prop} {W R : Set Nat}

/-- exchanging neighbours that are not both in a class leaves the list of the members of the class as it is -/
theorem filter_swap (p : V → Bool) (s : Slice) (m m' : Mem V) (i : Nat) (hi : i + 1 < s.len) (h1 : m' (s.off + i) = m (s.off + (i + 1)))
    (h2 : m' (s.off + (i + 1)) = m (s.off + i)) (ho : ∀ a, a ≠ s.off + i → a ≠ s.off + (i + 1) → m' a = m a)
    (hp : ¬ (p (m (s.off + i)) = true ∧ p (m (s.off + (i + 1))) = true)) : (s.view m').filter p = (s.view m).filter p := by
  have split : ∀ m : Mem V, s.view m = (⟨s.off, i⟩ : Slice).view m ++ m (s.off + i) :: m (s.off + (i + 1)) ::
      (⟨s.off + (i + 2), s.len - (i + 2)⟩ : Slice).view m := by
    intro m
    rw [view_split s m i (by omega)]
    congr 1
    rw [view_split ⟨s.off + i, s.len - i⟩ m 2 (by simp; omega)]
    simp only [Slice.view, Nat.add_assoc, Nat.sub_sub]
    rfl
  have c1 : (⟨s.off, i⟩ : Slice).view m' = (⟨s.off, i⟩ : Slice).view m :=
    view_congr fun a ha => by
      simp only [Slice.rng, Set.mem_ofPred_eq] at ha
      exact ho a (by omega) (by omega)
  have c2 : (⟨s.off + (i + 2), s.len - (i + 2)⟩ : Slice).view m' = (⟨s.off + (i + 2), s.len - (i + 2)⟩ : Slice).view m :=
    view_congr fun a ha => by
      simp only [Slice.rng, Set.mem_ofPred_eq] at ha
      exact ho a (by omega) (by omega)
  rw [split m', split m, c1, c2, h1, h2]
  simp only [List.filter_append, List.filter_cons]
  congr 1
  cases e1 : p (m (s.off + i)) <;> cases e2 : p (m (s.off + (i + 1))) <;> simp_all

theorem insertInner_stable {key : V → κ} {lt : κ → κ → Bool} {p : V → Bool} (hp : ∀ x y, p x = true → p y = true → lt (key x) (key y) = false)
    {slc : Slice} (hW : slc.rng ⊆ W) {h : Int} {val : V} {m : Mem V} (h1 : 1 ≤ h) (h2 : h < slc.len) (hv : slc.E m h = val) :
    swp cmp W R (insertInner key lt slc h val : Prog V Sp Unit) m fun _ m' => (slc.view m').filter p = (slc.view m).filter p := by
  have hWR : slc.rng ⊆ W ∪ R := hW.trans Set.subset_union_left
  unfold insertInner
  refine swp_loop _ _ (fun l m1 => 1 ≤ l ∧ l ≤ h ∧ (l = h → m1 = m) ∧
    (slc.view (Function.update m1 (slc.off + l.toNat) val)).filter p = (slc.view m).filter p) (fun l => l.toNat) ?_ _ _ _ ?_ ?_
  · rintro l m1 ⟨g1, g2, g3, g4⟩
    refine swp_bind (Slice.swp_rd (by omega) (by omega) hWR ?_)
    split_ifs with hc hl
    · have hst : (slc.view (Function.update (Function.update m1 (slc.off + l.toNat) (slc.E m1 (l - 1))) (slc.off + (l - 1).toNat) val)).filter p =
          (slc.view m).filter p := by
        rw [← g4]
        obtain ⟨i, rfl⟩ : ∃ i : Nat, l = (i : Int) + 1 := ⟨(l - 1).toNat, by omega⟩
        have e1 : ((i : Int) + 1).toNat = i + 1 := by omega
        have e2 : ((i : Int) + 1 - 1).toNat = i := by omega
        rw [e1, e2]
        refine filter_swap p slc _ _ i (by omega) ?_ ?_ ?_ ?_
        · rw [Function.update_self, Function.update_self]
        · rw [Function.update_of_ne (by omega), Function.update_self, Function.update_of_ne (by omega)]
          unfold Slice.E; rw [e2]
        · intro a ha hb
          rw [Function.update_of_ne ha, Function.update_of_ne hb, Function.update_of_ne hb]
        · rw [Function.update_self, Function.update_of_ne (by omega)]
          rintro ⟨k1, k2⟩
          have := hp val _ k2 k1
          unfold Slice.E at hc
          rw [e2, this] at hc
          cases hc
      refine swp_bind (Slice.swp_wr (by omega) (by omega) hW ?_)
      dsimp only
      split_ifs with hl
      · exact swp_bind (Slice.swp_wr (by omega) (by omega) hW hst)
      · exact ⟨⟨by omega, by omega, by omega, hst⟩, by omega⟩
    · have := g3 hl
      subst this
      rfl
    · exact swp_bind (Slice.swp_wr (by omega) (by omega) hW g4)
  · refine ⟨h1, le_refl _, fun _ => rfl, ?_⟩
    rw [← hv]
    have : Function.update m (slc.off + h.toNat) (slc.E m h) = m := by
      unfold Slice.E; exact Function.update_eq_self _ _
    rw [this]
  · omega

theorem insertion_stable {key : V → κ} {lt : κ → κ → Bool} {p : V → Bool} (hp : ∀ x y, p x = true → p y = true → lt (key x) (key y) = false)
    {slc : Slice} (hW : slc.rng ⊆ W) {m : Mem V} :
    swp cmp W R (insertion key lt slc : Prog V Sp Unit) m fun _ m' => (slc.view m').filter p = (slc.view m).filter p := by
  have hWR : slc.rng ⊆ W ∪ R := hW.trans Set.subset_union_left
  unfold insertion
  refine swp_loop _ _ (fun h m1 => 1 ≤ h ∧ (slc.view m1).filter p = (slc.view m).filter p) (fun h => ((slc.len : Int) - h).toNat) ?_ _ _ _ ?_ ?_
  · rintro h m1 ⟨g1, g2⟩
    split_ifs with hc
    · refine swp_bind (Slice.swp_rd (by omega) hc hWR ?_)
      refine swp_bind (swp_mono (insertInner_stable hp hW g1 hc rfl) ?_)
      rintro _ m' k1
      exact ⟨⟨by omega, k1.trans g2⟩, by omega⟩
    · exact g2
  · exact ⟨le_refl _, rfl⟩
  · omega

theorem lswInner_stable {p : V → Bool} (ht : ∀ i j x y, ∃ b, cmp i j x y b) (hp : ∀ i j x y, cmp i j x y true → ¬ (p x = true ∧ p y = true))
    {s : Slice} (hW : s.rng ⊆ W) {h : Int} {m : Mem V} (h1 : 1 ≤ h) (h2 : h < s.len) :
    swp cmp W R (lswInner s 0 1 h : Prog V Sp Unit) m fun _ m' => (s.view m').filter p = (s.view m).filter p := by
  have hWR : s.rng ⊆ W ∪ R := hW.trans Set.subset_union_left
  unfold lswInner
  refine swp_loop _ _ (fun l m1 => 1 ≤ l ∧ l ≤ h ∧ (s.view m1).filter p = (s.view m).filter p) (fun l => l.toNat) ?_ _ _ _ ?_ ?_
  · rintro l m1 ⟨g1, g2, g3⟩
    refine swp_bind ?_
    rw [call_documented]
    unfold lsw
    rw [if_pos ⟨⟨by omega, by omega⟩, ⟨by omega, by omega⟩, ⟨by omega, by omega⟩, ⟨by omega, by omega⟩⟩]
    refine swp_bind (Slice.swp_rd (by omega) (by omega) hWR (swp_bind (Slice.swp_rd (by omega) (by omega) hWR (swp_bind ⟨ht _ _ _ _, ?_⟩))))
    intro b hb
    cases b with
    | false => exact g3
    | true =>
      have hq := hp _ _ _ _ hb
      simp only
      rw [if_pos (by omega)]
      unfold Slice.swap
      refine swp_bind (swp_bind (Slice.swp_rd (by omega) (by omega) hWR (swp_bind (Slice.swp_rd (by omega) (by omega) hWR
        (swp_bind (Slice.swp_wr (by omega) (by omega) hW (Slice.swp_wr (by omega) (by omega) hW ?_)))))))
      have hst : (s.view (Function.update (Function.update m1 (s.off + l.toNat) (s.E m1 (l - 1))) (s.off + (l - 1).toNat) (s.E m1 l))).filter p =
          (s.view m).filter p := by
        rw [← g3]
        obtain ⟨i, rfl⟩ : ∃ i : Nat, l = (i : Int) + 1 := ⟨(l - 1).toNat, by omega⟩
        have e1 : ((i : Int) + 1).toNat = i + 1 := by omega
        have e2 : ((i : Int) + 1 - 1).toNat = i := by omega
        unfold Slice.E at hq ⊢
        rw [e1, e2] at hq ⊢
        refine filter_swap p s _ _ i (by omega) ?_ ?_ ?_ ?_
        · rw [Function.update_self]
        · rw [Function.update_of_ne (by omega), Function.update_self]
        · intro a ha hb
          rw [Function.update_of_ne ha, Function.update_of_ne hb]
        · exact fun h => hq ⟨h.2, h.1⟩
      show swp cmp W R (if l - 1 ≤ 0 then pure (Ctl.brk ()) else pure (Ctl.again (l - 1))) _ _
      split_ifs with hl
      · exact hst
      · exact ⟨⟨by omega, by omega, hst⟩, by omega⟩
  · exact ⟨h1, le_refl _, rfl⟩
  · omega

theorem lswInsertion_stable {p : V → Bool} (ht : ∀ i j x y, ∃ b, cmp i j x y b) (hp : ∀ i j x y, cmp i j x y true → ¬ (p x = true ∧ p y = true))
    {s : Slice} (hW : s.rng ⊆ W) {hi : Int} (h1 : hi < s.len) {m : Mem V} :
    swp cmp W R (lswInsertion s 0 hi : Prog V Sp Unit) m fun _ m' => (s.view m').filter p = (s.view m).filter p := by
  unfold lswInsertion
  refine swp_loop _ _ (fun h m1 => 1 ≤ h ∧ (s.view m1).filter p = (s.view m).filter p) (fun h => ((s.len : Int) - h).toNat) ?_ _ _ _ ?_ ?_
  · rintro h m1 ⟨g1, g2⟩
    split_ifs with hc
    · refine swp_bind (swp_mono (lswInner_stable ht hp hW g1 (by omega)) ?_)
      rintro _ m' k1
      exact ⟨⟨by omega, k1.trans g2⟩, by omega⟩
    · exact g2
  · exact ⟨by omega, rfl⟩
  · omega

/-- a sequential program executed by the caller -/
theorem swp_steps {P : Par V Sp} {p : Prog V Sp Unit} {sh : Sh V} {c : Cfg V Sp} {Q : Unit → Mem V → Prop}
    (h : swp P.cmp W R p sh.mem Q) (hs : Steps P ⟨sh, [p]⟩ c) : ∃ sh' p', c = ⟨sh', [p']⟩ ∧ swp P.cmp W R p' sh'.mem Q := by
  induction hs with
  | refl => exact ⟨_, _, rfl, h⟩
  | tail _ h2 ih =>
    obtain ⟨sh1, p1, rfl, h1⟩ := ih
    generalize hc : (⟨sh1, [p1]⟩ : Cfg V Sp) = c0 at h2
    cases h2 with
    | tau l₁ l₂ sh0 q sh' q' new ht =>
      simp only [Cfg.mk.injEq] at hc
      obtain ⟨rfl, e⟩ := hc
      obtain ⟨rfl, rfl, rfl⟩ : l₁ = [] ∧ q = p1 ∧ l₂ = [] := by
        cases l₁ with
        | nil => simp at e; exact ⟨rfl, e.1.symm, e.2⟩
        | cons a l => simp at e
      cases ht with
      | read => exact ⟨_, _, rfl, h1.2⟩
      | write => exact ⟨_, _, rfl, h1.2⟩
      | less _ _ _ _ _ b hb => exact ⟨_, _, rfl, h1.2 b hb⟩
      | _ => exact h1.elim
    | commSR l₁ l₂ l₃ sh0 v k k' _ =>
      simp only [Cfg.mk.injEq] at hc
      have := congrArg List.length hc.2
      simp at this
      omega
    | commRS l₁ l₂ l₃ sh0 v k k' _ =>
      simp only [Cfg.mk.injEq] at hc
      have := congrArg List.length hc.2
      simp at this
      omega

theorem swp_returned {P : Par V Sp} {p : Prog V Sp Unit} {m : Mem V} {c : Cfg V Sp} {Q : Unit → Mem V → Prop}
    (h : swp P.cmp W R p m Q) (hs : Reach P p m c) (hret : Returned c) : Q () c.sh.mem := by
  obtain ⟨sh', p', rfl, h1⟩ := swp_steps (sh := ⟨m, 0, false⟩) h hs
  obtain ⟨l, hl⟩ := hret
  simp only [List.cons.injEq] at hl
  rw [hl.1] at h1
  exact h1

end Sorty
