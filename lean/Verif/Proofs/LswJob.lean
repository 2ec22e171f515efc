import Verif.Proofs.LswSort
import Verif.Proofs.LswTerm
import Verif.Proofs.JobProps
import Mathlib.Order.Antisymmetrization

/-! # What the invariant gives for calls of Sort -/

namespace Sorty

open Prog

variable {V : Type} {C : Conf} {s : Slice} {m : Mem V} {M : Nat} {stale : Prop} {cmp : Cmp V} {c : Cfg V LSp}
  {less : V → V → Prop} {ρ : Type} [LinearOrder ρ] {r : V → ρ}
variable [Lesswap V] [Lesswap.OK V]

omit [Lesswap V] [Lesswap.OK V] in
/-- any tame comparator is consistent with a one-element order -/
theorem Tame.ok (h : Tame cmp) : CmpOK cmp (fun _ : V => PUnit.unit.{1}) where
  irrefl := h.strict
  tru := fun _ _ _ _ _ => le_rfl
  fls := fun _ _ _ _ _ => le_rfl
  tot := h.answers

omit [Lesswap V] [Lesswap.OK V] in
theorem StrictWeak.tame (h : StrictWeak less) : Tame (byLess less) where
  answers := fun i k x y => by
    by_cases hl : less x y
    · exact ⟨true, by simp [byLess, hl]⟩
    · exact ⟨false, by simp [byLess, hl]⟩
  strict := fun i x hx => h.irrefl x (by simpa [byLess] using hx)

/-- elements preordered by "not greater" -/
@[reducible] def StrictWeak.pre (h : StrictWeak less) : Preorder V where
  le x y := ¬ less y x
  lt x y := less x y
  le_refl := h.irrefl
  le_trans x y z h1 h2 h3 := by
    by_cases a : less x y
    · exact h2 (h.trans _ _ _ h3 a)
    · by_cases b : less y z
      · exact h1 (h.trans _ _ _ b h3)
      · exact (h.incomp x y z ⟨a, h1⟩ ⟨b, h2⟩).2 h3
  lt_iff_le_not_ge x y := ⟨fun h1 => ⟨fun h2 => h.irrefl _ (h.trans _ _ _ h1 h2), not_not.2 h1⟩, fun h1 => not_not.1 h1.2⟩

omit [Lesswap V] [Lesswap.OK V] in
/-- a strict weak order comes from ranks in a linear order -/
theorem StrictWeak.rank (h : StrictWeak less) : ∃ (ρ : Type) (_ : LinearOrder ρ) (r : V → ρ), ∀ x y, less x y ↔ r x < r y := by
  let := h.pre
  classical
  have : @Std.Total V (· ≤ ·) := ⟨fun x y => by
    show ¬ less y x ∨ ¬ less x y
    by_contra hc
    simp only [not_or, not_not] at hc
    exact h.irrefl _ (h.trans _ _ _ hc.1 hc.2)⟩
  exact ⟨Antisymmetrization V (· ≤ ·), inferInstance, toAntisymmetrization (· ≤ ·), fun x y =>
    (toAntisymmetrization_lt_toAntisymmetrization_iff (a := x) (b := y)).symm⟩

omit [Lesswap V] [Lesswap.OK V] in
theorem byLess_ok (hr : ∀ x y, less x y ↔ r x < r y) (h : StrictWeak less) : CmpOK (byLess less) r where
  irrefl := h.tame.strict
  tru := fun i j x y hb => le_of_lt ((hr x y).1 (by simpa [byLess] using hb))
  fls := fun i j x y hb => not_lt.1 fun hl => by simp [byLess, (hr x y).2 hl] at hb
  tot := h.tame.answers

omit [Lesswap V] [Lesswap.OK V] in
theorem lok (hC : C.OK) (hcmp : CmpOK cmp r) (hf : FitsInt C.wordSize s.len) : LOK C s cmp r := by
  obtain ⟨_, h2, h3, h4⟩ := conf_ineq hC
  refine ⟨hcmp.toCmpW, fun _ => hcmp.irrefl, fun h => by simp at h, ?_, by omega, hC.word, hf⟩
  have : nsShort = 4 := rfl
  omega

omit [Lesswap V] [Lesswap.OK V] in
/-- a comparator of which nothing is known but that it answers -/
theorem lokAny (hC : C.OK) (hcmp : ∀ i k x y, ∃ b, cmp i k x y b) (hf : FitsInt C.wordSize s.len) :
    LOKG C s cmp (fun _ => ()) true := by
  obtain ⟨_, h2, h3, h4⟩ := conf_ineq hC
  refine ⟨⟨fun _ _ _ _ _ => le_rfl, fun _ _ _ _ _ => le_rfl, hcmp⟩, fun h => by simp at h, fun _ _ _ => le_rfl, ?_, by omega, hC.word, hf⟩
  have : nsShort = 4 := rfl
  omega

omit [Lesswap.OK V] in
theorem SortReaches.toE (h : SortReaches C s cmp M stale m c) : SortEReaches C s cmp M stale m c := Steps.toE h

/-- the invariant holds throughout -/
theorem lsw_reach {any : Bool} (hL : LOKG C s cmp r any) (hd : DepthFor C.depth s.len) (h : SortEReaches C s cmp M stale m c) :
    ∃ ts, Inv (lswPar C s cmp M stale) (lspecG C s cmp r any) (lswIPar C s r m) c ts :=
  Inv.esteps (lsw_hyp hL m M stale) (lsw_start hL hd M stale) h

theorem lsw_acc (C : Conf) (s : Slice) (cmp : Cmp V) (m : Mem V) (M : Nat) (stale : Prop) :
    Acc (fun c' c => Step (lswPar C s cmp M stale) c c') (start (SortLsw C s.len s) m) := by
  obtain ⟨n, hn⟩ := spB_sortLsw (V := V) (C := C) (s := s) s.len
  exact acc_start (fun s => spB_lswBody s) hn m

theorem lsw_racc (C : Conf) (s : Slice) (cmp : Cmp V) (m : Mem V) (M : Nat) (stale : Prop) :
    Acc (fun c' c => RStep (lswPar C s cmp M stale) c c') (start (SortLsw C s.len s) m) := by
  obtain ⟨n, hn⟩ := spB_sortLsw (V := V) (C := C) (s := s) s.len
  exact acc_rstart (fun s => spB_lswBody s) hn m

/-- some execution returns -/
theorem sort_returns (hC : C.OK) (hcmp : Tame cmp) (hf : FitsInt C.wordSize s.len) (hd : DepthFor C.depth s.len)
    (m : Mem V) (M : Nat) (stale : Prop) : ∃ c, SortReaches C s cmp M stale m c ∧ Returned c :=
  exists_return (lsw_hyp (lok hC hcmp.ok hf) m M stale) (lsw_acc C s cmp m M stale) (lsw_start (lok hC hcmp.ok hf) hd M stale)

theorem lsw_frame {any : Bool} (hL : LOKG C s cmp r any) (hd : DepthFor C.depth s.len) (h : SortReaches C s cmp M stale m c) :
    ∀ a, a ∉ s.rng → c.sh.mem a = m a := by
  unfold SortReaches Reach at h
  generalize hc0 : start (SortLsw C s.len s) m = c0 at h
  induction h with
  | refl => subst hc0; intro a _; rfl
  | tail h1 h2 ih =>
    subst hc0
    intro a ha
    obtain ⟨ts, hi⟩ := lsw_reach hL hd (SortReaches.toE h1)
    rw [hi.frame h2 a ha]
    exact ih a ha

theorem sort_outcome (hC : C.OK) (hless : StrictWeak less) (hf : FitsInt C.wordSize s.len) (hd : DepthFor C.depth s.len)
    (h : SortEReaches C s (byLess less) M stale m c) (hret : Returned c) :
    Ascending less (s.view c.sh.mem) ∧ (s.view c.sh.mem).Perm (s.view m) := by
  obtain ⟨ρ, _, r, hr⟩ := hless.rank
  obtain ⟨ts, hi⟩ := lsw_reach (lok hC (byLess_ok hr hless) hf) hd h
  have ho : SP r s m c.sh.mem := (hi.returned hret).2
  refine ⟨?_, view_perm ho.1⟩
  refine (view_sorted.1 ho.2).imp fun {x y} hxy hl => ?_
  exact absurd ((hr y x).1 hl) (not_lt.2 hxy)

omit [Lesswap V] [Lesswap.OK V] in
/-- `lsw` only looks, when its third and fourth arguments are equal -/
theorem lsw_observe {Sp : Type} {less : Nat → Nat → V → V → Bool} {i k : Int} (hi : 0 ≤ i ∧ i < s.len) (hk : 0 ≤ k ∧ k < s.len) :
    (lsw s i k i i : Prog V Sp Bool).observe less m = some (less i.toNat k.toNat (s.E m i) (s.E m k)) := by
  have e : ∀ b : Bool, ((if b then do
      if i ≠ i then s.swap i i else pure ()
      pure true
    else pure false : Prog V Sp Bool)) = .ret b := by
    intro b; cases b <;> simp
  unfold lsw Slice.rd
  rw [if_pos ⟨hi, hk, hi, hi⟩, if_pos hi, if_pos hk]
  simp only [e]
  rfl

end Sorty
