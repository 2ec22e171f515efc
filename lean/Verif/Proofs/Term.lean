import Verif.Logic.Term
import Verif.Model.Types

/-! # Ranks of spawned goroutines in the value sorters -/

namespace Sorty

open Prog

variable {V κ Sp α : Type} {ρ : Sp → Nat} {n : Nat}

theorem SpB.ret (a : α) : SpB ρ n (.ret a : Prog V Sp α) := trivial
theorem SpB.pure (a : α) : SpB ρ n (Pure.pure a : Prog V Sp α) := trivial
theorem SpB.panic : SpB ρ n (.panic : Prog V Sp α) := trivial
theorem SpB.overflow : SpB ρ n (.overflow : Prog V Sp α) := trivial
theorem SpB.diverge : SpB ρ n (.diverge : Prog V Sp α) := trivial

theorem SpB.rd (s : Slice) (i : Int) : SpB ρ n (s.rd i : Prog V Sp V) := by
  unfold Slice.rd; split_ifs
  · intro x; trivial
  · trivial

theorem SpB.wr (s : Slice) (i : Int) (v : V) : SpB ρ n (s.wr i v : Prog V Sp Unit) := by
  unfold Slice.wr; split_ifs <;> trivial

theorem SpB.sub (s : Slice) (i j : Int) : SpB ρ n (s.sub i j : Prog V Sp Slice) := by
  unfold Slice.sub; split_ifs <;> trivial

theorem SpB.addrNe (s t : Slice) : SpB ρ n (s.addrNe t : Prog V Sp Bool) := by
  unfold Slice.addrNe; split_ifs <;> trivial

theorem SpB.swap (s : Slice) (i j : Int) : SpB ρ n (s.swap i j : Prog V Sp Unit) :=
  .bind (.rd _ _) fun _ => .bind (.rd _ _) fun _ => .bind (.wr _ _ _) fun _ => .wr _ _ _

theorem SpB.maxGor : SpB ρ n (.maxGor .ret : Prog V Sp Nat) := fun _ => trivial
theorem SpB.loadGor : SpB ρ n (.loadGor .ret : Prog V Sp Nat) := fun _ => trivial
theorem SpB.incGor : SpB ρ n (.incGor .ret : Prog V Sp Nat) := fun _ => trivial
theorem SpB.decGor : SpB ρ n (.decGor .ret : Prog V Sp Nat) := fun _ => trivial
theorem SpB.recv : SpB ρ n (.recv .ret : Prog V Sp Int) := fun _ => trivial
theorem SpB.send (v : Int) : SpB ρ n (.send v (.ret ()) : Prog V Sp Unit) := trivial
theorem SpB.mkSync : SpB ρ n (.mkSync (.ret ()) : Prog V Sp Unit) := trivial
theorem SpB.go {s : Sp} (h : ρ s < n) : SpB ρ n (.go s (.ret ()) : Prog V Sp Unit) := ⟨h, trivial⟩

/-- decomposes a program; `t` handles its calls -/
syntax "spb" ("[" tactic "]")? : tactic
macro_rules
  | `(tactic| spb) => `(tactic| spb [fail])
  | `(tactic| spb [$t]) => `(tactic| repeat' first
    | with_reducible apply SpB.ret | with_reducible apply SpB.pure | with_reducible apply SpB.panic
    | with_reducible apply SpB.overflow | with_reducible apply SpB.diverge
    | with_reducible apply SpB.rd | with_reducible apply SpB.wr | with_reducible apply SpB.sub
    | with_reducible apply SpB.addrNe | with_reducible apply SpB.swap
    | with_reducible apply SpB.maxGor | with_reducible apply SpB.loadGor | with_reducible apply SpB.incGor
    | with_reducible apply SpB.decGor | with_reducible apply SpB.recv | with_reducible apply SpB.send
    | with_reducible apply SpB.mkSync
    | with_reducible $t:tactic
    | with_reducible apply SpB.bind | with_reducible apply SpB.loop
    | assumption
    | intro _
    | split
    | dsimp only)

variable (F : Fam V κ)

theorem spB_insertion (key : V → κ) (lt : κ → κ → Bool) (s : Slice) :
    SpB ρ n (insertion key lt s : Prog V Sp Unit) := by
  unfold insertion insertInner
  spb

theorem spB_partOne (s : Slice) (pv : κ) : SpB ρ n (partOne F s pv : Prog V Sp Int) := by
  unfold partOne
  refine SpB.loop (fun st => ?_) _ _
  cases st <;> unfold partOneStep <;> dsimp only <;> spb

theorem spB_partTwo (s : Slice) (l h : Int) (pv : κ) : SpB ρ n (partTwo F s l h pv : Prog V Sp Int) := by
  unfold partTwo
  dsimp only
  split_ifs
  · trivial
  refine SpB.loop (fun st => ?_) _ _
  cases st <;> unfold partTwoStep <;> dsimp only <;> spb

theorem spB_gapLow (s : Slice) (pv : κ) (r k : Int) : SpB ρ n (gapLow F s pv r k : Prog V Sp Int) := by
  unfold gapLow; spb

theorem spB_gapHigh (s : Slice) (pv : κ) (r k : Int) : SpB ρ n (gapHigh F s pv r k : Prog V Sp Int) := by
  unfold gapHigh; spb

theorem spB_pivot (s : Slice) (k : Nat) : SpB ρ n (pivot F s k : Prog V Sp κ) := by
  unfold pivot; dsimp only; spb

theorem spB_splitAt (s : Slice) (k : Int) : SpB ρ n (splitAt s k : Prog V Sp (Slice × Slice)) := by
  unfold splitAt; spb

theorem spB_shortPivot (s : Slice) : SpB ρ n (shortPivot F s : Prog V Sp κ) := by
  unfold shortPivot shortPivot3 shortPivot4; dsimp only; spb

theorem spB_gorFull : SpB ρ n (gorFull : Prog V Sp Bool) := by
  unfold gorFull; spb

theorem spB_short : ∀ (f d : Nat) (s : Slice), SpB ρ n (short F f d s : Prog V Sp Unit) := by
  intro f
  induction f with
  | zero => intro d s; exact trivial
  | succ f ih =>
    intro d s
    unfold short
    cases d <;> spb [first | exact ih _ _ | exact spB_shortPivot F s | exact spB_partOne F _ _ | exact spB_splitAt _ _ |
      exact spB_insertion _ _ _]

/-- rank of the goroutines of a value sort: the length budget -/
def vrank : VSp κ → Nat
  | .part .. => 0
  | .long _ f => f + 1

theorem spB_long : ∀ (f d : Nat) (s : Slice) (sv : Bool), SpB vrank (f + 1) (long F f d s sv : Prog V (VSp κ) Unit) := by
  intro f
  induction f with
  | zero => intro d s sv; exact trivial
  | succ f ih =>
    intro d s sv
    have ih' : ∀ (d : Nat) (s : Slice) (sv : Bool), SpB vrank (f + 1 + 1) (long F f d s sv : Prog V (VSp κ) Unit) :=
      fun d s sv => (ih d s sv).mono (by omega)
    unfold long
    cases d <;> spb [first | exact ih' _ _ _ | exact spB_pivot F s _ | exact spB_partOne F _ _ | exact spB_splitAt _ _ |
      exact spB_insertion _ _ _ | exact spB_short _ _ _ _ | exact spB_gorFull | (refine SpB.go ?_; simp only [vrank]; omega)]

theorem spB_vbody (d : Nat) (s : VSp κ) : SpB vrank (vrank s) (vbody F d s : Prog V (VSp κ) Unit) := by
  cases s with
  | part ar pv => exact SpB.bind (spB_partOne _ _ _) fun _ => SpB.send _
  | long ar f =>
    refine SpB.bind (spB_long F f d ar true) fun _ => SpB.bind SpB.decGor fun _ => ?_
    spb

theorem spB_partCon (s : Slice) : SpB vrank (n + 1) (partCon F s : Prog V (VSp κ) Int) := by
  unfold partCon
  refine SpB.bind (spB_pivot _ _ _) fun _ => SpB.bind (SpB.sub _ _ _) fun _ => SpB.bind (SpB.go (by simp [vrank])) fun _ =>
    SpB.bind (spB_partTwo _ _ _ _ _) fun _ => SpB.bind SpB.recv fun _ => ?_
  dsimp only
  split_ifs
  · exact spB_gapLow _ _ _ _ _
  · exact spB_gapHigh _ _ _ _ _

theorem spB_sortLoop (d : Nat) : ∀ (f : Nat) (s : Slice), SpB vrank (f + 1) (sortLoop F d f s : Prog V (VSp κ) Unit) := by
  intro f
  induction f with
  | zero => intro s; exact trivial
  | succ f ih =>
    intro s
    have ih' : ∀ s : Slice, SpB vrank (f + 1 + 1) (sortLoop F d f s : Prog V (VSp κ) Unit) := fun s => (ih s).mono (by omega)
    have hl : ∀ (d : Nat) (s : Slice) (sv : Bool), SpB vrank (f + 1 + 1) (long F f d s sv : Prog V (VSp κ) Unit) :=
      fun d s sv => (spB_long F f d s sv).mono (by omega)
    unfold sortLoop
    spb [first | exact ih' _ | exact hl _ _ _ | exact spB_partCon F _ | exact spB_splitAt _ _ |
      exact spB_insertion _ _ _ | exact spB_short _ _ _ _ | exact spB_gorFull | (refine SpB.go ?_; simp only [vrank]; omega)]

theorem spB_sortV (d : Nat) (s : Slice) : SpB vrank (s.len + 1) (sortV F d s : Prog V (VSp κ) Unit) := by
  unfold sortV
  spb [first | exact spB_long _ _ _ _ _ | exact spB_insertion _ _ _ | exact spB_short _ _ _ _ | exact spB_sortLoop _ _ _ _]

/-- all results of `p` satisfy `φ` -/
def RetAll (φ : α → Prop) : Prog V Sp α → Prop
  | .ret a => φ a
  | .read _ k => ∀ x, RetAll φ (k x)
  | .write _ _ k => RetAll φ k
  | .less _ _ _ _ k => ∀ b, RetAll φ (k b)
  | .maxGor k => ∀ x, RetAll φ (k x)
  | .loadGor k => ∀ x, RetAll φ (k x)
  | .incGor k => ∀ x, RetAll φ (k x)
  | .decGor k => ∀ x, RetAll φ (k x)
  | .mkSync k => RetAll φ k
  | .go _ k => RetAll φ k
  | .send _ k => RetAll φ k
  | .recv k => ∀ x, RetAll φ (k x)
  | .panic => True
  | .overflow => True
  | .diverge => True

theorem RetAll.bind {β : Type} {φ : β → Prop} {f : α → Prog V Sp β} (hf : ∀ a, RetAll φ (f a)) (p : Prog V Sp α) :
    RetAll φ (p >>= f) := by
  show RetAll φ (Prog.bind p f)
  induction p with
  | ret a => exact hf a
  | read i k ih => intro x; exact ih _
  | write i v k ih => exact ih
  | less i j x y k ih => intro b; exact ih _
  | maxGor k ih => intro x; exact ih _
  | loadGor k ih => intro x; exact ih _
  | incGor k ih => intro x; exact ih _
  | decGor k ih => intro x; exact ih _
  | mkSync k ih => exact ih
  | go s k ih => exact ih
  | send v k ih => exact ih
  | recv k ih => intro x; exact ih _
  | panic => trivial
  | overflow => trivial
  | diverge => trivial

theorem SpB.bind' {β : Type} {φ : α → Prop} {p : Prog V Sp α} {f : α → Prog V Sp β} (h : SpB ρ n p) (hr : RetAll φ p)
    (hf : ∀ a, φ a → SpB ρ n (f a)) : SpB ρ n (p >>= f) := by
  show SpB ρ n (Prog.bind p f)
  induction p with
  | ret a => exact hf a hr
  | read i k ih => intro x; exact ih _ (h x) (hr x)
  | write i v k ih => exact ih h hr
  | less i j x y k ih => intro b; exact ih _ (h b) (hr b)
  | maxGor k ih => intro x; exact ih _ (h x) (hr x)
  | loadGor k ih => intro x; exact ih _ (h x) (hr x)
  | incGor k ih => intro x; exact ih _ (h x) (hr x)
  | decGor k ih => intro x; exact ih _ (h x) (hr x)
  | mkSync k ih => exact ih h hr
  | go s k ih => exact ⟨h.1, ih h.2 hr⟩
  | send v k ih => exact ih h hr
  | recv k ih => intro x; exact ih _ (h x) (hr x)
  | panic => trivial
  | overflow => trivial
  | diverge => trivial

theorem retAll_sub (s : Slice) (i j : Int) : RetAll (fun t : Slice => t.len ≤ s.len) (s.sub i j : Prog V Sp Slice) := by
  unfold Slice.sub
  split_ifs
  · show (j - i).toNat ≤ s.len
    omega
  · trivial

theorem spB_nanToEnd (s : Slice) : SpB ρ n (nanToEnd s : Prog Cell Sp Slice) := by
  unfold nanToEnd; dsimp only; spb

theorem spB_nanToStart (s : Slice) : SpB ρ n (nanToStart s : Prog Cell Sp Slice) := by
  unfold nanToStart; dsimp only; spb

end Sorty
