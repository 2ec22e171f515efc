import Verif.Logic.Swaps
import Verif.Model.Lsw

/-! # Sort changes the collection by swaps only -/

namespace Sorty

open Prog

variable {V Sp : Type} {C : Conf} {s : Slice}

theorem swaps_pure {α : Type} {F : Set Nat} (a : α) : (pure a : Prog V Sp α).SwapsIn F := .ret a

theorem swaps_bind {α β : Type} {F : Set Nat} {p : Prog V Sp α} {f : α → Prog V Sp β} (h : p.SwapsIn F) (hf : ∀ a, (f a).SwapsIn F) :
    (p >>= f).SwapsIn F := h.bind hf

theorem swaps_rd (i : Int) {F : Set Nat} : (s.rd i : Prog V Sp V).SwapsIn F := by
  unfold Slice.rd
  split_ifs
  · exact .read _ _ fun v => .ret v
  · exact .panic

theorem swaps_swap {i j : Int} (h0 : 0 ≤ i) (h1 : i < s.len) (h2 : 0 ≤ j) (h3 : j < s.len) (h : i ≠ j) : (s.swap i j : Prog V Sp Unit).SwapsIn s.rng := by
  unfold Slice.swap Slice.rd Slice.wr
  simp only [if_pos (And.intro h0 h1), if_pos (And.intro h2 h3)]
  refine .swap (s.off + i.toNat) (s.off + j.toNat) (.ret ()) ?_ ?_ ?_ (.ret _)
  · simp only [Slice.rng, Set.mem_ofPred_eq]; omega
  · simp only [Slice.rng, Set.mem_ofPred_eq]; omega
  · omega

theorem swaps_lsw (i k r q : Int) : (lsw s i k r q : Prog V Sp Bool).SwapsIn s.rng := by
  unfold lsw
  split_ifs with h hrq
  · refine swaps_bind (swaps_rd i) fun x => swaps_bind (swaps_rd k) fun y => swaps_bind (.less _ _ _ _ _ fun b => .ret b) fun b => ?_
    split_ifs
    · exact swaps_bind (swaps_swap h.2.2.1.1 h.2.2.1.2 h.2.2.2.1 h.2.2.2.2 hrq) fun _ => .ret _
    · exact .ret _
  · refine swaps_bind (swaps_rd i) fun x => swaps_bind (swaps_rd k) fun y => swaps_bind (.less _ _ _ _ _ fun b => .ret b) fun b => ?_
    split_ifs
    · exact .ret _
    · exact .ret _
  · exact .panic

/-- one structural step -/
macro "swaps_step" : tactic => `(tactic| first
  | exact swaps_pure _ | exact Prog.SwapsIn.ret _ | exact Prog.SwapsIn.panic | exact Prog.SwapsIn.overflow | exact Prog.SwapsIn.diverge
  | exact swaps_lsw _ _ _ _ | assumption
  | exact .maxGor _ fun _ => .ret _ | exact .loadGor _ fun _ => .ret _ | exact .incGor _ fun _ => .ret _ | exact .decGor _ fun _ => .ret _
  | exact .recv _ fun _ => .ret _ | exact .mkSync _ (.ret _) | exact .go _ _ (.ret _) | exact .send _ _ (.ret _)
  | (with_reducible refine Prog.SwapsIn.loop (fun _ => ?_) _ _) | (with_reducible refine swaps_bind ?_ fun _ => ?_)
  | (dsimp only) | (split))

theorem swaps_inner (bound step h : Int) : (lswInner s bound step h : Prog V Sp Unit).SwapsIn s.rng := by
  unfold lswInner
  repeat swaps_step

theorem swaps_insertion (lo hi : Int) : (lswInsertion s lo hi : Prog V Sp Unit).SwapsIn s.rng := by
  unfold lswInsertion
  have := fun b st h => swaps_inner (V := V) (Sp := Sp) (s := s) b st h
  repeat first | exact this _ _ _ | swaps_step

theorem swaps_pivot (ws : Nat) (lo hi : Int) (n : Nat) : (lswPivot ws s lo hi n : Prog V Sp Int).SwapsIn s.rng := by
  unfold lswPivot
  have := fun b st h => swaps_inner (V := V) (Sp := Sp) (s := s) b st h
  repeat first | exact this _ _ _ | swaps_step

theorem swaps_partOne (l pv h : Int) : (lswPartOne s l pv h : Prog V Sp Int).SwapsIn s.rng := by
  unfold lswPartOne
  refine Prog.SwapsIn.loop (fun st => ?_) _ _
  cases st <;> simp only [lswPartOneStep] <;> repeat swaps_step

theorem swaps_partTwo (lo l pv h hi : Int) : (lswPartTwo s lo l pv h hi : Prog V Sp Int).SwapsIn s.rng := by
  unfold lswPartTwo
  refine Prog.SwapsIn.loop (fun st => ?_) _ _
  cases st <;> simp only [lswPartTwoStep] <;> repeat swaps_step

theorem swaps_gapLow (lo r k pv : Int) : (lswGapLow s lo r k pv : Prog V Sp Int).SwapsIn s.rng := by
  unfold lswGapLow
  repeat swaps_step

theorem swaps_gapHigh (hi r k pv : Int) : (lswGapHigh s hi r k pv : Prog V Sp Int).SwapsIn s.rng := by
  unfold lswGapHigh
  repeat swaps_step

theorem swaps_partCon (ws : Nat) (lo hi : Int) : (lswPartCon ws s lo hi : Prog V LSp Int).SwapsIn s.rng := by
  unfold lswPartCon
  repeat first | exact swaps_pivot _ _ _ _ | exact swaps_partTwo _ _ _ _ _ | exact swaps_gapLow _ _ _ _ | exact swaps_gapHigh _ _ _ _ | swaps_step

theorem swaps_shortPivot (lo hi : Int) : (lswShortPivot s lo hi : Prog V Sp Int).SwapsIn s.rng := by
  unfold lswShortPivot
  repeat swaps_step

theorem swaps_short : ∀ (f d : Nat) (lo hi : Int), (lswShort C s f d lo hi : Prog V Sp Unit).SwapsIn s.rng
  | 0, _, _, _ => by rw [lswShort]; exact .diverge
  | f + 1, d, lo, hi => by
    have ih := fun d lo hi => swaps_short f d lo hi
    rw [lswShort]
    repeat first | exact ih _ _ _ | exact swaps_shortPivot _ _ | exact swaps_partOne _ _ _ | exact swaps_insertion _ _ | swaps_step

theorem swaps_gorFull {F : Set Nat} : (gorFull : Prog V Sp Bool).SwapsIn F := by
  unfold gorFull
  repeat swaps_step

theorem swaps_long : ∀ (f d : Nat) (lo hi : Int) (sv : Bool), (lswLong C s f d lo hi sv : Prog V LSp Unit).SwapsIn s.rng
  | 0, _, _, _, _ => by rw [lswLong]; exact .diverge
  | f + 1, d, lo, hi, sv => by
    have ih := fun d lo hi sv => swaps_long f d lo hi sv
    rw [lswLong]
    repeat first | exact ih _ _ _ _ | exact swaps_pivot _ _ _ _ | exact swaps_partOne _ _ _ | exact swaps_insertion _ _ | exact swaps_short _ _ _ _ | exact swaps_gorFull | swaps_step

theorem swaps_body (sp : LSp) : (lswBody C s sp : Prog V LSp Unit).SwapsIn s.rng := by
  cases sp <;> simp only [lswBody] <;> repeat first | exact swaps_partOne _ _ _ | exact swaps_long _ _ _ _ _ | swaps_step

theorem swaps_sortLoop : ∀ (f : Nat) (lo hi : Int), (lswSortLoop C s f lo hi : Prog V LSp Unit).SwapsIn s.rng
  | 0, _, _ => by rw [lswSortLoop]; exact .diverge
  | f + 1, lo, hi => by
    have ih := fun lo hi => swaps_sortLoop f lo hi
    rw [lswSortLoop]
    repeat first | exact ih _ _ | exact swaps_partCon _ _ _ | exact swaps_long _ _ _ _ _ | exact swaps_insertion _ _ | exact swaps_short _ _ _ _ | exact swaps_gorFull | swaps_step

theorem swaps_sort (n : Int) : (SortLsw C n s : Prog V LSp Unit).SwapsIn s.rng := by
  unfold SortLsw
  repeat first | exact swaps_sortLoop _ _ _ | exact swaps_long _ _ _ _ _ | exact swaps_insertion _ _ | exact swaps_short _ _ _ _ | swaps_step

end Sorty
