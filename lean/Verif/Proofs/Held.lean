import Verif.Logic.Held
import Verif.Proofs.View
import Verif.Proofs.JobProps
import Verif.Props.Witness
import Mathlib.Data.List.Perm.Subperm

/-! # The type-specific sorts take at most one element per goroutine out of the slice -/

namespace Sorty

open Prog

variable {V κ Sp α β : Type} {F : Set Nat} {G : Sp → Prop}

theorem cl_ret {R : α → Prop} {a : α} (h : R a) : (.ret a : Prog V Sp α).Cl F G R := fun _ => ⟨rfl, h⟩

theorem cl_pure {R : α → Prop} {a : α} (h : R a) : (pure a : Prog V Sp α).Cl F G R := fun _ => ⟨rfl, h⟩

theorem cl_bind {R : β → Prop} {p : Prog V Sp α} {f : α → Prog V Sp β} (h : p.Cl F G fun _ => True) (hf : ∀ a, (f a).Cl F G R) :
    (p >>= f).Cl F G R := h.bind fun a _ => hf a

theorem cl_rd (s : Slice) (i : Int) : (s.rd i : Prog V Sp V).Cl F G fun _ => True := by
  unfold Slice.rd
  split_ifs
  · exact fun _ => ⟨rfl, trivial⟩
  · exact fun _ => rfl

theorem cl_sub {s : Slice} (hs : s.rng ⊆ F) (i j : Int) : (s.sub i j : Prog V Sp Slice).Cl F G fun t => t.rng ⊆ F := by
  unfold Slice.sub
  split_ifs with h
  · refine cl_ret fun a ha => hs ?_
    simp only [Slice.rng, Set.mem_ofPred_eq] at ha ⊢
    omega
  · exact fun _ => rfl

theorem cl_addrNe (s t : Slice) : (s.addrNe t : Prog V Sp Bool).Cl F G fun _ => True := by
  unfold Slice.addrNe
  split_ifs
  · exact cl_ret trivial
  · exact fun _ => rfl

/-- storing at two places what the other one holds -/
theorem hw_two {s : Slice} (hs : s.rng ⊆ F) {i j : Int} {m : Mem V} {x y : V} (hx : 0 ≤ j → j < s.len → m (s.off + j.toNat) = x)
    (hy : 0 ≤ i → i < s.len → m (s.off + i.toNat) = y) (hj : 0 ≤ j ∧ j < s.len) {p : Prog V Sp α} {Q : α → Mem V → Option (Nat × V) → Prop} (hp : ∀ m, p.Hw F G Q m none) :
    ((s.wr i x).bind fun _ => (s.wr j y).bind fun _ => p : Prog V Sp α).Hw F G Q m none := by
  unfold Slice.wr
  rw [if_pos hj]
  split_ifs with hi
  · have ei := hy hi.1 hi.2
    have ej := hx hj.1 hj.2
    simp only [Prog.bind]
    by_cases hij : i = j
    · subst hij
      have exy : x = y := by rw [← ei, ← ej]
      subst exy
      exact .inl ⟨ei, .inl ⟨ei, hp _⟩⟩
    · refine .inr ⟨s.off + j.toNat, hs (Slice.mem_rng hi.1 hi.2), hs (Slice.mem_rng hj.1 hj.2), by omega, ej, ?_⟩
      exact ⟨rfl, .inl ⟨ei.symm, hp _⟩⟩
  · exact rfl

theorem cl_swap {s : Slice} (hs : s.rng ⊆ F) (i j : Int) : (s.swap i j : Prog V Sp Unit).Cl F G fun _ => True := by
  intro m
  unfold Slice.swap
  simp only [Prog.bind_def]
  have h2 : ∀ {x y : V} (hx : 0 ≤ j → j < s.len → m (s.off + j.toNat) = x) (hy : 0 ≤ i → i < s.len → m (s.off + i.toNat) = y)
      (hj : 0 ≤ j ∧ j < s.len), ((s.wr i x).bind fun _ => s.wr j y : Prog V Sp Unit).Hw F G (fun _ _ H => H = none ∧ True) m none := by
    intro x y hx hy hj
    have := hw_two (Sp := Sp) (G := G) (Q := fun _ _ H => H = none ∧ True) hs hx hy hj (p := .ret ()) fun _ => ⟨rfl, trivial⟩
    unfold Slice.wr at this ⊢
    rw [if_pos hj] at this ⊢
    split_ifs at this ⊢ <;> exact this
  unfold Slice.rd
  split_ifs with hj hi
  · exact h2 (fun _ _ => rfl) (fun _ _ => rfl) hj
  · exact rfl
  · exact rfl
  · exact rfl

theorem hw_rd {s : Slice} {i : Int} {m : Mem V} {H : Option (Nat × V)} {Q : V → Mem V → Option (Nat × V) → Prop} (h0 : 0 ≤ i) (h1 : i < s.len)
    (h : Q (m (s.off + i.toNat)) m H) : (s.rd i : Prog V Sp V).Hw F G Q m H := by
  unfold Slice.rd
  rw [if_pos ⟨h0, h1⟩]
  exact h

/-- filling the hole, and so moving it -/
theorem hw_move {s : Slice} (hs : s.rng ⊆ F) {i j : Int} {m : Mem V} {y : V} {Q : Unit → Mem V → Option (Nat × V) → Prop} (h0 : 0 ≤ i) (h1 : i < s.len)
    (h2 : 0 ≤ j) (h3 : j < s.len) (hij : j ≠ i) (h : ∀ m, Q () m (some (s.off + j.toNat, y))) :
    (s.wr i (m (s.off + j.toNat)) : Prog V Sp Unit).Hw F G Q m (some (s.off + i.toNat, y)) := by
  unfold Slice.wr
  rw [if_pos ⟨h0, h1⟩]
  exact ⟨rfl, .inr ⟨_, hs (Slice.mem_rng h2 h3), by omega, rfl, h _⟩⟩

/-- making a hole -/
theorem hw_open {s : Slice} (hs : s.rng ⊆ F) {i j : Int} {m : Mem V} {Q : Unit → Mem V → Option (Nat × V) → Prop} (h0 : 0 ≤ i) (h1 : i < s.len)
    (h2 : 0 ≤ j) (h3 : j < s.len) (hij : j ≠ i) (h : ∀ m', Q () m' (some (s.off + j.toNat, m (s.off + i.toNat)))) :
    (s.wr i (m (s.off + j.toNat)) : Prog V Sp Unit).Hw F G Q m none := by
  unfold Slice.wr
  rw [if_pos ⟨h0, h1⟩]
  exact .inr ⟨_, hs (Slice.mem_rng h0 h1), hs (Slice.mem_rng h2 h3), by omega, rfl, h _⟩

/-- closing the hole -/
theorem hw_close {s : Slice} {i : Int} {m : Mem V} {y : V} {Q : Unit → Mem V → Option (Nat × V) → Prop} (h0 : 0 ≤ i) (h1 : i < s.len)
    (h : ∀ m, Q () m none) : (s.wr i y : Prog V Sp Unit).Hw F G Q m (some (s.off + i.toNat, y)) := by
  unfold Slice.wr
  rw [if_pos ⟨h0, h1⟩]
  exact ⟨rfl, .inl ⟨rfl, h _⟩⟩

/-- a loop whose rounds are counted down by `l` -/
theorem hw_loop {Q : α → Mem V → Option (Nat × V) → Prop} {body : Int → Prog V Sp (Ctl Int α)} (I : Int → Mem V → Option (Nat × V) → Prop)
    (h0 : ∀ l m H, I l m H → 0 < l)
    (h : ∀ l m H, I l m H → (body l).Hw F G (fun c m H => match c with | .again l' => l' < l ∧ I l' m H | .brk a => Q a m H) m H) :
    ∀ (n : Nat) (l : Int) (m : Mem V) (H : Option (Nat × V)), l ≤ n → I l m H → (Prog.loop n body l : Prog V Sp α).Hw F G Q m H
  | 0, l, m, H, hn, hl => by have := h0 l m H hl; omega
  | n + 1, l, m, H, hn, hl => by
    unfold Prog.loop
    refine Prog.Hw.bind (fun c m H hc => ?_) _ _ _ (h l m H hl)
    cases c with
    | again l' => exact hw_loop I h0 h n l' m H (by have := hc.1; omega) hc.2
    | brk a => exact hc

theorem hw_insertInner {s : Slice} (hs : s.rng ⊆ F) {key : V → κ} {lt : κ → κ → Bool} {h : Int} (h0 : 0 < h) (h1 : h < s.len) (m : Mem V) :
    (insertInner key lt s h (m (s.off + h.toNat)) : Prog V Sp Unit).Hw F G (fun _ _ H => H = none ∧ True) m none := by
  unfold insertInner
  generalize hv : m (s.off + h.toNat) = val
  refine hw_loop (fun l m H => 0 < l ∧ l ≤ h ∧ (l = h ∧ m (s.off + h.toNat) = val ∧ H = none ∨ l < h ∧ H = some (s.off + l.toNat, val))) (fun l m H hl => hl.1)
    (fun l m H hl => ?_) _ _ _ _ (by omega) ⟨h0, le_rfl, .inl ⟨rfl, hv, rfl⟩⟩
  obtain ⟨g0, g1, g2⟩ := hl
  refine Prog.Hw.bind (Q := fun x m' H' => m' = m ∧ H' = H ∧ x = m (s.off + (l - 1).toNat)) (fun x m' H' hx => ?_) _ _ _ (hw_rd (by omega) (by omega) ⟨rfl, rfl, rfl⟩)
  obtain ⟨rfl, rfl, rfl⟩ := hx
  split_ifs with c1 c2
  · refine Prog.Hw.bind (Q := fun _ _ H => H = some (s.off + (l - 1).toNat, val)) (fun _ m2 H2 hH => ?_) _ _ _ ?_
    · subst hH
      dsimp only
      split_ifs with c3
      · refine Prog.Hw.bind (Q := fun _ _ H => H = none) (fun _ m2 H2 hH => ?_) _ _ _ (hw_close (by omega) (by omega) fun _ => rfl)
        exact ⟨hH, trivial⟩
      · exact ⟨by omega, by omega, by omega, .inr ⟨by omega, rfl⟩⟩
    · rcases g2 with ⟨rfl, g2, rfl⟩ | ⟨g2, rfl⟩
      · exact hw_open hs (by omega) (by omega) (by omega) (by omega) (by omega) fun _ => by rw [g2]
      · exact hw_move hs (by omega) (by omega) (by omega) (by omega) (by omega) fun _ => rfl
  · rcases g2 with ⟨g2, _, rfl⟩ | ⟨g2, rfl⟩
    · exact ⟨rfl, trivial⟩
    · omega
  · rcases g2 with ⟨g2, _, rfl⟩ | ⟨g2, rfl⟩
    · exact absurd g2 c2
    · refine Prog.Hw.bind (Q := fun _ _ H => H = none) (fun _ m2 H2 hH => ?_) _ _ _ (hw_close (by omega) (by omega) fun _ => rfl)
      exact ⟨hH, trivial⟩

theorem cl_insertion {s : Slice} (hs : s.rng ⊆ F) (key : V → κ) (lt : κ → κ → Bool) : (insertion key lt s : Prog V Sp Unit).Cl F G fun _ => True := by
  unfold insertion
  refine Prog.Cl.loop (fun h => 0 < h) (fun h hh => ?_) _ _ (by omega)
  split_ifs with h1
  · intro m
    refine Prog.Hw.bind (Q := fun x m' H' => m' = m ∧ H' = none ∧ x = m (s.off + h.toNat)) (fun x m' H' hx => ?_) _ _ _
      (hw_rd (by omega) (by omega) ⟨rfl, rfl, rfl⟩)
    obtain ⟨rfl, rfl, rfl⟩ := hx
    refine Prog.Hw.bind (fun _ m2 H2 hH => ?_) _ _ _ (hw_insertInner hs hh h1 m')
    exact ⟨hH.1, by show 0 < h + 1; omega⟩
  · exact cl_pure trivial

/-- one structural step -/
macro "cl_step" : tactic => `(tactic| first
  | exact cl_pure trivial | exact cl_ret trivial | exact fun _ => rfl | exact cl_rd _ _ | exact cl_addrNe _ _ | assumption
  | exact cl_swap (by assumption) _ _ | exact cl_insertion (by assumption) _ _
  | exact fun _ => ⟨rfl, fun _ _ => ⟨rfl, trivial⟩⟩ | exact fun _ => ⟨rfl, fun _ => ⟨rfl, trivial⟩⟩
  | (with_reducible refine Prog.Cl.loop (fun _ => True) (fun _ _ => ?_) _ _ trivial) | (with_reducible refine cl_bind ?_ fun _ => ?_)
  | (dsimp only) | (split))

variable (Fm : Fam V κ) {s : Slice}

theorem cl_pivot (n : Nat) : (pivot Fm s n : Prog V Sp κ).Cl F G fun _ => True := by
  unfold pivot
  repeat cl_step

theorem cl_partOne (hs : s.rng ⊆ F) (pv : κ) : (partOne Fm s pv : Prog V Sp Int).Cl F G fun _ => True := by
  unfold partOne
  refine Prog.Cl.loop (fun _ => True) (fun st _ => ?_) _ _ trivial
  cases st <;> simp only [partOneStep] <;> repeat cl_step

theorem cl_partTwo (hs : s.rng ⊆ F) (l h : Int) (pv : κ) : (partTwo Fm s l h pv : Prog V Sp Int).Cl F G fun _ => True := by
  unfold partTwo
  dsimp only
  split_ifs
  · exact cl_pure trivial
  refine Prog.Cl.loop (fun _ => True) (fun st _ => ?_) _ _ trivial
  cases st <;> simp only [partTwoStep] <;> repeat cl_step

theorem cl_gapLow (hs : s.rng ⊆ F) (pv : κ) (r k : Int) : (gapLow Fm s pv r k : Prog V Sp Int).Cl F G fun _ => True := by
  unfold gapLow
  repeat cl_step

theorem cl_gapHigh (hs : s.rng ⊆ F) (pv : κ) (r k : Int) : (gapHigh Fm s pv r k : Prog V Sp Int).Cl F G fun _ => True := by
  unfold gapHigh
  repeat cl_step

/-- goroutines that sort or partition within `F` -/
def VIn (F : Set Nat) : VSp κ → Prop
  | .part ar _ => ar.rng ⊆ F
  | .long ar _ => ar.rng ⊆ F

theorem cl_partCon (hs : s.rng ⊆ F) : (partCon Fm s : Prog V (VSp κ) Int).Cl F (VIn F) fun _ => True := by
  unfold partCon
  refine cl_bind (cl_pivot Fm _) fun pv => ?_
  dsimp only
  refine Prog.Cl.bind (cl_sub hs _ _) fun half hh => ?_
  refine cl_bind (fun _ => ⟨rfl, hh, fun _ => ⟨rfl, trivial⟩⟩) fun _ => ?_
  refine cl_bind (cl_partTwo Fm hs _ _ _) fun r => ?_
  refine cl_bind (fun _ => ⟨rfl, fun _ _ => ⟨rfl, trivial⟩⟩) fun v => ?_
  split_ifs
  · exact cl_gapLow Fm hs _ _ _
  · exact cl_gapHigh Fm hs _ _ _

theorem cl_shortPivot : (shortPivot Fm s : Prog V Sp κ).Cl F G fun _ => True := by
  unfold shortPivot shortPivot4 shortPivot3
  repeat cl_step

theorem cl_splitAt (hs : s.rng ⊆ F) (k : Int) : (splitAt s k : Prog V Sp (Slice × Slice)).Cl F G fun t => t.1.rng ⊆ F ∧ t.2.rng ⊆ F := by
  unfold splitAt
  split_ifs
  · exact Prog.Cl.bind (cl_sub hs _ _) fun a ha => Prog.Cl.bind (cl_sub hs _ _) fun b hb => cl_pure ⟨ha, hb⟩
  · exact Prog.Cl.bind (cl_sub hs _ _) fun a ha => Prog.Cl.bind (cl_sub hs _ _) fun b hb => cl_pure ⟨ha, hb⟩

theorem cl_short : ∀ (f d : Nat) (s : Slice), s.rng ⊆ F → (short Fm f d s : Prog V Sp Unit).Cl F G fun _ => True
  | 0, _, _, _ => by rw [short]; exact fun _ => rfl
  | f + 1, d, s, hs => by
    have ih := fun d s => cl_short f d s
    rw [short]
    refine cl_bind (cl_shortPivot Fm) fun pv => cl_bind (cl_partOne Fm hs pv) fun k => Prog.Cl.bind (cl_splitAt hs k) fun t ht => ?_
    obtain ⟨aq, ar⟩ := t
    obtain ⟨h1, h2⟩ := ht
    dsimp only at h1 h2 ⊢
    split
    · cases d with
      | zero => exact cl_bind (fun _ => rfl) fun _ => ih _ _ h2
      | succ d => exact cl_bind (ih _ _ h1) fun _ => ih _ _ h2
    · refine cl_bind ?_ fun again => ?_
      · refine Prog.Cl.loop (fun t => t.rng ⊆ F) (fun t ht => ?_) _ _ h1
        refine cl_bind (cl_insertion ht _ _) fun _ => ?_
        split
        · exact cl_pure trivial
        · refine cl_bind (cl_addrNe _ _) fun ne => ?_
          split
          · exact cl_pure h2
          · exact cl_pure trivial
      · split
        · exact ih _ _ h2
        · exact cl_pure trivial

theorem cl_gorFull : (gorFull : Prog V Sp Bool).Cl F G fun _ => True := by
  unfold gorFull
  repeat cl_step

theorem cl_long : ∀ (f d : Nat) (s : Slice) (sv : Bool), s.rng ⊆ F → (long Fm f d s sv : Prog V (VSp κ) Unit).Cl F (VIn F) fun _ => True
  | 0, _, _, _, _ => by rw [long]; exact fun _ => rfl
  | f + 1, d, s, sv, hs => by
    have ih := fun d s sv => cl_long f d s sv
    rw [long]
    refine cl_bind (cl_pivot Fm _) fun pv => cl_bind (cl_partOne Fm hs pv) fun k => Prog.Cl.bind (cl_splitAt hs k) fun t ht => ?_
    obtain ⟨aq, ar⟩ := t
    obtain ⟨h1, h2⟩ := ht
    dsimp only at h1 h2 ⊢
    have hsh : ∀ d s, s.rng ⊆ F → (match (motive := Nat → Prog V (VSp κ) Unit) d with | 0 => .overflow | d + 1 => short Fm f d s).Cl F (VIn F) fun _ => True := by
      intro d s hs
      cases d with
      | zero => exact fun _ => rfl
      | succ d => exact cl_short Fm f d s hs
    split_ifs
    · cases d with
      | zero => exact cl_bind (fun _ => rfl) fun _ => ih _ _ _ h2
      | succ d => exact cl_bind (cl_short Fm _ _ _ h1) fun _ => ih _ _ _ h2
    · cases d with
      | zero => exact cl_bind (fun _ => rfl) fun _ => hsh 0 _ h2
      | succ d => exact cl_bind (cl_short Fm _ _ _ h1) fun _ => cl_short Fm _ _ _ h2
    · exact cl_bind (cl_insertion h1 _ _) fun _ => ih _ _ _ h2
    · exact cl_bind (cl_insertion h1 _ _) fun _ => hsh _ _ h2
    all_goals
      refine cl_bind (by first | exact cl_gorFull | exact cl_pure trivial) fun full => ?_
      split_ifs
      · cases d with
        | zero => exact cl_bind (fun _ => rfl) fun _ => ih _ _ _ h2
        | succ d => exact cl_bind (ih _ _ _ h1) fun _ => ih _ _ _ h2
      · exact cl_bind (fun _ => ⟨rfl, fun _ _ => ⟨rfl, trivial⟩⟩) fun _ => cl_bind (fun _ => ⟨rfl, h2, fun _ => ⟨rfl, trivial⟩⟩) fun _ => ih _ _ _ h1

theorem cl_vbody (d : Nat) (sp : VSp κ) (h : VIn F sp) : (vbody Fm d sp : Prog V (VSp κ) Unit).Cl F (VIn F) fun _ => True := by
  cases sp with
  | part ar pv => exact cl_bind (cl_partOne Fm h _) fun _ _ => ⟨rfl, fun _ => ⟨rfl, trivial⟩⟩
  | long ar f =>
    refine cl_bind (cl_long Fm _ _ _ _ h) fun _ => cl_bind (fun _ => ⟨rfl, fun _ _ => ⟨rfl, trivial⟩⟩) fun n => ?_
    split_ifs
    · exact fun _ => ⟨rfl, fun _ => ⟨rfl, trivial⟩⟩
    · exact cl_pure trivial

theorem cl_sortLoop (d : Nat) : ∀ (f : Nat) (s : Slice), s.rng ⊆ F → (sortLoop Fm d f s : Prog V (VSp κ) Unit).Cl F (VIn F) fun _ => True
  | 0, _, _ => by rw [sortLoop]; exact fun _ => rfl
  | f + 1, s, hs => by
    have ih := fun s => cl_sortLoop d f s
    rw [sortLoop]
    refine cl_bind (cl_partCon Fm hs) fun k => Prog.Cl.bind (cl_splitAt hs k) fun t ht => ?_
    obtain ⟨aq, ar⟩ := t
    obtain ⟨h1, h2⟩ := ht
    dsimp only at h1 h2 ⊢
    have tail : ((if ar.len < 2 * (Fm.maxRec + 1) then pure true else gorFull : Prog V (VSp κ) Bool) >>= fun stop =>
        if stop = true then do
          long Fm f d ar true
          let n ← .decGor .ret
          if n ≠ 0 then do
            let _ ← .recv .ret
            pure ()
          else pure ()
        else sortLoop Fm d f ar).Cl F (VIn F) fun _ => True := by
      refine cl_bind ?_ fun stop => ?_
      · split_ifs
        · exact cl_pure trivial
        · exact cl_gorFull
      · split_ifs
        · refine cl_bind (cl_long Fm _ _ _ _ h2) fun _ => cl_bind (fun _ => ⟨rfl, fun _ _ => ⟨rfl, trivial⟩⟩) fun n => ?_
          split_ifs
          · exact cl_bind (fun _ => ⟨rfl, fun _ _ => ⟨rfl, trivial⟩⟩) fun _ => cl_pure trivial
          · exact cl_pure trivial
        · exact ih _ h2
    split_ifs at tail ⊢
    all_goals first
      | exact cl_bind (fun _ => ⟨rfl, fun _ _ => ⟨rfl, trivial⟩⟩) fun _ => cl_bind (fun _ => ⟨rfl, h1, fun _ => ⟨rfl, trivial⟩⟩) fun _ => tail
      | exact cl_bind (cl_short Fm _ _ _ h1) fun _ => tail
      | exact cl_bind (cl_insertion h1 _ _) fun _ => tail

theorem cl_sortV (d : Nat) (hs : s.rng ⊆ F) : (sortV Fm d s : Prog V (VSp κ) Unit).Cl F (VIn F) fun _ => True := by
  unfold sortV
  dsimp only
  have key : ∀ single : Bool, (if single = true then
      if s.len > Fm.maxRec then long Fm s.len d s false else if s.len > Fm.maxIns then short Fm s.len d s else insertion Fm.key Fm.lt s
      else (.mkSync (.ret ()) : Prog V (VSp κ) Unit) >>= fun _ => sortLoop Fm d s.len s).Cl F (VIn F) fun _ => True := by
    intro single
    split_ifs
    · exact cl_long Fm _ _ _ _ hs
    · exact cl_short Fm _ _ _ hs
    · exact cl_insertion hs _ _
    · exact cl_bind (fun _ => ⟨rfl, fun _ => ⟨rfl, trivial⟩⟩) fun _ => cl_sortLoop Fm _ _ _ hs
  split
  · exact cl_bind (cl_pure trivial) key
  · exact cl_bind (fun _ => ⟨rfl, fun _ _ => ⟨rfl, trivial⟩⟩) fun _ => cl_bind (cl_pure trivial) key

theorem hw_rd' {s : Slice} {i : Int} (m : Mem V) :
    (s.rd i : Prog V Sp V).Hw F G (fun x m' H => m' = m ∧ H = none ∧ (0 ≤ i ∧ i < s.len) ∧ x = m (s.off + i.toNat)) m none := by
  unfold Slice.rd
  split_ifs with h
  · exact ⟨rfl, rfl, h, rfl⟩
  · exact rfl

theorem cl_nanToEnd (hs : s.rng ⊆ F) : (nanToEnd s : Prog Cell Sp Slice).Cl F G fun t => t.rng ⊆ F := by
  unfold nanToEnd
  refine cl_bind ?_ fun h => cl_sub hs _ _
  refine Prog.Cl.loop (fun _ => True) (fun st _ => ?_) _ _ trivial
  obtain ⟨l, h⟩ := st
  dsimp only
  split
  · intro m
    refine Prog.Hw.bind (fun x m' H hx => ?_) _ _ _ (hw_rd' m)
    obtain ⟨rfl, rfl, c1, rfl⟩ := hx
    split
    · exact ⟨rfl, trivial⟩
    · refine Prog.Hw.bind (fun y m H hy => ?_) _ _ _ (hw_rd' m')
      obtain ⟨rfl, rfl, c2, rfl⟩ := hy
      split
      · exact hw_two hs (fun _ _ => rfl) (fun _ _ => rfl) c1 fun _ => ⟨rfl, trivial⟩
      · exact ⟨rfl, trivial⟩
  · exact cl_pure trivial

theorem cl_nanToStart (hs : s.rng ⊆ F) : (nanToStart s : Prog Cell Sp Slice).Cl F G fun t => t.rng ⊆ F := by
  unfold nanToStart
  refine cl_bind ?_ fun h => cl_sub hs _ _
  refine Prog.Cl.loop (fun _ => True) (fun st _ => ?_) _ _ trivial
  obtain ⟨l, h⟩ := st
  dsimp only
  split
  · intro m
    refine Prog.Hw.bind (fun x m' H hx => ?_) _ _ _ (hw_rd' m)
    obtain ⟨rfl, rfl, c1, rfl⟩ := hx
    split
    · exact ⟨rfl, trivial⟩
    · refine Prog.Hw.bind (fun y m H hy => ?_) _ _ _ (hw_rd' m')
      obtain ⟨rfl, rfl, c2, rfl⟩ := hy
      split
      · exact hw_two hs (fun _ _ => rfl) (fun _ _ => rfl) c2 fun _ => ⟨rfl, trivial⟩
      · exact ⟨rfl, trivial⟩
  · exact cl_pure trivial

theorem cl_sortOf (C : Conf) (id : FamId) (hs : s.rng ⊆ F) : (sortOf C id s).Cl F (VIn F) fun _ => True := by
  unfold sortOf
  split
  · split
    · exact Prog.Cl.bind (cl_nanToEnd hs) fun t ht => cl_sortV _ _ ht
    · split
      · exact Prog.Cl.bind (cl_nanToStart hs) fun t ht => cl_sortV _ _ ht
      · exact Prog.Cl.bind (cl_pure (R := fun t : Slice => t.rng ⊆ F) hs) fun t ht => cl_sortV _ _ ht
  · exact cl_sortV _ _ hs

/-- swaps make and close holes -/
theorem SwapsIn.cl {p : Prog V Sp α} (h : p.SwapsIn F) : p.Cl F (fun _ => True) fun _ => True := by
  induction h with
  | ret a => exact cl_ret trivial
  | read i k _ ih => exact fun m => ih _ m
  | swap a b k ha hb hab _ ih => exact fun m => .inr ⟨b, ha, hb, Ne.symm hab, rfl, rfl, .inl ⟨rfl, ih _⟩⟩
  | less i j x y k _ ih => exact fun _ => ⟨rfl, fun m b => ih b m⟩
  | maxGor k _ ih => exact fun _ => ⟨rfl, fun m b => ih b m⟩
  | loadGor k _ ih => exact fun _ => ⟨rfl, fun m b => ih b m⟩
  | incGor k _ ih => exact fun _ => ⟨rfl, fun m b => ih b m⟩
  | decGor k _ ih => exact fun _ => ⟨rfl, fun m b => ih b m⟩
  | mkSync k _ ih => exact fun _ => ⟨rfl, fun m => ih m⟩
  | go s k _ ih => exact fun _ => ⟨rfl, trivial, fun m => ih m⟩
  | send v k _ ih => exact fun _ => ⟨rfl, fun m => ih m⟩
  | recv k _ ih => exact fun _ => ⟨rfl, fun m b => ih b m⟩
  | panic => exact fun _ => rfl
  | overflow => exact fun _ => rfl
  | diverge => exact fun _ => rfl

/-- what the holes lack -/
theorem Holes.held {m : Mem V} {c : Cfg V Sp} {μ : Mem V} {Hs : Nat → Option (Nat × V)} (h : Holes s.rng G m c μ Hs) :
    ∃ held : List V, held.length ≤ accessing c ∧ (s.view m).Subperm (s.view c.sh.mem ++ held) := by
  classical
  let B : List Nat := (List.range c.ths.length).filterMap fun i => (Hs i).map Prod.fst
  have hB : ∀ a, a ∈ B ↔ ∃ (i : Nat) (y : V), Hs i = some (a, y) := by
    intro a
    simp only [B, List.mem_filterMap, List.mem_range, Option.map_eq_some_iff]
    constructor
    · rintro ⟨i, _, ⟨b, y⟩, h1, rfl⟩
      exact ⟨i, y, h1⟩
    · rintro ⟨i, y, h1⟩
      exact ⟨i, (h.dom i a y h1).1, (a, y), h1, rfl⟩
  refine ⟨B.map μ, ?_, ?_⟩
  · rw [List.length_map]
    have e1 : B.length = (List.range c.ths.length).countP fun i => (Hs i).isSome := by
      simp [B, List.length_filterMap_eq_countP]
    have e2 : accessing c = (List.range c.ths.length).countP fun i => (c.ths[i]?.elim false fun p => p.access.isSome) := by
      unfold accessing
      rw [← List.countP_eq_length_filter]
      have : c.ths = (List.range c.ths.length).map fun i => c.ths.getD i .panic := by
        refine List.ext_getElem (by simp) fun i h1 h2 => ?_
        simp [h1]
      conv_lhs => rw [this]
      rw [List.countP_map]
      refine List.countP_congr fun i hi => ?_
      have hi := List.mem_range.1 hi
      simp [hi]
    rw [e1, e2]
    refine List.countP_mono_left fun i hi hh => ?_
    have hi := List.mem_range.1 hi
    obtain ⟨⟨b, y⟩, h1⟩ := Option.isSome_iff_exists.1 hh
    have h2 := h.tidy i _ (List.getElem?_eq_getElem hi)
    rw [h1] at h2
    simpa [hi] using h2.access
  · refine (view_perm h.rp.on).symm.subperm.trans ?_
    rw [Slice.view_eq, Slice.view_eq]
    have hp : (s.addrs.filter (fun a => a ∉ B) ++ s.addrs.filter (fun a => a ∈ B)).Perm s.addrs := by
      have := List.filter_append_perm (fun a => decide (a ∉ B)) s.addrs
      simpa using this
    refine (hp.map μ).symm.subperm.trans ?_
    rw [List.map_append]
    refine List.Subperm.append ?_ ?_
    · have : (s.addrs.filter fun a => a ∉ B).map μ = (s.addrs.filter fun a => a ∉ B).map c.sh.mem := by
        refine List.map_congr_left fun a ha => h.rest a fun i y hh => ?_
        have := (List.mem_filter.1 ha).2
        simp only [decide_eq_true_eq] at this
        exact this ((hB a).2 ⟨i, y, hh⟩)
      rw [this]
      exact (List.filter_sublist.map _).subperm
    · obtain ⟨l, h1, h2⟩ : (s.addrs.filter fun a => a ∈ B).Subperm B :=
        List.subperm_of_subset (s.addrs_nodup.filter _) fun a ha => by simpa using (List.mem_filter.1 ha).2
      exact ⟨l.map μ, h1.map μ, h2.map μ⟩

/-- the invariant in terms of the slice -/
theorem Holes.outcome {m : Mem V} {c : Cfg V Sp} {μ : Mem V} {Hs : Nat → Option (Nat × V)} (h : Holes s.rng G m c μ Hs) :
    (∃ held : List V, held.length ≤ accessing c ∧ (s.view m).Subperm (s.view c.sh.mem ++ held)) ∧
    (∀ x ∈ s.view c.sh.mem, x ∈ s.view m) ∧
    (accessing c = 0 → (s.view c.sh.mem).Perm (s.view m)) ∧
    ∀ a, a < s.off ∨ s.off + s.len ≤ a → c.sh.mem a = m a := by
  refine ⟨h.held, fun x hx => ?_, fun h0 => ?_, fun a ha => ?_⟩
  · rw [Slice.view_eq, List.mem_map] at hx ⊢
    obtain ⟨a, ha, rfl⟩ := hx
    obtain ⟨b, h1, h2⟩ := h.src a
    exact ⟨b, Slice.mem_addrs.2 (h2 (Slice.mem_addrs.1 ha)), h1.symm⟩
  · obtain ⟨held, h1, h2⟩ := h.held
    rw [h0, Nat.le_zero, List.length_eq_zero_iff] at h1
    subst h1
    rw [List.append_nil] at h2
    exact (h2.perm_of_length_le (by simp [Slice.view])).symm
  · have ha' : a ∉ s.rng := by
      simp only [Slice.rng, Set.mem_ofPred_eq]
      omega
    rw [← h.rp.out ha']
    exact (h.rest a fun i y hi => ha' (h.dom i a y hi).2.1).symm

end Sorty
