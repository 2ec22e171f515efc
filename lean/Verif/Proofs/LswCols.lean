import Verif.Model.LswCols
import Verif.Logic.Rows
import Verif.Proofs.LswJob

/-! # Sort on parallel slices: the rows -/

namespace Sorty

open Prog

variable {T Sp : Type} {K : Nat}

/-- swap of one element of the rows `r` and `q` -/
def swapRow1 (s : Slice) (r q : Int) (j : Fin (K + 1)) : Prog (Fin (K + 1) → T) Sp Unit := do
  let x ← s.rd q
  let y ← s.rd r
  let z ← s.rd r
  s.wr r (Function.update z j (x j))
  let z ← s.rd q
  s.wr q (Function.update z j (y j))

/-- `swapCols` on rows -/
def swapRows (s : Slice) (r q : Int) : List (Fin (K + 1)) → Prog (Fin (K + 1) → T) Sp Unit
  | [] => pure ()
  | j :: js => do
    swapRow1 s r q j
    swapRows s r q js

/-- `lswCols` on rows -/
def lswRows (s : Slice) (i k r q : Int) : Prog (Fin (K + 1) → T) Sp Bool :=
  if (0 ≤ i ∧ i < s.len) ∧ (0 ≤ k ∧ k < s.len) ∧ (0 ≤ r ∧ r < s.len) ∧ (0 ≤ q ∧ q < s.len) then do
    let x ← s.rd i
    let y ← s.rd k
    let b ← .less i.toNat k.toNat x y .ret
    if b then do
      if r ≠ q then swapRows s r q (List.finRange (K + 1)) else pure ()
      pure true
    else pure false
  else .panic

@[reducible] def rowwise : Lesswap (Fin (K + 1) → T) := ⟨lswRows⟩

/-- the columns `J` of the rows `x` and `y` are swapped -/
def mix (s : Slice) (m : Mem (Fin (K + 1) → T)) (x y : Int) (J : Fin (K + 1) → Prop) [DecidablePred J] : Mem (Fin (K + 1) → T) :=
  fun a j => if J j then s.swapM m x y a j else m a j

theorem mix_eq {s : Slice} {m : Mem (Fin (K + 1) → T)} {x y : Int} (J : Fin (K + 1) → Prop) [DecidablePred J] :
    mix s m x y J = fun a j => if J j then (if a = s.off + y.toNat then m (s.off + x.toNat) j else if a = s.off + x.toNat then
      m (s.off + y.toNat) j else m a j) else m a j := by
  funext a j
  simp only [mix, Slice.swapM, Slice.E, Function.update_apply]
  split_ifs <;> rfl

theorem swp_swapRows {cmp : Nat → Nat → (Fin (K + 1) → T) → (Fin (K + 1) → T) → Bool → Prop} {W R : Set Nat} {s : Slice} {x y : Int}
    {m : Mem (Fin (K + 1) → T)} {Q : Unit → Mem (Fin (K + 1) → T) → Prop} (hx : s.ok x) (hy : s.ok y) (ax : s.ad x ∈ W) (ay : s.ad y ∈ W)
    (hxy : x ≠ y) : ∀ (js : List (Fin (K + 1))) (J : Fin (K + 1) → Prop) [DecidablePred J], js.Nodup → (∀ j ∈ js, ¬ J j) →
      Q () (mix s m x y fun j => J j ∨ j ∈ js) → swp cmp W R (swapRows s x y js : Prog _ Sp Unit) (mix s m x y J) Q
  | [], J, _, _, _, hQ => by
    have : mix s m x y (fun j => J j ∨ j ∈ []) = mix s m x y J := by
      funext a j; simp [mix]
    rw [this] at hQ
    exact hQ
  | j :: js, J, _, hn, hJ, hQ => by
    have hne : s.ad x ≠ s.ad y := fun e => hxy (ad_inj hx.1 hy.1 e)
    have hjs := (List.nodup_cons.1 hn).1
    have hjJ := hJ j (by simp)
    unfold swapRows swapRow1
    refine swp_bind (swp_bind (Slice.swp_rd' hy.1 hy.2 (.inl ay) (swp_bind (Slice.swp_rd' hx.1 hx.2 (.inl ax)
      (swp_bind (Slice.swp_rd' hx.1 hx.2 (.inl ax) (swp_bind (Slice.swp_wr' hx.1 hx.2 ax (swp_bind (Slice.swp_rd' hy.1 hy.2 (.inl ay)
      (Slice.swp_wr' hy.1 hy.2 ay ?_)))))))))))
    have e : ∀ M : Mem (Fin (K + 1) → T), M = mix s m x y (fun i => J i ∨ i = j) →
        swp cmp W R (swapRows s x y js : Prog _ Sp Unit) M Q := by
      rintro M rfl
      refine swp_swapRows hx hy ax ay hxy js (fun i => J i ∨ i = j) (List.nodup_cons.1 hn).2 (fun i hi => ?_) ?_
      · rintro (h | rfl)
        · exact hJ i (by simp [hi]) h
        · exact hjs hi
      · have : mix s m x y (fun i => (J i ∨ i = j) ∨ i ∈ js) = mix s m x y (fun i => J i ∨ i ∈ j :: js) := by
          funext a i; simp [mix, or_assoc]
        rw [this]; exact hQ
    apply e
    funext a i
    have hne' : s.off + x.toNat ≠ s.off + y.toNat := hne
    rw [mix_eq, mix_eq]
    simp only [Slice.E]
    generalize s.off + x.toNat = A at hne'
    generalize s.off + y.toNat = B at hne'
    clear e hQ hne hJ hn
    by_cases e2 : i = j <;> by_cases e1 : a = B <;> by_cases e3 : a = A <;> (try subst e1) <;> (try subst e3) <;> (try subst e2) <;>
      simp_all [Ne.symm hne']

theorem mix_all {s : Slice} {m : Mem (Fin (K + 1) → T)} {x y : Int} :
    mix s m x y (fun j => False ∨ j ∈ List.finRange (K + 1)) = s.swapM m x y := by
  funext a j; simp [mix]

theorem mix_none {s : Slice} {m : Mem (Fin (K + 1) → T)} {x y : Int} : mix s m x y (fun _ => False) = m := by
  funext a j; simp [mix]

/-- all elements of two rows are swapped -/
theorem swp_swapAll {cmp : Nat → Nat → (Fin (K + 1) → T) → (Fin (K + 1) → T) → Bool → Prop} {W R : Set Nat} {s : Slice} {x y : Int}
    {m : Mem (Fin (K + 1) → T)} {Q : Unit → Mem (Fin (K + 1) → T) → Prop} (hx : s.ok x) (hy : s.ok y) (ax : s.ad x ∈ W) (ay : s.ad y ∈ W)
    (hxy : x ≠ y) (hQ : Q () (s.swapM m x y)) : swp cmp W R (swapRows s x y (List.finRange (K + 1)) : Prog _ Sp Unit) m Q := by
  have h := swp_swapRows (Sp := Sp) (cmp := cmp) (R := R) (m := m) (Q := Q) hx hy ax ay hxy (List.finRange (K + 1)) (fun _ => False)
    (List.nodup_finRange _) (fun _ _ h => h) (by rw [mix_all]; exact hQ)
  rwa [mix_none] at h

theorem SpB.swapRows {ρ : Sp → Nat} {n : Nat} {s : Slice} (r q : Int) : ∀ js : List (Fin (K + 1)),
    SpB ρ n (swapRows s r q js : Prog (Fin (K + 1) → T) Sp Unit)
  | [] => trivial
  | j :: js => by
    unfold Sorty.swapRows swapRow1
    spb [exact SpB.swapRows r q js]

theorem rowwise_ok : @Lesswap.OK (Fin (K + 1) → T) rowwise := by
  let : Lesswap (Fin (K + 1) → T) := rowwise
  refine { spec := ?_, racy := ?_, plain := ?_ }
  · intro Sp cmp W R s i k x y m Q ht hi hk hx hy ai ak h1 h2
    show swp cmp W R (lswRows s i k x y) m Q
    unfold lswRows
    rw [if_pos ⟨hi, hk, hx, hy⟩]
    refine swp_bind (Slice.swp_rd' hi.1 hi.2 ai (swp_bind (Slice.swp_rd' hk.1 hk.2 ak (swp_bind ⟨ht _ _ _ _, ?_⟩))))
    intro b hb
    cases b with
    | false => exact h2 hb
    | true =>
      obtain ⟨⟨w1, w2⟩, h3⟩ := h1 hb
      show swp cmp W R (if true = true then _ else _) m Q
      rw [if_pos rfl]
      dsimp only
      by_cases hxy : x = y
      · subst hxy
        rw [if_neg (by simp)]
        rw [swapM_self] at h3
        exact h3
      · rw [if_pos hxy]
        exact swp_bind (swp_swapAll hx hy w1 w2 hxy h3)
  · intro Sp S s g i k x y m Q hr hph hi hk hx hy wx wy hQ
    show wp S (lswRows s i k x y) g m Q
    unfold lswRows
    rw [if_pos ⟨hi, hk, hx, hy⟩]
    have mem : ∀ {j}, s.ok j → s.ad j ∈ S.racy := by
      intro j hj
      refine hr ?_
      have h1 := hj.1; have h2 := hj.2
      simp only [Slice.rng, Slice.ad, Set.mem_ofPred_eq]; omega
    have rd : ∀ {j} {Q' : (Fin (K + 1) → T) → Gh (Fin (K + 1) → T) Sp → Mem (Fin (K + 1) → T) → Prop}, s.ok j → (∀ v, Q' v g m) →
        wp S (s.rd j) g m Q' := by
      intro j Q' hj h
      unfold Slice.rd
      rw [if_pos ⟨hj.1, hj.2⟩]
      exact ⟨⟨hph, .inr (mem hj)⟩, fun v _ => h v⟩
    refine wp_bind (rd hi fun v1 => wp_bind (rd hk fun v2 => wp_bind ⟨hph, fun b _ => ?_⟩))
    have h1 := hQ b
    cases b with
    | false => exact h1
    | true =>
      show wp _ (if true = true then _ else _) g m Q
      rw [if_pos rfl] at h1 ⊢
      dsimp only
      by_cases e : x = y
      · subst e
        rw [if_neg (by simp)]
        rw [swapM_self] at h1
        exact h1
      · rw [if_pos e]
        refine wp_mono (swp_wp (S := S) (cmp := S.cmp) (R := ∅) (Q := fun b m' => b = true ∧ m' = s.swapM m x y) (fun _ _ _ _ _ h => h) hph subset_rfl (by simp)
          (swp_bind (swp_swapAll hx hy wx wy e ⟨rfl, rfl⟩))) ?_
        rintro b g' m' ⟨rfl, rfl, rfl⟩
        exact h1
  · intro Sp ρ n s i k x y
    show SpB ρ n (lswRows s i k x y : Prog (Fin (K + 1) → T) Sp Bool)
    unfold lswRows
    split
    · refine .bind (.rd _ _) fun x => .bind (.rd _ _) fun y => .bind (fun b => trivial) fun b => ?_
      spb [exact SpB.swapRows _ _ _]
    · trivial

section
variable {cs : Fin (K + 1) → Slice} {n : Nat} {α : Type}

/-- slices of equal length -/
def SameLen (cs : Fin (K + 1) → Slice) (n : Nat) : Prop := ∀ j, (cs j).len = n

theorem rows_rd (hn : SameLen cs n) (j : Fin (K + 1)) (i : Int) {f : T → Prog T Sp α} {g : (Fin (K + 1) → T) → Prog (Fin (K + 1) → T) Sp α}
    (h : ∀ z, Rows (fun j => (cs j).off) n (f (z j)) (g z)) :
    Rows (fun j => (cs j).off) n ((cs j).rd i >>= f) ((Slice.mk 0 n).rd i >>= g) := by
  unfold Slice.rd
  rw [hn j]
  by_cases hi : 0 ≤ i ∧ i < n
  · rw [if_pos hi, if_pos hi, Nat.zero_add]
    exact .read i.toNat j _ _ (by omega) h
  · rw [if_neg hi, if_neg hi]; exact .panic

theorem rows_wr (hn : SameLen cs n) (j : Fin (K + 1)) (i : Int) (v : T) {p : Unit → Prog T Sp α} {q : Unit → Prog (Fin (K + 1) → T) Sp α}
    (h : Rows (fun j => (cs j).off) n (p ()) (q ())) :
    Rows (fun j => (cs j).off) n ((cs j).wr i v >>= p) ((Slice.mk 0 n).rd i >>= fun z => (Slice.mk 0 n).wr i (Function.update z j v) >>= q) := by
  unfold Slice.rd Slice.wr
  rw [hn j]
  by_cases hi : 0 ≤ i ∧ i < n
  · simp only [if_pos hi, Nat.zero_add]
    exact .write i.toNat j _ _ _ (by omega) h
  · simp only [if_neg hi]; exact .panic

theorem rows_wr' (hn : SameLen cs n) (j : Fin (K + 1)) (i : Int) (v : T) :
    Rows (fun j => (cs j).off) n ((cs j).wr i v : Prog T Sp Unit) ((Slice.mk 0 n).rd i >>= fun z => (Slice.mk 0 n).wr i (Function.update z j v)) := by
  unfold Slice.rd Slice.wr
  rw [hn j]
  by_cases hi : 0 ≤ i ∧ i < n
  · simp only [if_pos hi, Nat.zero_add]
    exact .write i.toNat j _ _ _ (by omega) (.ret ())
  · simp only [if_neg hi]; exact .panic

theorem rows_swap (hn : SameLen cs n) (r q : Int) : ∀ js : List (Fin (K + 1)),
    Rows (fun j => (cs j).off) n (swapCols cs r q js : Prog T Sp Unit) (swapRows ⟨0, n⟩ r q js)
  | [] => .ret _
  | j :: js => by
    unfold swapCols swapRows
    refine Rows.bind' ?_ fun _ => rows_swap hn r q js
    unfold Slice.swap swapRow1
    exact rows_rd hn j q fun x => rows_rd hn j r fun y => rows_wr hn j r _ (rows_wr' hn j q _)

theorem rows_lsw (hn : SameLen cs n) (i k r q : Int) :
    Rows (fun j => (cs j).off) n (lswCols cs i k r q : Prog T Sp Bool) (lswRows ⟨0, n⟩ i k r q) := by
  unfold lswCols lswRows
  rw [hn 0]
  refine Rows.ite (fun _ => ?_) fun _ => .panic
  refine rows_rd hn 0 i fun x => rows_rd hn 0 k fun y => Rows.less _ _ _ _ _ _ fun b => ?_
  refine Rows.ite (fun _ => ?_) fun _ => .ret _
  dsimp only
  exact Rows.ite (fun _ => Rows.bind' (rows_swap hn _ _ _) fun _ => .ret _) fun _ => .ret _

theorem rows_call (hn : SameLen cs n) (i k r q : Int) : Rows (fun j => (cs j).off) n (@Lesswap.call T (columns cs) Sp ⟨0, n⟩ i k r q)
    (@Lesswap.call (Fin (K + 1) → T) rowwise Sp ⟨0, n⟩ i k r q) := rows_lsw hn i k r q

/-- the functions of `Sort` -/
syntax "rows" ("[" tactic "]")? : tactic
macro_rules
  | `(tactic| rows) => `(tactic| rows [fail])
  | `(tactic| rows [$t]) => `(tactic| repeat' first
    | with_reducible apply Rows.ret | with_reducible apply Rows.pure | with_reducible apply Rows.panic
    | with_reducible apply Rows.overflow | with_reducible apply Rows.diverge
    | with_reducible apply Rows.maxGor | with_reducible apply Rows.loadGor | with_reducible apply Rows.incGor
    | with_reducible apply Rows.decGor | with_reducible apply Rows.recv | with_reducible apply Rows.send
    | with_reducible apply Rows.mkSync | with_reducible apply Rows.go
    | with_reducible $t:tactic
    | with_reducible apply Rows.bind' | with_reducible apply Rows.bind | with_reducible apply Rows.loop
    | with_reducible apply Rows.ite
    | assumption
    | intro _
    | split
    | dsimp only)

variable (hn : SameLen cs n) (C : Conf)
include hn

/-- `Rows` for the two `lsw` implementations -/
abbrev RowsOf (cs : Fin (K + 1) → Slice) (n : Nat) (f : ∀ (V : Type) [Lesswap V], Prog V Sp α) : Prop :=
  Rows (fun j => (cs j).off) n (@f T (columns cs)) (@f (Fin (K + 1) → T) rowwise)

theorem rows_inner (b st h : Int) : RowsOf (T := T) cs n fun V _ => (lswInner ⟨0, n⟩ b st h : Prog V Sp Unit) := by
  unfold RowsOf lswInner; rows [exact rows_call hn _ _ _ _]

theorem rows_insertion (lo hi : Int) : RowsOf (T := T) cs n fun V _ => (lswInsertion ⟨0, n⟩ lo hi : Prog V Sp Unit) := by
  unfold RowsOf lswInsertion; rows [exact rows_inner hn _ _ _]

theorem rows_pivot (ws : Nat) (lo hi : Int) (k : Nat) : RowsOf (T := T) cs n fun V _ => (lswPivot ws ⟨0, n⟩ lo hi k : Prog V Sp Int) := by
  unfold RowsOf lswPivot; dsimp only; rows [first | exact rows_inner hn _ _ _ | exact rows_call hn _ _ _ _]

theorem rows_partOne (l pv h : Int) : RowsOf (T := T) cs n fun V _ => (lswPartOne ⟨0, n⟩ l pv h : Prog V Sp Int) := by
  unfold RowsOf lswPartOne
  refine Rows.loop (fun st => ?_) _ _
  cases st <;> unfold lswPartOneStep <;> dsimp only <;> rows [exact rows_call hn _ _ _ _]

theorem rows_partTwo (lo l pv h hi : Int) : RowsOf (T := T) cs n fun V _ => (lswPartTwo ⟨0, n⟩ lo l pv h hi : Prog V Sp Int) := by
  unfold RowsOf lswPartTwo
  refine Rows.loop (fun st => ?_) _ _
  cases st <;> unfold lswPartTwoStep <;> dsimp only <;> rows [exact rows_call hn _ _ _ _]

theorem rows_gapLow (lo r k pv : Int) : RowsOf (T := T) cs n fun V _ => (lswGapLow ⟨0, n⟩ lo r k pv : Prog V Sp Int) := by
  unfold RowsOf lswGapLow; rows [exact rows_call hn _ _ _ _]

theorem rows_gapHigh (hi r k pv : Int) : RowsOf (T := T) cs n fun V _ => (lswGapHigh ⟨0, n⟩ hi r k pv : Prog V Sp Int) := by
  unfold RowsOf lswGapHigh; rows [exact rows_call hn _ _ _ _]

theorem rows_shortPivot (lo hi : Int) : RowsOf (T := T) cs n fun V _ => (lswShortPivot ⟨0, n⟩ lo hi : Prog V Sp Int) := by
  unfold RowsOf lswShortPivot; dsimp only; rows [exact rows_call hn _ _ _ _]

theorem rows_short : ∀ (f d : Nat) (lo hi : Int), RowsOf (T := T) cs n fun V _ => (lswShort C ⟨0, n⟩ f d lo hi : Prog V Sp Unit) := by
  intro f
  induction f with
  | zero => intro d lo hi; exact .diverge
  | succ f ih =>
    intro d lo hi
    unfold RowsOf lswShort
    cases d <;> rows [first | exact ih _ _ _ | exact rows_shortPivot hn _ _ | exact rows_partOne hn _ _ _ | exact rows_insertion hn _ _]

omit hn in
theorem rows_gorFull : Rows (fun j => (cs j).off) n (gorFull : Prog T Sp Bool) gorFull := by
  unfold gorFull; exact .maxGor _ _ fun _ => .loadGor _ _ fun _ => .ret _

theorem rows_long : ∀ (f d : Nat) (lo hi : Int) (sv : Bool),
    RowsOf (T := T) cs n fun V _ => (lswLong C ⟨0, n⟩ f d lo hi sv : Prog V LSp Unit) := by
  intro f
  induction f with
  | zero => intro d lo hi sv; exact .diverge
  | succ f ih =>
    intro d lo hi sv
    unfold RowsOf lswLong
    cases d <;> rows [first | exact ih _ _ _ _ | exact rows_pivot hn _ _ _ _ | exact rows_partOne hn _ _ _ |
      exact rows_insertion hn _ _ | exact rows_short hn _ _ _ _ _ | exact rows_gorFull]

theorem rows_body (sp : LSp) : RowsOf (T := T) cs n fun V _ => (lswBody C ⟨0, n⟩ sp : Prog V LSp Unit) := by
  cases sp with
  | part l pv h => exact Rows.bind' (rows_partOne hn _ _ _) fun _ => .send _ _ _ (.ret _)
  | long lo hi f =>
    refine Rows.bind' (rows_long hn C f C.depth lo hi true) fun _ => Rows.decGor _ _ fun _ => ?_
    rows

theorem rows_partCon (ws : Nat) (lo hi : Int) : RowsOf (T := T) cs n fun V _ => (lswPartCon ws ⟨0, n⟩ lo hi : Prog V LSp Int) := by
  unfold RowsOf lswPartCon
  refine Rows.bind' (rows_pivot hn _ _ _ _) fun _ => ?_
  refine Rows.bind' (.go _ _ _ (.ret _)) fun _ => Rows.bind' (rows_partTwo hn _ _ _ _ _) fun _ => Rows.bind' (.recv _ _ fun _ => .ret _) fun _ => ?_
  exact Rows.ite (fun _ => rows_gapLow hn _ _ _ _) fun _ => rows_gapHigh hn _ _ _ _

theorem rows_sortLoop : ∀ (f : Nat) (lo hi : Int), RowsOf (T := T) cs n fun V _ => (lswSortLoop C ⟨0, n⟩ f lo hi : Prog V LSp Unit) := by
  intro f
  induction f with
  | zero => intro lo hi; exact .diverge
  | succ f ih =>
    intro lo hi
    unfold RowsOf lswSortLoop
    rows [first | exact ih _ _ | exact rows_long hn _ _ _ _ _ _ | exact rows_partCon hn _ _ _ |
      exact rows_insertion hn _ _ | exact rows_short hn _ _ _ _ _ | exact rows_gorFull]

theorem rows_sort (k : Int) : RowsOf (T := T) cs n fun V _ => (SortLsw C k ⟨0, n⟩ : Prog V LSp Unit) := by
  unfold RowsOf SortLsw
  rows [first | exact rows_long hn _ _ _ _ _ _ | exact rows_insertion hn _ _ | exact rows_short hn _ _ _ _ _ | exact rows_sortLoop hn _ _ _ _]

end

end Sorty
