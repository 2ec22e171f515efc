import Verif.Logic.Det
import Verif.Model.Lsw
import Mathlib.Tactic.SplitIfs
import Mathlib.Tactic.Ring

/-! # With one goroutine, the sorts do the same on equal slices, wherever these lie -/

namespace Sorty

open Prog

variable {V κ Sp α : Type} {X : SimPar}

/-- slices at the same place in the two ranges -/
def SR (X : SimPar) (s s' : Slice) : Prop := ∃ a n, s = ⟨X.o + a, n⟩ ∧ s' = ⟨X.o' + a, n⟩ ∧ a + n ≤ X.w

theorem Sim.pure {R : α → α → Prop} {a a' : α} (h : R a a') : Sim X R (Pure.pure a : Prog V Sp α) (Pure.pure a') := .ret h

theorem Sim.bindEq {β : Type} {Q : β → β → Prop} {p p' : Prog V Sp α} {f f' : α → Prog V Sp β} (h : Sim X Eq p p')
    (hf : ∀ a, Sim X Q (f a) (f' a)) : Sim X Q (p >>= f) (p' >>= f') :=
  .bind h fun a a' e => by subst e; exact hf a

theorem Sim.again {σ : Type} (s : σ) : Sim X (CtlR Eq (Eq : α → α → Prop)) (Pure.pure (.again s) : Prog V Sp (Ctl σ α)) (Pure.pure (.again s)) :=
  .ret (.again rfl)

theorem Sim.brk {σ : Type} {S : σ → σ → Prop} (a : α) : Sim X (CtlR S (Eq : α → α → Prop)) (Pure.pure (.brk a) : Prog V Sp (Ctl σ α)) (Pure.pure (.brk a)) :=
  .ret (.brk rfl)

theorem Sim.rd {s s' : Slice} (h : SR X s s') (i : Int) : Sim X Eq (s.rd i : Prog V Sp V) (s'.rd i) := by
  obtain ⟨a, n, rfl, rfl, h⟩ := h
  refine Sim.ite (fun hi => ?_) fun _ => .panic
  dsimp only at hi ⊢
  rw [Nat.add_assoc, Nat.add_assoc]
  exact .read (by omega) fun x => .ret rfl

theorem Sim.wr {s s' : Slice} (h : SR X s s') (i : Int) (v : V) : Sim X Eq (s.wr i v : Prog V Sp Unit) (s'.wr i v) := by
  obtain ⟨a, n, rfl, rfl, h⟩ := h
  refine Sim.ite (fun hi => ?_) fun _ => .panic
  dsimp only at hi ⊢
  rw [Nat.add_assoc, Nat.add_assoc]
  exact .write (by omega) (.ret rfl)

theorem Sim.sub {s s' : Slice} (h : SR X s s') (i j : Int) :
    Sim X (fun t t' => SR X t t' ∧ t.len ≤ s.len) (s.sub i j : Prog V Sp Slice) (s'.sub i j) := by
  obtain ⟨a, n, rfl, rfl, h⟩ := h
  refine Sim.ite (fun hi => ?_) fun _ => .panic
  dsimp only at hi ⊢
  refine .ret ⟨⟨a + i.toNat, (j - i).toNat, ?_, ?_, ?_⟩, ?_⟩
  · rw [Nat.add_assoc]
  · rw [Nat.add_assoc]
  · omega
  · dsimp only; omega

theorem Sim.addrNe {s s' t t' : Slice} (h : SR X s s') (h' : SR X t t') :
    Sim X Eq (s.addrNe t : Prog V Sp Bool) (s'.addrNe t') := by
  obtain ⟨a, n, rfl, rfl, h⟩ := h
  obtain ⟨b, k, rfl, rfl, h'⟩ := h'
  refine Sim.ite (fun hi => .ret ?_) fun _ => .panic
  dsimp only
  rw [Bool.eq_iff_iff]
  simp

theorem Sim.swap {s s' : Slice} (h : SR X s s') (i j : Int) : Sim X Eq (s.swap i j : Prog V Sp Unit) (s'.swap i j) := by
  refine .bind (.rd h _) ?_
  rintro x _ rfl
  refine .bind (.rd h _) ?_
  rintro y _ rfl
  refine .bind (.wr h _ _) ?_
  rintro _ _ rfl
  exact .wr h _ _

theorem SR.len {s s' : Slice} (h : SR X s s') : s'.len = s.len := by
  obtain ⟨a, n, rfl, rfl, _⟩ := h; rfl

/-- decomposes two equal programs on related slices; `t` handles calls -/
syntax "simu" ("[" tactic "]")? : tactic
macro_rules
  | `(tactic| simu) => `(tactic| simu [fail])
  | `(tactic| simu [$t]) => `(tactic| repeat' first
    | with_reducible exact Sim.panic
    | with_reducible exact Sim.overflow
    | with_reducible exact Sim.diverge
    | with_reducible exact Sim.again _
    | with_reducible exact Sim.brk _
    | with_reducible exact Sim.pure rfl
    | with_reducible exact Sim.ret rfl
    | with_reducible exact Sim.rd (by assumption) _
    | with_reducible exact Sim.wr (by assumption) _ _
    | with_reducible exact Sim.swap (by assumption) _ _
    | with_reducible $t:tactic
    | ((with_reducible refine Sim.bindEq ?_ ?_); rotate_left; intro _)
    | (with_reducible refine Sim.ite (fun _ => ?_) (fun _ => ?_))
    | dsimp only)

variable (F : Fam V κ)

theorem sim_insertion (key : V → κ) (lt : κ → κ → Bool) {s s' : Slice} (hs : SR X s s') :
    Sim X Eq (insertion key lt s : Prog V Sp Unit) (insertion key lt s') := by
  have hl := hs.len
  unfold insertion insertInner
  rw [hl]
  refine Sim.loop (S := Eq) ?_ _ rfl
  rintro h _ rfl
  refine Sim.ite (fun _ => ?_) fun _ => Sim.brk _
  refine Sim.bind (Sim.rd hs _) ?_
  rintro val _ rfl
  refine Sim.bind (R := Eq) (Sim.loop (S := Eq) ?_ _ rfl) ?_
  · rintro l _ rfl
    simu
  · rintro _ _ rfl
    exact Sim.again _

theorem sim_partOne {s s' : Slice} (hs : SR X s s') (pv : κ) : Sim X Eq (partOne F s pv : Prog V Sp Int) (partOne F s' pv) := by
  have hl := hs.len
  unfold partOne
  rw [hl]
  refine Sim.loop (S := Eq) ?_ _ rfl
  rintro st _ rfl
  cases st <;> unfold partOneStep <;> dsimp only <;> simu

theorem sim_pivot {s s' : Slice} (hs : SR X s s') (k : Nat) : Sim X Eq (pivot F s k : Prog V Sp κ) (pivot F s' k) := by
  have hl := hs.len
  unfold pivot
  rw [hl]
  generalize minMaxSample s.len k = x
  obtain ⟨first, step, last⟩ := x
  dsimp only
  refine Sim.bind (R := Eq) (Sim.loop (S := Eq) ?_ _ rfl) ?_
  · rintro ⟨i, f, sm⟩ _ rfl
    simu
  · rintro sm _ rfl
    generalize (insertion id F.lt ⟨0, k⟩ : Prog κ Empty Unit).evalLocal sm = y
    cases y with
    | none => exact .panic
    | some y =>
      obtain ⟨_, sm⟩ := y
      dsimp only
      cases F.mean <;> exact Sim.pure rfl

theorem sim_splitAt {s s' : Slice} (hs : SR X s s') (k : Int) :
    Sim X (fun x x' => SR X x.1 x'.1 ∧ SR X x.2 x'.2) (splitAt s k : Prog V Sp (Slice × Slice)) (splitAt s' k) := by
  have hl := hs.len
  unfold splitAt
  rw [hl]
  refine Sim.ite (fun _ => ?_) fun _ => ?_
  · exact Sim.bind (Sim.sub hs _ _) fun a a' ha => Sim.bind (Sim.sub hs _ _) fun b b' hb => Sim.ret ⟨ha.1, hb.1⟩
  · exact Sim.bind (Sim.sub hs _ _) fun a a' ha => Sim.bind (Sim.sub hs _ _) fun b b' hb => Sim.ret ⟨ha.1, hb.1⟩

theorem sim_shortPivot {s s' : Slice} (hs : SR X s s') : Sim X Eq (shortPivot F s : Prog V Sp κ) (shortPivot F s') := by
  have hl := hs.len
  unfold shortPivot
  cases F.mean with
  | some mean =>
    dsimp only
    unfold shortPivot4
    rw [hl]
    dsimp only
    refine Sim.bind (Sim.rd hs _) ?_
    rintro a _ rfl
    refine Sim.bind (Sim.rd hs _) ?_
    rintro b _ rfl
    refine Sim.bind (Sim.rd hs _) ?_
    rintro c _ rfl
    refine Sim.bind (Sim.rd hs _) ?_
    rintro d _ rfl
    exact Sim.pure rfl
  | none =>
    dsimp only
    unfold shortPivot3
    rw [hl]
    dsimp only
    refine Sim.bind (Sim.rd hs _) ?_
    rintro a _ rfl
    refine Sim.bind (Sim.rd hs _) ?_
    rintro b _ rfl
    refine Sim.bind (Sim.rd hs _) ?_
    rintro c _ rfl
    exact Sim.ite (fun _ => Sim.ite (fun _ => Sim.pure rfl) fun _ => Sim.pure rfl) fun _ => Sim.pure rfl

theorem sim_short : ∀ (f d : Nat) {s s' : Slice}, SR X s s' → Sim X Eq (short F f d s : Prog V Sp Unit) (short F f d s') := by
  intro f
  induction f with
  | zero => intro d s s' _; exact .diverge
  | succ f ih =>
    intro d s s' hs
    unfold short
    refine Sim.bind (sim_shortPivot F hs) ?_
    rintro pv _ rfl
    refine Sim.bind (sim_partOne F hs pv) ?_
    rintro k _ rfl
    refine Sim.bind (sim_splitAt hs k) ?_
    rintro ⟨aq, ar⟩ ⟨aq', ar'⟩ ⟨h1, h2⟩
    have e1 := h1.len
    have e2 := h2.len
    dsimp only at h1 h2 e1 e2 ⊢
    rw [e1, e2]
    refine Sim.ite (fun _ => ?_) fun _ => ?_
    · cases d with
      | zero => exact .overflow
      | succ d =>
        exact Sim.bind (ih d h1) fun _ _ _ => ih _ h2
    · refine Sim.bind (R := Eq) (Sim.loop (S := SR X) ?_ _ h1) ?_
      · intro t t' ht
        refine Sim.bind (sim_insertion _ _ ht) ?_
        rintro _ _ rfl
        refine Sim.ite (fun _ => Sim.brk _) fun _ => ?_
        refine Sim.bind (Sim.addrNe h2 ht) ?_
        rintro b _ rfl
        exact Sim.ite (fun _ => .ret (.again h2)) fun _ => Sim.brk _
      · rintro b _ rfl
        exact Sim.ite (fun _ => ih _ h2) fun _ => Sim.pure rfl

theorem sim_long : ∀ (f d : Nat) {s s' : Slice}, SR X s s' →
    Sim X Eq (long F f d s false : Prog V (VSp κ) Unit) (long F f d s' false) := by
  intro f
  induction f with
  | zero => intro d s s' _; exact .diverge
  | succ f ih =>
    intro d s s' hs
    unfold long
    refine Sim.bind (sim_pivot F hs _) ?_
    rintro pv _ rfl
    refine Sim.bind (sim_partOne F hs pv) ?_
    rintro k _ rfl
    refine Sim.bind (sim_splitAt hs k) ?_
    rintro ⟨aq, ar⟩ ⟨aq', ar'⟩ ⟨h1, h2⟩
    have e1 := h1.len
    have e2 := h2.len
    dsimp only at h1 h2 e1 e2 ⊢
    rw [e1, e2]
    refine Sim.ite (fun _ => ?_) fun _ => ?_
    · have hr : Sim X Eq (if ar.len > F.maxRec then long F f d ar false else match d with
          | 0 => .overflow
          | d + 1 => short F f d ar : Prog V (VSp κ) Unit) (if ar.len > F.maxRec then long F f d ar' false else match d with
          | 0 => .overflow
          | d + 1 => short F f d ar') := by
        refine Sim.ite (fun _ => ih _ h2) fun _ => ?_
        cases d with
        | zero => exact .overflow
        | succ d => exact sim_short F _ _ h2
      refine Sim.ite (fun _ => ?_) fun _ => ?_
      · cases d with
        | zero => exact .overflow
        | succ d => exact Sim.bind (sim_short F f d h1) fun _ _ _ => hr
      · exact Sim.bind (sim_insertion _ _ h1) fun _ _ _ => hr
    · simp only [Bool.false_eq_true, if_false, pure_def, bind_def, Prog.bind, if_true]
      cases d with
      | zero => exact .overflow
      | succ d => exact Sim.bind (ih d h1) fun _ _ _ => ih _ h2

theorem sim_sortV (d : Nat) {s s' : Slice} (hs : SR X s s') (hB : X.B ≤ 1 ∧ X.B' ≤ 1 ∨ s.len < 2 * (F.maxRec + 1)) :
    Sim X Eq (sortV F d s : Prog V (VSp κ) Unit) (sortV F d s') := by
  have hl := hs.len
  have h : Sim X Eq (if s.len > F.maxRec then long F s.len d s false
    else if s.len > F.maxIns then short F s.len d s else insertion F.key F.lt s : Prog V (VSp κ) Unit)
    (if s.len > F.maxRec then long F s.len d s' false
    else if s.len > F.maxIns then short F s.len d s' else insertion F.key F.lt s') :=
    Sim.ite (fun _ => sim_long F _ _ hs) fun _ => Sim.ite (fun _ => sim_short F _ _ hs) fun _ => sim_insertion _ _ hs
  unfold sortV
  rw [hl]
  dsimp only
  refine Sim.ite (fun _ => h) fun h1 => ?_
  refine .maxGor fun a b ha hb => ?_
  rcases hB with hB | hB
  · have ea : a ≤ 1 := by omega
    have eb : b ≤ 1 := by omega
    simp only [Prog.bind, pure_def, bind_def, ea, eb, decide_true, if_true]
    exact h
  · exact absurd hB h1

theorem sim_nanToEnd {s s' : Slice} (hs : SR X s s') :
    Sim X (fun t t' => SR X t t' ∧ t.len ≤ s.len) (nanToEnd s : Prog Cell Sp Slice) (nanToEnd s') := by
  have hl := hs.len
  unfold nanToEnd
  rw [hl]
  refine Sim.bind (R := Eq) (Sim.loop (S := Eq) ?_ _ rfl) ?_
  · rintro ⟨l, h⟩ _ rfl
    simu
  · rintro h _ rfl
    exact Sim.sub hs _ _

theorem sim_nanToStart {s s' : Slice} (hs : SR X s s') :
    Sim X (fun t t' => SR X t t' ∧ t.len ≤ s.len) (nanToStart s : Prog Cell Sp Slice) (nanToStart s') := by
  have hl := hs.len
  unfold nanToStart
  rw [hl]
  refine Sim.bind (R := Eq) (Sim.loop (S := Eq) ?_ _ rfl) ?_
  · rintro ⟨l, h⟩ _ rfl
    simu
  · rintro h _ rfl
    exact Sim.sub hs _ _

theorem sim_sortOf (C : Conf) (id : FamId) {s s' : Slice} (hs : SR X s s')
    (hB : X.B ≤ 1 ∧ X.B' ≤ 1 ∨ s.len < 2 * ((fam C id).maxRec + 1)) : Sim X Eq (sortOf C id s) (sortOf C id s') := by
  unfold sortOf
  refine Sim.ite (fun _ => ?_) fun _ => sim_sortV _ _ hs hB
  dsimp only
  refine Sim.ite (fun _ => ?_) fun _ => Sim.ite (fun _ => ?_) fun _ => sim_sortV _ _ hs hB
  · exact Sim.bind (sim_nanToEnd hs) fun t t' ht => sim_sortV _ _ ht.1 (hB.imp_right fun h => by have := ht.2; omega)
  · exact Sim.bind (sim_nanToStart hs) fun t t' ht => sim_sortV _ _ ht.1 (hB.imp_right fun h => by have := ht.2; omega)

/-! ## Sort -/

theorem Sim.lsw {s s' : Slice} (hs : SR X s s') (hL : X.L) (i k r q : Int) :
    Sim X Eq (Lesswap.call s i k r q : Prog V Sp Bool) (Lesswap.call s' i k r q) := by
  rw [call_documented, call_documented]
  unfold Sorty.lsw
  rw [hs.len]
  refine Sim.ite (fun _ => ?_) fun _ => .panic
  refine Sim.bindEq (Sim.rd hs _) fun x => Sim.bindEq (Sim.rd hs _) fun y => ?_
  refine Sim.bindEq (.less hL fun b => .ret rfl) fun b => ?_
  simu

variable {s s' : Slice} {C : Conf}

theorem sim_lswInner (hs : SR X s s') (hL : X.L) (b st h : Int) :
    Sim X Eq (lswInner s b st h : Prog V Sp Unit) (lswInner s' b st h) := by
  unfold lswInner
  rw [hs.len]
  refine Sim.loop (S := Eq) ?_ _ rfl
  rintro l _ rfl
  simu [exact Sim.lsw hs hL _ _ _ _]

theorem sim_lswInsertion (hs : SR X s s') (hL : X.L) (lo hi : Int) :
    Sim X Eq (lswInsertion s lo hi : Prog V Sp Unit) (lswInsertion s' lo hi) := by
  unfold lswInsertion
  rw [hs.len]
  refine Sim.loop (S := Eq) ?_ _ rfl
  rintro l _ rfl
  simu [exact sim_lswInner hs hL _ _ _]

theorem sim_lswPivot (hs : SR X s s') (hL : X.L) (ws : Nat) (lo hi : Int) (k : Nat) :
    Sim X Eq (lswPivot ws s lo hi k : Prog V Sp Int) (lswPivot ws s' lo hi k) := by
  unfold lswPivot
  dsimp only
  refine Sim.bindEq (Sim.loop (S := Eq) ?_ _ rfl) fun _ => ?_
  · rintro l _ rfl
    simu [exact sim_lswInner hs hL _ _ _]
  · simu [exact Sim.lsw hs hL _ _ _ _]

theorem sim_lswPartOne (hs : SR X s s') (hL : X.L) (l pv h : Int) :
    Sim X Eq (lswPartOne s l pv h : Prog V Sp Int) (lswPartOne s' l pv h) := by
  unfold lswPartOne
  rw [hs.len]
  refine Sim.loop (S := Eq) ?_ _ rfl
  rintro st _ rfl
  cases st <;> unfold lswPartOneStep <;> dsimp only <;> simu [exact Sim.lsw hs hL _ _ _ _]

theorem sim_lswShortPivot (hs : SR X s s') (hL : X.L) (lo hi : Int) :
    Sim X Eq (lswShortPivot s lo hi : Prog V Sp Int) (lswShortPivot s' lo hi) := by
  unfold lswShortPivot
  dsimp only
  simu [exact Sim.lsw hs hL _ _ _ _]

theorem sim_lswShort (hs : SR X s s') (hL : X.L) : ∀ (f d : Nat) (lo hi : Int),
    Sim X Eq (lswShort C s f d lo hi : Prog V Sp Unit) (lswShort C s' f d lo hi) := by
  intro f
  induction f with
  | zero => intro d lo hi; exact .diverge
  | succ f ih =>
    intro d lo hi
    unfold lswShort
    refine Sim.bindEq (sim_lswShortPivot hs hL _ _) fun pv => Sim.bindEq (sim_lswPartOne hs hL _ _ _) fun l => ?_
    generalize lswSplit lo hi l = x
    obtain ⟨l, h, lo, hi, n, no⟩ := x
    dsimp only
    refine Sim.ite (fun _ => ?_) fun _ => ?_
    · cases d with
      | zero => exact .overflow
      | succ d => exact Sim.bindEq (ih _ _ _) fun _ => ih _ _ _
    · refine Sim.bindEq (Sim.loop (S := Eq) ?_ _ rfl) fun b => Sim.ite (fun _ => ih _ _ _) fun _ => Sim.pure rfl
      rintro ⟨l, h⟩ _ rfl
      simu [exact sim_lswInsertion hs hL _ _]

theorem sim_lswLong (hs : SR X s s') (hL : X.L) : ∀ (f d : Nat) (lo hi : Int),
    Sim X Eq (lswLong C s f d lo hi false : Prog V LSp Unit) (lswLong C s' f d lo hi false) := by
  intro f
  induction f with
  | zero => intro d lo hi; exact .diverge
  | succ f ih =>
    intro d lo hi
    unfold lswLong
    refine Sim.bindEq (sim_lswPivot hs hL _ _ _ _) fun pv => Sim.bindEq (sim_lswPartOne hs hL _ _ _) fun l => ?_
    generalize lswSplit lo hi l = x
    obtain ⟨l, h, lo, hi, n, no⟩ := x
    dsimp only
    refine Sim.ite (fun _ => ?_) fun _ => ?_
    · have hr : Sim X Eq (if no ≥ C.maxLenRecFC then lswLong C s f d lo hi false else match d with
          | 0 => .overflow
          | d + 1 => lswShort C s f d lo hi : Prog V LSp Unit) (if no ≥ C.maxLenRecFC then lswLong C s' f d lo hi false else match d with
          | 0 => .overflow
          | d + 1 => lswShort C s' f d lo hi) := by
        refine Sim.ite (fun _ => ih _ _ _) fun _ => ?_
        cases d with
        | zero => exact .overflow
        | succ d => exact sim_lswShort hs hL _ _ _ _
      refine Sim.ite (fun _ => ?_) fun _ => ?_
      · cases d with
        | zero => exact .overflow
        | succ d => exact Sim.bindEq (sim_lswShort hs hL f d _ _) fun _ => hr
      · exact Sim.bindEq (sim_lswInsertion hs hL _ _) fun _ => hr
    · simp only [Bool.false_eq_true, if_false, pure_def, bind_def, Prog.bind, if_true]
      cases d with
      | zero => exact .overflow
      | succ d => exact Sim.bindEq (ih d _ _) fun _ => ih _ _ _

theorem sim_sortLsw (hs : SR X s s') (hL : X.L) (k : Int)
    (hB : X.B ≤ 1 ∧ X.B' ≤ 1 ∨ wrapInt C.wordSize (k - 1) ≤ 2 * C.maxLenRecFC) :
    Sim X Eq (SortLsw C k s : Prog V LSp Unit) (SortLsw C k s') := by
  unfold SortLsw
  dsimp only
  generalize wrapInt C.wordSize (k - 1) = n at hB ⊢
  have h : Sim X Eq (if n ≥ C.maxLenRecFC then lswLong C s (n + 1).toNat C.depth 0 n false
    else if n ≥ C.maxLenInsFC then lswShort C s (n + 1).toNat C.depth 0 n
    else if n > 0 then lswInsertion s 0 n
    else pure () : Prog V LSp Unit) (if n ≥ C.maxLenRecFC then lswLong C s' (n + 1).toNat C.depth 0 n false
    else if n ≥ C.maxLenInsFC then lswShort C s' (n + 1).toNat C.depth 0 n
    else if n > 0 then lswInsertion s' 0 n
    else pure ()) :=
    Sim.ite (fun _ => sim_lswLong hs hL _ _ _ _) fun _ => Sim.ite (fun _ => sim_lswShort hs hL _ _ _ _) fun _ =>
      Sim.ite (fun _ => sim_lswInsertion hs hL _ _) fun _ => Sim.pure rfl
  refine Sim.ite (fun _ => h) fun h1 => ?_
  refine .maxGor fun a b ha hb => ?_
  rcases hB with hB | hB
  · have ea : a ≤ 1 := by omega
    have eb : b ≤ 1 := by omega
    simp only [Prog.bind, pure_def, bind_def, ea, eb, decide_true, if_true]
    exact h
  · exact absurd hB h1

end Sorty
