import Verif.Logic.Calm
import Verif.Model.Lsw

/-! # Once MaxGor is 1, the goroutines of a call start few more -/

namespace Sorty

open Prog

variable {V κ Sp : Type} {C : Conf} {s : Slice}

theorem plain_pure {α : Type} (a : α) : (pure a : Prog V Sp α).Plain := .ret a

theorem plain_bind {α β : Type} {p : Prog V Sp α} {f : α → Prog V Sp β} (h : p.Plain) (hf : ∀ a, (f a).Plain) : (p >>= f).Plain := h.bind hf

theorem plain_rd (s : Slice) (i : Int) : (s.rd i : Prog V Sp V).Plain := by
  unfold Slice.rd
  split_ifs
  · exact .read _ _ fun v => .ret v
  · exact .panic

theorem plain_wr (s : Slice) (i : Int) (v : V) : (s.wr i v : Prog V Sp Unit).Plain := by
  unfold Slice.wr
  split_ifs
  · exact .write _ _ _ (.ret _)
  · exact .panic

theorem plain_sub (s : Slice) (i j : Int) : (s.sub i j : Prog V Sp Slice).Plain := by
  unfold Slice.sub
  split_ifs
  · exact .ret _
  · exact .panic

theorem plain_addrNe (s t : Slice) : (s.addrNe t : Prog V Sp Bool).Plain := by
  unfold Slice.addrNe
  split_ifs
  · exact .ret _
  · exact .panic

theorem plain_less (i j : Nat) (x y : V) : (Prog.less i j x y .ret : Prog V Sp Bool).Plain := .less _ _ _ _ _ fun b => .ret b

/-- one structural step -/
macro "plain_step" : tactic => `(tactic| first
  | exact plain_pure _ | exact Prog.Plain.ret _ | exact Prog.Plain.panic | exact Prog.Plain.overflow | exact Prog.Plain.diverge
  | exact plain_rd _ _ | exact plain_wr _ _ _ | exact plain_sub _ _ _ | exact plain_addrNe _ _ | exact plain_less _ _ _ _ | assumption
  | (with_reducible refine Prog.Plain.loop (fun _ => ?_) _ _) | (with_reducible refine plain_bind ?_ fun _ => ?_)
  | (dsimp only) | (split))

theorem plain_swap (s : Slice) (i j : Int) : (s.swap i j : Prog V Sp Unit).Plain := by
  unfold Slice.swap
  repeat plain_step

theorem plain_insertInner (key : V → κ) (lt : κ → κ → Bool) (s : Slice) (h : Int) (v : V) :
    (insertInner key lt s h v : Prog V Sp Unit).Plain := by
  unfold insertInner
  repeat plain_step

theorem plain_insertion (key : V → κ) (lt : κ → κ → Bool) (s : Slice) : (insertion key lt s : Prog V Sp Unit).Plain := by
  unfold insertion
  repeat first | exact plain_insertInner _ _ _ _ _ | plain_step

variable (F : Fam V κ)

theorem plain_pivot (s : Slice) (n : Nat) : (pivot F s n : Prog V Sp κ).Plain := by
  unfold pivot
  repeat plain_step

theorem plain_partOne (s : Slice) (pv : κ) : (partOne F s pv : Prog V Sp Int).Plain := by
  unfold partOne
  refine Prog.Plain.loop (fun st => ?_) _ _
  cases st <;> simp only [partOneStep] <;> repeat first | exact plain_swap _ _ _ | plain_step

theorem plain_partTwo (s : Slice) (l h : Int) (pv : κ) : (partTwo F s l h pv : Prog V Sp Int).Plain := by
  unfold partTwo
  dsimp only
  split_ifs
  · exact .ret _
  · refine Prog.Plain.loop (fun st => ?_) _ _
    cases st <;> simp only [partTwoStep] <;> repeat first | exact plain_swap _ _ _ | plain_step

theorem plain_gapLow (s : Slice) (pv : κ) (r k : Int) : (gapLow F s pv r k : Prog V Sp Int).Plain := by
  unfold gapLow
  repeat first | exact plain_swap _ _ _ | plain_step

theorem plain_gapHigh (s : Slice) (pv : κ) (r k : Int) : (gapHigh F s pv r k : Prog V Sp Int).Plain := by
  unfold gapHigh
  repeat first | exact plain_swap _ _ _ | plain_step

theorem plain_shortPivot (s : Slice) : (shortPivot F s : Prog V Sp κ).Plain := by
  unfold shortPivot
  split
  · unfold shortPivot4
    repeat plain_step
  · unfold shortPivot3
    repeat plain_step

theorem plain_splitAt (s : Slice) (k : Int) : (splitAt s k : Prog V Sp (Slice × Slice)).Plain := by
  unfold splitAt
  repeat plain_step

theorem plain_short : ∀ (f d : Nat) (ar : Slice), (short F f d ar : Prog V Sp Unit).Plain
  | 0, _, _ => by rw [short]; exact .diverge
  | f + 1, d, ar => by
    have ih := fun d ar => plain_short f d ar
    rw [short]
    repeat first | exact ih _ _ | exact plain_shortPivot F _ | exact plain_partOne F _ _ | exact plain_splitAt _ _ | exact plain_insertion _ _ _ | plain_step

theorem calm_gorFull {α : Type} {f : Bool → Prog V Sp α} {n : Nat} (h : (f true).Calm n) : (gorFull.bind f).Calm n := by
  intro mg hmg x hx
  have e : decide (x ≥ mg) = true := by simp; omega
  show (f (decide (x ≥ mg))).Calm n
  rwa [e]

theorem alw_gorFull {α : Type} {f : Bool → Prog V Sp α} {n : Nat} (h : ∀ b, (f b).Alw n) : (gorFull.bind f).Alw n :=
  ⟨calm_gorFull (h true).calm, fun _ => ⟨fun _ _ => (h _).calm, fun _ => h _⟩⟩

theorem calm_long : ∀ (f d : Nat) (ar : Slice) (sv : Bool), (long F f d ar sv : Prog V (VSp κ) Unit).Calm 0
  | 0, _, _, _ => by rw [long]; trivial
  | f + 1, d, ar, sv => by
    have ih := fun d ar sv => calm_long f d ar sv
    rw [long]
    refine (plain_pivot F _ _).calm_bind fun pv => (plain_partOne F _ _).calm_bind fun k => (plain_splitAt _ _).calm_bind fun x => ?_
    dsimp only
    split
    · have h2 : (if x.2.len > F.maxRec then long F f d x.2 sv else match d with
          | 0 => .overflow
          | d + 1 => short F f d x.2 : Prog V (VSp κ) Unit).Calm 0 := by
        split
        · exact ih _ _ _
        · refine Prog.Plain.calm ?_ _
          repeat first | exact plain_short F _ _ _ | plain_step
      split
      · cases d
        · trivial
        · exact (plain_short F _ _ _).calm_bind fun _ => h2
      · exact (plain_insertion _ _ _).calm_bind fun _ => h2
    · have h2 : (match d with
          | 0 => (.overflow : Prog V (VSp κ) Unit) >>= fun _ => long F f d x.2 sv
          | d' + 1 => long F f d' x.1 sv >>= fun _ => long F f d x.2 sv).Calm 0 := by
        cases d
        · trivial
        · exact Prog.Calm.bind (n := 0) (k := 0) (ih _ _ _) fun _ => ih _ _ _
      cases sv
      · exact h2
      · exact calm_gorFull h2

theorem alw_long : ∀ (f d : Nat) (ar : Slice) (sv : Bool), (long F f d ar sv : Prog V (VSp κ) Unit).Alw 1
  | 0, _, _, _ => by rw [long]; trivial
  | f + 1, d, ar, sv => by
    have ih := fun d ar sv => alw_long f d ar sv
    rw [long]
    refine (plain_pivot F _ _).alw_bind fun pv => (plain_partOne F _ _).alw_bind fun k => (plain_splitAt _ _).alw_bind fun x => ?_
    dsimp only
    split
    · have h2 : (if x.2.len > F.maxRec then long F f d x.2 sv else match d with
          | 0 => .overflow
          | d + 1 => short F f d x.2 : Prog V (VSp κ) Unit).Alw 1 := by
        split
        · exact ih _ _ _
        · refine Prog.Plain.alw ?_ _
          repeat first | exact plain_short F _ _ _ | plain_step
      split
      · cases d
        · trivial
        · exact (plain_short F _ _ _).alw_bind fun _ => h2
      · exact (plain_insertion _ _ _).alw_bind fun _ => h2
    · have h2 : (match d with
          | 0 => (.overflow : Prog V (VSp κ) Unit) >>= fun _ => long F f d x.2 sv
          | d' + 1 => long F f d' x.1 sv >>= fun _ => long F f d x.2 sv).Alw 1 := by
        cases d
        · trivial
        · exact Prog.Alw.bind (n := 1) (k := 0) (ih _ _ _) (fun _ => calm_long F _ _ _ _) fun _ => ih _ _ _
      cases sv
      · exact h2
      · refine alw_gorFull fun b => ?_
        cases b
        · exact ⟨fun _ => calm_long F _ _ _ _, fun _ => ⟨calm_long F _ _ _ _, ih _ _ _⟩⟩
        · exact h2

theorem alw_fin (b : Prog V Sp Unit) (n : Nat) (hb : b.Alw n) : ((Prog.decGor .ret).bind fun x => if x = 0 then b else pure ()).Alw n := by
  refine ⟨fun x => ?_, fun x => ?_⟩
  · show (if x = 0 then b else pure ()).Calm n
    split
    · exact hb.calm
    · trivial
  · show (if x = 0 then b else pure ()).Alw n
    split
    · exact hb
    · trivial

theorem calm_body (d : Nat) (sp : VSp κ) : (vbody F d sp : Prog V (VSp κ) Unit).Calm 0 := by
  cases sp with
  | part ar pv => exact (plain_partOne F _ _).calm_bind fun k => trivial
  | long ar f => exact Prog.Calm.bind (n := 0) (k := 0) (calm_long F _ _ _ _) fun _ => (alw_fin (.send 0 (.ret ())) 0 ⟨trivial, trivial⟩).calm

theorem alw_body (d : Nat) (sp : VSp κ) : (vbody F d sp : Prog V (VSp κ) Unit).Alw 1 := by
  cases sp with
  | part ar pv => exact (plain_partOne F _ _).alw_bind fun k => ⟨trivial, trivial⟩
  | long ar f =>
    exact Prog.Alw.bind (n := 1) (k := 0) (alw_long F _ _ _ _) (fun _ => (alw_fin (.send 0 (.ret ())) 0 ⟨trivial, trivial⟩).calm)
      fun _ => alw_fin _ 1 ⟨trivial, trivial⟩

theorem alw_partCon (s : Slice) : (partCon F s : Prog V (VSp κ) Int).Alw 1 := by
  unfold partCon
  refine (plain_pivot F _ _).alw_bind fun pv => (plain_sub _ _ _).alw_bind fun half => ?_
  have hg : ∀ r k : Int, (if r < (s.len : Int) / 2 then gapLow F s pv r k else gapHigh F s pv r k : Prog V (VSp κ) Int).Plain := by
    intro r k
    split
    · exact plain_gapLow F _ _ _ _
    · exact plain_gapHigh F _ _ _ _
  have h1 : ∀ n : Nat, ((partTwo F s ((s.len : Int) / 2 / 2) (meanI ((s.len : Int) / 2) s.len) pv).bind fun r => (Prog.recv .ret).bind fun v =>
      if r < (s.len : Int) / 2 then gapLow F s pv r ((s.len : Int) / 2 / 2 + v) else gapHigh F s pv r ((s.len : Int) / 2 / 2 + v) : Prog V (VSp κ) Int).Alw n :=
    fun n => (plain_partTwo F _ _ _ _).alw_bind fun r => ⟨fun v => (hg _ _).calm n, fun v => (hg _ _).alw n⟩
  exact ⟨(h1 0).calm, h1 1⟩

theorem alw_sortLoop (d : Nat) : ∀ (f : Nat) (ar : Slice), (sortLoop F d f ar : Prog V (VSp κ) Unit).Alw 2
  | 0, _ => by rw [sortLoop]; trivial
  | f + 1, ar => by
    have ih := fun ar => alw_sortLoop d f ar
    rw [sortLoop]
    -- the end of the caller
    have hend : ∀ ar : Slice, ((long F f d ar true).bind fun _ => (Prog.decGor .ret).bind fun n =>
        if n ≠ 0 then (Prog.recv .ret : Prog V (VSp κ) Int).bind fun _ => pure () else pure () : Prog V (VSp κ) Unit).Calm 0 ∧
        ((long F f d ar true).bind fun _ => (Prog.decGor .ret).bind fun n =>
        if n ≠ 0 then (Prog.recv .ret : Prog V (VSp κ) Int).bind fun _ => pure () else pure () : Prog V (VSp κ) Unit).Alw 1 := by
      intro ar
      have h : ∀ n : Nat, ((Prog.decGor .ret).bind fun x => if x ≠ 0 then (Prog.recv .ret : Prog V (VSp κ) Int).bind fun _ => pure ()
          else pure () : Prog V (VSp κ) Unit).Alw n := by
        intro n
        refine ⟨fun x => ?_, fun x => ?_⟩
        · show (if x ≠ 0 then (Prog.recv .ret : Prog V (VSp κ) Int).bind fun _ => pure () else pure ()).Calm n
          split
          · exact fun v => trivial
          · trivial
        · show (if x ≠ 0 then (Prog.recv .ret : Prog V (VSp κ) Int).bind fun _ => pure () else pure ()).Alw n
          split
          · exact ⟨fun v => trivial, fun v => trivial⟩
          · trivial
      exact ⟨Prog.Calm.bind (n := 0) (k := 0) (calm_long F _ _ _ _) fun _ => (h 0).calm,
        Prog.Alw.bind (n := 1) (k := 0) (alw_long F _ _ _ _) (fun _ => (h 0).calm) fun _ => h 1⟩
    -- from the check on
    have hchk : ∀ ar : Slice, ∀ jp : Bool → Prog V (VSp κ) Unit, (jp = fun stop =>
        if stop = true then (long F f d ar true).bind fun _ => (Prog.decGor .ret).bind fun n =>
        if n ≠ 0 then (Prog.recv .ret : Prog V (VSp κ) Int).bind fun _ => pure () else pure ()
        else sortLoop F d f ar) →
        (if ar.len < 2 * (F.maxRec + 1) then (pure true : Prog V (VSp κ) Bool).bind jp else gorFull.bind jp).Calm 0 ∧
        (if ar.len < 2 * (F.maxRec + 1) then (pure true : Prog V (VSp κ) Bool).bind jp else gorFull.bind jp).Alw 2 := by
      rintro ar jp rfl
      split
      · exact ⟨(hend ar).1, (hend ar).2.mono (by omega)⟩
      · refine ⟨calm_gorFull (hend ar).1, alw_gorFull fun b => ?_⟩
        cases b
        · exact ih ar
        · exact (hend ar).2.mono (by omega)
    refine Prog.Alw.bind (n := 1) (k := 1) (alw_partCon F ar) (fun k => ?_) fun k => ?_
    · refine (plain_splitAt _ _).calm_bind fun x => ?_
      dsimp only
      have h := (hchk x.2 _ rfl).1
      split
      · exact fun _ => h
      · split
        · exact (plain_short F _ _ _).calm_bind fun _ => h.mono (by omega)
        · exact (plain_insertion _ _ _).calm_bind fun _ => h.mono (by omega)
    · refine (plain_splitAt _ _).alw_bind fun x => ?_
      dsimp only
      have h := hchk x.2 _ rfl
      split
      · exact ⟨fun _ => h.1.mono (by omega), fun _ => ⟨h.1.mono (by omega), h.2⟩⟩
      · split
        · exact (plain_short F _ _ _).alw_bind fun _ => h.2
        · exact (plain_insertion _ _ _).alw_bind fun _ => h.2

theorem alw_sortV (d : Nat) (ar : Slice) : (sortV F d ar : Prog V (VSp κ) Unit).Alw 2 := by
  unfold sortV
  have h : ∀ b : Bool, (if b = true then (if ar.len > F.maxRec then long F ar.len d ar false
      else if ar.len > F.maxIns then short F ar.len d ar else insertion F.key F.lt ar)
      else (Prog.mkSync (.ret ())).bind fun _ => sortLoop F d ar.len ar : Prog V (VSp κ) Unit).Alw 2 := by
    intro b
    cases b
    · exact ⟨(alw_sortLoop F d _ _).calm, alw_sortLoop F d _ _⟩
    · rw [if_pos rfl]
      split
      · exact (alw_long F _ _ _ _).mono (by omega)
      · refine Prog.Plain.alw ?_ _
        repeat first | exact plain_short F _ _ _ | exact plain_insertion _ _ _ | plain_step
  dsimp only
  split
  · exact h true
  · exact ⟨fun _ _ => (h _).calm, fun _ => h _⟩

theorem plain_nanToEnd (s : Slice) : (nanToEnd s : Prog Cell Sp Slice).Plain := by
  unfold nanToEnd
  repeat plain_step

theorem plain_nanToStart (s : Slice) : (nanToStart s : Prog Cell Sp Slice).Plain := by
  unfold nanToStart
  repeat plain_step

theorem alw_sortOf (C : Conf) (id : FamId) (s : Slice) : (sortOf C id s).Alw 2 := by
  unfold sortOf
  split
  · dsimp only
    split
    · exact (plain_nanToEnd _).alw_bind fun _ => alw_sortV _ _ _
    · split
      · exact (plain_nanToStart _).alw_bind fun _ => alw_sortV _ _ _
      · exact alw_sortV _ _ _
  · exact alw_sortV _ _ _

/-! ## Sort -/

theorem plain_lsw (s : Slice) (i k r q : Int) : (lsw s i k r q : Prog V Sp Bool).Plain := by
  unfold lsw
  repeat first | exact plain_swap _ _ _ | plain_step

theorem plain_lswInner (bound step h : Int) : (lswInner s bound step h : Prog V Sp Unit).Plain := by
  unfold lswInner
  repeat first | exact plain_lsw _ _ _ _ _ | plain_step

theorem plain_lswInsertion (lo hi : Int) : (lswInsertion s lo hi : Prog V Sp Unit).Plain := by
  unfold lswInsertion
  repeat first | exact plain_lswInner _ _ _ | plain_step

theorem plain_lswPivot (ws : Nat) (lo hi : Int) (n : Nat) : (lswPivot ws s lo hi n : Prog V Sp Int).Plain := by
  unfold lswPivot
  repeat first | exact plain_lswInner _ _ _ | exact plain_lsw _ _ _ _ _ | plain_step

theorem plain_lswPartOne (l pv h : Int) : (lswPartOne s l pv h : Prog V Sp Int).Plain := by
  unfold lswPartOne
  refine Prog.Plain.loop (fun st => ?_) _ _
  cases st <;> simp only [lswPartOneStep] <;> repeat first | exact plain_lsw _ _ _ _ _ | plain_step

theorem plain_lswPartTwo (lo l pv h hi : Int) : (lswPartTwo s lo l pv h hi : Prog V Sp Int).Plain := by
  unfold lswPartTwo
  refine Prog.Plain.loop (fun st => ?_) _ _
  cases st <;> simp only [lswPartTwoStep] <;> repeat first | exact plain_lsw _ _ _ _ _ | plain_step

theorem plain_lswGapLow (lo r k pv : Int) : (lswGapLow s lo r k pv : Prog V Sp Int).Plain := by
  unfold lswGapLow
  repeat first | exact plain_lsw _ _ _ _ _ | plain_step

theorem plain_lswGapHigh (hi r k pv : Int) : (lswGapHigh s hi r k pv : Prog V Sp Int).Plain := by
  unfold lswGapHigh
  repeat first | exact plain_lsw _ _ _ _ _ | plain_step

theorem plain_lswShortPivot (lo hi : Int) : (lswShortPivot s lo hi : Prog V Sp Int).Plain := by
  unfold lswShortPivot
  repeat first | exact plain_lsw _ _ _ _ _ | plain_step

theorem plain_lswShort : ∀ (f d : Nat) (lo hi : Int), (lswShort C s f d lo hi : Prog V Sp Unit).Plain
  | 0, _, _, _ => by rw [lswShort]; exact .diverge
  | f + 1, d, lo, hi => by
    have ih := fun d lo hi => plain_lswShort f d lo hi
    rw [lswShort]
    repeat first | exact ih _ _ _ | exact plain_lswShortPivot _ _ | exact plain_lswPartOne _ _ _ | exact plain_lswInsertion _ _ | plain_step

theorem calm_lswLong : ∀ (f d : Nat) (lo hi : Int) (sv : Bool), (lswLong C s f d lo hi sv : Prog V LSp Unit).Calm 0
  | 0, _, _, _, _ => by rw [lswLong]; trivial
  | f + 1, d, lo, hi, sv => by
    have ih := fun d lo hi sv => calm_lswLong f d lo hi sv
    rw [lswLong]
    refine (plain_lswPivot _ _ _ _).calm_bind fun pv => (plain_lswPartOne _ _ _).calm_bind fun k => ?_
    generalize lswSplit lo hi k = x
    obtain ⟨l, h, lo, hi, n, no⟩ := x
    dsimp only
    split
    · have h2 : (if no ≥ C.maxLenRecFC then lswLong C s f d lo hi sv else match d with
          | 0 => .overflow
          | d + 1 => lswShort C s f d lo hi : Prog V LSp Unit).Calm 0 := by
        split
        · exact ih _ _ _ _
        · refine Prog.Plain.calm ?_ _
          repeat first | exact plain_lswShort _ _ _ _ | plain_step
      split
      · cases d
        · trivial
        · exact (plain_lswShort _ _ _ _).calm_bind fun _ => h2
      · exact (plain_lswInsertion _ _).calm_bind fun _ => h2
    · have h2 : (match d with
          | 0 => (.overflow : Prog V LSp Unit) >>= fun _ => lswLong C s f d lo hi sv
          | d' + 1 => lswLong C s f d' l h sv >>= fun _ => lswLong C s f d lo hi sv).Calm 0 := by
        cases d
        · trivial
        · exact Prog.Calm.bind (n := 0) (k := 0) (ih _ _ _ _) fun _ => ih _ _ _ _
      cases sv
      · exact h2
      · exact calm_gorFull h2

theorem alw_lswLong : ∀ (f d : Nat) (lo hi : Int) (sv : Bool), (lswLong C s f d lo hi sv : Prog V LSp Unit).Alw 1
  | 0, _, _, _, _ => by rw [lswLong]; trivial
  | f + 1, d, lo, hi, sv => by
    have ih := fun d lo hi sv => alw_lswLong f d lo hi sv
    rw [lswLong]
    refine (plain_lswPivot _ _ _ _).alw_bind fun pv => (plain_lswPartOne _ _ _).alw_bind fun k => ?_
    generalize lswSplit lo hi k = x
    obtain ⟨l, h, lo, hi, n, no⟩ := x
    dsimp only
    split
    · have h2 : (if no ≥ C.maxLenRecFC then lswLong C s f d lo hi sv else match d with
          | 0 => .overflow
          | d + 1 => lswShort C s f d lo hi : Prog V LSp Unit).Alw 1 := by
        split
        · exact ih _ _ _ _
        · refine Prog.Plain.alw ?_ _
          repeat first | exact plain_lswShort _ _ _ _ | plain_step
      split
      · cases d
        · trivial
        · exact (plain_lswShort _ _ _ _).alw_bind fun _ => h2
      · exact (plain_lswInsertion _ _).alw_bind fun _ => h2
    · have h2 : (match d with
          | 0 => (.overflow : Prog V LSp Unit) >>= fun _ => lswLong C s f d lo hi sv
          | d' + 1 => lswLong C s f d' l h sv >>= fun _ => lswLong C s f d lo hi sv).Alw 1 := by
        cases d
        · trivial
        · exact Prog.Alw.bind (n := 1) (k := 0) (ih _ _ _ _) (fun _ => calm_lswLong _ _ _ _ _) fun _ => ih _ _ _ _
      cases sv
      · exact h2
      · refine alw_gorFull fun b => ?_
        cases b
        · exact ⟨fun _ => calm_lswLong _ _ _ _ _, fun _ => ⟨calm_lswLong _ _ _ _ _, ih _ _ _ _⟩⟩
        · exact h2

theorem calm_lswBody (sp : LSp) : (lswBody C s sp : Prog V LSp Unit).Calm 0 := by
  cases sp with
  | part l pv h => exact (plain_lswPartOne _ _ _).calm_bind fun k => trivial
  | long lo hi f => exact Prog.Calm.bind (n := 0) (k := 0) (calm_lswLong _ _ _ _ _) fun _ => (alw_fin (.send 0 (.ret ())) 0 ⟨trivial, trivial⟩).calm

theorem alw_lswBody (sp : LSp) : (lswBody C s sp : Prog V LSp Unit).Alw 1 := by
  cases sp with
  | part l pv h => exact (plain_lswPartOne _ _ _).alw_bind fun k => ⟨trivial, trivial⟩
  | long lo hi f =>
    exact Prog.Alw.bind (n := 1) (k := 0) (alw_lswLong _ _ _ _ _) (fun _ => (alw_fin (.send 0 (.ret ())) 0 ⟨trivial, trivial⟩).calm)
      fun _ => alw_fin _ 1 ⟨trivial, trivial⟩

theorem alw_lswPartCon (ws : Nat) (lo hi : Int) : (lswPartCon ws s lo hi : Prog V LSp Int).Alw 1 := by
  unfold lswPartCon
  refine (plain_lswPivot _ _ _ _).alw_bind fun pv => ?_
  dsimp only
  have hg : ∀ r k : Int, (if r < pv then lswGapLow s (lo + 1) r k pv else lswGapHigh s (hi - 1) r k pv : Prog V LSp Int).Plain := by
    intro r k
    split
    · exact plain_lswGapLow _ _ _ _
    · exact plain_lswGapHigh _ _ _ _
  have h1 : ∀ n : Nat, ((lswPartTwo s (lo + 1) (meanI (lo + 1) pv) pv (meanI pv (hi - 1)) (hi - 1)).bind fun r => (Prog.recv .ret).bind fun k =>
      if r < pv then lswGapLow s (lo + 1) r k pv else lswGapHigh s (hi - 1) r k pv : Prog V LSp Int).Alw n :=
    fun n => (plain_lswPartTwo _ _ _ _ _).alw_bind fun r => ⟨fun v => (hg _ _).calm n, fun v => (hg _ _).alw n⟩
  exact ⟨(h1 0).calm, h1 1⟩

theorem alw_lswSortLoop : ∀ (f : Nat) (lo hi : Int), (lswSortLoop C s f lo hi : Prog V LSp Unit).Alw 2
  | 0, _, _ => by rw [lswSortLoop]; trivial
  | f + 1, lo, hi => by
    have ih := fun lo hi => alw_lswSortLoop f lo hi
    rw [lswSortLoop]
    have hend : ∀ lo hi : Int, ((lswLong C s f C.depth lo hi true).bind fun _ => (Prog.decGor .ret).bind fun n =>
        if n ≠ 0 then (Prog.recv .ret : Prog V LSp Int).bind fun _ => pure () else pure () : Prog V LSp Unit).Calm 0 ∧
        ((lswLong C s f C.depth lo hi true).bind fun _ => (Prog.decGor .ret).bind fun n =>
        if n ≠ 0 then (Prog.recv .ret : Prog V LSp Int).bind fun _ => pure () else pure () : Prog V LSp Unit).Alw 1 := by
      intro lo hi
      have h : ∀ n : Nat, ((Prog.decGor .ret).bind fun x => if x ≠ 0 then (Prog.recv .ret : Prog V LSp Int).bind fun _ => pure ()
          else pure () : Prog V LSp Unit).Alw n := by
        intro n
        refine ⟨fun x => ?_, fun x => ?_⟩
        · show (if x ≠ 0 then (Prog.recv .ret : Prog V LSp Int).bind fun _ => pure () else pure ()).Calm n
          split
          · exact fun v => trivial
          · trivial
        · show (if x ≠ 0 then (Prog.recv .ret : Prog V LSp Int).bind fun _ => pure () else pure ()).Alw n
          split
          · exact ⟨fun v => trivial, fun v => trivial⟩
          · trivial
      exact ⟨Prog.Calm.bind (n := 0) (k := 0) (calm_lswLong _ _ _ _ _) fun _ => (h 0).calm,
        Prog.Alw.bind (n := 1) (k := 0) (alw_lswLong _ _ _ _ _) (fun _ => (h 0).calm) fun _ => h 1⟩
    have hchk : ∀ (lo hi no : Int), ∀ jp : Bool → Prog V LSp Unit, (jp = fun stop =>
        if stop = true then (lswLong C s f C.depth lo hi true).bind fun _ => (Prog.decGor .ret).bind fun n =>
        if n ≠ 0 then (Prog.recv .ret : Prog V LSp Int).bind fun _ => pure () else pure ()
        else lswSortLoop C s f lo hi) →
        (if no ≤ 2 * C.maxLenRecFC then (pure true : Prog V LSp Bool).bind jp else gorFull.bind jp).Calm 0 ∧
        (if no ≤ 2 * C.maxLenRecFC then (pure true : Prog V LSp Bool).bind jp else gorFull.bind jp).Alw 2 := by
      rintro lo hi no jp rfl
      split
      · exact ⟨(hend lo hi).1, (hend lo hi).2.mono (by omega)⟩
      · refine ⟨calm_gorFull (hend lo hi).1, alw_gorFull fun b => ?_⟩
        cases b
        · exact ih lo hi
        · exact (hend lo hi).2.mono (by omega)
    refine Prog.Alw.bind (n := 1) (k := 1) (alw_lswPartCon _ lo hi) (fun k => ?_) fun k => ?_
    · generalize lswSplit lo hi k = x
      obtain ⟨l, h, lo, hi, n, no⟩ := x
      dsimp only
      have hh := (hchk lo hi no _ rfl).1
      split
      · exact fun _ => hh
      · split
        · exact (plain_lswShort _ _ _ _).calm_bind fun _ => hh.mono (by omega)
        · exact (plain_lswInsertion _ _).calm_bind fun _ => hh.mono (by omega)
    · generalize lswSplit lo hi k = x
      obtain ⟨l, h, lo, hi, n, no⟩ := x
      dsimp only
      have hh := hchk lo hi no _ rfl
      split
      · exact ⟨fun _ => hh.1.mono (by omega), fun _ => ⟨hh.1.mono (by omega), hh.2⟩⟩
      · split
        · exact (plain_lswShort _ _ _ _).alw_bind fun _ => hh.2
        · exact (plain_lswInsertion _ _).alw_bind fun _ => hh.2

theorem alw_sortLsw (n : Int) : (SortLsw C n s : Prog V LSp Unit).Alw 2 := by
  unfold SortLsw
  dsimp only
  generalize wrapInt C.wordSize (n - 1) = n
  have h : ∀ b : Bool, (if b = true then (if n ≥ C.maxLenRecFC then lswLong C s (n + 1).toNat C.depth 0 n false
      else if n ≥ C.maxLenInsFC then lswShort C s (n + 1).toNat C.depth 0 n else if n > 0 then lswInsertion s 0 n else pure ())
      else (Prog.mkSync (.ret ())).bind fun _ => lswSortLoop C s (n + 1).toNat 0 n : Prog V LSp Unit).Alw 2 := by
    intro b
    cases b
    · exact ⟨(alw_lswSortLoop _ _ _).calm, alw_lswSortLoop _ _ _⟩
    · rw [if_pos rfl]
      split
      · exact (alw_lswLong _ _ _ _ _).mono (by omega)
      · refine Prog.Plain.alw ?_ _
        repeat first | exact plain_lswShort _ _ _ _ | exact plain_lswInsertion _ _ | plain_step
  split
  · exact h true
  · exact ⟨fun _ _ => (h _).calm, fun _ => h _⟩

end Sorty
