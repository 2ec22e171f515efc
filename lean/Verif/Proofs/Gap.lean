import Verif.Logic.Gap
import Verif.Model.Lsw

/-! # Few steps between two accesses or comparisons of the sorts -/

namespace Sorty

open Prog

variable {V κ Sp α β : Type} {K g c e : Nat} {acc : Bool}

theorem leaves_wrong {p : Prog V Sp α} (h : p = .panic ∨ p = .overflow ∨ p = .diverge) : p.Leaves acc K g c e := by
  rcases h with rfl | rfl | rfl <;> exact fun _ _ => trivial

theorem leaves_sub (s : Slice) (i j : Int) : (s.sub i j : Prog V Sp Slice).Leaves acc K g c c := by
  unfold Slice.sub
  split_ifs
  · exact leaves_pure le_rfl
  · exact fun _ _ => trivial

theorem leaves_addrNe (s t : Slice) : (s.addrNe t : Prog V Sp Bool).Leaves acc K g c c := by
  unfold Slice.addrNe
  split_ifs
  · exact leaves_pure le_rfl
  · exact fun _ _ => trivial

theorem leaves_gorFull : (gorFull : Prog V Sp Bool).Leaves acc K g (c + 2) c :=
  fun b hb => ⟨by omega, fun _ => ⟨by omega, fun _ => by show c ≤ b - 1 - 1; omega⟩⟩

theorem leaves_inc : (.incGor .ret : Prog V Sp Nat).Leaves acc K g (c + 1) c := fun b hb => ⟨by omega, fun _ => by show c ≤ b - 1; omega⟩

theorem leaves_dec : (.decGor .ret : Prog V Sp Nat).Leaves acc K g (c + 1) c := fun b hb => ⟨by omega, fun _ => by show c ≤ b - 1; omega⟩

theorem leaves_recv : (.recv .ret : Prog V Sp Int).Leaves acc K g (c + 1) c := fun b hb => ⟨by omega, fun _ => by show c ≤ b - 1; omega⟩

theorem leaves_maxGor : (.maxGor .ret : Prog V Sp Nat).Leaves acc K g (c + 1) c := fun b hb => ⟨by omega, fun _ => by show c ≤ b - 1; omega⟩

theorem leaves_mkSync : (.mkSync (.ret ()) : Prog V Sp Unit).Leaves acc K g (c + 1) c := fun b hb => ⟨by omega, by show c ≤ b - 1; omega⟩

theorem leaves_send (v : Int) : (.send v (.ret ()) : Prog V Sp Unit).Leaves acc K g (c + 1) c := fun b hb => ⟨by omega, by show c ≤ b - 1; omega⟩

theorem leaves_go (s : Sp) : (.go s (.ret ()) : Prog V Sp Unit).Leaves acc K g (c + 1 + g) c :=
  fun b hb => ⟨by omega, by show c ≤ b - (1 + g); omega⟩

/-! ## The type-specific sorts: a load or store sets the budget to 8, and a new goroutine gets 1 -/

theorem leaves_rd (hc : e ≤ K) (s : Slice) (i : Int) : (s.rd i : Prog V Sp V).Leaves true K g c e := by
  unfold Slice.rd
  split_ifs
  · exact fun _ _ => ⟨.inl rfl, fun _ => hc⟩
  · exact fun _ _ => trivial

theorem leaves_wr (hc : e ≤ K) (s : Slice) (i : Int) (v : V) : (s.wr i v : Prog V Sp Unit).Leaves true K g c e := by
  unfold Slice.wr
  split_ifs
  · exact fun _ _ => ⟨.inl rfl, hc⟩
  · exact fun _ _ => trivial

section
variable (hc : c ≤ K)
include hc

theorem leaves_swap (s : Slice) (i j : Int) : (s.swap i j : Prog V Sp Unit).Leaves true K g c c := by
  unfold Slice.swap
  exact (leaves_rd hc _ _).bind fun x => (leaves_rd hc _ _).bind fun y => (leaves_wr hc _ _ _).bind fun _ => leaves_wr hc _ _ _

theorem leaves_insertInner (key : V → κ) (lt : κ → κ → Bool) (s : Slice) (h : Int) (v : V) :
    (insertInner key lt s h v : Prog V Sp Unit).Leaves true K g c c := by
  unfold insertInner
  refine leaves_loop (fun l => (leaves_rd hc _ _).bind fun pre => ?_) _ _
  split
  · refine (leaves_wr hc _ _ _).bind fun _ => ?_
    dsimp only
    split
    · exact (leaves_wr hc _ _ _).bind fun _ => leaves_pure le_rfl
    · exact leaves_pure le_rfl
  · split
    · exact leaves_pure le_rfl
    · exact (leaves_wr hc _ _ _).bind fun _ => leaves_pure le_rfl

theorem leaves_insertion (key : V → κ) (lt : κ → κ → Bool) (s : Slice) : (insertion key lt s : Prog V Sp Unit).Leaves true K g c c := by
  unfold insertion
  refine leaves_loop (fun h => ?_) _ _
  split
  · exact (leaves_rd hc _ _).bind fun v => (leaves_insertInner hc _ _ _ _ _).bind fun _ => leaves_pure le_rfl
  · exact leaves_pure le_rfl

variable (F : Fam V κ)

omit hc in
/-- a pivot is chosen after at least one load -/
theorem leaves_pivot (s : Slice) (n : Nat) (hn : 0 < n) : (pivot F s n : Prog V Sp κ).Leaves true K g 0 K := by
  unfold pivot
  dsimp only
  refine Prog.Leaves.bind (d := K) ?_ fun smp => ?_
  · rw [loop]
    refine Prog.Leaves.bind (d := K) ?_ fun x => ?_
    · dsimp only
      rw [if_pos (by omega)]
      exact (leaves_rd le_rfl _ _).bind fun _ => leaves_pure le_rfl
    · cases x with
      | brk a => exact leaves_pure le_rfl
      | again st =>
        refine leaves_loop (fun st => ?_) _ _
        split
        · exact (leaves_rd le_rfl _ _).bind fun _ => leaves_pure le_rfl
        · exact leaves_pure le_rfl
  · split
    · exact fun _ _ => trivial
    · split <;> exact leaves_pure le_rfl

theorem leaves_partOne (s : Slice) (pv : κ) : (partOne F s pv : Prog V Sp Int).Leaves true K g c c := by
  unfold partOne
  refine leaves_loop (fun st => ?_) _ _
  cases st with
  | second l h =>
    dsimp only [partOneStep]
    split
    · exact leaves_pure le_rfl
    · refine (leaves_rd hc _ _).bind fun x => ?_
      split <;> exact leaves_pure le_rfl
  | swap l h => exact (leaves_swap hc _ _ _).bind fun _ => leaves_pure le_rfl
  | next l h => exact leaves_pure le_rfl
  | start l h =>
    dsimp only [partOneStep]
    split
    · exact leaves_pure le_rfl
    · refine (leaves_rd hc _ _).bind fun x => ?_
      split
      · refine (leaves_rd hc _ _).bind fun y => ?_
        split <;> exact leaves_pure le_rfl
      · exact leaves_pure le_rfl
  | scan l h =>
    dsimp only [partOneStep]
    refine (leaves_rd hc _ _).bind fun y => ?_
    split
    · exact leaves_pure le_rfl
    · split <;> exact leaves_pure le_rfl
  | last l h =>
    dsimp only [partOneStep]
    split
    · refine (leaves_rd hc _ _).bind fun x => ?_
      split <;> exact leaves_pure le_rfl
    · exact leaves_pure le_rfl

theorem leaves_partTwo (s : Slice) (l h : Int) (pv : κ) : (partTwo F s l h pv : Prog V Sp Int).Leaves true K g c c := by
  unfold partTwo
  dsimp only
  split
  · exact leaves_pure le_rfl
  refine leaves_loop (fun st => ?_) _ _
  cases st with
  | second l h =>
    dsimp only [partTwoStep]
    split
    · exact leaves_pure le_rfl
    · refine (leaves_rd hc _ _).bind fun x => ?_
      split <;> exact leaves_pure le_rfl
  | swap l h => exact (leaves_swap hc _ _ _).bind fun _ => leaves_pure le_rfl
  | next l h => exact leaves_pure le_rfl
  | start l h =>
    dsimp only [partTwoStep]
    split
    · exact leaves_pure le_rfl
    · split
      · exact leaves_pure le_rfl
      · refine (leaves_rd hc _ _).bind fun x => ?_
        split
        · refine (leaves_rd hc _ _).bind fun y => ?_
          split <;> exact leaves_pure le_rfl
        · exact leaves_pure le_rfl
  | scan l h =>
    dsimp only [partTwoStep]
    refine (leaves_rd hc _ _).bind fun y => ?_
    split
    · exact leaves_pure le_rfl
    · split <;> exact leaves_pure le_rfl

theorem leaves_gapLow (s : Slice) (pv : κ) (r k : Int) : (gapLow F s pv r k : Prog V Sp Int).Leaves true K g c c := by
  unfold gapLow
  refine leaves_loop (fun st => ?_) _ _
  dsimp only
  split
  · refine (leaves_rd hc _ _).bind fun x => ?_
    split
    · exact (leaves_swap hc _ _ _).bind fun _ => leaves_pure le_rfl
    · exact leaves_pure le_rfl
  · exact leaves_pure le_rfl

theorem leaves_gapHigh (s : Slice) (pv : κ) (r k : Int) : (gapHigh F s pv r k : Prog V Sp Int).Leaves true K g c c := by
  unfold gapHigh
  refine leaves_loop (fun st => ?_) _ _
  dsimp only
  split
  · refine (leaves_rd hc _ _).bind fun x => ?_
    split
    · exact (leaves_swap hc _ _ _).bind fun _ => leaves_pure le_rfl
    · exact leaves_pure le_rfl
  · exact leaves_pure le_rfl

theorem leaves_shortPivot (s : Slice) : (shortPivot F s : Prog V Sp κ).Leaves true K g c c := by
  unfold shortPivot
  split
  · exact (leaves_rd hc _ _).bind fun _ => (leaves_rd hc _ _).bind fun _ => (leaves_rd hc _ _).bind fun _ => (leaves_rd hc _ _).bind fun _ =>
      leaves_pure le_rfl
  · unfold shortPivot3
    refine (leaves_rd hc _ _).bind fun _ => (leaves_rd hc _ _).bind fun _ => (leaves_rd hc _ _).bind fun _ => ?_
    dsimp only
    repeat' split
    all_goals exact leaves_pure le_rfl

omit hc in
theorem leaves_splitAt (s : Slice) (k : Int) : (splitAt s k : Prog V Sp (Slice × Slice)).Leaves acc K g c c := by
  unfold splitAt
  split <;> exact (leaves_sub _ _ _).bind fun _ => (leaves_sub _ _ _).bind fun _ => leaves_pure le_rfl

theorem leaves_short : ∀ (f d : Nat) (s : Slice), (short F f d s : Prog V Sp Unit).Leaves true K g c c
  | 0, _, _ => by rw [short]; exact fun _ _ => trivial
  | f + 1, d, s => by
    have ih := fun d s => leaves_short f d s
    rw [short]
    refine (leaves_shortPivot hc F _).bind fun pv => (leaves_partOne hc F _ _).bind fun k => (leaves_splitAt _ _).bind fun t => ?_
    dsimp only
    split
    · cases d with
      | zero => exact fun _ _ => trivial
      | succ d => exact (ih _ _).bind fun _ => ih _ _
    · refine Prog.Leaves.bind (d := c) ?_ fun again => ?_
      · refine leaves_loop (fun t => (leaves_insertion hc _ _ _).bind fun _ => ?_) _ _
        split
        · exact leaves_pure le_rfl
        · refine (leaves_addrNe _ _).bind fun ne => ?_
          split <;> exact leaves_pure le_rfl
      · split
        · exact ih _ _
        · exact leaves_pure le_rfl

omit hc

theorem nLong_pos : 0 < F.nLong := by unfold Fam.nLong nsLong; split <;> omega
theorem nConc_pos : 0 < F.nConc := by unfold Fam.nConc nsConc; split <;> omega

theorem leaves_long (hK : 4 + g ≤ K) : ∀ (f d : Nat) (s : Slice) (sv : Bool), (long F f d s sv : Prog V (VSp κ) Unit).Leaves true K g 0 K
  | 0, _, _, _ => by rw [long]; exact fun _ _ => trivial
  | f + 1, d, s, sv => by
    have ih := fun d s sv => leaves_long hK f d s sv
    have ih' : ∀ d s sv, (long F f d s sv : Prog V (VSp κ) Unit).Leaves true K g K K := fun d s sv => (ih d s sv).weaken (Nat.zero_le _) le_rfl
    have hsh : ∀ d s, (match (motive := Nat → Prog V (VSp κ) Unit) d with | 0 => .overflow | d + 1 => short F f d s).Leaves true K g K K := by
      intro d s
      cases d with
      | zero => exact fun _ _ => trivial
      | succ d => exact leaves_short le_rfl F f d s
    rw [long]
    refine (leaves_pivot F _ _ (nLong_pos F)).bind fun pv => (leaves_partOne le_rfl F _ _).bind fun k => (leaves_splitAt _ _).bind fun t => ?_
    dsimp only
    split
    · have h2 : (if t.2.len > F.maxRec then long F f d t.2 sv else match d with
          | 0 => .overflow
          | d + 1 => short F f d t.2 : Prog V (VSp κ) Unit).Leaves true K g K K := by
        split
        · exact ih' _ _ _
        · exact hsh _ _
      split
      · cases d with
        | zero => exact fun _ _ => trivial
        | succ d => exact (leaves_short le_rfl F _ _ _).bind fun _ => h2
      · exact (leaves_insertion le_rfl _ _ _).bind fun _ => h2
    · have h2 : (match d with
          | 0 => (.overflow : Prog V (VSp κ) Unit) >>= fun _ => long F f d t.2 sv
          | d' + 1 => long F f d' t.1 sv >>= fun _ => long F f d t.2 sv).Leaves true K g 0 K := by
        cases d with
        | zero => exact fun _ _ => trivial
        | succ d => exact (ih _ _ _).bind fun _ => ih' _ _ _
      cases sv with
      | false => exact h2.weaken (Nat.zero_le _) le_rfl
      | true =>
        refine (leaves_gorFull (c := 2 + g)).weaken (by omega) le_rfl |>.bind fun full => ?_
        cases full with
        | true => exact h2.weaken (Nat.zero_le _) le_rfl
        | false =>
          exact ((leaves_inc (c := 1 + g)).weaken (by omega) le_rfl).bind fun _ =>
            ((leaves_go _ (c := 0)).weaken (by omega) le_rfl).bind fun _ => ih _ _ _

theorem leaves_vbody (hK : 4 + g ≤ K) (hg : 1 ≤ g) (d : Nat) (sp : VSp κ) : (vbody F d sp : Prog V (VSp κ) Unit).Leaves true K g 1 0 := by
  cases sp with
  | part ar pv => exact (leaves_partOne (by omega) F _ _).bind fun k => leaves_send _
  | long ar f =>
    refine ((leaves_long F hK _ _ _ _).weaken (Nat.zero_le _) (e' := 2) (by omega)).bind fun _ => leaves_dec.bind fun n => ?_
    split
    · exact leaves_send _
    · exact leaves_pure (by omega)

theorem leaves_partCon (hK : 2 + g ≤ K) (s : Slice) : (partCon F s : Prog V (VSp κ) Int).Leaves true K g 0 (K - 2 - g) := by
  unfold partCon
  refine (leaves_pivot F _ _ (nConc_pos F)).bind fun pv => (leaves_sub _ _ _).bind fun half => ?_
  refine ((leaves_go _ (c := K - 2 - g + 1)).weaken (by omega) le_rfl).bind fun _ => (leaves_partTwo (by omega) F _ _ _ _).bind fun r =>
    leaves_recv.bind fun v => ?_
  split
  · exact leaves_gapLow (by omega) F _ _ _ _
  · exact leaves_gapHigh (by omega) F _ _ _ _

theorem leaves_sortLoop (hK : 6 + 2 * g ≤ K) (d : Nat) : ∀ (f : Nat) (s : Slice), (sortLoop F d f s : Prog V (VSp κ) Unit).Leaves true K g 0 0
  | 0, _ => by rw [sortLoop]; exact fun _ _ => trivial
  | f + 1, s => by
    have ih := fun s => leaves_sortLoop hK d f s
    rw [sortLoop]
    refine ((leaves_partCon F (by omega) _).weaken le_rfl (e' := 4 + g) (by omega)).bind fun k => (leaves_splitAt _ _).bind fun t => ?_
    dsimp only
    have fin : ∀ stop : Bool, (if stop = true then
        long F f d t.2 true >>= fun _ => .decGor .ret >>= fun n => if n ≠ 0 then .recv .ret >>= fun _ => pure () else pure ()
        else sortLoop F d f t.2 : Prog V (VSp κ) Unit).Leaves true K g 0 0 := by
      intro stop
      split
      · refine ((leaves_long F (by omega) _ _ _ _).weaken (Nat.zero_le _) (e' := 2) (by omega)).bind fun _ => leaves_dec.bind fun n => ?_
        split
        · exact leaves_recv.bind fun _ => leaves_pure le_rfl
        · exact leaves_pure (by omega)
      · exact ih _
    have tail : (if t.2.len < 2 * (F.maxRec + 1) then (pure true : Prog V (VSp κ) Bool) >>= fun stop => if stop = true then
        long F f d t.2 true >>= fun _ => .decGor .ret >>= fun n => if n ≠ 0 then .recv .ret >>= fun _ => pure () else pure ()
        else sortLoop F d f t.2
      else gorFull >>= fun stop => if stop = true then
        long F f d t.2 true >>= fun _ => .decGor .ret >>= fun n => if n ≠ 0 then .recv .ret >>= fun _ => pure () else pure ()
        else sortLoop F d f t.2 : Prog V (VSp κ) Unit).Leaves true K g 2 0 := by
      split
      · exact (leaves_pure (by omega)).bind fin
      · exact leaves_gorFull.bind fin
    split
    · exact ((leaves_inc (c := 2 + 1 + g)).weaken (by omega) le_rfl).bind fun _ => (leaves_go _).bind fun _ => tail
    · split
      · exact ((leaves_short (c := 4 + g) (by omega) F _ _ _).weaken le_rfl (e' := 2) (by omega)).bind fun _ => tail
      · exact ((leaves_insertion (c := 4 + g) (by omega) _ _ _).weaken le_rfl (e' := 2) (by omega)).bind fun _ => tail

theorem leaves_sortV (hK : 6 + 2 * g ≤ K) (d : Nat) (s : Slice) : (sortV F d s : Prog V (VSp κ) Unit).Leaves true K g 2 0 := by
  unfold sortV
  dsimp only
  have key : ∀ single : Bool, (if single = true then
      if s.len > F.maxRec then long F s.len d s false else if s.len > F.maxIns then short F s.len d s else insertion F.key F.lt s
      else (.mkSync (.ret ()) : Prog V (VSp κ) Unit) >>= fun _ => sortLoop F d s.len s).Leaves true K g 1 0 := by
    intro single
    split
    · split
      · exact (leaves_long F (by omega) _ _ _ _).weaken (by omega) (by omega)
      · split
        · exact (leaves_short (c := 0) (by omega) F _ _ _).weaken (by omega) (by omega)
        · exact (leaves_insertion (c := 0) (by omega) _ _ _).weaken (by omega) (by omega)
    · exact leaves_mkSync.bind fun _ => leaves_sortLoop F hK _ _ _
  split
  · exact (leaves_pure (by omega)).bind key
  · exact leaves_maxGor.bind fun _ => (leaves_pure le_rfl).bind key

theorem leaves_nanToEnd (hc : c ≤ K) (s : Slice) : (nanToEnd s : Prog Cell Sp Slice).Leaves true K g c c := by
  unfold nanToEnd
  refine Prog.Leaves.bind (d := c) (leaves_loop (fun st => ?_) _ _) fun h => leaves_sub _ _ _
  dsimp only
  split
  · refine (leaves_rd hc _ _).bind fun x => ?_
    split
    · exact leaves_pure le_rfl
    · refine (leaves_rd hc _ _).bind fun y => ?_
      split
      · exact (leaves_wr hc _ _ _).bind fun _ => (leaves_wr hc _ _ _).bind fun _ => leaves_pure le_rfl
      · exact leaves_pure le_rfl
  · exact leaves_pure le_rfl

theorem leaves_nanToStart (hc : c ≤ K) (s : Slice) : (nanToStart s : Prog Cell Sp Slice).Leaves true K g c c := by
  unfold nanToStart
  refine Prog.Leaves.bind (d := c) (leaves_loop (fun st => ?_) _ _) fun h => leaves_sub _ _ _
  dsimp only
  split
  · refine (leaves_rd hc _ _).bind fun x => ?_
    split
    · exact leaves_pure le_rfl
    · refine (leaves_rd hc _ _).bind fun y => ?_
      split
      · exact (leaves_wr hc _ _ _).bind fun _ => (leaves_wr hc _ _ _).bind fun _ => leaves_pure le_rfl
      · exact leaves_pure le_rfl
  · exact leaves_pure le_rfl

theorem leaves_sortOf (hK : 6 + 2 * g ≤ K) (C : Conf) (id : FamId) (s : Slice) : (sortOf C id s).Leaves true K g 2 0 := by
  unfold sortOf
  split
  · split
    · exact (leaves_nanToEnd (by omega) _).bind fun t => leaves_sortV _ hK _ _
    · split
      · exact (leaves_nanToStart (by omega) _).bind fun t => leaves_sortV _ hK _ _
      · exact (leaves_pure le_rfl).bind fun t => leaves_sortV _ hK _ _
  · exact leaves_sortV _ hK _ _

end

/-! ## Sort: a comparison sets the budget to 16, and a new goroutine gets 2 -/

theorem leaves_lsw (hK : 4 ≤ K) (s : Slice) (i k r q : Int) : (lsw s i k r q : Prog V Sp Bool).Leaves false K g 2 (K - 4) := by
  unfold lsw
  split
  · rename_i h
    obtain ⟨hi, hk, hr, hq⟩ := h
    intro b hb
    simp only [Slice.swap, Slice.rd, Slice.wr, if_pos hi, if_pos hk, if_pos hr, if_pos hq]
    refine ⟨.inr (by omega), fun x => ⟨.inr (by show 1 ≤ b - 1; omega), fun y => ⟨.inl rfl, fun a => ?_⟩⟩⟩
    cases a with
    | false => show K - 4 ≤ K; omega
    | true =>
      by_cases hne : r ≠ q
      · simp only [if_pos hne]
        refine ⟨.inr (by show 1 ≤ K; omega), fun x => ⟨.inr (by show 1 ≤ K - 1; omega), fun y => ⟨.inr (by show 1 ≤ K - 1 - 1; omega), ⟨.inr (by show 1 ≤ K - 1 - 1 - 1; omega), ?_⟩⟩⟩⟩
        show K - 4 ≤ K - 1 - 1 - 1 - 1
        omega
      · simp only [if_neg hne]
        show K - 4 ≤ K
        omega
  · exact fun _ _ => trivial

/-- `c` is enough for a call of `lsw` and is left by it -/
structure Amid (K c : Nat) : Prop where
  lo : 2 ≤ c
  hi : c + 4 ≤ K

variable (hc : Amid K c)
include hc

theorem leaves_lsw' (s : Slice) (i k r q : Int) : (lsw s i k r q : Prog V Sp Bool).Leaves false K g c c :=
  (leaves_lsw (by have := hc.hi; omega) s i k r q).weaken hc.lo (by have := hc.hi; omega)

theorem leaves_lswInner (s : Slice) (bound step h : Int) : (lswInner s bound step h : Prog V Sp Unit).Leaves false K g c c := by
  unfold lswInner
  refine leaves_loop (fun l => (leaves_lsw' hc _ _ _ _ _).bind fun b => ?_) _ _
  dsimp only
  repeat' split
  all_goals exact leaves_pure le_rfl

theorem leaves_lswInsertion (s : Slice) (lo hi : Int) : (lswInsertion s lo hi : Prog V Sp Unit).Leaves false K g c c := by
  unfold lswInsertion
  refine leaves_loop (fun h => ?_) _ _
  split
  · exact (leaves_lswInner hc _ _ _ _).bind fun _ => leaves_pure le_rfl
  · exact leaves_pure le_rfl

theorem leaves_lswPivot (ws : Nat) (s : Slice) (lo hi : Int) (n : Nat) : (lswPivot ws s lo hi n : Prog V Sp Int).Leaves false K g c (K - 4) := by
  unfold lswPivot
  dsimp only
  refine Prog.Leaves.bind (d := c) (leaves_loop (fun h => ?_) _ _) fun _ => ?_
  · split
    · exact (leaves_lswInner hc _ _ _ _).bind fun _ => leaves_pure le_rfl
    · exact leaves_pure le_rfl
  · exact (leaves_lsw' hc _ _ _ _ _).bind fun _ =>
      ((leaves_lsw (by have := hc.hi; omega) _ _ _ _ _).weaken hc.lo le_rfl).bind fun _ => leaves_pure le_rfl

theorem leaves_lswPartOne (s : Slice) (l pv h : Int) : (lswPartOne s l pv h : Prog V Sp Int).Leaves false K g c c := by
  unfold lswPartOne
  refine leaves_loop (fun st => ?_) _ _
  cases st with
  | head l h =>
    dsimp only [lswPartOneStep]
    split
    · refine (leaves_lsw' hc _ _ _ _ _).bind fun b => ?_
      split
      · exact leaves_pure le_rfl
      · refine (leaves_lsw' hc _ _ _ _ _).bind fun b => ?_
        split <;> exact leaves_pure le_rfl
    · split
      · refine (leaves_lsw' hc _ _ _ _ _).bind fun b => ?_
        split <;> exact leaves_pure le_rfl
      · exact leaves_pure le_rfl
  | scan l h =>
    dsimp only [lswPartOneStep]
    refine (leaves_lsw' hc _ _ _ _ _).bind fun b => ?_
    repeat' split
    all_goals exact leaves_pure le_rfl
  | second l h =>
    dsimp only [lswPartOneStep]
    split
    · exact leaves_pure le_rfl
    · refine (leaves_lsw' hc _ _ _ _ _).bind fun b => ?_
      split <;> exact leaves_pure le_rfl

theorem leaves_lswPartTwo (s : Slice) (lo l pv h hi : Int) : (lswPartTwo s lo l pv h hi : Prog V Sp Int).Leaves false K g c c := by
  unfold lswPartTwo
  refine leaves_loop (fun st => ?_) _ _
  cases st with
  | head l h =>
    dsimp only [lswPartTwoStep]
    refine (leaves_lsw' hc _ _ _ _ _).bind fun b => ?_
    split
    · exact leaves_pure le_rfl
    · refine (leaves_lsw' hc _ _ _ _ _).bind fun b => ?_
      split <;> exact leaves_pure le_rfl
  | scan l h =>
    dsimp only [lswPartTwoStep]
    refine (leaves_lsw' hc _ _ _ _ _).bind fun b => ?_
    repeat' split
    all_goals exact leaves_pure le_rfl
  | second l h =>
    dsimp only [lswPartTwoStep]
    split
    · exact leaves_pure le_rfl
    · refine (leaves_lsw' hc _ _ _ _ _).bind fun b => ?_
      split <;> exact leaves_pure le_rfl

theorem leaves_lswGapLow (s : Slice) (lo r k pv : Int) : (lswGapLow s lo r k pv : Prog V Sp Int).Leaves false K g c c := by
  unfold lswGapLow
  refine leaves_loop (fun st => ?_) _ _
  dsimp only
  split
  · refine (leaves_lsw' hc _ _ _ _ _).bind fun x => ?_
    split <;> exact leaves_pure le_rfl
  · exact leaves_pure le_rfl

theorem leaves_lswGapHigh (s : Slice) (hi r k pv : Int) : (lswGapHigh s hi r k pv : Prog V Sp Int).Leaves false K g c c := by
  unfold lswGapHigh
  refine leaves_loop (fun st => ?_) _ _
  dsimp only
  split
  · refine (leaves_lsw' hc _ _ _ _ _).bind fun x => ?_
    split <;> exact leaves_pure le_rfl
  · exact leaves_pure le_rfl

theorem leaves_lswShortPivot (s : Slice) (lo hi : Int) : (lswShortPivot s lo hi : Prog V Sp Int).Leaves false K g c c := by
  unfold lswShortPivot
  dsimp only
  refine (leaves_lsw' hc _ _ _ _ _).bind fun _ => (leaves_lsw' hc _ _ _ _ _).bind fun b => ?_
  split
  · exact (leaves_lsw' hc _ _ _ _ _).bind fun _ => (leaves_lsw' hc _ _ _ _ _).bind fun _ => (leaves_lsw' hc _ _ _ _ _).bind fun _ =>
      leaves_pure le_rfl
  · exact (leaves_lsw' hc _ _ _ _ _).bind fun _ => (leaves_lsw' hc _ _ _ _ _).bind fun _ => leaves_pure le_rfl

variable (C : Conf)

theorem leaves_lswShort (s : Slice) : ∀ (f d : Nat) (lo hi : Int), (lswShort C s f d lo hi : Prog V Sp Unit).Leaves false K g c c
  | 0, _, _, _ => by rw [lswShort]; exact fun _ _ => trivial
  | f + 1, d, lo, hi => by
    have ih := fun d lo hi => leaves_lswShort s f d lo hi
    rw [lswShort]
    refine (leaves_lswShortPivot hc _ _ _).bind fun pv => (leaves_lswPartOne hc _ _ _ _).bind fun l => ?_
    obtain ⟨l, h, lo, hi, n, no⟩ := lswSplit lo hi l
    dsimp only
    split
    · cases d with
      | zero => exact fun _ _ => trivial
      | succ d => exact (ih _ _ _).bind fun _ => ih _ _ _
    · refine Prog.Leaves.bind (d := c) ?_ fun again => ?_
      · refine leaves_loop (fun t => (leaves_lswInsertion hc _ _ _).bind fun _ => ?_) _ _
        repeat' split
        all_goals exact leaves_pure le_rfl
      · split
        · exact ih _ _ _
        · exact leaves_pure le_rfl

omit hc

theorem leaves_lswLong (hg : 2 ≤ g) (hK : 10 + g ≤ K) (s : Slice) :
    ∀ (f d : Nat) (lo hi : Int) (sv : Bool), (lswLong C s f d lo hi sv : Prog V LSp Unit).Leaves false K g 2 (K - 4)
  | 0, _, _, _, _ => by rw [lswLong]; exact fun _ _ => trivial
  | f + 1, d, lo, hi, sv => by
    have h1 : Amid K 2 := ⟨le_rfl, by omega⟩
    have h4 : Amid K (K - 4) := ⟨by omega, by omega⟩
    have ih := fun d lo hi sv => leaves_lswLong hg hK s f d lo hi sv
    have ih' : ∀ d lo hi sv, (lswLong C s f d lo hi sv : Prog V LSp Unit).Leaves false K g (K - 4) (K - 4) :=
      fun d lo hi sv => (ih d lo hi sv).weaken h4.lo le_rfl
    rw [lswLong]
    refine (leaves_lswPivot h1 _ _ _ _ _).bind fun pv => (leaves_lswPartOne h4 _ _ _ _).bind fun l => ?_
    obtain ⟨l, h, lo, hi, n, no⟩ := lswSplit lo hi l
    dsimp only
    split
    · have h2 : (if no ≥ C.maxLenRecFC then lswLong C s f d lo hi sv else match d with
          | 0 => .overflow
          | d + 1 => lswShort C s f d lo hi : Prog V LSp Unit).Leaves false K g (K - 4) (K - 4) := by
        split
        · exact ih' _ _ _ _
        · cases d with
          | zero => exact fun _ _ => trivial
          | succ d => exact leaves_lswShort h4 C s f d _ _
      split
      · cases d with
        | zero => exact fun _ _ => trivial
        | succ d => exact (leaves_lswShort h4 C _ _ _ _ _).bind fun _ => h2
      · exact (leaves_lswInsertion h4 _ _ _).bind fun _ => h2
    · have h2 : (match d with
          | 0 => (.overflow : Prog V LSp Unit) >>= fun _ => lswLong C s f d lo hi sv
          | d' + 1 => lswLong C s f d' l h sv >>= fun _ => lswLong C s f d lo hi sv).Leaves false K g 2 (K - 4) := by
        cases d with
        | zero => exact fun _ _ => trivial
        | succ d => exact (ih _ _ _ _).bind fun _ => ih' _ _ _ _
      cases sv with
      | false => exact h2.weaken h4.lo le_rfl
      | true =>
        refine (leaves_gorFull (c := 4 + g)).weaken (by omega) le_rfl |>.bind fun full => ?_
        cases full with
        | true => exact h2.weaken (by omega) le_rfl
        | false =>
          exact ((leaves_inc (c := 3 + g)).weaken (by omega) le_rfl).bind fun _ =>
            ((leaves_go _ (c := 2)).weaken (by omega) le_rfl).bind fun _ => ih _ _ _ _

theorem leaves_lswBody (hg : 2 ≤ g) (hK : 10 + g ≤ K) (s : Slice) (sp : LSp) : (lswBody C s sp : Prog V LSp Unit).Leaves false K g 2 0 := by
  cases sp with
  | part l pv h =>
    exact ((leaves_lswPartOne (c := 2) ⟨le_rfl, by omega⟩ _ _ _ _).weaken le_rfl (e' := 1) (by omega)).bind fun k => leaves_send _
  | long lo hi f =>
    refine ((leaves_lswLong C hg hK _ _ _ _ _ _).weaken le_rfl (e' := 2) (by omega)).bind fun _ => leaves_dec.bind fun n => ?_
    split
    · exact leaves_send _
    · exact leaves_pure (by omega)

theorem leaves_lswPartCon (ws : Nat) (hg : 2 ≤ g) (hK : 10 + g ≤ K) (s : Slice) (lo hi : Int) :
    (lswPartCon ws s lo hi : Prog V LSp Int).Leaves false K g 2 (K - 6 - g) := by
  unfold lswPartCon
  dsimp only
  refine (leaves_lswPivot ⟨le_rfl, by omega⟩ _ _ _ _ _).bind fun pv => ?_
  refine ((leaves_go _ (c := K - 6 - g + 1)).weaken (by omega) le_rfl).bind fun _ => (leaves_lswPartTwo ⟨by omega, by omega⟩ _ _ _ _ _ _).bind fun r =>
    leaves_recv.bind fun v => ?_
  split
  · exact leaves_lswGapLow ⟨by omega, by omega⟩ _ _ _ _ _
  · exact leaves_lswGapHigh ⟨by omega, by omega⟩ _ _ _ _ _

theorem leaves_lswSortLoop (hg : 2 ≤ g) (hK : 12 + 2 * g ≤ K) (s : Slice) :
    ∀ (f : Nat) (lo hi : Int), (lswSortLoop C s f lo hi : Prog V LSp Unit).Leaves false K g 2 0
  | 0, _, _ => by rw [lswSortLoop]; exact fun _ _ => trivial
  | f + 1, lo, hi => by
    have ih := fun lo hi => leaves_lswSortLoop hg hK s f lo hi
    have h6 : Amid K (6 + g) := ⟨by omega, by omega⟩
    rw [lswSortLoop]
    refine ((leaves_lswPartCon _ hg (by omega) _ _ _).weaken le_rfl (e' := 6 + g) (by omega)).bind fun l => ?_
    obtain ⟨l, h, lo, hi, n, no⟩ := lswSplit lo hi l
    dsimp only
    have fin : ∀ stop : Bool, (if stop = true then
        lswLong C s f C.depth lo hi true >>= fun _ => .decGor .ret >>= fun n => if n ≠ 0 then .recv .ret >>= fun _ => pure () else pure ()
        else lswSortLoop C s f lo hi : Prog V LSp Unit).Leaves false K g 2 0 := by
      intro stop
      split
      · refine ((leaves_lswLong C hg (by omega) _ _ _ _ _ _).weaken le_rfl (e' := 2) (by omega)).bind fun _ => leaves_dec.bind fun n => ?_
        split
        · exact leaves_recv.bind fun _ => leaves_pure le_rfl
        · exact leaves_pure (by omega)
      · exact ih _ _
    have tail : (if no ≤ 2 * C.maxLenRecFC then (pure true : Prog V LSp Bool) >>= fun stop => if stop = true then
        lswLong C s f C.depth lo hi true >>= fun _ => .decGor .ret >>= fun n => if n ≠ 0 then .recv .ret >>= fun _ => pure () else pure ()
        else lswSortLoop C s f lo hi
      else gorFull >>= fun stop => if stop = true then
        lswLong C s f C.depth lo hi true >>= fun _ => .decGor .ret >>= fun n => if n ≠ 0 then .recv .ret >>= fun _ => pure () else pure ()
        else lswSortLoop C s f lo hi : Prog V LSp Unit).Leaves false K g 4 0 := by
      split
      · exact (leaves_pure (by omega)).bind fin
      · exact leaves_gorFull.bind fin
    split
    · exact ((leaves_inc (c := 4 + 1 + g)).weaken (by omega) le_rfl).bind fun _ => (leaves_go _).bind fun _ => tail
    · split
      · exact ((leaves_lswShort h6 C _ _ _ _ _).weaken le_rfl (e' := 4) (by omega)).bind fun _ => tail
      · exact ((leaves_lswInsertion h6 _ _ _).weaken le_rfl (e' := 4) (by omega)).bind fun _ => tail

theorem leaves_SortLsw (hg : 2 ≤ g) (hK : 12 + 2 * g ≤ K) (n : Int) (s : Slice) : (SortLsw C n s : Prog V LSp Unit).Leaves false K g 4 0 := by
  have h2 : Amid K 2 := ⟨le_rfl, by omega⟩
  unfold SortLsw
  dsimp only
  generalize wrapInt C.wordSize (n - 1) = n
  have key : ∀ single : Bool, (if single = true then
      if n ≥ C.maxLenRecFC then lswLong C s (n + 1).toNat C.depth 0 n false
      else if n ≥ C.maxLenInsFC then lswShort C s (n + 1).toNat C.depth 0 n
      else if n > 0 then lswInsertion s 0 n else pure ()
      else (.mkSync (.ret ()) : Prog V LSp Unit) >>= fun _ => lswSortLoop C s (n + 1).toNat 0 n).Leaves false K g 3 0 := by
    intro single
    split
    · split
      · exact (leaves_lswLong C hg (by omega) _ _ _ _ _ _).weaken (by omega) (by omega)
      · split
        · exact (leaves_lswShort h2 C _ _ _ _ _).weaken (by omega) (by omega)
        · split
          · exact (leaves_lswInsertion h2 _ _ _).weaken (by omega) (by omega)
          · exact leaves_pure (by omega)
    · exact leaves_mkSync.bind fun _ => leaves_lswSortLoop C hg hK _ _ _ _
  split
  · exact (leaves_pure (by omega)).bind key
  · exact leaves_maxGor.bind fun _ => (leaves_pure le_rfl).bind key

end Sorty
