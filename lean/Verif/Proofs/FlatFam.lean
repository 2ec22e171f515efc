import Verif.Proofs.Flat
import Verif.Proofs.Job

/-! # The calls of SortSlice and SortLen on equal elements -/

namespace Sorty

open Prog

theorem key_mean {C : Conf} (hC : C.OK) {id : FamId} {v : Key} (hv : okOf id v) : FlatKey (fam C id) v where
  lt := by
    have := (famOK hC id).lt v v hv hv
    cases h : (fam C id).lt v v with
    | false => rfl
    | true => exact absurd (this.1 h) (lt_irrefl _)
  le := ((famOK hC id).le v v hv hv).2 le_rfl
  mean := by
    have hs := hC.sixb
    intro f hf
    cases id <;> rcases v with x | x | x | x <;> try exact hv.elim
    all_goals simp only [fam, Option.some.injEq, reduceCtorEq] at hf
    · subst hf
      have := hs.i4 x x
      simp only [on32, Key.w32.injEq]
      exact BitVec.toInt_inj.1 (by omega)
    · subst hf
      have := hs.i8 x x
      simp only [on64, Key.w64.injEq]
      exact BitVec.toInt_inj.1 (by omega)
    · subst hf
      have := hs.u4 x x
      simp only [on32, Key.w32.injEq]
      exact BitVec.toNat_inj.1 (by omega)
    · subst hf
      have := hs.u8 x x
      simp only [on64, Key.w64.injEq]
      exact BitVec.toNat_inj.1 (by omega)
    all_goals
      subst hf
      simp only [onInt, Key.int.injEq, meanI]
      omega

/-- moving NaNs, if there are none -/
theorem eval_nan {Sp : Type} {P : Par Cell Sp} {m : Mem Cell} {s : Slice} (hs : ∀ a, s.off ≤ a → a < s.off + s.len → cellNaN (m a) = false) :
    Eval P m (nanToEnd s) (.ret s) ∧ Eval P m (nanToStart s) (.ret s) := by
  have hat : ∀ i : Int, 0 ≤ i → i < s.len → cellNaN (m (s.off + i.toNat)) = false := fun i h0 h1 => hs _ (by omega) (by omega)
  constructor
  · have key : ∀ (n : Nat) (l : Int), 0 ≤ l → l ≤ s.len → (s.len : Int) - l + 1 ≤ n →
        Eval P m (loop n (fun (st : Int × Int) =>
          let (l, h) := st
          if l ≤ h then do
            let x ← s.rd h
            if cellNaN x then pure (.again (l, h - 1))
            else do
              let y ← s.rd l
              if cellNaN y then do
                s.wr l x
                s.wr h y
                pure (.again (l + 1, h - 1))
              else pure (.again (l + 1, h))
          else pure (.brk h)) (l, (s.len : Int) - 1)) (.ret ((s.len : Int) - 1)) := by
      intro n
      induction n with
      | zero => intro l _ _ h; push_cast at h; omega
      | succ n ih =>
        intro l h0 h1 h2
        by_cases hl : l ≤ (s.len : Int) - 1
        · refine .again (s' := (l + 1, (s.len : Int) - 1)) ?_ (ih (l + 1) (by omega) (by omega) (by push_cast at h2; omega))
          dsimp only
          rw [if_pos hl]
          refine .rd (by omega) (by omega) ?_
          rw [if_neg (by rw [hat _ (show 0 ≤ (s.len : Int) - 1 by omega) (by omega)]; simp)]
          refine .rd (by omega) (by omega) ?_
          rw [if_neg (by rw [hat l h0 (by omega)]; simp)]
          exact .refl _
        · refine .brk ?_
          dsimp only
          rw [if_neg hl]
          exact .refl _
    refine Eval.seq (key _ 0 le_rfl (by omega) (by push_cast; omega)) ?_
    rw [Slice.sub, if_pos (by omega)]
    have e : (⟨s.off + (0 : Int).toNat, ((s.len : Int) - 1 + 1 - 0).toNat⟩ : Slice) = s := by
      obtain ⟨o, l⟩ := s; simp
    rw [e]
    exact .refl _
  · have key : ∀ (n : Nat) (h : Int), -1 ≤ h → h < s.len → h + 2 ≤ n →
        Eval P m (loop n (fun (st : Int × Int) =>
          let (l, h) := st
          if l ≤ h then do
            let y ← s.rd l
            if cellNaN y then pure (.again (l + 1, h))
            else do
              let x ← s.rd h
              if cellNaN x then do
                s.wr l x
                s.wr h y
                pure (.again (l + 1, h - 1))
              else pure (.again (l, h - 1))
          else pure (.brk l)) (0, h)) (.ret 0) := by
      intro n
      induction n with
      | zero => intro l _ _ h; push_cast at h; omega
      | succ n ih =>
        intro h h0 h1 h2
        by_cases hl : 0 ≤ h
        · refine .again (s' := (0, h - 1)) ?_ (ih (h - 1) (by omega) (by omega) (by push_cast at h2; omega))
          dsimp only
          rw [if_pos hl]
          refine .rd (by omega) (by omega) ?_
          rw [if_neg (by rw [hat 0 le_rfl (by omega)]; simp)]
          refine .rd (by omega) (by omega) ?_
          rw [if_neg (by rw [hat h hl (by omega)]; simp)]
          exact .refl _
        · refine .brk ?_
          dsimp only
          rw [if_neg hl]
          exact .refl _
    refine Eval.seq (key _ ((s.len : Int) - 1) (by omega) (by omega) (by push_cast; omega)) ?_
    rw [Slice.sub, if_pos (by omega)]
    have e : (⟨s.off + (0 : Int).toNat, ((s.len : Int) - 0).toNat⟩ : Slice) = s := by
      obtain ⟨o, l⟩ := s; simp
    rw [e]
    exact .refl _

theorem eval_sortOf {C : Conf} {id : FamId} {P : Par Cell (VSp Key)} {m : Mem Cell} {s : Slice}
    (hs : id.float = true → ∀ a, s.off ≤ a → a < s.off + s.len → cellNaN (m a) = false) :
    Eval P m (sortOf C id s) (sortV (fam C id) C.depth s) := by
  unfold sortOf
  split
  · rename_i h
    have hf := hs (by rcases h with rfl | rfl <;> rfl)
    split
    · exact Eval.seq (eval_nan hf).1 (.refl _)
    · split
      · exact Eval.seq (eval_nan hf).2 (.refl _)
      · exact .refl _
  · exact .refl _

/-- **many goroutines** on equal elements, `MaxGor` being `M` all the time -/
theorem flat_crowd {C : Conf} (hC : C.OK) {id : FamId} {s : Slice} {m : Mem Cell} {M : Nat} (stale : Prop) {v : Key} (hv : okOf id v)
    (hs : FlatOn (fam C id).key v m s) (hn : id.float = true → ∀ a, s.off ≤ a → a < s.off + s.len → cellNaN (m a) = false)
    (hM : 2 ≤ M) (hl : 8 * M * ((fam C id).maxRec + 2) ≤ s.len) (h63 : s.len < 2 ^ 63) :
    ∃ c, HighSteps ((famCall C id s).par M stale) M (start (famCall C id s).main m) c ∧ 2 * (M - 1) ≤ working c := by
  obtain ⟨j, h2, h1⟩ : ∃ j, 2 ^ j < 2 * (M - 1) ∧ 2 * (M - 1) ≤ 2 ^ (j + 1) := by
    have h0 : 2 * (M - 1) - 1 ≠ 0 := by omega
    have := Nat.log2_self_le h0
    have := (Nat.log2_lt h0).1 (Nat.lt_succ_self (2 * (M - 1) - 1).log2)
    exact ⟨(2 * (M - 1) - 1).log2, by omega, by omega⟩
  have hF := famOK hC id
  have hr : 16 ≤ (fam C id).maxRec := by have := hF.ins; have := hF.recOK; simp only [nsShort] at *; omega
  have hfl := key_mean hC hv
  have hMl : 8 * M ≤ s.len := le_trans (Nat.le_mul_of_pos_right _ (by omega)) hl
  have h3 : Halved (fam C id) v m (j + 1) s := by
    refine ⟨hs, ?_⟩
    have : 2 ^ (j + 1) * ((fam C id).maxRec + 2) ≤ 4 * M * ((fam C id).maxRec + 2) := Nat.mul_le_mul_right _ (by rw [pow_succ]; omega)
    nlinarith
  obtain ⟨p, q, l, s1, hp, hq⟩ := steps_sortV hfl hr (P := (famCall C id s).par M stale) (d0 := C.depth) rfl hM h3
  have s0 := (eval_sortOf (C := C) (P := (famCall C id s).par M stale) hn).steps (L := M) (sh := ⟨m, 0, false⟩) [] []
  have hsp := flat_splits hfl hr (P := (famCall C id s).par M stale) (d0 := C.depth) (m := m) rfl
  classical
  obtain ⟨ths, s2, h4⟩ := hsp.crowd hM (show 2 * (M - 1) < 2 ^ 64 by omega) (sh := ⟨m, 2, true⟩) rfl rfl rfl (ths := p :: l ++ [q]) j 0 (2 * (M - 1)) (by
    simp only [List.cons_append, List.countP_cons, List.countP_append, List.countP_nil]
    have hp' : FlatSorter (fam C id) C.depth v m (0 + j) p := by simpa using hp
    have hq' : FlatSorter (fam C id) C.depth v m (0 + j) q := by simpa using hq
    simp only [hp', hq', decide_true, if_true]
    omega) (by omega) h1 le_rfl
  exact ⟨_, (s0.trans s1).trans s2, le_trans h4 hsp.working⟩

end Sorty
