import Verif.Proofs.Hang
import Verif.Props.Slice

/-! # NaNignore with NaNs -/

namespace Sorty

open Prog

variable {C : Conf} {t : GoType} {s : Slice} {m : Mem Cell}

theorem nan_unordered {id : FamId} (hid : id.float = true) {x : Cell} (hx : x.isNaN) : Unordered (fam C id) ((fam C id).key x) := by
  rw [← cellNaN_iff] at hx
  cases id <;> simp [FamId.float] at hid <;> cases x <;> simp [cellNaN] at hx <;>
    (rintro (y | y | y | y) <;> simp [fam, wordKey, on32, on64, flt, fle, hx])

/-- the family that sorts floats of type `t` -/
def floatFam (C : Conf) (t : GoType) : Fam Cell Key := fam C (if t = .float64 then .F8 else .F4)

/-- **C36.** With NaNignore (any option value other than NaNlarge and NaNsmall), SortSlice never returns on any slice
of more than MaxLenIns and at most MaxLenRec floats, all NaNs. The call is nothing but rounds of `shortF4`/`shortF8`
on the whole slice; each round only loads elements, stores nothing, and ends where it began, with the same slice; so
no number of rounds `f` is enough. (The call of the model has a budget of `s.len` rounds.) -/
theorem C36_NaNignore_hangs (hC : C.OK) (ht : t.float = true) (ho : C.nanOption ≠ 1 ∧ C.nanOption ≠ -1)
    (hs : SliceOf C.wordSize t s m) (hn : AllNaN (s.view m)) (h1 : C.maxLenIns < s.len) (h2 : s.len ≤ C.maxLenRec) :
    (SortSlice C (.slice t s)).main = short (floatFam C t) s.len C.depth s ∧
    (∀ f, Loads m (short (floatFam C t) (f + 1) C.depth s : Prog Cell (VSp Key) Unit) (short (floatFam C t) f C.depth s)) ∧
    ∀ M stale c, (SortSlice C (.slice t s)).Reaches M stale m c → c.sh.mem = m ∧ ¬ Returned c := by
  have hid : ∃ id : FamId, id = (if t = .float64 then .F8 else .F4) ∧ famOf C.wordSize t = some id ∧ (id = .F4 ∨ id = .F8) ∧ id.float = true := by
    cases t <;> simp [GoType.float] at ht <;> simp [famOf, FamId.float]
  obtain ⟨id, h3, h4, h5, h6⟩ := hid
  unfold floatFam
  rw [← h3]
  have hins : (fam C id).maxIns = C.maxLenIns ∧ (fam C id).maxRec = C.maxLenRec ∧ (fam C id).mean = none := by
    rcases h5 with rfl | rfl <;> exact ⟨rfl, rfl, rfl⟩
  have hI := (famOK hC id).ins
  have hmain : (SortSlice C (.slice t s)).main = short (fam C id) s.len C.depth s := by
    rw [sortSlice_eq hC h4]
    show sortOf C id s = _
    unfold sortOf
    rw [if_pos h5, if_neg ho.1, if_neg ho.2]
    show sortV _ _ _ = _
    unfold sortV
    rw [if_pos (by omega)]
    simp only [pure_def, bind_def, Prog.bind]
    rw [if_pos trivial, if_neg (by omega), if_pos (by omega)]
  have hspin : ∀ f, Loads m (short (fam C id) (f + 1) C.depth s : Prog Cell (VSp Key) Unit) (short (fam C id) f C.depth s) := fun f =>
    short_spins hins.2.2 (fun a ha => nan_unordered h6 (view_all.1 hn a ha)) (by unfold nsShort at hI; omega) (by omega) f C.depth
  refine ⟨hmain, hspin, fun M stale c hr => ?_⟩
  have hall : ∀ f, Loads m (short (fam C id) f C.depth s : Prog Cell (VSp Key) Unit) .diverge := by
    intro f
    induction f with
    | zero => rw [short]; exact .refl _
    | succ f ih => exact (hspin f).trans ih
  unfold Call.Reaches at hr
  rw [hmain] at hr
  obtain ⟨h7, q, h8, h9⟩ := (hall s.len).stays hr
  refine ⟨h7, ?_⟩
  rintro ⟨l, hl⟩
  rw [h8] at hl
  simp only [List.cons.injEq] at hl
  rw [hl.1] at h9
  cases h9

/-- 100 NaNs, default thresholds -/
example : ∀ M stale c, (SortSlice { demoC with nanOption := 0 } (.slice .float64 ⟨7, 100⟩)).Reaches M stale
    (fun _ => .w64 0x7FF8000000000001#64) c → ¬ Returned c := by
  intro M stale c hr
  refine ((C36_NaNignore_hangs (C := { demoC with nanOption := 0 }) (t := .float64) ⟨demoC_ok.sixb, demoC_ok.init, demoC_ok.word⟩ rfl (by decide)
    ⟨?_, by decide⟩ ?_ (by decide) (by decide)).2.2 M stale c hr).2
  · exact demo_view_all fun a => ⟨_, rfl⟩
  · exact demo_view_all fun a => (isNaN_w64 _).2 (by decide)

end Sorty
