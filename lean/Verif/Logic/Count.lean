import Verif.Logic.Label

/-! # How many goroutines are started, and for what -/

namespace Sorty

variable {V Sp : Type} {P : Par V Sp} {S : Spec V Sp} {I : IPar V Sp}

/-- 1 for the caller and for sorters, finished or not -/
def nonPart (g : Gh V Sp) : Nat := if g.role ≠ .part then 1 else 0

theorem sumOf_nonPart (ts : List (Th V Sp)) : sumOf nonPart ts = ((rolesOf ts).filter (· ≠ .part)).length := by
  induction ts with
  | nil => rfl
  | cons t ts ih =>
    have e : rolesOf (t :: ts) = t.2.role :: rolesOf ts := rfl
    rw [e, List.filter_cons]
    simp only [sumOf_cons, ih, nonPart, decide_eq_true_eq]
    split_ifs <;> simp <;> omega

/-- the caller and all sorters ever started are at most `I.N` -/
theorem Inv.sorters {c : Cfg V Sp} {ts} (h : Inv P S I c ts) {ds : List Sp} (hr : rolesOf ts = .main :: ds.map (childRole S))
    (hs : c.sh.sync = true) : (ds.filter fun d => !S.isPart d).length + 1 ≤ I.N := by
  have h1 : sumOf nonPart ts ≤ I.N := by
    refine le_trans (sumOf_le _ _ _ fun t ht => ?_) h.szs
    unfold nonPart szG
    split_ifs with hp
    · exact (h.ok t ht).sz_run ((h.cflag t ht).trans hs) hp
    · omega
  rw [sumOf_nonPart, hr, List.filter_cons_of_pos (by simp), List.length_cons] at h1
  have h2 : ((ds.map (childRole S)).filter (· ≠ .part)).length = (ds.filter fun d => !S.isPart d).length := by
    rw [List.filter_map, List.length_map]
    congr 1
    refine List.filter_congr fun d _ => ?_
    cases hd : S.isPart d <;> simp [childRole, hd]
  omega

/-- every goroutine was started with its precondition met, on a part of the caller's slice -/
theorem Inv.started (H : Hyp P S I) {p : Prog V Sp Unit} {m : Mem V} {c : Cfg V Sp} {ds} (h : LSteps P (Sorty.start p m) c ds)
    (h0 : ∃ ts, Inv P S I (Sorty.start p m) ts) : ∀ d ∈ ds, (∃ m', S.pre d m') ∧ S.W d ⊆ I.W0 ∧ S.R d ⊆ I.W0 := by
  induction h with
  | refl => simp
  | quiet _ _ _ ih => exact ih
  | @spawn l₁ l₂ sh s k ds hl ih =>
    intro d hd
    rcases List.mem_append.1 hd with hd | hd
    · exact ih d hd
    · simp only [List.mem_singleton] at hd
      subst hd
      obtain ⟨ts, h, _⟩ := Inv.label H hl h0
      obtain ⟨L₁, g, L₂, rfl, rfl, rfl⟩ := split_ths h.ths
      have hg : (Prog.go d k, g) ∈ L₁ ++ (Prog.go d k, g) :: L₂ := by simp
      have hw : wp S (.go d k) g sh.mem endQ := h.wps _ hg
      have hsub := (h.sub _ hg).1
      unfold wp at hw
      split_ifs at hw with hp
      · obtain ⟨-, -, -, -, -, -, -, h8, h9, -, h11, -⟩ := hw
        exact ⟨⟨_, h11⟩, h8.trans hsub, h9.trans hsub⟩
      · obtain ⟨-, -, -, -, -, h6, h7, h8, -⟩ := hw
        exact ⟨⟨_, h8⟩, h6.trans hsub, by rw [h7]; exact Set.empty_subset _⟩

end Sorty
