import Verif.Logic.Inv

/-! # Steps preserve the invariant -/

namespace Sorty

variable {V Sp : Type} {P : Par V Sp} {S : Spec V Sp} {I : IPar V Sp}

theorem Inv.inc (hS : S.Local) (hN : I.N < 2 ^ 64) {c : Cfg V Sp} {L₁ L₂ k g}
    (h : Inv P S I c (L₁ ++ (.incGor k, g) :: L₂)) :
    ∃ ts, Inv P S I ⟨{ c.sh with nGor := (c.sh.nGor + 1) % 2 ^ 64 },
      L₁.map Prod.fst ++ k ((c.sh.nGor + 1) % 2 ^ 64) :: L₂.map Prod.fst⟩ ts ∧
      rolesOf ts = rolesOf (L₁ ++ (.incGor k, g) :: L₂) ∧ ownsOf ts = ownsOf (L₁ ++ (.incGor k, g) :: L₂) := by
  have hg0 : (.incGor k, g) ∈ L₁ ++ (.incGor k, g) :: L₂ := by simp
  have hw : wp S (.incGor k) g c.sh.mem endQ := h.wps _ hg0
  have hok : GhOK S g := h.ok _ hg0
  have hcf : g.C = c.sh.sync := h.cflag _ hg0
  obtain ⟨h1, h2, h3, h4, h5, h6, h7, h8⟩ := hw
  have hsy : c.sh.sync = true := hcf.symm.trans h1
  have hcnt := h.cnt hsy
  have hlt := h.cnt_lt hsy
  have hn : (c.sh.nGor + 1) % 2 ^ 64 = c.sh.nGor + 1 := by
    apply Nat.mod_eq_of_lt
    have : sumOf cntG (L₁ ++ (Prog.incGor k, { g with S := false, T := true }) :: L₂) ≤ I.N := by
      refine le_trans (sumOf_le _ szG _ fun t ht => ?_) (le_trans (le_of_eq ?_) h.szs)
      · have hC : t.2.C = true ∧ (t.2.T = true → t.2.ph = .run ∧ t.2.role ≠ .part ∧ 2 ≤ t.2.sz) ∧
            (t.2.role ≠ .part → 1 ≤ t.2.sz) := by
          rcases List.mem_append.1 ht with ht | ht
          · have hm := h.ok t (by simp [ht]); have hC := (h.cflag t (by simp [ht])).trans hsy
            exact ⟨hC, hm.t_run, hm.sz_run hC⟩
          · rcases List.mem_cons.1 ht with rfl | ht
            · exact ⟨h1, fun _ => ⟨h2, h3, h7⟩, fun _ => by show 1 ≤ g.sz; omega⟩
            · have hm := h.ok t (by simp [ht]); have hC := (h.cflag t (by simp [ht])).trans hsy
              exact ⟨hC, hm.t_run, hm.sz_run hC⟩
        unfold cntG szG
        split_ifs with a b b
        · exact (hC.2.1 b).2.2
        · exact hC.2.2 a.1
        · have := (hC.2.1 b).2.2; omega
        · omega
      · simp [szG]
    have e : sumOf cntG (L₁ ++ (Prog.incGor k, { g with S := false, T := true }) :: L₂) =
        sumOf cntG (L₁ ++ (.incGor k, g) :: L₂) + 1 := by
      simp [cntG, h2, h3, h6]; omega
    omega
  have hz : c.sh.nGor ≠ 0 := by
    rw [hcnt]; simp [cntG, h2, h3]
  rw [hn]
  refine ⟨_, h.step0 hS { c.sh with nGor := c.sh.nGor + 1 } (k (c.sh.nGor + 1))
      { g with S := false, T := true }
      (fun _ _ => rfl) (h8 _) ?_ ⟨le_rfl, Set.subset_union_right⟩ rfl hcf id (h.mg _ hg0) ?_ le_rfl ?_ rfl h.big' rfl rfl
      (fun _ => ⟨rfl, rfl, rfl⟩) ?_ ?_ (fun _ hp => absurd h2 hp) rfl (fun _ h => h), by simp [rolesOf], by simp [ownsOf, Gh.own]⟩
  · exact { hok with
      s_run := by simp
      t_run := fun _ => ⟨h2, h3, h7⟩
      j := fun hj => absurd h4 hj
      c_false := by simp [h1] }
  · intro _
    show c.sh.nGor + 1 = _
    rw [hcnt]
    simp [cntG, h2, h3, h6]; omega
  · intro hst _
    have := h.bound hst hsy
    simp [cntG, sG, h2, h3, h5, h6] at this ⊢; omega
  · intro _
    have := h.lastsum hsy
    simp [hz, lastG] at this
    simp [lastG, this, h2]
  · intro _ t ht hr hp
    exfalso
    rcases mem_upd (y := (Prog.incGor k, g)) (new := []) (by simpa using ht) with ht | ⟨_, ht⟩
    · simp only [List.mem_singleton] at ht; subst ht; simp [h2] at hp
    · exact hz (h.mdone hsy t ht hr hp)

theorem Inv.dec (hS : S.Local) (hN : I.N < 2 ^ 64) {c : Cfg V Sp} {L₁ L₂ k g}
    (h : Inv P S I c (L₁ ++ (.decGor k, g) :: L₂)) :
    ∃ ts, Inv P S I ⟨{ c.sh with nGor := (c.sh.nGor + (2 ^ 64 - 1)) % 2 ^ 64 },
      L₁.map Prod.fst ++ k ((c.sh.nGor + (2 ^ 64 - 1)) % 2 ^ 64) :: L₂.map Prod.fst⟩ ts ∧
      rolesOf ts = rolesOf (L₁ ++ (.decGor k, g) :: L₂) ∧
      ∃ n, ownsOf ts = ownsOf L₁ ++ ⟨g.role, afterDec g.role n, ∅, g.W, none⟩ :: ownsOf L₂ := by
  have hg0 : (.decGor k, g) ∈ L₁ ++ (.decGor k, g) :: L₂ := by simp
  have hw : wp S (.decGor k) g c.sh.mem endQ := h.wps _ hg0
  have hok : GhOK S g := h.ok _ hg0
  have hcf : g.C = c.sh.sync := h.cflag _ hg0
  obtain ⟨h1, h2, h3, h4, h5, h6, h7⟩ := hw
  have hsy : c.sh.sync = true := hcf.symm.trans h1
  have hcnt := h.cnt hsy
  have hlt := h.cnt_lt hsy
  have hz : 0 < c.sh.nGor := by
    rw [hcnt]; simp [cntG, h2, h3]
  have hn : (c.sh.nGor + (2 ^ 64 - 1)) % 2 ^ 64 = c.sh.nGor - 1 := by
    have : c.sh.nGor + (2 ^ 64 - 1) = (c.sh.nGor - 1) + 2 ^ 64 := by omega
    rw [this, Nat.add_mod_right]
    exact Nat.mod_eq_of_lt (by omega)
  rw [hn]
  set n := c.sh.nGor - 1 with hnd
  have hmain := h.main_le
  have hlast := h.lastsum hsy
  have hph : afterDec g.role n ≠ .run := by unfold afterDec; split_ifs <;> simp
  have hrm : g.role = .main ∨ g.role = .sorter := by cases hr : g.role <;> simp_all
  refine ⟨_, h.step0 hS { c.sh with nGor := n } (k n)
      { g with W := ∅, R := g.W, S := false, ph := afterDec g.role n }
      (fun _ _ => rfl) (h7 _) ?_ ⟨Set.empty_subset _, Set.subset_union_left⟩ rfl hcf id (h.mg _ hg0) ?_ le_rfl ?_ rfl h.big' rfl rfl
      (fun h => absurd h h3) ?_ ?_ ?_ rfl (fun _ h => h), by simp [rolesOf], n, by simp [ownsOf, Gh.own, h4]⟩
  · exact {
      s_run := by simp
      t_run := by simp [h5]
      sz_run := hok.sz_run
      j := fun hj => absurd h4 hj
      part_ph := fun h => absurd h h3
      main_ph := by
        intro hr; have hr : g.role = .main := hr
        show afterDec g.role n = _ ∨ afterDec g.role n = _ ∨ afterDec g.role n = _
        rw [hr]; unfold afterDec; by_cases hn0 : n = 0 <;> simp [hn0]
      sorter_ph := by
        intro hr; have hr : g.role = .sorter := hr
        show afterDec g.role n = _ ∨ afterDec g.role n = _ ∨ afterDec g.role n = _
        rw [hr]; unfold afterDec; by_cases hn0 : n = 0 <;> simp [hn0]
      c_false := by simp [h1]
      w_end := by simp
      r_run := fun _ h => absurd h hph
      r_J := by simp [h4]
      part_R := fun h => absurd h h3
      pg := fun h => absurd h h3 }
  · intro _
    show n = _
    have hcg : cntG g = 1 := by simp [cntG, h2, h3, h5]
    have hcg' : cntG ({ g with W := ∅, R := g.W, S := false, ph := afterDec g.role n } : Gh V Sp) = 0 := by
      simp [cntG, h5, hph]
    simp only [sumOf_append, sumOf_cons] at hcnt ⊢
    rw [hcg']; omega
  · intro hst _
    have := h.bound hst hsy
    simp [cntG, sG, h2, h3, h5, hph] at this ⊢; omega
  · intro _
    show _ = if n = 0 then _ else 0
    rw [if_neg (by omega)] at hlast
    simp [lastG, h2] at hlast
    by_cases hn0 : n = 0
    · rw [if_pos hn0]
      -- all counted goroutines are gone; who waits?
      rcases hrm with hr | hr
      · -- caller was last
        have hw0 : ∀ L : List (Th V Sp), (∀ t ∈ L, t ∈ L₁ ++ (Prog.decGor k, g) :: L₂) → sumOf mainG L = 0 → sumOf waitG L = 0 := by
          intro L hL h0
          have : sumOf waitG L ≤ sumOf mainG L := by
            refine sumOf_le _ _ _ fun t ht => ?_
            have ok := h.ok t (hL t ht)
            unfold waitG mainG
            split_ifs with a b
            · omega
            · cases hrr : t.2.role with
              | main => exact absurd hrr b
              | sorter => have := ok.sorter_ph hrr; simp [a] at this
              | part => have := ok.part_ph hrr; simp [a] at this
            · omega
            · omega
          omega
        simp [mainG, hr] at hmain
        have w1 := hw0 L₁ (by intro t ht; simp [ht]) (by omega)
        have w2 := hw0 L₂ (by intro t ht; simp [ht]) (by omega)
        simp [afterDec, hr, hn0, lastG, waitG, hlast.1, hlast.2] at *
        omega
      · -- a sorter was last: the caller waits
        have hcnt0 : sumOf cntG L₁ = 0 ∧ sumOf cntG L₂ = 0 := by
          have : sumOf cntG (L₁ ++ (Prog.decGor k, g) :: L₂) = 1 := by omega
          simp [cntG, h2, h3, h5] at this; omega
        have hwait : ∀ L : List (Th V Sp), (∀ t ∈ L, t ∈ L₁ ++ (Prog.decGor k, g) :: L₂) → sumOf cntG L = 0 → sumOf waitG L = sumOf mainG L := by
          intro L hL h0
          apply le_antisymm
          · refine sumOf_le _ _ _ fun t ht => ?_
            have ok := h.ok t (hL t ht)
            unfold waitG mainG
            split_ifs with a b
            · omega
            · cases hrr : t.2.role with
              | main => exact absurd hrr b
              | sorter => have := ok.sorter_ph hrr; simp [a] at this
              | part => have := ok.part_ph hrr; simp [a] at this
            · omega
            · omega
          · refine sumOf_le _ _ _ fun t ht => ?_
            have ok := h.ok t (hL t ht)
            have hc0 : cntG t.2 = 0 := by have := le_sumOf (f := cntG) ht; omega
            unfold waitG mainG
            split_ifs with a b
            · omega
            · rcases ok.main_ph a with hp | hp | hp
              · simp [cntG, a, hp] at hc0
              · exact absurd hp b
              · have := h.mdone hsy t (hL t ht) a hp; omega
            · omega
            · omega
        have w1 := hwait L₁ (by intro t ht; simp [ht]) hcnt0.1
        have w2 := hwait L₂ (by intro t ht; simp [ht]) hcnt0.2
        have hm' : sumOf mainG L₁ + sumOf mainG L₂ = 1 := by
          simp [mainG, hr] at hmain ⊢; omega
        have hl1 : sumOf lastG L₁ = 0 := hlast.1
        have hl2 : sumOf lastG L₂ = 0 := hlast.2
        simp [w1, w2, hl1, hl2, afterDec, hr, hn0]
        simp [lastG, waitG]; omega
    · rw [if_neg hn0]
      have hl1 : sumOf lastG L₁ = 0 := hlast.1
      have hl2 : sumOf lastG L₂ = 0 := hlast.2
      simp [hl1, hl2]
      rcases hrm with hr | hr <;> simp [afterDec, hr, hn0, lastG]
  · intro _ t ht hr hp
    show n = 0
    rcases mem_upd (y := (Prog.decGor k, g)) (new := []) (by simpa using ht) with ht | ⟨_, ht⟩
    · simp only [List.mem_singleton] at ht; subst ht
      have hr : g.role = .main := hr
      by_contra hne
      simp [afterDec, hr, hne] at hp
    · have := h.mdone hsy t ht hr hp; omega
  · intro _ _ mf hP hA
    exact h6 mf hP hA

theorem Inv.mkSync (hS : S.Local) {c : Cfg V Sp} {L₁ L₂ k g}
    (h : Inv P S I c (L₁ ++ (.mkSync k, g) :: L₂)) :
    ∃ ts, Inv P S I ⟨{ c.sh with nGor := 1, sync := true }, L₁.map Prod.fst ++ k :: L₂.map Prod.fst⟩ ts ∧
      rolesOf ts = rolesOf (L₁ ++ (.mkSync k, g) :: L₂) ∧ ownsOf ts = ownsOf (L₁ ++ (.mkSync k, g) :: L₂) := by
  have hg0 : (.mkSync k, g) ∈ L₁ ++ (.mkSync k, g) :: L₂ := by simp
  have hw : wp S (.mkSync k) g c.sh.mem endQ := h.wps _ hg0
  have hok : GhOK S g := h.ok _ hg0
  have hcf : g.C = c.sh.sync := h.cflag _ hg0
  have hmgl : g.mg ≤ P.M := h.mg _ hg0
  have hbg : g.role = .main → g.big = I.big := h.big _ hg0
  obtain ⟨h1, h2, h3, h4, h5, h6, h7, h8, h9⟩ := hw
  have hns := h.nosync (hcf.symm.trans h3)
  have hL₁ : L₁ = [] := List.eq_nil_of_length_eq_zero (by simp at hns; omega)
  have hL₂ : L₂ = [] := List.eq_nil_of_length_eq_zero (by simp at hns; omega)
  subst hL₁ hL₂
  refine ⟨_, h.step0 hS { c.sh with nGor := 1, sync := true } k { g with C := true, S := true }
      (fun _ _ => rfl) h9 ?_ ⟨le_rfl, Set.subset_union_right⟩ rfl rfl (fun _ => rfl) hmgl ?_ le_rfl ?_ rfl ?_ rfl rfl
      (fun _ => ⟨rfl, rfl, rfl⟩) ?_ ?_ (fun _ hp => absurd h2 hp) rfl (fun _ h => h), by simp [rolesOf], by simp [ownsOf, Gh.own]⟩
  · exact { hok with
      s_run := fun _ => ⟨h2, by simp [h1]⟩
      sz_run := fun _ _ => h6
      j := fun hj => absurd h8 hj
      c_false := by simp }
  · intro _; simp [cntG, h1, h2, h7]
  · intro _ _; simp [cntG, sG, h1, h2, h7]; omega
  · exact fun _ => ⟨(hbg h1).symm.trans h4, by omega⟩
  · intro _; simp [lastG, h2]
  · intro _ t ht hr hp
    simp at ht; subst ht; simp [h2] at hp

theorem childGh_ok (hS : S.Local) (s : Sp) (m : Mem V) (hz : S.isPart s = false → 0 < S.sz s) : GhOK S (childGh S s m) := by
  unfold childGh
  split_ifs with h
  · exact { s_run := by simp, t_run := by simp, sz_run := by simp, j := by simp, part_ph := by simp, main_ph := by simp,
            sorter_ph := by simp, c_false := by simp, w_end := by simp, r_run := by simp, r_J := by simp, part_R := by simp,
            pg := fun _ _ v m' m'' ha => hS.ppost' s m v m' m'' ha }
  · exact { s_run := by simp, t_run := by simp, sz_run := by intro _ _; exact hz (by simpa using h), j := by simp, part_ph := by simp, main_ph := by simp,
            sorter_ph := by simp, c_false := by simp, w_end := by simp, r_run := by simp, r_J := by simp, part_R := by simp,
            pg := by simp }

theorem Inv.go (hS : S.Local) (hB : BodyOK P S) {c : Cfg V Sp} {L₁ L₂ s k g}
    (h : Inv P S I c (L₁ ++ (.go s k, g) :: L₂)) :
    ∃ ts, Inv P S I ⟨c.sh, L₁.map Prod.fst ++ k :: L₂.map Prod.fst ++ [P.body s]⟩ ts ∧
      rolesOf ts = rolesOf (L₁ ++ (.go s k, g) :: L₂) ++ [childRole S s] ∧
      ownsOf ts = ownsOf L₁ ++ (if S.isPart s = true then ⟨g.role, g.ph, g.W \ (S.W s ∪ S.R s), S.R s, some s⟩
        else ⟨g.role, g.ph, g.W \ S.W s, g.R, none⟩) :: ownsOf L₂ ++ [(childGh S s c.sh.mem).own] := by
  have hg0 : (.go s k, g) ∈ L₁ ++ (.go s k, g) :: L₂ := by simp
  have hw : wp S (.go s k) g c.sh.mem endQ := h.wps _ hg0
  have hok : GhOK S g := h.ok _ hg0
  have hcf : g.C = c.sh.sync := h.cflag _ hg0
  have hmgl : g.mg ≤ P.M := h.mg _ hg0
  unfold wp at hw
  split_ifs at hw with hp
  · obtain ⟨h1, h2, h3, h4, h5, h6, h7, h8, h9, h10, h11, h12⟩ := hw
    have hsy : c.sh.sync = true := hcf.symm.trans h2
    have hmain := h.main_le
    set g' : Gh V Sp := { g with W := g.W \ (S.W s ∪ S.R s), R := S.R s, J := some (s, S.ppost s c.sh.mem) } with hg'
    set n : Th V Sp := (P.body s, childGh S s c.sh.mem) with hn
    have hch : n.2 = { role := .part, ph := .run, W := S.W s, R := S.R s, P := fun _ => True, goal := fun _ => True, pgoal := S.ppost s c.sh.mem, J := none, T := false, S := false, mg := 0, C := true, big := false, sz := 0 } := by
      simp [hn, childGh, hp]
    have hj0 : sumOf jG (L₁ ++ (Prog.go s k, g) :: L₂) = 0 := by
      have : sumOf jG (L₁ ++ (Prog.go s k, g) :: L₂) + mainG g ≤ sumOf mainG (L₁ ++ (Prog.go s k, g) :: L₂) := by
        have hle : ∀ L : List (Th V Sp), (∀ t ∈ L, t ∈ L₁ ++ (Prog.go s k, g) :: L₂) → sumOf jG L ≤ sumOf mainG L := by
          intro L hL
          refine sumOf_le _ _ _ fun t ht => ?_
          have ok := h.ok t (hL t ht)
          unfold jG mainG
          split_ifs with a b
          · omega
          · exact absurd (ok.j (by intro hh; simp [hh] at a)).1 b
          · omega
          · omega
        have a1 := hle L₁ (by intro t ht; simp [ht])
        have a2 := hle L₂ (by intro t ht; simp [ht])
        have : jG g = 0 := by simp [jG, h4]
        simp [this]; omega
      simp only [mainG, h1] at this
      simp [mainG, h1] at hmain
      simp [mainG, h1] at this
      simp; omega
    have hpr0 := h.jsum
    rw [hj0] at hpr0
    have hnopart : ∀ t ∈ L₁ ++ (Prog.go s k, g) :: L₂, t.2.role = .part → t.2.ph = .run → False := by
      intro t ht hr hph
      have := le_sumOf (f := prunG) ht
      have : prunG t.2 = 1 := by simp [prunG, hr, hph]
      omega
    have hnoJ : ∀ t ∈ L₁ ++ (Prog.go s k, g) :: L₂, t.2.J = none := by
      intro t ht
      have := le_sumOf (f := jG) ht
      rw [hj0] at this
      cases hJ : t.2.J with
      | none => rfl
      | some x => simp [jG, hJ] at this
    refine ⟨_, h.step1 hS c.sh k g' [n] (fun _ _ => rfl) ?_ ?_ ?_ ?_ rfl ?_ ?_ id ?_ ?_ ?_ ?_ ?_ rfl h.big' ?_ ?_ ?_ ?_ ?_ rfl (fun _ _ h => h) ?_, by simp [rolesOf, hch, hg', childRole, hp],
      by simp [ownsOf, Gh.own, hn, hg', hp]⟩
    · intro t ht
      simp only [List.mem_cons, List.not_mem_nil, or_false] at ht
      rcases ht with rfl | rfl
      · exact h12
      · exact hB s _ h11
    · intro t ht
      simp only [List.mem_cons, List.not_mem_nil, or_false] at ht
      rcases ht with rfl | rfl
      · exact { hok with
          j := fun _ => ⟨h1, h3, h6, h5⟩
          w_end := fun hh => absurd h3 hh
          r_run := by simp [hg']
          r_J := by
            intro s' post hJ; simp only [hg', Option.some.injEq, Prod.mk.injEq] at hJ; rw [← hJ.1]; exact ⟨rfl, _, hJ.2.symm⟩
          part_R := by intro hr; simp only [hg', h1] at hr; cases hr
          pg := by intro hr; simp only [hg', h1] at hr; cases hr }
      · exact childGh_ok hS s _ (by simp [hp])
    · intro t ht
      simp only [List.mem_cons, List.not_mem_nil, or_false] at ht
      rcases ht with rfl | rfl
      · exact ⟨Set.sdiff_subset, h9.trans Set.subset_union_left, by simp [hg', h1]⟩
      · rw [hch]; exact ⟨h8, h9.trans Set.subset_union_left, by simp⟩
    · simp only [List.pairwise_cons, List.mem_singleton, forall_eq, List.not_mem_nil, false_imp_iff, implies_true, List.Pairwise.nil, and_true]
      unfold Disj
      rw [hch]
      refine ⟨?_, ?_, h10.symm, by simp⟩
      · exact Disjoint.mono_right Set.subset_union_left Set.disjoint_sdiff_left
      · exact Disjoint.mono_right Set.subset_union_right Set.disjoint_sdiff_left
    · simp [hch]
    · intro t ht
      simp only [List.mem_cons, List.not_mem_nil, or_false] at ht
      rcases ht with rfl | rfl
      · exact hcf
      · rw [hch, hsy]
    · simp [hsy]
    · intro t ht
      simp only [List.mem_cons, List.not_mem_nil, or_false] at ht
      rcases ht with rfl | rfl
      · exact hmgl
      · rw [hch]; exact Nat.zero_le _
    · intro _
      have := h.cnt hsy
      simpa [cntG, hch, hg'] using this
    · simp [szG, hch, hg']
    · intro hst _
      have := h.bound hst hsy
      simpa [cntG, sG, hch, hg'] using this
    · simp [prunG, jG, hch, hg', h1, h4] at hpr0 hj0 ⊢; simp [hpr0, hj0]
    · intro t ht t' ht' s' post hJ hr hph
      have ht'n : t' = n := by
        rcases mem_upd (y := (Prog.go s k, g)) ht' with ht' | ⟨_, ht'⟩
        · simp only [List.mem_cons, List.not_mem_nil, or_false] at ht'
          rcases ht' with rfl | rfl
          · simp [hg', h1] at hr
          · rfl
        · exact (hnopart t' ht' hr hph).elim
      have htg : t = (k, g') := by
        rcases mem_upd (y := (Prog.go s k, g)) ht with ht | ⟨_, ht⟩
        · simp only [List.mem_cons, List.not_mem_nil, or_false] at ht
          rcases ht with rfl | rfl
          · rfl
          · simp [hch] at hJ
        · rw [hnoJ t ht] at hJ; cases hJ
      subst ht'n htg
      simp only [hg', Option.some.injEq, Prod.mk.injEq] at hJ
      rw [hch, ← hJ.1, ← hJ.2]; simp
    · intro _
      have := h.lastsum hsy
      simpa [lastG, waitG, hch, hg'] using this
    · intro _ t ht hr hph
      rcases mem_upd (y := (Prog.go s k, g)) (new := []) (by simpa using ht) with ht | ⟨_, ht⟩
      · simp only [List.mem_singleton] at ht; subst ht; simp [hg', h3] at hph
      · exact h.mdone hsy t ht hr hph
    · intro t ht
      simp only [List.mem_cons, List.not_mem_nil, or_false] at ht
      rcases ht with rfl | rfl
      · intro _ hh; exact absurd h3 hh
      · simp [hch]
    · simp [PromOK, hch]
  · obtain ⟨h1, h2, h3, h4, h5, h6, h7, h8, h9, h10, h11⟩ := hw
    have hsy : c.sh.sync = true := hcf.symm.trans h2
    set g' : Gh V Sp := { g with W := g.W \ S.W s, T := false, sz := g.sz - S.sz s, P := fun mf => g.P mf ∧ S.goal s c.sh.mem mf } with hg'
    set n : Th V Sp := (P.body s, childGh S s c.sh.mem) with hn
    have hch : n.2 = { role := .sorter, ph := .run, W := S.W s, R := ∅, P := fun _ => True, goal := S.goal s c.sh.mem, pgoal := fun _ _ => True, J := none, T := false, S := false, mg := 0, C := true, big := false, sz := S.sz s } := by
      simp [hn, childGh, hp]
    refine ⟨_, h.step1 hS c.sh k g' [n] (fun _ _ => rfl) ?_ ?_ ?_ ?_ rfl ?_ ?_ id ?_ ?_ ?_ ?_ ?_ rfl h.big' ?_ ?_ ?_ ?_ ?_ rfl ?_ ?_, by simp [rolesOf, hch, hg', childRole, hp],
      by simp [ownsOf, Gh.own, hn, hg', hp, h4]⟩
    · intro t ht
      simp only [List.mem_cons, List.not_mem_nil, or_false] at ht
      rcases ht with rfl | rfl
      · exact h11
      · exact hB s _ h8
    · intro t ht
      simp only [List.mem_cons, List.not_mem_nil, or_false] at ht
      rcases ht with rfl | rfl
      · exact { hok with
          t_run := by simp [hg']
          sz_run := by intro _ _; show 1 ≤ g.sz - S.sz s; omega
          j := fun hj => absurd h4 hj
          c_false := by intro hc; have hc : g.C = false := hc; simp [h2] at hc
          w_end := fun hh => absurd h3 hh
          pg := fun hr => absurd hr h1 }
      · exact childGh_ok hS s _ (fun _ => h9)
    · intro t ht
      simp only [List.mem_cons, List.not_mem_nil, or_false] at ht
      rcases ht with rfl | rfl
      · exact ⟨Set.sdiff_subset, Set.subset_union_right, id⟩
      · rw [hch]; exact ⟨h6, Set.empty_subset _, fun _ => h1⟩
    · simp only [List.pairwise_cons, List.mem_singleton, forall_eq, List.not_mem_nil, false_imp_iff, implies_true, List.Pairwise.nil, and_true]
      unfold Disj
      rw [hch]
      have hR : g.R = ∅ := hok.r_run h1 h3 h4
      refine ⟨Set.disjoint_sdiff_left, by simp, by simp [hg', hR], by simp⟩
    · simp [hch]
    · intro t ht
      simp only [List.mem_cons, List.not_mem_nil, or_false] at ht
      rcases ht with rfl | rfl
      · exact hcf
      · rw [hch, hsy]
    · simp [hsy]
    · intro t ht
      simp only [List.mem_cons, List.not_mem_nil, or_false] at ht
      rcases ht with rfl | rfl
      · exact hmgl
      · rw [hch]; exact Nat.zero_le _
    · intro _
      have := h.cnt hsy
      rw [this]
      simp [cntG, hch, hg', h1, h3, h5]; omega
    · simp [szG, hch, hg']; omega
    · intro hst _
      have := h.bound hst hsy
      simp [cntG, sG, hch, hg', h1, h3, h5] at this ⊢; omega
    · have := h.jsum
      simpa [prunG, jG, hch, hg'] using this
    · have key : ∀ t : Th V Sp, t ∈ L₁ ++ (k, g') :: L₂ ++ [n] → t = n ∨
          ∃ u ∈ L₁ ++ (Prog.go s k, g) :: L₂, u.2.J = t.2.J ∧ u.2.role = t.2.role ∧ (t.2.role = .part → u = t) := by
        intro t ht
        rcases mem_upd (y := (Prog.go s k, g)) ht with ht | ⟨_, ht⟩
        · simp only [List.mem_cons, List.not_mem_nil, or_false] at ht
          rcases ht with rfl | rfl
          · exact .inr ⟨_, hg0, rfl, rfl, fun hr => absurd hr h1⟩
          · exact .inl rfl
        · exact .inr ⟨t, ht, by simp⟩
      intro t ht t' ht' s' post hJ hr hph
      rcases key t ht with rfl | ⟨u, hu, e1, _⟩
      · simp [hch] at hJ
      rcases key t' ht' with rfl | ⟨u', hu', e1', e2', e3'⟩
      · simp [hch] at hr
      have := e3' hr
      subst this
      exact h.jlink u hu u' hu' s' post (e1.trans hJ) hr hph
    · intro _
      have := h.lastsum hsy
      simpa [lastG, waitG, hch, hg'] using this
    · intro _ t ht hr hph
      rcases mem_upd (y := (Prog.go s k, g)) (new := []) (by simpa using ht) with ht | ⟨_, ht⟩
      · simp only [List.mem_singleton] at ht; subst ht; simp [hg', h3] at hph
      · exact h.mdone hsy t ht hr hph
    · intro t ht
      simp only [List.mem_cons, List.not_mem_nil, or_false] at ht
      rcases ht with rfl | rfl
      · intro _ hh; exact absurd h3 hh
      · simp [hch]
    · intro mf hall hP
      refine ⟨hP, ?_⟩
      have := hall n (by simp) (by rw [hch])
      rw [hch] at this; exact this
    · simp [PromOK, hch]

end Sorty
