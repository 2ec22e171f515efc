import Verif.Logic.Pres

/-! # Channel steps preserve the invariant; consequences of the invariant -/

namespace Sorty

variable {V Sp : Type} {P : Par V Sp} {S : Spec V Sp} {I : IPar V Sp}

theorem mem_comm {τ : Type} {L₂ L₃ : List τ} {x y x' y' t : τ} (h : t ∈ x' :: (L₂ ++ y' :: L₃)) :
    t = x' ∨ t = y' ∨ (t ∈ L₂ ++ L₃ ∧ t ∈ x :: (L₂ ++ y :: L₃)) := by
  simp at h ⊢; tauto

theorem pairwise_comm {L₂ L₃ : List (Th V Sp)} {x y : Th V Sp} :
    (x :: (L₂ ++ y :: L₃)).Pairwise Disj ↔
      Disj x y ∧ (∀ t ∈ L₂ ++ L₃, Disj x t) ∧ (∀ t ∈ L₂ ++ L₃, Disj y t) ∧ (L₂ ++ L₃).Pairwise Disj := by
  rw [List.pairwise_cons, pairwise_mid]
  constructor
  · rintro ⟨h1, h2, h3⟩
    exact ⟨h1 y (by simp), fun t ht => h1 t (mem_mid ht), h2, h3⟩
  · rintro ⟨h1, h2, h3, h4⟩
    refine ⟨?_, h3, h4⟩
    intro t ht
    simp only [List.mem_append, List.mem_cons] at ht
    rcases ht with ht | rfl | ht
    · exact h2 t (by simp [ht])
    · exact h1
    · exact h2 t (by simp [ht])

theorem Inv.head {c : Cfg V Sp} {t L} (h : Inv P S I c (t :: L)) : t.2.role = .main ∧ ∀ t' ∈ L, t'.2.role ≠ .main := by
  obtain ⟨rs, h1, h2⟩ := h.roles
  simp only [List.map_cons, List.cons.injEq] at h1
  obtain ⟨ha, rfl⟩ := h1
  exact ⟨ha, fun t' ht' hr => h2 (List.mem_map.2 ⟨t', ht', hr⟩)⟩

theorem Inv.commMain {c : Cfg V Sp} {L₂ L₃ v k k' g0 gs} (hsy : c.sh.sync = true)
    (h : Inv P S I c ((.recv k', g0) :: (L₂ ++ (.send v k, gs) :: L₃))) :
    ∃ ts, Inv P S I ⟨c.sh, k' v :: (L₂.map Prod.fst ++ k :: L₃.map Prod.fst)⟩ ts ∧
      rolesOf ts = rolesOf ((.recv k', g0) :: (L₂ ++ (.send v k, gs) :: L₃)) ∧
      ((∃ s post, g0.J = some (s, post) ∧ g0.role = .main ∧ g0.ph = .run ∧ gs.role = .part ∧ gs.ph = .run ∧
          (∃ m m', S.ppost s m v m') ∧ ownsOf ts = ⟨.main, .run, g0.W ∪ (S.W s ∪ S.R s), ∅, none⟩ ::
            (ownsOf L₂ ++ ⟨.part, .done, ∅, ∅, none⟩ :: ownsOf L₃)) ∨
        (g0.role = .main ∧ g0.ph = .wait ∧ gs.role = .sorter ∧ gs.ph = .last ∧
          ownsOf ts = ⟨.main, .done, g0.W, g0.R, none⟩ :: (ownsOf L₂ ++ ⟨.sorter, .done, gs.W, gs.R, none⟩ :: ownsOf L₃))) := by
  have hm0 : (Prog.recv k', g0) ∈ (Prog.recv k', g0) :: (L₂ ++ (Prog.send v k, gs) :: L₃) := by simp
  have hms : (Prog.send v k, gs) ∈ (Prog.recv k', g0) :: (L₂ ++ (Prog.send v k, gs) :: L₃) := by simp
  have hw0 : wp S (.recv k') g0 c.sh.mem endQ := h.wps _ hm0
  have hws : wp S (.send v k) gs c.sh.mem endQ := h.wps _ hms
  have hok0 : GhOK S g0 := h.ok _ hm0
  have hoks : GhOK S gs := h.ok _ hms
  obtain ⟨hr0, hrest⟩ := h.head
  have hr0 : g0.role = .main := hr0
  have hd := pairwise_comm.1 h.disj
  have hrestm : ∀ t ∈ L₂ ++ L₃, t.2.role ≠ .main := fun t ht => hrest t (mem_mid ht)
  have hcnt := h.cnt hsy
  have hlast := h.lastsum hsy
  rcases hw0 with ⟨_, h2, s, post, h3, h4⟩ | ⟨_, h2, h3⟩
  · -- end of concurrent partitioning
    have hng : c.sh.nGor ≠ 0 := by rw [hcnt]; simp [cntG, hr0, h2]
    rcases hws with ⟨hs1, hs2, hs3, hs4⟩ | ⟨hs1, hs2, _, _⟩
    swap
    · rw [if_neg hng] at hlast
      have : lastG gs ≤ _ := le_sumOf (f := lastG) hms
      rw [hlast] at this; simp [lastG, hs2] at this
    obtain ⟨e1, e2, e3⟩ := h.jlink _ hm0 _ hms s post h3 hs1 hs2
    have e1 : gs.W = S.W s := e1
    have e2 : gs.R = S.R s := e2
    have e3 : gs.pgoal = post := e3
    have hpp : ∃ m m', S.ppost s m v m' := by
      obtain ⟨m, hm⟩ := (hok0.r_J s post h3).2
      exact ⟨m, c.sh.mem, by rw [← hm, ← e3]; exact hs3⟩
    have hR0 : g0.R = S.R s := (hok0.r_J s post h3).1
    obtain ⟨_, _, hS0, hT0⟩ := hok0.j (by simp [h3])
    have hpr := h.jsum
    have hj0 : ∀ L : List (Th V Sp), (∀ t ∈ L, t ∈ L₂ ++ L₃) → sumOf jG L = 0 := by
      intro L hL
      by_contra hne
      obtain ⟨t, ht, hp⟩ := sumOf_pos (Nat.pos_of_ne_zero hne)
      have ok := h.ok t (by have := mem_mid (y := (Prog.send v k, gs)) (hL t ht); simp only [List.mem_cons]; exact .inr this)
      refine hrestm t (hL t ht) (ok.j ?_).1
      intro hh; simp [jG, hh] at hp
    have j2 := hj0 L₂ (fun t ht => by simp [ht])
    have j3 := hj0 L₃ (fun t ht => by simp [ht])
    have hjs : jG gs = 0 := by
      cases hJ : gs.J with
      | none => simp [jG, hJ]
      | some x => have := (hoks.j (by simp [hJ])).1; rw [hs1] at this; cases this
    have hJs : gs.J = none := by
      cases hJ : gs.J with
      | none => rfl
      | some x => simp [jG, hJ] at hjs
    have hp2 : sumOf prunG L₂ = 0 ∧ sumOf prunG L₃ = 0 := by
      have a1 : prunG g0 = 0 := by simp [prunG, hr0]
      have a2 : prunG gs = 1 := by simp [prunG, hs1, hs2]
      have a3 : jG g0 = 1 := by simp [jG, h3]
      simp only [sumOf_append, sumOf_cons, a1, a2, a3, hjs, j2, j3] at hpr
      omega
    have hnoJ : ∀ t ∈ L₂ ++ L₃, t.2.J = none := by
      intro t ht
      have := le_sumOf (f := jG) ht
      rw [sumOf_append, j2, j3] at this
      cases hJ : t.2.J with
      | none => rfl
      | some x => simp [jG, hJ] at this
    have hoth : ∀ t ∈ L₂ ++ L₃, t ∈ (Prog.recv k', g0) :: (L₂ ++ (Prog.send v k, gs) :: L₃) := by
      intro t ht; exact List.mem_cons_of_mem _ (mem_mid ht)
    have hRdis : ∀ t ∈ L₂ ++ L₃, Disjoint (S.R s) t.2.R := by
      intro t ht
      by_cases hr : t.2.role = .part
      · have ok := h.ok t (hoth t ht)
        have : t.2.ph = .done := by
          rcases ok.part_ph hr with hp | hp
          · exfalso
            have := le_sumOf (f := prunG) ht
            rw [sumOf_append, hp2.1, hp2.2] at this
            simp [prunG, hr, hp] at this
          · exact hp
        rw [ok.part_R hr this]; exact Set.disjoint_empty _
      · rw [← hR0]; exact (hd.2.1 t ht).2.2.2 (by simp [hr0]) hr
    set g0' : Gh V Sp := { g0 with W := g0.W ∪ (S.W s ∪ S.R s), R := ∅, J := none } with hg0'
    set gs' : Gh V Sp := { gs with W := ∅, R := ∅, ph := .done } with hgs'
    refine ⟨(k' v, g0') :: (L₂ ++ (k, gs') :: L₃), ?_, by simp [rolesOf, hg0', hgs'],
      .inl ⟨s, post, h3, hr0, h2, hs1, hs2, hpp, by simp [ownsOf, Gh.own, hg0', hgs', hr0, h2, hs1, hJs]⟩⟩
    have hmm : ∀ t, t ∈ (k' v, g0') :: (L₂ ++ (k, gs') :: L₃) → t = (k' v, g0') ∨ t = (k, gs') ∨
        (t ∈ L₂ ++ L₃ ∧ t ∈ (Prog.recv k', g0) :: (L₂ ++ (Prog.send v k, gs) :: L₃)) := fun t ht => mem_comm ht
    refine ⟨by simp, ?_, ?_, ?_, ?_, ?_, ?_, ?_, ?_, ?_, ?_, ?_, ?_, h.big', ?_, ?_, ?_, ?_, ?_, ?_, ?_⟩
    · intro t ht
      rcases hmm t ht with rfl | rfl | ⟨ha, hb⟩
      · exact h4 v c.sh.mem (Agree.refl _ _) (e3 ▸ hs3)
      · exact hs4
      · exact h.wps t hb
    · intro t ht
      rcases hmm t ht with rfl | rfl | ⟨ha, hb⟩
      · exact { hok0 with
          j := by simp [hg0']
          w_end := fun hh => absurd h2 hh
          r_run := by simp [hg0']
          r_J := by simp [hg0']
          part_R := by simp [hg0']
          pg := by intro hr; have hr : g0.role = .part := hr; rw [hr0] at hr; cases hr }
      · have hC : gs.C = true := (h.cflag (Prog.send v k, gs) hms).trans hsy
        have hS : gs.S = false := by
          cases hSS : gs.S with
          | false => rfl
          | true => exact absurd hs1 (hoks.s_run hSS).2
        have hT : gs.T = false := by
          cases hSS : gs.T with
          | false => rfl
          | true => exact absurd hs1 (hoks.t_run hSS).2.1
        have hJ : gs.J = none := by
          cases hJ : gs.J with
          | none => rfl
          | some x => have := (hoks.j (by simp [hJ])).1; rw [hs1] at this; cases this
        exact {
          s_run := by simp [hgs', hS]
          t_run := by simp [hgs', hT]
          sz_run := hoks.sz_run
          j := by simp [hgs', hJ]
          part_ph := by simp [hgs']
          main_ph := by simp [hgs']
          sorter_ph := by simp [hgs']
          c_false := by simp [hgs', hC]
          w_end := by simp [hgs']
          r_run := by simp [hgs']
          r_J := by simp [hgs', hJ]
          part_R := by simp [hgs']
          pg := by simp [hgs'] }
      · exact h.ok t hb
    · refine pairwise_comm.2 ⟨?_, ?_, ?_, hd.2.2.2⟩
      · simp [Disj, hg0', hgs']
      · intro t ht
        obtain ⟨a1, a2, a3, a4⟩ := hd.2.1 t ht
        obtain ⟨b1, b2, b3, b4⟩ := hd.2.2.1 t ht
        simp only [e1, e2] at b1 b2 b3
        refine ⟨?_, ?_, by simp [hg0'], by simp [hg0']⟩
        · exact Disjoint.sup_left a1 (Disjoint.sup_left b1 b3)
        · exact Disjoint.sup_left a2 (Disjoint.sup_left b2 (hRdis t ht))
      · intro t ht
        simp [Disj, hgs']
    · intro t ht
      rcases hmm t ht with rfl | rfl | ⟨ha, hb⟩
      · have a0 := h.sub (Prog.recv k', g0) hm0
        have as := h.sub (Prog.send v k, gs) hms
        simp only [e1, e2] at as
        exact ⟨Set.union_subset a0.1 (Set.union_subset as.1 as.2), Set.empty_subset _⟩
      · exact ⟨Set.empty_subset _, Set.empty_subset _⟩
      · exact h.sub t hb
    · simpa [hg0', hgs'] using h.roles
    · intro t ht
      rcases hmm t ht with rfl | rfl | ⟨ha, hb⟩
      · exact h.cflag (Prog.recv k', g0) hm0
      · exact h.cflag (Prog.send v k, gs) hms
      · exact h.cflag t hb
    · simp [hsy]
    · intro t ht
      rcases hmm t ht with rfl | rfl | ⟨ha, hb⟩
      · exact h.mg (Prog.recv k', g0) hm0
      · exact h.mg (Prog.send v k, gs) hms
      · exact h.mg t hb
    · intro _
      simpa [cntG, hg0', hgs', hs1] using hcnt
    · simpa [szG, hg0', hgs'] using h.szs
    · intro hst _
      have := h.bound hst hsy
      simpa [cntG, sG, hg0', hgs', hs1] using this
    · intro t ht hr
      rcases hmm t ht with rfl | rfl | ⟨ha, hb⟩
      · exact h.big (Prog.recv k', g0) hm0 hr
      · exact h.big (Prog.send v k, gs) hms hr
      · exact h.big t hb hr
    · have a1 : prunG g0' = 0 := by simp [prunG, hg0', hr0]
      have a2 : prunG gs' = 0 := by simp [prunG, hgs']
      have a3 : jG g0' = 0 := by simp [jG, hg0']
      have a4 : jG gs' = 0 := hjs
      simp [a1, a2, a3, a4, j2, j3, hp2]
    · intro t ht t' ht' s' post' hJ
      exfalso
      rcases hmm t ht with rfl | rfl | ⟨ha, hb⟩
      · simp [hg0'] at hJ
      · have : jG gs = 1 := by have hJ : gs.J = _ := hJ; simp [jG, hJ]
        omega
      · rw [hnoJ t ha] at hJ; cases hJ
    · intro _
      rw [if_neg hng] at hlast ⊢
      simp [lastG, hg0', hgs', hs2] at hlast ⊢
      exact hlast
    · intro _ t ht hr hp
      rcases hmm t ht with rfl | rfl | ⟨ha, hb⟩
      · simp [hg0', h2] at hp
      · simp [hgs', hs1] at hr
      · exact h.mdone hsy t hb hr hp
    · intro t ht hr hp
      rcases hmm t ht with rfl | rfl | ⟨ha, hb⟩
      · exact absurd h2 hp
      · exact absurd hs1 hr
      · exact h.fin t hb hr hp
    · have q1 := h.prom.upd (L₁ := []) (p' := k' v) (g' := g0') (new := []) rfl rfl (fun _ _ h => h) trivial
      simp only [List.nil_append, List.append_nil] at q1
      have q2 := PromOK.upd (L₁ := (k' v, g0') :: L₂) (L₂ := L₃) (p := .send v k) (g := gs) (p' := k) (g' := gs') (new := []) (by simpa using q1) rfl rfl (fun _ _ h => h) trivial
      simpa using q2
    · intro t ht hr
      rcases hmm t ht with rfl | rfl | ⟨ha, hb⟩
      · exact h.goal (Prog.recv k', g0) hm0 hr
      · exact h.goal (Prog.send v k, gs) hms hr
      · exact h.goal t hb hr
  · -- end signal
    have hJ0 : g0.J = none := by
      cases hJ : g0.J with
      | none => rfl
      | some x => have := (hok0.j (by simp [hJ])).2.1; rw [h2] at this; cases this
    rcases hws with ⟨hs1, hs2, _, _⟩ | ⟨hs1, hs2, hv, hs4⟩
    · exfalso
      have hpr := h.jsum
      have : prunG gs ≤ _ := le_sumOf (f := prunG) hms
      rw [hpr] at this
      have hp1 : prunG gs = 1 := by simp [prunG, hs1, hs2]
      obtain ⟨t, ht, hp⟩ := sumOf_pos (f := jG) (ts := (Prog.recv k', g0) :: (L₂ ++ (Prog.send v k, gs) :: L₃)) (by omega)
      have hne : t.2.J ≠ none := by intro hh; simp [jG, hh] at hp
      have := ((h.ok t ht).j hne).1
      rcases List.mem_cons.1 ht with rfl | ht
      · exact hne hJ0
      · exact hrest t ht this
    have hng : c.sh.nGor = 0 := by
      by_contra hne
      rw [if_neg hne] at hlast
      have : lastG gs ≤ _ := le_sumOf (f := lastG) hms
      rw [hlast] at this; simp [lastG, hs2] at this
    set g0' : Gh V Sp := { g0 with ph := .done } with hg0'
    set gs' : Gh V Sp := { gs with ph := .done } with hgs'
    have hW0 : g0.W = ∅ := hok0.w_end (by simp [h2])
    have hWs : gs.W = ∅ := hoks.w_end (by simp [hs2])
    have hC0 : g0.C = true := (h.cflag (Prog.recv k', g0) hm0).trans hsy
    have hCs : gs.C = true := (h.cflag (Prog.send v k, gs) hms).trans hsy
    have hS0 : g0.S = false := by
      cases hSS : g0.S with
      | false => rfl
      | true => have := (hok0.s_run hSS).1; simp [h2] at this
    have hT0 : g0.T = false := by
      cases hSS : g0.T with
      | false => rfl
      | true => have := (hok0.t_run hSS).1; simp [h2] at this
    have hSs : gs.S = false := by
      cases hSS : gs.S with
      | false => rfl
      | true => have := (hoks.s_run hSS).1; simp [hs2] at this
    have hTs : gs.T = false := by
      cases hSS : gs.T with
      | false => rfl
      | true => have := (hoks.t_run hSS).1; simp [hs2] at this
    have hJs : gs.J = none := by
      cases hJ : gs.J with
      | none => rfl
      | some x => have := (hoks.j (by simp [hJ])).1; rw [hs1] at this; cases this
    refine ⟨(k' v, g0') :: (L₂ ++ (k, gs') :: L₃), ?_, by simp [rolesOf, hg0', hgs'],
      .inr ⟨hr0, h2, hs1, hs2, by simp [ownsOf, Gh.own, hg0', hgs', hr0, hs1, hJ0, hJs]⟩⟩
    have hmm : ∀ t, t ∈ (k' v, g0') :: (L₂ ++ (k, gs') :: L₃) → t = (k' v, g0') ∨ t = (k, gs') ∨
        (t ∈ L₂ ++ L₃ ∧ t ∈ (Prog.recv k', g0) :: (L₂ ++ (Prog.send v k, gs) :: L₃)) := fun t ht => mem_comm ht
    refine ⟨by simp, ?_, ?_, ?_, ?_, ?_, ?_, ?_, ?_, ?_, ?_, ?_, ?_, h.big', ?_, ?_, ?_, ?_, ?_, ?_, ?_⟩
    · intro t ht
      rcases hmm t ht with rfl | rfl | ⟨ha, hb⟩
      · exact h3 v
      · exact hs4
      · exact h.wps t hb
    · intro t ht
      rcases hmm t ht with rfl | rfl | ⟨ha, hb⟩
      · exact {
          s_run := by simp [hg0', hS0]
          t_run := by simp [hg0', hT0]
          sz_run := hok0.sz_run
          j := by simp [hg0', hJ0]
          part_ph := by simp [hg0']
          main_ph := by simp [hg0']
          sorter_ph := by simp [hg0']
          c_false := by simp [hg0', hC0]
          w_end := by simp [hg0', hW0]
          r_run := by simp [hg0']
          r_J := by simp [hg0', hJ0]
          part_R := by simp [hg0', hr0]
          pg := by simp [hg0'] }
      · exact {
          s_run := by simp [hgs', hSs]
          t_run := by simp [hgs', hTs]
          sz_run := hoks.sz_run
          j := by simp [hgs', hJs]
          part_ph := by simp [hgs']
          main_ph := by simp [hgs']
          sorter_ph := by simp [hgs']
          c_false := by simp [hgs', hCs]
          w_end := by simp [hgs', hWs]
          r_run := by simp [hgs']
          r_J := by simp [hgs', hJs]
          part_R := by simp [hgs', hs1]
          pg := by simp [hgs'] }
      · exact h.ok t hb
    · exact pairwise_comm.2 hd
    · intro t ht
      rcases hmm t ht with rfl | rfl | ⟨ha, hb⟩
      · exact h.sub (Prog.recv k', g0) hm0
      · exact h.sub (Prog.send v k, gs) hms
      · exact h.sub t hb
    · simpa [hg0', hgs'] using h.roles
    · intro t ht
      rcases hmm t ht with rfl | rfl | ⟨ha, hb⟩
      · exact h.cflag (Prog.recv k', g0) hm0
      · exact h.cflag (Prog.send v k, gs) hms
      · exact h.cflag t hb
    · simp [hsy]
    · intro t ht
      rcases hmm t ht with rfl | rfl | ⟨ha, hb⟩
      · exact h.mg (Prog.recv k', g0) hm0
      · exact h.mg (Prog.send v k, gs) hms
      · exact h.mg t hb
    · intro _
      simpa [cntG, hg0', hgs', h2, hs2] using hcnt
    · simpa [szG, hg0', hgs'] using h.szs
    · intro hst _
      have := h.bound hst hsy
      simpa [cntG, sG, hg0', hgs', h2, hs2] using this
    · intro t ht hr
      rcases hmm t ht with rfl | rfl | ⟨ha, hb⟩
      · exact h.big (Prog.recv k', g0) hm0 hr
      · exact h.big (Prog.send v k, gs) hms hr
      · exact h.big t hb hr
    · have := h.jsum
      simpa [prunG, jG, hg0', hgs', h2, hs2] using this
    · intro t ht t' ht' s' post' hJ hr hp
      rcases hmm t ht with rfl | rfl | ⟨ha, hb⟩
      · simp [hg0', hJ0] at hJ
      · simp [hgs', hJs] at hJ
      · rcases hmm t' ht' with rfl | rfl | ⟨ha', hb'⟩
        · simp [hg0'] at hp
        · simp [hgs'] at hp
        · exact h.jlink t hb t' hb' s' post' hJ hr hp
    · intro _
      rw [if_pos hng] at hlast ⊢
      simp [lastG, waitG, hg0', hgs', h2, hs2] at hlast ⊢
      omega
    · intro _ _ _ _ _; exact hng
    · intro t ht hr hp
      rcases hmm t ht with rfl | rfl | ⟨ha, hb⟩
      · exact h.fin (Prog.recv k', g0) hm0 hr (by simp [h2])
      · exact h.fin (Prog.send v k, gs) hms hr (by simp [hs2])
      · exact h.fin t hb hr hp
    · have q1 := h.prom.upd (L₁ := []) (p' := k' v) (g' := g0') (new := []) rfl rfl (fun _ _ h => h) trivial
      simp only [List.nil_append, List.append_nil] at q1
      have q2 := PromOK.upd (L₁ := (k' v, g0') :: L₂) (L₂ := L₃) (p := .send v k) (g := gs) (p' := k) (g' := gs') (new := []) (by simpa using q1) rfl rfl (fun _ _ h => h) trivial
      simpa using q2
    · intro t ht hr
      rcases hmm t ht with rfl | rfl | ⟨ha, hb⟩
      · exact h.goal (Prog.recv k', g0) hm0 hr
      · exact h.goal (Prog.send v k, gs) hms hr
      · exact h.goal t hb hr

end Sorty
