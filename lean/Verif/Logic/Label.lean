import Verif.Logic.Safe

/-! # Which goroutine is which

The invariant with the record of started goroutines, and what it says about the channel.
-/

namespace Sorty

variable {V Sp : Type} {P : Par V Sp} {S : Spec V Sp} {I : IPar V Sp}

theorem Step.len {c c' : Cfg V Sp} (h : Step P c c') : (c'.ths.length = c.ths.length) ∨
    ∃ l₁ l₂ sh s k, c = ⟨sh, l₁ ++ .go s k :: l₂⟩ ∧ c' = ⟨sh, l₁ ++ k :: l₂ ++ [P.body s]⟩ := by
  cases h with
  | tau l₁ l₂ sh p sh' p' new ht =>
    cases ht with
    | go s k => exact .inr ⟨l₁, l₂, sh, s, p', rfl, rfl⟩
    | _ => left; simp
  | commSR => left; simp
  | commRS => left; simp

/-- every execution has a record -/
theorem Steps.label {c0 c : Cfg V Sp} (h : Steps P c0 c) : ∃ ds, LSteps P c0 c ds := by
  induction h with
  | refl => exact ⟨[], .refl⟩
  | tail _ hs ih =>
    obtain ⟨ds, h⟩ := ih
    rcases hs.len with hl | ⟨l₁, l₂, sh, s, k, rfl, rfl⟩
    · exact ⟨ds, h.quiet hs hl⟩
    · exact ⟨_, h.spawn⟩

/-- recorded executions are executions -/
theorem LSteps.steps {c0 c : Cfg V Sp} {ds} (h : LSteps P c0 c ds) : Steps P c0 c := by
  induction h with
  | refl => exact .refl _
  | quiet _ hs _ ih => exact .tail ih hs
  | spawn _ ih => exact .tail ih (.tau _ _ _ _ _ _ _ (.go _ _ _))

theorem LSteps.length {c0 c : Cfg V Sp} {ds} (h : LSteps P c0 c ds) : c.ths.length = c0.ths.length + ds.length := by
  induction h with
  | refl => simp
  | quiet _ _ hl ih => omega
  | spawn _ ih => simp at ih ⊢; omega

theorem Inv.label (H : Hyp P S I) {p : Prog V Sp Unit} {m : Mem V} {c : Cfg V Sp} {ds} (h : LSteps P (Sorty.start p m) c ds)
    (h0 : ∃ ts, Inv P S I (Sorty.start p m) ts) : ∃ ts, Inv P S I c ts ∧ rolesOf ts = .main :: ds.map (childRole S) := by
  induction h with
  | refl =>
    obtain ⟨ts, h⟩ := h0
    refine ⟨ts, h, ?_⟩
    obtain ⟨rs, h1, h2⟩ := h.roles
    have hl : ts.length = 1 := by have := congrArg List.length h.ths; simpa [Sorty.start] using this.symm
    have hl' := congrArg List.length h1
    simp only [List.length_map, hl, List.length_cons] at hl'
    have : rs = [] := List.eq_nil_of_length_eq_zero (by omega)
    subst this
    simpa [rolesOf] using h1
  | @quiet c c' ds _ hs hl ih =>
    obtain ⟨ts, h, hr⟩ := ih
    obtain ⟨ts', h', new, hn⟩ := h.step' H hs
    refine ⟨ts', h', ?_⟩
    have h1 := congrArg List.length h.ths
    have h2 := congrArg List.length h'.ths
    have h3 := congrArg List.length hn
    simp only [List.length_map] at h1 h2
    simp only [rolesOf, List.length_map, List.length_append] at h3
    have : new = [] := List.eq_nil_of_length_eq_zero (by omega)
    subst this
    rw [hn, hr, List.append_nil]
  | @spawn l₁ l₂ sh s k ds _ ih =>
    obtain ⟨ts, h, hr⟩ := ih
    obtain ⟨L₁, g, L₂, rfl, rfl, rfl⟩ := split_ths h.ths
    obtain ⟨ts', h', hn⟩ := h.go H.loc H.body
    exact ⟨ts', h', by rw [hn.1, hr]; simp⟩

/-- only the main goroutine is ever about to create the channel, and only while there is none and no other goroutine -/
theorem Inv.make_main {c : Cfg V Sp} {ts} (h : Inv P S I c ts) {p} (hp : p ∈ c.ths) {k} (hk : p = .mkSync k) :
    c.sh.sync = false ∧ c.ths.length = 1 := by
  subst hk
  rw [h.ths] at hp
  obtain ⟨t, ht, he⟩ := List.mem_map.1 hp
  have hw := h.wps t ht
  rw [he] at hw
  have hc : c.sh.sync = false := (h.cflag t ht).symm.trans hw.2.2.1
  exact ⟨hc, by rw [h.ths, List.length_map]; exact h.nosync hc⟩

theorem Inv.recv_main {c : Cfg V Sp} {ts} (h : Inv P S I c ts) {i k} (hi : c.ths[i]? = some (.recv k)) : i = 0 := by
  rw [h.ths, List.getElem?_map] at hi
  simp only [Option.map_eq_some_iff] at hi
  obtain ⟨t, ht, he⟩ := hi
  have hw := h.wps t (List.mem_of_getElem? ht)
  rw [he] at hw
  have hr : t.2.role = .main := by rcases hw with hw | hw <;> exact hw.1
  cases ts with
  | nil => simp at ht
  | cons t0 L =>
    cases i with
    | zero => rfl
    | succ i =>
      simp only [List.getElem?_cons_succ] at ht
      exact absurd hr (h.head.2 t (List.mem_of_getElem? ht))

theorem Inv.send_role {c : Cfg V Sp} {ts} (h : Inv P S I c ts) {t v k} (ht : t ∈ ts) (he : t.1 = .send v k) :
    (t.2.role = .part ∧ t.2.ph = .run ∧ t.2.pgoal v c.sh.mem) ∨ (t.2.role = .sorter ∧ t.2.ph = .last) := by
  have hw := h.wps t ht
  rw [he] at hw
  rcases hw with hw | hw
  · exact .inl ⟨hw.1, hw.2.1, hw.2.2.1⟩
  · exact .inr ⟨hw.1, hw.2.1⟩

theorem Inv.main_J {c : Cfg V Sp} {t0 L t} (h : Inv P S I c (t0 :: L)) (ht : t ∈ t0 :: L) (hr : t.2.role = .part)
    (hp : t.2.ph = .run) : ∃ s post, t0.2.J = some (s, post) ∧ t.2.pgoal = post ∧ t0.2.ph = .run := by
  have h1 := le_sumOf (f := prunG) ht
  have h2 : prunG t.2 = 1 := by simp [prunG, hr, hp]
  have h3 : 0 < sumOf jG (t0 :: L) := by have := h.jsum; omega
  obtain ⟨t', ht', hj⟩ := sumOf_pos h3
  have hJ : t'.2.J ≠ none := by intro hh; simp [jG, hh] at hj
  have hok := (h.ok t' ht').j hJ
  have : t' = t0 := by
    rcases List.mem_cons.1 ht' with rfl | hm
    · rfl
    · exact absurd hok.1 (h.head.2 _ hm)
  subst this
  obtain ⟨⟨s, post⟩, hs⟩ := Option.ne_none_iff_exists'.1 hJ
  exact ⟨s, post, hs, (h.jlink _ ht' _ ht s post hs hr hp).2.2, hok.2.1⟩

/-- Who may talk to whom over the channel. -/
theorem Inv.channel {c : Cfg V Sp} {ts} {ds : List Sp} (h : Inv P S I c ts) (hr : rolesOf ts = .main :: ds.map (childRole S))
    (k : Int → Prog V Sp Unit) (i : Nat) (s : Sp) (v : Int) (k' : Prog V Sp Unit) (h0 : c.ths[0]? = some (.recv k))
    (hi : c.ths[i + 1]? = some (.send v k')) (hds : ds[i]? = some s) : S.isPart s = true ↔ k v ≠ .ret () := by
  rw [h.ths, List.getElem?_map] at h0 hi
  simp only [Option.map_eq_some_iff] at h0 hi
  obtain ⟨t0, ht0, he0⟩ := h0
  obtain ⟨t, ht, he⟩ := hi
  have hrole : t.2.role = childRole S s := by
    have : (rolesOf ts)[i + 1]? = some t.2.role := by simp [rolesOf, ht]
    rw [hr] at this
    simp only [List.getElem?_cons_succ, List.getElem?_map, hds, Option.map_some, Option.some.injEq] at this
    exact this.symm
  cases ts with
  | nil => simp at ht0
  | cons t1 L =>
    simp only [List.getElem?_cons_zero, Option.some.injEq] at ht0
    subst ht0
    have htm : t ∈ t1 :: L := List.mem_of_getElem? ht
    have hw0 := h.wps t1 (by simp)
    rw [he0] at hw0
    have hok0 := h.ok t1 (by simp)
    rcases h.send_role htm he with ⟨h1, h2, h3⟩ | ⟨h1, h2⟩
    · -- a partition goroutine
      have hp : S.isPart s = true := by
        by_contra hh; rw [hrole] at h1; simp [childRole, hh] at h1
      obtain ⟨s', post, hJ, hpg, hph⟩ := h.main_J htm h1 h2
      refine ⟨fun _ hret => ?_, fun _ => hp⟩
      rcases hw0 with ⟨_, _, s'', post', hJ', hk⟩ | ⟨_, hph', _⟩
      · rw [hJ] at hJ'
        simp only [Option.some.injEq, Prod.mk.injEq] at hJ'
        obtain ⟨rfl, rfl⟩ := hJ'
        have hwk := hk v c.sh.mem (Agree.refl _ _) (hpg ▸ h3)
        rw [hret] at hwk
        rcases hwk with hd | ⟨_, hC, _⟩
        · simp [hph] at hd
        · have := (hok0.c_false hC).2.2.2
          have hS := (hok0.j (by simp [hJ])).2.2.1
          simp_all
      · simp [hph] at hph'
    · have hp : ¬ S.isPart s = true := by
        intro hh; rw [hrole] at h1; simp [childRole, hh] at h1
      refine ⟨fun hh => absurd hh hp, fun hne => ?_⟩
      exfalso
      have hC : t.2.C = true := by
        cases hC : t.2.C with
        | true => rfl
        | false => have := ((h.ok t htm).c_false hC).2.1; simp [h2] at this
      have hsy : c.sh.sync = true := (h.cflag t htm).symm.trans hC
      have hl := h.lastsum hsy
      have h4 := le_sumOf (f := lastG) htm
      have h5 : lastG t.2 = 1 := by simp [lastG, h2]
      have hng : c.sh.nGor = 0 := by
        by_contra hh; rw [if_neg hh] at hl; omega
      rcases hw0 with ⟨hm, hph', _⟩ | ⟨_, _, hk⟩
      · have h6 := h.cnt hsy
        have h7 := le_sumOf (f := cntG) (List.mem_cons_self (a := t1) (l := L))
        have : cntG t1.2 ≥ 1 := by simp [cntG, hm, hph']
        omega
      · exact hne (done_ret (hk v) rfl)

/-- at most one partition goroutine at a time -/
theorem Inv.one_part {c : Cfg V Sp} {ts} {ds : List Sp} (h : Inv P S I c ts) (hr : rolesOf ts = .main :: ds.map (childRole S))
    {i j : Nat} {s s' : Sp} {p p' : Prog V Sp Unit} (hi : ds[i]? = some s) (hj : ds[j]? = some s')
    (hp : S.isPart s = true) (hp' : S.isPart s' = true) (h1 : c.ths[i + 1]? = some p) (h2 : c.ths[j + 1]? = some p')
    (hne : p ≠ .ret ()) (hne' : p' ≠ .ret ()) : i = j := by
  rw [h.ths, List.getElem?_map] at h1 h2
  simp only [Option.map_eq_some_iff] at h1 h2
  obtain ⟨t, ht, rfl⟩ := h1
  obtain ⟨t', ht', rfl⟩ := h2
  have hrole : ∀ {i s t}, ts[i + 1]? = some t → ds[i]? = some s → S.isPart s = true → t.2.role = .part := by
    intro i s t ht hds hp
    have : (rolesOf ts)[i + 1]? = some t.2.role := by simp [rolesOf, ht]
    rw [hr] at this
    simp only [List.getElem?_cons_succ, List.getElem?_map, hds, Option.map_some, Option.some.injEq] at this
    rw [← this]; simp [childRole, hp]
  have hrun : ∀ {t}, t ∈ ts → t.2.role = .part → t.1 ≠ .ret () → prunG t.2 = 1 := by
    intro t ht hr hne
    rcases (h.ok t ht).part_ph hr with hp | hp
    · simp [prunG, hr, hp]
    · exact absurd (done_ret (h.wps t ht) hp) hne
  have e1 := hrun (List.mem_of_getElem? ht) (hrole ht hi hp) hne
  have e2 := hrun (List.mem_of_getElem? ht') (hrole ht' hj hp') hne'
  by_contra hij
  have hle : sumOf prunG ts ≤ 1 := by have := h.j_le; have := h.jsum; omega
  have key : ∀ {a b : Nat} {x y : Th V Sp} (l : List (Th V Sp)), a < b → l[a]? = some x → l[b]? = some y → prunG x.2 = 1 →
      prunG y.2 = 1 → 2 ≤ sumOf prunG l := by
    intro a b x y l
    induction l generalizing a b with
    | nil => intro _ h; simp at h
    | cons z l ih =>
      intro hab ha hb hx hy
      cases b with
      | zero => omega
      | succ b =>
        simp only [List.getElem?_cons_succ] at hb
        cases a with
        | zero =>
          simp only [List.getElem?_cons_zero, Option.some.injEq] at ha
          subst ha
          have := le_sumOf (f := prunG) (List.mem_of_getElem? hb)
          simp; omega
        | succ a =>
          simp only [List.getElem?_cons_succ] at ha
          have := ih (by omega) ha hb hx hy
          simp; omega
  rcases Nat.lt_or_gt_of_ne hij with hlt | hlt
  · have := key ts (by omega : i + 1 < j + 1) ht ht' e1 e2; omega
  · have := key ts (by omega : j + 1 < i + 1) ht' ht e2 e1; omega

end Sorty
