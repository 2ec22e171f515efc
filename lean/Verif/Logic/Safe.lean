import Verif.Logic.Comm

/-! # Consequences of the invariant -/

namespace Sorty

variable {V Sp : Type} {P : Par V Sp} {S : Spec V Sp} {I : IPar V Sp}

/-- assumptions of the invariant -/
structure Hyp (P : Par V Sp) (S : Spec V Sp) (I : IPar V Sp) : Prop where
  loc : S.Local
  body : BodyOK P S
  N : I.N < 2 ^ 64
  cmp : ∀ i j x y b, P.cmp i j x y b → S.cmp i j x y b
  tot : ∀ i j x y, ∃ b, P.cmp i j x y b

theorem split_ths {l₁ l₂ : List (Prog V Sp Unit)} {p} {ts : List (Th V Sp)} (h : l₁ ++ p :: l₂ = ts.map Prod.fst) :
    ∃ L₁ g L₂, ts = L₁ ++ (p, g) :: L₂ ∧ L₁.map Prod.fst = l₁ ∧ L₂.map Prod.fst = l₂ := by
  obtain ⟨L₁, L', h1, h2, h3⟩ := List.map_eq_append_iff.1 h.symm
  obtain ⟨t, L₂, h4, h5, h6⟩ := List.map_eq_cons_iff.1 h3
  subst h1 h4
  exact ⟨L₁, t.2, L₂, by rw [← h5], h2, h6⟩

theorem Inv.step' (H : Hyp P S I) {c c' : Cfg V Sp} {ts} (h : Inv P S I c ts) (hs : Step P c c') :
    ∃ ts', Inv P S I c' ts' ∧ ∃ new, rolesOf ts' = rolesOf ts ++ new := by
  cases hs with
  | tau l₁ l₂ sh p sh' p' new ht =>
    obtain ⟨L₁, g, L₂, rfl, rfl, rfl⟩ := split_ths h.ths
    have hg0 : (p, g) ∈ L₁ ++ (p, g) :: L₂ := by simp
    have hok : GhOK S g := h.ok _ hg0
    have hmg : g.mg ≤ P.M := h.mg _ hg0
    have hcf : g.C = sh.sync := h.cflag _ hg0
    have hw : wp S p g sh.mem endQ := h.wps _ hg0
    have hsame : g.S = true → g.ph = .run ∧ g.role ≠ .part ∧ g.C = true := by
      intro hS
      refine ⟨(hok.s_run hS).1, (hok.s_run hS).2, ?_⟩
      cases hC : g.C with
      | true => rfl
      | false => have := (hok.c_false hC).2.2.2; simp_all
    have hb : ¬ P.stale → sh.sync = true → g.S = true → sG g = 1 ∨ sh.nGor < P.M := by
      intro _ _ hS; left; simp [sG, hS]
    cases ht with
    | read i k =>
      refine ⟨_, by simpa using h.upd H.loc sh.mem (k (sh.mem i)) g.S g.mg (fun _ _ => rfl) (hw.2 _ fun _ => rfl) hsame (fun hj => (hok.j hj).2.2.1) hmg hb, [], by simp [rolesOf]⟩
    | write i v k =>
      have hm : ∀ j ∉ g.W, sh.mem j = Function.update sh.mem i v j := by
        intro j hj
        have : j ≠ i := by rintro rfl; exact hj hw.1.2
        simp [this]
      exact ⟨_, by simpa using h.upd H.loc (Function.update sh.mem i v) p' g.S g.mg hm hw.2 hsame (fun hj => (hok.j hj).2.2.1) hmg hb, [], by simp [rolesOf]⟩
    | less i j x y k b hbb =>
      refine ⟨_, by simpa using h.upd H.loc sh.mem (k b) g.S g.mg (fun _ _ => rfl) (hw.2 b (H.cmp _ _ _ _ _ hbb)) hsame (fun hj => (hok.j hj).2.2.1) hmg hb, [], by simp [rolesOf]⟩
    | maxGor k n hn =>
      refine ⟨_, by simpa using h.upd H.loc sh.mem (k n) g.S n (fun _ _ => rfl) (hw.2 n) hsame (fun hj => (hok.j hj).2.2.1) hn hb, [], by simp [rolesOf]⟩
    | loadGor k n hsy hn =>
      obtain ⟨h1, h2, h3, h4, h5⟩ := hw
      have hb' : ¬ P.stale → sh.sync = true → decide (n < g.mg) = true → sG g = 1 ∨ sh.nGor < P.M := by
        intro hst _ hS
        right
        have hS : n < g.mg := by simpa using hS
        rcases hn with hn | hn
        · exact absurd hn hst
        · omega
      exact ⟨_, by simpa using h.upd H.loc sh.mem (k n) (decide (n < g.mg)) g.mg (fun _ _ => rfl) (h5 n) (fun _ => ⟨h2, h3, h1⟩) (fun hj => absurd h4 hj) hmg hb', [], by simp [rolesOf]⟩
    | loadNil k hsy =>
      have hw1 := hw.1
      simp [hcf] at hw1; simp [hw1] at hsy
    | incGor k hsy =>
      obtain ⟨ts', h1, h2⟩ := h.inc H.loc H.N
      exact ⟨ts', by simpa using h1, [], by simpa using h2.1⟩
    | incNil k hsy =>
      have hw1 := hw.1
      simp [hcf] at hw1; simp [hw1] at hsy
    | decGor k hsy =>
      obtain ⟨ts', h1, h2⟩ := h.dec H.loc H.N
      exact ⟨ts', by simpa using h1, [], by simpa using h2.1⟩
    | decNil k hsy =>
      have hw1 := hw.1
      simp [hcf] at hw1; simp [hw1] at hsy
    | mkSync k =>
      obtain ⟨ts', h1, h2⟩ := h.mkSync H.loc
      exact ⟨ts', by simpa using h1, [], by simpa using h2.1⟩
    | go s k =>
      obtain ⟨ts', h1, h2⟩ := h.go H.loc H.body
      exact ⟨ts', by simpa using h1, _, h2.1⟩
  | commSR l₁ l₂ l₃ sh v k k' hsy =>
    exfalso
    have hths : (l₁ ++ .send v k :: l₂) ++ .recv k' :: l₃ = ts.map Prod.fst := by simpa using h.ths
    obtain ⟨L₁, g, L₂, rfl, h1, h2⟩ := split_ths hths
    have hg0 : (.recv k', g) ∈ L₁ ++ (.recv k', g) :: L₂ := by simp
    have hw : wp S (.recv k') g sh.mem endQ := h.wps _ hg0
    have hr : g.role = .main := by rcases hw with h | h <;> exact h.1
    obtain ⟨rs, h3, h4⟩ := h.roles
    cases L₁ with
    | nil => simp at h1
    | cons t L₁ =>
      simp only [List.cons_append, List.map_cons, List.cons.injEq] at h3
      rw [← h3.2] at h4
      simp [hr] at h4
  | commRS l₁ l₂ l₃ sh v k k' hsy =>
    have hths : l₁ ++ .recv k' :: (l₂ ++ .send v k :: l₃) = ts.map Prod.fst := by simpa using h.ths
    obtain ⟨L₁, g, L', rfl, h1, h2⟩ := split_ths hths
    obtain ⟨L₂, gs, L₃, rfl, h3, h4⟩ := split_ths h2.symm
    have hg0 : (.recv k', g) ∈ L₁ ++ (.recv k', g) :: (L₂ ++ (.send v k, gs) :: L₃) := by simp
    have hw : wp S (.recv k') g sh.mem endQ := h.wps _ hg0
    have hr : g.role = .main := by rcases hw with h | h <;> exact h.1
    have hL₁ : L₁ = [] := by
      obtain ⟨rs, h3, h4⟩ := h.roles
      cases L₁ with
      | nil => rfl
      | cons t L₁ =>
        simp only [List.cons_append, List.map_cons, List.cons.injEq] at h3
        rw [← h3.2] at h4
        simp [hr] at h4
    subst hL₁
    simp only [List.map_nil] at h1
    subst h1 h3 h4
    obtain ⟨ts', h1, h2⟩ := h.commMain hsy
    exact ⟨ts', by simpa using h1, [], by simpa using h2.1⟩

theorem Inv.step (H : Hyp P S I) {c c' : Cfg V Sp} {ts} (h : Inv P S I c ts) (hs : Step P c c') :
    ∃ ts', Inv P S I c' ts' := by
  obtain ⟨ts', h', _⟩ := h.step' H hs
  exact ⟨ts', h'⟩

/-- a step of the environment outside the slice -/
theorem Inv.env (H : Hyp P S I) {sh : Sh V} {ths ts m'} (h : Inv P S I ⟨sh, ths⟩ ts) (hm : Agree I.W0 sh.mem m') :
    Inv P S I ⟨{ sh with mem := m' }, ths⟩ ts := by
  have hag : ∀ t ∈ ts, Agree (t.2.W ∪ t.2.R) sh.mem m' := fun t ht =>
    hm.mono (Set.union_subset (h.sub t ht).1 (h.sub t ht).2)
  exact { h with
    wps := fun t ht => wp_agree H.loc endQ_agree (hag t ht)
      (fun hr v m m' ha hp => (h.ok t ht).pg hr hp v m m' ha) (h.wps t ht)
    fin := fun t ht hr hp mf hP hA =>
      h.fin t ht hr hp mf hP (((hag t ht).mono Set.subset_union_right).trans hA) }

theorem Inv.estep (H : Hyp P S I) {c c' : Cfg V Sp} {ts} (h : Inv P S I c ts) (hs : EStep P (· ∈ I.W0) c c') :
    ∃ ts', Inv P S I c' ts' := by
  cases hs with
  | own hs => exact h.step H hs
  | env sh m' ths hm => exact ⟨ts, h.env H hm⟩

theorem Inv.esteps (H : Hyp P S I) {c c' : Cfg V Sp} (h : ∃ ts, Inv P S I c ts) (hs : ESteps P (· ∈ I.W0) c c') :
    ∃ ts', Inv P S I c' ts' := by
  induction hs with
  | refl => exact h
  | tail _ hs ih => obtain ⟨ts, h⟩ := ih; exact h.estep H hs

theorem Steps.toE {W : Nat → Prop} {c c' : Cfg V Sp} (h : Steps P c c') : ESteps P W c c' := by
  induction h with
  | refl => exact .refl _
  | tail _ hs ih => exact .tail ih (.own hs)

/-- ghost state of the caller at the start -/
def mainGh (W : Set Nat) (goal : Mem V → Prop) (big : Bool) (sz : Nat) : Gh V Sp :=
  { role := .main, ph := .run, W := W, R := ∅, P := fun _ => True, goal := goal, pgoal := fun _ _ => True,
    J := none, T := false, S := false, mg := 0, C := false, big := big, sz := sz }

theorem Inv.start_at {p : Prog V Sp Unit} {m : Mem V} {n : Nat} (hn : n ≤ I.N)
    (h : wp S p (mainGh I.W0 I.G I.big n) m endQ) : Inv P S I (start p m) [(p, mainGh I.W0 I.G I.big n)] := by
  refine ⟨by simp [Sorty.start], ?_, ?_, by simp, ?_, ⟨[], by simp [mainGh]⟩, ?_, by simp, ?_, by simp [Sorty.start], ?_, by simp [Sorty.start], ?_, by simp [Sorty.start], ?_, ?_, by simp [Sorty.start], by simp [Sorty.start], ?_, ?_, ?_⟩
  · simpa [Sorty.start] using h
  · simp only [List.mem_singleton, forall_eq]
    exact { s_run := by simp [mainGh], t_run := by simp [mainGh], sz_run := by simp [mainGh], j := by simp [mainGh], part_ph := by simp [mainGh], main_ph := by simp [mainGh], sorter_ph := by simp [mainGh], c_false := by simp [mainGh], w_end := by simp [mainGh], r_run := by simp [mainGh], r_J := by simp [mainGh], part_R := by simp [mainGh], pg := by simp [mainGh] }
  · simp [mainGh]
  · simp [mainGh, Sorty.start]
  · simp [mainGh]
  · simpa [szG, mainGh] using hn
  · simp [mainGh]
  · simp [prunG, jG, mainGh]
  · simp [mainGh]
  · simp [mainGh]
  · simp [PromOK, mainGh]
  · simp [mainGh]

theorem Inv.start {p : Prog V Sp Unit} {m : Mem V} {n : Nat} (hn : n ≤ I.N)
    (h : wp S p (mainGh I.W0 I.G I.big n) m endQ) : ∃ ts, Inv P S I (start p m) ts := ⟨_, Inv.start_at hn h⟩

/-! ## consequences -/

theorem wp_panic_cases {p : Prog V Sp Unit} {g : Gh V Sp} {m} (h : wp S p g m endQ) :
    p ≠ .panic ∧ p ≠ .overflow ∧ p ≠ .diverge := by
  refine ⟨?_, ?_, ?_⟩ <;> rintro rfl <;> exact h

theorem Inv.not_wrong {c : Cfg V Sp} {ts} (h : Inv P S I c ts) : ¬ Wrong c := by
  have key : ∀ p ∈ c.ths, p ≠ .panic ∧ p ≠ .overflow ∧ p ≠ .diverge := by
    intro p hp
    rw [h.ths] at hp
    obtain ⟨t, ht, rfl⟩ := List.mem_map.1 hp
    exact wp_panic_cases (h.wps t ht)
  rintro (hw | hw | hw)
  · exact (key _ hw).1 rfl
  · exact (key _ hw).2.1 rfl
  · exact (key _ hw).2.2 rfl

theorem access_mem {p : Prog V Sp Unit} {g : Gh V Sp} {m i w} (h : wp S p g m endQ) (ha : p.access = some (i, w)) :
    ((i ∈ g.W ∨ i ∈ g.R) ∨ i ∈ S.racy) ∧ (w = true → i ∈ g.W) := by
  cases p with
  | read j k => simp [Prog.access] at ha; obtain ⟨rfl, rfl⟩ := ha; exact ⟨h.1.2, by simp⟩
  | write j v k => simp [Prog.access] at ha; obtain ⟨rfl, rfl⟩ := ha; exact ⟨.inl (.inl h.1.2), fun _ => h.1.2⟩
  | _ => simp [Prog.access] at ha

/-- no two goroutines are about to store to one address -/
theorem Inv.not_wrace {c : Cfg V Sp} {ts} (h : Inv P S I c ts) {a b : Nat} {p q : Prog V Sp Unit} {i : Nat} (hab : a ≠ b)
    (hp : c.ths[a]? = some p) (hq : c.ths[b]? = some q) (ha : p.access = some (i, true)) (hb : q.access = some (i, true)) : False := by
  rw [h.ths, List.getElem?_map] at hp hq
  simp only [Option.map_eq_some_iff] at hp hq
  obtain ⟨t, ht, rfl⟩ := hp
  obtain ⟨t', ht', rfl⟩ := hq
  have x2 := (access_mem (h.wps t (List.mem_of_getElem? ht)) ha).2 rfl
  have y2 := (access_mem (h.wps t' (List.mem_of_getElem? ht')) hb).2 rfl
  have hpw := List.pairwise_iff_getElem.1 h.disj
  obtain ⟨h1, h1'⟩ := List.getElem?_eq_some_iff.1 ht
  obtain ⟨h2, h2'⟩ := List.getElem?_eq_some_iff.1 ht'
  rcases Nat.lt_or_gt_of_ne hab with hlt | hlt
  · have := hpw a b h1 h2 hlt
    rw [h1', h2'] at this
    exact Set.disjoint_left.1 this.1 x2 y2
  · have := hpw b a h2 h1 hlt
    rw [h1', h2'] at this
    exact Set.disjoint_left.1 this.1 y2 x2

theorem Inv.not_race {c : Cfg V Sp} {ts} (h : Inv P S I c ts) (hS : S.racy = ∅ := by rfl) : ¬ Race c := by
  rintro ⟨a, b, p, q, i, w, w', hab, hp, hq, ha, hb, hw⟩
  rw [h.ths, List.getElem?_map] at hp hq
  simp only [Option.map_eq_some_iff] at hp hq
  obtain ⟨t, ht, rfl⟩ := hp
  obtain ⟨t', ht', rfl⟩ := hq
  obtain ⟨x1, x2⟩ := access_mem (h.wps t (List.mem_of_getElem? ht)) ha
  obtain ⟨y1, y2⟩ := access_mem (h.wps t' (List.mem_of_getElem? ht')) hb
  have hd : Disj t t' := by
    have hpw := List.pairwise_iff_getElem.1 h.disj
    obtain ⟨h1, h1'⟩ := List.getElem?_eq_some_iff.1 ht
    obtain ⟨h2, h2'⟩ := List.getElem?_eq_some_iff.1 ht'
    rcases Nat.lt_or_gt_of_ne hab with hlt | hlt
    · have := hpw a b h1 h2 hlt; rwa [h1', h2'] at this
    · have := hpw b a h2 h1 hlt; rw [h1', h2'] at this; exact this.symm
  rw [hS] at x1 y1
  replace x1 := x1.resolve_right (Set.notMem_empty i)
  replace y1 := y1.resolve_right (Set.notMem_empty i)
  rcases hw with hw | hw
  · rcases y1 with y1 | y1
    · exact Set.disjoint_left.1 hd.1 (x2 hw) y1
    · exact Set.disjoint_left.1 hd.2.1 (x2 hw) y1
  · rcases x1 with x1 | x1
    · exact Set.disjoint_left.1 hd.1 x1 (y2 hw)
    · exact Set.disjoint_left.1 hd.2.2.1 x1 (y2 hw)

/-- all element accesses stay inside the slice -/
theorem Inv.access_sub {c : Cfg V Sp} {ts} (h : Inv P S I c ts) {p i w} (hp : p ∈ c.ths) (ha : p.access = some (i, w))
    (hS : S.racy ⊆ I.W0 := by exact Set.empty_subset _) : i ∈ I.W0 := by
  rw [h.ths] at hp
  obtain ⟨t, ht, rfl⟩ := List.mem_map.1 hp
  have := h.sub t ht
  rcases (access_mem (h.wps t ht) ha).1 with (h1 | h1) | h1
  · exact this.1 h1
  · exact this.2 h1
  · exact hS h1

theorem Inv.store_sub {c : Cfg V Sp} {ts} (h : Inv P S I c ts) {p i} (hp : p ∈ c.ths) (ha : p.access = some (i, true)) : i ∈ I.W0 := by
  rw [h.ths] at hp
  obtain ⟨t, ht, rfl⟩ := List.mem_map.1 hp
  exact (h.sub t ht).1 ((access_mem (h.wps t ht) ha).2 rfl)

theorem Inv.frame {c c' : Cfg V Sp} {ts} (h : Inv P S I c ts) (hs : Step P c c') :
    ∀ i, i ∉ I.W0 → c'.sh.mem i = c.sh.mem i := by
  cases hs with
  | tau l₁ l₂ sh p sh' p' new ht =>
    cases ht with
    | write i v k =>
      intro j hj
      have : i ∈ I.W0 := h.store_sub (p := .write i v p') (i := i) (by simp) rfl
      have : j ≠ i := by rintro rfl; exact hj this
      simp [this]
    | _ => intro j _; rfl
  | commSR => intro j _; rfl
  | commRS => intro j _; rfl

theorem done_ret {p : Prog V Sp Unit} {g : Gh V Sp} {m} (h : wp S p g m endQ) (hp : g.ph = .done) : p = .ret () := by
  cases p with
  | ret a => rfl
  | read i k => have := h.1.1; simp [hp] at this
  | write i v k => have := h.1.1; simp [hp] at this
  | less i j x y k => have := h.1; simp [hp] at this
  | maxGor k => have := h.1; simp [hp] at this
  | loadGor k => have := h.2.1; simp [hp] at this
  | incGor k => have := h.2.1; simp [hp] at this
  | decGor k => have := h.2.1; simp [hp] at this
  | mkSync k => have := h.2.1; simp [hp] at this
  | go s k =>
    unfold wp at h
    split_ifs at h
    · have := h.2.2.1; simp [hp] at this
    · have := h.2.2.1; simp [hp] at this
  | send v k => rcases h with h | h <;> (have := h.2.1; simp [hp] at this)
  | recv k => rcases h with h | h <;> (have := h.2.1; simp [hp] at this)
  | panic => exact h.elim
  | overflow => exact h.elim
  | diverge => exact h.elim

theorem promOK_all {ts : List (Th V Sp)} {mf : Mem V} (h : PromOK ts)
    (hg : ∀ t ∈ ts, t.2.role = .sorter → t.2.P mf → t.2.goal mf) :
    (∀ t ∈ ts, t.2.role = .sorter → t.2.goal mf) ∧ ∀ t ∈ ts, t.2.P mf := by
  induction ts with
  | nil => simp
  | cons t L ih =>
    obtain ⟨h1, h2⟩ := h
    obtain ⟨a, b⟩ := ih h2 fun t ht => hg t (by simp [ht])
    have hP := h1 mf a
    refine ⟨?_, ?_⟩
    · intro t' ht' hr
      rcases List.mem_cons.1 ht' with rfl | ht'
      · exact hg t' (by simp) hr hP
      · exact a t' ht' hr
    · intro t' ht'
      rcases List.mem_cons.1 ht' with rfl | ht'
      · exact hP
      · exact b t' ht'

/-- when the caller has returned, every goroutine has finished and the goal holds -/
theorem Inv.returned {c : Cfg V Sp} {ts} (h : Inv P S I c ts) (hr : Returned c) :
    (∀ p ∈ c.ths, p = .ret ()) ∧ I.G c.sh.mem := by
  obtain ⟨l, hl⟩ := hr
  cases ts with
  | nil => have := h.ths; simp [hl] at this
  | cons t L =>
    have hths := h.ths
    rw [hl] at hths
    simp only [List.map_cons, List.cons.injEq] at hths
    obtain ⟨ht1, hL⟩ := hths
    obtain ⟨hm, hrest⟩ := h.head
    have hw := h.wps t (by simp)
    rw [← ht1] at hw
    have hok := h.ok t (by simp)
    rcases hw with hdone | ⟨_, hC, hph, hfin⟩
    · have hC : t.2.C = true := by
        cases hC : t.2.C with
        | true => rfl
        | false => have := (hok.c_false hC).2.1; simp [hdone] at this
      have hsy : c.sh.sync = true := (h.cflag t (by simp)).symm.trans hC
      have hng := h.mdone hsy t (by simp) hm hdone
      have hcnt := h.cnt hsy
      have hlast := h.lastsum hsy
      rw [if_pos hng] at hlast
      have hw0 : sumOf waitG (t :: L) = 0 := by
        by_contra hne
        obtain ⟨t', ht', hp⟩ := sumOf_pos (Nat.pos_of_ne_zero hne)
        have hpw : t'.2.ph = .wait := by by_contra hh; simp [waitG, hh] at hp
        rcases List.mem_cons.1 ht' with rfl | ht''
        · simp [hdone] at hpw
        · have ok' := h.ok t' ht'
          cases hr : t'.2.role with
          | main => exact hrest t' ht'' hr
          | sorter => have := ok'.sorter_ph hr; simp [hpw] at this
          | part => have := ok'.part_ph hr; simp [hpw] at this
      have hj0 : sumOf jG (t :: L) = 0 := by
        by_contra hne
        obtain ⟨t', ht', hp⟩ := sumOf_pos (Nat.pos_of_ne_zero hne)
        have hpw : t'.2.J ≠ none := by intro hh; simp [jG, hh] at hp
        have := (h.ok t' ht').j hpw
        rcases List.mem_cons.1 ht' with rfl | ht''
        · simp [hdone] at this
        · exact hrest t' ht'' this.1
      have hpr := h.jsum
      have hdn : ∀ t' ∈ t :: L, t'.2.ph = .done := by
        intro t' ht'
        have c0 : cntG t'.2 = 0 := by have := le_sumOf (f := cntG) ht'; omega
        have l0 : lastG t'.2 = 0 := by have := le_sumOf (f := lastG) ht'; omega
        have p0 : prunG t'.2 = 0 := by have := le_sumOf (f := prunG) ht'; omega
        have ok' := h.ok t' ht'
        cases hr : t'.2.role with
        | main =>
          rcases List.mem_cons.1 ht' with rfl | ht''
          · exact hdone
          · exact absurd hr (hrest t' ht'')
        | sorter =>
          rcases ok'.sorter_ph hr with hp | hp | hp
          · simp [cntG, hr, hp] at c0
          · simp [lastG, hp] at l0
          · exact hp
        | part =>
          rcases ok'.part_ph hr with hp | hp
          · simp [prunG, hr, hp] at p0
          · exact hp
      have hfin : ∀ t' ∈ t :: L, t'.2.role ≠ .part → t'.2.P c.sh.mem → t'.2.goal c.sh.mem := fun t' ht' hr hP =>
        h.fin t' ht' hr (by simp [hdn t' ht']) _ hP (Agree.refl _ _)
      obtain ⟨_, hP⟩ := promOK_all h.prom fun t' ht' hr => hfin t' ht' (by simp [hr])
      refine ⟨?_, ?_⟩
      · intro p hp
        rw [h.ths] at hp
        obtain ⟨t', ht', rfl⟩ := List.mem_map.1 hp
        exact done_ret (h.wps t' ht') (hdn t' ht')
      · rw [← h.goal t (by simp) hm]
        exact hfin t (by simp) (by simp [hm]) (hP t (by simp))
    · have hsy : c.sh.sync = false := (h.cflag t (by simp)).symm.trans hC
      have hlen := h.nosync hsy
      have hLn : L = [] := List.eq_nil_of_length_eq_zero (by rw [List.length_cons] at hlen; omega)
      subst hLn
      have hP := h.prom.1 c.sh.mem (by simp)
      refine ⟨?_, ?_⟩
      · rw [h.ths]; simp [← ht1]
      · rw [← h.goal t (by simp) hm]
        exact hfin _ hP (Agree.refl _ _)

/-- no deadlock: a step is possible unless every goroutine has finished -/
theorem Inv.progress (H : Hyp P S I) {c : Cfg V Sp} {ts} (h : Inv P S I c ts) :
    (∃ c', Step P c c') ∨ ∀ p ∈ c.ths, p = .ret () := by
  have hths := h.ths
  obtain ⟨sh, ths⟩ := c
  simp only at hths
  subst hths
  have htau : ∀ t ∈ ts, ∀ sh' p' new, TStep P sh t.1 sh' p' new → ∃ c', Step P ⟨sh, ts.map Prod.fst⟩ c' := by
    intro t ht sh' p' new hs
    obtain ⟨L₁, L₂, rfl⟩ := List.append_of_mem ht
    refine ⟨⟨sh', L₁.map Prod.fst ++ p' :: L₂.map Prod.fst ++ new⟩, ?_⟩
    simpa using Step.tau (L₁.map Prod.fst) (L₂.map Prod.fst) sh t.1 sh' p' new hs
  -- every goroutine that is not finished or at the channel can move
  by_cases hall : ∀ t ∈ ts, (∃ v k, t.1 = .send v k) ∨ (∃ k, t.1 = .recv k) ∨ t.1 = .ret ()
  swap
  · left
    push Not at hall
    obtain ⟨t, ht, n1, n2, n3⟩ := hall
    have hw := h.wps t ht
    obtain ⟨p, g⟩ := t
    simp only at n1 n2 n3 hw
    have hsyn : sh.sync = true ∨ sh.sync = false := by cases sh.sync <;> simp
    cases p with
    | ret a => exact absurd rfl n3
    | read i k => exact htau _ ht _ _ _ (.read sh i k)
    | write i v k => exact htau _ ht _ _ _ (.write sh i v k)
    | less i j x y k =>
      obtain ⟨b, hb⟩ := H.tot i j x y
      exact htau _ ht _ _ _ (.less sh i j x y k b hb)
    | maxGor k => exact htau _ ht _ _ _ (.maxGor sh k 0 (Nat.zero_le _))
    | loadGor k =>
      rcases hsyn with hs | hs
      · exact htau _ ht _ _ _ (.loadGor sh k _ hs (.inr rfl))
      · exact htau _ ht _ _ _ (.loadNil sh k hs)
    | incGor k =>
      rcases hsyn with hs | hs
      · exact htau _ ht _ _ _ (.incGor sh k hs)
      · exact htau _ ht _ _ _ (.incNil sh k hs)
    | decGor k =>
      rcases hsyn with hs | hs
      · exact htau _ ht _ _ _ (.decGor sh k hs)
      · exact htau _ ht _ _ _ (.decNil sh k hs)
    | mkSync k => exact htau _ ht _ _ _ (.mkSync sh k)
    | go s k => exact htau _ ht _ _ _ (.go sh s k)
    | send v k => exact absurd rfl (n1 v k)
    | recv k => exact absurd rfl (n2 k)
    | panic => exact hw.elim
    | overflow => exact hw.elim
    | diverge => exact hw.elim
  -- only channel operations and finished goroutines
  cases ts with
  | nil => right; simp
  | cons t L =>
    obtain ⟨hm, hrest⟩ := h.head
    have hw := h.wps t (by simp)
    have hok := h.ok t (by simp)
    have hcf := h.cflag t (by simp)
    have hcomm : ∀ k', t.1 = .recv k' → ∀ t' ∈ L, ∀ v k, t'.1 = .send v k → sh.sync = true →
        ∃ c', Step P ⟨sh, (t :: L).map Prod.fst⟩ c' := by
      intro k' hk' t' ht' v k hk hsy
      obtain ⟨L₁, L₂, rfl⟩ := List.append_of_mem ht'
      refine ⟨⟨sh, k' v :: (L₁.map Prod.fst ++ k :: L₂.map Prod.fst)⟩, ?_⟩
      have := Step.commRS (P := P) [] (L₁.map Prod.fst) (L₂.map Prod.fst) sh v k k' hsy
      simpa [hk, hk'] using this
    -- phases of the others
    have hsend : ∀ t' ∈ t :: L, t'.2.ph = .last ∨ (t'.2.role = .part ∧ t'.2.ph = .run) → ∃ v k, t'.1 = .send v k := by
      intro t' ht' hph
      rcases hall t' ht' with ⟨v, k, hk⟩ | ⟨k, hk⟩ | hk
      · exact ⟨v, k, hk⟩
      · exfalso
        have hw' := h.wps t' ht'
        rw [hk] at hw'
        rcases hw' with hw' | hw'
        · have h1 := hw'.1; have h2 := hw'.2.1; rcases hph with hph | ⟨hph, _⟩ <;> simp_all
        · have h1 := hw'.1; have h2 := hw'.2.1; rcases hph with hph | ⟨hph, _⟩ <;> simp_all
      · exfalso
        have hw' := h.wps t' ht'
        rw [hk] at hw'
        rcases hw' with hw' | hw'
        · rcases hph with hph | ⟨_, hph⟩ <;> simp_all
        · have h1 := hw'.1; have h2 := hw'.2.2.1; rcases hph with hph | ⟨hph, _⟩ <;> simp_all
    have hsort : ∀ t' ∈ L, t'.2.role = .sorter → t'.2.ph ≠ .run := by
      intro t' ht' hr hp
      have hw' := h.wps t' (by simp [ht'])
      rcases hall t' (by simp [ht']) with ⟨v, k, hk⟩ | ⟨k, hk⟩ | hk
      · rw [hk] at hw'; rcases hw' with hw' | hw'
        · have := hw'.1; simp [hr] at this
        · have := hw'.2.1; simp [hp] at this
      · rw [hk] at hw'; rcases hw' with hw' | hw'
        · have := hw'.1; simp [hr] at this
        · have := hw'.1; simp [hr] at this
      · rw [hk] at hw'; rcases hw' with hw' | hw'
        · simp [hp] at hw'
        · have := hw'.1; simp [hr] at this
    rcases hall t (by simp) with ⟨v, k, hk⟩ | ⟨k', hk⟩ | hk
    · exfalso
      rw [hk] at hw
      rcases hw with hw | hw
      · have := hw.1; simp [hm] at this
      · have := hw.1; simp [hm] at this
    · left
      rw [hk] at hw
      have hsy : sh.sync = true := by
        have hC : t.2.C = true := by
          cases hC : t.2.C with
          | true => rfl
          | false =>
            have := hok.c_false hC
            rcases hw with ⟨_, h2, s, post, h3, _⟩ | ⟨_, h2, _⟩
            · have := (hok.j (by simp [h3])).2.2.1; simp_all
            · simp_all
        exact hcf.symm.trans hC
      rcases hw with ⟨_, h2, s, post, h3, _⟩ | ⟨_, h2, _⟩
      · have hpr := h.jsum
        have : jG t.2 ≤ _ := le_sumOf (f := jG) (ts := t :: L) (by simp)
        have hj1 : jG t.2 = 1 := by simp [jG, h3]
        obtain ⟨t', ht', hp⟩ := sumOf_pos (f := prunG) (ts := t :: L) (by omega)
        have hpp : t'.2.role = .part ∧ t'.2.ph = .run := by by_contra hh; simp [prunG, hh] at hp
        obtain ⟨v, k, hvk⟩ := hsend t' ht' (.inr hpp)
        rcases List.mem_cons.1 ht' with rfl | ht'
        · simp [hm] at hpp
        · exact hcomm k' hk t' ht' v k hvk hsy
      · have hcnt := h.cnt hsy
        have hng : sh.nGor = 0 := by
          have : sumOf cntG (t :: L) = 0 := by
            by_contra hne
            obtain ⟨t', ht', hp⟩ := sumOf_pos (Nat.pos_of_ne_zero hne)
            have hrun : t'.2.role ≠ .part ∧ t'.2.ph = .run := by
              by_contra hh
              have ok' := h.ok t' ht'
              have : t'.2.T = true := by by_contra hT; simp [cntG, hh, hT] at hp
              exact hh ⟨(ok'.t_run this).2.1, (ok'.t_run this).1⟩
            rcases List.mem_cons.1 ht' with rfl | ht''
            · simp [h2] at hrun
            · cases hr : t'.2.role with
              | main => exact hrest t' ht'' hr
              | sorter => exact hsort t' ht'' hr hrun.2
              | part => exact hrun.1 hr
          rw [this] at hcnt; exact hcnt
        have hlast := h.lastsum hsy
        rw [if_pos hng] at hlast
        have hw1 : waitG t.2 = 1 := by simp [waitG, h2]
        have : waitG t.2 ≤ _ := le_sumOf (f := waitG) (ts := t :: L) (by simp)
        obtain ⟨t', ht', hp⟩ := sumOf_pos (f := lastG) (ts := t :: L) (by omega)
        have hpp : t'.2.ph = .last := by by_contra hh; simp [lastG, hh] at hp
        obtain ⟨v, k, hvk⟩ := hsend t' ht' (.inl hpp)
        rcases List.mem_cons.1 ht' with rfl | ht'
        · simp [h2] at hpp
        · exact hcomm k' hk t' ht' v k hvk hsy
    · right
      exact (h.returned ⟨L.map Prod.fst, by simp [hk]⟩).1

theorem Inv.nosync_of {c : Cfg V Sp} {ts} (h : Inv P S I c ts) (hM : P.M ≤ 1 ∨ I.big = false) :
    c.sh.sync = false ∧ c.ths.length = 1 := by
  have hs : c.sh.sync = false := by
    cases hs : c.sh.sync with
    | false => rfl
    | true =>
      have := h.big' hs
      rcases hM with hM | hM
      · omega
      · simp [hM] at this
  refine ⟨hs, ?_⟩
  have := h.nosync hs
  rw [h.ths]; simpa using this

theorem filter_len_le {ts : List (Th V Sp)} (f : Prog V Sp Unit → Bool) (w : Gh V Sp → Nat)
    (h : ∀ t ∈ ts, f t.1 = true → 1 ≤ w t.2) : ((ts.map Prod.fst).filter f).length ≤ sumOf w ts := by
  induction ts with
  | nil => simp
  | cons t L ih =>
    have h1 := ih fun t ht => h t (by simp [ht])
    have h2 := h t (by simp)
    simp only [List.map_cons, List.filter_cons, sumOf_cons]
    split_ifs with hf
    · have := h2 hf; simp; omega
    · omega

theorem Inv.main_sum_le {c : Cfg V Sp} {ts} (h : Inv P S I c ts) (f : Gh V Sp → Nat)
    (hf : ∀ t ∈ ts, f t.2 ≤ mainG t.2) : sumOf f ts ≤ 1 :=
  le_trans (sumOf_le _ _ _ hf) (le_of_eq h.main_le)

theorem Inv.wait_le {c : Cfg V Sp} {ts} (h : Inv P S I c ts) : sumOf waitG ts ≤ 1 := by
  refine h.main_sum_le _ fun t ht => ?_
  have ok := h.ok t ht
  unfold waitG mainG
  split_ifs with a b
  · omega
  · cases hr : t.2.role with
    | main => exact absurd hr b
    | sorter => have := ok.sorter_ph hr; simp [a] at this
    | part => have := ok.part_ph hr; simp [a] at this
  · omega
  · omega

theorem Inv.j_le {c : Cfg V Sp} {ts} (h : Inv P S I c ts) : sumOf jG ts ≤ 1 := by
  refine h.main_sum_le _ fun t ht => ?_
  have ok := h.ok t ht
  unfold jG mainG
  split_ifs with a b
  · omega
  · exact absurd (ok.j (by intro hh; simp [hh] at a)).1 b
  · omega
  · omega

/-- goroutine bounds -/
theorem Inv.bounds {c : Cfg V Sp} {ts} (h : Inv P S I c ts) (hst : ¬ P.stale) :
    working c ≤ max 1 (2 * (P.M - 1)) ∧ live c ≤ max 1 (2 * P.M - 1) := by
  cases hsy : c.sh.sync with
  | false =>
    have hlen := h.nosync hsy
    have hl : c.ths.length = 1 := by rw [h.ths]; simpa using hlen
    constructor
    · refine le_trans (List.length_filter_le _ _) ?_; omega
    · refine le_trans (List.length_filter_le _ _) ?_; omega
  | true =>
    have hM := (h.big' hsy).2
    have hb := h.bound hst hsy
    have hcnt := h.cnt hsy
    have hlast := h.lastsum hsy
    have hwl := h.wait_le
    have hps : sumOf prunG ts ≤ sumOf sG ts := by
      rw [h.jsum]
      refine sumOf_le _ _ _ fun t ht => ?_
      unfold jG sG
      split_ifs with a b
      · omega
      · exact absurd ((h.ok t ht).j (by intro hh; simp [hh] at a)).2.2.1 b
      · omega
      · omega
    have hlive : live c ≤ sumOf (fun g => cntG g + prunG g + lastG g + waitG g) ts := by
      unfold live
      rw [h.ths]
      refine filter_len_le _ _ fun t ht hf => ?_
      have hnd : t.2.ph ≠ .done := by
        intro hd; rw [done_ret (h.wps t ht) hd] at hf; simp [Prog.isRet] at hf
      have ok := h.ok t ht
      cases hp : t.2.ph with
      | run =>
        by_cases hr : t.2.role = .part
        · simp [prunG, hr, hp]; omega
        · simp [cntG, hr, hp]; omega
      | last => simp [lastG, hp]; omega
      | wait => simp [waitG, hp]
      | done => exact absurd hp hnd
    have hwork : working c ≤ sumOf (fun g => cntG g + prunG g + lastG g) ts := by
      unfold working
      rw [h.ths]
      refine filter_len_le _ _ fun t ht hf => ?_
      have hnd : t.2.ph ≠ .done := by
        intro hd; rw [done_ret (h.wps t ht) hd] at hf; simp [Prog.isRet] at hf
      have ok := h.ok t ht
      have hw := h.wps t ht
      cases hp : t.2.ph with
      | run =>
        by_cases hr : t.2.role = .part
        · simp [prunG, hr, hp]; omega
        · simp [cntG, hr, hp]; omega
      | last => simp [lastG, hp]
      | wait =>
        exfalso
        cases hpp : t.1 <;> rw [hpp] at hw hf <;> simp [Prog.isRet, Prog.isRecv] at hf
        case read => have := hw.1.1; simp [hp] at this
        case write => have := hw.1.1; simp [hp] at this
        case less => have := hw.1; simp [hp] at this
        case maxGor => have := hw.1; simp [hp] at this
        case loadGor => have := hw.2.1; simp [hp] at this
        case incGor => have := hw.2.1; simp [hp] at this
        case decGor => have := hw.2.1; simp [hp] at this
        case mkSync => have := hw.2.1; simp [hp] at this
        case go =>
          unfold wp at hw
          split_ifs at hw
          · have := hw.2.2.1; simp [hp] at this
          · have := hw.2.2.1; simp [hp] at this
        case send => rcases hw with hw | hw <;> (have := hw.2.1; simp [hp] at this)
        case panic => exact hw
        case overflow => exact hw
        case diverge => exact hw
      | done => exact absurd hp hnd
    have e1 : ∀ L : List (Th V Sp), sumOf (fun g => cntG g + prunG g + lastG g + waitG g) L =
        sumOf cntG L + sumOf prunG L + sumOf lastG L + sumOf waitG L := by
      intro L; induction L with
      | nil => simp
      | cons t L ih => simp [ih]; omega
    have e2 : ∀ L : List (Th V Sp), sumOf (fun g => cntG g + prunG g + lastG g) L =
        sumOf cntG L + sumOf prunG L + sumOf lastG L := by
      intro L; induction L with
      | nil => simp
      | cons t L ih => simp [ih]; omega
    rw [e1] at hlive
    rw [e2] at hwork
    by_cases hng : c.sh.nGor = 0
    · rw [if_pos hng] at hlast
      have hp0 : sumOf prunG ts = 0 := by
        rw [h.jsum]
        by_contra hne
        obtain ⟨t, ht, hp⟩ := sumOf_pos (Nat.pos_of_ne_zero hne)
        have hpw : t.2.J ≠ none := by intro hh; simp [jG, hh] at hp
        have := (h.ok t ht).j hpw
        have hc := le_sumOf (f := cntG) ht
        have : cntG t.2 ≥ 1 := by simp [cntG, this.1, this.2.1]
        omega
      omega
    · rw [if_neg hng] at hlast
      omega

/-- at most one goroutine is at a send at any time -/
theorem Inv.one_sender {c : Cfg V Sp} {ts} (h : Inv P S I c ts) :
    (c.ths.filter Prog.isSend).length ≤ 1 := by
  have h1 : (c.ths.filter Prog.isSend).length ≤ sumOf (fun g => prunG g + lastG g) ts := by
    rw [h.ths]
    refine filter_len_le _ _ fun t ht hf => ?_
    have hw := h.wps t ht
    obtain ⟨p, g⟩ := t
    cases p <;> simp [Prog.isSend] at hf
    rcases hw with ⟨h1, h2, _⟩ | ⟨_, h2, _⟩
    · simp only at h1 h2
      simp [prunG, h1, h2]
    · simp only at h2
      simp [lastG, h2]
  have e2 : ∀ L : List (Th V Sp), sumOf (fun g => prunG g + lastG g) L = sumOf prunG L + sumOf lastG L := by
    intro L; induction L with
    | nil => simp
    | cons t L ih => simp [ih]; omega
  rw [e2] at h1
  have hj := h.j_le
  have hpr := h.jsum
  have hwl := h.wait_le
  cases hsy : c.sh.sync with
  | false =>
    have hl : c.ths.length = 1 := by rw [h.ths]; simpa using h.nosync hsy
    exact le_trans (List.length_filter_le _ _) (by omega)
  | true =>
    have hlast := h.lastsum hsy
    have hcnt := h.cnt hsy
    split_ifs at hlast with hng
    · have hp0 : sumOf prunG ts = 0 := by
        rw [h.jsum]
        by_contra hne
        obtain ⟨t, ht, hp⟩ := sumOf_pos (Nat.pos_of_ne_zero hne)
        have hpw : t.2.J ≠ none := by intro hh; simp [jG, hh] at hp
        have := (h.ok t ht).j hpw
        have hc := le_sumOf (f := cntG) ht
        have : cntG t.2 ≥ 1 := by simp [cntG, this.1, this.2.1]
        omega
      omega
    · omega

end Sorty
