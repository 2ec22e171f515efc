import Verif.Logic.HB

/-! # Happens-before along recorded executions -/

namespace Sorty

variable {V Sp : Type} {P : Par V Sp} {S : Spec V Sp} {I : IPar V Sp}

theorem HI.dec' {tr} {sh : Sh V} {l₁ l₂ os : List (Own Sp)} {o : Own Sp} {r : Role} {n z t N : Nat} {W R : Set Nat}
    {k : Nat → Prog V Sp Unit} (h : HI S tr sh.sync (l₁ ++ o :: l₂)) (hsy : sh.sync = true) (hO : OwnOK S os)
    (hos : os = l₁ ++ ⟨r, afterDec r n, W, R, none⟩ :: l₂) (ht : t = l₁.length) :
    HI S (tr ++ ((Prog.decGor k).act t N).toList) ({ sh with nGor := z } : Sh V).sync os := by
  subst hos; subst ht
  show HI S _ sh.sync _
  rw [hsy] at h ⊢
  refine h.dec hO ?_ rfl
  show afterDec r n ≠ .run
  unfold afterDec; split_ifs <;> simp

/-- both invariants hold along recorded executions -/
theorem Inv.trace (H : Hyp P S I) {p : Prog V Sp Unit} {m : Mem V} {c : Cfg V Sp} {tr} (h0 : ∃ ts, Inv P S I (Sorty.start p m) ts)
    (h : Trace P (Sorty.start p m) tr c) (hS : S.racy = ∅ := by rfl) : ∃ ts, Inv P S I c ts ∧ HI S tr c.sh.sync (ownsOf ts) := by
  induction h with
  | refl =>
    obtain ⟨ts, h⟩ := h0
    refine ⟨ts, h, ?_⟩
    have hlast := h.ownOK
    refine ⟨?_, ?_, ?_, ?_, ?_, ?_, ?_⟩ <;> simp [GoRace]
  | @tau tr l₁ l₂ sh p sh' p' new _ ht ih =>
    obtain ⟨ts, h, hI⟩ := ih
    have hO := h.ownOK
    obtain ⟨L₁, g, L₂, rfl, rfl, rfl⟩ := split_ths h.ths
    have hg0 : (p, g) ∈ L₁ ++ (p, g) :: L₂ := by simp
    have hok : GhOK S g := h.ok _ hg0
    have hmg : g.mg ≤ P.M := h.mg _ hg0
    have hcf : g.C = sh.sync := h.cflag _ hg0
    have hw : wp S p g sh.mem endQ := h.wps _ hg0
    have hsame : g.S = true → g.ph = .run ∧ g.role ≠ .part ∧ g.C = true := by
      intro hS
      refine ⟨(hok.s_run hS).1, (hok.s_run hS).2, ?_⟩
      cases hC : g.C with
      | true => rfl
      | false => have := (hok.c_false hC).2.2.2; simp_all
    have hb : ¬ P.stale → sh.sync = true → g.S = true → sG g = 1 ∨ sh.nGor < P.M := by
      intro _ _ hS; left; simp [sG, hS]
    have hown : (ownsOf (L₁ ++ (p, g) :: L₂))[L₁.length]? = some g.own := by simp [ownsOf]
    have hsp : ownsOf (L₁ ++ (p, g) :: L₂) = ownsOf L₁ ++ g.own :: ownsOf L₂ := by simp [ownsOf]
    have hlen : (ownsOf L₁).length = L₁.length := by simp [ownsOf]
    cases ht with
    | read i k =>
      refine ⟨_, by simpa using h.upd H.loc sh.mem (k (sh.mem i)) g.S g.mg (fun _ _ => rfl) (hw.2 _ fun _ => rfl) hsame (fun hj => (hok.j hj).2.2.1) hmg hb, ?_⟩
      have hm : i ∈ g.W ∨ i ∈ g.R := hw.1.2.resolve_right (by rw [hS]; exact Set.notMem_empty i)
      have := hI.acc (wr := false) hO hown hw.1.1 hm (by simp)
      simpa [Prog.act, ownsOf, Gh.own] using this
    | write i v k =>
      have hm : ∀ j ∉ g.W, sh.mem j = Function.update sh.mem i v j := by
        intro j hj
        have : j ≠ i := by rintro rfl; exact hj hw.1.2
        simp [this]
      refine ⟨_, by simpa using h.upd H.loc (Function.update sh.mem i v) p' g.S g.mg hm hw.2 hsame (fun hj => (hok.j hj).2.2.1) hmg hb, ?_⟩
      have := hI.acc (wr := true) hO hown hw.1.1 (.inl hw.1.2) (fun _ => hw.1.2)
      simpa [Prog.act, ownsOf, Gh.own] using this
    | less i j x y k b hbb =>
      refine ⟨_, by simpa using h.upd H.loc sh.mem (k b) g.S g.mg (fun _ _ => rfl) (hw.2 b (H.cmp _ _ _ _ _ hbb)) hsame (fun hj => (hok.j hj).2.2.1) hmg hb, ?_⟩
      simpa [Prog.act, ownsOf, Gh.own] using hI
    | maxGor k n hn =>
      refine ⟨_, by simpa using h.upd H.loc sh.mem (k n) g.S n (fun _ _ => rfl) (hw.2 n) hsame (fun hj => (hok.j hj).2.2.1) hn hb, ?_⟩
      simpa [Prog.act, ownsOf, Gh.own] using hI
    | loadGor k n hsy hn =>
      obtain ⟨h1, h2, h3, h4, h5⟩ := hw
      have hb' : ¬ P.stale → sh.sync = true → decide (n < g.mg) = true → sG g = 1 ∨ sh.nGor < P.M := by
        intro hst _ hS
        right
        have hS : n < g.mg := by simpa using hS
        rcases hn with hn | hn
        · exact absurd hn hst
        · omega
      refine ⟨_, by simpa using h.upd H.loc sh.mem (k n) (decide (n < g.mg)) g.mg (fun _ _ => rfl) (h5 n) (fun _ => ⟨h2, h3, h1⟩) (fun hj => absurd h4 hj) hmg hb', ?_⟩
      simpa [Prog.act, ownsOf, Gh.own] using hI
    | loadNil k hsy =>
      have hw1 := hw.1
      simp [hcf] at hw1; simp [hw1] at hsy
    | incGor k hsy =>
      obtain ⟨ts', h1, _, h2⟩ := h.inc H.loc H.N
      refine ⟨ts', by simpa using h1, ?_⟩
      rw [h2]
      simp only at hsy hI ⊢
      rw [hsy] at hI ⊢
      simpa [Prog.act] using hI.atom (n := L₁.length)
    | incNil k hsy =>
      have hw1 := hw.1
      simp [hcf] at hw1; simp [hw1] at hsy
    | decGor k hsy =>
      obtain ⟨ts', h1, _, n, h2⟩ := h.dec H.loc H.N
      refine ⟨ts', by rw [List.append_nil]; exact h1, ?_⟩
      rw [hsp] at hI
      exact hI.dec' hsy h1.ownOK h2 (by simp [ownsOf])
    | decNil k hsy =>
      have hw1 := hw.1
      simp [hcf] at hw1; simp [hw1] at hsy
    | mkSync k =>
      obtain ⟨ts', h1, _, h2⟩ := h.mkSync H.loc
      refine ⟨ts', by simpa using h1, ?_⟩
      rw [h2]
      exact hI.make
    | go s k =>
      obtain ⟨ts', h1, _, h2⟩ := h.go H.loc H.body
      refine ⟨ts', by simpa using h1, ?_⟩
      rw [h2]
      rw [hsp] at hI hO
      have hN : ((L₁.map Prod.fst ++ Prog.go s p' :: L₂.map Prod.fst)).length = (ownsOf L₁ ++ g.own :: ownsOf L₂).length := by
        simp [ownsOf]
      unfold wp at hw
      split_ifs at hw with hp
      · obtain ⟨h1, h2, h3, h4, h5, h6, h7, h8, h9, h10, h11, h12⟩ := hw
        have := hI.go (o' := ⟨g.role, g.ph, g.W \ (S.W s ∪ S.R s), S.R s, some s⟩) (n := (childGh S s sh.mem).own) hO h3 h3 Set.sdiff_subset
          (h9.trans Set.subset_union_left) (by simpa [childGh, hp, Gh.own] using h8) (by simpa [childGh, hp, Gh.own] using h9)
          (by simp [childGh, hp, Gh.own]) (by simp [childGh, hp, Gh.own])
          (.inl ⟨by simp [childGh, hp, Gh.own], fun s' hs' => by cases hs'; exact h9⟩) rfl (fun _ => h1)
        simpa [Prog.act, hlen, hN, hp] using this
      · obtain ⟨h1, h2, h3, h4, h5, h6, h7, h8, h9, h10, h11⟩ := hw
        have := hI.go (o' := ⟨g.role, g.ph, g.W \ S.W s, g.R, none⟩) (n := (childGh S s sh.mem).own) hO h3 h3 Set.sdiff_subset
          Set.subset_union_right (by simpa [childGh, hp, Gh.own] using h6) (by simp [childGh, hp, Gh.own])
          (by simp [childGh, hp, Gh.own]) (by simp [childGh, hp, Gh.own])
          (.inr ⟨by simp [childGh, hp, Gh.own], rfl⟩) rfl (by simp [childGh, hp, Gh.own])
        simpa [Prog.act, hlen, hN, hp] using this
  | @commSR tr l₁ l₂ l₃ sh v k k' _ hsy ih =>
    exfalso
    obtain ⟨ts, h, hI⟩ := ih
    have hths : (l₁ ++ .send v k :: l₂) ++ .recv k' :: l₃ = ts.map Prod.fst := by simpa using h.ths
    obtain ⟨L₁, g, L₂, rfl, h1, h2⟩ := split_ths hths
    have := h.recv_main (i := (l₁ ++ .send v k :: l₂).length) (k := k') (by simp)
    simp at this
  | @commRS tr l₁ l₂ l₃ sh v k k' _ hsy ih =>
    obtain ⟨ts, h, hI⟩ := ih
    have hO := h.ownOK
    have h0 := h.recv_main (i := l₁.length) (k := k') (by simp)
    have hl₁ : l₁ = [] := List.eq_nil_of_length_eq_zero h0
    subst hl₁
    have hths : [] ++ .recv k' :: (l₂ ++ .send v k :: l₃) = ts.map Prod.fst := by simpa using h.ths
    obtain ⟨L₁, g, L', rfl, h1, h2⟩ := split_ths hths
    have hL₁ : L₁ = [] := by simpa using h1
    subst hL₁
    obtain ⟨L₂, gs, L₃, rfl, h3, h4⟩ := split_ths h2.symm
    subst h3 h4
    simp only [List.nil_append] at h hI hO
    obtain ⟨ts', h1, _, h2⟩ := h.commMain hsy
    refine ⟨ts', by simpa using h1, ?_⟩
    have hsp : ownsOf ((Prog.recv k', g) :: (L₂ ++ (Prog.send v k, gs) :: L₃)) = g.own :: (ownsOf L₂ ++ gs.own :: ownsOf L₃) := by
      simp [ownsOf]
    have hlen : (g.own :: ownsOf L₂).length = L₂.length + 1 := by simp [ownsOf]
    rw [hsp] at hI hO
    simp only at hsy hI ⊢
    rw [hsy] at hI ⊢
    rcases h2 with ⟨s, post, a1, a2, a3, a4, a5, _, a6⟩ | ⟨a1, a2, a3, a4, a5⟩
    · rw [a6]
      have := hI.commPart (s := s) (o' := ⟨.main, .run, g.W ∪ (S.W s ∪ S.R s), ∅, none⟩) (p' := ⟨.part, .done, ∅, ∅, none⟩) hO
        (by simp [Gh.own, a1]) a3 a4 a5 rfl rfl rfl rfl rfl rfl rfl
      simpa [hlen] using this
    · rw [a5]
      have := hI.commEnd (o' := ⟨.main, .done, g.W, g.R, none⟩) (p' := ⟨.sorter, .done, gs.W, gs.R, none⟩) hO a4 rfl rfl rfl rfl rfl
      simpa [hlen] using this

/-- when the call has returned, the caller has everything that was done to the elements behind it -/
theorem Inv.visible {c : Cfg V Sp} {ts tr} (h : Inv P S I c ts) (hI : HI S tr c.sh.sync (ownsOf ts)) (hr : Returned c)
    {e t a w} (he : tr[e]? = some (.acc t a w)) : KnownTo tr (.gor 0) e := by
  obtain ⟨l, hl⟩ := hr
  cases ts with
  | nil => have := h.ths; simp [hl] at this
  | cons t0 L =>
    have hths := h.ths
    rw [hl] at hths
    simp only [List.map_cons, List.cons.injEq] at hths
    have hw := h.wps t0 (by simp)
    rw [← hths.1] at hw
    have h0 : (ownsOf (t0 :: L))[0]? = some t0.2.own := by simp [ownsOf]
    rcases hw with hdone | ⟨_, hC, hph, _⟩
    · exact hI.last h0 (.inr ⟨h.head.1, hdone⟩) he
    · have hsy : c.sh.sync = false := (h.cflag t0 (by simp)).symm.trans hC
      have hlen := h.nosync hsy
      rcases hI.all he with ⟨j, x, h1, h2, _⟩ | ⟨i, o, h1, _, h3⟩
      · exfalso
        cases x with
        | atom t => exact hI.noatom hsy t (List.mem_of_getElem? h1)
        | _ => simp [Ev.who] at h2
      · have : i < 1 := by
          have := (List.getElem?_eq_some_iff.1 h1).1
          simp only [ownsOf, List.length_map] at this; omega
        have : i = 0 := by omega
        subst this; exact h3

/-- what is recorded about the creation of the counter and channel, and of goroutines -/
structure MI (tr : List Ev) (sync : Bool) : Prop where
  before : sync = false → ∀ x ∈ tr, ∃ a w, x = .acc 0 a w
  one : sync = true → ∃ tr₁ tr₂, tr = tr₁ ++ .make 0 :: tr₂ ∧ (∀ x ∈ tr₁, ∃ a w, x = .acc 0 a w) ∧ ∀ x ∈ tr₂, ∀ t, x ≠ .make t

theorem MI.snoc {tr sync} {x : Ev} (h : MI tr sync) (hb : sync = false → ∃ a w, x = .acc 0 a w) (hx : ∀ t, x ≠ .make t) :
    MI (tr ++ [x]) sync := by
  constructor
  · intro hs y hy
    rcases List.mem_append.1 hy with hy | hy
    · exact h.before hs y hy
    · rw [List.mem_singleton.1 hy]; exact hb hs
  · intro hs
    obtain ⟨tr₁, tr₂, rfl, h1, h2⟩ := h.one hs
    refine ⟨tr₁, tr₂ ++ [x], by simp, h1, ?_⟩
    intro y hy
    rcases List.mem_append.1 hy with hy | hy
    · exact h2 y hy
    · rw [List.mem_singleton.1 hy]; exact hx

theorem MI.step {tr : List Ev} {sh sh' : Sh V} {p p' : Prog V Sp Unit} {t n : Nat} {new} (h : MI tr sh.sync) (ht : TStep P sh p sh' p' new)
    (hs : sh.sync = false → t = 0 ∧ (∀ s k, p ≠ .go s k) ∧ (∀ k, p ≠ .incGor k) ∧ ∀ k, p ≠ .decGor k) (hm : ∀ k, p = .mkSync k → sh.sync = false ∧ t = 0) :
    MI (tr ++ (p.act t n).toList) sh'.sync := by
  cases ht with
  | read i k =>
    exact h.snoc (fun h1 => by rw [(hs h1).1]; exact ⟨_, _, rfl⟩) (by simp)
  | write i v k =>
    exact h.snoc (fun h1 => by rw [(hs h1).1]; exact ⟨_, _, rfl⟩) (by simp)
  | less i j x y k b hbb => simpa [Prog.act] using h
  | maxGor k n hn => simpa [Prog.act] using h
  | loadGor k n hsy hn => simpa [Prog.act] using h
  | loadNil k hsy => simpa [Prog.act] using h
  | incGor k hsy => exact MI.snoc (sync := sh.sync) h (by simp [hsy]) (by simp)
  | incNil k hsy => exact absurd rfl ((hs hsy).2.2.1 k)
  | decGor k hsy => exact MI.snoc (sync := sh.sync) h (by simp [hsy]) (by simp)
  | decNil k hsy => exact absurd rfl ((hs hsy).2.2.2 k)
  | mkSync =>
    obtain ⟨h1, rfl⟩ := hm p' rfl
    exact ⟨by simp, fun _ => ⟨tr, [], rfl, h.before h1, by simp⟩⟩
  | go s => exact h.snoc (fun h1 => absurd rfl ((hs h1).2.1 s p')) (by simp)

/-- before the counter and channel exist the caller is alone and does nothing with them -/
theorem Inv.alone {c : Cfg V Sp} {ts} (h : Inv P S I c ts) (hs : c.sh.sync = false) {i : Nat} {p : Prog V Sp Unit} (hi : c.ths[i]? = some p) :
    i = 0 ∧ (∀ s k, p ≠ .go s k) ∧ (∀ k, p ≠ .incGor k) ∧ ∀ k, p ≠ .decGor k := by
  have hl : c.ths.length = 1 := by rw [h.ths, List.length_map]; exact h.nosync hs
  have h0 : i = 0 := by
    have := (List.getElem?_eq_some_iff.1 hi).1
    omega
  refine ⟨h0, ?_⟩
  rw [h.ths, List.getElem?_map, Option.map_eq_some_iff] at hi
  obtain ⟨t, ht, rfl⟩ := hi
  have hw := h.wps t (List.mem_of_getElem? ht)
  have hc : t.2.C = false := (h.cflag t (List.mem_of_getElem? ht)).trans hs
  refine ⟨?_, ?_, ?_⟩
  · intro s k he
    rw [he] at hw; unfold wp at hw
    split_ifs at hw
    · have := hw.2.1; simp [hc] at this
    · have := hw.2.1; simp [hc] at this
  · intro k he
    rw [he] at hw
    have := hw.1; simp [hc] at this
  · intro k he
    rw [he] at hw
    have := hw.1; simp [hc] at this

theorem Inv.make (H : Hyp P S I) {p : Prog V Sp Unit} {m : Mem V} {c : Cfg V Sp} {tr} (h0 : ∃ ts, Inv P S I (Sorty.start p m) ts)
    (h : Trace P (Sorty.start p m) tr c) : MI tr c.sh.sync := by
  induction h with
  | refl => exact ⟨by simp, by simp [Sorty.start]⟩
  | @tau tr l₁ l₂ sh p sh' p' new hT ht ih =>
    obtain ⟨ts, h⟩ := Inv.esteps H h0 hT.steps.toE
    have hi : (l₁ ++ p :: l₂)[l₁.length]? = some p := by simp
    refine MI.step ih ht (fun hs => h.alone hs hi) fun k hk => ?_
    have h1 := h.make_main (p := p) (by simp) hk
    refine ⟨h1.1, ?_⟩
    have := h1.2
    simp only [List.length_append, List.length_cons] at this
    omega
  | commSR _ hs ih => exact ih.snoc (fun h => by simp [hs] at h) (by simp)
  | commRS _ hs ih => exact ih.snoc (fun h => by simp [hs] at h) (by simp)

end Sorty
