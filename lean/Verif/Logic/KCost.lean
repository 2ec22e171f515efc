import Verif.Logic.Most

/-! # Bounds on the accesses of executions that depend on the memory

As in `Verif.Logic.Cost` every goroutine holds credits, but what it needs depends on the contents of the memory it owns, and the value and the
memory that a partitioner hands over are known in detail. -/

namespace Sorty

variable {V Sp α β : Type}

/-- credits and contracts of spawned goroutines -/
structure KMeter (V Sp : Type) where
  /-- credit of a spawned goroutine -/
  ρ : Sp → Mem V → Nat
  /-- what is known of a spawned goroutine -/
  sp : Sp → Mem V → Prop
  /-- what a partitioner promises of the value it sends and of the memory then -/
  post : Sp → Mem V → Int → Mem V → Prop

/-- an outstanding partitioner and its promise -/
abbrev Owed (V Sp : Type) := Option (Sp × (Int → Mem V → Prop))

/-- they depend only on what the goroutine may access -/
structure KMeter.Local (K : KMeter V Sp) (S : Spec V Sp) : Prop where
  ρ : ∀ s m m', Agree (S.W s ∪ S.R s) m m' → K.ρ s m = K.ρ s m'
  sp : ∀ s m m', Agree (S.W s ∪ S.R s) m m' → K.sp s m → K.sp s m'
  post : ∀ s m m', Agree (S.W s ∪ S.R s) m m' → K.post s m = K.post s m'
  post' : ∀ s m v m' m'', Agree (S.W s ∪ S.R s) m' m'' → K.post s m v m' → K.post s m v m''

/-- `p` with credit `n` in memory `m` pays for its accesses and spawned goroutines, sends what `G` allows, and leaves `Q` -/
def kw (S : Spec V Sp) (K : KMeter V Sp) (G : Int → Mem V → Prop) :
    Prog V Sp α → Owed V Sp → Mem V → Nat → (α → Owed V Sp → Mem V → Nat → Prop) → Prop
  | .ret a, J, m, n, Q => Q a J m n
  | .read i k, J, m, n, Q => 1 ≤ n ∧ kw S K G (k (m i)) J m (n - 1) Q
  | .write i v k, J, m, n, Q => 1 ≤ n ∧ kw S K G k J (Function.update m i v) (n - 1) Q
  | .less _ _ _ _ k, J, m, n, Q => ∀ b, kw S K G (k b) J m n Q
  | .maxGor k, J, m, n, Q => ∀ x, kw S K G (k x) J m n Q
  | .loadGor k, J, m, n, Q => ∀ x, kw S K G (k x) J m n Q
  | .incGor k, J, m, n, Q => ∀ x, kw S K G (k x) J m n Q
  | .decGor k, _, m, n, Q => ∀ x, kw S K G (k x) none m n Q
  | .mkSync k, J, m, n, Q => kw S K G k J m n Q
  | .go s k, _, m, n, Q => (K.sp s m ∧ K.ρ s m ≤ n) ∧
      ∀ m', Agree (S.W s)ᶜ m m' → kw S K G k (if S.isPart s = true then some (s, K.post s m) else none) m' (n - K.ρ s m) Q
  | .send v k, J, m, n, Q => G v m ∧ ∀ m', kw S K G k J m' n Q
  | .recv k, none, m, n, Q => ∀ v, kw S K G (k v) none m n Q
  | .recv k, some (s, post), m, n, Q => ∀ v m', Agree (S.W s ∪ S.R s)ᶜ m m' → post v m' → kw S K G (k v) none m' n Q
  | .panic, _, _, _, _ => True
  | .overflow, _, _, _, _ => True
  | .diverge, _, _, _, _ => True

variable {S : Spec V Sp} {K : KMeter V Sp} {G : Int → Mem V → Prop}

theorem kw.bind {p : Prog V Sp α} {f : α → Prog V Sp β} {J : Owed V Sp} {m : Mem V} {n : Nat} {Q : β → Owed V Sp → Mem V → Nat → Prop}
    (h : kw S K G p J m n fun a J m n => kw S K G (f a) J m n Q) : kw S K G (p >>= f) J m n Q := by
  show kw S K G (Prog.bind p f) J m n Q
  induction p generalizing J m n with
  | ret a => exact h
  | read i k ih => exact ⟨h.1, ih _ h.2⟩
  | write i v k ih => exact ⟨h.1, ih h.2⟩
  | less i j x y k ih => exact fun x => ih _ (h x)
  | maxGor k ih => exact fun x => ih _ (h x)
  | loadGor k ih => exact fun x => ih _ (h x)
  | incGor k ih => exact fun x => ih _ (h x)
  | decGor k ih => exact fun x => ih _ (h x)
  | mkSync k ih => exact ih h
  | go s k ih => exact ⟨h.1, fun m' hm => ih (h.2 m' hm)⟩
  | send v k ih => exact ⟨h.1, fun m' => ih (h.2 m')⟩
  | recv k ih =>
    cases J with
    | none => exact fun v => ih _ (h v)
    | some x => exact fun v m' h1 h2 => ih _ (h v m' h1 h2)
  | panic => trivial
  | overflow => trivial
  | diverge => trivial

theorem kw.conseq {p : Prog V Sp α} {J : Owed V Sp} {m : Mem V} {n : Nat} {Q Q' : α → Owed V Sp → Mem V → Nat → Prop}
    (h : kw S K G p J m n Q) (hQ : ∀ a J m n, Q a J m n → Q' a J m n) : kw S K G p J m n Q' := by
  induction p generalizing J m n with
  | ret a => exact hQ _ _ _ _ h
  | read i k ih => exact ⟨h.1, ih _ h.2⟩
  | write i v k ih => exact ⟨h.1, ih h.2⟩
  | less i j x y k ih => exact fun x => ih _ (h x)
  | maxGor k ih => exact fun x => ih _ (h x)
  | loadGor k ih => exact fun x => ih _ (h x)
  | incGor k ih => exact fun x => ih _ (h x)
  | decGor k ih => exact fun x => ih _ (h x)
  | mkSync k ih => exact ih h
  | go s k ih => exact ⟨h.1, fun m' hm => ih (h.2 m' hm)⟩
  | send v k ih => exact ⟨h.1, fun m' => ih (h.2 m')⟩
  | recv k ih =>
    cases J with
    | none => exact fun v => ih _ (h v)
    | some x => exact fun v m' h1 h2 => ih _ (h v m' h1 h2)
  | panic => trivial
  | overflow => trivial
  | diverge => trivial

/-- sequential code first -/
theorem TRuns.kw {p : Prog V Sp α} {f : α → Prog V Sp β} {J : Owed V Sp} {m m' : Mem V} {n c : Nat} {a : α}
    {Q : β → Owed V Sp → Mem V → Nat → Prop} (h : TRuns p m c a m') (hc : c ≤ n) (hf : Sorty.kw S K G (f a) J m' (n - c) Q) :
    Sorty.kw S K G (p >>= f) J m n Q := by
  simp only [Prog.bind_def]
  induction h generalizing n with
  | ret a m => exact hf
  | read _ ih => exact ⟨by omega, ih (by omega) (by rwa [Nat.sub_sub, Nat.add_comm 1])⟩
  | write _ ih => exact ⟨by omega, ih (by omega) (by rwa [Nat.sub_sub, Nat.add_comm 1])⟩

theorem TRuns.kw' {p : Prog V Sp α} {J : Owed V Sp} {m m' : Mem V} {n c : Nat} {a : α}
    {Q : α → Owed V Sp → Mem V → Nat → Prop} (h : TRuns p m c a m') (hc : c ≤ n) (hf : Q a J m' (n - c)) :
    Sorty.kw S K G p J m n Q := by
  induction h generalizing n with
  | ret a m => exact hf
  | read _ ih => exact ⟨by omega, ih (by omega) (by rwa [Nat.sub_sub, Nat.add_comm 1])⟩
  | write _ ih => exact ⟨by omega, ih (by omega) (by rwa [Nat.sub_sub, Nat.add_comm 1])⟩

variable {P : Par V Sp} {I : IPar V Sp}

/-- a goroutine, what it may access, what it is owed, what it has promised, its credit -/
structure KT (V Sp : Type) where
  p : Prog V Sp Unit
  o : Own Sp
  J : Owed V Sp
  G : Int → Mem V → Prop
  n : Nat

/-- the credits in circulation -/
structure KI (S : Spec V Sp) (K : KMeter V Sp) (B : Nat) (c : Cfg V Sp) (os : List (Own Sp)) (n : Nat) (xs : List (KT V Sp)) : Prop where
  ths : xs.map (fun x => x.p) = c.ths
  os : xs.map (fun x => x.o) = os
  j : ∀ x ∈ xs, x.o.J = x.J.map Prod.fst
  jp : ∀ x ∈ xs, ∀ s post, x.J = some (s, post) → ∃ m, post = K.post s m
  paid : ∀ x ∈ xs, ∀ m', Agree (x.o.W ∪ x.o.R) c.sh.mem m' → kw S K x.G x.p x.J m' x.n fun _ _ _ _ => True
  link : ∀ x ∈ xs, ∀ s post, x.J = some (s, post) → ∀ y ∈ xs, y.o.role = .part → y.o.ph = .run → y.G = post
  sum : n + (xs.map fun x => x.n).sum ≤ B

theorem split_kt {l₁ l₂ : List (Prog V Sp Unit)} {p} {xs : List (KT V Sp)} (h : xs.map (fun x => x.p) = l₁ ++ p :: l₂) :
    ∃ L₁ t L₂, xs = L₁ ++ t :: L₂ ∧ t.p = p ∧ L₁.map (fun x => x.p) = l₁ ∧ L₂.map (fun x => x.p) = l₂ := by
  obtain ⟨L₁, L', h1, h2, h3⟩ := List.map_eq_append_iff.1 h
  obtain ⟨t, L₂, h4, h5, h6⟩ := List.map_eq_cons_iff.1 h3
  subst h1 h4
  exact ⟨L₁, t, L₂, rfl, h5, h2, h6⟩

theorem mem_one {τ : Type} {L₁ L₂ : List τ} {x t : τ} (h : t ∈ L₁ ++ x :: L₂) : t = x ∨ t ∈ L₁ ++ L₂ := by
  simp at h ⊢; tauto

theorem mem_two {τ : Type} {L₁ L₂ : List τ} {x y t : τ} (h : t ∈ L₁ ++ x :: L₂ ++ [y]) : t = x ∨ t = y ∨ t ∈ L₁ ++ L₂ := by
  simp at h ⊢; tauto

theorem mem_two' {τ : Type} {L₂ L₃ : List τ} {x y t : τ} (h : t ∈ x :: (L₂ ++ y :: L₃)) : t = x ∨ t = y ∨ t ∈ L₂ ++ L₃ := by
  simp at h ⊢; tauto

theorem mem_rest {τ : Type} {L₂ L₃ : List τ} {x y t : τ} (h : t ∈ L₂ ++ L₃) : t ∈ ([] : List τ) ++ x :: (L₂ ++ y :: L₃) := by
  simp at h ⊢; tauto

/-- the owners of a list of goroutines -/
theorem own_mem {X : List (KT V Sp)} {L : List (Th V Sp)} (h : X.map (fun x => x.o) = ownsOf L) {x : KT V Sp} (hx : x ∈ X) :
    ∃ t ∈ L, t.2.own = x.o := by
  have : x.o ∈ ownsOf L := by rw [← h]; exact List.mem_map_of_mem hx
  obtain ⟨t, ht, he⟩ := List.mem_map.1 this
  exact ⟨t, ht, he⟩

/-- metered executions stay within the initial credit -/
theorem Inv.kmetered (H : Hyp P S I) (hK : K.Local S) {p : Prog V Sp Unit} {m : Mem V}
    (h0 : ∃ g, Inv P S I (Sorty.start p m) [(p, g)] ∧ g.J = none ∧ I.W0 ⊆ g.W)
    (hbody : ∀ s m, K.sp s m → S.pre s m → kw S K (if S.isPart s = true then K.post s m else fun _ _ => True) (P.body s) none m (K.ρ s m) fun _ _ _ _ => True)
    {B : Nat} {G : Int → Mem V → Prop} (hp : ∀ m', Agree I.W0 m m' → kw S K G p none m' B fun _ _ _ _ => True)
    {c : Cfg V Sp} {n : Nat} (h : CSteps P Prog.accs (Sorty.start p m) c n) (hS : S.racy = ∅ := by rfl) :
    ∃ ts, Inv P S I c ts ∧ ∃ xs, KI S K B c (ownsOf ts) n xs := by
  induction h with
  | refl =>
    obtain ⟨g, h, hj, hW⟩ := h0
    have hg : g.J.map Prod.fst = none := by rw [hj]; rfl
    refine ⟨_, h, [⟨p, g.own, none, G, B⟩], ⟨rfl, rfl, ?_, ?_, ?_, ?_, by simp⟩⟩
    · intro x hx
      simp only [List.mem_singleton] at hx
      subst hx; simpa [Gh.own] using hg
    · intro x hx s post hJ
      simp only [List.mem_singleton] at hx
      subst hx; cases hJ
    · intro x hx
      simp only [List.mem_singleton] at hx
      subst hx; exact fun m' hag => hp m' (hag.mono fun i hi => .inl (hW hi))
    · intro x hx s post hJ
      simp only [List.mem_singleton] at hx
      subst hx; cases hJ
  | @tau n l₁ l₂ sh p sh' p' new _ ht ih =>
    obtain ⟨ts, h, xs, hI⟩ := ih
    obtain ⟨L₁, g, L₂, rfl, rfl, rfl⟩ := split_ths h.ths
    have hg0 : (p, g) ∈ L₁ ++ (p, g) :: L₂ := by simp
    have hok : GhOK S g := h.ok _ hg0
    have hmg : g.mg ≤ P.M := h.mg _ hg0
    have hcf : g.C = sh.sync := h.cflag _ hg0
    have hw : wp S p g sh.mem endQ := h.wps _ hg0
    have hsame : g.S = true → g.ph = .run ∧ g.role ≠ .part ∧ g.C = true := by
      intro hS
      refine ⟨(hok.s_run hS).1, (hok.s_run hS).2, ?_⟩
      cases hC : g.C with
      | true => rfl
      | false => have := (hok.c_false hC).2.2.2; simp_all
    have hb : ¬ P.stale → sh.sync = true → g.S = true → sG g = 1 ∨ sh.nGor < P.M := by
      intro _ _ hS; left; simp [sG, hS]
    obtain ⟨X₁, ⟨q, o, J, Gx, k0⟩, X₂, rfl, hq, e1, e2⟩ := split_kt hI.ths
    dsimp only at hq
    subst q
    have hO : o = g.own ∧ X₁.map (fun x => x.o) = ownsOf L₁ ∧ X₂.map (fun x => x.o) = ownsOf L₂ := by
      have := hI.os
      simp only [ownsOf, List.map_append, List.map_cons] at this
      have hl : (X₁.map fun x => x.o).length = (L₁.map (fun t => t.2.own)).length := by
        have := congrArg List.length e1; simpa using this
      obtain ⟨a, b⟩ := List.append_inj this hl
      simp only [List.cons.injEq] at b
      exact ⟨b.1, a, b.2⟩
    obtain ⟨rfl, hO1, hO2⟩ := hO
    have hJ : g.J.map Prod.fst = J.map Prod.fst := hI.j ⟨p, g.own, J, Gx, k0⟩ (by simp)
    have hpay : ∀ m', Agree (g.W ∪ g.R) sh.mem m' → kw S K Gx p J m' k0 fun _ _ _ _ => True := hI.paid ⟨p, g.own, J, Gx, k0⟩ (by simp)
    have hpay0 := hpay sh.mem (Agree.refl _ _)
    have hsum := hI.sum
    have hdis : ∀ x ∈ X₁ ++ X₂, Disjoint g.W x.o.W ∧ Disjoint g.W x.o.R := by
      intro x hx
      have := (pairwise_mid.1 h.disj).1
      rcases List.mem_append.1 hx with hx | hx
      · obtain ⟨t, ht, he⟩ := own_mem hO1 hx
        have := this t (by simp [ht])
        rw [← he]; exact ⟨this.1, this.2.1⟩
      · obtain ⟨t, ht, he⟩ := own_mem hO2 hx
        have := this t (by simp [ht])
        rw [← he]; exact ⟨this.1, this.2.1⟩
    have hmem : ∀ x ∈ X₁ ++ X₂, x ∈ X₁ ++ ⟨p, g.own, J, Gx, k0⟩ :: X₂ := fun x hx => mem_mid hx
    have hoth : ∀ (mm : Mem V), (∀ i ∉ g.W, sh.mem i = mm i) → ∀ x ∈ X₁ ++ X₂, ∀ m', Agree (x.o.W ∪ x.o.R) mm m' →
        kw S K x.G x.p x.J m' x.n fun _ _ _ _ => True := by
      intro mm hm x hx m' hag
      refine hI.paid x (hmem x hx) m' ?_
      intro i hi
      have hni : i ∉ g.W := by
        intro hgi
        rcases hi with hi | hi
        · exact Set.disjoint_left.1 (hdis x hx).1 hgi hi
        · exact Set.disjoint_left.1 (hdis x hx).2 hgi hi
      rw [← hag i hi]
      exact hm i hni
    -- the credits after a step that spawns nothing
    have key : ∀ (p' : Prog V Sp Unit) (o' : Own Sp) (J' : Owed V Sp) (k' wt : Nat) (os : List (Own Sp)) (sh' : Sh V), (∀ i ∉ g.W, sh.mem i = sh'.mem i) →
        os = ownsOf L₁ ++ o' :: ownsOf L₂ → (o'.role = g.role ∧ (o'.ph = .run → g.ph = .run)) → o'.J = J'.map Prod.fst → (J' = J ∨ J' = none) → k' + wt ≤ k0 →
        (∀ m', Agree (o'.W ∪ o'.R) sh'.mem m' → kw S K Gx p' J' m' k' (fun _ _ _ _ => True)) →
        ∃ xs, KI S K B ⟨sh', L₁.map Prod.fst ++ p' :: L₂.map Prod.fst ++ []⟩ os (n + wt) xs := by
      intro p' o' J' k' wt os sh' hmm hos ho hoJ hJJ hk hc
      have mm : ∀ x, x ∈ X₁ ++ (⟨p', o', J', Gx, k'⟩ : KT V Sp) :: X₂ → x = ⟨p', o', J', Gx, k'⟩ ∨ x ∈ X₁ ++ X₂ := fun x hx => mem_one hx
      refine ⟨X₁ ++ ⟨p', o', J', Gx, k'⟩ :: X₂, by simp [e1, e2], by rw [hos]; simp [hO1, hO2], ?_, ?_, ?_, ?_, ?_⟩
      · intro x hx
        rcases mm x hx with rfl | hx
        · exact hoJ
        · exact hI.j x (hmem x hx)
      · intro x hx s post hs
        rcases mm x hx with rfl | hx
        · rcases hJJ with rfl | rfl
          · exact hI.jp ⟨p, g.own, J', Gx, k0⟩ (by simp) s post hs
          · cases hs
        · exact hI.jp x (hmem x hx) s post hs
      · intro x hx
        rcases mm x hx with rfl | hx
        · exact hc
        · exact hoth sh'.mem hmm x hx
      · intro x hx s post hs y hy hy1 hy2
        have hx' : ∃ x' ∈ X₁ ++ (⟨p, g.own, J, Gx, k0⟩ : KT V Sp) :: X₂, x'.J = some (s, post) := by
          rcases mm x hx with rfl | hx
          · rcases hJJ with rfl | rfl
            · exact ⟨⟨p, g.own, J', Gx, k0⟩, by simp, hs⟩
            · cases hs
          · exact ⟨x, hmem x hx, hs⟩
        obtain ⟨x', hx', hs'⟩ := hx'
        rcases mm y hy with rfl | hy
        · exact hI.link x' hx' s post hs' ⟨p, g.own, J, Gx, k0⟩ (by simp) (ho.1.symm.trans hy1) (ho.2 hy2)
        · exact hI.link x' hx' s post hs' y (hmem y hy) hy1 hy2
      · simp at hsum ⊢; omega
    have hos : ownsOf (L₁ ++ (p, g) :: L₂) = ownsOf L₁ ++ g.own :: ownsOf L₂ := by simp [ownsOf]
    cases ht with
    | read i k =>
      refine ⟨_, by simpa using h.upd H.loc sh.mem (k (sh.mem i)) g.S g.mg (fun _ _ => rfl) (hw.2 _ fun _ => rfl) hsame (fun hj => (hok.j hj).2.2.1) hmg hb, ?_⟩
      refine key (k (sh.mem i)) g.own J (k0 - 1) 1 _ sh (fun _ _ => rfl) (by simp [ownsOf, Gh.own]) ⟨rfl, fun h => h⟩ hJ (.inl rfl) (by have := hpay0.1; omega) ?_
      intro m' hag
      have := (hpay m' hag).2
      rwa [← hag i (hw.1.2.resolve_right (by rw [hS]; exact Set.notMem_empty i))] at this
    | write i v k =>
      have hm : ∀ j ∉ g.W, sh.mem j = Function.update sh.mem i v j := by
        intro j hj
        have : j ≠ i := by rintro rfl; exact hj hw.1.2
        simp [this]
      refine ⟨_, by simpa using h.upd H.loc (Function.update sh.mem i v) p' g.S g.mg hm hw.2 hsame (fun hj => (hok.j hj).2.2.1) hmg hb, ?_⟩
      refine key p' g.own J (k0 - 1) 1 _ _ hm (by simp [ownsOf, Gh.own]) ⟨rfl, fun h => h⟩ hJ (.inl rfl) (by have := hpay0.1; omega) ?_
      intro m' hag
      have h2 := (hpay (Function.update m' i (sh.mem i)) (by
        intro j hj
        by_cases hji : j = i
        · subst hji; simp
        · have := hag j hj
          simp only [Function.update_of_ne hji] at this ⊢
          exact this)).2
      have e : Function.update (Function.update m' i (sh.mem i)) i v = m' := by
        funext j
        by_cases hji : j = i
        · subst hji
          have := hag j (.inl hw.1.2)
          simpa using this
        · simp [hji]
      rwa [e] at h2
    | less i j x y k b hbb =>
      refine ⟨_, by simpa using h.upd H.loc sh.mem (k b) g.S g.mg (fun _ _ => rfl) (hw.2 b (H.cmp _ _ _ _ _ hbb)) hsame (fun hj => (hok.j hj).2.2.1) hmg hb, ?_⟩
      exact key (k b) g.own J k0 0 _ sh (fun _ _ => rfl) (by simp [ownsOf, Gh.own]) ⟨rfl, fun h => h⟩ hJ (.inl rfl) (by omega) fun m' hag => hpay m' hag b
    | maxGor k n hn =>
      refine ⟨_, by simpa using h.upd H.loc sh.mem (k n) g.S n (fun _ _ => rfl) (hw.2 n) hsame (fun hj => (hok.j hj).2.2.1) hn hb, ?_⟩
      exact key (k n) g.own J k0 0 _ sh (fun _ _ => rfl) (by simp [ownsOf, Gh.own]) ⟨rfl, fun h => h⟩ hJ (.inl rfl) (by omega) fun m' hag => hpay m' hag n
    | loadGor k n hsy hn =>
      obtain ⟨h1, h2, h3, h4, h5⟩ := hw
      have hb' : ¬ P.stale → sh.sync = true → decide (n < g.mg) = true → sG g = 1 ∨ sh.nGor < P.M := by
        intro hst _ hS
        right
        have hS : n < g.mg := by simpa using hS
        rcases hn with hn | hn
        · exact absurd hn hst
        · omega
      refine ⟨_, by simpa using h.upd H.loc sh.mem (k n) (decide (n < g.mg)) g.mg (fun _ _ => rfl) (h5 n) (fun _ => ⟨h2, h3, h1⟩) (fun hj => absurd h4 hj) hmg hb', ?_⟩
      exact key (k n) g.own J k0 0 _ sh (fun _ _ => rfl) (by simp [ownsOf, Gh.own]) ⟨rfl, fun h => h⟩ hJ (.inl rfl) (by omega) fun m' hag => hpay m' hag n
    | loadNil k hsy =>
      have hw1 := hw.1
      simp [hcf] at hw1; simp [hw1] at hsy
    | incGor k hsy =>
      obtain ⟨ts', h1, _, h2⟩ := h.inc H.loc H.N
      refine ⟨ts', by simpa using h1, ?_⟩
      exact key (k _) g.own J k0 0 (ownsOf ts') { sh with nGor := (sh.nGor + 1) % 2 ^ 64 } (fun _ _ => rfl) (by rw [h2]; exact hos) ⟨rfl, fun h => h⟩ hJ (.inl rfl) (by omega) fun m' hag => hpay m' hag _
    | incNil k hsy =>
      have hw1 := hw.1
      simp [hcf] at hw1; simp [hw1] at hsy
    | decGor k hsy =>
      obtain ⟨ts', h1, _, nn, h2⟩ := h.dec H.loc H.N
      obtain ⟨w1, w2, w3, w4, -⟩ := hw
      have hR : g.R = ∅ := hok.r_run w3 w2 w4
      refine ⟨ts', by rw [List.append_nil]; exact h1, ?_⟩
      refine key (k ((sh.nGor + (2 ^ 64 - 1)) % 2 ^ 64)) ⟨g.role, afterDec g.role nn, ∅, g.W, none⟩ none k0 0 (ownsOf ts') { sh with nGor := (sh.nGor + (2 ^ 64 - 1)) % 2 ^ 64 }
        (fun _ _ => rfl) h2 ⟨rfl, fun _ => w2⟩ rfl (.inr rfl) (by omega) fun m' hag => ?_
      refine hpay m' ?_ _
      rw [hR]
      intro i hi
      refine hag i ?_
      simpa using hi
    | decNil k hsy =>
      have hw1 := hw.1
      simp [hcf] at hw1; simp [hw1] at hsy
    | mkSync k =>
      obtain ⟨ts', h1, _, h2⟩ := h.mkSync H.loc
      refine ⟨ts', by simpa using h1, ?_⟩
      exact key p' g.own J k0 0 (ownsOf ts') _ (fun _ _ => rfl) (by rw [h2]; exact hos) ⟨rfl, fun h => h⟩ hJ (.inl rfl) (by omega) fun m' hag => hpay m' hag
    | go s k =>
      obtain ⟨ts', h1, _, h2⟩ := h.go H.loc H.body
      have hJn : g.J = none ∧ S.pre s sh.mem ∧ S.W s ⊆ g.W ∧ S.R s ⊆ g.W ∧ g.ph = .run ∧ g.role ≠ .part ∧ (S.isPart s = true → g.role = .main) ∧
          (S.isPart s = false → S.R s = ∅) := by
        unfold wp at hw
        split_ifs at hw with hp
        · exact ⟨hw.2.2.2.1, hw.2.2.2.2.2.2.2.2.2.2.1, hw.2.2.2.2.2.2.2.1, hw.2.2.2.2.2.2.2.2.1, hw.2.2.1, by rw [hw.1]; simp, fun _ => hw.1, by simp [hp]⟩
        · have hR : S.R s = ∅ := hw.2.2.2.2.2.2.1
          exact ⟨hw.2.2.2.1, hw.2.2.2.2.2.2.2.1, hw.2.2.2.2.2.1, by rw [hR]; exact Set.empty_subset _, hw.2.2.1, hw.1, fun h => absurd h hp, fun _ => hR⟩
      obtain ⟨hJn, hpre, hWs, hRs, hph, hrp, hmain, hR0⟩ := hJn
      have hR : g.R = ∅ := hok.r_run hrp hph hJn
      set o1 : Own Sp := if S.isPart s = true then ⟨g.role, g.ph, g.W \ (S.W s ∪ S.R s), S.R s, some s⟩ else ⟨g.role, g.ph, g.W \ S.W s, g.R, none⟩ with ho1
      set J1 : Owed V Sp := if S.isPart s = true then some (s, K.post s sh.mem) else none with hJ1
      set G1 : Int → Mem V → Prop := if S.isPart s = true then K.post s sh.mem else fun _ _ => True with hG1
      have hroles := h.main_le
      refine ⟨ts', by simpa using h1, X₁ ++ ⟨p', o1, J1, Gx, k0 - K.ρ s sh.mem⟩ :: X₂ ++ [⟨P.body s, (childGh S s sh.mem).own, none, G1, K.ρ s sh.mem⟩], ?_⟩
      have mm : ∀ x, x ∈ X₁ ++ (⟨p', o1, J1, Gx, k0 - K.ρ s sh.mem⟩ : KT V Sp) :: X₂ ++ [⟨P.body s, (childGh S s sh.mem).own, none, G1, K.ρ s sh.mem⟩] →
          x = ⟨p', o1, J1, Gx, k0 - K.ρ s sh.mem⟩ ∨ x = ⟨P.body s, (childGh S s sh.mem).own, none, G1, K.ρ s sh.mem⟩ ∨ x ∈ X₁ ++ X₂ := fun x hx => mem_two hx
      have hgo := hpay0.1
      -- nobody else is owed anything
      have hnoJ : ∀ x ∈ X₁ ++ X₂, S.isPart s = true → x.J = none := by
        intro x hx hps
        have hm : g.role = .main := hmain hps
        have hxt : ∃ t ∈ L₁ ++ L₂, t.2.own = x.o := by
          rcases List.mem_append.1 hx with hx | hx
          · obtain ⟨t, ht, he⟩ := own_mem hO1 hx; exact ⟨t, by simp [ht], he⟩
          · obtain ⟨t, ht, he⟩ := own_mem hO2 hx; exact ⟨t, by simp [ht], he⟩
        obtain ⟨t, ht, he⟩ := hxt
        cases hxJ : x.J with
        | none => rfl
        | some y =>
          exfalso
          have hj := hI.j x (hmem x hx)
          rw [hxJ, ← he] at hj
          have hjt : t.2.J ≠ none := by intro hn; simp [Gh.own, hn] at hj
          have hmt := ((h.ok t (mem_mid ht)).j hjt).1
          have hjsum := h.jsum
          have hml := h.main_le
          have hpos := le_sumOf (f := mainG) ht
          simp only [sumOf_append, sumOf_cons] at hml hpos
          simp [mainG, hm, hmt] at hml hpos
          omega
      have hnoP : ∀ y ∈ X₁ ++ X₂, S.isPart s = true → y.o.role = .part → y.o.ph = .run → False := by
        intro y hy hps hy1 hy2
        have hyt : ∃ t ∈ L₁ ++ L₂, t.2.own = y.o := by
          rcases List.mem_append.1 hy with hx | hx
          · obtain ⟨t, ht, he⟩ := own_mem hO1 hx; exact ⟨t, by simp [ht], he⟩
          · obtain ⟨t, ht, he⟩ := own_mem hO2 hx; exact ⟨t, by simp [ht], he⟩
        obtain ⟨t, ht, he⟩ := hyt
        have hjsum := h.jsum
        have hpos := le_sumOf (f := prunG) ht
        have hz : sumOf jG (L₁ ++ (Prog.go s p', g) :: L₂) = 0 := by
          by_contra hne
          obtain ⟨t', ht', hp'⟩ := sumOf_pos (Nat.pos_of_ne_zero hne)
          have hjt : t'.2.J ≠ none := by intro hn; simp [jG, hn] at hp'
          have hmt := ((h.ok t' ht').j hjt).1
          have hm : g.role = .main := hmain hps
          have hml := h.main_le
          have : t' ∈ L₁ ++ L₂ ∨ t' = (Prog.go s p', g) := (mem_one ht').symm
          rcases this with ht2 | rfl
          · have hpos := le_sumOf (f := mainG) ht2
            simp only [sumOf_append, sumOf_cons] at hml hpos
            simp [mainG, hm, hmt] at hml hpos
            omega
          · exact hjt hJn
        rw [hz] at hjsum
        rw [← he] at hy1 hy2
        have r1 : t.2.role = .part := hy1
        have r2 : t.2.ph = .run := hy2
        simp only [sumOf_append, sumOf_cons] at hjsum hpos
        simp [prunG, r1, r2] at hpos
        omega
      refine ⟨by simp [e1, e2], by rw [h2]; simp [hO1, hO2], ?_, ?_, ?_, ?_, ?_⟩
      · intro x hx
        rcases mm x hx with rfl | rfl | hx
        · simp only [ho1, hJ1]; split_ifs <;> rfl
        · show (childGh S s sh.mem).own.J = none
          unfold childGh; split_ifs <;> rfl
        · exact hI.j x (hmem x hx)
      · intro x hx s' post hs
        rcases mm x hx with rfl | rfl | hx
        · simp only [hJ1] at hs
          split_ifs at hs
          simp only [Option.some.injEq, Prod.mk.injEq] at hs
          obtain ⟨rfl, rfl⟩ := hs
          exact ⟨_, rfl⟩
        · cases hs
        · exact hI.jp x (hmem x hx) s' post hs
      · intro x hx
        rcases mm x hx with rfl | rfl | hx
        · intro m' hag
          -- the region given away may have changed
          classical
          let m2 : Mem V := fun i => if i ∈ S.W s then sh.mem i else m' i
          have hag2 : Agree (g.W ∪ g.R) sh.mem m2 := by
            intro i hi
            by_cases hc : i ∈ S.W s
            · simp [m2, hc]
            · simp only [m2, hc, if_false]
              refine hag i ?_
              simp only [ho1]
              rw [hR] at hi
              have hi : i ∈ g.W := by simpa using hi
              split_ifs
              · by_cases hc2 : i ∈ S.R s
                · exact .inr hc2
                · exact .inl ⟨hi, by rintro (h | h) <;> contradiction⟩
              · exact .inl ⟨hi, hc⟩
          have h3 := hpay m2 hag2
          have hagS : Agree (S.W s ∪ S.R s) sh.mem m2 := hag2.mono fun i hi => by
            rcases hi with hi | hi
            · exact .inl (hWs hi)
            · exact .inl (hRs hi)
          have h4 := h3.2 m' (by
            intro i hi
            have : i ∉ S.W s := hi
            simp [m2, this])
          rw [← hK.ρ s _ _ hagS, ← hK.post s _ _ hagS] at h4
          exact h4
        · intro m' hag
          have hagS : Agree (S.W s ∪ S.R s) sh.mem m' := by
            refine hag.mono ?_
            show _ ⊆ (childGh S s sh.mem).own.W ∪ (childGh S s sh.mem).own.R
            unfold childGh
            split_ifs with hps
            · exact subset_rfl
            · show S.W s ∪ S.R s ⊆ S.W s ∪ ∅
              rw [hR0 (by simpa using hps)]
          have := hbody s m' (hK.sp s _ _ hagS hgo.1) (H.loc.pre s _ _ hagS hpre)
          rw [← hK.ρ s _ _ hagS, ← hK.post s _ _ hagS] at this
          exact this
        · exact hoth sh.mem (fun _ _ => rfl) x hx
      · intro x hx s' post hs y hy hy1 hy2
        by_cases hps : S.isPart s = true
        · have hx1 : post = K.post s sh.mem := by
            rcases mm x hx with rfl | rfl | hx
            · simp only [hJ1, if_pos hps, Option.some.injEq, Prod.mk.injEq] at hs
              exact hs.2.symm
            · cases hs
            · rw [hnoJ x hx hps] at hs; cases hs
          rcases mm y hy with rfl | rfl | hy
          · exfalso
            simp only [ho1, if_pos hps] at hy1
            exact hrp hy1
          · rw [hx1]; simp only [hG1, if_pos hps]
          · exact (hnoP y hy hps hy1 hy2).elim
        · have hx' : x ∈ X₁ ++ X₂ := by
            rcases mm x hx with rfl | rfl | hx
            · simp only [hJ1, if_neg hps] at hs; cases hs
            · cases hs
            · exact hx
          rcases mm y hy with rfl | rfl | hy
          · exfalso
            simp only [ho1, if_neg hps] at hy1
            exact hrp hy1
          · exfalso
            simp [childGh, hps, Gh.own] at hy1
          · exact hI.link x (hmem x hx') s' post hs y (hmem y hy) hy1 hy2
      · have := hgo.2
        simp [Prog.accs] at hsum ⊢; omega
  | @commSR n l₁ l₂ l₃ sh v k k' _ hsy ih =>
    exfalso
    obtain ⟨ts, h, _, hI⟩ := ih
    have hths : (l₁ ++ .send v k :: l₂) ++ .recv k' :: l₃ = ts.map Prod.fst := by simpa using h.ths
    obtain ⟨L₁, g, L₂, rfl, h1, h2⟩ := split_ths hths
    have := h.recv_main (i := (l₁ ++ .send v k :: l₂).length) (k := k') (by simp)
    simp at this
  | @commRS n l₁ l₂ l₃ sh v k k' _ hsy ih =>
    obtain ⟨ts, h, xs, hI⟩ := ih
    have h0 := h.recv_main (i := l₁.length) (k := k') (by simp)
    have hl₁ : l₁ = [] := List.eq_nil_of_length_eq_zero h0
    subst hl₁
    have hths : [] ++ .recv k' :: (l₂ ++ .send v k :: l₃) = ts.map Prod.fst := by simpa using h.ths
    obtain ⟨L₁, g, L', rfl, h1, h2⟩ := split_ths hths
    have hL₁ : L₁ = [] := by simpa using h1
    subst hL₁
    obtain ⟨L₂, gs, L₃, rfl, h3, h4⟩ := split_ths h2.symm
    subst h3 h4
    simp only [List.nil_append] at h hI
    obtain ⟨ts', h1, _, h2⟩ := h.commMain hsy
    have hth := hI.ths
    have hth' : xs.map (fun x => x.p) = [] ++ Prog.recv k' :: (L₂.map Prod.fst ++ Prog.send v k :: L₃.map Prod.fst) := by simpa using hth
    obtain ⟨X₁, ⟨p0, o, J, G0, k0⟩, X', rfl, hp0, e1, e2⟩ := split_kt hth'
    have hX₁ : X₁ = [] := by simpa using e1
    subst hX₁
    obtain ⟨X₂, ⟨p1, os, J', Gs, k1⟩, X₃, rfl, hp1, e3, e4⟩ := split_kt e2
    dsimp only at hp0 hp1
    subst hp0 hp1
    have hos := hI.os
    simp only [ownsOf, List.nil_append, List.map_append, List.map_cons, List.cons.injEq] at hos
    obtain ⟨rfl, hos⟩ := hos
    have hl : (X₂.map fun x => x.o).length = (L₂.map (fun t => t.2.own)).length := by
      have := congrArg List.length e3; simpa using this
    obtain ⟨ja, jb⟩ := List.append_inj hos hl
    simp only [List.cons.injEq] at jb
    obtain ⟨rfl, jb⟩ := jb
    have m0 : (⟨Prog.recv k', g.own, J, G0, k0⟩ : KT V Sp) ∈ ([] : List (KT V Sp)) ++ ⟨Prog.recv k', g.own, J, G0, k0⟩ :: (X₂ ++ ⟨Prog.send v k, gs.own, J', Gs, k1⟩ :: X₃) := by simp
    have ms : (⟨Prog.send v k, gs.own, J', Gs, k1⟩ : KT V Sp) ∈ ([] : List (KT V Sp)) ++ ⟨Prog.recv k', g.own, J, G0, k0⟩ :: (X₂ ++ ⟨Prog.send v k, gs.own, J', Gs, k1⟩ :: X₃) := by simp
    have hpay0 := hI.paid _ m0
    have hpay1 := hI.paid _ ms
    have hJ0 := hI.j _ m0
    have hJ1 := hI.j _ ms
    dsimp only at hpay0 hpay1 hJ0 hJ1
    have hsend := hpay1 sh.mem (Agree.refl _ _)
    have hJs : gs.J = none := by
      cases hJ : gs.J with
      | none => rfl
      | some x =>
        have := ((h.ok (Prog.send v k, gs) (by simp)).j (by simp [hJ])).1
        exact absurd this ((h.head).2 (Prog.send v k, gs) (by simp))
    have hJ' : J' = none := by
      rw [Gh.own, hJs] at hJ1
      cases J' with
      | none => rfl
      | some _ => simp at hJ1
    subst hJ'
    have hoth : ∀ x ∈ X₂ ++ X₃, x ∈ ([] : List (KT V Sp)) ++ ⟨Prog.recv k', g.own, J, G0, k0⟩ :: (X₂ ++ ⟨Prog.send v k, gs.own, none, Gs, k1⟩ :: X₃) := fun x hx => mem_rest hx
    have hnoJ : ∀ x ∈ X₂ ++ X₃, x.J = none := by
      intro x hx
      cases hxJ : x.J with
      | none => rfl
      | some y =>
        exfalso
        have hxt : ∃ t ∈ L₂ ++ L₃, t.2.own = x.o := by
          rcases List.mem_append.1 hx with hx | hx
          · obtain ⟨t, ht, he⟩ := own_mem (L := L₂) ja hx; exact ⟨t, by simp [ht], he⟩
          · obtain ⟨t, ht, he⟩ := own_mem (L := L₃) jb hx; exact ⟨t, by simp [ht], he⟩
        obtain ⟨t, ht, he⟩ := hxt
        have hj := hI.j x (hoth x hx)
        rw [hxJ, ← he] at hj
        have hjt : t.2.J ≠ none := by intro hn; simp [Gh.own, hn] at hj
        have htm : t ∈ L₂ ++ (Prog.send v k, gs) :: L₃ := mem_mid ht
        exact (h.head).2 t htm ((h.ok t (List.mem_cons_of_mem _ htm)).j hjt).1
    have hsum := hI.sum
    have fin : ∀ (o0 o1 : Own Sp), ownsOf ts' = o0 :: (ownsOf L₂ ++ o1 :: ownsOf L₃) → o0.J = none → o1.J = none →
        (∀ m', Agree (o0.W ∪ o0.R) sh.mem m' → kw S K G0 (k' v) none m' k0 fun _ _ _ _ => True) →
        ∃ xs, KI S K B ⟨sh, k' v :: (L₂.map Prod.fst ++ k :: L₃.map Prod.fst)⟩ (ownsOf ts') n xs := by
      intro o0 o1 ho hj0 hj1 hc
      have mm : ∀ x, x ∈ (⟨k' v, o0, none, G0, k0⟩ : KT V Sp) :: (X₂ ++ ⟨k, o1, none, Gs, k1⟩ :: X₃) → x = ⟨k' v, o0, none, G0, k0⟩ ∨ x = ⟨k, o1, none, Gs, k1⟩ ∨ x ∈ X₂ ++ X₃ := fun x hx => mem_two' hx
      have noJ : ∀ x, x ∈ (⟨k' v, o0, none, G0, k0⟩ : KT V Sp) :: (X₂ ++ ⟨k, o1, none, Gs, k1⟩ :: X₃) → x.J = none := by
        intro x hx
        rcases mm x hx with rfl | rfl | hx
        · rfl
        · rfl
        · exact hnoJ x hx
      refine ⟨⟨k' v, o0, none, G0, k0⟩ :: (X₂ ++ ⟨k, o1, none, Gs, k1⟩ :: X₃), by simp [e3, e4], ?_, ?_, ?_, ?_, ?_, ?_⟩
      · rw [ho]; simp [ownsOf, ja, jb]
      · intro x hx
        rcases mm x hx with rfl | rfl | hx
        · exact hj0
        · exact hj1
        · exact hI.j x (hoth x hx)
      · intro x hx s post hs
        rw [noJ x hx] at hs; cases hs
      · intro x hx
        rcases mm x hx with rfl | rfl | hx
        · exact hc
        · exact fun m' _ => hsend.2 m'
        · exact hI.paid x (hoth x hx)
      · intro x hx s post hs
        rw [noJ x hx] at hs; cases hs
      · simp at hsum ⊢; omega
    refine ⟨ts', by simpa using h1, ?_⟩
    rcases h2 with ⟨s, post, a1, a2, a3, a4, a5, _, a6⟩ | ⟨a1, a2, a3, a4, a5⟩
    · obtain ⟨post', rfl⟩ : ∃ post', J = some (s, post') := by
        rw [Gh.own, a1] at hJ0
        cases J with
        | none => simp at hJ0
        | some x =>
          simp only [Option.map_some, Option.some.injEq] at hJ0
          exact ⟨x.2, by rw [hJ0]⟩
      obtain ⟨mp, hmp⟩ := hI.jp _ m0 s post' rfl
      have hG : Gs = post' := hI.link _ m0 s post' rfl _ ms a4 a5
      have hR0 : g.R = S.R s := ((h.ok (Prog.recv k', g) (by simp)).r_J s post a1).1
      refine fin _ _ a6 rfl rfl ?_
      intro m' hag
      dsimp only at hag
      have h5 := hpay0 m' (hag.mono fun i hi => by
        rcases hi with hi | hi
        · exact .inl (.inl hi)
        · refine .inl (.inr (.inr ?_))
          rw [← hR0]; exact hi)
      refine h5 v m' (Agree.refl _ _) ?_
      rw [hmp]
      refine hK.post' s mp v sh.mem m' (hag.mono fun i hi => .inl (.inr hi)) ?_
      rw [← hmp, ← hG]
      exact hsend.1
    · have hJn : J = none := by
        cases hgJ : g.J with
        | some x =>
          have := ((h.ok (Prog.recv k', g) (by simp)).j (by simp [hgJ])).2.1
          rw [a2] at this; cases this
        | none =>
          rw [Gh.own, hgJ] at hJ0
          cases J with
          | none => rfl
          | some _ => simp at hJ0
      subst hJn
      exact fin _ _ a5 rfl rfl fun m' hag => hpay0 m' hag v

/-- a bound for every execution -/
theorem Inv.kmetered_le (H : Hyp P S I) (hK : K.Local S) {p : Prog V Sp Unit} {m : Mem V}
    (h0 : ∃ g, Inv P S I (Sorty.start p m) [(p, g)] ∧ g.J = none ∧ I.W0 ⊆ g.W)
    (hbody : ∀ s m, K.sp s m → S.pre s m → kw S K (if S.isPart s = true then K.post s m else fun _ _ => True) (P.body s) none m (K.ρ s m) fun _ _ _ _ => True)
    {B : Nat} {G : Int → Mem V → Prop} (hp : ∀ m', Agree I.W0 m m' → kw S K G p none m' B fun _ _ _ _ => True)
    {c : Cfg V Sp} {n : Nat} (h : CSteps P Prog.accs (Sorty.start p m) c n) (hS : S.racy = ∅ := by rfl) : n ≤ B := by
  obtain ⟨_, _, _, hI⟩ := Inv.kmetered H hK h0 hbody hp h hS
  have := hI.sum
  omega

end Sorty
