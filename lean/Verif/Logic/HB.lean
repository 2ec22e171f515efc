import Verif.Logic.Label
import Verif.SemHB

/-! # Ownership passes along happens-before

Every goroutine that may access an address has everything that was done to the address before among its predecessors in
happens-before: addresses are handed over by `go` statements, messages and, at the end, the atomic counter.
-/

namespace Sorty

variable {V Sp : Type} {P : Par V Sp} {S : Spec V Sp} {I : IPar V Sp}

/-! ## recorded executions that grow -/

theorem getElem?_snoc {α : Type} {l : List α} {x y : α} {i : Nat} (h : (l ++ [x])[i]? = some y) :
    l[i]? = some y ∨ (i = l.length ∧ y = x) := by
  rcases Nat.lt_trichotomy i l.length with h1 | h1 | h1
  · rw [List.getElem?_append_left h1] at h; exact .inl h
  · subst h1; simp at h; exact .inr ⟨rfl, h.symm⟩
  · rw [List.getElem?_append_right (by omega), List.getElem?_singleton] at h
    rw [if_neg (by omega)] at h; cases h

theorem getElem?_grow {α : Type} {l l' : List α} {y : α} {i : Nat} (h : l[i]? = some y) : (l ++ l')[i]? = some y := by
  rw [List.getElem?_append_left (List.getElem?_eq_some_iff.1 h).1]; exact h

theorem HB.grow {tr l : List Ev} {i j} (h : HB tr i j) : HB (tr ++ l) i j := by
  induction h with
  | edge h1 h2 h3 h4 h5 => exact .edge h1 (getElem?_grow h2) (getElem?_grow h3) h4 h5
  | trans _ _ h1 h2 => exact .trans h1 h2

theorem KnownTo.grow {tr l : List Ev} {w i} (h : KnownTo tr w i) : KnownTo (tr ++ l) w i := by
  obtain ⟨j, x, h1, h2, h3⟩ := h
  exact ⟨j, x, getElem?_grow h1, h2, h3.imp_right HB.grow⟩

/-- what one participant of an action knows happens before the action -/
theorem KnownTo.before {tr : List Ev} {x : Ev} {w i} (h : KnownTo tr w i) (hw : w ∈ x.who) : HB (tr ++ [x]) i tr.length := by
  obtain ⟨j, y, h1, h2, h3⟩ := h
  have hj := (List.getElem?_eq_some_iff.1 h1).1
  have e : HB (tr ++ [x]) j tr.length := .edge hj (getElem?_grow h1) (by simp) h2 hw
  rcases h3 with rfl | h3
  · exact e
  · exact .trans h3.grow e

/-- what one participant of an action knows, all of them know after it -/
theorem KnownTo.share {tr : List Ev} {x : Ev} {w w' i} (h : KnownTo tr w i) (hw : w ∈ x.who) (hw' : w' ∈ x.who) :
    KnownTo (tr ++ [x]) w' i :=
  ⟨tr.length, x, by simp, hw', .inr (h.before hw)⟩

theorem KnownTo.new {tr : List Ev} {x : Ev} {w} (hw : w ∈ x.who) : KnownTo (tr ++ [x]) w tr.length :=
  ⟨tr.length, x, by simp, hw, .inl rfl⟩

/-! ## the invariant -/

/-- facts about ownership that follow from the main invariant -/
structure OwnOK (S : Spec V Sp) (os : List (Own Sp)) : Prop where
  disj : ∀ {i j : Nat} {oi oj : Own Sp}, i ≠ j → os[i]? = some oi → os[j]? = some oj → Disjoint oi.W oj.W ∧ Disjoint oi.W oj.R
  rr : ∀ {i : Nat} {o : Own Sp} {a : Nat}, os[i]? = some o → o.ph = .run → a ∈ o.R → o.role = .part ∨ ∃ s, o.J = some s
  jm : ∀ {i : Nat} {o : Own Sp} {s : Sp}, os[i]? = some o → o.J = some s → i = 0 ∧ o.R = S.R s ∧ o.ph = .run
  pu : ∀ {i j : Nat} {o o' : Own Sp}, os[i]? = some o → os[j]? = some o' → o.role = .part → o'.role = .part → o.ph = .run → o'.ph = .run → i = j
  jl : ∀ {i j : Nat} {o o' : Own Sp} {s : Sp}, os[i]? = some o → o.J = some s → os[j]? = some o' → o'.role = .part → o'.ph = .run → o'.W = S.W s
  mi : ∀ {i : Nat} {o : Own Sp}, os[i]? = some o → o.role = .main → i = 0
  nr : ∀ {i j : Nat} {o o' : Own Sp}, os[i]? = some o → (o.ph = .last ∨ o.role = .main ∧ o.ph = .done) → os[j]? = some o' → o'.ph ≠ .run

/-- the happens-before invariant -/
structure HI (S : Spec V Sp) (tr : List Ev) (sync : Bool) (os : List (Own Sp)) : Prop where
  w : ∀ {i : Nat} {o : Own Sp}, os[i]? = some o → o.ph = .run → ∀ {e t a : Nat} {w : Bool}, tr[e]? = some (.acc t a w) → a ∈ o.W → KnownTo tr (.gor i) e
  r : ∀ {i : Nat} {o : Own Sp}, os[i]? = some o → o.ph = .run → ∀ {e t a : Nat}, tr[e]? = some (.acc t a true) → a ∈ o.R → KnownTo tr (.gor i) e
  j : ∀ {i : Nat} {o : Own Sp} {s : Sp}, os[i]? = some o → o.J = some s → ∀ {i' : Nat} {o' : Own Sp}, os[i']? = some o' → o'.role = .part → o'.ph = .run →
    ∀ {e t a : Nat} {w : Bool}, tr[e]? = some (.acc t a w) → a ∈ S.R s → KnownTo tr (.gor i) e ∨ KnownTo tr (.gor i') e
  all : ∀ {e t a : Nat} {w : Bool}, tr[e]? = some (.acc t a w) →
    KnownTo tr .counter e ∨ ∃ (i : Nat) (o : Own Sp), os[i]? = some o ∧ o.ph = .run ∧ KnownTo tr (.gor i) e
  last : ∀ {i : Nat} {o : Own Sp}, os[i]? = some o → (o.ph = .last ∨ o.role = .main ∧ o.ph = .done) →
    ∀ {e t a : Nat} {w : Bool}, tr[e]? = some (.acc t a w) → KnownTo tr (.gor i) e
  noatom : sync = false → ∀ t, Ev.atom t ∉ tr
  norace : ¬ GoRace tr

theorem own_at {ts : List (Th V Sp)} {i : Nat} {o : Own Sp} (h : (ownsOf ts)[i]? = some o) : ∃ t : Th V Sp, ts[i]? = some t ∧ t.2.own = o := by
  simpa [ownsOf, List.getElem?_map] using h

theorem sumOf_two {f : Gh V Sp → Nat} {ts : List (Th V Sp)} (h : sumOf f ts ≤ 1) {i j : Nat} {x y : Th V Sp}
    (hi : ts[i]? = some x) (hj : ts[j]? = some y) (hx : f x.2 = 1) (hy : f y.2 = 1) : i = j := by
  induction ts generalizing i j with
  | nil => simp at hi
  | cons z l ih =>
    have key : ∀ {j : Nat} {y : Th V Sp}, l[j]? = some y → f y.2 = 1 → f z.2 = 1 → False := by
      intro j y hj hy hz
      have := le_sumOf (f := f) (List.mem_of_getElem? hj)
      simp at h; omega
    cases i with
    | zero =>
      simp only [List.getElem?_cons_zero, Option.some.injEq] at hi
      subst hi
      cases j with
      | zero => rfl
      | succ j => exact (key (by simpa using hj) hy hx).elim
    | succ i =>
      cases j with
      | zero =>
        simp only [List.getElem?_cons_zero, Option.some.injEq] at hj
        subst hj
        exact (key (by simpa using hi) hx hy).elim
      | succ j =>
        have := ih (by simp at h; omega) (by simpa using hi) (by simpa using hj)
        omega

theorem Inv.main_idx {c : Cfg V Sp} {ts} (h : Inv P S I c ts) {i t} (ht : ts[i]? = some t) (hr : t.2.role = .main) : i = 0 := by
  cases ts with
  | nil => simp at ht
  | cons t0 L =>
    cases i with
    | zero => rfl
    | succ i => exact absurd hr (h.head.2 t (List.mem_of_getElem? (by simpa using ht)))

/-- nobody runs any more when the counter has come to zero -/
theorem Inv.no_run {c : Cfg V Sp} {ts} (h : Inv P S I c ts) (hs : c.sh.sync = true) (hn : c.sh.nGor = 0) :
    ∀ t ∈ ts, t.2.ph ≠ .run := by
  have hcnt := h.cnt hs
  intro t ht hp
  have h1 := le_sumOf (f := cntG) ht
  by_cases hr : t.2.role = .part
  · have h2 := le_sumOf (f := prunG) ht
    have h3 : prunG t.2 = 1 := by simp [prunG, hr, hp]
    have h4 := h.jsum
    obtain ⟨t', ht', hj⟩ := sumOf_pos (f := jG) (ts := ts) (by omega)
    have hJ : t'.2.J ≠ none := by intro hh; simp [jG, hh] at hj
    have hok := (h.ok t' ht').j hJ
    have h5 := le_sumOf (f := cntG) ht'
    have : cntG t'.2 ≥ 1 := by simp [cntG, hok.1, hok.2.1]
    omega
  · have : cntG t.2 ≥ 1 := by simp [cntG, hr, hp]
    omega

theorem Inv.sync_of {c : Cfg V Sp} {ts} (h : Inv P S I c ts) {t} (ht : t ∈ ts) (hp : t.2.ph ≠ .run) : c.sh.sync = true := by
  have := h.cflag t ht
  rw [← this]
  cases hC : t.2.C with
  | true => rfl
  | false => exact absurd ((h.ok t ht).c_false hC).2.1 hp

theorem Inv.ownOK {c : Cfg V Sp} {ts} (h : Inv P S I c ts) : OwnOK S (ownsOf ts) := by
  refine ⟨?_, ?_, ?_, ?_, ?_, ?_, ?_⟩
  · intro i j oi oj hij hi hj
    obtain ⟨t, ht, rfl⟩ := own_at hi
    obtain ⟨t', ht', rfl⟩ := own_at hj
    have hd : Disj t t' := by
      have hpw := List.pairwise_iff_getElem.1 h.disj
      obtain ⟨h1, h1'⟩ := List.getElem?_eq_some_iff.1 ht
      obtain ⟨h2, h2'⟩ := List.getElem?_eq_some_iff.1 ht'
      rcases Nat.lt_or_gt_of_ne hij with hlt | hlt
      · have := hpw i j h1 h2 hlt; rwa [h1', h2'] at this
      · have := hpw j i h2 h1 hlt; rw [h1', h2'] at this; exact this.symm
    exact ⟨hd.1, hd.2.1⟩
  · intro i o a hi hp ha
    obtain ⟨t, ht, rfl⟩ := own_at hi
    have hok := h.ok t (List.mem_of_getElem? ht)
    by_cases hr : t.2.role = .part
    · exact .inl hr
    · right
      cases hJ : t.2.J with
      | none =>
        have ha : a ∈ t.2.R := ha
        rw [hok.r_run hr hp hJ] at ha; cases ha
      | some x => exact ⟨x.1, by simp [Gh.own, hJ]⟩
  · intro i o s hi hJ
    obtain ⟨t, ht, rfl⟩ := own_at hi
    have hok := h.ok t (List.mem_of_getElem? ht)
    obtain ⟨⟨s', post⟩, hJ', rfl⟩ := Option.map_eq_some_iff.1 hJ
    have := hok.j (by simp [hJ'])
    exact ⟨h.main_idx ht this.1, (hok.r_J _ _ hJ').1, this.2.1⟩
  · intro i j o o' hi hj hr hr' hp hp'
    obtain ⟨t, ht, rfl⟩ := own_at hi
    obtain ⟨t', ht', rfl⟩ := own_at hj
    have hr : t.2.role = .part := hr
    have hr' : t'.2.role = .part := hr'
    have hp : t.2.ph = .run := hp
    have hp' : t'.2.ph = .run := hp'
    have hle : sumOf prunG ts ≤ 1 := by have := h.j_le; have := h.jsum; omega
    exact sumOf_two hle ht ht' (by simp [prunG, hr, hp]) (by simp [prunG, hr', hp'])
  · intro i j o o' s hi hJ hj hr hp
    obtain ⟨t, ht, rfl⟩ := own_at hi
    obtain ⟨t', ht', rfl⟩ := own_at hj
    obtain ⟨⟨s', post⟩, hJ', rfl⟩ := Option.map_eq_some_iff.1 hJ
    exact (h.jlink t (List.mem_of_getElem? ht) t' (List.mem_of_getElem? ht') s' post hJ' hr hp).1
  · intro i o hi hr
    obtain ⟨t, ht, rfl⟩ := own_at hi
    exact h.main_idx ht hr
  · intro i j o o' hi hl hj hp
    obtain ⟨t, ht, rfl⟩ := own_at hi
    obtain ⟨t', ht', rfl⟩ := own_at hj
    have htm := List.mem_of_getElem? ht
    have hs : c.sh.sync = true := h.sync_of htm (by
      intro hh
      have hl : t.2.ph = .last ∨ t.2.role = .main ∧ t.2.ph = .done := hl
      simp [hh] at hl)
    have hn : c.sh.nGor = 0 := by
      rcases hl with hl | ⟨hl1, hl2⟩
      · have hl : t.2.ph = .last := hl
        by_contra hh
        have := h.lastsum hs
        rw [if_neg hh] at this
        have h4 := le_sumOf (f := lastG) htm
        have : lastG t.2 = 1 := by simp [lastG, hl]
        omega
      · exact h.mdone hs t htm hl1 hl2
    exact h.no_run hs hn t' (List.mem_of_getElem? ht') hp

/-- looking up in a list with one entry changed and some appended -/
theorem upd_get {α : Type} {l₁ l₂ new : List α} {o o' x : α} {i : Nat} (h : (l₁ ++ o' :: l₂ ++ new)[i]? = some x) :
    (i = l₁.length ∧ x = o') ∨ (i ≠ l₁.length ∧ (l₁ ++ o :: l₂)[i]? = some x) ∨
      ((l₁ ++ o :: l₂).length ≤ i ∧ new[i - (l₁ ++ o :: l₂).length]? = some x) := by
  rcases Nat.lt_or_ge i (l₁ ++ o' :: l₂).length with h1 | h1
  · rw [List.getElem?_append_left h1] at h
    rcases Nat.lt_trichotomy i l₁.length with h2 | h2 | h2
    · rw [List.getElem?_append_left h2] at h
      exact .inr (.inl ⟨by omega, by rw [List.getElem?_append_left h2]; exact h⟩)
    · subst h2; simp at h; exact .inl ⟨rfl, h.symm⟩
    · refine .inr (.inl ⟨by omega, ?_⟩)
      rw [List.getElem?_append_right (by omega)] at h ⊢
      obtain ⟨k, hk⟩ : ∃ k, i - l₁.length = k + 1 := ⟨i - l₁.length - 1, by omega⟩
      rw [hk] at h ⊢
      simpa using h
  · rw [List.getElem?_append_right h1] at h
    have e : (l₁ ++ o' :: l₂).length = (l₁ ++ o :: l₂).length := by simp
    rw [e] at h h1
    exact .inr (.inr ⟨h1, h⟩)

theorem upd_get_other {α : Type} {l₁ l₂ new : List α} {o o' x : α} {i : Nat} (hi : i ≠ l₁.length) (h : (l₁ ++ o :: l₂)[i]? = some x) :
    (l₁ ++ o' :: l₂ ++ new)[i]? = some x := by
  apply getElem?_grow
  rcases Nat.lt_trichotomy i l₁.length with h2 | h2 | h2
  · rw [List.getElem?_append_left h2] at h ⊢; exact h
  · exact absurd h2 hi
  · rw [List.getElem?_append_right (by omega)] at h ⊢
    obtain ⟨k, hk⟩ : ∃ k, i - l₁.length = k + 1 := ⟨i - l₁.length - 1, by omega⟩
    rw [hk] at h ⊢
    simpa using h

theorem acc_snoc {tr : List Ev} {x : Ev} {e t a : Nat} {w : Bool} (hx : ∀ t a w, x ≠ Ev.acc t a w) (h : (tr ++ [x])[e]? = some (.acc t a w)) :
    tr[e]? = some (.acc t a w) := by
  rcases getElem?_snoc h with h | ⟨_, h⟩
  · exact h
  · exact absurd h.symm (hx _ _ _)

theorem norace_snoc {tr : List Ev} {x : Ev} (hx : ∀ t a w, x ≠ .acc t a w) (h : ¬ GoRace tr) : ¬ GoRace (tr ++ [x]) := by
  rintro ⟨i, j, t, t', a, w, w', h1, h2, h3, h4, h5⟩
  exact h ⟨i, j, t, t', a, w, w', h1, acc_snoc hx h2, acc_snoc hx h3, h4, fun hb => h5 hb.grow⟩

/-! ## steps -/

/-- an access to an element -/
theorem HI.acc {tr sync os} {n : Nat} {o : Own Sp} {a : Nat} {wr : Bool} (h : HI S tr sync os) (hO : OwnOK S os) (hn : os[n]? = some o) (hp : o.ph = .run)
    (ha : a ∈ o.W ∨ a ∈ o.R) (hw : wr = true → a ∈ o.W) : HI S (tr ++ [.acc n a wr]) sync os := by
  have hwho : Who.gor n ∈ (Ev.acc n a wr).who := by simp [Ev.who]
  have hnew : KnownTo (tr ++ [.acc n a wr]) (.gor n) tr.length := KnownTo.new hwho
  refine ⟨?_, ?_, ?_, ?_, ?_, ?_, ?_⟩
  · intro i o' hi hp' e t b w he hb
    rcases getElem?_snoc he with he | ⟨rfl, hx⟩
    · exact (h.w hi hp' he hb).grow
    · cases hx
      by_cases hin : n = i
      · subst hin; exact hnew
      · exfalso
        have h1 := hO.disj (Ne.symm hin) hi hn
        rcases ha with ha | ha
        · exact Set.disjoint_left.1 h1.1 hb ha
        · exact Set.disjoint_left.1 h1.2 hb ha
  · intro i o' hi hp' e t b he hb
    rcases getElem?_snoc he with he | ⟨rfl, hx⟩
    · exact (h.r hi hp' he hb).grow
    · cases hx
      by_cases hin : n = i
      · subst hin; exact hnew
      · exact (Set.disjoint_left.1 (hO.disj hin hn hi).2 (hw rfl) hb).elim
  · intro i o1 s hi hJ i' o2 hi' hr' hp' e t b w he hb
    rcases getElem?_snoc he with he | ⟨rfl, hx⟩
    · exact (h.j hi hJ hi' hr' hp' he hb).imp KnownTo.grow KnownTo.grow
    · cases hx
      by_cases hin : n = i
      · subst hin; exact .inl hnew
      · right
        obtain ⟨hi0, hR, _⟩ := hO.jm hi hJ
        rw [← hR] at hb
        have haR : a ∈ o.R := by
          rcases ha with ha | ha
          · exact (Set.disjoint_left.1 (hO.disj hin hn hi).2 ha hb).elim
          · exact ha
        rcases hO.rr hn hp haR with hr | ⟨s', hs'⟩
        · have := hO.pu hn hi' hr hr' hp hp'
          subst this; exact hnew
        · have := (hO.jm hn hs').1
          omega
  · intro e t b w he
    rcases getElem?_snoc he with he | ⟨rfl, hx⟩
    · rcases h.all he with h1 | ⟨i, o', h1, h2, h3⟩
      · exact .inl h1.grow
      · exact .inr ⟨i, o', h1, h2, h3.grow⟩
    · exact .inr ⟨n, o, hn, hp, hnew⟩
  · intro i o' hi hl
    exact absurd hp (hO.nr hi hl hn)
  · intro hs t ht
    simp only [List.mem_append, List.mem_singleton] at ht
    rcases ht with ht | ht
    · exact h.noatom hs t ht
    · cases ht
  · rintro ⟨i, j, t, t', b, w, w', h1, h2, h3, h4, h5⟩
    rcases getElem?_snoc h3 with h3 | ⟨rfl, hx⟩
    · rcases getElem?_snoc h2 with h2 | ⟨rfl, h2⟩
      · exact h.norace ⟨i, j, t, t', b, w, w', h1, h2, h3, h4, fun hb => h5 hb.grow⟩
      · have := (List.getElem?_eq_some_iff.1 h3).1; omega
    · cases hx
      rcases getElem?_snoc h2 with h6 | ⟨rfl, h6⟩
      · refine h5 (KnownTo.before (w := .gor n) ?_ hwho)
        rcases ha with ha | ha
        · exact h.w hn hp h6 ha
        · rcases h4 with rfl | rfl
          · exact h.r hn hp h6 ha
          · exact h.w hn hp h6 (hw rfl)
      · omega

/-- an atomic addition that does not end the goroutine's work -/
theorem HI.atom {tr os n} (h : HI S tr true os) : HI S (tr ++ [.atom n]) true os := by
  have hx : ∀ t a w, Ev.atom n ≠ .acc t a w := by simp
  refine ⟨?_, ?_, ?_, ?_, ?_, by simp, norace_snoc hx h.norace⟩
  · intro i o hi hp e t a w he ha; exact (h.w hi hp (acc_snoc hx he) ha).grow
  · intro i o hi hp e t a he ha; exact (h.r hi hp (acc_snoc hx he) ha).grow
  · intro i o s hi hJ i' o' hi' hr hp e t a w he ha
    exact (h.j hi hJ hi' hr hp (acc_snoc hx he) ha).imp KnownTo.grow KnownTo.grow
  · intro e t a w he
    rcases h.all (acc_snoc hx he) with h1 | ⟨i, o, h1, h2, h3⟩
    · exact .inl h1.grow
    · exact .inr ⟨i, o, h1, h2, h3.grow⟩
  · intro i o hi hl e t a w he; exact (h.last hi hl (acc_snoc hx he)).grow

/-- the final atomic decrement of a goroutine -/
theorem HI.dec {tr} {l₁ l₂ : List (Own Sp)} {o o'} (h : HI S tr true (l₁ ++ o :: l₂)) (hO : OwnOK S (l₁ ++ o' :: l₂))
    (hp' : o'.ph ≠ .run) (hJ : o'.J = none) : HI S (tr ++ [.atom l₁.length]) true (l₁ ++ o' :: l₂) := by
  have hx : ∀ t a w, Ev.atom l₁.length ≠ .acc t a w := by simp
  have hw1 : Who.gor l₁.length ∈ (Ev.atom l₁.length).who := by simp [Ev.who]
  have hw2 : Who.counter ∈ (Ev.atom l₁.length).who := by simp [Ev.who]
  have get : ∀ {i x}, (l₁ ++ o' :: l₂)[i]? = some x → (i = l₁.length ∧ x = o') ∨ (i ≠ l₁.length ∧ (l₁ ++ o :: l₂)[i]? = some x) := by
    intro i x hi
    rcases upd_get (o := o) (new := []) (by simpa using hi) with h1 | h1 | h1
    · exact .inl h1
    · exact .inr h1
    · simp at h1
  refine ⟨?_, ?_, ?_, ?_, ?_, by simp, norace_snoc hx h.norace⟩
  · intro i x hi hp e t a w he ha
    rcases get hi with ⟨rfl, rfl⟩ | ⟨_, hi⟩
    · exact absurd hp hp'
    · exact (h.w hi hp (acc_snoc hx he) ha).grow
  · intro i x hi hp e t a he ha
    rcases get hi with ⟨rfl, rfl⟩ | ⟨_, hi⟩
    · exact absurd hp hp'
    · exact (h.r hi hp (acc_snoc hx he) ha).grow
  · intro i x s hi hJ' i' x' hi' hr hp e t a w he ha
    rcases get hi with ⟨rfl, rfl⟩ | ⟨_, hi⟩
    · rw [hJ] at hJ'; cases hJ'
    rcases get hi' with ⟨rfl, rfl⟩ | ⟨_, hi'⟩
    · exact absurd hp hp'
    exact (h.j hi hJ' hi' hr hp (acc_snoc hx he) ha).imp KnownTo.grow KnownTo.grow
  · intro e t a w he
    rcases h.all (acc_snoc hx he) with h1 | ⟨i, x, h1, h2, h3⟩
    · exact .inl h1.grow
    · by_cases hi : i = l₁.length
      · subst hi; exact .inl (h3.share hw1 hw2)
      · have := upd_get_other (o' := o') (new := []) hi h1
        exact .inr ⟨i, x, by simpa using this, h2, h3.grow⟩
  · intro i x hi hl e t a w he
    rcases get hi with ⟨rfl, rfl⟩ | ⟨_, hi'⟩
    · rcases h.all (acc_snoc hx he) with h1 | ⟨i, y, h1, h2, h3⟩
      · exact h1.share hw2 hw1
      · by_cases hil : i = l₁.length
        · subst hil; exact h3.grow
        · have h1 := upd_get_other (o' := x) (new := []) hil h1
          exact absurd h2 (hO.nr hi hl (by simpa using h1))
    · exact (h.last hi' hl (acc_snoc hx he)).grow

/-- a `go` statement -/
theorem HI.go {tr sync} {l₁ l₂ : List (Own Sp)} {o o' n : Own Sp} (h : HI S tr sync (l₁ ++ o :: l₂))
    (hO : OwnOK S (l₁ ++ o :: l₂)) (hp : o.ph = .run) (hp' : o'.ph = .run)
    (hW : o'.W ⊆ o.W) (hR : o'.R ⊆ o.W ∪ o.R) (hW2 : n.W ⊆ o.W) (hR2 : n.R ⊆ o.W) (hn : n.ph = .run) (hnJ : n.J = none)
    (hJ : (n.role = .part ∧ ∀ s, o'.J = some s → S.R s ⊆ o.W) ∨ (n.role ≠ .part ∧ o'.J = none))
    (hr : o'.role = o.role) (hro : n.role = .part → o.role = .main) :
    HI S (tr ++ [.go l₁.length (l₁ ++ o :: l₂).length]) sync (l₁ ++ o' :: l₂ ++ [n]) := by
  set N := (l₁ ++ o :: l₂).length with hN
  have hx : ∀ t a w, Ev.go l₁.length N ≠ .acc t a w := by simp
  have hw1 : Who.gor l₁.length ∈ (Ev.go l₁.length N).who := by simp [Ev.who]
  have hw2 : Who.gor N ∈ (Ev.go l₁.length N).who := by simp [Ev.who]
  have ho0 : (l₁ ++ o :: l₂)[l₁.length]? = some o := by simp
  have get : ∀ {i x}, (l₁ ++ o' :: l₂ ++ [n])[i]? = some x → (i = l₁.length ∧ x = o') ∨
      (i ≠ l₁.length ∧ (l₁ ++ o :: l₂)[i]? = some x) ∨ (i = N ∧ x = n) := by
    intro i x hi
    rcases upd_get (o := o) hi with h1 | h1 | ⟨h1, h2⟩
    · exact .inl h1
    · exact .inr (.inl h1)
    · rw [List.getElem?_singleton] at h2
      split_ifs at h2 with h3
      · exact .inr (.inr ⟨by omega, by simpa using h2.symm⟩)
  have hnl : ∀ {i : Nat} {x : Own Sp}, (l₁ ++ o :: l₂)[i]? = some x → ¬ (x.ph = .last ∨ x.role = .main ∧ x.ph = .done) :=
    fun hi hl => absurd hp (hO.nr hi hl ho0)
  refine ⟨?_, ?_, ?_, ?_, ?_, ?_, norace_snoc hx h.norace⟩
  · intro i x hi hp e t a w he ha
    have he := acc_snoc hx he
    rcases get hi with ⟨rfl, rfl⟩ | ⟨_, hi⟩ | ⟨rfl, rfl⟩
    · exact (h.w ho0 ‹_› he (hW ha)).grow
    · exact (h.w hi hp he ha).grow
    · exact (h.w ho0 ‹_› he (hW2 ha)).share hw1 hw2
  · intro i x hi hp e t a he ha
    have he := acc_snoc hx he
    rcases get hi with ⟨rfl, rfl⟩ | ⟨_, hi⟩ | ⟨rfl, rfl⟩
    · rcases hR ha with ha | ha
      · exact (h.w ho0 ‹_› he ha).grow
      · exact (h.r ho0 ‹_› he ha).grow
    · exact (h.r hi hp he ha).grow
    · exact (h.w ho0 ‹_› he (hR2 ha)).share hw1 hw2
  · intro i x s hi hJ' i' x' hi' hr' hp' e t a w he ha
    have he := acc_snoc hx he
    rcases get hi with ⟨rfl, rfl⟩ | ⟨hne, h6⟩ | ⟨rfl, rfl⟩
    · rcases hJ with ⟨_, hJ⟩ | ⟨_, hJ⟩
      · exact .inl (h.w ho0 ‹_› he (hJ s hJ' ha)).grow
      · rw [hJ] at hJ'; cases hJ'
    · rcases get hi' with ⟨rfl, rfl⟩ | ⟨_, hi'⟩ | ⟨rfl, rfl⟩
      · exact (h.j h6 hJ' ho0 (hr ▸ hr') ‹_› he ha).imp KnownTo.grow KnownTo.grow
      · exact (h.j h6 hJ' hi' hr' hp' he ha).imp KnownTo.grow KnownTo.grow
      · exfalso
        have := (hO.jm h6 hJ').1
        have := hO.mi ho0 (hro hr')
        omega
    · rw [hnJ] at hJ'; cases hJ'
  · intro e t a w he
    rcases h.all (acc_snoc hx he) with h1 | ⟨i, x, h1, h2, h3⟩
    · exact .inl h1.grow
    · by_cases hi : i = l₁.length
      · subst hi
        exact .inr ⟨_, o', getElem?_grow (by simp), hp', h3.grow⟩
      · exact .inr ⟨i, x, upd_get_other hi h1, h2, h3.grow⟩
  · intro i x hi hl
    rcases get hi with ⟨rfl, rfl⟩ | ⟨_, hi⟩ | ⟨rfl, rfl⟩
    · simp [hp'] at hl
    · exact absurd hl (hnl hi)
    · simp [hn] at hl
  · intro hs t ht
    simp only [List.mem_append, List.mem_singleton] at ht
    rcases ht with ht | ht
    · exact h.noatom hs t ht
    · cases ht

/-- the creation of the counter and channel -/
theorem HI.make {tr os} {sync : Bool} {t : Nat} (h : HI S tr sync os) : HI S (tr ++ [.make t]) true os := by
  have hx : ∀ t' a w, Ev.make t ≠ .acc t' a w := by simp
  exact ⟨fun hi hp _ _ _ _ he ha => (h.w hi hp (acc_snoc hx he) ha).grow,
    fun hi hp _ _ _ he ha => (h.r hi hp (acc_snoc hx he) ha).grow,
    fun hi hJ _ _ hi' hr hp _ _ _ _ he ha => (h.j hi hJ hi' hr hp (acc_snoc hx he) ha).imp KnownTo.grow KnownTo.grow,
    fun he => (h.all (acc_snoc hx he)).imp KnownTo.grow fun ⟨i, o, h1, h2, h3⟩ => ⟨i, o, h1, h2, h3.grow⟩,
    fun hi hl _ _ _ _ he => (h.last hi hl (acc_snoc hx he)).grow,
    by simp, norace_snoc hx h.norace⟩

/-- the end of a concurrent partitioning -/
theorem HI.commPart {tr} {l₂ l₃ : List (Own Sp)} {o p o' p' : Own Sp} {s : Sp} (h : HI S tr true (o :: (l₂ ++ p :: l₃)))
    (hO : OwnOK S (o :: (l₂ ++ p :: l₃))) (hoJ : o.J = some s) (hop : o.ph = .run) (hpr : p.role = .part) (hpp : p.ph = .run)
    (hW : o'.W = o.W ∪ (S.W s ∪ S.R s)) (hR : o'.R = ∅) (hop' : o'.ph = .run) (hJ' : o'.J = none)
    (hpp' : p'.ph = .done) (hpr' : p'.role = .part) (hpJ' : p'.J = none) :
    HI S (tr ++ [.comm (o :: l₂).length 0]) true (o' :: (l₂ ++ p' :: l₃)) := by
  have hx : ∀ t a w, Ev.comm (o :: l₂).length 0 ≠ .acc t a w := by simp
  have hw1 : Who.gor (o :: l₂).length ∈ (Ev.comm (o :: l₂).length 0).who := by simp [Ev.who]
  have hw2 : Who.gor 0 ∈ (Ev.comm (o :: l₂).length 0).who := by simp [Ev.who]
  have h0 : (o :: (l₂ ++ p :: l₃))[0]? = some o := rfl
  have hp0 : (o :: (l₂ ++ p :: l₃))[(o :: l₂).length]? = some p := by simp
  have get : ∀ {i : Nat} {x : Own Sp}, (o' :: (l₂ ++ p' :: l₃))[i]? = some x → (i = 0 ∧ x = o') ∨ (i = (o :: l₂).length ∧ x = p') ∨
      (i ≠ 0 ∧ i ≠ (o :: l₂).length ∧ (o :: (l₂ ++ p :: l₃))[i]? = some x) := by
    intro i x hi
    cases i with
    | zero => left; exact ⟨rfl, by simpa using hi.symm⟩
    | succ i =>
      right
      simp only [List.getElem?_cons_succ] at hi
      rcases upd_get (o := p) (new := []) (by simpa using hi) with ⟨h1, h2⟩ | ⟨h1, h2⟩ | h1
      · exact .inl ⟨by simp [h1], h2⟩
      · exact .inr ⟨by simp, by simpa using h1, by simpa using h2⟩
      · simp at h1
  have put : ∀ {i : Nat} {x : Own Sp}, i ≠ 0 → i ≠ (o :: l₂).length → (o :: (l₂ ++ p :: l₃))[i]? = some x → (o' :: (l₂ ++ p' :: l₃))[i]? = some x := by
    intro i x hi1 hi2 hi
    cases i with
    | zero => exact absurd rfl hi1
    | succ i =>
      simp only [List.getElem?_cons_succ] at hi ⊢
      have := upd_get_other (o' := p') (new := []) (by simpa using hi2) hi
      simpa using this
  have hnl : ∀ {i : Nat} {x : Own Sp}, (o :: (l₂ ++ p :: l₃))[i]? = some x → ¬ (x.ph = .last ∨ x.role = .main ∧ x.ph = .done) :=
    fun hi hl => absurd hop (hO.nr hi hl h0)
  refine ⟨?_, ?_, ?_, ?_, ?_, by simp, norace_snoc hx h.norace⟩
  · intro i x hi hp e t a w he ha
    have he := acc_snoc hx he
    rcases get hi with ⟨rfl, rfl⟩ | ⟨rfl, rfl⟩ | ⟨_, _, hi⟩
    · rw [hW] at ha
      rcases ha with ha | ha | ha
      · exact (h.w h0 hop he ha).grow
      · rw [← hO.jl h0 hoJ hp0 hpr hpp] at ha
        exact (h.w hp0 hpp he ha).share hw1 hw2
      · rcases h.j h0 hoJ hp0 hpr hpp he ha with h1 | h1
        · exact h1.grow
        · exact h1.share hw1 hw2
    · rw [hpp'] at hp; cases hp
    · exact (h.w hi hp he ha).grow
  · intro i x hi hp e t a he ha
    have he := acc_snoc hx he
    rcases get hi with ⟨rfl, rfl⟩ | ⟨rfl, rfl⟩ | ⟨_, _, hi⟩
    · rw [hR] at ha; cases ha
    · rw [hpp'] at hp; cases hp
    · exact (h.r hi hp he ha).grow
  · intro i x s hi hJ
    exfalso
    rcases get hi with ⟨rfl, rfl⟩ | ⟨rfl, rfl⟩ | ⟨h1, _, hi⟩
    · rw [hJ'] at hJ; cases hJ
    · rw [hpJ'] at hJ; cases hJ
    · exact h1 (hO.jm hi hJ).1
  · intro e t a w he
    rcases h.all (acc_snoc hx he) with h1 | ⟨i, x, h1, h2, h3⟩
    · exact .inl h1.grow
    · by_cases hi : i = 0
      · subst hi; exact .inr ⟨0, o', rfl, hop', h3.grow⟩
      · by_cases hi' : i = (o :: l₂).length
        · subst hi'; exact .inr ⟨0, o', rfl, hop', h3.share hw1 hw2⟩
        · exact .inr ⟨i, x, put hi hi' h1, h2, h3.grow⟩
  · intro i x hi hl
    rcases get hi with ⟨rfl, rfl⟩ | ⟨rfl, rfl⟩ | ⟨_, _, hi⟩
    · simp [hop'] at hl
    · simp [hpp', hpr'] at hl
    · exact absurd hl (hnl hi)

/-- the end signal -/
theorem HI.commEnd {tr} {l₂ l₃ : List (Own Sp)} {o p o' p' : Own Sp} (h : HI S tr true (o :: (l₂ ++ p :: l₃)))
    (hO : OwnOK S (o :: (l₂ ++ p :: l₃))) (hpp : p.ph = .last) (hop' : o'.ph = .done) (hJ' : o'.J = none)
    (hpp' : p'.ph = .done) (hpr' : p'.role = .sorter) (hpJ' : p'.J = none) :
    HI S (tr ++ [.comm (o :: l₂).length 0]) true (o' :: (l₂ ++ p' :: l₃)) := by
  have hx : ∀ t a w, Ev.comm (o :: l₂).length 0 ≠ .acc t a w := by simp
  have hw1 : Who.gor (o :: l₂).length ∈ (Ev.comm (o :: l₂).length 0).who := by simp [Ev.who]
  have hw2 : Who.gor 0 ∈ (Ev.comm (o :: l₂).length 0).who := by simp [Ev.who]
  have hp0 : (o :: (l₂ ++ p :: l₃))[(o :: l₂).length]? = some p := by simp
  have hnr : ∀ {i : Nat} {x : Own Sp}, (o :: (l₂ ++ p :: l₃))[i]? = some x → x.ph ≠ .run := fun hi => hO.nr hp0 (.inl hpp) hi
  have get : ∀ {i : Nat} {x : Own Sp}, (o' :: (l₂ ++ p' :: l₃))[i]? = some x → (i = 0 ∧ x = o') ∨ (i = (o :: l₂).length ∧ x = p') ∨
      (i ≠ 0 ∧ i ≠ (o :: l₂).length ∧ (o :: (l₂ ++ p :: l₃))[i]? = some x) := by
    intro i x hi
    cases i with
    | zero => left; exact ⟨rfl, by simpa using hi.symm⟩
    | succ i =>
      right
      simp only [List.getElem?_cons_succ] at hi
      rcases upd_get (o := p) (new := []) (by simpa using hi) with ⟨h1, h2⟩ | ⟨h1, h2⟩ | h1
      · exact .inl ⟨by simp [h1], h2⟩
      · exact .inr ⟨by simp, by simpa using h1, by simpa using h2⟩
      · simp at h1
  have hnr' : ∀ {i : Nat} {x : Own Sp}, (o' :: (l₂ ++ p' :: l₃))[i]? = some x → x.ph ≠ .run := by
    intro i x hi
    rcases get hi with ⟨rfl, rfl⟩ | ⟨rfl, rfl⟩ | ⟨_, _, hi⟩
    · simp [hop']
    · simp [hpp']
    · exact hnr hi
  refine ⟨fun hi hp => absurd hp (hnr' hi), fun hi hp => absurd hp (hnr' hi), ?_, ?_, ?_, by simp, norace_snoc hx h.norace⟩
  · intro i x s hi hJ i' x' hi' hr hp
    exact absurd hp (hnr' hi')
  · intro e t a w he
    rcases h.all (acc_snoc hx he) with h1 | ⟨i, x, h1, h2, h3⟩
    · exact .inl h1.grow
    · exact absurd h2 (hnr h1)
  · intro i x hi hl e t a w he
    have he := acc_snoc hx he
    rcases get hi with ⟨rfl, rfl⟩ | ⟨rfl, rfl⟩ | ⟨_, _, hi⟩
    · exact (h.last hp0 (.inl hpp) he).share hw1 hw2
    · simp [hpp', hpr'] at hl
    · exact (h.last hi hl he).grow

end Sorty
