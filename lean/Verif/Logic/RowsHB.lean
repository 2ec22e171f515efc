import Verif.Logic.Rows
import Verif.SemHB

/-! # Recorded executions on parallel slices and on rows

If the recording of an execution on rows has no data race, then neither has the recording of the execution on the slices it
simulates. -/

namespace Sorty

variable {T Sp : Type} {K : Nat} {off : Fin (K + 1) → Nat} {n : Nat} {P : Par T Sp} {P' : Par (Fin (K + 1) → T) Sp} {m0 : Mem T}

/-- the actions on rows that simulate one action on the slices -/
structure RowEv (off : Fin (K + 1) → Nat) (n : Nat) (e : Ev) (es : List Ev) : Prop where
  who : ∀ x ∈ es, x.who = e.who
  acc : ∀ t a w, e = .acc t a w → ∃ i < n, ∃ j, a = off j + i ∧ .acc t i w ∈ es

inductive RowTr (off : Fin (K + 1) → Nat) (n : Nat) : List Ev → List Ev → Prop
  | nil : RowTr off n [] []
  | snoc {tr tr' e es} : RowTr off n tr tr' → RowEv off n e es → RowTr off n (tr ++ [e]) (tr' ++ es)

/-- the actions on the slices that those on rows simulate: `f` maps positions to positions -/
structure RowMap (off : Fin (K + 1) → Nat) (n : Nat) (tr tr' : List Ev) (f : Nat → Nat) : Prop where
  mono : ∀ i j, i ≤ j → j < tr'.length → f i ≤ f j
  who : ∀ i x, tr'[i]? = some x → ∃ y, tr[f i]? = some y ∧ x.who = y.who
  acc : ∀ i t a w, tr[i]? = some (.acc t a w) → ∃ r < n, ∃ j k, a = off j + r ∧ f k = i ∧ tr'[k]? = some (.acc t r w)

theorem RowTr.map {tr tr' : List Ev} (h : RowTr off n tr tr') : ∃ f, RowMap off n tr tr' f := by
  induction h with
  | nil => exact ⟨id, by simp, by simp, by simp⟩
  | @snoc tr tr' e es _ he ih =>
    obtain ⟨f, hf⟩ := ih
    have hlt : ∀ i, i < tr'.length → f i < tr.length := by
      intro i hi
      obtain ⟨y, hy, _⟩ := hf.who i tr'[i] (by simp [hi])
      exact (List.getElem?_eq_some_iff.1 hy).1
    refine ⟨fun i => if i < tr'.length then f i else tr.length, fun i j hij hj => ?_, fun i x hx => ?_, fun i t a w hi => ?_⟩
    · split
      · split
        · exact hf.mono i j hij ‹_›
        · exact (hlt i ‹_›).le
      · rw [if_neg (by omega)]
    · by_cases h : i < tr'.length
      · rw [if_pos h]
        rw [List.getElem?_append_left h] at hx
        obtain ⟨y, hy, hw⟩ := hf.who i x hx
        exact ⟨y, by rw [List.getElem?_append_left (hlt i h)]; exact hy, hw⟩
      · rw [if_neg h]
        rw [List.getElem?_append_right (by omega)] at hx
        exact ⟨e, by simp, he.who x (List.mem_of_getElem? hx)⟩
    · by_cases h : i < tr.length
      · rw [List.getElem?_append_left h] at hi
        obtain ⟨r, hr, j, k, ha, hk, hx⟩ := hf.acc i t a w hi
        have hkl := (List.getElem?_eq_some_iff.1 hx).1
        exact ⟨r, hr, j, k, ha, by simp only [if_pos hkl, hk], by rw [List.getElem?_append_left hkl]; exact hx⟩
      · have hi0 : i = tr.length := by
          have := (List.getElem?_eq_some_iff.1 hi).1
          simp only [List.length_append, List.length_singleton] at this
          omega
        subst hi0
        simp only [List.getElem?_append_right (le_refl _), Nat.sub_self, List.getElem?_cons_zero, Option.some.injEq] at hi
        obtain ⟨r, hr, j, ha, hm⟩ := he.acc t a w hi
        obtain ⟨k, hk⟩ := List.getElem?_of_mem hm
        refine ⟨r, hr, j, tr'.length + k, ha, by simp, ?_⟩
        rw [List.getElem?_append_right (by omega), Nat.add_sub_cancel_left]
        exact hk

theorem RowMap.hb {tr tr' : List Ev} {f : Nat → Nat} (hf : RowMap off n tr tr' f) {i j : Nat} (h : HB tr' i j) :
    f i = f j ∨ HB tr (f i) (f j) := by
  induction h with
  | @edge i j x y w hij hx hy hwx hwy =>
    obtain ⟨x', hx', ex⟩ := hf.who i x hx
    obtain ⟨y', hy', ey⟩ := hf.who j y hy
    rcases (hf.mono i j hij.le (List.getElem?_eq_some_iff.1 hy).1).eq_or_lt with h | h
    · exact .inl h
    · exact .inr (.edge h hx' hy' (ex ▸ hwx) (ey ▸ hwy))
  | trans _ _ h1 h2 =>
    rcases h1 with h1 | h1 <;> rcases h2 with h2 | h2
    · exact .inl (h1.trans h2)
    · exact .inr (h1 ▸ h2)
    · exact .inr (h2 ▸ h1)
    · exact .inr (.trans h1 h2)

/-- no data race on rows, hence none on the slices -/
theorem RowTr.norace (ha : Apart off n) {tr tr' : List Ev} (h : RowTr off n tr tr') (hn : ¬ GoRace tr') : ¬ GoRace tr := by
  obtain ⟨f, hf⟩ := h.map
  rintro ⟨i, j, t, t', a, w, w', hij, hi, hj, hw, hnb⟩
  obtain ⟨r, hr, c, k, e1, rfl, hk⟩ := hf.acc i t a w hi
  obtain ⟨r', hr', c', k', e2, rfl, hk'⟩ := hf.acc j t' a w' hj
  obtain ⟨rfl, _⟩ := ha r hr r' hr' c c' (e1.symm.trans e2)
  have hkk : k < k' := by
    by_contra h
    have := hf.mono k' k (by omega) (List.getElem?_eq_some_iff.1 hk).1
    omega
  refine hn ⟨k, k', t, t', r, w, w', hkk, hk, hk', hw, fun hb => ?_⟩
  rcases hf.hb hb with h | h
  · omega
  · exact hnb h

/-- what is known on rows is known on the slices -/
theorem RowTr.known {tr tr' : List Ev} (h : RowTr off n tr tr') {v : Who} (hn : ∀ i t a w, tr'[i]? = some (.acc t a w) → KnownTo tr' v i)
    {i t a w} (hi : tr[i]? = some (.acc t a w)) : KnownTo tr v i := by
  obtain ⟨f, hf⟩ := h.map
  obtain ⟨r, hr, c, k, e1, rfl, hk⟩ := hf.acc i t a w hi
  obtain ⟨j, x, hj, hv, hb⟩ := hn k t r w hk
  obtain ⟨y, hy, e⟩ := hf.who j x hj
  refine ⟨f j, y, hy, e ▸ hv, ?_⟩
  rcases hb with rfl | hb
  · exact .inl rfl
  · exact hf.hb hb

/-- `Rows.tstep` for recorded executions -/
theorem Rows.tstepT (hP : RowPar off n P P') (ha : Apart off n) {sh sh' : Sh T} {p p' : Prog T Sp Unit} {new : List (Prog T Sp Unit)}
    (h : TStep P sh p sh' p' new) {q : Prog (Fin (K + 1) → T) Sp Unit} (hs : Rows off n p q) {S : Sh (Fin (K + 1) → T)}
    (hm : RowMem off n m0 sh.mem S.mem) (hg : sh.nGor = S.nGor) (hy : sh.sync = S.sync) {d0 : Cfg (Fin (K + 1) → T) Sp}
    {tr tr' : List Ev} {l₁ l₂ : List (Prog (Fin (K + 1) → T) Sp Unit)} (ht : Trace P' d0 tr' ⟨S, l₁ ++ q :: l₂⟩) (hr : RowTr off n tr tr') :
    ∃ S' q' new' tr'', Trace P' d0 tr'' ⟨S', l₁ ++ q' :: l₂ ++ new'⟩ ∧
      RowTr off n (tr ++ (p.act l₁.length (l₁ ++ q :: l₂).length).toList) tr'' ∧
      RowMem off n m0 sh'.mem S'.mem ∧ sh'.nGor = S'.nGor ∧ sh'.sync = S'.sync ∧ Rows off n p' q' ∧
      List.Forall₂ (Rows off n) new new' := by
  have silent : ∀ {S' q' new'}, TStep P' S q S' q' new' → p.act l₁.length (l₁ ++ q :: l₂).length = none →
      q.act l₁.length (l₁ ++ q :: l₂).length = none → ∃ tr'', Trace P' d0 tr'' ⟨S', l₁ ++ q' :: l₂ ++ new'⟩ ∧
      RowTr off n (tr ++ (p.act l₁.length (l₁ ++ q :: l₂).length).toList) tr'' := by
    intro S' q' new' h e1 e2
    have := Trace.tau ht h
    rw [e2] at this
    rw [e1]
    simp only [Option.toList_none, List.append_nil] at this ⊢
    exact ⟨tr', this, hr⟩
  have one : ∀ {S' q' new'}, TStep P' S q S' q' new' → ∀ e e', p.act l₁.length (l₁ ++ q :: l₂).length = some e →
      q.act l₁.length (l₁ ++ q :: l₂).length = some e' → RowEv off n e [e'] → ∃ tr'', Trace P' d0 tr'' ⟨S', l₁ ++ q' :: l₂ ++ new'⟩ ∧
      RowTr off n (tr ++ (p.act l₁.length (l₁ ++ q :: l₂).length).toList) tr'' := by
    intro S' q' new' h e e' e1 e2 he
    have := Trace.tau ht h
    rw [e2] at this
    rw [e1]
    exact ⟨_, this, .snoc hr he⟩
  have same : ∀ {e : Ev}, (∀ t a w, e ≠ .acc t a w) → RowEv off n e [e] :=
    fun h => ⟨by simp, fun t a w e => absurd e (h t a w)⟩
  have wrap : ∀ {S' : Sh (Fin (K + 1) → T)} {q' : Prog (Fin (K + 1) → T) Sp Unit} {new'}, (∃ tr'', Trace P' d0 tr'' ⟨S', l₁ ++ q' :: l₂ ++ new'⟩ ∧
      RowTr off n (tr ++ (p.act l₁.length (l₁ ++ q :: l₂).length).toList) tr'') →
      (RowMem off n m0 sh'.mem S'.mem ∧ sh'.nGor = S'.nGor ∧ sh'.sync = S'.sync ∧ Rows off n p' q' ∧
      List.Forall₂ (Rows off n) new new') → ∃ S' q' new' tr'', Trace P' d0 tr'' ⟨S', l₁ ++ q' :: l₂ ++ new'⟩ ∧
      RowTr off n (tr ++ (p.act l₁.length (l₁ ++ q :: l₂).length).toList) tr'' ∧
      RowMem off n m0 sh'.mem S'.mem ∧ sh'.nGor = S'.nGor ∧ sh'.sync = S'.sync ∧ Rows off n p' q' ∧
      List.Forall₂ (Rows off n) new new' := by
    rintro S' q' new' ⟨tr'', h1, h2⟩ h3
    exact ⟨S', q', new', tr'', h1, h2, h3⟩
  cases h with
  | read i k =>
    cases hs with
    | read i j _ k' hi h =>
      refine wrap (S' := S) (q' := k' (S.mem i)) (new' := []) (one (.read _ _ _) _ _ rfl rfl ⟨by simp [Ev.who], ?_⟩) ⟨hm, hg, hy, ?_, .nil⟩
      · rintro t a w e
        cases e
        exact ⟨i, hi, j, rfl, by simp⟩
      · rw [← hm.eq i hi j]; exact h _
  | write i v =>
    cases hs with
    | write i j _ _ k' hi h =>
      refine wrap (S' := { S with mem := Function.update S.mem i (Function.update (S.mem i) j v) }) (q' := k') (new' := [])
        ⟨tr' ++ [.acc l₁.length i false] ++ [.acc l₁.length i true], ?_, ?_⟩ ⟨hm.write ha hi j v, hg, hy, h, .nil⟩
      · have h1 := Trace.tau ht (.read _ _ _)
        rw [List.append_nil] at h1
        exact Trace.tau h1 (.write _ _ _ _)
      · rw [List.append_assoc]
        refine .snoc hr ⟨by simp [Ev.who], ?_⟩
        rintro t a w e
        cases e
        exact ⟨i, hi, j, rfl, by simp⟩
  | less i j x y k b hb =>
    cases hs with
    | less _ _ x y _ k' h =>
      exact wrap (silent (.less _ _ _ _ _ _ b ((hP.cmp _ _ _ _ _).1 hb)) rfl rfl) ⟨hm, hg, hy, h _, .nil⟩
  | maxGor k m hn => cases hs with | maxGor _ k' h => exact wrap (silent (.maxGor _ _ m (hP.M ▸ hn)) rfl rfl) ⟨hm, hg, hy, h _, .nil⟩
  | loadGor k m h1 h2 =>
    cases hs with
    | loadGor _ k' h => exact wrap (silent (.loadGor _ _ m (hy ▸ h1) (h2.imp hP.stale.1 fun e => e.trans hg)) rfl rfl) ⟨hm, hg, hy, h _, .nil⟩
  | loadNil k h1 => cases hs with | loadGor _ k' h => exact wrap (silent (.loadNil _ _ (hy ▸ h1)) rfl rfl) ⟨hm, hg, hy, .panic, .nil⟩
  | incGor k h1 =>
    cases hs with
    | incGor _ k' h =>
      refine wrap (one (.incGor _ _ (hy ▸ h1)) _ _ rfl rfl (same (by simp))) ⟨hm, by simp only [hg], hy, ?_, .nil⟩
      rw [hg]; exact h _
  | incNil k h1 =>
    cases hs with
    | incGor _ k' h => exact wrap (one (.incNil _ _ (hy ▸ h1)) _ _ rfl rfl (same (by simp))) ⟨hm, hg, hy, .panic, .nil⟩
  | decGor k h1 =>
    cases hs with
    | decGor _ k' h =>
      refine wrap (one (.decGor _ _ (hy ▸ h1)) _ _ rfl rfl (same (by simp))) ⟨hm, by simp only [hg], hy, ?_, .nil⟩
      rw [hg]; exact h _
  | decNil k h1 =>
    cases hs with
    | decGor _ k' h => exact wrap (one (.decNil _ _ (hy ▸ h1)) _ _ rfl rfl (same (by simp))) ⟨hm, hg, hy, .panic, .nil⟩
  | mkSync => cases hs with | mkSync _ k' h => exact wrap (one (.mkSync _ _) _ _ rfl rfl (same (by simp))) ⟨hm, rfl, rfl, h, .nil⟩
  | go s =>
    cases hs with
    | go _ _ k' h => exact wrap (one (.go _ _ _) _ _ rfl rfl (same (by simp))) ⟨hm, hg, hy, h, .cons (hP.body _) .nil⟩

/-- `Rows.steps` for recorded executions -/
theorem Rows.trace (hP : RowPar off n P P') (ha : Apart off n) {c c' : Cfg T Sp} {d : Cfg (Fin (K + 1) → T) Sp} {tr : List Ev}
    (h : Trace P c tr c') (hs : RowCfg off n m0 c d) : ∃ tr' d', Trace P' d tr' d' ∧ RowTr off n tr tr' ∧ RowCfg off n m0 c' d' := by
  induction h with
  | refl => exact ⟨[], d, .refl, .nil, hs⟩
  | tau _ h ih =>
    obtain ⟨tr', ⟨S, dths⟩, ht, hr, hm, hg, hy, hf⟩ := ih
    simp only at hm hg hy hf
    obtain ⟨m₁, r, f1, f2, rfl⟩ := forall₂_append_left hf
    obtain ⟨q, m₂, f3, f4, rfl⟩ := List.forall₂_cons_left_iff.1 f2
    obtain ⟨S', q', new', tr'', h0, h1, h2, h3, h4, h5, h6⟩ := Rows.tstepT hP ha h f3 hm hg hy ht hr
    refine ⟨tr'', _, h0, ?_, h2, h3, h4, ?_⟩
    · rw [f1.length_eq, hf.length_eq]; exact h1
    · simp only [List.append_assoc, List.cons_append]
      exact List.rel_append f1 (.cons h5 (List.rel_append f4 h6))
  | @commSR _ _ _ _ _ v _ _ _ h ih =>
    obtain ⟨tr', ⟨S, dths⟩, ht, hr, hm, hg, hy, hf⟩ := ih
    simp only [List.append_assoc, List.cons_append] at hm hg hy hf
    obtain ⟨m₁, r, f1, f2, rfl⟩ := forall₂_append_left hf
    obtain ⟨q, r, f3, f4, rfl⟩ := List.forall₂_cons_left_iff.1 f2
    obtain ⟨m₂, r', f5, f6, rfl⟩ := forall₂_append_left f4
    obtain ⟨q', m₃, f7, f8, rfl⟩ := List.forall₂_cons_left_iff.1 f6
    cases f3 with
    | send _ _ j hj =>
      cases f7 with
      | recv _ j' hj' =>
        refine ⟨_, ⟨S, m₁ ++ j :: m₂ ++ j' v :: m₃⟩, Trace.commSR (by simpa only [List.append_assoc, List.cons_append] using ht) (hy ▸ h), ?_, hm, hg, hy, ?_⟩
        · simp only [List.length_append, List.length_cons, f1.length_eq, f5.length_eq]
          exact .snoc hr ⟨by simp, by simp⟩
        · simp only [List.append_assoc, List.cons_append]
          exact List.rel_append f1 (.cons hj (List.rel_append f5 (.cons (hj' v) f8)))
  | @commRS _ _ _ _ _ v _ _ _ h ih =>
    obtain ⟨tr', ⟨S, dths⟩, ht, hr, hm, hg, hy, hf⟩ := ih
    simp only [List.append_assoc, List.cons_append] at hm hg hy hf
    obtain ⟨m₁, r, f1, f2, rfl⟩ := forall₂_append_left hf
    obtain ⟨q, r, f3, f4, rfl⟩ := List.forall₂_cons_left_iff.1 f2
    obtain ⟨m₂, r', f5, f6, rfl⟩ := forall₂_append_left f4
    obtain ⟨q', m₃, f7, f8, rfl⟩ := List.forall₂_cons_left_iff.1 f6
    cases f7 with
    | send _ _ j hj =>
      cases f3 with
      | recv _ j' hj' =>
        refine ⟨_, ⟨S, m₁ ++ j' v :: m₂ ++ j :: m₃⟩, Trace.commRS (by simpa only [List.append_assoc, List.cons_append] using ht) (hy ▸ h), ?_, hm, hg, hy, ?_⟩
        · simp only [List.length_append, List.length_cons, f1.length_eq, f5.length_eq]
          exact .snoc hr ⟨by simp, by simp⟩
        · simp only [List.append_assoc, List.cons_append]
          exact List.rel_append f1 (.cons (hj' v) (List.rel_append f5 (.cons hj f8)))

end Sorty
