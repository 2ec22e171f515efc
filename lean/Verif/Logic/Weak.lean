import Verif.SemWeak
import Verif.Logic.HB
import Mathlib.Data.List.Induction

/-! # Without data races, weakly ordered memory changes nothing -/

namespace Sorty

variable {V Sp : Type} {P : Par V Sp} {p : Prog V Sp Unit} {m : Mem V}

/-- what was stored last -/
def memOf (m : Mem V) (r : List (WEv V)) : Mem V :=
  r.foldl (fun m e => match e with
    | (.acc _ a true, some v) => Function.update m a v
    | _ => m) m

theorem memOf_snoc (m : Mem V) (r : List (WEv V)) (e : WEv V) : memOf m (r ++ [e]) = match e with
    | (.acc _ a true, some v) => Function.update (memOf m r) a v
    | _ => memOf m r := by
  simp only [memOf, List.foldl_append, List.foldl_cons, List.foldl_nil]

/-- stores are recorded with their values -/
def Valued (r : List (WEv V)) : Prop := ∀ t a o, (Ev.acc t a true, o) ∈ r → o ≠ none

theorem evs_snoc (r : List (WEv V)) (e : WEv V) : evs (r ++ [e]) = evs r ++ [e.1] := by simp [evs]

theorem length_evs (r : List (WEv V)) : (evs r).length = r.length := by simp [evs]

theorem getElem?_evs (r : List (WEv V)) (i : Nat) : (evs r)[i]? = r[i]?.map Prod.fst := by simp [evs]

/-- the content of an address is that of the last store to it, or the initial one -/
theorem memOf_cases (hv : Valued r) (a : Nat) :
    (memOf m r a = m a ∧ ∀ k, ¬ StoreAt (evs r) a k) ∨
    ∃ i t, r[i]? = some (.acc t a true, some (memOf m r a)) ∧ ∀ k, StoreAt (evs r) a k → k ≤ i := by
  induction r using List.reverseRecOn with
  | nil => exact .inl ⟨rfl, fun k ⟨t, h⟩ => by simp [evs] at h⟩
  | append_singleton r e ih =>
    have ih := ih fun t a o h => hv t a o (by simp [h])
    have hstep : ∀ k, StoreAt (evs (r ++ [e])) a k → StoreAt (evs r) a k ∨ (k = r.length ∧ ∃ t, e.1 = .acc t a true) := by
      rintro k ⟨t, h⟩
      rw [evs_snoc] at h
      rcases getElem?_snoc h with h | ⟨h1, h2⟩
      · exact .inl ⟨t, h⟩
      · exact .inr ⟨by rw [h1, length_evs], t, h2.symm⟩
    have keep : (¬ ∃ t, e.1 = .acc t a true) → memOf m (r ++ [e]) a = memOf m r a → 
        (memOf m (r ++ [e]) a = m a ∧ ∀ k, ¬ StoreAt (evs (r ++ [e])) a k) ∨
        ∃ i t, (r ++ [e])[i]? = some (.acc t a true, some (memOf m (r ++ [e]) a)) ∧ ∀ k, StoreAt (evs (r ++ [e])) a k → k ≤ i := by
      intro hn he
      rw [he]
      rcases ih with ⟨h1, h2⟩ | ⟨i, t, h1, h2⟩
      · refine .inl ⟨h1, fun k hk => ?_⟩
        rcases hstep k hk with h | ⟨_, h⟩
        · exact h2 k h
        · exact hn h
      · refine .inr ⟨i, t, getElem?_grow h1, fun k hk => ?_⟩
        rcases hstep k hk with h | ⟨_, h⟩
        · exact h2 k h
        · exact (hn h).elim
    by_cases hn : ∃ t, e.1 = .acc t a true
    · obtain ⟨t, ht⟩ := hn
      obtain ⟨x, o⟩ := e
      dsimp only at ht
      subst ht
      cases o with
      | none => exact (hv t a none (by simp) rfl).elim
      | some v =>
        refine .inr ⟨r.length, t, ?_, fun k hk => ?_⟩
        · rw [memOf_snoc]; simp
        · rcases hstep k hk with ⟨t, h⟩ | ⟨h, _⟩
          · have := (List.getElem?_eq_some_iff.1 h).1
            rw [length_evs] at this
            omega
          · omega
    · refine keep hn ?_
      rw [memOf_snoc]
      split
      · rename_i t b v
        have : b ≠ a := fun hb => hn ⟨t, by rw [hb]⟩
        rw [Function.update_of_ne (Ne.symm this)]
      · rfl

theorem HB.lt {tr : List Ev} {i j} (h : HB tr i j) : i < j := by
  induction h with
  | edge h => exact h
  | trans _ _ h1 h2 => omega

theorem storeAt_load {tr : List Ev} {t a k : Nat} : StoreAt (tr ++ [.acc t a false]) a k → StoreAt tr a k := by
  rintro ⟨t', h⟩
  rcases getElem?_snoc h with h | ⟨_, h⟩
  · exact ⟨t', h⟩
  · simp at h

theorem StoreAt.lt {tr : List Ev} {a k : Nat} (h : StoreAt tr a k) : k < tr.length := by
  obtain ⟨t, h⟩ := h
  exact (List.getElem?_eq_some_iff.1 h).1

/-- without a race, the load sees what was stored last -/
theorem Sees.eq {r : List (WEv V)} {t a : Nat} {v : V} (hv : Valued r) (hn : ¬ GoRace (evs r ++ [.acc t a false]))
    (h : Sees m r t a v) : v = memOf m r a := by
  have hb : ∀ k, StoreAt (evs r) a k → HB (evs r ++ [.acc t a false]) k r.length := by
    intro k hk
    by_contra hc
    have hl := hk.lt
    obtain ⟨t', hk⟩ := hk
    rw [length_evs] at hl
    exact hn ⟨k, r.length, t', t, a, true, false, hl, getElem?_grow hk, by simp [← length_evs r], .inl rfl, hc⟩
  rcases h with h | ⟨i, t', h1, h2, h3⟩ | ⟨h1, h2⟩
  · exact (hn h).elim
  · rcases memOf_cases (m := m) hv a with ⟨_, h4⟩ | ⟨j, t'', h4, h5⟩
    · exact (h4 i ⟨t', by rw [getElem?_evs, h1]; rfl⟩).elim
    · have hi : i ≤ j := h5 i ⟨t', by rw [getElem?_evs, h1]; rfl⟩
      rcases Nat.lt_or_ge i j with hij | hij
      · have ej : (evs r)[j]? = some (.acc t'' a true) := by rw [getElem?_evs, h4]; rfl
        have ei : (evs r)[i]? = some (.acc t' a true) := by rw [getElem?_evs, h1]; rfl
        have hh : HB (evs r ++ [.acc t a false]) i j := by
          by_contra hc
          exact hn ⟨i, j, t', t'', a, true, true, hij, getElem?_grow ei, getElem?_grow ej, .inl rfl, hc⟩
        exact (h3 j ⟨t'', getElem?_grow ej⟩ hh (hb j ⟨t'', ej⟩)).elim
      · have : i = j := by omega
        subst this
        rw [h1] at h4
        exact (by simpa using h4 : _ ∧ v = _).2
  · rcases memOf_cases (m := m) hv a with ⟨h3, _⟩ | ⟨j, t'', h4, h5⟩
    · rw [h3, h1]
    · have ej : (evs r)[j]? = some (.acc t'' a true) := by rw [getElem?_evs, h4]; rfl
      exact (h2 j ⟨t'', getElem?_grow ej⟩ (hb j ⟨t'', ej⟩)).elim

/-- and what was stored last may be seen -/
theorem sees_memOf {r : List (WEv V)} (hv : Valued r) (t a : Nat) : Sees m r t a (memOf m r a) := by
  by_cases hn : GoRace (evs r ++ [.acc t a false])
  · exact .inl hn
  refine .inr ?_
  rcases memOf_cases (m := m) hv a with ⟨h1, h2⟩ | ⟨i, t', h1, h2⟩
  · exact .inr ⟨h1.symm, fun k hk => (h2 k (storeAt_load hk)).elim⟩
  · refine .inl ⟨i, t', h1, ?_, fun k hk hik => ?_⟩
    · by_contra hc
      have hl := (List.getElem?_eq_some_iff.1 h1).1
      refine hn ⟨i, r.length, t', t, a, true, false, hl, getElem?_grow (by rw [getElem?_evs, h1]; rfl), by simp [← length_evs r], .inl rfl, hc⟩
    · have := h2 k (storeAt_load hk)
      have := hik.lt
      omega

/-- the configuration with another memory -/
def Cfg.onMem (c : Cfg V Sp) (m : Mem V) : Cfg V Sp := ⟨{ c.sh with mem := m }, c.ths⟩

theorem tstep_onMem {sh sh' : Sh V} {q q' : Prog V Sp Unit} {new} (ha : q.access = none) (h : TStep P sh q sh' q' new) (m' : Mem V) :
    TStep P { sh with mem := m' } q { sh' with mem := m' } q' new ∧ sh'.mem = sh.mem := by
  cases h with
  | read => cases ha
  | write => cases ha
  | less _ _ _ _ _ _ hb => exact ⟨.less _ _ _ _ _ _ _ hb, rfl⟩
  | maxGor _ _ hn => exact ⟨.maxGor _ _ _ hn, rfl⟩
  | loadGor _ _ hs hn => exact ⟨.loadGor _ _ _ hs hn, rfl⟩
  | loadNil _ hs => exact ⟨.loadNil _ _ hs, rfl⟩
  | incGor _ hs => exact ⟨.incGor { sh with mem := m' } _ hs, rfl⟩
  | incNil _ hs => exact ⟨.incNil _ _ hs, rfl⟩
  | decGor _ hs => exact ⟨.decGor { sh with mem := m' } _ hs, rfl⟩
  | decNil _ hs => exact ⟨.decNil _ _ hs, rfl⟩
  | mkSync _ => exact ⟨.mkSync { sh with mem := m' } _, rfl⟩
  | go _ _ => exact ⟨.go { sh with mem := m' } _ _, rfl⟩

/-- other actions are recorded without values and are no stores -/
theorem act_other {q : Prog V Sp Unit} (ha : q.access = none) (t n : Nat) : ∀ e ∈ q.act t n, ∀ t' a w, e ≠ .acc t' a w := by
  cases q <;> first | (exfalso; simp [Prog.access] at ha; done) | simp [Prog.act]

theorem valued_snoc {r : List (WEv V)} {e : WEv V} (h : Valued r) (he : ∀ t a, e ≠ (.acc t a true, none)) : Valued (r ++ [e]) := by
  intro t a o ho
  rcases List.mem_append.1 ho with ho | ho
  · exact h t a o ho
  · rintro rfl
    exact he t a (List.mem_singleton.1 ho).symm

/-- Every execution on weakly ordered memory of a call without data races is one on ordinary memory. -/
theorem Weak.strong (hnr : ∀ tr c, Trace P (start p m) tr c → ¬ GoRace tr) {r : List (WEv V)} {c : Cfg V Sp} (h : Weak P p m r c) :
    Valued r ∧ Trace P (start p m) (evs r) (c.onMem (memOf m r)) := by
  induction h with
  | refl => exact ⟨fun _ _ _ h => by simp at h, .refl⟩
  | @load r sh l₁ a k l₂ v _ hs ih =>
    obtain ⟨hv, ih⟩ := ih
    refine ⟨valued_snoc hv (by simp), ?_⟩
    have h1 := Trace.tau ih (.read { sh with mem := memOf m r } a k)
    have e := hs.eq hv (hnr _ _ h1)
    rw [evs_snoc, memOf_snoc]
    simp only [List.append_nil] at h1
    rw [e]
    exact h1
  | @store r sh l₁ a v k l₂ _ ih =>
    obtain ⟨hv, ih⟩ := ih
    refine ⟨valued_snoc hv (by simp), ?_⟩
    have h1 := Trace.tau ih (.write { sh with mem := memOf m r } a v k)
    rw [evs_snoc, memOf_snoc]
    simp only [List.append_nil] at h1
    exact h1
  | @other r sh l₁ q l₂ sh' q' new _ ha ht ih =>
    obtain ⟨hv, ih⟩ := ih
    have h1 := Trace.tau ih (tstep_onMem ha ht (memOf m r)).1
    have ho := act_other ha l₁.length (l₁ ++ q :: l₂).length
    cases hq : q.act l₁.length (l₁ ++ q :: l₂).length with
    | none =>
      rw [hq] at h1
      simp only [Option.toList_none, List.map_nil, List.append_nil] at h1 ⊢
      exact ⟨hv, h1⟩
    | some e =>
      rw [hq] at h1 ho
      have ho := ho e rfl
      refine ⟨valued_snoc hv fun t a h => ho t a true (congrArg Prod.fst h), ?_⟩
      simp only [Option.toList_some, List.map_cons, List.map_nil]
      rw [evs_snoc, memOf_snoc]
      split
      · rename_i heq
        simp at heq
      · exact h1
  | commSR _ hs ih =>
    obtain ⟨hv, ih⟩ := ih
    refine ⟨valued_snoc hv (by simp), ?_⟩
    rw [evs_snoc, memOf_snoc]
    exact .commSR ih hs
  | commRS _ hs ih =>
    obtain ⟨hv, ih⟩ := ih
    refine ⟨valued_snoc hv (by simp), ?_⟩
    rw [evs_snoc, memOf_snoc]
    exact .commRS ih hs

/-- Every execution on ordinary memory is one on weakly ordered memory. -/
theorem Steps.weak {c : Cfg V Sp} (h : Steps P (start p m) c) :
    ∃ r, Valued r ∧ memOf m r = c.sh.mem ∧ Weak P p m r (c.onMem m) := by
  induction h with
  | refl => exact ⟨[], fun _ _ _ h => by simp at h, rfl, .refl⟩
  | tail _ hs ih =>
    obtain ⟨r, hv, hm, ih⟩ := ih
    cases hs with
    | tau l₁ l₂ sh q sh' q' new ht =>
      by_cases ha : q.access = none
      · have h1 := Weak.other ih ha (tstep_onMem ha ht m).1
        have hm' := (tstep_onMem ha ht m).2
        have ho := act_other ha l₁.length (l₁ ++ q :: l₂).length
        cases hq : q.act l₁.length (l₁ ++ q :: l₂).length with
        | none =>
          rw [hq] at h1
          simp only [Option.toList_none, List.map_nil, List.append_nil] at h1
          exact ⟨r, hv, hm.trans hm'.symm, h1⟩
        | some e =>
          rw [hq] at h1 ho
          have ho := ho e rfl
          refine ⟨_, valued_snoc hv fun t a h => ho t a true (congrArg Prod.fst h), ?_, h1⟩
          rw [memOf_snoc]
          split
          · rename_i heq
            simp at heq
          · exact hm.trans hm'.symm
      · cases ht with
        | read a k =>
          refine ⟨r ++ [(.acc l₁.length a false, none)], valued_snoc hv (by simp), ?_, ?_⟩
          rotate_left
          · have := Weak.load ih (sees_memOf hv l₁.length a)
            rw [hm] at this
            simp only [List.append_nil]
            exact this
          · rw [memOf_snoc]; exact hm
        | write a v k =>
          refine ⟨r ++ [(.acc l₁.length a true, some v)], valued_snoc hv (by simp), ?_, ?_⟩
          rotate_left
          · have := Weak.store ih
            simp only [List.append_nil]
            exact this
          · rw [memOf_snoc]; simp only [hm]
        | _ => exact (ha rfl).elim
    | commSR l₁ l₂ l₃ sh v k k' hs =>
      exact ⟨_, valued_snoc hv (by simp), by rw [memOf_snoc]; exact hm, .commSR ih hs⟩
    | commRS l₁ l₂ l₃ sh v k k' hs =>
      exact ⟨_, valued_snoc hv (by simp), by rw [memOf_snoc]; exact hm, .commRS ih hs⟩

end Sorty
