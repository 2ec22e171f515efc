import Verif.SemTurn
import Verif.Logic.HB
import Verif.Logic.Run

/-! # Without data races goroutines may be assumed to take turns -/

namespace Sorty

open Relation

variable {V Sp : Type} {P : Par V Sp}

/-! ## steps by goroutine numbers -/

theorem split_at {α : Type} {l : List α} {i : Nat} {x : α} (h : l[i]? = some x) : ∃ l₁ l₂, l = l₁ ++ x :: l₂ ∧ l₁.length = i := by
  obtain ⟨hi, rfl⟩ := List.getElem?_eq_some_iff.1 h
  exact ⟨l.take i, l.drop (i + 1), by simp, by simp; omega⟩

theorem set_mid {α : Type} {l₁ l₂ : List α} {x y : α} : (l₁ ++ x :: l₂).set l₁.length y = l₁ ++ y :: l₂ := by simp

/-- one step, by goroutine numbers -/
inductive IStep (P : Par V Sp) (c : Cfg V Sp) : Cfg V Sp → Prop
  | tau (j p sh' p' new) : c.ths[j]? = some p → TStep P c.sh p sh' p' new → IStep P c ⟨sh', c.ths.set j p' ++ new⟩
  | comm (a b v k k') : a ≠ b → c.ths[a]? = some (.send v k) → c.ths[b]? = some (.recv k') → c.sh.sync = true →
      IStep P c ⟨c.sh, (c.ths.set a k).set b (k' v)⟩

theorem Step.idx {c c' : Cfg V Sp} (h : Step P c c') : IStep P c c' := by
  cases h with
  | tau l₁ l₂ sh p sh' p' new h =>
    have := IStep.tau (c := ⟨sh, l₁ ++ p :: l₂⟩) l₁.length p sh' p' new (by simp) h
    simpa using this
  | commSR l₁ l₂ l₃ sh v k k' h =>
    have := IStep.comm (P := P) (c := ⟨sh, l₁ ++ .send v k :: (l₂ ++ .recv k' :: l₃)⟩) l₁.length (l₁.length + (l₂.length + 1)) v k k' (by omega)
      (by simp) (by simp) h
    simpa using this
  | commRS l₁ l₂ l₃ sh v k k' h =>
    have := IStep.comm (P := P) (c := ⟨sh, l₁ ++ .recv k' :: (l₂ ++ .send v k :: l₃)⟩) (l₁.length + (l₂.length + 1)) l₁.length v k k' (by omega)
      (by simp) (by simp) h
    simpa using this

theorem split_two {α : Type} {l : List α} {a b : Nat} {x y : α} (hab : a < b) (ha : l[a]? = some x) (hb : l[b]? = some y) :
    ∃ l₁ l₂ l₃, l = l₁ ++ x :: (l₂ ++ y :: l₃) ∧ l₁.length = a ∧ b = l₁.length + (l₂.length + 1) := by
  obtain ⟨l₁, r, rfl, rfl⟩ := split_at ha
  rw [List.getElem?_append_right (by omega), List.getElem?_cons, if_neg (by omega)] at hb
  obtain ⟨l₂, l₃, rfl, h⟩ := split_at hb
  exact ⟨l₁, l₂, l₃, rfl, rfl, by omega⟩

theorem IStep.step {c c' : Cfg V Sp} (h : IStep P c c') : Step P c c' := by
  obtain ⟨sh, ths⟩ := c
  cases h with
  | tau j p sh' p' new hp h =>
    obtain ⟨l₁, l₂, rfl, rfl⟩ := split_at hp
    simpa using Step.tau l₁ l₂ sh p sh' p' new h
  | comm a b v k k' hab ha hb h =>
    rcases Nat.lt_or_gt_of_ne hab with h1 | h1
    · obtain ⟨l₁, l₂, l₃, rfl, rfl, rfl⟩ := split_two h1 ha hb
      simpa using Step.commSR l₁ l₂ l₃ sh v k k' h
    · obtain ⟨l₁, l₂, l₃, rfl, rfl, rfl⟩ := split_two h1 hb ha
      simpa using Step.commRS l₁ l₂ l₃ sh v k k' h

theorem OwnStep.step {i : Nat} {c c' : Cfg V Sp} (h : OwnStep P i c c') : Step P c c' := by
  obtain ⟨p, p', sh', h1, _, h2, rfl⟩ := h
  simpa using (IStep.tau (P := P) i p sh' p' [] h1 h2).step

/-! ## an own action commutes with actions of others -/

theorem tstep_mem {sh sh' : Sh V} {p p' : Prog V Sp Unit} {new} {a : Nat} (h : TStep P sh p sh' p' new) (ha : p.access ≠ some (a, true)) :
    sh'.mem a = sh.mem a := by
  cases h with
  | write i v =>
    have : a ≠ i := fun e => ha (by rw [e]; rfl)
    simp [Function.update_of_ne this]
  | _ => rfl

theorem tstep_commute {sh sh1 sh2 : Sh V} {p p' q q' : Prog V Sp Unit} {new} (hq : TStep P sh q sh1 q' new) (hp : TStep P sh1 p sh2 p' [])
    (ho : p.own = true) (hn : ∀ a w w', p.access = some (a, w) → q.access = some (a, w') → w = false ∧ w' = false) :
    ∃ sh', TStep P sh p sh' p' [] ∧ TStep P sh' q sh2 q' new := by
  cases hp with
  | read i k =>
    refine ⟨sh, ?_, hq⟩
    rw [tstep_mem hq (a := i) fun e => by simpa using (hn i false true rfl e).2]
    exact .read _ _ _
  | less i j x y k b hb => exact ⟨sh, .less _ _ _ _ _ _ _ hb, hq⟩
  | maxGor k n hm => exact ⟨sh, .maxGor _ _ _ hm, hq⟩
  | write i v =>
    refine ⟨_, .write _ _ _ _, ?_⟩
    have hne : ∀ a w, q.access = some (a, w) → a ≠ i := by
      rintro a w e rfl
      simpa using (hn a true w rfl e).1
    cases hq with
    | read j k =>
      have := TStep.read (P := P) { sh with mem := Function.update sh.mem i v } j k
      simpa only [Function.update_of_ne (hne j false rfl)] using this
    | write j u =>
      have := TStep.write (P := P) { sh with mem := Function.update sh.mem i v } j u q'
      simpa only [Function.update_comm (hne j true rfl)] using this
    | less _ _ _ _ _ _ h => exact .less _ _ _ _ _ _ _ h
    | maxGor _ _ h => exact .maxGor _ _ _ h
    | loadGor _ _ h1 h2 => exact .loadGor _ _ _ h1 h2
    | loadNil _ h => exact .loadNil _ _ h
    | incGor _ h => exact .incGor _ _ h
    | incNil _ h => exact .incNil _ _ h
    | decGor _ h => exact .decGor _ _ h
    | decNil _ h => exact .decNil _ _ h
    | mkSync => exact .mkSync _ _
    | go s => exact .go _ _ _
  | _ => simp [Prog.own] at ho

/-- an action of others followed by an own action of goroutine `i`: the own action may come first -/
theorem own_commute {c c1 c2 : Cfg V Sp} {i : Nat} {p : Prog V Sp Unit} (hr : ¬ Race c) (hp : c.ths[i]? = some p) (ho : p.own = true)
    (h : Step P c c1) (h' : OwnStep P i c1 c2) : OwnStep P i c c1 ∨ ∃ c', OwnStep P i c c' ∧ Step P c' c2 := by
  obtain ⟨hi, hpe⟩ := List.getElem?_eq_some_iff.1 hp
  obtain ⟨p1, p2, sh2, h1, h2, h3, rfl⟩ := h'
  cases h.idx with
  | tau j q sh1 q' new hq ht =>
    by_cases hij : j = i
    · subst hij
      have := hp.symm.trans hq
      cases this
      refine .inl ⟨p, q', sh1, hp, ho, ?_, ?_⟩
      · cases ht <;> first | simp [Prog.own] at ho; done | skip
        · exact .read _ _ _
        · exact .write _ _ _ _
        · exact .less _ _ _ _ _ _ _ ‹_›
        · exact .maxGor _ _ _ ‹_›
      · cases ht <;> first | simp [Prog.own] at ho; done | simp
    · have e : (c.ths.set j q' ++ new)[i]? = some p := by
        rw [List.getElem?_append_left (by simpa using hi), List.getElem?_set_ne hij, hp]
      have := e.symm.trans h1
      cases this
      obtain ⟨sh', g1, g2⟩ := tstep_commute ht h3 ho fun a w w' e1 e2 => by
        by_contra hw
        refine hr ⟨i, j, p, q, a, w, w', fun e => hij e.symm, hp, hq, e1, e2, ?_⟩
        cases w <;> cases w' <;> simp_all
      refine .inr ⟨_, ⟨p, p2, sh', hp, ho, g1, rfl⟩, ?_⟩
      have := (IStep.tau (P := P) (c := ⟨sh', c.ths.set i p2⟩) j q sh2 q' new (by rw [List.getElem?_set_ne (fun e => hij e.symm)]; exact hq) g2).step
      rw [List.set_append_left _ _ (by simpa using hi), List.set_comm _ _ hij]
      exact this
  | comm a b v k k' hab ha hb hs =>
    have hia : a ≠ i := by
      rintro rfl
      have := hp.symm.trans ha
      cases this; simp [Prog.own] at ho
    have hib : b ≠ i := by
      rintro rfl
      have := hp.symm.trans hb
      cases this; simp [Prog.own] at ho
    have e : ((c.ths.set a k).set b (k' v))[i]? = some p := by
      rw [List.getElem?_set_ne hib, List.getElem?_set_ne hia, hp]
    have := e.symm.trans h1
    cases this
    have hsy : sh2.sync = c.sh.sync := by
      cases h3 <;> first | rfl | simp [Prog.own] at ho
    refine .inr ⟨_, ⟨p, p2, sh2, hp, ho, h3, rfl⟩, ?_⟩
    have := (IStep.comm (P := P) (c := ⟨sh2, c.ths.set i p2⟩) a b v k k' hab (by rw [List.getElem?_set_ne (fun e => hia e.symm)]; exact ha)
      (by rw [List.getElem?_set_ne (fun e => hib e.symm)]; exact hb) (hsy.trans hs)).step
    have e2 : ((c.ths.set a k).set b (k' v)).set i p2 = ((c.ths.set i p2).set a k).set b (k' v) := by
      rw [List.set_comm _ _ hib, List.set_comm _ _ hia]
    rw [e2]
    exact this

/-! ## reordering executions -/

/-- `n` steps -/
inductive FSteps (P : Par V Sp) : Nat → Cfg V Sp → Cfg V Sp → Prop
  | refl (c) : FSteps P 0 c c
  | head {n c c' c''} : Step P c c' → FSteps P n c' c'' → FSteps P (n + 1) c c''

theorem FSteps.tail {n : Nat} {c c' c'' : Cfg V Sp} (h : FSteps P n c c') (hs : Step P c' c'') : FSteps P (n + 1) c c'' := by
  induction h with
  | refl => exact .head hs (.refl _)
  | head h _ ih => exact .head h (ih hs)

theorem Steps.fsteps {c c' : Cfg V Sp} (h : Steps P c c') : ∃ n, FSteps P n c c' := by
  induction h with
  | refl => exact ⟨0, .refl _⟩
  | tail _ h ih => obtain ⟨n, ih⟩ := ih; exact ⟨n + 1, ih.tail h⟩

theorem Steps.cons {c c' c'' : Cfg V Sp} (h : Step P c c') (h' : Steps P c' c'') : Steps P c c'' := by
  induction h' with
  | refl => exact .tail (.refl _) h
  | tail _ h2 ih => exact ih.tail h2

theorem Steps.append {c c' c'' : Cfg V Sp} (h : Steps P c c') (h' : Steps P c' c'') : Steps P c c'' := by
  induction h' with
  | refl => exact h
  | tail _ h2 ih => exact ih.tail h2

/-- no data race from `c` on -/
def Calmly (P : Par V Sp) (c : Cfg V Sp) : Prop := ∀ c', Steps P c c' → ¬ Race c'

theorem Calmly.step {c c' : Cfg V Sp} (h : Calmly P c) (hs : Step P c c') : Calmly P c' := fun _ h' => h _ (.cons hs h')

/-- the first own action of a goroutine may be done at once -/
theorem own_first {n : Nat} {c c' : Cfg V Sp} (h : FSteps P n c c') (hr : Calmly P c) {i : Nat} {p : Prog V Sp Unit} (hp : c.ths[i]? = some p)
    (ho : p.own = true) (hf : ∀ p ∈ c'.ths, p.own = false) : ∃ k c1, n = k + 1 ∧ OwnStep P i c c1 ∧ FSteps P k c1 c' := by
  induction h with
  | refl c => simp [hf p (List.mem_of_getElem? hp)] at ho
  | @head n c c1 c' hs h ih =>
    by_cases hp1 : OwnStep P i c c1
    · exact ⟨n, c1, rfl, hp1, h⟩
    · have hp' : c1.ths[i]? = some p := by
        obtain ⟨hi, hpe⟩ := List.getElem?_eq_some_iff.1 hp
        cases hs.idx with
        | tau j q sh1 q' new hq ht =>
          by_cases hij : j = i
          · subst hij
            have := hp.symm.trans hq
            cases this
            refine absurd ⟨p, q', sh1, hp, ho, ?_, ?_⟩ hp1
            · cases ht <;> first | simp [Prog.own] at ho; done | skip
              · exact .read _ _ _
              · exact .write _ _ _ _
              · exact .less _ _ _ _ _ _ _ ‹_›
              · exact .maxGor _ _ _ ‹_›
            · cases ht <;> first | simp [Prog.own] at ho; done | simp
          · rw [List.getElem?_append_left (by simpa using hi), List.getElem?_set_ne hij, hp]
        | comm a b v k k' hab ha hb _ =>
          have hia : a ≠ i := by
            rintro rfl
            have := hp.symm.trans ha
            cases this; simp [Prog.own] at ho
          have hib : b ≠ i := by
            rintro rfl
            have := hp.symm.trans hb
            cases this; simp [Prog.own] at ho
          rw [List.getElem?_set_ne hib, List.getElem?_set_ne hia, hp]
      obtain ⟨k, c2, rfl, h1, h2⟩ := ih (hr.step hs) hp' hf
      rcases own_commute (hr _ (.refl _)) hp ho hs h1 with h3 | ⟨c3, h3, h4⟩
      · exact absurd h3 hp1
      · exact ⟨k + 1, c3, rfl, h3, .head h4 h2⟩

/-- a goroutine may take its whole turn at once -/
theorem turn_first : ∀ (n : Nat) {c c' : Cfg V Sp}, FSteps P n c c' → Calmly P c → ∀ {i : Nat} {p : Prog V Sp Unit}, c.ths[i]? = some p →
    p.own = true → (∀ p ∈ c'.ths, p.own = false) → ∃ k c1, k < n ∧ Turn P i c c1 ∧ Calmly P c1 ∧ FSteps P k c1 c' := by
  intro n
  induction n with
  | zero =>
    intro c c' h hr i p hp ho hf
    obtain ⟨k, _, e, _⟩ := own_first h hr hp ho hf
    omega
  | succ n ih =>
    intro c c' h hr i p hp ho hf
    obtain ⟨k, c1, e, h1, h2⟩ := own_first h hr hp ho hf
    obtain rfl : n = k := by omega
    have hr1 := hr.step h1.step
    have hl : ∃ p1, c1.ths[i]? = some p1 := by
      obtain ⟨p, p', sh', g1, _, _, rfl⟩ := h1
      exact ⟨p', by simp [(List.getElem?_eq_some_iff.1 g1).1]⟩
    obtain ⟨p1, hp1⟩ := hl
    cases ho1 : p1.own with
    | false => exact ⟨n, c1, by omega, ⟨.single h1, fun q hq => by rw [hp1] at hq; cases hq; exact ho1⟩, hr1, h2⟩
    | true =>
      obtain ⟨k, c2, hk, ⟨g1, g2⟩, g3, g4⟩ := ih h2 hr1 hp1 ho1 hf
      exact ⟨k, c2, by omega, ⟨.head h1 g1, g2⟩, g3, g4⟩

theorem ByTurns.headTurn {c c' c'' : Cfg V Sp} {i : Nat} (h : Turn P i c c') (h' : ByTurns P c' c'') : ByTurns P c c'' := by
  induction h' with
  | refl => exact .turn i (.refl _) h
  | turn j _ h2 ih => exact .turn j ih h2
  | sync _ h2 h3 ih => exact .sync ih h2 h3

theorem ByTurns.headSync {c c' c'' : Cfg V Sp} (hn : ∀ p ∈ c.ths, p.own = false) (h : Step P c c') (h' : ByTurns P c' c'') : ByTurns P c c'' := by
  induction h' with
  | refl => exact .sync (.refl _) hn h
  | turn j _ h2 ih => exact .turn j ih h2
  | sync _ h2 h3 ih => exact .sync ih h2 h3

/-- **Reduction.** If there is never a data race, everything that can be reached, and in which no goroutine is in the middle of a turn,
can be reached by turns. -/
theorem by_turns {c c' : Cfg V Sp} (h : Steps P c c') (hr : Calmly P c) (hf : ∀ p ∈ c'.ths, p.own = false) : ByTurns P c c' := by
  obtain ⟨n, hn⟩ := h.fsteps
  clear h
  rename' hn => h
  induction n using Nat.strong_induction_on generalizing c with
  | _ n ih =>
    by_cases hn : ∀ p ∈ c.ths, p.own = false
    · cases h with
      | refl => exact .refl _
      | head hs h => exact .headSync hn hs (ih _ (by omega) (hr.step hs) h)
    · push Not at hn
      obtain ⟨p, hp, ho⟩ := hn
      obtain ⟨i, hi⟩ := List.getElem?_of_mem hp
      obtain ⟨k, c1, hk, h1, h2, h3⟩ := turn_first n h hr hi (by simpa using ho) hf
      exact .headTurn h1 (ih k hk h2 h3)

/-- executions by turns are executions -/
theorem ByTurns.steps {c c' : Cfg V Sp} (h : ByTurns P c c') : Steps P c c' := by
  induction h with
  | refl => exact .refl _
  | turn i _ h ih =>
    refine ih.append ?_
    have := h.1
    clear h ih
    induction this with
    | single h => exact .tail (.refl _) h.step
    | tail _ h ih => exact ih.tail h.step
  | sync _ _ h ih => exact ih.tail h

/-! ## conflicting accesses have synchronisation of both goroutines between them -/

theorem who_acc {x : Ev} {t : Nat} {a : Nat} {w : Bool} {v : Who} (h : x = .acc t a w) (hv : v ∈ x.who) : v = .gor t := by
  subst h; simpa [Ev.who] using hv

theorem HB.lt {tr : List Ev} {i j} (h : HB tr i j) : i < j := by
  induction h with
  | edge h => exact h
  | trans _ _ h1 h2 => omega

/-- on the way from an action of `t` to one without `t` there is an action, not the last one, that is not an access and has `t` as a participant -/
theorem HB.leaves {tr : List Ev} {i j} (h : HB tr i j) (t : Nat) : ∀ {x y}, tr[i]? = some x → (∀ v ∈ x.who, v = .gor t) → tr[j]? = some y →
    .gor t ∉ y.who → ∃ p z, i < p ∧ p < j ∧ tr[p]? = some z ∧ z.syncs t := by
  induction h with
  | @edge i j x' y' v hij hx hy hvx hvy =>
    intro x y hx' hxt hy' hyt
    rw [hx'] at hx; rw [hy'] at hy
    cases hx; cases hy
    exact absurd (hxt v hvx ▸ hvy) hyt
  | @trans i m j h1 h2 ih1 ih2 =>
    intro x y hx hxt hy hyt
    have hm : ∃ z, tr[m]? = some z := by
      have := h2.lt
      have hj := (List.getElem?_eq_some_iff.1 hy).1
      exact ⟨tr[m], List.getElem?_eq_getElem (by omega)⟩
    obtain ⟨z, hz⟩ := hm
    by_cases hzt : Who.gor t ∈ z.who
    · by_cases hacc : ∃ a w, z = .acc t a w
      · obtain ⟨a, w, e⟩ := hacc
        obtain ⟨p, z', g1, g2, g3⟩ := ih2 hz (fun v hv => who_acc e hv) hy hyt
        exact ⟨p, z', by have := h1.lt; omega, g2, g3⟩
      · exact ⟨m, z, h1.lt, h2.lt, hz, hzt, fun a w e => hacc ⟨a, w, e⟩⟩
    · obtain ⟨p, z', g1, g2, g3⟩ := ih1 hx hxt hz hzt
      exact ⟨p, z', g1, by have := h2.lt; omega, g3⟩

theorem HB.enters {tr : List Ev} {i j} (h : HB tr i j) (t : Nat) : ∀ {x y}, tr[i]? = some x → .gor t ∉ x.who → tr[j]? = some y →
    (∀ v ∈ y.who, v = .gor t) → ∃ p z, i < p ∧ p < j ∧ tr[p]? = some z ∧ z.syncs t := by
  induction h with
  | @edge i j x' y' v hij hx hy hvx hvy =>
    intro x y hx' hxt hy' hyt
    rw [hx'] at hx; rw [hy'] at hy
    cases hx; cases hy
    exact absurd (hyt v hvy ▸ hvx) hxt
  | @trans i m j h1 h2 ih1 ih2 =>
    intro x y hx hxt hy hyt
    have hm : ∃ z, tr[m]? = some z := by
      have := h2.lt
      have hj := (List.getElem?_eq_some_iff.1 hy).1
      exact ⟨tr[m], List.getElem?_eq_getElem (by omega)⟩
    obtain ⟨z, hz⟩ := hm
    by_cases hzt : Who.gor t ∈ z.who
    · by_cases hacc : ∃ a w, z = .acc t a w
      · obtain ⟨a, w, e⟩ := hacc
        obtain ⟨p, z', g1, g2, g3⟩ := ih1 hx hxt hz (fun v hv => who_acc e hv)
        exact ⟨p, z', g1, by have := h2.lt; omega, g3⟩
      · exact ⟨m, z, h1.lt, h2.lt, hz, hzt, fun a w e => hacc ⟨a, w, e⟩⟩
    · obtain ⟨p, z', g1, g2, g3⟩ := ih2 hz hzt hy hyt
      exact ⟨p, z', by have := h1.lt; omega, g2, g3⟩

/-- Without data races: two conflicting accesses of different goroutines, and both of these goroutines synchronise in between. -/
theorem conflict_sync {tr : List Ev} (hr : ¬ GoRace tr) {i j t t' a : Nat} {w w' : Bool} (hij : i < j) (hi : tr[i]? = some (.acc t a w))
    (hj : tr[j]? = some (.acc t' a w')) (htt : t ≠ t') (hw : w = true ∨ w' = true) :
    (∃ p x, i < p ∧ p < j ∧ tr[p]? = some x ∧ x.syncs t) ∧ ∃ p x, i < p ∧ p < j ∧ tr[p]? = some x ∧ x.syncs t' := by
  have hb : HB tr i j := by
    by_contra hn
    exact hr ⟨i, j, t, t', a, w, w', hij, hi, hj, hw, hn⟩
  exact ⟨hb.leaves t hi (by simp [Ev.who]) hj (by simpa [Ev.who] using htt),
    hb.enters t' hi (by simpa [Ev.who] using htt.symm) hj (by simp [Ev.who])⟩

/-! ## recordings of replayed executions -/

theorem Trace.extend {c0 c c' : Cfg V Sp} {tr} (h : Trace P c0 tr c) (hs : Steps P c c') : ∃ tr', Trace P c0 (tr ++ tr') c' := by
  induction hs with
  | refl => exact ⟨[], by simpa using h⟩
  | tail _ hs ih =>
    obtain ⟨tr', ih⟩ := ih
    cases hs with
    | tau l₁ l₂ sh p sh' p' new ht => exact ⟨_, by simpa only [List.append_assoc] using Trace.tau ih ht⟩
    | commSR l₁ l₂ l₃ sh v k k' hs => exact ⟨_, by simpa only [List.append_assoc] using Trace.commSR ih hs⟩
    | commRS l₁ l₂ l₃ sh v k k' hs => exact ⟨_, by simpa only [List.append_assoc] using Trace.commRS ih hs⟩

theorem act_of_access {p : Prog V Sp Unit} {t n a : Nat} {w : Bool} (h : p.access = some (a, w)) : p.act t n = some (.acc t a w) := by
  cases p <;> simp [Prog.access] at h <;> simp [Prog.act, h]

theorem Trace.access {c0 c c' : Cfg V Sp} {tr} {mg : Nat} {ans : Nat → Nat → V → V → Option Bool} (h : Trace P c0 tr c) (hm : mg ≤ P.M)
    (ha : ∀ i j x y b, ans i j x y = some b → P.cmp i j x y b) {t a : Nat} {w : Bool} {p : Prog V Sp Unit} (hp : c.ths[t]? = some p)
    (hpa : p.access = some (a, w)) (hs : act P.body mg ans (.run t 1) c = some c') : Trace P c0 (tr ++ [.acc t a w]) c' := by
  obtain ⟨sh, ths⟩ := c
  obtain ⟨l₁, l₂, rfl, rfl⟩ := split_at hp
  simp only [act, List.drop_left, List.take_left, trun] at hs
  cases ht : tstep P.body mg ans sh p with
  | none => simp [ht] at hs
  | some r =>
    obtain ⟨sh', p', new⟩ := r
    simp only [ht, List.nil_append, Option.some.injEq] at hs
    subst hs
    have := Trace.tau h (tstep_sound hm ha ht)
    rwa [act_of_access hpa] at this

theorem Trace.access_any {c0 c : Cfg V Sp} {tr} (h : Trace P c0 tr c) {t a : Nat} {w : Bool} {p : Prog V Sp Unit} (hp : c.ths[t]? = some p)
    (hpa : p.access = some (a, w)) : ∃ c', Trace P c0 (tr ++ [.acc t a w]) c' := by
  obtain ⟨sh, ths⟩ := c
  obtain ⟨l₁, l₂, rfl, rfl⟩ := split_at hp
  have : ∃ sh' p', TStep P sh p sh' p' [] := by
    cases p <;> simp [Prog.access] at hpa
    · exact ⟨_, _, .read _ _ _⟩
    · exact ⟨_, _, .write _ _ _ _⟩
  obtain ⟨sh', p', ht⟩ := this
  have := Trace.tau h ht
  rw [act_of_access hpa] at this
  exact ⟨_, this⟩

end Sorty
