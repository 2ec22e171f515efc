import Verif.SpecMach
import Verif.Proofs.MachLsw
import Verif.Proofs.JobProps
import Verif.Proofs.LswJob

/-! # From programs that behave alike to executions that look alike -/

namespace Sorty

open Prog

section
variable {V Sp : Type} {G : Sp → Prop} {R : Int → Prop}

theorem Twin.next {α : Type} {Q : α → Prop} {p q : Prog V Sp α} (h : Twin G R Q p q) : p.next = q.next := by cases h <;> rfl

theorem Twin.eq {α : Type} {Q : α → Prop} {p q : Prog V Sp α} (h : Twin G (fun _ => True) Q p q) : p = q := by
  induction h with
  | ret a h => rfl
  | read i k k' _ ih => rw [funext ih]
  | write i v k k' _ ih => rw [ih]
  | less i j x y k k' _ ih => rw [funext ih]
  | maxGor k k' _ ih => rw [funext ih]
  | loadGor k k' _ ih => rw [funext ih]
  | incGor k k' _ ih => rw [funext ih]
  | decGor k k' _ ih => rw [funext ih]
  | mkSync k k' _ ih => rw [ih]
  | go s k k' h _ ih => rw [ih]
  | send v k k' h _ ih => rw [ih]
  | recv k k' _ ih => rw [funext fun v => ih v trivial]
  | panic => rfl
  | overflow => rfl
  | diverge => rfl

theorem TwinCfg.alike {c d : Cfg V Sp} (h : TwinCfg G R c d) : Alike c d := by
  refine ⟨h.1, ?_⟩
  have := h.2
  generalize c.ths = l at this
  generalize d.ths = l' at this
  induction this with
  | nil => rfl
  | cons h _ ih => simp only [List.map_cons, ih, h.next]

theorem Twin.esteps {P P' : Par V Sp} (hP : TwinPar G R P P') {U : Nat → Prop} {c c' d : Cfg V Sp} (h : ESteps P U c c')
    (hs : TwinCfg G R c d) : ∃ d', ESteps P' U d d' ∧ TwinCfg G R c' d' := by
  induction h with
  | refl => exact ⟨d, .refl _, hs⟩
  | tail _ h ih =>
    obtain ⟨d', h1, h2⟩ := ih
    cases h with
    | own h =>
      obtain ⟨d'', h3, h4⟩ := Twin.step hP h h2
      exact ⟨d'', h1.tail (.own h3), h4⟩
    | env sh m' ths hm =>
      obtain ⟨sh', ths'⟩ := d'
      obtain ⟨e, hf⟩ := h2
      simp only at e
      subst e
      exact ⟨⟨_, ths'⟩, h1.tail (.env _ _ _ hm), rfl, hf⟩

theorem Twin.acc {P P' : Par V Sp} (hP : TwinPar G R P P') {d : Cfg V Sp} (h : Acc (fun c' c => Step P' c c') d) :
    ∀ {c : Cfg V Sp}, TwinCfg G R c d → Acc (fun c' c => Step P c c') c := by
  induction h with
  | intro d _ ih =>
    intro c hs
    refine .intro _ fun c' hc => ?_
    obtain ⟨d', h1, h2⟩ := Twin.step hP hc hs
    exact ih d' h1 h2

end

section
variable {V Sp : Type} {c d : Cfg V Sp}

theorem Alike.symm (h : Alike c d) : Alike d c := ⟨h.1.symm, h.2.symm⟩

theorem Alike.get (h : Alike c d) {i : Nat} {p : Prog V Sp Unit} (hp : c.ths[i]? = some p) : ∃ q, d.ths[i]? = some q ∧ q.next = p.next := by
  have h1 : (c.ths.map Prog.next)[i]? = some p.next := by rw [List.getElem?_map, hp]; rfl
  rw [h.2, List.getElem?_map] at h1
  obtain ⟨q, h2, h3⟩ := Option.map_eq_some_iff.1 h1
  exact ⟨q, h2, h3⟩

theorem Alike.returned (h : Alike c d) (hr : Returned c) : Returned d := by
  obtain ⟨l, hl⟩ := hr
  have h2 := h.2
  rw [hl] at h2
  rcases hd : d.ths with _ | ⟨q, l'⟩
  · rw [hd] at h2; simp at h2
  · rw [hd] at h2
    simp only [List.map_cons, List.cons.injEq] at h2
    have h3 := h2.1
    cases q <;> simp [Prog.next] at h3
    exact ⟨l', hd⟩

theorem next_access {p q : Prog V Sp Unit} (h : p.next = q.next) : p.access = q.access := by
  cases p <;> cases q <;> simp_all [Prog.next, Prog.access]

theorem Alike.race (h : Alike c d) (hr : Race c) : Race d := by
  obtain ⟨a, b, p, q, i, w, w', hab, hp, hq, h1, h2, h3⟩ := hr
  obtain ⟨p', hp', e1⟩ := h.get hp
  obtain ⟨q', hq', e2⟩ := h.get hq
  exact ⟨a, b, p', q', i, w, w', hab, hp', hq', by rw [next_access e1, h1], by rw [next_access e2, h2], h3⟩

theorem Alike.mem (h : Alike c d) {p : Prog V Sp Unit} (hp : p ∈ c.ths) : ∃ q ∈ d.ths, q.next = p.next := by
  obtain ⟨i, hi⟩ := List.mem_iff_getElem?.1 hp
  obtain ⟨q, h1, h2⟩ := h.get hi
  exact ⟨q, List.mem_of_getElem? h1, h2⟩

theorem Alike.wrong (h : Alike c d) (hw : Wrong c) : Wrong d := by
  rcases hw with hw | hw | hw <;> obtain ⟨q, h1, h2⟩ := h.mem hw <;> cases q <;> simp [Prog.next] at h2
  · exact .inl h1
  · exact .inr (.inl h1)
  · exact .inr (.inr h1)

end

section
variable {C : Conf} {s : Slice} {m : Mem Cell} {M : Nat} {stale : Prop}

theorem word_of (hC : C.OK) : Word C.wordSize (intLimit C.wordSize) := ⟨hC.word, rfl⟩

theorem famFits (hC : C.OK) (hr : 2 * ((C.maxLenRec : Int) + 1) < intLimit C.wordSize) (id : FamId) : FamFits (fam C id) (intLimit C.wordSize) := by
  obtain ⟨h1, h2, h3, h4⟩ := conf_ineq hC
  have h5 : nsShort = 4 := rfl
  cases id <;> constructor <;> simp only [fam] <;> omega

theorem lFits (hC : C.OK) (hr : 2 * ((C.maxLenRec : Int) + 1) < intLimit C.wordSize) : LFits C (intLimit C.wordSize) := by
  obtain ⟨h1, h2, h3, h4⟩ := conf_ineq hC
  have h5 : nsShort = 4 := rfl
  constructor <;> omega

/-- calls that behave alike -/
structure TwinCall (C : Conf) (id : FamId) (call callM : Call) : Prop where
  main : Twin (spawnOK (fam C id) (intLimit C.wordSize)) (msgOK (intLimit C.wordSize)) (fun _ => True) call.main callM.main
  body : ∀ p, spawnOK (fam C id) (intLimit C.wordSize) p →
    Twin (spawnOK (fam C id) (intLimit C.wordSize)) (msgOK (intLimit C.wordSize)) (fun _ => True) (call.body p) (callM.body p)

theorem same_sortOf (hC : C.OK) (hr : 2 * ((C.maxLenRec : Int) + 1) < intLimit C.wordSize) (id : FamId) (hs : s.len < intLimit C.wordSize) :
    Twin (spawnOK (fam C id) (intLimit C.wordSize)) (msgOK (intLimit C.wordSize)) (fun _ => True) (sortOf C id s) (sortOfM C id s) := by
  have w := word_of hC
  unfold sortOf sortOfM
  split
  · split
    · exact Twin.bind (same_nanToEnd w hs) fun t ht => same_sortV w (famFits hC hr id) _ ht
    · split
      · exact Twin.bind (same_nanToStart w hs) fun t ht => same_sortV w (famFits hC hr id) _ ht
      · exact same_sortV w (famFits hC hr id) _ hs
  · exact same_sortV w (famFits hC hr id) _ hs

theorem same_sortCall (hC : C.OK) (hr : 2 * ((C.maxLenRec : Int) + 1) < intLimit C.wordSize) (sel : Nat → Option FamId) (t : GoType)
    (hs : s.len < intLimit C.wordSize) : ∃ id, TwinCall C id (sortCall C sel (.slice t s)) (sortCallM C sel (.slice t s)) := by
  have w := word_of hC
  have hb := w.big
  unfold sortCall sortCallM extractSK
  dsimp only
  have hs' : ((if elemKind C.wordSize t = 0 then (⟨0, 0⟩ : Slice) else s).len : Int) < intLimit C.wordSize := by
    split
    · simp; omega
    · exact hs
  cases sel (elemKind C.wordSize t) with
  | none => exact ⟨.I4, .panic, fun _ _ => .panic⟩
  | some id => exact ⟨id, same_sortOf hC hr id hs', fun p hp => same_vbody w (famFits hC hr id) _ p hp⟩

theorem TwinCall.par {id : FamId} {call callM : Call} (h : TwinCall C id call callM) (M : Nat) (stale : Prop) :
    TwinPar (spawnOK (fam C id) (intLimit C.wordSize)) (msgOK (intLimit C.wordSize)) (call.par M stale) (callM.par M stale) :=
  ⟨rfl, Iff.rfl, rfl, h.body⟩

theorem TwinCall.symm {id : FamId} {call callM : Call} (h : TwinCall C id call callM) : TwinCall C id callM call :=
  ⟨h.main.symm, fun p hp => (h.body p hp).symm⟩

theorem TwinCall.ereaches {id : FamId} {call callM : Call} (h : TwinCall C id call callM) {c : Cfg Cell (VSp Key)}
    (hc : call.EReaches M stale s m c) : ∃ d, callM.EReaches M stale s m d ∧ Alike c d := by
  obtain ⟨d, h1, h2⟩ := Twin.esteps (h.par M stale) hc (Twin.start h.main m)
  exact ⟨d, h1, h2.alike⟩

theorem SortJobM.ideal {call : Call} {sorted : List Cell → Prop} (J : SortJobM C s m call sorted) (hC : C.OK)
    (hr : 2 * ((C.maxLenRec : Int) + 1) < intLimit C.wordSize) :
    ∃ ideal id, SortJob C s m ideal sorted ∧ TwinCall C id ideal call := by
  cases J with
  | slice t h1 h2 h3 h4 =>
    obtain ⟨id, h⟩ := same_sortCall hC hr sliceFam t h3
    exact ⟨_, id, .slice t h1 h2 h4, h⟩
  | len t h1 h2 h3 =>
    obtain ⟨id, h⟩ := same_sortCall hC hr lenFam t h3
    exact ⟨_, id, .len t h1 h2, h⟩

/-- the machine-word calls have the properties of the ideal ones -/
theorem machine_works (hC : C.OK) (hr : 2 * ((C.maxLenRec : Int) + 1) < intLimit C.wordSize) {call : Call} {sorted : List Cell → Prop}
    (J : SortJobM C s m call sorted) (hd : DepthFor C.depth s.len) (M : Nat) (stale : Prop) :
    (¬ ∃ f : Nat → Cfg Cell (VSp Key), f 0 = start call.main m ∧ ∀ n, Step (call.par M stale) (f n) (f (n + 1))) ∧
    ∀ c, call.Reaches M stale m c → ¬ Race c ∧ ¬ Wrong c ∧ ((∀ c', ¬ Step (call.par M stale) c c') → Returned c) ∧
      (Returned c → sorted (s.view c.sh.mem) ∧ (s.view c.sh.mem).Perm (s.view m)) := by
  obtain ⟨ideal, id, J', hS⟩ := J.ideal hC hr
  refine ⟨?_, fun c hc => ?_⟩
  · obtain ⟨id', rfl, _, _⟩ := J'.fam hC
    rintro ⟨f, h0, hf⟩
    have ha := Twin.acc (hS.symm.par M stale) (call_acc C id' s m M stale) (Twin.start hS.symm.main m)
    rw [← h0] at ha
    generalize hx : f 0 = x at ha
    have key : ∀ x, Acc (fun c' c => Step (call.par M stale) c c') x → ∀ n, f n ≠ x := by
      intro x hx
      induction hx with
      | intro x _ ih => intro n hn; exact ih (f (n + 1)) (hn ▸ hf n) (n + 1) rfl
    exact key x ha 0 hx
  · obtain ⟨d, h1, h2⟩ := Twin.steps (hS.symm.par M stale) hc (Twin.start hS.symm.main m)
    obtain ⟨S, I, H, ⟨_, hr⟩, ts, hi⟩ := job_inv hC J' hd (Call.Reaches.toE (s := s) h1)
    have hal := h2.alike
    refine ⟨fun h => hi.not_race hr (hal.race h), fun h => hi.not_wrong (hal.wrong h), fun hno => ?_, fun hret => ?_⟩
    · rcases hi.progress H with ⟨d', hs⟩ | hall
      · obtain ⟨c', h3, _⟩ := Twin.step (hS.par M stale) hs h2.symm
        exact absurd h3 (hno c')
      · exact hal.symm.returned (returned_of_all hi hall)
    · rw [hal.1]
      exact job_outcome hC J' hd (Call.Reaches.toE h1) (hal.returned hret)

variable {Sp : Type}

theorem isSortedCall_same (hC : C.OK) (sel : Nat → Option FamId) (t : GoType) (hs : s.len < intLimit C.wordSize) :
    (isSortedCallM C sel (.slice t s) : Prog Cell Sp Int) = isSortedCall C sel (.slice t s) := by
  have w := word_of hC
  have hb := w.big
  unfold isSortedCall isSortedCallM extractSK
  dsimp only
  have hs' : ((if elemKind C.wordSize t = 0 then (⟨0, 0⟩ : Slice) else s).len : Int) < intLimit C.wordSize := by
    split
    · simp; omega
    · exact hs
  cases sel (elemKind C.wordSize t) with
  | none => rfl
  | some id =>
    dsimp only
    unfold isSortedOf isSortedOfM
    split
    · exact (Twin.eq (G := fun _ => True) (same_isSortedF w C.nanOption hs')).symm
    · exact (Twin.eq (G := fun _ => True) (same_isSortedV w (fam C id) hs')).symm

end

section
variable {V : Type} {C : Conf} {s : Slice} {m : Mem V} {M : Nat} {stale : Prop} {cmp : Cmp V}

theorem lswPar_same (hC : C.OK) (hr : 2 * ((C.maxLenRec : Int) + 1) < intLimit C.wordSize) (hs : (s.len : Int) + 1 < intLimit C.wordSize)
    (cmp : Cmp V) (M : Nat) (stale : Prop) :
    TwinPar (lspawnOK C (intLimit C.wordSize)) (lmsgOK (intLimit C.wordSize)) (lswPar C s cmp M stale) (lswParM C s cmp M stale) :=
  ⟨rfl, Iff.rfl, rfl, fun p hp => same_lswBody (word_of hC) (lFits hC hr) hs p hp⟩

theorem lswStart_same (hC : C.OK) (hr : 2 * ((C.maxLenRec : Int) + 1) < intLimit C.wordSize) (hs : (s.len : Int) + 1 < intLimit C.wordSize)
    (m : Mem V) : TwinCfg (lspawnOK C (intLimit C.wordSize)) (lmsgOK (intLimit C.wordSize)) (start (SortLsw C s.len s) m)
      (start (SortLswM C s.len s) m) :=
  Twin.start (same_SortLsw (word_of hC) (lFits hC hr) hs) m

theorem fits_lt {ws : Nat} (hws : ws = 4 ∨ ws = 8) {n : Nat} (hf : FitsInt ws n) : (n : Int) + 1 < intLimit ws := by
  unfold FitsInt at hf
  unfold intLimit
  rcases hws with rfl | rfl <;> norm_num at hf ⊢ <;> omega

end

end Sorty
