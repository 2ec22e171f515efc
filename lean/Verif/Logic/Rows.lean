import Verif.Sem
import Verif.Logic.Twin
import Mathlib.Data.Fin.Basic

/-! # Programs on parallel slices, seen as programs on rows

`Rows off n p q`: the program `p` works on `K + 1` slices of `n` elements, which begin at the addresses `off j`, and `q` does the
same on a memory of rows, whose row `i` consists of the elements with index `i` of the slices. A load of an element is a load of its
row. A store of an element is a load of its row and, at once, a store of the row with this element replaced. -/

namespace Sorty

variable {T Sp α β : Type} {K : Nat}

inductive Rows (off : Fin (K + 1) → Nat) (n : Nat) : Prog T Sp α → Prog (Fin (K + 1) → T) Sp α → Prop
  | ret (a) : Rows off n (.ret a) (.ret a)
  | read (i j k k') : i < n → (∀ z : Fin (K + 1) → T, Rows off n (k (z j)) (k' z)) → Rows off n (.read (off j + i) k) (.read i k')
  | write (i j v k k') : i < n → Rows off n k k' →
      Rows off n (.write (off j + i) v k) (.read i fun z => .write i (Function.update z j v) k')
  | less (i j x y k k') : (∀ b, Rows off n (k b) (k' b)) → Rows off n (.less i j (x 0) (y 0) k) (.less i j x y k')
  | maxGor (k k') : (∀ m, Rows off n (k m) (k' m)) → Rows off n (.maxGor k) (.maxGor k')
  | loadGor (k k') : (∀ m, Rows off n (k m) (k' m)) → Rows off n (.loadGor k) (.loadGor k')
  | incGor (k k') : (∀ m, Rows off n (k m) (k' m)) → Rows off n (.incGor k) (.incGor k')
  | decGor (k k') : (∀ m, Rows off n (k m) (k' m)) → Rows off n (.decGor k) (.decGor k')
  | mkSync (k k') : Rows off n k k' → Rows off n (.mkSync k) (.mkSync k')
  | go (s k k') : Rows off n k k' → Rows off n (.go s k) (.go s k')
  | send (v k k') : Rows off n k k' → Rows off n (.send v k) (.send v k')
  | recv (k k') : (∀ v, Rows off n (k v) (k' v)) → Rows off n (.recv k) (.recv k')
  | panic : Rows off n .panic .panic
  | overflow : Rows off n .overflow .overflow
  | diverge : Rows off n .diverge .diverge

namespace Rows

variable {off : Fin (K + 1) → Nat} {n : Nat}

theorem bind {p : Prog T Sp α} {q : Prog (Fin (K + 1) → T) Sp α} {f : α → Prog T Sp β} {g : α → Prog (Fin (K + 1) → T) Sp β}
    (h : Rows off n p q) (hf : ∀ a, Rows off n (f a) (g a)) : Rows off n (p.bind f) (q.bind g) := by
  induction h with
  | ret a => exact hf a
  | read i j k k' hi _ ih => exact .read _ _ _ _ hi ih
  | write i j v k k' hi _ ih => exact .write _ _ _ _ _ hi ih
  | less i j x y k k' _ ih => exact .less _ _ _ _ _ _ ih
  | maxGor k k' _ ih => exact .maxGor _ _ ih
  | loadGor k k' _ ih => exact .loadGor _ _ ih
  | incGor k k' _ ih => exact .incGor _ _ ih
  | decGor k k' _ ih => exact .decGor _ _ ih
  | mkSync k k' _ ih => exact .mkSync _ _ ih
  | go s k k' _ ih => exact .go _ _ _ ih
  | send v k k' _ ih => exact .send _ _ _ ih
  | recv k k' _ ih => exact .recv _ _ ih
  | panic => exact .panic
  | overflow => exact .overflow
  | diverge => exact .diverge

theorem bind' {p : Prog T Sp α} {q : Prog (Fin (K + 1) → T) Sp α} {f : α → Prog T Sp β} {g : α → Prog (Fin (K + 1) → T) Sp β}
    (h : Rows off n p q) (hf : ∀ a, Rows off n (f a) (g a)) : Rows off n (p >>= f) (q >>= g) := h.bind hf

theorem pure (a : α) : Rows off n (Pure.pure a : Prog T Sp α) (Pure.pure a) := .ret a

theorem ite {c : Prop} [Decidable c] {p p' : Prog T Sp α} {q q' : Prog (Fin (K + 1) → T) Sp α} (h : c → Rows off n p q)
    (h' : ¬ c → Rows off n p' q') : Rows off n (if c then p else p') (if c then q else q') := by
  split
  · exact h ‹_›
  · exact h' ‹_›

theorem loop {σ : Type} {f : σ → Prog T Sp (Prog.Ctl σ α)} {g : σ → Prog (Fin (K + 1) → T) Sp (Prog.Ctl σ α)}
    (h : ∀ s, Rows off n (f s) (g s)) : ∀ (N : Nat) (s : σ), Rows off n (Prog.loop N f s) (Prog.loop N g s)
  | 0, _ => .diverge
  | N + 1, s => (h s).bind fun c => by
      cases c with
      | again s' => exact loop h N s'
      | brk a => exact .ret _

end Rows

/-- the memory of rows contains what the slices contain, and nothing outside the slices has changed since `m0` -/
structure RowMem (off : Fin (K + 1) → Nat) (n : Nat) (m0 m : Mem T) (M : Mem (Fin (K + 1) → T)) : Prop where
  eq : ∀ i < n, ∀ j, M i j = m (off j + i)
  frame : ∀ a, (∀ i < n, ∀ j, a ≠ off j + i) → m a = m0 a

/-- related configurations -/
structure RowCfg (off : Fin (K + 1) → Nat) (n : Nat) (m0 : Mem T) (c : Cfg T Sp) (d : Cfg (Fin (K + 1) → T) Sp) : Prop where
  mem : RowMem off n m0 c.sh.mem d.sh.mem
  gor : c.sh.nGor = d.sh.nGor
  sync : c.sh.sync = d.sh.sync
  ths : List.Forall₂ (Rows off n) c.ths d.ths

/-- environments that differ in the programs of goroutines only, and whose comparator looks at the first slice -/
structure RowPar (off : Fin (K + 1) → Nat) (n : Nat) (P : Par T Sp) (P' : Par (Fin (K + 1) → T) Sp) : Prop where
  M : P.M = P'.M
  stale : P.stale ↔ P'.stale
  cmp : ∀ i j x y b, P.cmp i j (x 0) (y 0) b ↔ P'.cmp i j x y b
  body : ∀ s, Rows off n (P.body s) (P'.body s)

/-- different places of the slices have different addresses -/
def Apart (off : Fin (K + 1) → Nat) (n : Nat) : Prop := ∀ i < n, ∀ i' < n, ∀ j j', off j + i = off j' + i' → i = i' ∧ j = j'

variable {off : Fin (K + 1) → Nat} {n : Nat} {m0 : Mem T} {P : Par T Sp} {P' : Par (Fin (K + 1) → T) Sp}

theorem RowMem.write (ha : Apart off n) {m : Mem T} {M : Mem (Fin (K + 1) → T)} (h : RowMem off n m0 m M) {i : Nat} (hi : i < n)
    (j : Fin (K + 1)) (v : T) :
    RowMem off n m0 (Function.update m (off j + i) v) (Function.update M i (Function.update (M i) j v)) := by
  refine ⟨fun i' hi' j' => ?_, fun a hn => ?_⟩
  · by_cases e : i' = i
    · subst e
      by_cases e' : j' = j
      · subst e'; simp
      · rw [Function.update_self, Function.update_of_ne e', Function.update_of_ne, h.eq _ hi']
        intro e2; exact e' ((ha _ hi' _ hi _ _ e2).2)
    · rw [Function.update_of_ne e, Function.update_of_ne, h.eq _ hi']
      intro e2; exact e ((ha _ hi' _ hi _ _ e2).1)
  · rw [Function.update_of_ne (hn i hi j), h.frame a hn]

open Relation in
/-- a step on the slices is one or two steps on the rows -/
theorem Rows.tstep (hP : RowPar off n P P') (ha : Apart off n) {sh sh' : Sh T} {p p' : Prog T Sp Unit} {new : List (Prog T Sp Unit)}
    (h : TStep P sh p sh' p' new) {q : Prog (Fin (K + 1) → T) Sp Unit} (hs : Rows off n p q) {S : Sh (Fin (K + 1) → T)}
    (hm : RowMem off n m0 sh.mem S.mem) (hg : sh.nGor = S.nGor) (hy : sh.sync = S.sync) :
    ∃ S' q' new', (∀ l₁ l₂, TransGen (fun c c' => Step P' c c') ⟨S, l₁ ++ q :: l₂⟩ ⟨S', l₁ ++ q' :: l₂ ++ new'⟩) ∧
      RowMem off n m0 sh'.mem S'.mem ∧ sh'.nGor = S'.nGor ∧ sh'.sync = S'.sync ∧ Rows off n p' q' ∧
      List.Forall₂ (Rows off n) new new' := by
  have one : ∀ {S' q' new'}, TStep P' S q S' q' new' →
      ∀ l₁ l₂, TransGen (fun c c' => Step P' c c') ⟨S, l₁ ++ q :: l₂⟩ ⟨S', l₁ ++ q' :: l₂ ++ new'⟩ :=
    fun h l₁ l₂ => .single (.tau l₁ l₂ _ _ _ _ _ h)
  cases h with
  | read i k =>
    cases hs with
    | read i j _ k' hi h =>
      refine ⟨S, k' (S.mem i), [], one (.read _ _ _), hm, hg, hy, ?_, .nil⟩
      rw [← hm.eq i hi j]; exact h _
  | write i v =>
    cases hs with
    | write i j _ _ k' hi h =>
      refine ⟨{ S with mem := Function.update S.mem i (Function.update (S.mem i) j v) }, k', [], fun l₁ l₂ => ?_, hm.write ha hi j v, hg, hy, h, .nil⟩
      refine .tail (.single (Step.tau l₁ l₂ S _ _ _ _ (.read _ _ _))) ?_
      rw [List.append_nil]
      exact Step.tau l₁ l₂ S _ _ _ _ (.write _ _ _ _)
  | less i j x y k b hb =>
    cases hs with
    | less _ _ x y _ k' h => exact ⟨S, k' b, [], one (.less _ _ _ _ _ _ b ((hP.cmp _ _ _ _ _).1 hb)), hm, hg, hy, h _, .nil⟩
  | maxGor k m hn => cases hs with | maxGor _ k' h => exact ⟨S, _, [], one (.maxGor _ _ m (hP.M ▸ hn)), hm, hg, hy, h _, .nil⟩
  | loadGor k m h1 h2 =>
    cases hs with
    | loadGor _ k' h => exact ⟨S, _, [], one (.loadGor _ _ m (hy ▸ h1) (h2.imp hP.stale.1 fun e => e.trans hg)), hm, hg, hy, h _, .nil⟩
  | loadNil k h1 => cases hs with | loadGor _ k' h => exact ⟨S, _, [], one (.loadNil _ _ (hy ▸ h1)), hm, hg, hy, .panic, .nil⟩
  | incGor k h1 =>
    cases hs with
    | incGor _ k' h =>
      refine ⟨_, _, [], one (.incGor _ _ (hy ▸ h1)), hm, by simp only [hg], hy, ?_, .nil⟩
      rw [hg]; exact h _
  | incNil k h1 => cases hs with | incGor _ k' h => exact ⟨S, _, [], one (.incNil _ _ (hy ▸ h1)), hm, hg, hy, .panic, .nil⟩
  | decGor k h1 =>
    cases hs with
    | decGor _ k' h =>
      refine ⟨_, _, [], one (.decGor _ _ (hy ▸ h1)), hm, by simp only [hg], hy, ?_, .nil⟩
      rw [hg]; exact h _
  | decNil k h1 => cases hs with | decGor _ k' h => exact ⟨S, _, [], one (.decNil _ _ (hy ▸ h1)), hm, hg, hy, .panic, .nil⟩
  | mkSync => cases hs with | mkSync _ k' h => exact ⟨_, _, [], one (.mkSync _ _), hm, rfl, rfl, h, .nil⟩
  | go s => cases hs with | go _ _ k' h => exact ⟨S, _, _, one (.go _ _ _), hm, hg, hy, h, .cons (hP.body _) .nil⟩

open Relation in
theorem Rows.step (hP : RowPar off n P P') (ha : Apart off n) {c c' : Cfg T Sp} {d : Cfg (Fin (K + 1) → T) Sp} (h : Step P c c')
    (hs : RowCfg off n m0 c d) : ∃ d', TransGen (fun c c' => Step P' c c') d d' ∧ RowCfg off n m0 c' d' := by
  obtain ⟨S, dths⟩ := d
  obtain ⟨hm, hg, hy, hf⟩ := hs
  cases h with
  | tau l₁ l₂ sh p sh' p' new h =>
    simp only at hm hg hy hf
    obtain ⟨m₁, r, f1, f2, rfl⟩ := forall₂_append_left hf
    obtain ⟨q, m₂, f3, f4, rfl⟩ := List.forall₂_cons_left_iff.1 f2
    obtain ⟨S', q', new', h1, h2, h3, h4, h5, h6⟩ := Rows.tstep hP ha h f3 hm hg hy
    exact ⟨_, h1 m₁ m₂, h2, h3, h4, by
      simp only [List.append_assoc, List.cons_append]
      exact List.rel_append f1 (.cons h5 (List.rel_append f4 h6))⟩
  | commSR l₁ l₂ l₃ sh v k k' h =>
    simp only [List.append_assoc, List.cons_append] at hm hg hy hf
    obtain ⟨m₁, r, f1, f2, rfl⟩ := forall₂_append_left hf
    obtain ⟨q, r, f3, f4, rfl⟩ := List.forall₂_cons_left_iff.1 f2
    obtain ⟨m₂, r', f5, f6, rfl⟩ := forall₂_append_left f4
    obtain ⟨q', m₃, f7, f8, rfl⟩ := List.forall₂_cons_left_iff.1 f6
    cases f3 with
    | send _ _ j hj =>
      cases f7 with
      | recv _ j' hj' =>
        refine ⟨⟨S, m₁ ++ j :: m₂ ++ j' v :: m₃⟩, .single ?_, hm, hg, hy, ?_⟩
        · have := Step.commSR (P := P') m₁ m₂ m₃ S v j j' (hy ▸ h)
          simpa only [List.append_assoc, List.cons_append] using this
        · simp only [List.append_assoc, List.cons_append]
          exact List.rel_append f1 (.cons hj (List.rel_append f5 (.cons (hj' v) f8)))
  | commRS l₁ l₂ l₃ sh v k k' h =>
    simp only [List.append_assoc, List.cons_append] at hm hg hy hf
    obtain ⟨m₁, r, f1, f2, rfl⟩ := forall₂_append_left hf
    obtain ⟨q, r, f3, f4, rfl⟩ := List.forall₂_cons_left_iff.1 f2
    obtain ⟨m₂, r', f5, f6, rfl⟩ := forall₂_append_left f4
    obtain ⟨q', m₃, f7, f8, rfl⟩ := List.forall₂_cons_left_iff.1 f6
    cases f7 with
    | send _ _ j hj =>
      cases f3 with
      | recv _ j' hj' =>
        refine ⟨⟨S, m₁ ++ j' v :: m₂ ++ j :: m₃⟩, .single ?_, hm, hg, hy, ?_⟩
        · have := Step.commRS (P := P') m₁ m₂ m₃ S v j j' (hy ▸ h)
          simpa only [List.append_assoc, List.cons_append] using this
        · simp only [List.append_assoc, List.cons_append]
          exact List.rel_append f1 (.cons (hj' v) (List.rel_append f5 (.cons hj f8)))

theorem steps_of_trans {P : Par T Sp} {c0 c d : Cfg T Sp} (h0 : Steps P c0 c) (h : Relation.TransGen (fun c c' => Step P c c') c d) :
    Steps P c0 d := by
  induction h with
  | single h => exact h0.tail h
  | tail _ h ih => exact ih.tail h

theorem Rows.steps (hP : RowPar off n P P') (ha : Apart off n) {c c' : Cfg T Sp} {d : Cfg (Fin (K + 1) → T) Sp} (h : Steps P c c')
    (hs : RowCfg off n m0 c d) : ∃ d', Steps P' d d' ∧ RowCfg off n m0 c' d' := by
  induction h with
  | refl => exact ⟨d, .refl _, hs⟩
  | tail _ h ih =>
    obtain ⟨d', h1, h2⟩ := ih
    obtain ⟨d'', h3, h4⟩ := Rows.step hP ha h h2
    exact ⟨d'', steps_of_trans h1 h3, h4⟩

/-- no infinite execution on the rows, hence none on the slices -/
theorem Rows.acc (hP : RowPar off n P P') (ha : Apart off n) {d : Cfg (Fin (K + 1) → T) Sp} (hd : Acc (fun c' c => Step P' c c') d)
    {c : Cfg T Sp} (hc : RowCfg off n m0 c d) : Acc (fun c' c => Step P c c') c := by
  have key : ∀ d, Acc (Relation.TransGen fun c' c => Step P' c c') d → ∀ c : Cfg T Sp, RowCfg off n m0 c d →
      Acc (fun c' c => Step P c c') c := by
    intro d hd
    induction hd with
    | intro d _ ih =>
      intro c hc
      refine ⟨_, fun c' hstep => ?_⟩
      obtain ⟨d', h3, h4⟩ := Rows.step hP ha hstep hc
      exact ih d' (Relation.transGen_swap.1 h3) c' h4
  exact key d hd.transGen c hc

theorem forall₂_append_right {A B : Type} {r : A → B → Prop} {l₁ l₂ : List B} {u : List A} (h : List.Forall₂ r u (l₁ ++ l₂)) :
    ∃ m₁ m₂, List.Forall₂ r m₁ l₁ ∧ List.Forall₂ r m₂ l₂ ∧ u = m₁ ++ m₂ := by
  obtain ⟨m₁, m₂, h1, h2, h3⟩ := forall₂_append_left h.flip
  exact ⟨m₁, m₂, h1.flip, h2.flip, h3⟩

/-- if the rows can go on, so can the slices -/
theorem RowCfg.progress (hP : RowPar off n P P') {c : Cfg T Sp} {d d' : Cfg (Fin (K + 1) → T) Sp} (hs : RowCfg off n m0 c d)
    (h : Step P' d d') : ∃ c', Step P c c' := by
  obtain ⟨S, cths⟩ := c
  obtain ⟨hm, hg, hy, hf⟩ := hs
  cases h with
  | tau l₁ l₂ sh q sh' q' new h =>
    simp only at hm hg hy hf
    obtain ⟨m₁, r, f1, f2, rfl⟩ := forall₂_append_right hf
    obtain ⟨p, m₂, f3, f4, rfl⟩ := List.forall₂_cons_right_iff.1 f2
    suffices hh : ∃ S' p' new', TStep P S p S' p' new' by
      obtain ⟨S', p', new', h1⟩ := hh
      exact ⟨_, .tau m₁ m₂ S p S' p' new' h1⟩
    cases f3 with
    | ret => cases h
    | read i j k k' hi _ => exact ⟨_, _, _, .read _ _ _⟩
    | write i j v k k' hi _ => exact ⟨_, _, _, .write _ _ _ _⟩
    | less i j x y k k' _ => cases h with | less _ _ _ _ _ b hb => exact ⟨_, _, _, .less _ _ _ _ _ _ b ((hP.cmp _ _ _ _ _).2 hb)⟩
    | maxGor k k' _ => exact ⟨_, _, _, .maxGor _ _ 0 (Nat.zero_le _)⟩
    | loadGor k k' _ =>
      cases e : S.sync with
      | true => exact ⟨_, _, _, .loadGor _ _ _ e (.inr rfl)⟩
      | false => exact ⟨_, _, _, .loadNil _ _ e⟩
    | incGor k k' _ =>
      cases e : S.sync with
      | true => exact ⟨_, _, _, .incGor _ _ e⟩
      | false => exact ⟨_, _, _, .incNil _ _ e⟩
    | decGor k k' _ =>
      cases e : S.sync with
      | true => exact ⟨_, _, _, .decGor _ _ e⟩
      | false => exact ⟨_, _, _, .decNil _ _ e⟩
    | mkSync k k' _ => exact ⟨_, _, _, .mkSync _ _⟩
    | go s k k' _ => exact ⟨_, _, _, .go _ _ _⟩
    | send => cases h
    | recv => cases h
    | panic => cases h
    | overflow => cases h
    | diverge => cases h
  | commSR l₁ l₂ l₃ sh v k k' h =>
    simp only [List.append_assoc, List.cons_append] at hm hg hy hf
    obtain ⟨m₁, r, f1, f2, rfl⟩ := forall₂_append_right hf
    obtain ⟨q, r, f3, f4, rfl⟩ := List.forall₂_cons_right_iff.1 f2
    obtain ⟨m₂, r', f5, f6, rfl⟩ := forall₂_append_right f4
    obtain ⟨q', m₃, f7, f8, rfl⟩ := List.forall₂_cons_right_iff.1 f6
    cases f3 with
    | send _ j _ _ =>
      cases f7 with
      | recv j' _ _ =>
        have := Step.commSR (P := P) m₁ m₂ m₃ S v j j' (hy.trans h)
        simp only [List.append_assoc, List.cons_append] at this
        exact ⟨_, this⟩
  | commRS l₁ l₂ l₃ sh v k k' h =>
    simp only [List.append_assoc, List.cons_append] at hm hg hy hf
    obtain ⟨m₁, r, f1, f2, rfl⟩ := forall₂_append_right hf
    obtain ⟨q, r, f3, f4, rfl⟩ := List.forall₂_cons_right_iff.1 f2
    obtain ⟨m₂, r', f5, f6, rfl⟩ := forall₂_append_right f4
    obtain ⟨q', m₃, f7, f8, rfl⟩ := List.forall₂_cons_right_iff.1 f6
    cases f7 with
    | send _ j _ _ =>
      cases f3 with
      | recv j' _ _ =>
        have := Step.commRS (P := P) m₁ m₂ m₃ S v j j' (hy.trans h)
        simp only [List.append_assoc, List.cons_append] at this
        exact ⟨_, this⟩

theorem RowCfg.get {c : Cfg T Sp} {d : Cfg (Fin (K + 1) → T) Sp} (hs : RowCfg off n m0 c d) {i : Nat} {p : Prog T Sp Unit}
    (h : c.ths[i]? = some p) : ∃ q, d.ths[i]? = some q ∧ Rows off n p q := by
  obtain ⟨h1, h2⟩ := List.getElem?_eq_some_iff.1 h
  have hl := hs.ths.length_eq
  exact ⟨d.ths[i], by simp [← hl, h1], by rw [← h2]; exact List.Forall₂.get hs.ths h1 (hl ▸ h1)⟩

theorem RowCfg.mem_ths {c : Cfg T Sp} {d : Cfg (Fin (K + 1) → T) Sp} (hs : RowCfg off n m0 c d) {p : Prog T Sp Unit}
    (h : p ∈ c.ths) : ∃ q ∈ d.ths, Rows off n p q := by
  obtain ⟨i, hi⟩ := List.mem_iff_getElem?.1 h
  obtain ⟨q, h1, h2⟩ := hs.get hi
  exact ⟨q, List.mem_of_getElem? h1, h2⟩

theorem RowCfg.returned {c : Cfg T Sp} {d : Cfg (Fin (K + 1) → T) Sp} (hs : RowCfg off n m0 c d) : Returned c ↔ Returned d := by
  have hf := hs.ths
  unfold Returned
  constructor
  · rintro ⟨l, h⟩
    rw [h] at hf
    obtain ⟨q, r, f1, f2, e⟩ := List.forall₂_cons_left_iff.1 hf
    cases f1; exact ⟨_, e⟩
  · rintro ⟨l, h⟩
    rw [h] at hf
    obtain ⟨q, r, f1, f2, e⟩ := List.forall₂_cons_right_iff.1 hf
    cases f1; exact ⟨_, e⟩

theorem RowCfg.wrong {c : Cfg T Sp} {d : Cfg (Fin (K + 1) → T) Sp} (hs : RowCfg off n m0 c d) (h : Wrong c) : Wrong d := by
  rcases h with h | h | h
  all_goals
    obtain ⟨q, h1, h2⟩ := hs.mem_ths h
    cases h2
  exacts [.inl h1, .inr (.inl h1), .inr (.inr h1)]

/-- accesses are accesses of the slices, and of the same row -/
theorem Rows.access {p : Prog T Sp Unit} {q : Prog (Fin (K + 1) → T) Sp Unit} (h : Rows off n p q) {a : Nat} {w : Bool}
    (hp : p.access = some (a, w)) : ∃ i j, i < n ∧ a = off j + i ∧ q.access = some (i, false) ∧
      (w = true → ∃ f, q = .read i f ∧ ∀ z, (f z).access = some (i, true)) := by
  cases h <;> simp only [Prog.access, Option.some.injEq, Prod.mk.injEq, reduceCtorEq] at hp
  · obtain ⟨rfl, rfl⟩ := hp
    exact ⟨_, _, ‹_›, rfl, rfl, by simp⟩
  · obtain ⟨rfl, rfl⟩ := hp
    exact ⟨_, _, ‹_›, rfl, rfl, fun _ => ⟨_, rfl, fun z => rfl⟩⟩

/-- a race on the slices is a race on the rows, at most one step later -/
theorem RowCfg.race (ha : Apart off n) {c : Cfg T Sp} {d : Cfg (Fin (K + 1) → T) Sp} (hs : RowCfg off n m0 c d) (h : Race c) :
    ∃ d', Step P' d d' ∧ Race d' := by
  obtain ⟨a, b, p, q, x, w, w', hab, hp, hq, ap, aq, hw⟩ := h
  obtain ⟨p', hp', rp⟩ := hs.get hp
  obtain ⟨q', hq', rq⟩ := hs.get hq
  obtain ⟨i, j, hi, e, a1, a2⟩ := rp.access ap
  obtain ⟨i', j', hi', e', b1, b2⟩ := rq.access aq
  obtain ⟨rfl, rfl⟩ := ha _ hi _ hi' _ _ (e.symm.trans e')
  have key : ∀ {a b : Nat} {p' q' : Prog (Fin (K + 1) → T) Sp Unit}, a ≠ b → d.ths[a]? = some p' → d.ths[b]? = some q' →
      q'.access = some (i, false) → (∃ f, p' = .read i f ∧ ∀ z, (f z).access = some (i, true)) → ∃ d', Step P' d d' ∧ Race d' := by
    rintro a b p' q' hab hp hq hacc ⟨f, rfl, hf⟩
    obtain ⟨S, ths⟩ := d
    simp only at hp hq
    obtain ⟨h1, h2⟩ := List.getElem?_eq_some_iff.1 hp
    have e1 : ths = ths.take a ++ Prog.read i f :: ths.drop (a + 1) := by
      rw [← h2, ← List.drop_eq_getElem_cons h1, List.take_append_drop]
    refine ⟨⟨S, ths.set a (f (S.mem i))⟩, ?_, a, b, f (S.mem i), q', i, true, false, hab, ?_, ?_, hf _, hacc, .inl rfl⟩
    · have := Step.tau (P := P') (ths.take a) (ths.drop (a + 1)) S _ S _ [] (.read S i f)
      rw [← e1, List.append_nil] at this
      rw [List.set_eq_take_append_cons_drop, if_pos h1]
      exact this
    · simp [h1]
    · simp only [List.getElem?_set_ne hab]; exact hq
  rcases hw with rfl | rfl
  · exact key hab hp' hq' b1 (a2 rfl)
  · exact key hab.symm hq' hp' a1 (b2 rfl)

end Sorty
