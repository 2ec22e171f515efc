import Verif.Logic.Swaps

/-! # Programs that take at most one element out of memory at a time

A goroutine of the type-specific sorts moves elements in two ways: by swaps, and (insertion sort) by keeping one element
in a local variable while others are shifted by one place. In both cases there is at any time at most one *hole*: an address
whose element is not in memory but in a local variable of the goroutine. -/

namespace Sorty

open Prog

variable {V Sp α β : Type}

/-- Run alone on memory `m` and with the hole `H` (address and element), the program stores only elements it finds elsewhere in `F`,
filling its hole and thereby moving it, or the held element, closing the hole. At steps that involve other goroutines there is no
hole, and the program is ready for any memory. It starts goroutines in `G` only and ends as in `Q`. -/
def Prog.Hw (F : Set Nat) (G : Sp → Prop) (Q : α → Mem V → Option (Nat × V) → Prop) : Prog V Sp α → Mem V → Option (Nat × V) → Prop
  | .ret a, m, H => Q a m H
  | .read i k, m, H => (k (m i)).Hw F G Q m H
  | .write a x k, m, none => m a = x ∧ k.Hw F G Q m none ∨
      ∃ b, a ∈ F ∧ b ∈ F ∧ b ≠ a ∧ m b = x ∧ k.Hw F G Q (Function.update m a x) (some (b, m a))
  | .write a x k, m, some (c, y) => a = c ∧ (x = y ∧ k.Hw F G Q (Function.update m a x) none ∨
      ∃ b, b ∈ F ∧ b ≠ a ∧ m b = x ∧ k.Hw F G Q (Function.update m a x) (some (b, y)))
  | .less _ _ _ _ k, _, H => H = none ∧ ∀ m b, (k b).Hw F G Q m none
  | .maxGor k, _, H => H = none ∧ ∀ m n, (k n).Hw F G Q m none
  | .loadGor k, _, H => H = none ∧ ∀ m n, (k n).Hw F G Q m none
  | .incGor k, _, H => H = none ∧ ∀ m n, (k n).Hw F G Q m none
  | .decGor k, _, H => H = none ∧ ∀ m n, (k n).Hw F G Q m none
  | .mkSync k, _, H => H = none ∧ ∀ m, k.Hw F G Q m none
  | .go s k, _, H => H = none ∧ G s ∧ ∀ m, k.Hw F G Q m none
  | .send _ k, _, H => H = none ∧ ∀ m, k.Hw F G Q m none
  | .recv k, _, H => H = none ∧ ∀ m n, (k n).Hw F G Q m none
  | .panic, _, H => H = none
  | .overflow, _, H => H = none
  | .diverge, _, H => H = none

theorem Prog.Hw.bind {F : Set Nat} {G : Sp → Prop} {Q : α → Mem V → Option (Nat × V) → Prop}
    {R : β → Mem V → Option (Nat × V) → Prop} {f : α → Prog V Sp β} (hf : ∀ a m H, Q a m H → (f a).Hw F G R m H) : ∀ (p : Prog V Sp α) (m : Mem V) (H : Option (Nat × V)), p.Hw F G Q m H → (p.bind f).Hw F G R m H
  | .ret a, m, H => fun h => hf a m H h
  | .read i k, m, H => fun h => Prog.Hw.bind hf (k (m i)) m H h
  | .write a x k, m, none => by
    rintro (⟨h, h1⟩ | ⟨b, h1, h2, h3, h4, h5⟩)
    · exact .inl ⟨h, Prog.Hw.bind hf k _ _ h1⟩
    · exact .inr ⟨b, h1, h2, h3, h4, Prog.Hw.bind hf k _ _ h5⟩
  | .write a x k, m, some (c, y) => by
    rintro ⟨h, ⟨h1, h2⟩ | ⟨b, h1, h2, h3, h4⟩⟩
    · exact ⟨h, .inl ⟨h1, Prog.Hw.bind hf k _ _ h2⟩⟩
    · exact ⟨h, .inr ⟨b, h1, h2, h3, Prog.Hw.bind hf k _ _ h4⟩⟩
  | .less _ _ _ _ k, _, H => fun h => ⟨h.1, fun m b => Prog.Hw.bind hf (k b) _ _ (h.2 m b)⟩
  | .maxGor k, _, H => fun h => ⟨h.1, fun m b => Prog.Hw.bind hf (k b) _ _ (h.2 m b)⟩
  | .loadGor k, _, H => fun h => ⟨h.1, fun m b => Prog.Hw.bind hf (k b) _ _ (h.2 m b)⟩
  | .incGor k, _, H => fun h => ⟨h.1, fun m b => Prog.Hw.bind hf (k b) _ _ (h.2 m b)⟩
  | .decGor k, _, H => fun h => ⟨h.1, fun m b => Prog.Hw.bind hf (k b) _ _ (h.2 m b)⟩
  | .mkSync k, _, H => fun h => ⟨h.1, fun m => Prog.Hw.bind hf k _ _ (h.2 m)⟩
  | .go _ k, _, H => fun h => ⟨h.1, h.2.1, fun m => Prog.Hw.bind hf k _ _ (h.2.2 m)⟩
  | .send _ k, _, H => fun h => ⟨h.1, fun m => Prog.Hw.bind hf k _ _ (h.2 m)⟩
  | .recv k, _, H => fun h => ⟨h.1, fun m b => Prog.Hw.bind hf (k b) _ _ (h.2 m b)⟩
  | .panic, _, H => fun h => h
  | .overflow, _, H => fun h => h
  | .diverge, _, H => fun h => h

/-- the program, starting without a hole on any memory, moves elements properly and ends as in `R` -/
def Prog.Cl (F : Set Nat) (G : Sp → Prop) (R : α → Prop) (p : Prog V Sp α) : Prop := ∀ m, p.Hw F G (fun a _ H => H = none ∧ R a) m none

theorem Prog.Cl.bind {F : Set Nat} {G : Sp → Prop} {R : α → Prop} {R' : β → Prop} {p : Prog V Sp α} {f : α → Prog V Sp β}
    (h : p.Cl F G R) (hf : ∀ a, R a → (f a).Cl F G R') : (p.bind f).Cl F G R' :=
  fun m => Prog.Hw.bind (fun a m _ ha => ha.1 ▸ hf a ha.2 m) p m none (h m)

theorem Prog.Cl.loop {F : Set Nat} {G : Sp → Prop} {R : α → Prop} {σ : Type} {body : σ → Prog V Sp (Ctl σ α)} (I : σ → Prop)
    (h : ∀ s, I s → (body s).Cl F G fun c => match c with | .again s' => I s' | .brk a => R a) :
    ∀ n s, I s → (Prog.loop n body s : Prog V Sp α).Cl F G R
  | 0, _, _ => fun _ => rfl
  | n + 1, s, hs => by
    unfold Prog.loop
    refine (h s hs).bind fun c hc => ?_
    cases c with
    | again s' => exact Prog.Cl.loop I h n s' hc
    | brk a => exact fun _ => ⟨rfl, hc⟩

/-- a goroutine's proper state -/
abbrev Tidy (F : Set Nat) (G : Sp → Prop) (p : Prog V Sp Unit) (m : Mem V) (H : Option (Nat × V)) : Prop := p.Hw F G (fun _ _ H => H = none ∧ True) m H

/-- a goroutine with a hole comes to fill it, only reading before -/
theorem Tidy.soon {P : Par V Sp} {F : Set Nat} {G : Sp → Prop} {sh : Sh V} {b : Nat} {y : V} :
    ∀ (q : Prog V Sp Unit), Tidy F G q sh.mem (some (b, y)) → ∃ q', Runs P sh q sh q' ∧ q'.access = some (b, true)
  | .read i k, h => by
    obtain ⟨q', h1, h2⟩ := Tidy.soon (k (sh.mem i)) h
    exact ⟨q', .head (.read _ _ _) h1, h2⟩
  | .write a x k, h => ⟨_, .refl _ _, by rw [← h.1]; rfl⟩
  | .ret a, h => absurd h.1 (by simp)
  | .less _ _ _ _ k, h => absurd h.1 (by simp)
  | .maxGor k, h => absurd h.1 (by simp)
  | .loadGor k, h => absurd h.1 (by simp)
  | .incGor k, h => absurd h.1 (by simp)
  | .decGor k, h => absurd h.1 (by simp)
  | .mkSync k, h => absurd h.1 (by simp)
  | .go _ k, h => absurd h.1 (by simp)
  | .send _ k, h => absurd h.1 (by simp)
  | .recv k, h => absurd h.1 (by simp)
  | .panic, h => by cases h
  | .overflow, h => by cases h
  | .diverge, h => by cases h

theorem Tidy.access {F : Set Nat} {G : Sp → Prop} {m : Mem V} {b : Nat} {y : V} {q : Prog V Sp Unit} (h : Tidy F G q m (some (b, y))) :
    q.access.isSome := by
  cases q <;> first | rfl | exact absurd h.1 (by simp) | cases h

/-- stores to addresses the goroutine is not about to access do not disturb it -/
theorem Tidy.store {P : Par V Sp} {F : Set Nat} {G : Sp → Prop} {e : Nat} {v : V} :
    ∀ (q : Prog V Sp Unit) (sh : Sh V) (H : Option (Nat × V)), Tidy F G q sh.mem H →
      (∀ sh' q' w, Runs P sh q sh' q' → q'.access ≠ some (e, w)) → Tidy F G q (Function.update sh.mem e v) H
  | .ret a, sh, H => fun h _ => h
  | .read i k, sh, H => fun h hr => by
    have hi : i ≠ e := by
      rintro rfl
      exact hr _ _ _ (.refl _ _) rfl
    show Tidy F G (k (Function.update sh.mem e v i)) _ H
    rw [Function.update_of_ne hi]
    exact Tidy.store (P := P) (k (sh.mem i)) sh H h fun sh' q' w h1 => hr sh' q' w (.head (.read _ _ _) h1)
  | .write a x k, sh, none => fun h hr => by
    have ha : a ≠ e := by
      rintro rfl
      exact hr _ _ _ (.refl _ _) rfl
    have hs := fun sh' q' w h1 => hr sh' q' w (.head (.write sh a x k) h1)
    rcases h with ⟨h, h1⟩ | ⟨b, h1, h2, h3, h4, h5⟩
    · refine .inl ⟨by rw [Function.update_of_ne ha, h], ?_⟩
      have e1 : Function.update sh.mem a x = sh.mem := by rw [← h, Function.update_eq_self]
      refine Tidy.store (P := P) k sh none h1 fun sh' q' w h2 => hs sh' q' w ?_
      rwa [e1]
    · have hb : b ≠ e := by
        rintro rfl
        obtain ⟨q', g1, g2⟩ := Tidy.soon (P := P) (sh := { sh with mem := Function.update sh.mem a x }) k h5
        exact hs _ _ _ g1 g2
      refine .inr ⟨b, h1, h2, h3, by rw [Function.update_of_ne hb, h4], ?_⟩
      rw [Function.update_of_ne ha, Function.update_comm (Ne.symm ha)]
      exact Tidy.store (P := P) k { sh with mem := Function.update sh.mem a x } _ h5 hs
  | .write a x k, sh, some (c, y) => fun h hr => by
    have ha : a ≠ e := by
      rintro rfl
      exact hr _ _ _ (.refl _ _) rfl
    have hs := fun sh' q' w h1 => hr sh' q' w (.head (.write sh a x k) h1)
    refine ⟨h.1, ?_⟩
    rw [Function.update_comm (Ne.symm ha)]
    rcases h.2 with ⟨h1, h2⟩ | ⟨b, h1, h2, h3, h4⟩
    · exact .inl ⟨h1, Tidy.store (P := P) k { sh with mem := Function.update sh.mem a x } _ h2 hs⟩
    · have hb : b ≠ e := by
        rintro rfl
        obtain ⟨q', g1, g2⟩ := Tidy.soon (P := P) (sh := { sh with mem := Function.update sh.mem a x }) k h4
        exact hs _ _ _ g1 g2
      exact .inr ⟨b, h1, h2, by rw [Function.update_of_ne hb, h3], Tidy.store (P := P) k { sh with mem := Function.update sh.mem a x } _ h4 hs⟩
  | .less _ _ _ _ k, sh, H => fun h _ => h
  | .maxGor k, sh, H => fun h _ => h
  | .loadGor k, sh, H => fun h _ => h
  | .incGor k, sh, H => fun h _ => h
  | .decGor k, sh, H => fun h _ => h
  | .mkSync k, sh, H => fun h _ => h
  | .go _ k, sh, H => fun h _ => h
  | .send _ k, sh, H => fun h _ => h
  | .recv k, sh, H => fun h _ => h
  | .panic, sh, H => fun h _ => h
  | .overflow, sh, H => fun h _ => h
  | .diverge, sh, H => fun h _ => h

/-- `μ` is the memory with all holes filled, an arrangement of `m0`; `Hs i` is the hole of goroutine `i` -/
structure Holes (F : Set Nat) (G : Sp → Prop) (m0 : Mem V) (c : Cfg V Sp) (μ : Mem V) (Hs : Nat → Option (Nat × V)) : Prop where
  rp : RP F m0 μ
  tidy : ∀ (i : Nat) p, c.ths[i]? = some p → Tidy F G p c.sh.mem (Hs i)
  dom : ∀ (i b : Nat) y, Hs i = some (b, y) → i < c.ths.length ∧ b ∈ F ∧ μ b = y
  rest : ∀ a, (∀ (i : Nat) y, Hs i ≠ some (a, y)) → μ a = c.sh.mem a
  src : ∀ a, ∃ b, c.sh.mem a = m0 b ∧ (a ∈ F → b ∈ F)

theorem Holes.quiet {F : Set Nat} {G : Sp → Prop} {m0 : Mem V} {c c' : Cfg V Sp} {μ : Mem V} {Hs : Nat → Option (Nat × V)}
    (h : Holes F G m0 c μ Hs) (hm : c'.sh.mem = c.sh.mem) (hl : c.ths.length ≤ c'.ths.length)
    (h1 : ∀ (i : Nat) q, c'.ths[i]? = some q → c.ths[i]? = some q ∨ Tidy F G q c.sh.mem (Hs i)) : Holes F G m0 c' μ Hs where
  rp := h.rp
  tidy := fun i p hp => by
    rw [hm]
    rcases h1 i p hp with h3 | h3
    · exact h.tidy i p h3
    · exact h3
  dom := fun i b y hb => ⟨(h.dom i b y hb).1.trans_le hl, (h.dom i b y hb).2⟩
  rest := fun a ha => by rw [hm]; exact h.rest a ha
  src := fun a => by rw [hm]; exact h.src a

theorem Holes.step {P : Par V Sp} {F : Set Nat} {G : Sp → Prop} {m0 : Mem V} {c0 c c' : Cfg V Sp} {μ : Mem V} {Hs : Nat → Option (Nat × V)}
    (HR : ∀ c, Steps P c0 c → ¬ Race c) (hB : ∀ s, G s → (P.body s).Cl F G fun _ => True) (hc : Steps P c0 c) (h : Holes F G m0 c μ Hs)
    (hs : Step P c c') : ∃ μ' Hs', Holes F G m0 c' μ' Hs' := by
  cases hs with
  | commSR l₁ l₂ l₃ sh v k k' hsync =>
    refine ⟨μ, Hs, ?_⟩
    have c1 := h.tidy l₁.length (.send v k) (by simp)
    have c2 := h.tidy (l₁ ++ .send v k :: l₂).length (.recv k') (by rw [List.getElem?_append_right (le_refl _)]; simp)
    have q1 : Holes F G m0 ⟨sh, l₁ ++ k :: (l₂ ++ .recv k' :: l₃) ++ []⟩ μ Hs := by
      refine h.quiet rfl (by simp) fun i q hq => ?_
      rcases look (p := .send v k) hq with ⟨rfl, rfl⟩ | ⟨_, h1⟩ | h1
      · rw [c1.1]
        exact .inr (c1.2 _)
      · exact .inl (by simpa using h1)
      · simp at h1
    have q2 : Holes F G m0 ⟨sh, (l₁ ++ k :: l₂) ++ k' v :: l₃ ++ []⟩ μ Hs := by
      refine q1.quiet rfl (by simp) fun i q hq => ?_
      rcases look (p := .recv k') hq with ⟨h2, rfl⟩ | ⟨_, h1⟩ | h1
      · have e : i = (l₁ ++ .send v k :: l₂).length := by simpa using h2
        rw [e, c2.1]
        exact .inr (c2.2 _ _)
      · exact .inl (by simpa using h1)
      · simp at h1
    simpa using q2
  | commRS l₁ l₂ l₃ sh v k k' hsync =>
    refine ⟨μ, Hs, ?_⟩
    have c2 := h.tidy l₁.length (.recv k') (by simp)
    have c1 := h.tidy (l₁ ++ .recv k' :: l₂).length (.send v k) (by rw [List.getElem?_append_right (le_refl _)]; simp)
    have q1 : Holes F G m0 ⟨sh, l₁ ++ k' v :: (l₂ ++ .send v k :: l₃) ++ []⟩ μ Hs := by
      refine h.quiet rfl (by simp) fun i q hq => ?_
      rcases look (p := .recv k') hq with ⟨rfl, rfl⟩ | ⟨_, h1⟩ | h1
      · rw [c2.1]
        exact .inr (c2.2 _ _)
      · exact .inl (by simpa using h1)
      · simp at h1
    have q2 : Holes F G m0 ⟨sh, (l₁ ++ k' v :: l₂) ++ k :: l₃ ++ []⟩ μ Hs := by
      refine q1.quiet rfl (by simp) fun i q hq => ?_
      rcases look (p := .send v k) hq with ⟨h2, rfl⟩ | ⟨_, h1⟩ | h1
      · have e : i = (l₁ ++ .recv k' :: l₂).length := by simpa using h2
        rw [e, c1.1]
        exact .inr (c1.2 _)
      · exact .inl (by simpa using h1)
      · simp at h1
    simpa using q2
  | tau l₁ l₂ sh p sh' p' new ht =>
    have ep : (l₁ ++ p :: l₂)[l₁.length]? = some p := by simp
    have hp := h.tidy _ _ ep
    -- steps that store nothing
    have still : sh'.mem = sh.mem → Tidy F G p' sh.mem (Hs l₁.length) → (∀ q ∈ new, ∃ s, G s ∧ q = P.body s) →
        Holes F G m0 ⟨sh', l₁ ++ p' :: l₂ ++ new⟩ μ Hs := by
      intro g1 g2 g3
      refine h.quiet g1 (by simp) fun i q hq => ?_
      rcases look (p := p) hq with ⟨rfl, rfl⟩ | ⟨_, h1⟩ | h1
      · exact .inr g2
      · exact .inl h1
      · obtain ⟨s, hs, rfl⟩ := g3 q h1
        cases hh : Hs i with
        | none => exact .inr (hB s hs _)
        | some bv =>
          have hl := (h.dom i bv.1 bv.2 hh).1
          rw [List.getElem?_append_left (by simpa using hl)] at hq
          rcases look (p := p) (new := []) (by rwa [List.append_nil]) with ⟨rfl, e1⟩ | ⟨_, h4⟩ | h4
          · rw [e1, ← hh]
            exact .inr g2
          · exact .inl h4
          · simp at h4
    cases ht with
    | read i k => exact ⟨μ, Hs, still rfl hp (by simp)⟩
    | write e v =>
      have hP := fun {i : Nat} {q : Prog V Sp Unit} (hi : i ≠ l₁.length) (hq : (l₁ ++ .write e v p' :: l₂)[i]? = some q) {q' : Prog V Sp Unit}
        {sh' : Sh V} {w : Bool} (hr : Runs P sh q sh' q') => no_soon (c := ⟨sh, _⟩) (w := w) HR hc hi ep rfl hq hr
      have st : ∀ i q, i ≠ l₁.length → (l₁ ++ .write e v p' :: l₂)[i]? = some q → Tidy F G q (Function.update sh.mem e v) (Hs i) :=
        fun i q hi hq => Tidy.store (P := P) q sh (Hs i) (h.tidy i q hq) fun sh' q' w hr he => hP hi hq hr he
      have ne : ∀ i y, i ≠ l₁.length → Hs i ≠ some (e, y) := by
        intro i y hi hh
        have hq := List.getElem?_eq_getElem (h.dom i e y hh).1
        obtain ⟨q', h1, h2⟩ := Tidy.soon (P := P) (sh := sh) _ (hh ▸ h.tidy i _ hq)
        exact hP hi hq h1 h2
      have nb : ∀ b z, Tidy F G p' (Function.update sh.mem e v) (some (b, z)) → ∀ i y, i ≠ l₁.length → Hs i ≠ some (b, y) := by
        intro b z hb i y hi hh
        have hq := List.getElem?_eq_getElem (h.dom i b y hh).1
        obtain ⟨q', h1, h2⟩ := Tidy.soon (P := P) (sh := sh) _ (hh ▸ h.tidy i _ hq)
        obtain ⟨q2, h3, h4⟩ := Tidy.soon (P := P) (sh := { sh with mem := Function.update sh.mem e v }) _ hb
        have hl := (h.dom i b y hh).1
        refine no_soon (c := ⟨sh, (l₁ ++ .write e v p' :: l₂).set i q'⟩) HR (runs_at h1 hc hq) (Ne.symm hi) (p := q') ?_ h2 (q := .write e v p') ?_
          (.head (.write _ _ _ _) h3) h4
        · rw [List.getElem?_set_self hl]
        · rw [List.getElem?_set_ne hi]
          exact ep
      -- the goroutine's hole is closed
      have shut : ∀ (H : Option (Nat × V)) μ', RP F m0 μ' → Tidy F G p' (Function.update sh.mem e v) H →
          (∀ b y, H = some (b, y) → b ∈ F ∧ μ' b = y) → (∀ i b y, i ≠ l₁.length → Hs i = some (b, y) → μ' b = y) →
          (∀ a, (∀ y, H ≠ some (a, y)) → (∀ i y, i ≠ l₁.length → Hs i ≠ some (a, y)) → μ' a = Function.update sh.mem e v a) →
          (∃ b, v = m0 b ∧ (e ∈ F → b ∈ F)) →
          ∃ μ' Hs', Holes F G m0 ⟨{ sh with mem := Function.update sh.mem e v }, l₁ ++ p' :: l₂ ++ []⟩ μ' Hs' := by
        intro H μ' g1 g2 g3 g4 g5 g6
        refine ⟨μ', Function.update Hs l₁.length H, g1, fun i q hq => ?_, fun i b y hb => ?_, fun a ha => ?_, fun a => ?_⟩
        · rcases look (p := .write e v p') hq with ⟨rfl, rfl⟩ | ⟨hi, h1⟩ | h1
          · rw [Function.update_self]
            exact g2
          · rw [Function.update_of_ne hi]
            exact st i q hi h1
          · simp at h1
        · by_cases hi : i = l₁.length
          · subst hi
            rw [Function.update_self] at hb
            exact ⟨by simp, g3 b y hb⟩
          · rw [Function.update_of_ne hi] at hb
            have := h.dom i b y hb
            exact ⟨by simpa using this.1, this.2.1, g4 i b y hi hb⟩
        · refine g5 a (fun y => ?_) fun i y hi => ?_
          · simpa using ha l₁.length y
          · simpa [hi] using ha i y
        · by_cases ha : a = e
          · subst ha
            simpa using g6
          · simpa [ha] using h.src a
      have get : ∀ b, (∀ i y, i ≠ l₁.length → Hs i ≠ some (b, y)) → (∀ y, Hs l₁.length ≠ some (b, y)) → μ b = sh.mem b := fun b h1 h2 =>
        h.rest b fun i y => by
          by_cases hi : i = l₁.length
          · subst hi
            exact h2 y
          · exact h1 i y hi
      -- the goroutine's hole is moved or made
      have move : ∀ b y, μ e = y → e ∈ F → b ∈ F → b ≠ e → sh.mem b = v → (∀ y, Hs l₁.length ≠ some (b, y)) → (∀ a y, Hs l₁.length = some (a, y) → a = e) →
          Tidy F G p' (Function.update sh.mem e v) (some (b, y)) →
          ∃ μ' Hs', Holes F G m0 ⟨{ sh with mem := Function.update sh.mem e v }, l₁ ++ p' :: l₂ ++ []⟩ μ' Hs' := by
        intro b y he heF hbF hbe hv hb1 he1 hk
        have hb := nb b y hk
        have eb : μ b = v := by rw [get b hb hb1, hv]
        refine shut (some (b, y)) (Function.update (Function.update μ e v) b y) (h.rp.trans ?_) hk ?_ ?_ ?_ ?_
        · have := RP.swap (m := μ) heF hbF
          rwa [he, eb] at this
        · rintro b' y' ⟨⟩
          exact ⟨hbF, by simp⟩
        · intro i b' y' hi hh
          have n1 : b' ≠ e := by rintro rfl; exact ne i y' hi hh
          have n2 : b' ≠ b := by rintro rfl; exact hb i y' hi hh
          rw [Function.update_of_ne n2, Function.update_of_ne n1]
          exact (h.dom i b' y' hh).2.2
        · intro a ha1 ha2
          have hab : a ≠ b := by rintro rfl; exact ha1 y rfl
          rw [Function.update_of_ne hab]
          by_cases hae : a = e
          · subst hae
            simp
          · rw [Function.update_of_ne hae, Function.update_of_ne hae]
            exact get a ha2 fun y hh => hae (he1 a y hh)
        · obtain ⟨d, hd1, hd2⟩ := h.src b
          exact ⟨d, by rw [← hv]; exact hd1, fun _ => hd2 hbF⟩
      rcases hH : Hs l₁.length with _ | ⟨d, y⟩
      · rw [hH] at hp
        rcases hp with ⟨h1, h2⟩ | ⟨b, h1, h2, h3, h4, h5⟩
        · have e1 : Function.update sh.mem e v = sh.mem := by
            have h1 : sh.mem e = v := h1
            rw [← h1, Function.update_eq_self]
          refine shut none μ h.rp (by rw [e1]; exact h2) (by simp) (fun i b y _ hh => (h.dom i b y hh).2.2) (fun a _ ha => ?_) ?_
          · rw [e1]
            exact get a ha (by simp [hH])
          · obtain ⟨d, hd⟩ := h.src e
            exact ⟨d, by rw [← h1]; exact hd.1, hd.2⟩
        · exact move b _ (get e ne (by simp [hH])) h1 h2 h3 h4 (by simp [hH]) (by simp [hH]) h5
      · rw [hH] at hp
        obtain ⟨rfl, hp⟩ := hp
        have hd := h.dom _ _ _ hH
        rcases hp with ⟨rfl, h2⟩ | ⟨b, h2, h3, h4, h5⟩
        · refine shut none μ h.rp h2 (by simp) (fun i b y _ hh => (h.dom i b y hh).2.2) (fun a _ ha => ?_) ?_
          · by_cases hae : a = e
            · subst hae
              rw [Function.update_self]
              exact hd.2.2
            · rw [Function.update_of_ne hae]
              exact get a ha (by rw [hH]; rintro y ⟨⟩; exact hae rfl)
          · obtain ⟨σ, s1, s2⟩ := h.rp
            exact ⟨σ e, by rw [← s2, hd.2.2], perm_mem s1⟩
        · exact move b y hd.2.2 hd.2.1 h2 h3 h4 (by rw [hH]; rintro y ⟨⟩; exact h3 rfl) (by rw [hH]; rintro a y ⟨⟩; rfl) h5
    | less i j x y k b hb => exact ⟨μ, Hs, still rfl (hp.1 ▸ hp.2 _ _) (by simp)⟩
    | maxGor k n => exact ⟨μ, Hs, still rfl (hp.1 ▸ hp.2 _ _) (by simp)⟩
    | loadGor k n => exact ⟨μ, Hs, still rfl (hp.1 ▸ hp.2 _ _) (by simp)⟩
    | incGor k => exact ⟨μ, Hs, still rfl (hp.1 ▸ hp.2 _ _) (by simp)⟩
    | decGor k => exact ⟨μ, Hs, still rfl (hp.1 ▸ hp.2 _ _) (by simp)⟩
    | loadNil => exact ⟨μ, Hs, still rfl hp.1 (by simp)⟩
    | incNil => exact ⟨μ, Hs, still rfl hp.1 (by simp)⟩
    | decNil => exact ⟨μ, Hs, still rfl hp.1 (by simp)⟩
    | mkSync k => exact ⟨μ, Hs, still rfl (hp.1 ▸ hp.2 _) (by simp)⟩
    | go s k => exact ⟨μ, Hs, still rfl (hp.1 ▸ hp.2.2 _) (by simpa using ⟨s, hp.2.1, rfl⟩)⟩

/-- goroutines that move elements properly, without races: at any time, filling the holes leads to an arrangement of the start -/
theorem Holes.reach {P : Par V Sp} {F : Set Nat} {G : Sp → Prop} {p : Prog V Sp Unit} {m : Mem V} {c : Cfg V Sp} (HR : ∀ c, Reach P p m c → ¬ Race c)
    (hp : p.Cl F G fun _ => True) (hB : ∀ s, G s → (P.body s).Cl F G fun _ => True) (hc : Reach P p m c) : ∃ μ Hs, Holes F G m c μ Hs := by
  unfold Reach at hc HR
  generalize hs : start p m = c0 at hc HR
  induction hc with
  | refl =>
    subst hs
    refine ⟨m, fun _ => none, RP.refl _ _, fun i q hq => ?_, by simp, fun _ _ => rfl, fun a => ⟨a, rfl, fun h => h⟩⟩
    have : q = p := by
      cases i with
      | zero => simpa [start] using hq.symm
      | succ i => simp [start] at hq
    exact this ▸ hp _
  | tail h1 h2 ih =>
    obtain ⟨μ, Hs, ih⟩ := ih
    exact ih.step HR hB h1 h2

end Sorty
