import Verif.Logic.Swp

/-! # Programs that change memory by swaps only -/

namespace Sorty

open Prog

variable {V Sp α β : Type}

/-- all stores of the program are those of swaps within `F` -/
inductive Prog.SwapsIn (F : Set Nat) : Prog V Sp α → Prop
  | ret (a) : SwapsIn F (.ret a)
  | read (i k) : (∀ v, SwapsIn F (k v)) → SwapsIn F (.read i k)
  | swap (a b k) : a ∈ F → b ∈ F → a ≠ b → SwapsIn F k → SwapsIn F (.read b fun x => .read a fun y => .write a x (.write b y k))
  | less (i j x y k) : (∀ b, SwapsIn F (k b)) → SwapsIn F (.less i j x y k)
  | maxGor (k) : (∀ n, SwapsIn F (k n)) → SwapsIn F (.maxGor k)
  | loadGor (k) : (∀ n, SwapsIn F (k n)) → SwapsIn F (.loadGor k)
  | incGor (k) : (∀ n, SwapsIn F (k n)) → SwapsIn F (.incGor k)
  | decGor (k) : (∀ n, SwapsIn F (k n)) → SwapsIn F (.decGor k)
  | mkSync (k) : SwapsIn F k → SwapsIn F (.mkSync k)
  | go (s k) : SwapsIn F k → SwapsIn F (.go s k)
  | send (v k) : SwapsIn F k → SwapsIn F (.send v k)
  | recv (k) : (∀ v, SwapsIn F (k v)) → SwapsIn F (.recv k)
  | panic : SwapsIn F .panic
  | overflow : SwapsIn F .overflow
  | diverge : SwapsIn F .diverge

theorem Prog.SwapsIn.bind {F : Set Nat} {p : Prog V Sp α} {f : α → Prog V Sp β} (h : p.SwapsIn F) (hf : ∀ a, (f a).SwapsIn F) :
    (p.bind f).SwapsIn F := by
  induction h with
  | ret a => exact hf a
  | read i k _ ih => exact .read _ _ ih
  | swap a b k ha hb hab _ ih => exact .swap _ _ _ ha hb hab ih
  | less i j x y k _ ih => exact .less _ _ _ _ _ ih
  | maxGor k _ ih => exact .maxGor _ ih
  | loadGor k _ ih => exact .loadGor _ ih
  | incGor k _ ih => exact .incGor _ ih
  | decGor k _ ih => exact .decGor _ ih
  | mkSync k _ ih => exact .mkSync _ ih
  | go s k _ ih => exact .go _ _ ih
  | send v k _ ih => exact .send _ _ ih
  | recv k _ ih => exact .recv _ ih
  | panic => exact .panic
  | overflow => exact .overflow
  | diverge => exact .diverge

theorem Prog.SwapsIn.loop {F : Set Nat} {σ : Type} {body : σ → Prog V Sp (Ctl σ α)} (h : ∀ s, (body s).SwapsIn F) :
    ∀ n s, (Prog.loop n body s : Prog V Sp α).SwapsIn F
  | 0, _ => .diverge
  | n + 1, s => by
    unfold Prog.loop
    refine (h s).bind fun c => ?_
    cases c with
    | again s' => exact Prog.SwapsIn.loop h n s'
    | brk a => exact .ret a

/-- a goroutine between swaps, or in one -/
inductive Mid (F : Set Nat) (m : Mem V) : Prog V Sp Unit → Prop
  | clean {p} : p.SwapsIn F → Mid F m p
  | one {a b x k} : a ∈ F → b ∈ F → a ≠ b → k.SwapsIn F → m b = x → Mid F m (.read a fun y => .write a x (.write b y k))
  | two {a b x y k} : a ∈ F → b ∈ F → a ≠ b → k.SwapsIn F → m b = x → m a = y → Mid F m (.write a x (.write b y k))
  | three {b y k} : b ∈ F → k.SwapsIn F → Mid F m (.write b y k)

/-- a goroutine about to do the second store of a swap -/
def Pend (F : Set Nat) (p : Prog V Sp Unit) (b : Nat) (y : V) : Prop := ∃ k, p = .write b y k ∧ k.SwapsIn F

/-- `μ` is the memory after the swaps in progress, an arrangement of `m0` -/
structure Arr (F : Set Nat) (m0 : Mem V) (c : Cfg V Sp) (μ : Mem V) : Prop where
  rp : RP F m0 μ
  mid : ∀ (i : Nat) p, c.ths[i]? = some p → Mid F c.sh.mem p
  pend : ∀ (i : Nat) p b y, c.ths[i]? = some p → Pend F p b y → μ b = y
  rest : ∀ a, (∀ (i : Nat) p y, c.ths[i]? = some p → ¬ Pend F p a y) → μ a = c.sh.mem a

/-- a goroutine runs alone, starting nothing -/
inductive Runs (P : Par V Sp) : Sh V → Prog V Sp Unit → Sh V → Prog V Sp Unit → Prop
  | refl (sh p) : Runs P sh p sh p
  | head {sh p sh1 p1 sh2 p2} : TStep P sh p sh1 p1 [] → Runs P sh1 p1 sh2 p2 → Runs P sh p sh2 p2

theorem step_at {P : Par V Sp} {c : Cfg V Sp} {i : Nat} {q q' : Prog V Sp Unit} {sh' : Sh V} (h : c.ths[i]? = some q)
    (ht : TStep P c.sh q sh' q' []) : Step P c ⟨sh', c.ths.set i q'⟩ := by
  obtain ⟨hi, rfl⟩ := List.getElem?_eq_some_iff.1 h
  obtain ⟨sh, ths⟩ := c
  simp only at h ht hi ⊢
  have e := Step.tau (P := P) (ths.take i) (ths.drop (i + 1)) sh _ sh' q' [] ht
  have e1 : List.take i ths ++ ths[i] :: List.drop (i + 1) ths = ths := by simp
  have e2 : List.take i ths ++ q' :: List.drop (i + 1) ths = ths.set i q' := by
    rw [List.set_eq_take_append_cons_drop, if_pos hi]
  rwa [List.append_nil, e1, e2] at e

theorem runs_at {P : Par V Sp} {sh sh' : Sh V} {q q' : Prog V Sp Unit} (h : Runs P sh q sh' q') : ∀ {ths : List (Prog V Sp Unit)} {i : Nat}
    {c0 : Cfg V Sp}, Steps P c0 ⟨sh, ths⟩ → ths[i]? = some q → Steps P c0 ⟨sh', ths.set i q'⟩ := by
  induction h with
  | refl sh p =>
    intro ths i c0 h0 hi
    obtain ⟨hi, rfl⟩ := List.getElem?_eq_some_iff.1 hi
    rwa [List.set_getElem_self]
  | head ht _ ih =>
    intro ths i c0 h0 hi
    have hl := (List.getElem?_eq_some_iff.1 hi).1
    have := ih (h0.tail (step_at (c := ⟨_, ths⟩) hi ht)) (i := i) (by simp [hl])
    rwa [List.set_set] at this

/-- a goroutine about to store to `e` keeps the others from coming to access it on their own -/
theorem no_soon {P : Par V Sp} {c0 c : Cfg V Sp} (HR : ∀ c, Steps P c0 c → ¬ Race c) (hc : Steps P c0 c) {i j e : Nat} (hij : i ≠ j)
    {p q q' : Prog V Sp Unit} {sh' : Sh V} {w : Bool} (hp : c.ths[j]? = some p) (hw : p.access = some (e, true)) (hq : c.ths[i]? = some q)
    (hr : Runs P c.sh q sh' q') (he : q'.access = some (e, w)) : False := by
  have hl := (List.getElem?_eq_some_iff.1 hq).1
  refine HR _ (runs_at hr (ths := c.ths) hc hq) ⟨i, j, q', p, e, w, true, hij, ?_, ?_, he, hw, .inr rfl⟩
  · simp [hl]
  · simp only [List.getElem?_set_ne hij, hp]

theorem SwapsIn.not_pend {F : Set Nat} {p : Prog V Sp Unit} (h : p.SwapsIn F) (b : Nat) (y : V) : ¬ Pend F p b y := by
  rintro ⟨k, rfl, _⟩
  cases h

theorem two_not_pend {F : Set Nat} {a b : Nat} {x y : V} {k : Prog V Sp Unit} (b' : Nat) (y' : V) : ¬ Pend F (.write a x (.write b y k)) b' y' := by
  rintro ⟨k, h, hk⟩
  simp only [Prog.write.injEq] at h
  rw [← h.2.2] at hk
  cases hk

theorem Arr.quiet {F : Set Nat} {m0 : Mem V} {c c' : Cfg V Sp} {μ : Mem V} (h : Arr F m0 c μ) (hm : c'.sh.mem = c.sh.mem)
    (h1 : ∀ (i : Nat) q, c'.ths[i]? = some q → c.ths[i]? = some q ∨ Mid F c.sh.mem q ∧ ∀ b y, ¬ Pend F q b y)
    (h2 : ∀ (i : Nat) q, c.ths[i]? = some q → c'.ths[i]? = some q ∨ ∀ b y, ¬ Pend F q b y) : Arr F m0 c' μ where
  rp := h.rp
  mid := fun i p hp => by
    rw [hm]
    rcases h1 i p hp with h3 | h3
    · exact h.mid i p h3
    · exact h3.1
  pend := fun i p b y hp hb => by
    rcases h1 i p hp with h3 | h3
    · exact h.pend i p b y h3 hb
    · exact absurd hb (h3.2 b y)
  rest := fun a ha => by
    rw [hm]
    refine h.rest a fun i p y hp hb => ?_
    rcases h2 i p hp with h3 | h3
    · exact ha i p y h3 hb
    · exact h3 a y hb

theorem look {l₁ l₂ new : List α} {p p' q : α} {i : Nat} (h : (l₁ ++ p' :: l₂ ++ new)[i]? = some q) :
    i = l₁.length ∧ q = p' ∨ i ≠ l₁.length ∧ (l₁ ++ p :: l₂)[i]? = some q ∨ q ∈ new := by
  rcases Nat.lt_trichotomy i l₁.length with hi | hi | hi
  · refine .inr (.inl ⟨by omega, ?_⟩)
    rw [List.append_assoc, List.getElem?_append_left hi] at h
    rwa [List.getElem?_append_left hi]
  · subst hi
    simp at h
    exact .inl ⟨rfl, h.symm⟩
  · by_cases h2 : i < (l₁ ++ p' :: l₂).length
    · refine .inr (.inl ⟨by omega, ?_⟩)
      rw [List.getElem?_append_left h2, List.getElem?_append_right (by omega)] at h
      rw [List.getElem?_append_right (by omega)]
      obtain ⟨n, hn⟩ : ∃ n, i - l₁.length = n + 1 := ⟨i - l₁.length - 1, by omega⟩
      rw [hn] at h ⊢
      simpa using h
    · rw [List.getElem?_append_right (by omega)] at h
      exact .inr (.inr (List.mem_of_getElem? h))

theorem look' {l₁ l₂ new : List α} {p p' q : α} {i : Nat} (h : (l₁ ++ p :: l₂)[i]? = some q) :
    i = l₁.length ∧ q = p ∨ i ≠ l₁.length ∧ (l₁ ++ p' :: l₂ ++ new)[i]? = some q := by
  have hl := (List.getElem?_eq_some_iff.1 h).1
  have h' : (l₁ ++ p :: l₂ ++ [])[i]? = some q := by rwa [List.append_nil]
  rcases look (p := p') h' with h1 | ⟨h1, h2⟩ | h1
  · exact .inl h1
  · refine .inr ⟨h1, ?_⟩
    rw [List.getElem?_append_left (by simpa using hl)]
    exact h2
  · simp at h1

/-- a goroutine's next store does not disturb the others -/
theorem Mid.store {P : Par V Sp} {F : Set Nat} {c0 c : Cfg V Sp} (HR : ∀ c, Steps P c0 c → ¬ Race c) (hc : Steps P c0 c) {i j e : Nat} (hij : i ≠ j)
    {p q : Prog V Sp Unit} {v : V} (hp : c.ths[j]? = some p) (hw : p.access = some (e, true)) (hq : c.ths[i]? = some q) (h : Mid F c.sh.mem q) :
    Mid F (Function.update c.sh.mem e v) q := by
  have ns := fun {q' : Prog V Sp Unit} {sh' : Sh V} {w : Bool} => no_soon (q' := q') (sh' := sh') (w := w) HR hc hij hp hw hq
  cases h with
  | clean h => exact .clean h
  | @one a b x k ha hb hab hk hx =>
    refine .one ha hb hab hk ?_
    rw [Function.update_of_ne, hx]
    rintro rfl
    exact ns (.head (.read _ _ _) (.head (.write _ _ _ _) (.refl _ _))) rfl
  | @two a b x y k ha hb hab hk hx hy =>
    refine .two ha hb hab hk ?_ ?_
    · rw [Function.update_of_ne, hx]
      rintro rfl
      exact ns (.head (.write _ _ _ _) (.refl _ _)) rfl
    · rw [Function.update_of_ne, hy]
      rintro rfl
      exact ns (.refl _ _) rfl
  | three hb hk => exact .three hb hk

theorem Arr.step {P : Par V Sp} {F : Set Nat} {m0 : Mem V} {c0 c c' : Cfg V Sp} {μ : Mem V} (HR : ∀ c, Steps P c0 c → ¬ Race c)
    (hB : ∀ s, (P.body s).SwapsIn F) (hc : Steps P c0 c) (h : Arr F m0 c μ) (hs : Step P c c') : ∃ μ', Arr F m0 c' μ' := by
  cases hs with
  | commSR l₁ l₂ l₃ sh v k k' hsync =>
    refine ⟨μ, ?_⟩
    have e1 : (l₁ ++ .send v k :: l₂ ++ .recv k' :: l₃)[l₁.length]? = some (.send v k) := by simp
    have e2 : (l₁ ++ .send v k :: l₂ ++ .recv k' :: l₃)[(l₁ ++ .send v k :: l₂).length]? = some (.recv k') := by
      rw [List.getElem?_append_right (le_refl _)]; simp
    have c1 : k.SwapsIn F := by cases h.mid _ _ e1 with | clean h => cases h; assumption
    have c2 : (k' v).SwapsIn F := by cases h.mid _ _ e2 with | clean h => cases h with | recv _ h => exact h v
    have n1 : ∀ b y, ¬ Pend F (.send v k : Prog V Sp Unit) b y := by rintro b y ⟨_, h, _⟩; cases h
    have n2 : ∀ b y, ¬ Pend F (.recv k' : Prog V Sp Unit) b y := by rintro b y ⟨_, h, _⟩; cases h
    have q1 : Arr F m0 ⟨sh, l₁ ++ k :: (l₂ ++ .recv k' :: l₃) ++ []⟩ μ := by
      refine h.quiet rfl (fun i q hq => ?_) (fun i q hq => ?_)
      · rcases look (p := .send v k) hq with ⟨_, rfl⟩ | ⟨_, h1⟩ | h1
        · exact .inr ⟨.clean c1, SwapsIn.not_pend c1⟩
        · exact .inl (by simpa using h1)
        · simp at h1
      · have hq : (l₁ ++ .send v k :: (l₂ ++ .recv k' :: l₃))[i]? = some q := by simpa using hq
        rcases look' (p' := k) (new := []) hq with ⟨_, rfl⟩ | ⟨_, h1⟩
        · exact .inr n1
        · exact .inl h1
    have q2 : Arr F m0 ⟨sh, (l₁ ++ k :: l₂) ++ k' v :: l₃ ++ []⟩ μ := by
      refine q1.quiet rfl (fun i q hq => ?_) (fun i q hq => ?_)
      · rcases look (p := .recv k') hq with ⟨_, rfl⟩ | ⟨_, h1⟩ | h1
        · exact .inr ⟨.clean c2, SwapsIn.not_pend c2⟩
        · exact .inl (by simpa using h1)
        · simp at h1
      · have hq : ((l₁ ++ k :: l₂) ++ .recv k' :: l₃)[i]? = some q := by simpa using hq
        rcases look' (p' := k' v) (new := []) hq with ⟨_, rfl⟩ | ⟨_, h1⟩
        · exact .inr n2
        · exact .inl h1
    simpa using q2
  | commRS l₁ l₂ l₃ sh v k k' hsync =>
    refine ⟨μ, ?_⟩
    have e1 : (l₁ ++ .recv k' :: l₂ ++ .send v k :: l₃)[l₁.length]? = some (.recv k') := by simp
    have e2 : (l₁ ++ .recv k' :: l₂ ++ .send v k :: l₃)[(l₁ ++ .recv k' :: l₂).length]? = some (.send v k) := by
      rw [List.getElem?_append_right (le_refl _)]; simp
    have c1 : k.SwapsIn F := by cases h.mid _ _ e2 with | clean h => cases h; assumption
    have c2 : (k' v).SwapsIn F := by cases h.mid _ _ e1 with | clean h => cases h with | recv _ h => exact h v
    have n1 : ∀ b y, ¬ Pend F (.send v k : Prog V Sp Unit) b y := by rintro b y ⟨_, h, _⟩; cases h
    have n2 : ∀ b y, ¬ Pend F (.recv k' : Prog V Sp Unit) b y := by rintro b y ⟨_, h, _⟩; cases h
    have q1 : Arr F m0 ⟨sh, l₁ ++ k' v :: (l₂ ++ .send v k :: l₃) ++ []⟩ μ := by
      refine h.quiet rfl (fun i q hq => ?_) (fun i q hq => ?_)
      · rcases look (p := .recv k') hq with ⟨_, rfl⟩ | ⟨_, h1⟩ | h1
        · exact .inr ⟨.clean c2, SwapsIn.not_pend c2⟩
        · exact .inl (by simpa using h1)
        · simp at h1
      · have hq : (l₁ ++ .recv k' :: (l₂ ++ .send v k :: l₃))[i]? = some q := by simpa using hq
        rcases look' (p' := k' v) (new := []) hq with ⟨_, rfl⟩ | ⟨_, h1⟩
        · exact .inr n2
        · exact .inl h1
    have q2 : Arr F m0 ⟨sh, (l₁ ++ k' v :: l₂) ++ k :: l₃ ++ []⟩ μ := by
      refine q1.quiet rfl (fun i q hq => ?_) (fun i q hq => ?_)
      · rcases look (p := .send v k) hq with ⟨_, rfl⟩ | ⟨_, h1⟩ | h1
        · exact .inr ⟨.clean c1, SwapsIn.not_pend c1⟩
        · exact .inl (by simpa using h1)
        · simp at h1
      · have hq : ((l₁ ++ k' v :: l₂) ++ .send v k :: l₃)[i]? = some q := by simpa using hq
        rcases look' (p' := k) (new := []) hq with ⟨_, rfl⟩ | ⟨_, h1⟩
        · exact .inr n1
        · exact .inl h1
    simpa using q2
  | tau l₁ l₂ sh p sh' p' new ht =>
    have ep : (l₁ ++ p :: l₂)[l₁.length]? = some p := by simp
    have hmid := h.mid _ _ ep
    -- steps that store nothing
    have still : sh'.mem = sh.mem → (∀ b y, ¬ Pend F p b y) → (Mid F sh.mem p' ∧ ∀ b y, ¬ Pend F p' b y) →
        (∀ q ∈ new, ∃ s, q = P.body s) → Arr F m0 ⟨sh', l₁ ++ p' :: l₂ ++ new⟩ μ := by
      intro g1 g2 g3 g4
      refine h.quiet g1 (fun i q hq => ?_) (fun i q hq => ?_)
      · rcases look (p := p) hq with ⟨_, rfl⟩ | ⟨_, h1⟩ | h1
        · exact .inr g3
        · exact .inl h1
        · obtain ⟨s, rfl⟩ := g4 q h1
          exact .inr ⟨.clean (hB s), SwapsIn.not_pend (hB s)⟩
      · rcases look' (p' := p') (new := new) hq with ⟨_, rfl⟩ | ⟨_, h1⟩
        · exact .inr g2
        · exact .inl h1
    have np : ∀ b y, (∀ k, p ≠ .write b y k) → ¬ Pend F p b y := fun b y h1 ⟨k, h2, _⟩ => h1 k h2
    have cl : ∀ {q : Prog V Sp Unit}, q.SwapsIn F → Mid F sh.mem q ∧ ∀ b y, ¬ Pend F q b y := fun hq => ⟨.clean hq, SwapsIn.not_pend hq⟩
    cases ht with
    | read i k =>
      refine ⟨μ, still rfl (fun b y => np b y (by simp)) ?_ (by simp)⟩
      cases hmid with
      | clean h1 =>
        cases h1 with
        | read _ _ h1 => exact cl (h1 _)
        | swap a b k ha hb hab hk =>
          exact ⟨.one ha hb hab hk rfl, by rintro _ _ ⟨_, h, _⟩; cases h⟩
      | one ha hb hab hk hx => exact ⟨.two ha hb hab hk hx rfl, two_not_pend⟩
    | write e v =>
      have st : ∀ i q, i ≠ l₁.length → (l₁ ++ .write e v p' :: l₂)[i]? = some q → Mid F (Function.update sh.mem e v) q :=
        fun i q hi hq => Mid.store (c := ⟨sh, _⟩) HR hc hi ep rfl hq (h.mid i q hq)
      cases hmid with
      | clean h1 => cases h1
      | @two _ b _ y k ha hb hab hk hx hy =>
        -- nobody else is about to store to either address
        have na : ∀ (i : Nat) q y', i ≠ l₁.length → (l₁ ++ .write e v (.write b y k) :: l₂)[i]? = some q → ¬ Pend F q e y' := by
          rintro i q y' hi hq ⟨k', rfl, _⟩
          exact no_soon (c := ⟨sh, _⟩) HR hc hi ep rfl hq (.refl _ _) rfl
        have nb : ∀ (i : Nat) q y', i ≠ l₁.length → (l₁ ++ .write e v (.write b y k) :: l₂)[i]? = some q → ¬ Pend F q b y' := by
          rintro i q y' hi hq ⟨k', rfl, _⟩
          exact no_soon (c := ⟨sh, _⟩) HR hc (Ne.symm hi) hq rfl ep (.head (.write _ _ _ _) (.refl _ _)) rfl
        have ea : μ e = y := by
          rw [← hy]
          refine h.rest e fun i q y' hq => ?_
          rcases look' (p' := (.panic : Prog V Sp Unit)) (new := []) hq with ⟨_, rfl⟩ | ⟨hi, _⟩
          · exact two_not_pend _ _
          · exact na i q y' hi hq
        have eb : μ b = v := by
          rw [← hx]
          refine h.rest b fun i q y' hq => ?_
          rcases look' (p' := (.panic : Prog V Sp Unit)) (new := []) hq with ⟨_, rfl⟩ | ⟨hi, _⟩
          · exact two_not_pend _ _
          · exact nb i q y' hi hq
        refine ⟨Function.update (Function.update μ e v) b y, h.rp.trans ?_, fun i q hq => ?_, fun i q b' y' hq hp => ?_, fun d hd => ?_⟩
        · have := RP.swap (m := μ) ha hb
          rw [ea, eb] at this
          exact this
        · rcases look (p := .write e v (.write b y k)) hq with ⟨_, rfl⟩ | ⟨hi, h1⟩ | h1
          · exact .three hb hk
          · exact st i q hi h1
          · simp at h1
        · rcases look (p := .write e v (.write b y k)) hq with ⟨_, rfl⟩ | ⟨hi, h1⟩ | h1
          · obtain ⟨k', h2, _⟩ := hp
            simp only [Prog.write.injEq] at h2
            rw [← h2.1, ← h2.2.1, Function.update_self]
          · have n1 : b' ≠ e := by rintro rfl; exact na i q y' hi h1 hp
            have n2 : b' ≠ b := by rintro rfl; exact nb i q y' hi h1 hp
            rw [Function.update_of_ne n2, Function.update_of_ne n1]
            exact h.pend i q b' y' h1 hp
          · simp at h1
        · have hdb : d ≠ b := by
            rintro rfl
            exact hd l₁.length _ y (by simp) ⟨k, rfl, hk⟩
          rw [Function.update_of_ne hdb]
          by_cases hda : d = e
          · subst hda
            simp
          · rw [Function.update_of_ne hda]
            simp only [Function.update_of_ne hda]
            refine h.rest d fun i q y' hq hp => ?_
            rcases look' (p' := .write b y k) (new := []) hq with ⟨_, rfl⟩ | ⟨hi, h1⟩
            · exact two_not_pend _ _ hp
            · exact hd i q y' h1 hp
      | three hb hk =>
        refine ⟨μ, h.rp, fun i q hq => ?_, fun i q b' y' hq hp => ?_, fun d hd => ?_⟩
        · rcases look (p := .write e v p') hq with ⟨_, rfl⟩ | ⟨hi, h1⟩ | h1
          · exact .clean hk
          · exact st i q hi h1
          · simp at h1
        · rcases look (p := .write e v p') hq with ⟨_, rfl⟩ | ⟨hi, h1⟩ | h1
          · exact absurd hp (SwapsIn.not_pend hk _ _)
          · exact h.pend i q b' y' h1 hp
          · simp at h1
        · by_cases hde : d = e
          · subst hde
            simp only [Function.update_self]
            exact h.pend _ _ _ _ ep ⟨p', rfl, hk⟩
          · simp only [Function.update_of_ne hde]
            refine h.rest d fun i q y' hq hp => ?_
            rcases look' (p' := p') (new := []) hq with ⟨_, rfl⟩ | ⟨hi, h1⟩
            · obtain ⟨k', h2, _⟩ := hp
              simp only [Prog.write.injEq] at h2
              exact hde h2.1.symm
            · exact hd i q y' h1 hp
    | less i j x y k b hb =>
      refine ⟨μ, still rfl (fun b y => np b y (by simp)) ?_ (by simp)⟩
      cases hmid with | clean h1 => cases h1 with | less _ _ _ _ _ h1 => exact cl (h1 _)
    | maxGor k n =>
      refine ⟨μ, still rfl (fun b y => np b y (by simp)) ?_ (by simp)⟩
      cases hmid with | clean h1 => cases h1 with | maxGor _ h1 => exact cl (h1 _)
    | loadGor k n =>
      refine ⟨μ, still rfl (fun b y => np b y (by simp)) ?_ (by simp)⟩
      cases hmid with | clean h1 => cases h1 with | loadGor _ h1 => exact cl (h1 _)
    | incGor k =>
      refine ⟨μ, still rfl (fun b y => np b y (by simp)) ?_ (by simp)⟩
      cases hmid with | clean h1 => cases h1 with | incGor _ h1 => exact cl (h1 _)
    | decGor k =>
      refine ⟨μ, still rfl (fun b y => np b y (by simp)) ?_ (by simp)⟩
      cases hmid with | clean h1 => cases h1 with | decGor _ h1 => exact cl (h1 _)
    | loadNil => exact ⟨μ, still rfl (fun b y => np b y (by simp)) (cl .panic) (by simp)⟩
    | incNil => exact ⟨μ, still rfl (fun b y => np b y (by simp)) (cl .panic) (by simp)⟩
    | decNil => exact ⟨μ, still rfl (fun b y => np b y (by simp)) (cl .panic) (by simp)⟩
    | mkSync k =>
      refine ⟨μ, still rfl (fun b y => np b y (by simp)) ?_ (by simp)⟩
      cases hmid with | clean h1 => cases h1 with | mkSync _ h1 => exact cl h1
    | go s k =>
      refine ⟨μ, still rfl (fun b y => np b y (by simp)) ?_ (by simp)⟩
      cases hmid with | clean h1 => cases h1 with | go _ _ h1 => exact cl h1

/-- programs that only swap, without races: at any time the swaps in progress lead to an arrangement of the start -/
theorem Arr.reach {P : Par V Sp} {F : Set Nat} {p : Prog V Sp Unit} {m : Mem V} {c : Cfg V Sp} (HR : ∀ c, Reach P p m c → ¬ Race c)
    (hp : p.SwapsIn F) (hB : ∀ s, (P.body s).SwapsIn F) (hc : Reach P p m c) : ∃ μ, Arr F m c μ := by
  unfold Reach at hc HR
  generalize hs : start p m = c0 at hc HR
  induction hc with
  | refl =>
    subst hs
    have e : ∀ (i : Nat) q, (start p m : Cfg V Sp).ths[i]? = some q → q = p := by
      intro i q h
      cases i with
      | zero => simpa [start] using h.symm
      | succ i => simp [start] at h
    refine ⟨m, RP.refl _ _, fun i q hq => .clean (e i q hq ▸ hp), fun i q b y hq hb => ?_, fun _ _ => rfl⟩
    rw [e i q hq] at hb
    exact absurd hb (SwapsIn.not_pend hp _ _)
  | tail h1 h2 ih =>
    obtain ⟨μ, ih⟩ := ih
    exact ih.step HR hB h1 h2

theorem Arr.perm {F : Set Nat} {m : Mem V} {c : Cfg V Sp} {μ : Mem V} (h : Arr F m c μ) (hq : ∀ p ∈ c.ths, ∀ a, p.access ≠ some (a, true)) :
    c.sh.mem = μ := by
  funext a
  refine (h.rest a ?_).symm
  rintro i p y hp ⟨k, rfl, _⟩
  exact hq _ (List.mem_of_getElem? hp) a rfl

end Sorty
